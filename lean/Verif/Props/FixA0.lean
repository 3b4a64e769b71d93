import Verif.Mps.FixA0
import Verif.Mps.TruncErr
import Verif.Engine.Idmrg
import Verif.Props.OrthoTrunc
import Verif.Props.Idmrg
import Verif.Props.GradientStep

/-! # C111: the gauges of lattice-cMPS tensors -/

namespace PyTeN.FixA0
open Finset Idmrg

noncomputable section

/-! ## Specification -/

/-- Spec: the component 0 of `t` is an invertible matrix of size `D`, with inverse `B`. -/
structure Inverse (D : ℕ) (t : Ten ℂ) (B : ℕ → ℕ → ℂ) : Prop where
  left : ∀ i < D, ∀ j < D, ∑ k ∈ range D, B i k * t.v k j 0 = delta ℂ i j
  right : ∀ i < D, ∀ j < D, ∑ k ∈ range D, t.v i k 0 * B k j = delta ℂ i j

/-- Spec: `t = c·a·m` with `a` left-orthonormal. -/
structure SplitR (c : ℂ) (t a : Ten ℂ) (m : Mat ℂ) : Prop where
  al : a.l = t.l
  ar : a.r = t.r
  ad : a.d = t.d
  mr : m.r = t.r
  mc : m.c = t.r
  orth : LeftOrth a
  prod : ∀ i < t.l, ∀ j < t.r, ∀ s < t.d, t.v i j s = c * ∑ k ∈ range t.r, a.v i k s * m.v k j

/-- Spec: `t = c·m·a` with `a` right-orthonormal. -/
structure SplitL (c : ℂ) (t a : Ten ℂ) (m : Mat ℂ) : Prop where
  al : a.l = t.l
  ar : a.r = t.r
  ad : a.d = t.d
  mr : m.r = t.l
  mc : m.c = t.l
  orth : RightOrth a
  prod : ∀ i < t.l, ∀ j < t.r, ∀ s < t.d, t.v i j s = c * ∑ k ∈ range t.l, m.v i k * a.v k j s

/-! ## The factorisation -/

theorem QRSpec.normF_eq {A q r : Mat ℂ} (h : QRSpec A q r) : normF r = normF A := by
  unfold normF
  congr 1
  rw [h.r_r, h.r_c, sum_comm, sum_comm (s := range A.r)]
  refine sum_congr rfl fun j hj => ?_
  rw [← iso_normSq A.r _ q.v (fun k => r.v k j) h.iso]
  exact sum_congr rfl fun i hi => by rw [h.prod i (mem_range.1 hi) j (mem_range.1 hj)]

/-- The squared norm of a tensor. -/
def size (t : Ten ℂ) : ℝ := ∑ s ∈ range t.d, ∑ i ∈ range t.l, ∑ j ∈ range t.r, Complex.normSq (t.v i j s)

theorem prepG_right {O : LinAlg} (hO : O.Spec) {t : Ten ℂ} {dir : ℤ} (hd : 0 < dir) (hl : t.l ≠ 0) (hr : t.r ≠ 0) (hn : t.d ≠ 0) :
    ∃ a m, prepareTensorG O t dir = .ok (a, m) ∧ a.l = t.l ∧ a.d = t.d ∧ a.r = min (t.d * t.l) t.r ∧ m.r = min (t.d * t.l) t.r
      ∧ m.c = t.r ∧ LeftOrth a
      ∧ (∀ i < t.l, ∀ j < t.r, ∀ s < t.d, t.v i j s = ∑ k ∈ range (min (t.d * t.l) t.r), a.v i k s * m.v k j)
      ∧ (∀ k < t.l, ∃ p : ℝ, 0 ≤ p ∧ a.v k k 0 = p) ∧ normF m ^ 2 = size t := by
  have hq := (hO.qr t.rowMat).fix .q
  have hrow : t.rowMat.r = t.d * t.l := rfl
  have hcol : t.rowMat.c = t.r := rfl
  have hrun : prepareTensorG O t dir = .ok (⟨t.l, (fixQR .q (O.qr t.rowMat).1 (O.qr t.rowMat).2).1.c, t.d,
      fun i k s => (fixQR .q (O.qr t.rowMat).1 (O.qr t.rowMat).2).1.v (s * t.l + i) k⟩, (fixQR .q (O.qr t.rowMat).1 (O.qr t.rowMat).2).2) := by
    unfold prepareTensorG; rw [if_neg (by omega), if_neg (by simp [hl, hr, hn]), if_pos hd]
  refine ⟨_, _, hrun, rfl, rfl, hq.q_c, hq.r_r, hq.r_c, ?_, ?_, ?_, ?_⟩
  · intro j hj j' hj'
    have := hq.iso j (by rw [← hq.q_c]; exact hj) j' (by rw [← hq.q_c]; exact hj')
    rw [hrow, sum_range_mul] at this
    exact this
  · intro i hi j hj s hs
    have := hq.prod (s * t.l + i) (by rw [hrow]; exact idx_lt hs hi) j (by rw [hcol]; exact hj)
    have hA : t.rowMat.v (s * t.l + i) j = t.v i j s := by
      simp [Ten.rowMat, idx_div hi, idx_mod hi]
    rw [hA] at this
    exact this.symm
  · intro k _
    refine ⟨_, norm_nonneg ((O.qr t.rowMat).1.v k k), ?_⟩
    dsimp only [fixQR]
    rw [zero_mul, zero_add, mul_comm, Ortho.unphase_mul]
  · rw [QRSpec.normF_eq hq, normF_sq, hrow, hcol, sum_range_mul, size]
    refine sum_congr rfl fun s _ => sum_congr rfl fun i hi => sum_congr rfl fun j _ => ?_
    simp [Ten.rowMat, idx_div (mem_range.1 hi), idx_mod (mem_range.1 hi)]

theorem prepG_left {O : LinAlg} (hO : O.Spec) {t : Ten ℂ} {dir : ℤ} (hd : dir < 0) (hl : t.l ≠ 0) (hr : t.r ≠ 0) (hn : t.d ≠ 0) :
    ∃ a m, prepareTensorG O t dir = .ok (a, m) ∧ a.r = t.r ∧ a.d = t.d ∧ a.l = min (t.d * t.r) t.l ∧ m.c = min (t.d * t.r) t.l
      ∧ m.r = t.l ∧ RightOrth a
      ∧ (∀ i < t.l, ∀ j < t.r, ∀ s < t.d, t.v i j s = ∑ k ∈ range (min (t.d * t.r) t.l), m.v i k * a.v k j s)
      ∧ (∀ k < t.r, ∃ p : ℝ, 0 ≤ p ∧ a.v k k 0 = p) ∧ normF m ^ 2 = size t := by
  have hq := (hO.qr t.colMatH).fix .q
  have hrow : t.colMatH.r = t.d * t.r := rfl
  have hcol : t.colMatH.c = t.l := rfl
  have hrun : prepareTensorG O t dir = .ok (⟨(fixQR .q (O.qr t.colMatH).1 (O.qr t.colMatH).2).1.c, t.r, t.d,
      fun k j s => star ((fixQR .q (O.qr t.colMatH).1 (O.qr t.colMatH).2).1.v (s * t.r + j) k)⟩,
      ⟨(fixQR .q (O.qr t.colMatH).1 (O.qr t.colMatH).2).2.c, (fixQR .q (O.qr t.colMatH).1 (O.qr t.colMatH).2).2.r,
        fun i k => star ((fixQR .q (O.qr t.colMatH).1 (O.qr t.colMatH).2).2.v k i)⟩) := by
    unfold prepareTensorG; rw [if_neg (by omega), if_neg (by simp [hl, hr, hn]), if_neg (by omega)]
  refine ⟨_, _, hrun, rfl, rfl, hq.q_c, hq.r_r, hq.r_c, ?_, ?_, ?_, ?_⟩
  · intro j hj j' hj'
    have := hq.iso j (by rw [← hq.q_c]; exact hj) j' (by rw [← hq.q_c]; exact hj')
    rw [hrow, sum_range_mul] at this
    simpa using this
  · intro i hi j hj s hs
    have := hq.prod (s * t.r + j) (by rw [hrow]; exact idx_lt hs hj) i (by rw [hcol]; exact hi)
    have hA : t.colMatH.v (s * t.r + j) i = star (t.v i j s) := by
      simp [Ten.colMatH, idx_div hj, idx_mod hj]
    rw [hA] at this
    rw [← star_star (t.v i j s), ← this, star_sum]
    refine sum_congr rfl fun k _ => ?_
    rw [star_mul, mul_comm]
  · intro k _
    refine ⟨_, norm_nonneg ((O.qr t.colMatH).1.v k k), ?_⟩
    dsimp only [fixQR]
    rw [zero_mul, zero_add, mul_comm, Ortho.unphase_mul]
    simp
  · have e : normF (⟨(fixQR .q (O.qr t.colMatH).1 (O.qr t.colMatH).2).2.c, (fixQR .q (O.qr t.colMatH).1 (O.qr t.colMatH).2).2.r,
        fun i k => star ((fixQR .q (O.qr t.colMatH).1 (O.qr t.colMatH).2).2.v k i)⟩ : Mat ℂ)
        = normF (fixQR .q (O.qr t.colMatH).1 (O.qr t.colMatH).2).2 := by
      unfold normF
      dsimp only
      rw [sum_comm]
      simp only [Complex.star_def, Complex.normSq_conj]
    rw [e, QRSpec.normF_eq hq, normF_sq, hrow, hcol, sum_range_mul, size]
    refine sum_congr rfl fun s _ => ?_
    rw [sum_comm]
    refine sum_congr rfl fun i _ => sum_congr rfl fun j hj => ?_
    simp [Ten.colMatH, idx_div (mem_range.1 hj), idx_mod (mem_range.1 hj), Complex.normSq_conj]

theorem prepR_of_G {O : LinAlg} {t a : Ten ℂ} {m : Mat ℂ} (h : prepareTensorG O t 1 = .ok (a, m)) :
    prepareTensor O t 1 .q = if normF m = 0 then .error .nan else .ok (a, m.divR (normF m), normF m) := by
  unfold prepareTensorG at h
  rw [if_neg (by omega)] at h
  split at h
  · cases h
  rw [if_pos (by omega)] at h
  simp only [Except.ok.injEq, Prod.mk.injEq] at h
  obtain ⟨rfl, rfl⟩ := h
  simp [prepareTensor, prepareTensorR]

theorem prepL_of_G {O : LinAlg} {t a : Ten ℂ} {m : Mat ℂ} (h : prepareTensorG O t (-1) = .ok (a, m)) :
    prepareTensor O t (-1) .q = if normF m = 0 then .error .nan else .ok (a, m.divR (normF m), normF m) := by
  unfold prepareTensorG at h
  rw [if_neg (by omega)] at h
  split at h
  · cases h
  rw [if_neg (by omega)] at h
  simp only [Except.ok.injEq, Prod.mk.injEq] at h
  obtain ⟨rfl, rfl⟩ := h
  simp [prepareTensor, prepareTensorL]


/-! ## The tensor with the identity -/

theorem split_right {O : LinAlg} (hO : O.Spec) {pinv : Mat ℂ → Mat ℂ} {t : Ten ℂ} {D : ℕ} (hl : t.l = D) (hr : t.r = D) (hD : 0 < D)
    (hd : 2 ≤ t.d) : ∃ a r, prepareTensorG O (scaled true pinv t) 1 = .ok (a, r) ∧ a.l = D ∧ a.r = D ∧ a.d = t.d ∧ r.r = D ∧ r.c = D ∧ LeftOrth a
      ∧ (∀ i < D, ∀ j < D, ∀ s < t.d, ∑ k ∈ range D, a.v i k s * (r.dot (part t 0)).v k j = ∑ x ∈ range D, (scaled true pinv t).v i x s * t.v x j 0)
      ∧ (∀ k < D, ∃ p : ℝ, 0 ≤ p ∧ a.v k k 0 = p) ∧ normF r ^ 2 = size (scaled true pinv t) := by
  have e : min (t.d * D) D = D := min_eq_right (Nat.le_mul_of_pos_left D (by omega))
  obtain ⟨a, r, h1, h2, h3, h4, h5, h6, h7, h8, h9, h10⟩ := prepG_right hO (t := scaled true pinv t) (dir := 1) one_pos
    (by simp only [scaled]; omega) (by simp only [scaled]; omega) (by simp only [scaled]; omega)
  simp only [scaled, hl, hr, e] at h2 h3 h4 h5 h6
  refine ⟨a, r, h1, h2, h4, h3, h5, h6, h7, ?_, by rw [hl.symm]; exact h9, h10⟩
  intro i hi j hj s hs
  have h8' : ∀ x < D, (scaled true pinv t).v i x s = ∑ k ∈ range D, a.v i k s * r.v k x := by
    intro x hx
    have := h8 i (by simp only [scaled]; omega) x (by simp only [scaled]; omega) s hs
    rw [this]
    simp only [scaled, hl, hr, e]
  symm
  rw [sum_congr rfl fun x hx => by rw [h8' x (mem_range.1 hx)]]
  simp only [Mat.dot, part, h6, mul_sum, sum_mul]
  rw [sum_comm]
  exact sum_congr rfl fun _ _ => sum_congr rfl fun _ _ => by ring

theorem split_left {O : LinAlg} (hO : O.Spec) {pinv : Mat ℂ → Mat ℂ} {t : Ten ℂ} {D : ℕ} (hl : t.l = D) (hr : t.r = D) (hD : 0 < D)
    (hd : 2 ≤ t.d) : ∃ a r, prepareTensorG O (scaled false pinv t) (-1) = .ok (a, r) ∧ a.l = D ∧ a.r = D ∧ a.d = t.d ∧ r.r = D ∧ r.c = D ∧ RightOrth a
      ∧ (∀ i < D, ∀ j < D, ∀ s < t.d, ∑ k ∈ range D, ((part t 0).dot r).v i k * a.v k j s = ∑ x ∈ range D, t.v i x 0 * (scaled false pinv t).v x j s)
      ∧ (∀ k < D, ∃ p : ℝ, 0 ≤ p ∧ a.v k k 0 = p) ∧ normF r ^ 2 = size (scaled false pinv t) := by
  have e : min (t.d * D) D = D := min_eq_right (Nat.le_mul_of_pos_left D (by omega))
  obtain ⟨a, r, h1, h2, h3, h4, h5, h6, h7, h8, h9, h10⟩ := prepG_left hO (t := scaled false pinv t) (dir := -1) (by omega)
    (by simp only [scaled]; omega) (by simp only [scaled]; omega) (by simp only [scaled]; omega)
  simp only [scaled, hl, hr, e] at h2 h3 h4 h5 h6
  refine ⟨a, r, h1, h4, h2, h3, h6, h5, h7, ?_, by rw [hr.symm]; exact h9, h10⟩
  intro i hi j hj s hs
  have h8' : ∀ x < D, (scaled false pinv t).v x j s = ∑ k ∈ range D, r.v x k * a.v k j s := by
    intro x hx
    have := h8 x (by simp only [scaled]; omega) j (by simp only [scaled]; omega) s hs
    rw [this]
    simp only [scaled, hl, hr, e]
  symm
  rw [sum_congr rfl fun x hx => by rw [h8' x (mem_range.1 hx)]]
  simp only [Mat.dot, part, hr, mul_sum, sum_mul]
  rw [sum_comm]
  exact sum_congr rfl fun _ _ => sum_congr rfl fun _ _ => by ring

/-- The pseudo-inverse of an invertible matrix is the inverse. -/
theorem pinv_eq {pinv : Mat ℂ → Mat ℂ} (hp : ∀ A, PinvSpec A (pinv A)) {t : Ten ℂ} {D : ℕ} (hl : t.l = D) (hr : t.r = D)
    {B : ℕ → ℕ → ℂ} (hB : Inverse D t B) : ∀ i < D, ∀ j < D, (pinv (part t 0)).v i j = B i j := by
  have h1 := (hp (part t 0)).one
  have c1 : (part t 0).r = D := hl
  have c2 : (part t 0).c = D := hr
  rw [c1, c2] at h1
  generalize (pinv (part t 0)).v = P at h1
  simp only [part] at h1
  intro i hi j hj
  -- B A P A B = B A B
  have e1 : ∑ x ∈ range D, ∑ y ∈ range D, B i x * (∑ k ∈ range D, ∑ k' ∈ range D, t.v x k 0 * P k k' * t.v k' y 0) * B y j
      = ∑ x ∈ range D, ∑ y ∈ range D, B i x * t.v x y 0 * B y j :=
    sum_congr rfl fun x hx => sum_congr rfl fun y hy => by rw [h1 x (mem_range.1 hx) y (mem_range.1 hy)]
  have e2 : ∑ x ∈ range D, ∑ y ∈ range D, B i x * t.v x y 0 * B y j = B i j := by
    rw [sum_comm, ← sum_delta_left hi (fun y => B y j)]
    refine sum_congr rfl fun y hy => ?_
    rw [← sum_mul, hB.left i hi y (mem_range.1 hy)]
  have e3 : ∑ x ∈ range D, ∑ y ∈ range D, B i x * (∑ k ∈ range D, ∑ k' ∈ range D, t.v x k 0 * P k k' * t.v k' y 0) * B y j
      = ∑ k ∈ range D, ∑ k' ∈ range D, (∑ x ∈ range D, B i x * t.v x k 0) * P k k' * (∑ y ∈ range D, t.v k' y 0 * B y j) := by
    simp only [mul_sum, sum_mul]
    rw [sum_comm]
    calc _ = ∑ y ∈ range D, ∑ k ∈ range D, ∑ k' ∈ range D, ∑ x ∈ range D, B i x * (t.v x k 0 * P k k' * t.v k' y 0) * B y j := by
          refine sum_congr rfl fun y _ => ?_
          rw [sum_comm]
          refine sum_congr rfl fun k _ => ?_
          rw [sum_comm]
      _ = ∑ k ∈ range D, ∑ k' ∈ range D, ∑ y ∈ range D, ∑ x ∈ range D, B i x * (t.v x k 0 * P k k' * t.v k' y 0) * B y j := by
          rw [sum_comm]
          refine sum_congr rfl fun k _ => ?_
          rw [sum_comm]
      _ = _ := by
          refine sum_congr rfl fun k _ => sum_congr rfl fun k' _ => sum_congr rfl fun y _ => sum_congr rfl fun x _ => by ring
  rw [e3, e2] at e1
  rw [← e1]
  symm
  rw [sum_congr rfl fun k hk => by
    rw [sum_congr rfl fun k' hk' => by rw [hB.left i hi k (mem_range.1 hk), hB.right k' (mem_range.1 hk') j hj]]]
  simp only [mul_assoc, ← mul_sum]
  rw [sum_delta_left hi, sum_delta_right hj]

theorem scaled_right {pinv : Mat ℂ → Mat ℂ} (hp : ∀ A, PinvSpec A (pinv A)) {t : Ten ℂ} {D : ℕ} (hl : t.l = D) (hr : t.r = D)
    {B : ℕ → ℕ → ℂ} (hB : Inverse D t B) {i j : ℕ} (hj : j < D) :
    (scaled true pinv t).v i j 1 = ∑ k ∈ range D, t.v i k 1 * B k j := by
  have hc : (part t 1).c = D := hr
  simp only [scaled, one_ne_zero, if_false, if_true, Mat.dot, hc]
  exact sum_congr rfl fun k hk => by rw [← pinv_eq hp hl hr hB k (mem_range.1 hk) j hj]; rfl

theorem scaled_left {pinv : Mat ℂ → Mat ℂ} (hp : ∀ A, PinvSpec A (pinv A)) {t : Ten ℂ} {D : ℕ} (hl : t.l = D) (hr : t.r = D)
    {B : ℕ → ℕ → ℂ} (hB : Inverse D t B) {i j : ℕ} (hi : i < D) :
    (scaled false pinv t).v i j 1 = ∑ k ∈ range D, B i k * t.v k j 1 := by
  have hc : (pinv (part t 0)).c = D := (hp _).c.trans hl
  simp only [scaled, one_ne_zero, if_false, if_true, Mat.dot, hc, Bool.false_eq_true]
  exact sum_congr rfl fun k hk => by rw [← pinv_eq hp hl hr hB i hi k (mem_range.1 hk)]; rfl

/-- What is left of the input when the component 0 is put back. -/
theorem back_right {pinv : Mat ℂ → Mat ℂ} (hp : ∀ A, PinvSpec A (pinv A)) {t : Ten ℂ} {D : ℕ} (hl : t.l = D) (hr : t.r = D)
    {B : ℕ → ℕ → ℂ} (hB : Inverse D t B) {i j s : ℕ} (hi : i < D) (hj : j < D) :
    ∑ x ∈ range D, (scaled true pinv t).v i x s * t.v x j 0 = if s ≤ 1 then t.v i j s else 0 := by
  by_cases h0 : s = 0
  · subst h0; simp only [scaled, if_true, zero_le_one]; exact sum_delta_left hi _
  by_cases h1 : s = 1
  · subst h1
    rw [if_pos le_rfl, sum_congr rfl fun x hx => by rw [scaled_right hp hl hr hB (mem_range.1 hx), sum_mul]]
    rw [sum_comm, ← sum_delta_right hj (fun k => t.v i k 1)]
    refine sum_congr rfl fun k hk => ?_
    rw [← hB.left k (mem_range.1 hk) j hj, mul_sum]
    exact sum_congr rfl fun _ _ => by ring
  · rw [if_neg (by omega)]; simp [scaled, h0, h1]

theorem back_left {pinv : Mat ℂ → Mat ℂ} (hp : ∀ A, PinvSpec A (pinv A)) {t : Ten ℂ} {D : ℕ} (hl : t.l = D) (hr : t.r = D)
    {B : ℕ → ℕ → ℂ} (hB : Inverse D t B) {i j s : ℕ} (hi : i < D) (hj : j < D) :
    ∑ x ∈ range D, t.v i x 0 * (scaled false pinv t).v x j s = if s ≤ 1 then t.v i j s else 0 := by
  by_cases h0 : s = 0
  · subst h0; simp only [scaled, if_true, zero_le_one]; exact sum_delta_right hj _
  by_cases h1 : s = 1
  · subst h1
    rw [if_pos le_rfl, sum_congr rfl fun x hx => by rw [scaled_left hp hl hr hB (mem_range.1 hx), mul_sum]]
    rw [sum_comm, ← sum_delta_left hi (fun k => t.v k j 1)]
    refine sum_congr rfl fun k hk => ?_
    rw [← hB.right i hi k (mem_range.1 hk), sum_mul]
    exact sum_congr rfl fun _ _ => by ring
  · rw [if_neg (by omega)]; simp [scaled, h0, h1]

/-- Two components: the norm of the tensor with the identity. -/
theorem size_two {t : Ten ℂ} {D : ℕ} {right : Bool} {pinv : Mat ℂ → Mat ℂ} (hl : t.l = D) (hr : t.r = D) (hd : t.d = 2) :
    size (scaled right pinv t) = D + ∑ i ∈ range D, ∑ j ∈ range D, Complex.normSq ((scaled right pinv t).v i j 1) := by
  have e1 : (scaled right pinv t).l = D := hl
  have e2 : (scaled right pinv t).r = D := hr
  have e3 : (scaled right pinv t).d = 2 := hd
  rw [size, e1, e2, e3, sum_range_succ, sum_range_one]
  congr 1
  have : ∀ i ∈ range D, ∑ j ∈ range D, Complex.normSq ((scaled right pinv t).v i j 0) = 1 := by
    intro i hi
    simp only [scaled, if_true]
    rw [sum_eq_single i]
    · simp
    · intro b _ hb; simp [delta_ne (Ne.symm hb)]
    · intro h; exact absurd hi h
  rw [sum_congr rfl this]; simp


theorem refuse_none {t : Ten ℂ} {D : ℕ} (hl : t.l = D) (hr : t.r = D) (hD : 0 < D) (hd : 2 ≤ t.d) :
    ¬(t.l = 0 ∨ t.r = 0 ∨ t.d = 0) ∧ refuse t = none := by
  have h1 : ¬(t.l = 0 ∨ t.r = 0 ∨ t.d = 0) := by omega
  refine ⟨h1, ?_⟩
  rw [refuse, if_neg h1, if_neg (by omega), if_neg (by omega)]

theorem size_pos {t : Ten ℂ} {D : ℕ} {right : Bool} {pinv : Mat ℂ → Mat ℂ} (hl : t.l = D) (hr : t.r = D) (hD : 0 < D) (hd : 2 ≤ t.d) :
    0 < size (scaled right pinv t) := by
  have e1 : (scaled right pinv t).l = D := hl
  have e2 : (scaled right pinv t).r = D := hr
  have e3 : (scaled right pinv t).d = t.d := rfl
  rw [size, e1, e2, e3]
  have n : ∀ s ∈ range t.d, 0 ≤ ∑ i ∈ range D, ∑ j ∈ range D, Complex.normSq ((scaled right pinv t).v i j s) :=
    fun _ _ => sum_nonneg fun _ _ => sum_nonneg fun _ _ => Complex.normSq_nonneg _
  refine lt_of_lt_of_le ?_ (single_le_sum n (mem_range.2 (show 0 < t.d by omega)))
  refine lt_of_lt_of_le ?_ (single_le_sum (fun _ _ => sum_nonneg fun _ _ => Complex.normSq_nonneg _) (mem_range.2 hD))
  refine lt_of_lt_of_le ?_ (single_le_sum (fun _ _ => Complex.normSq_nonneg _) (mem_range.2 hD))
  simp [scaled]

/-- The general result of `prepareTensorfixA0` to the right. -/
theorem fixA0_right {O : LinAlg} (hO : O.Spec) {pinv : Mat ℂ → Mat ℂ} {t : Ten ℂ} {D : ℕ} {dir : ℤ} (hdir : 0 < dir)
    (hl : t.l = D) (hr : t.r = D) (hD : 0 < D) (hd : 2 ≤ t.d) : ∃ (a : Ten ℂ) (m : Mat ℂ) (Z : ℝ),
      prepareTensorfixA0 O pinv t dir = .ok (some (a, m)) ∧ 0 < Z ∧ Z ^ 2 = size (scaled true pinv t) ∧ a.l = D ∧ a.r = D ∧ a.d = t.d
      ∧ m.r = D ∧ m.c = D ∧ LeftOrth a
      ∧ (∀ i < D, ∀ j < D, ∀ s < t.d, (Z : ℂ) * ∑ k ∈ range D, a.v i k s * m.v k j = ∑ x ∈ range D, (scaled true pinv t).v i x s * t.v x j 0)
      ∧ (∀ k < D, ∃ p : ℝ, 0 ≤ p ∧ a.v k k 0 = p) := by
  obtain ⟨a, r, h1, h2, h3, h4, h5, h6, h7, h8, h9, h10⟩ := split_right hO (pinv := pinv) hl hr hD hd
  obtain ⟨n1, n2⟩ := refuse_none hl hr hD hd
  have hZ : 0 < normF r := by
    have := size_pos (right := true) (pinv := pinv) hl hr hD hd
    rw [← h10] at this
    exact lt_of_le_of_ne (normF_nonneg r) (fun h => by rw [← h] at this; norm_num at this)
  refine ⟨a, (r.divR (normF r)).dot (part t 0), normF r, ?_, hZ, h10, h2, h3, h4, h5, hr, h7, ?_, h9⟩
  · unfold prepareTensorfixA0
    rw [if_neg n1, if_neg (by omega), n2]
    dsimp only
    rw [if_pos hdir, prepR_of_G h1, if_neg hZ.ne']
  · intro i hi j hj s hs
    rw [← h8 i hi j hj s hs, mul_sum]
    refine sum_congr rfl fun k _ => ?_
    have hc : (normF r : ℂ) ≠ 0 := by exact_mod_cast hZ.ne'
    simp only [Mat.dot, Mat.divR, mul_sum]
    refine sum_congr rfl fun x _ => ?_
    field_simp

/-- The general result of `prepareTensorfixA0` to the left. -/
theorem fixA0_left {O : LinAlg} (hO : O.Spec) {pinv : Mat ℂ → Mat ℂ} {t : Ten ℂ} {D : ℕ} {dir : ℤ} (hdir : dir < 0)
    (hl : t.l = D) (hr : t.r = D) (hD : 0 < D) (hd : 2 ≤ t.d) : ∃ (a : Ten ℂ) (m : Mat ℂ) (Z : ℝ),
      prepareTensorfixA0 O pinv t dir = .ok (some (a, m)) ∧ 0 < Z ∧ Z ^ 2 = size (scaled false pinv t) ∧ a.l = D ∧ a.r = D ∧ a.d = t.d
      ∧ m.r = D ∧ m.c = D ∧ RightOrth a
      ∧ (∀ i < D, ∀ j < D, ∀ s < t.d, (Z : ℂ) * ∑ k ∈ range D, m.v i k * a.v k j s = ∑ x ∈ range D, t.v i x 0 * (scaled false pinv t).v x j s)
      ∧ (∀ k < D, ∃ p : ℝ, 0 ≤ p ∧ a.v k k 0 = p) := by
  obtain ⟨a, r, h1, h2, h3, h4, h5, h6, h7, h8, h9, h10⟩ := split_left hO (pinv := pinv) hl hr hD hd
  obtain ⟨n1, n2⟩ := refuse_none hl hr hD hd
  have hZ : 0 < normF r := by
    have := size_pos (right := false) (pinv := pinv) hl hr hD hd
    rw [← h10] at this
    exact lt_of_le_of_ne (normF_nonneg r) (fun h => by rw [← h] at this; norm_num at this)
  refine ⟨a, (part t 0).dot (r.divR (normF r)), normF r, ?_, hZ, h10, h2, h3, h4, hl, h6, h7, ?_, h9⟩
  · unfold prepareTensorfixA0
    rw [if_neg n1, if_neg (by omega), n2]
    dsimp only
    rw [if_neg (by omega), prepL_of_G h1, if_neg hZ.ne']
  · intro i hi j hj s hs
    rw [← h8 i hi j hj s hs, mul_sum]
    refine sum_congr rfl fun k _ => ?_
    have hc : (normF r : ℂ) ≠ 0 := by exact_mod_cast hZ.ne'
    simp only [Mat.dot, Mat.divR, mul_sum, sum_mul]
    refine sum_congr rfl fun x _ => ?_
    field_simp

/-! ## C111 -/

/-- **C111.** `prepareTensorfixA0(mps,direction>0)` of `mpsfunctions.py` on a tensor with two components and an invertible component 0:
`tensor` is left-orthonormal with real diagonal in the component 0, and `mps = Z·tensor·matout` with
`Z² = D + ‖mps[:,:,1]·inv(mps[:,:,0])‖²`.  The number `Z` is not returned. -/
theorem C111_fixA0_right {O : LinAlg} (hO : O.Spec) {pinv : Mat ℂ → Mat ℂ} (hp : ∀ A, PinvSpec A (pinv A)) {t : Ten ℂ} {D : ℕ}
    {dir : ℤ} (hdir : 0 < dir) (hl : t.l = D) (hr : t.r = D) (hD : 0 < D) (hd : t.d = 2) {B : ℕ → ℕ → ℂ} (hB : Inverse D t B) :
    ∃ (a : Ten ℂ) (m : Mat ℂ) (Z : ℝ), prepareTensorfixA0 O pinv t dir = .ok (some (a, m)) ∧ 0 < Z
      ∧ Z ^ 2 = D + ∑ i ∈ range D, ∑ j ∈ range D, Complex.normSq (∑ k ∈ range D, t.v i k 1 * B k j)
      ∧ SplitR Z t a m ∧ (∀ k < D, ∃ p : ℝ, 0 ≤ p ∧ a.v k k 0 = p) := by
  obtain ⟨a, m, Z, h1, h2, h3, h4, h5, h6, h7, h8, h9, h10, h11⟩ := fixA0_right hO (pinv := pinv) hdir hl hr hD (by omega)
  refine ⟨a, m, Z, h1, h2, ?_, ⟨h4.trans hl.symm, h5.trans hr.symm, h6, h7.trans hr.symm, h8.trans hr.symm, h9, ?_⟩, h11⟩
  · rw [h3, size_two hl hr hd]
    congr 1
    exact sum_congr rfl fun i _ => sum_congr rfl fun j hj => by rw [scaled_right hp hl hr hB (mem_range.1 hj)]
  · rw [hl, hr]
    intro i hi j hj s hs
    rw [h10 i hi j hj s hs, back_right hp hl hr hB hi hj, if_pos (by omega)]

/-- **C111.** `prepareTensorfixA0(mps,direction<0)`: `mps = Z·matout·tensor` with a right-orthonormal `tensor` and
`Z² = D + ‖inv(mps[:,:,0])·mps[:,:,1]‖²`. -/
theorem C111_fixA0_left {O : LinAlg} (hO : O.Spec) {pinv : Mat ℂ → Mat ℂ} (hp : ∀ A, PinvSpec A (pinv A)) {t : Ten ℂ} {D : ℕ}
    {dir : ℤ} (hdir : dir < 0) (hl : t.l = D) (hr : t.r = D) (hD : 0 < D) (hd : t.d = 2) {B : ℕ → ℕ → ℂ} (hB : Inverse D t B) :
    ∃ (a : Ten ℂ) (m : Mat ℂ) (Z : ℝ), prepareTensorfixA0 O pinv t dir = .ok (some (a, m)) ∧ 0 < Z
      ∧ Z ^ 2 = D + ∑ i ∈ range D, ∑ j ∈ range D, Complex.normSq (∑ k ∈ range D, B i k * t.v k j 1)
      ∧ SplitL Z t a m ∧ (∀ k < D, ∃ p : ℝ, 0 ≤ p ∧ a.v k k 0 = p) := by
  obtain ⟨a, m, Z, h1, h2, h3, h4, h5, h6, h7, h8, h9, h10, h11⟩ := fixA0_left hO (pinv := pinv) hdir hl hr hD (by omega)
  refine ⟨a, m, Z, h1, h2, ?_, ⟨h4.trans hl.symm, h5.trans hr.symm, h6, h7.trans hl.symm, h8.trans hl.symm, h9, ?_⟩, h11⟩
  · rw [h3, size_two hl hr hd]
    congr 1
    exact sum_congr rfl fun i hi => sum_congr rfl fun j _ => by rw [scaled_left hp hl hr hB (mem_range.1 hi)]
  · rw [hl, hr]
    intro i hi j hj s hs
    rw [h10 i hi j hj s hs, back_left hp hl hr hB hi hj, if_pos (by omega)]

theorem Inverse.ne_zero {D : ℕ} {t : Ten ℂ} {B : ℕ → ℕ → ℂ} (h : Inverse D t B) (hD : 0 < D) : ∃ i < D, ∃ j < D, t.v i j 0 ≠ 0 := by
  by_contra hc
  push Not at hc
  have := h.right 0 hD 0 hD
  rw [sum_eq_zero fun k hk => by rw [hc 0 hD k (mem_range.1 hk), zero_mul]] at this
  simp [delta] at this

/-- **C111, violated.** With two or more states on the bond the tensor and the matrix returned by `prepareTensorfixA0` of `mpsfunctions.py` never give back the input: the norm is lost. -/
theorem C111_violated_norm {O : LinAlg} (hO : O.Spec) {pinv : Mat ℂ → Mat ℂ} (hp : ∀ A, PinvSpec A (pinv A)) {t a : Ten ℂ} {m : Mat ℂ}
    {D : ℕ} {dir : ℤ} (hl : t.l = D) (hr : t.r = D) (hD : 2 ≤ D) (hd : t.d = 2) {B : ℕ → ℕ → ℂ}
    (hB : Inverse D t B) (h : prepareTensorfixA0 O pinv t dir = .ok (some (a, m))) :
    (0 < dir → ¬SplitR 1 t a m) ∧ (dir < 0 → ¬SplitL 1 t a m) := by
  obtain ⟨i, hi, j, hj, hn⟩ := hB.ne_zero (by omega)
  have key : ∀ {Z N : ℝ} {c : ℂ}, 0 ≤ N → Z ^ 2 = (D : ℝ) + N → t.v i j 0 = (Z : ℂ) * c → t.v i j 0 = 1 * c → False := by
    intro Z N c hN h1 h2 h3
    have h4 : ((Z : ℂ) - 1) * c = 0 := by rw [sub_mul, ← h2, ← h3, sub_self]
    rcases mul_eq_zero.1 h4 with h5 | h5
    · have : Z = 1 := by exact_mod_cast sub_eq_zero.1 h5
      have hD' : (2 : ℝ) ≤ D := by exact_mod_cast hD
      rw [this] at h1; linarith
    · rw [h5, mul_zero] at h3; exact hn h3
  constructor
  · intro hdir S
    obtain ⟨a', m', Z, h1, -, h3, h4, -⟩ := C111_fixA0_right hO hp hdir hl hr (by omega) hd hB
    rw [h1] at h
    simp only [Except.ok.injEq, Option.some.injEq, Prod.mk.injEq] at h
    obtain ⟨rfl, rfl⟩ := h
    exact key (sum_nonneg fun _ _ => sum_nonneg fun _ _ => Complex.normSq_nonneg _) h3 (h4.prod i (by omega) j (by omega) 0 (by omega))
      (S.prod i (by omega) j (by omega) 0 (by omega))
  · intro hdir S
    obtain ⟨a', m', Z, h1, -, h3, h4, -⟩ := C111_fixA0_left hO hp hdir hl hr (by omega) hd hB
    rw [h1] at h
    simp only [Except.ok.injEq, Option.some.injEq, Prod.mk.injEq] at h
    obtain ⟨rfl, rfl⟩ := h
    exact key (sum_nonneg fun _ _ => sum_nonneg fun _ _ => Complex.normSq_nonneg _) h3 (h4.prod i (by omega) j (by omega) 0 (by omega))
      (S.prod i (by omega) j (by omega) 0 (by omega))


/-! ## The phases -/

theorem svd_herm {M a b : Mat ℂ} {s : List ℝ} (h : SVDSpec M.herm a s b) : SVDSpec M b.herm s a.herm := by
  have er : M.herm.r = M.c := rfl
  have ec : M.herm.c = M.r := rfl
  have em : min M.herm.r M.herm.c = min M.r M.c := by rw [er, ec, min_comm]
  refine ⟨h.v_c, h.v_r.trans em, h.len.trans em, h.u_c.trans em, h.u_r, h.nonneg, h.sorted, ?_, ?_, ?_⟩
  · intro i hi j hj
    have := h.prod j hj i hi
    rw [em] at this
    have e : M.v i j = star (M.herm.v j i) := by simp [Mat.herm]
    rw [e, ← this, star_sum]
    refine sum_congr rfl fun k _ => ?_
    simp only [Mat.herm, star_mul']
    simp [mul_comm, mul_left_comm]
  · intro k hk k' hk'
    have := h.isoV k (by rw [em]; exact hk) k' (by rw [em]; exact hk')
    rw [← this]
    refine sum_congr rfl fun x _ => ?_
    simp [Mat.herm]
  · intro k hk k' hk'
    have := h.isoU k (by rw [em]; exact hk) k' (by rw [em]; exact hk')
    rw [← this]
    refine sum_congr rfl fun x _ => ?_
    simp [Mat.herm]

theorem svd_fix {M u v : Mat ℂ} {s : List ℝ} (h : SVDSpec M u s v) (f : FixPhase) :
    SVDSpec M (fixQR f u v).1 s (fixQR f u v).2 := by
  have aux : ∀ w : ℕ → ℂ, (∀ k, w k * star (w k) = 1) →
      SVDSpec M ⟨u.r, u.c, fun i k => u.v i k * w k⟩ s ⟨v.r, v.c, fun k j => star (w k) * v.v k j⟩ := by
    intro w hw
    refine ⟨h.u_r, h.u_c, h.len, h.v_r, h.v_c, h.nonneg, h.sorted, ?_, ?_, ?_⟩
    · intro i hi j hj
      rw [← h.prod i hi j hj]
      refine sum_congr rfl fun k _ => ?_
      calc _ = (w k * star (w k)) * (u.v i k * ((s.getD k 0 : ℝ) : ℂ) * v.v k j) := by ring
        _ = _ := by rw [hw, one_mul]
    · intro k hk k' hk'
      have : ∀ i, star (u.v i k * w k) * (u.v i k' * w k') = (star (w k) * w k') * (star (u.v i k) * u.v i k') := by
        intro i; simp only [star_mul']; ring
      simp only [this]
      rw [← mul_sum, h.isoU k hk k' hk']
      by_cases e : k = k'
      · subst e; rw [mul_comm (star (w k)), hw, one_mul]
      · simp [delta_ne e]
    · intro k hk k' hk'
      have : ∀ j, star (w k) * v.v k j * star (star (w k') * v.v k' j) = (star (w k) * w k') * (v.v k j * star (v.v k' j)) := by
        intro j; simp only [star_mul', star_star]; ring
      simp only [this]
      rw [← mul_sum, h.isoV k hk k' hk']
      by_cases e : k = k'
      · subst e; rw [mul_comm (star (w k)), hw, one_mul]
      · simp [delta_ne e]
  cases f with
  | none => exact h
  | q => exact aux (fun k => unphase (u.v k k)) fun k => unphase_mul_star _
  | r =>
    have := aux (fun k => star (unphase (v.v k k))) fun k => by rw [star_star]; exact star_mul_unphase _
    simp only [star_star] at this
    exact this

theorem dot_diag (u : Mat ℂ) (l : List ℝ) (h : u.c = l.length) (i k : ℕ) :
    (u.dot (diagMat l)).v i k = u.v i k * ((l.getD k 0 : ℝ) : ℂ) := by
  simp only [Mat.dot, diagMat, h]
  by_cases hk : k < l.length
  · rw [sum_eq_single k]
    · simp
    · intro b _ hb; rw [if_neg hb, mul_zero]
    · intro hh; exact absurd (mem_range.2 hk) hh
  · have : l.getD k 0 = 0 := by simp [List.getD, List.getElem?_eq_none (not_lt.1 hk)]
    rw [this, sum_eq_zero fun b hb => by rw [if_neg (by have := mem_range.1 hb; omega), mul_zero]]
    simp

theorem diag_dot (v : Mat ℂ) (l : List ℝ) (k j : ℕ) : ((diagMat l).dot v).v k j = ((l.getD k 0 : ℝ) : ℂ) * v.v k j := by
  simp only [Mat.dot, diagMat]
  by_cases hk : k < l.length
  · rw [sum_eq_single k]
    · simp
    · intro b _ hb; rw [if_neg hb.symm, zero_mul]
    · intro hh; exact absurd (mem_range.2 hk) hh
  · have : l.getD k 0 = 0 := by simp [List.getD, List.getElem?_eq_none (not_lt.1 hk)]
    rw [this, sum_eq_zero fun b hb => by rw [if_neg (by have := mem_range.1 hb; omega), zero_mul]]
    simp

theorem getD_div (s : List ℝ) (n : ℝ) (k : ℕ) : (s.map (· / n)).getD k 0 = s.getD k 0 / n := by
  rw [List.getD, List.getD, List.getElem?_map]
  cases s[k]? <;> simp

/-- Spec: the diagonal of the matrix is real and not negative. -/
def PosDiag (D : ℕ) (m : Mat ℂ) : Prop := ∀ k < D, ∃ p : ℝ, 0 ≤ p ∧ m.v k k = p

theorem mulR_orth {a : Ten ℂ} {u : Mat ℂ} (h : LeftOrth a) {D : ℕ} (hr : a.r = D) (hc : u.c = D)
    (iso : ∀ k < D, ∀ k' < D, ∑ i ∈ range D, star (u.v i k) * u.v i k' = delta ℂ k k') : LeftOrth (mulR a u) := by
  intro j hj j' hj'
  have hj : j < D := hc ▸ hj
  have hj' : j' < D := hc ▸ hj'
  simp only [mulR, hr, star_sum, star_mul', sum_mul_sum]
  rw [← iso j hj j' hj']
  calc _ = ∑ x ∈ range D, ∑ y ∈ range D, star (u.v x j) * u.v y j' * ∑ s ∈ range a.d, ∑ i ∈ range a.l, star (a.v i x s) * a.v i y s := by
        simp only [mul_sum]
        rw [sum_congr rfl fun s _ => sum_comm]
        rw [sum_comm]
        refine sum_congr rfl fun x _ => ?_
        rw [sum_congr rfl fun s _ => sum_comm, sum_comm]
        refine sum_congr rfl fun y _ => sum_congr rfl fun s _ => sum_congr rfl fun i _ => by ring
    _ = ∑ x ∈ range D, ∑ y ∈ range D, star (u.v x j) * u.v y j' * delta ℂ x y := by
        refine sum_congr rfl fun x hx => sum_congr rfl fun y hy => ?_
        rw [h x (by rw [hr]; exact mem_range.1 hx) y (by rw [hr]; exact mem_range.1 hy)]
    _ = _ := by
        refine sum_congr rfl fun x hx => ?_
        exact sum_delta_right' (mem_range.1 hx) (fun y => star (u.v x j) * u.v y j')

theorem mulL_orth {a : Ten ℂ} {v : Mat ℂ} (h : RightOrth a) {D : ℕ} (hl : a.l = D) (hr : v.r = D)
    (iso : ∀ k < D, ∀ k' < D, ∑ j ∈ range D, v.v k j * star (v.v k' j) = delta ℂ k k') : RightOrth (mulL v a) := by
  intro i hi i' hi'
  have hi : i < D := hr ▸ hi
  have hi' : i' < D := hr ▸ hi'
  simp only [mulL, hl, star_sum, star_mul', sum_mul_sum]
  rw [← iso i hi i' hi']
  calc _ = ∑ x ∈ range D, ∑ y ∈ range D, v.v i x * star (v.v i' y) * ∑ s ∈ range a.d, ∑ j ∈ range a.r, a.v x j s * star (a.v y j s) := by
        simp only [mul_sum]
        rw [sum_congr rfl fun s _ => sum_comm]
        rw [sum_comm]
        refine sum_congr rfl fun x _ => ?_
        rw [sum_congr rfl fun s _ => sum_comm, sum_comm]
        refine sum_congr rfl fun y _ => sum_congr rfl fun s _ => sum_congr rfl fun i _ => by ring
    _ = ∑ x ∈ range D, ∑ y ∈ range D, v.v i x * star (v.v i' y) * delta ℂ x y := by
        refine sum_congr rfl fun x hx => sum_congr rfl fun y hy => ?_
        rw [h x (by rw [hl]; exact mem_range.1 hx) y (by rw [hl]; exact mem_range.1 hy)]
    _ = _ := by
        refine sum_congr rfl fun x hx => ?_
        exact sum_delta_right' (mem_range.1 hx) (fun y => v.v i x * star (v.v i' y))

/-- **C111.** `prepareTensorfixA0` and `prepareTensorFixPhase(..,fix)` (neither `'u'` nor `'v'`) of `mpsfunctionsgradopt.py` give back the
input exactly: `mps = tensor·matout` with `tensor` left-orthonormal. -/
theorem C111_gradopt_right {O : LinAlg} (hO : O.Spec) {pinv : Mat ℂ → Mat ℂ} (hp : ∀ A, PinvSpec A (pinv A)) {t : Ten ℂ} {D : ℕ}
    {dir : ℤ} (hdir : 0 < dir) (hl : t.l = D) (hr : t.r = D) (hD : 0 < D) (hd : t.d = 2) {B : ℕ → ℕ → ℂ} (hB : Inverse D t B) :
    ∃ a m, prepareTensorFixPhase O pinv t dir .other = .ok (some (a, m)) ∧ SplitR 1 t a m
      ∧ (∀ k < D, ∃ p : ℝ, 0 ≤ p ∧ a.v k k 0 = p) := by
  obtain ⟨a, r, h1, h2, h3, h4, h5, h6, h7, h8, h9, -⟩ := split_right hO (pinv := pinv) hl hr hD (by omega)
  obtain ⟨n1, n2⟩ := refuse_none hl hr hD (by omega)
  refine ⟨a, r.dot (part t 0), ?_, ⟨h2.trans hl.symm, h3.trans hr.symm, h4, h5.trans hr.symm, rfl, h7, ?_⟩, h9⟩
  · unfold prepareTensorFixPhase
    rw [if_neg n1, if_neg (by omega), n2]
    dsimp only
    rw [if_pos hdir, h1]
    dsimp only
    rw [if_pos rfl]
  · rw [hl, hr]
    intro i hi j hj s hs
    rw [one_mul, h8 i hi j hj s hs, back_right hp hl hr hB hi hj, if_pos (by omega)]

/-- **C111.** The same to the left: `mps = matout·tensor` with `tensor` right-orthonormal. -/
theorem C111_gradopt_left {O : LinAlg} (hO : O.Spec) {pinv : Mat ℂ → Mat ℂ} (hp : ∀ A, PinvSpec A (pinv A)) {t : Ten ℂ} {D : ℕ}
    {dir : ℤ} (hdir : dir < 0) (hl : t.l = D) (hr : t.r = D) (hD : 0 < D) (hd : t.d = 2) {B : ℕ → ℕ → ℂ} (hB : Inverse D t B) :
    ∃ a m, prepareTensorFixPhase O pinv t dir .other = .ok (some (a, m)) ∧ SplitL 1 t a m
      ∧ (∀ k < D, ∃ p : ℝ, 0 ≤ p ∧ a.v k k 0 = p) := by
  obtain ⟨a, r, h1, h2, h3, h4, h5, h6, h7, h8, h9, -⟩ := split_left hO (pinv := pinv) hl hr hD (by omega)
  obtain ⟨n1, n2⟩ := refuse_none hl hr hD (by omega)
  refine ⟨a, (part t 0).dot r, ?_, ⟨h2.trans hl.symm, h3.trans hr.symm, h4, rfl, h6.trans hl.symm, h7, ?_⟩, h9⟩
  · unfold prepareTensorFixPhase
    rw [if_neg n1, if_neg (by omega), n2]
    dsimp only
    rw [if_neg (by omega), h1]
    dsimp only
    rw [if_pos rfl]
  · rw [hl, hr]
    intro i hi j hj s hs
    rw [one_mul, h8 i hi j hj s hs, back_left hp hl hr hB hi hj, if_pos (by omega)]

/-- **C111.** `prepareTensorFixPhase(mps,direction>0,'u'|'v')`: the returned matrix has norm 1 and `mps = c·tensor·matout` with
`c>0`; for `'v'` the diagonal of the matrix is real and not negative. -/
theorem C111_phase_right {O : LinAlg} (hO : O.Spec) {pinv : Mat ℂ → Mat ℂ} (hp : ∀ A, PinvSpec A (pinv A)) {t : Ten ℂ} {D : ℕ}
    {dir : ℤ} (hdir : 0 < dir) {fix : Fix} (hf : fix ≠ .other) (hl : t.l = D) (hr : t.r = D) (hD : 0 < D) (hd : t.d = 2) {B : ℕ → ℕ → ℂ}
    (hB : Inverse D t B) : ∃ (a : Ten ℂ) (m : Mat ℂ) (c : ℝ), prepareTensorFixPhase O pinv t dir fix = .ok (some (a, m)) ∧ 0 < c ∧ SplitR c t a m
      ∧ normF m = 1 ∧ (fix = .v → PosDiag D m) := by
  obtain ⟨a, r, h1, h2, h3, h4, h5, h6, h7, h8, -, -⟩ := split_right hO (pinv := pinv) hl hr hD (by omega)
  obtain ⟨n1, n2⟩ := refuse_none hl hr hD (by omega)
  have hs := svd_herm (hO.svd (r.dot (part t 0)).herm)
  generalize hw : O.svd (r.dot (part t 0)).herm = w at hs
  have hsf := svd_fix hs fix.phase
  have em : min (r.dot (part t 0)).r (r.dot (part t 0)).c = D := by
    have e1 : (r.dot (part t 0)).r = D := h5
    have e2 : (r.dot (part t 0)).c = D := hr
    rw [e1, e2, min_self]
  have hback : ∀ i < D, ∀ j < D, ∀ s < t.d, t.v i j s = ∑ k ∈ range D, a.v i k s * (r.dot (part t 0)).v k j := by
    intro i hi j hj s hs
    rw [h8 i hi j hj s hs, back_right hp hl hr hB hi hj, if_pos (by omega)]
  have hn : 0 < norm2 w.2.1 := by
    rw [hs.norm2_eq]
    refine lt_of_le_of_ne (normF_nonneg _) fun h => ?_
    obtain ⟨i, hi, j, hj, hne⟩ := hB.ne_zero hD
    apply hne
    rw [hback i hi j hj 0 (by omega)]
    exact sum_eq_zero fun k hk => by
      rw [normF_eq_zero.1 h.symm k (by show k < r.r; rw [h5]; exact mem_range.1 hk) j (by show j < t.r; omega), mul_zero]
  have hlen : w.2.1.length = D := hsf.len.trans em
  have ur : (fixQR fix.phase w.2.2.herm w.1.herm).1.r = D := hsf.u_r.trans h5
  have uc : (fixQR fix.phase w.2.2.herm w.1.herm).1.c = D := hsf.u_c.trans em
  have vr : (fixQR fix.phase w.2.2.herm w.1.herm).2.r = D := hsf.v_r.trans em
  have vc : (fixQR fix.phase w.2.2.herm w.1.herm).2.c = D := hsf.v_c.trans hr
  have hc : (norm2 w.2.1 : ℂ) ≠ 0 := by exact_mod_cast hn.ne'
  refine ⟨mulR a (fixQR fix.phase w.2.2.herm w.1.herm).1, (diagMat (w.2.1.map (· / norm2 w.2.1))).dot (fixQR fix.phase w.2.2.herm w.1.herm).2,
    norm2 w.2.1, ?_, hn, ⟨h2.trans hl.symm, uc.trans hr.symm, h4, ?_, vc.trans hr.symm, ?_, ?_⟩, ?_, ?_⟩
  · unfold prepareTensorFixPhase
    rw [if_neg n1, if_neg (by omega), n2]
    dsimp only
    rw [if_pos hdir, h1]
    dsimp only
    rw [if_neg hf, hw, GradOpt.normalise_pos hn]
  · show (w.2.1.map _).length = _
    rw [List.length_map, hlen, hr]
  · refine mulR_orth h7 h3 uc fun k hk k' hk' => ?_
    have := hsf.isoU k (by rw [em]; exact hk) k' (by rw [em]; exact hk')
    rw [← hsf.u_r, ur] at this
    exact this
  · rw [hl, hr]
    intro i hi j hj s hs'
    rw [hback i hi j hj s hs']
    have hv : ∀ k ∈ range D, a.v i k s * (r.dot (part t 0)).v k j = ∑ x ∈ range D, a.v i k s *
        ((fixQR fix.phase w.2.2.herm w.1.herm).1.v k x * ((w.2.1.getD x 0 : ℝ) : ℂ) * (fixQR fix.phase w.2.2.herm w.1.herm).2.v x j) := by
      intro k hk
      rw [← mul_sum]
      have := hsf.prod k (by show k < r.r; rw [h5]; exact mem_range.1 hk) j (by show j < t.r; omega)
      rw [em] at this
      rw [this]
    rw [sum_congr rfl hv, sum_comm, mul_sum]
    refine sum_congr rfl fun x _ => ?_
    rw [diag_dot, getD_div]
    simp only [mulR, h3, sum_mul, mul_sum]
    refine sum_congr rfl fun k _ => ?_
    push_cast
    field_simp
  · rw [GradOpt.normF_diag_mul (r := D) vc fun k hk k' hk' => ?_, GradOpt.norm2_div hn.ne']
    rw [List.length_map, hlen] at hk hk'
    have := hsf.isoV k (by rw [em]; exact hk) k' (by rw [em]; exact hk')
    rw [← hsf.v_c, vc] at this
    exact this
  · intro hv k hk
    subst hv
    refine ⟨w.2.1.getD k 0 / norm2 w.2.1 * ‖w.1.herm.v k k‖, ?_, ?_⟩
    · refine mul_nonneg (div_nonneg ?_ hn.le) (norm_nonneg _)
      rw [List.getD_eq_getElem _ _ (by rw [hlen]; exact hk)]
      exact hs.nonneg _ (List.getElem_mem _)
    · rw [diag_dot, getD_div]
      simp only [Fix.phase, fixQR]
      rw [Ortho.unphase_mul]
      push_cast; rfl

/-- **C111.** The same to the left: `mps = c·matout·tensor`; for `'u'` the diagonal of the matrix is real and not negative. -/
theorem C111_phase_left {O : LinAlg} (hO : O.Spec) {pinv : Mat ℂ → Mat ℂ} (hp : ∀ A, PinvSpec A (pinv A)) {t : Ten ℂ} {D : ℕ}
    {dir : ℤ} (hdir : dir < 0) {fix : Fix} (hf : fix ≠ .other) (hl : t.l = D) (hr : t.r = D) (hD : 0 < D) (hd : t.d = 2) {B : ℕ → ℕ → ℂ}
    (hB : Inverse D t B) : ∃ (a : Ten ℂ) (m : Mat ℂ) (c : ℝ), prepareTensorFixPhase O pinv t dir fix = .ok (some (a, m)) ∧ 0 < c ∧ SplitL c t a m
      ∧ normF m = 1 ∧ (fix = .u → PosDiag D m) := by
  obtain ⟨a, r, h1, h2, h3, h4, h5, h6, h7, h8, -, -⟩ := split_left hO (pinv := pinv) hl hr hD (by omega)
  obtain ⟨n1, n2⟩ := refuse_none hl hr hD (by omega)
  have hs := hO.svd ((part t 0).dot r)
  generalize hw : O.svd ((part t 0).dot r) = w at hs
  have hsf := svd_fix hs fix.phase
  have em : min ((part t 0).dot r).r ((part t 0).dot r).c = D := by
    have e1 : ((part t 0).dot r).r = D := hl
    have e2 : ((part t 0).dot r).c = D := h6
    rw [e1, e2, min_self]
  have hback : ∀ i < D, ∀ j < D, ∀ s < t.d, t.v i j s = ∑ k ∈ range D, ((part t 0).dot r).v i k * a.v k j s := by
    intro i hi j hj s hs
    rw [h8 i hi j hj s hs, back_left hp hl hr hB hi hj, if_pos (by omega)]
  have hn : 0 < norm2 w.2.1 := by
    rw [hs.norm2_eq]
    refine lt_of_le_of_ne (normF_nonneg _) fun h => ?_
    obtain ⟨i, hi, j, hj, hne⟩ := hB.ne_zero hD
    apply hne
    rw [hback i hi j hj 0 (by omega)]
    exact sum_eq_zero fun k hk => by
      rw [normF_eq_zero.1 h.symm i (by show i < t.l; omega) k (by show k < r.c; rw [h6]; exact mem_range.1 hk), zero_mul]
  have hlen : w.2.1.length = D := hsf.len.trans em
  have ur : (fixQR fix.phase w.1 w.2.2).1.r = D := hsf.u_r.trans hl
  have uc : (fixQR fix.phase w.1 w.2.2).1.c = D := hsf.u_c.trans em
  have vr : (fixQR fix.phase w.1 w.2.2).2.r = D := hsf.v_r.trans em
  have vc : (fixQR fix.phase w.1 w.2.2).2.c = D := hsf.v_c.trans h6
  have hc : (norm2 w.2.1 : ℂ) ≠ 0 := by exact_mod_cast hn.ne'
  have ul : (fixQR fix.phase w.1 w.2.2).1.c = (w.2.1.map (· / norm2 w.2.1)).length := by rw [uc, List.length_map, hlen]
  refine ⟨mulL (fixQR fix.phase w.1 w.2.2).2 a, (fixQR fix.phase w.1 w.2.2).1.dot (diagMat (w.2.1.map (· / norm2 w.2.1))),
    norm2 w.2.1, ?_, hn, ⟨vr.trans hl.symm, h3.trans hr.symm, h4, ur.trans hl.symm, ?_, ?_, ?_⟩, ?_, ?_⟩
  · unfold prepareTensorFixPhase
    rw [if_neg n1, if_neg (by omega), n2]
    dsimp only
    rw [if_neg (by omega), h1]
    dsimp only
    rw [if_neg hf, hw, GradOpt.normalise_pos hn]
  · show (w.2.1.map _).length = _
    rw [List.length_map, hlen, hl]
  · refine mulL_orth h7 h2 vr fun k hk k' hk' => ?_
    have := hsf.isoV k (by rw [em]; exact hk) k' (by rw [em]; exact hk')
    rw [← hsf.v_c, vc] at this
    exact this
  · rw [hl, hr]
    intro i hi j hj s hs'
    rw [hback i hi j hj s hs']
    have hv : ∀ k ∈ range D, ((part t 0).dot r).v i k * a.v k j s = ∑ x ∈ range D,
        ((fixQR fix.phase w.1 w.2.2).1.v i x * ((w.2.1.getD x 0 : ℝ) : ℂ) * (fixQR fix.phase w.1 w.2.2).2.v x k) * a.v k j s := by
      intro k hk
      rw [← sum_mul]
      have := hsf.prod i (by show i < t.l; omega) k (by show k < r.c; rw [h6]; exact mem_range.1 hk)
      rw [em] at this
      rw [this]
    rw [sum_congr rfl hv, sum_comm, mul_sum]
    refine sum_congr rfl fun x _ => ?_
    rw [dot_diag _ _ ul, getD_div]
    simp only [mulL, h2, mul_sum]
    refine sum_congr rfl fun k _ => ?_
    push_cast
    field_simp
  · rw [normF_mul_diag (l := D) ur ul fun k hk k' hk' => ?_, GradOpt.norm2_div hn.ne']
    rw [List.length_map, hlen] at hk hk'
    have := hsf.isoU k (by rw [em]; exact hk) k' (by rw [em]; exact hk')
    rw [← hsf.u_r, ur] at this
    exact this
  · intro hv k hk
    subst hv
    refine ⟨‖w.1.v k k‖ * (w.2.1.getD k 0 / norm2 w.2.1), ?_, ?_⟩
    · refine mul_nonneg (norm_nonneg _) (div_nonneg ?_ hn.le)
      rw [List.getD_eq_getElem _ _ (by rw [hlen]; exact hk)]
      exact hs.nonneg _ (List.getElem_mem _)
    · rw [dot_diag _ _ ul, getD_div]
      simp only [Fix.phase, fixQR]
      rw [mul_comm (w.1.v k k), Ortho.unphase_mul]
      push_cast; rfl

/-- **C111.** The factorisation `prepareTensor` of `mpsfunctionsgradopt.py` on any tensor that is not empty: exact, orthonormal, and the
diagonal of the component 0 is real and not negative. -/
theorem C111_prepareTensor {O : LinAlg} (hO : O.Spec) {t : Ten ℂ} (hl : t.l ≠ 0) (hr : t.r ≠ 0) (hn : t.d ≠ 0) (dir : ℤ) :
    (0 < dir → ∃ a m, prepareTensorG O t dir = .ok (a, m) ∧ LeftOrth a ∧ m.c = t.r ∧ a.r = m.r
      ∧ (∀ i < t.l, ∀ j < t.r, ∀ s < t.d, t.v i j s = ∑ k ∈ range m.r, a.v i k s * m.v k j) ∧ ∀ k < t.l, ∃ p : ℝ, 0 ≤ p ∧ a.v k k 0 = p)
    ∧ (dir < 0 → ∃ a m, prepareTensorG O t dir = .ok (a, m) ∧ RightOrth a ∧ m.r = t.l ∧ a.l = m.c
      ∧ (∀ i < t.l, ∀ j < t.r, ∀ s < t.d, t.v i j s = ∑ k ∈ range m.c, m.v i k * a.v k j s) ∧ ∀ k < t.r, ∃ p : ℝ, 0 ≤ p ∧ a.v k k 0 = p)
    ∧ (dir = 0 → prepareTensorG O t dir = .error .assertion) := by
  refine ⟨fun hd => ?_, fun hd => ?_, fun hd => by simp [prepareTensorG, hd]⟩
  · obtain ⟨a, m, h1, -, -, h4, h5, h6, h7, h8, h9, -⟩ := prepG_right hO hd hl hr hn
    exact ⟨a, m, h1, h7, h6, h4.trans h5.symm, by rw [h5]; exact h8, h9⟩
  · obtain ⟨a, m, h1, -, -, h4, h5, h6, h7, h8, h9, -⟩ := prepG_left hO hd hl hr hn
    exact ⟨a, m, h1, h7, h6, h4.trans h5.symm, by rw [h5]; exact h8, h9⟩

/-- **C111, violated.** Components from the third on are lost: no multiple of the product gives them back. -/
theorem C111_violated_components {O : LinAlg} (hO : O.Spec) {pinv : Mat ℂ → Mat ℂ} {t a : Ten ℂ} {m : Mat ℂ} {D : ℕ} {dir : ℤ}
    (hl : t.l = D) (hr : t.r = D) {i j s : ℕ} (hi : i < D) (hj : j < D) (hs2 : 2 ≤ s) (hs : s < t.d) (hne : t.v i j s ≠ 0)
    (h : prepareTensorfixA0 O pinv t dir = .ok (some (a, m)) ∨ prepareTensorFixPhase O pinv t dir .other = .ok (some (a, m))) :
    (0 < dir → ∀ c, ¬SplitR c t a m) ∧ (dir < 0 → ∀ c, ¬SplitL c t a m) := by
  have z : ∀ b x y, (scaled b pinv t).v x y s = 0 := by
    intro b x y; simp only [scaled]; rw [if_neg (by omega), if_neg (by omega)]
  constructor
  · intro hdir c S
    have e0 := S.prod i (by omega) j (by omega) s hs
    rw [hr] at e0
    apply hne
    rw [e0]
    rcases h with h | h
    · obtain ⟨a', m', Z, h1, h2, -, -, -, -, -, -, -, h10, -⟩ := fixA0_right hO (pinv := pinv) hdir hl hr (by omega) (by omega)
      rw [h1] at h
      simp only [Except.ok.injEq, Option.some.injEq, Prod.mk.injEq] at h
      obtain ⟨rfl, rfl⟩ := h
      have h3 := (h10 i hi j hj s hs).trans (sum_eq_zero fun x _ => by rw [z, zero_mul])
      rcases mul_eq_zero.1 h3 with h4 | h4
      · exact absurd (by exact_mod_cast h4) h2.ne'
      · rw [h4, mul_zero]
    · obtain ⟨a', r, h1, -, -, -, -, -, -, h8, -, -⟩ := split_right hO (pinv := pinv) hl hr (by omega) (by omega)
      obtain ⟨n1, n2⟩ := refuse_none hl hr (by omega) (by omega)
      unfold prepareTensorFixPhase at h
      rw [if_neg n1, if_neg (by omega), n2] at h
      dsimp only at h
      rw [if_pos hdir, h1] at h
      dsimp only at h
      rw [if_pos rfl] at h
      simp only [Except.ok.injEq, Option.some.injEq, Prod.mk.injEq] at h
      obtain ⟨rfl, rfl⟩ := h
      rw [h8 i hi j hj s hs, sum_eq_zero fun x _ => by rw [z, zero_mul], mul_zero]
  · intro hdir c S
    have e0 := S.prod i (by omega) j (by omega) s hs
    rw [hl] at e0
    apply hne
    rw [e0]
    rcases h with h | h
    · obtain ⟨a', m', Z, h1, h2, -, -, -, -, -, -, -, h10, -⟩ := fixA0_left hO (pinv := pinv) hdir hl hr (by omega) (by omega)
      rw [h1] at h
      simp only [Except.ok.injEq, Option.some.injEq, Prod.mk.injEq] at h
      obtain ⟨rfl, rfl⟩ := h
      have h3 := (h10 i hi j hj s hs).trans (sum_eq_zero fun x _ => by rw [z, mul_zero])
      rcases mul_eq_zero.1 h3 with h4 | h4
      · exact absurd (by exact_mod_cast h4) h2.ne'
      · rw [h4, mul_zero]
    · obtain ⟨a', r, h1, -, -, -, -, -, -, h8, -, -⟩ := split_left hO (pinv := pinv) hl hr (by omega) (by omega)
      obtain ⟨n1, n2⟩ := refuse_none hl hr (by omega) (by omega)
      unfold prepareTensorFixPhase at h
      rw [if_neg n1, if_neg (by omega), n2] at h
      dsimp only at h
      rw [if_neg (by omega), h1] at h
      dsimp only at h
      rw [if_pos rfl] at h
      simp only [Except.ok.injEq, Option.some.injEq, Prod.mk.injEq] at h
      obtain ⟨rfl, rfl⟩ := h
      rw [h8 i hi j hj s hs, sum_eq_zero fun x _ => by rw [z, mul_zero], mul_zero]

/-- **C111, violated.** A singular component 0: for one state per bond and `mps[:,:,0]=0` the matrix returned is zero, so that the
component 1 is lost. -/
theorem C111_violated_singular {O : LinAlg} (hO : O.Spec) {pinv : Mat ℂ → Mat ℂ} {t : Ten ℂ}
    (hl : t.l = 1) (hr : t.r = 1) (hd : t.d = 2) (h0 : t.v 0 0 0 = 0) (h1 : t.v 0 0 1 ≠ 0) :
    ∃ a m, prepareTensorfixA0 O pinv t 1 = .ok (some (a, m)) ∧ ∀ c, ¬SplitR c t a m := by
  obtain ⟨a, m, Z, e1, e2, -, -, -, -, -, -, -, e10, -⟩ := fixA0_right hO (pinv := pinv) (dir := 1) one_pos hl hr one_pos (by omega)
  refine ⟨a, m, e1, fun c S => h1 ?_⟩
  have e3 := e10 0 (by omega) 0 (by omega) 1 (by omega)
  rw [sum_range_one, sum_range_one, h0, mul_zero] at e3
  have e4 := S.prod 0 (by omega) 0 (by omega) 1 (by omega)
  rw [hr, sum_range_one] at e4
  rw [e4]
  rcases mul_eq_zero.1 e3 with h4 | h4
  · exact absurd (by exact_mod_cast h4) e2.ne'
  · rw [h4, mul_zero]

/-- **C111.** What is refused: tensors that are not square or have one component; `direction=0` returns `None`. -/
theorem C111_refused (O : LinAlg) (pinv : Mat ℂ → Mat ℂ) {t : Ten ℂ} (hl : t.l ≠ 0) (hr : t.r ≠ 0) (hd : t.d ≠ 0) (fix : Fix) {dir : ℤ}
    (hdir : dir ≠ 0) :
    (t.l ≠ t.r → 2 ≤ t.d → prepareTensorfixA0 O pinv t dir = .error .value ∧ prepareTensorFixPhase O pinv t dir fix = .error .value)
    ∧ (t.l = t.r → t.d = 1 → prepareTensorfixA0 O pinv t dir = .error .index ∧ prepareTensorFixPhase O pinv t dir fix = .error .index)
    ∧ prepareTensorfixA0 O pinv t 0 = .ok none ∧ prepareTensorFixPhase O pinv t 0 fix = .ok none := by
  have n : ¬(t.l = 0 ∨ t.r = 0 ∨ t.d = 0) := by omega
  refine ⟨fun h1 h2 => ?_, fun h1 h2 => ?_, ?_, ?_⟩
  · have : refuse t = some .value := by rw [refuse, if_neg n, if_pos h1, if_neg (by omega)]
    simp [prepareTensorfixA0, prepareTensorFixPhase, this, n, hdir]
  · have : refuse t = some .index := by rw [refuse, if_neg n, if_neg (by omega), if_pos h2]
    simp [prepareTensorfixA0, prepareTensorFixPhase, this, n, hdir]
  · simp [prepareTensorfixA0, n]
  · simp [prepareTensorFixPhase, n]

/-- A tensor with an invertible component 0. -/
def sample : Ten ℂ := ⟨2, 2, 2, fun i j s => if s = 0 then (if i = j then 2 else 0) else if i < j then 1 else 0⟩

theorem sample_inverse : Inverse 2 sample fun i j => if i = j then 1 / 2 else 0 := by
  constructor
  · intro i hi j hj
    interval_cases i <;> interval_cases j <;> simp [sample, delta]
  · intro i hi j hj
    interval_cases i <;> interval_cases j <;> simp [sample, delta]

example : ∃ (O : LinAlg) (pinv : Mat ℂ → Mat ℂ) (a a' b : Ten ℂ) (m m' n : Mat ℂ), O.Spec ∧ (∀ A, PinvSpec A (pinv A))
    ∧ prepareTensorfixA0 O pinv sample 1 = .ok (some (a, m)) ∧ ¬SplitR 1 sample a m ∧ SplitR ((3 / 2 : ℝ) : ℂ) sample a m
    ∧ prepareTensorFixPhase O pinv sample (-1) .other = .ok (some (a', m')) ∧ SplitL 1 sample a' m'
    ∧ prepareTensorFixPhase O pinv sample 1 .v = .ok (some (b, n)) ∧ PosDiag 2 n := by
  obtain ⟨O, hO⟩ := exists_linAlg
  obtain ⟨pinv, hp⟩ := exists_pinv
  obtain ⟨a, m, Z, h1, h2, h3, h4, -⟩ := C111_fixA0_right hO hp (t := sample) (dir := 1) one_pos rfl rfl two_pos rfl sample_inverse
  obtain ⟨a', m', h5, h6, -⟩ := C111_gradopt_left hO hp (t := sample) (dir := -1) (by omega) rfl rfl two_pos rfl sample_inverse
  obtain ⟨b, n, c, h7, -, -, -, h8⟩ := C111_phase_right hO hp (t := sample) (dir := 1) (fix := .v) one_pos (by decide) rfl rfl two_pos rfl sample_inverse
  have hZ : Z = 3 / 2 := by
    have e : Z ^ 2 = (3 / 2) ^ 2 := by
      rw [h3]
      simp [sample, sum_range_succ]
      norm_num
    exact (pow_left_inj₀ h2.le (by norm_num) two_ne_zero).1 e
  exact ⟨O, pinv, a, a', b, m, m', n, hO, hp, h1, (C111_violated_norm hO hp rfl rfl le_rfl rfl sample_inverse h1).1 one_pos, hZ ▸ h4, h5, h6, h7, h8 rfl⟩

end

end PyTeN.FixA0
