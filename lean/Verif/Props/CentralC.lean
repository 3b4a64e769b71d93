import Verif.Mps.CentralC
import Verif.Mps.RegaugeEig
import Verif.Props.RegaugeImps
import Verif.Props.TdvpInf

/-! # C112: the central gauge of a unit cell -/

namespace PyTeN.CentralC
open Finset Transfer Regauge Vumps TdvpInf Matrix
open scoped ComplexOrder

noncomputable section

/-! ## Specification -/

/-- Contract of `scipy.linalg.sqrtm` on well-conditioned positive matrices, and of `np.linalg.pinv` on positive matrices whose squares
are well-conditioned. -/
structure GaugeSpec (sqrtm pinv : Mat ℂ → Mat ℂ) : Prop where
  root : ∀ (D : ℕ) (M : Mat ℂ), M.r = D → M.c = D → WellConditioned (toM D M.v) →
    (sqrtm M).r = D ∧ (sqrtm M).c = D ∧ (toM D (sqrtm M).v).PosSemidef ∧ toM D (sqrtm M).v * toM D (sqrtm M).v = toM D M.v
  inv : ∀ (D : ℕ) (S : Mat ℂ), S.r = D → S.c = D → (toM D S.v).PosSemidef → WellConditioned (toM D S.v * toM D S.v) →
    (pinv S).r = D ∧ (pinv S).c = D ∧ toM D (pinv S).v * toM D S.v = 1

/-- Convergence of the eigensolver for the transfer operators of unit cells, for six eigenvalues. -/
def ConvergesSix (eigs : Eigs) : Prop := ∀ (dir : Dir) (ts : List (Ten ℂ)) (n : ℕ), ts ≠ [] → Linked n ts n → 3 ≤ n →
  ∃ l, eigs (n * n) (unitcellTransferOperator dir ts) 6 = .ok l

/-- Spec: the density matrix `P` left of the tensors, carried to their right end. -/
def pushR (D : ℕ) : List (Ten ℂ) → Matrix (Fin D) (Fin D) ℂ → Matrix (Fin D) (Fin D) ℂ
  | [], P => P
  | t :: ts, P => pushR D ts (∑ s ∈ range t.d, (mat D t s)ᴴ * P * mat D t s)

/-- Spec: the density matrix `Q` right of the tensors, carried to their left end. -/
def pushL (D : ℕ) : List (Ten ℂ) → Matrix (Fin D) (Fin D) ℂ → Matrix (Fin D) (Fin D) ℂ
  | [], Q => Q
  | t :: ts, Q => ∑ s ∈ range t.d, mat D t s * pushL D ts Q * (mat D t s)ᴴ

/-- Spec: a cell of square tensors of equal shape; its transfer operator has the simple leading eigenvalue `η>0` with the left and right
density matrices `p`, `q`, which are well-conditioned on all bonds. -/
structure Cell (D d : ℕ) (ts : List (Ten ℂ)) (η : ℝ) (p q : ℕ → ℕ → ℂ) : Prop where
  ne : ts ≠ []
  three : 3 ≤ D
  dpos : 0 < d
  shape : ∀ t ∈ ts, t.l = D ∧ t.r = D ∧ t.d = d
  left : Normal .right 0 D ts η p
  right : Normal .left 0 D ts η q
  wl : ∀ n ≤ ts.length, WellConditioned (pushR D (ts.take n) (toM D p)ᵀ)
  wr : ∀ n ≤ ts.length, WellConditioned (pushL D (ts.drop n) (toM D q))

/-- Spec: `mpsl`, `mpsr` are the left- and right-orthonormal tensors of the uniform state of the cell `ts`, up to the factor `z` in every
tensor, and `Cs` the matrices on the bonds between them. -/
structure Central (D d : ℕ) (z : ℝ) (ts : List (Ten ℂ)) (mpsl mpsr : List (Ten ℂ)) (Cs : List (Mat ℂ)) : Prop where
  len : mpsl.length = ts.length ∧ mpsr.length = ts.length ∧ Cs.length = ts.length + 1
  shapes : ∀ n < ts.length, ((atT mpsl n).l = D ∧ (atT mpsl n).r = D ∧ (atT mpsl n).d = d) ∧ (atT mpsr n).l = D ∧ (atT mpsr n).r = D ∧ (atT mpsr n).d = d
  left : ∀ n < ts.length, ∑ s ∈ range d, (mat D (atT mpsl n) s)ᴴ * mat D (atT mpsl n) s = 1
  right : ∀ n < ts.length, ∑ s ∈ range d, mat D (atT mpsr n) s * (mat D (atT mpsr n) s)ᴴ = 1
  centre : ∀ n < ts.length, ∀ s < d, toM D (at_ Cs n).v * mat D (atT mpsr n) s = mat D (atT mpsl n) s * toM D (at_ Cs (n + 1)).v
  unit : ∀ n ≤ ts.length, IsUnit (toM D (at_ Cs n).v)
  period : toM D (at_ Cs 0).v = toM D (at_ Cs ts.length).v
  same : ∃ X : ℕ → Matrix (Fin D) (Fin D) ℂ, (∀ n ≤ ts.length, IsUnit (X n)) ∧ X 0 = X ts.length ∧
    ∀ n < ts.length, ∀ s < d, (z : ℂ) • (X n * mat D (atT ts n) s) = mat D (atT mpsl n) s * X (n + 1)

/-! ## Transfer -/

theorem transfer_eq {D : ℕ} {A : Ten ℂ} (hl : A.l = D) (hr : A.r = D) (dir : Dir) : transferOp dir A = transferOperator dir (.arr A) := by
  funext x
  cases dir
  · simp only [transferOp, transferOperator, mixedArr, hl, hr, if_true]
    cases reshape2 x D D <;> rfl
  · simp only [transferOp, transferOperator, mixedArr, hl, hr, if_true]
    cases reshape2 x D D <;> rfl

theorem lastRow_eq {D : ℕ} (dir : Dir) : ∀ {ts : List (Ten ℂ)}, (∀ t ∈ ts, t.l = D ∧ t.r = D) → lastRow dir ts = unitLoop dir ts
  | [], _ => rfl
  | t :: ts, h => by
    obtain ⟨h1, h2⟩ := h t (by simp)
    funext x
    rw [lastRow, unitLoop, transfer_eq h1 h2, lastRow_eq dir fun u hu => h u (by simp [hu])]
    cases transferOperator dir (.arr t) x <;> rfl

theorem cellOp_eq {D : ℕ} (dir : Dir) {ts : List (Ten ℂ)} (hne : ts ≠ []) (h : ∀ t ∈ ts, t.l = D ∧ t.r = D) :
    lastRow dir (order dir ts) = unitcellTransferOperator dir ts := by
  funext x
  unfold unitcellTransferOperator
  rw [if_neg hne]
  cases dir
  · rw [order, lastRow_eq .left fun u hu => h u (by simpa using hu)]
  · rw [order, lastRow_eq .right h]

theorem linked_square {D : ℕ} : ∀ {ts : List (Ten ℂ)}, (∀ t ∈ ts, t.l = D ∧ t.r = D) → Linked D ts D
  | [], _ => rfl
  | t :: ts, h => by
    obtain ⟨h1, h2⟩ := h t (by simp)
    refine ⟨h1, ?_⟩
    rw [h2]
    exact linked_square fun u hu => h u (by simp [hu])

/-- Spec: the matrix a vector stands for. -/
def mOf (D : ℕ) (x : Vec ℂ) : Matrix (Fin D) (Fin D) ℂ := toM D (square D x).v

theorem transfer_right {D : ℕ} {A : Ten ℂ} (hl : A.l = D) (hr : A.r = D) {x : Vec ℂ} (hx : x.n = D * D) :
    ∃ y, transferOp .right A x = .ok y ∧ y.n = D * D ∧ (mOf D y)ᵀ = ∑ s ∈ range A.d, (mat D A s)ᴴ * (mOf D x)ᵀ * mat D A s := by
  refine ⟨⟨D * D, _⟩, by simp only [transferOp, reshape2, hl, hr, hx, flat, if_true]; rfl, rfl, ?_⟩
  ext j' j
  have hD : 0 < D := j.pos
  have e1 : ((j : ℕ) * D + j') / D = j := by rw [mul_comm, Nat.mul_add_div hD, Nat.div_eq_of_lt j'.2, add_zero]
  have e2 : ((j : ℕ) * D + j') % D = j' := by rw [mul_comm, Nat.mul_add_mod, Nat.mod_eq_of_lt j'.2]
  simp only [mOf, transpose_apply, toM, square, e1, e2, Matrix.sum_apply, Matrix.mul_apply, conjTranspose_apply, mat, sum_mul]
  rw [sum_congr rfl fun i _ => sum_comm, sum_comm]
  refine sum_congr rfl fun s _ => ?_
  rw [sum_range]
  refine sum_congr rfl fun i _ => ?_
  rw [sum_range]
  refine sum_congr rfl fun i' _ => ?_
  ring

theorem transfer_left {D : ℕ} {A : Ten ℂ} (hl : A.l = D) (hr : A.r = D) {x : Vec ℂ} (hx : x.n = D * D) :
    ∃ y, transferOp .left A x = .ok y ∧ y.n = D * D ∧ mOf D y = ∑ s ∈ range A.d, mat D A s * mOf D x * (mat D A s)ᴴ := by
  refine ⟨⟨D * D, _⟩, by simp only [transferOp, reshape2, hl, hr, hx, flat, if_true]; rfl, rfl, ?_⟩
  ext j j'
  have hD : 0 < D := j.pos
  have e1 : ((j : ℕ) * D + j') / D = j := by rw [mul_comm, Nat.mul_add_div hD, Nat.div_eq_of_lt j'.2, add_zero]
  have e2 : ((j : ℕ) * D + j') % D = j' := by rw [mul_comm, Nat.mul_add_mod, Nat.mod_eq_of_lt j'.2]
  simp only [mOf, toM, square, e1, e2, Matrix.sum_apply, Matrix.mul_apply, conjTranspose_apply, mat, sum_mul]
  rw [sum_congr rfl fun i _ => sum_comm, sum_comm]
  refine sum_congr rfl fun s _ => ?_
  rw [sum_comm, sum_range]
  refine sum_congr rfl fun i _ => ?_
  rw [sum_range]
  refine sum_congr rfl fun i' _ => ?_
  ring

/-! ## Rows -/

theorem rows_right {D : ℕ} : ∀ {ts : List (Ten ℂ)}, (∀ t ∈ ts, t.l = D ∧ t.r = D) → ∀ {x : Vec ℂ}, x.n = D * D →
    ∃ r : List (Vec ℂ), rows .right ts x = .ok r ∧ r.length = ts.length + 1 ∧ lastRow .right ts x = .ok (r.getD ts.length ⟨0, fun _ => 0⟩) ∧
      ∀ n ≤ ts.length, (mOf D (r.getD n ⟨0, fun _ => 0⟩))ᵀ = pushR D (ts.take n) (mOf D x)ᵀ
  | [], _, x, _ => ⟨[x], rfl, rfl, rfl, fun n hn => by obtain rfl : n = 0 := by simpa using hn
                                                       rfl⟩
  | t :: ts, h, x, hx => by
    obtain ⟨h1, h2⟩ := h t (by simp)
    obtain ⟨y, y1, y2, y3⟩ := transfer_right h1 h2 hx
    obtain ⟨r, r1, r2, r3, r4⟩ := rows_right (ts := ts) (fun u hu => h u (by simp [hu])) y2
    refine ⟨x :: r, by simp only [rows, y1, r1], by simp [r2], by simp only [lastRow, y1, r3, List.length_cons, List.getD_cons_succ], fun n hn => ?_⟩
    cases n with
    | zero => rfl
    | succ n =>
      rw [List.getD_cons_succ, r4 n (by simpa using hn), List.take_succ_cons, pushR, y3]

theorem pushL_append {D : ℕ} : ∀ (a b : List (Ten ℂ)) (Q : Matrix (Fin D) (Fin D) ℂ), pushL D (a ++ b) Q = pushL D a (pushL D b Q)
  | [], _, _ => rfl
  | t :: a, b, Q => by rw [List.cons_append, pushL, pushL, pushL_append a b Q]

theorem rows_left {D : ℕ} : ∀ {ts : List (Ten ℂ)}, (∀ t ∈ ts, t.l = D ∧ t.r = D) → ∀ {x : Vec ℂ}, x.n = D * D →
    ∃ r : List (Vec ℂ), rows .left ts x = .ok r ∧ r.length = ts.length + 1 ∧ lastRow .left ts x = .ok (r.getD ts.length ⟨0, fun _ => 0⟩) ∧
      ∀ n ≤ ts.length, mOf D (r.getD n ⟨0, fun _ => 0⟩) = pushL D (ts.take n).reverse (mOf D x)
  | [], _, x, _ => ⟨[x], rfl, rfl, rfl, fun n hn => by obtain rfl : n = 0 := by simpa using hn
                                                       rfl⟩
  | t :: ts, h, x, hx => by
    obtain ⟨h1, h2⟩ := h t (by simp)
    obtain ⟨y, y1, y2, y3⟩ := transfer_left h1 h2 hx
    obtain ⟨r, r1, r2, r3, r4⟩ := rows_left (ts := ts) (fun u hu => h u (by simp [hu])) y2
    refine ⟨x :: r, by simp only [rows, y1, r1], by simp [r2], by simp only [lastRow, y1, r3, List.length_cons, List.getD_cons_succ], fun n hn => ?_⟩
    cases n with
    | zero => rfl
    | succ n =>
      rw [List.getD_cons_succ, r4 n (by simpa using hn), List.take_succ_cons, List.reverse_cons, pushL_append, y3]
      rfl

/-- The density matrices on the bonds, from the right; the list is reversed. -/
theorem rows_left_bond {D : ℕ} {ts : List (Ten ℂ)} (h : ∀ t ∈ ts, t.l = D ∧ t.r = D) {x : Vec ℂ} (hx : x.n = D * D) :
    ∃ r : List (Vec ℂ), rows .left ts.reverse x = .ok r ∧ r.length = ts.length + 1 ∧ lastRow .left ts.reverse x = .ok (r.getD ts.length ⟨0, fun _ => 0⟩) ∧
      ∀ n ≤ ts.length, mOf D (r.getD (ts.length - n) ⟨0, fun _ => 0⟩) = pushL D (ts.drop n) (mOf D x) := by
  obtain ⟨r, r1, r2, r3, r4⟩ := rows_left (ts := ts.reverse) (fun t ht => h t (by simpa using ht)) hx
  refine ⟨r, r1, by simpa using r2, by simpa using r3, fun n hn => ?_⟩
  rw [r4 _ (by simp), List.take_reverse, List.reverse_reverse, Nat.sub_sub_self hn]

/-! ## Scaling -/

theorem mat_mulT {D : ℕ} (z : ℝ) (t : Ten ℂ) (s : ℕ) : mat D (mulT z t) s = (z : ℂ) • mat D t s := by
  ext i j; simp [mat, mulT, mul_comm]

theorem step_smul {D d : ℕ} (z : ℝ) (c : ℂ) (M : ℕ → Matrix (Fin D) (Fin D) ℂ) (P : Matrix (Fin D) (Fin D) ℂ) :
    ∑ s ∈ range d, ((z : ℂ) • M s)ᴴ * (c • P) * ((z : ℂ) • M s) = (c * (z : ℂ) ^ 2) • ∑ s ∈ range d, (M s)ᴴ * P * M s := by
  rw [smul_sum]
  refine sum_congr rfl fun s _ => ?_
  rw [conjTranspose_smul, show star (z : ℂ) = z from Complex.conj_ofReal z]
  simp only [Matrix.smul_mul, Matrix.mul_smul, smul_smul]
  congr 1; ring

theorem step_smul' {D d : ℕ} (z : ℝ) (c : ℂ) (M : ℕ → Matrix (Fin D) (Fin D) ℂ) (P : Matrix (Fin D) (Fin D) ℂ) :
    ∑ s ∈ range d, ((z : ℂ) • M s) * (c • P) * ((z : ℂ) • M s)ᴴ = (c * (z : ℂ) ^ 2) • ∑ s ∈ range d, M s * P * (M s)ᴴ := by
  rw [smul_sum]
  refine sum_congr rfl fun s _ => ?_
  rw [conjTranspose_smul, show star (z : ℂ) = z from Complex.conj_ofReal z]
  simp only [Matrix.smul_mul, Matrix.mul_smul, smul_smul]
  congr 1; ring

theorem pushR_scale {D : ℕ} (z : ℝ) : ∀ (ts : List (Ten ℂ)) (c : ℂ) (P : Matrix (Fin D) (Fin D) ℂ),
    pushR D (ts.map (mulT z)) (c • P) = (c * (z : ℂ) ^ (2 * ts.length)) • pushR D ts P
  | [], c, P => by simp [pushR]
  | t :: ts, c, P => by
    simp only [List.map_cons, pushR, mat_mulT]
    rw [show (mulT z t).d = t.d from rfl, step_smul, pushR_scale z ts]
    congr 1
    rw [List.length_cons]; ring

theorem pushL_scale {D : ℕ} (z : ℝ) : ∀ (ts : List (Ten ℂ)) (P : Matrix (Fin D) (Fin D) ℂ),
    pushL D (ts.map (mulT z)) P = ((z : ℂ) ^ (2 * ts.length)) • pushL D ts P
  | [], P => by simp [pushL]
  | t :: ts, P => by
    simp only [List.map_cons, pushL, mat_mulT]
    rw [show (mulT z t).d = t.d from rfl, pushL_scale z ts, step_smul']
    congr 1
    rw [List.length_cons]; ring

theorem well_smul {D : ℕ} {M : Matrix (Fin D) (Fin D) ℂ} (h : WellConditioned M) {c : ℝ} (hc : 0 < c) : WellConditioned ((c : ℂ) • M) := by
  obtain ⟨lo, hi, h1, h2, h3, h4⟩ := h
  have hc' : (0 : ℂ) ≤ c := by exact_mod_cast hc.le
  refine ⟨c * lo, c * hi, mul_pos hc h1, by rw [mul_assoc]; exact mul_lt_mul_of_pos_left h2 hc, ?_, ?_⟩
  · have := h3.smul hc'
    rw [smul_sub, smul_smul] at this
    simpa using this
  · have := h4.smul hc'
    rw [smul_sub, smul_smul] at this
    simpa using this

theorem well_transpose {D : ℕ} {M : Matrix (Fin D) (Fin D) ℂ} (h : WellConditioned M) : WellConditioned Mᵀ := by
  obtain ⟨lo, hi, h1, h2, h3, h4⟩ := h
  refine ⟨lo, hi, h1, h2, ?_, ?_⟩
  · have := h3.transpose
    simpa using this
  · have := h4.transpose
    simpa using this

/-! ## The eigenvector -/

/-- An eigenvector of an eigenvalue that is not smaller than the leading one. -/
theorem lead_unique {dir : Dir} {pinv : ℝ} {n : ℕ} {ts : List (Ten ℂ)} {η : ℝ} {p : ℕ → ℕ → ℂ}
    (hne : ts ≠ []) (hl : Linked n ts n) (hN : Normal dir pinv n ts η p) {μ : ℂ} {v : Vec ℂ} (a1 : v.n = n * n)
    (a2 : ∃ i < n * n, v.v i ≠ 0) (a3 : ∃ w, unitcellTransferOperator dir ts v = .ok w ∧ ∀ i < n * n, w.v i = μ * v.v i) (hμ : η ≤ ‖μ‖) :
    μ = η ∧ ∃ c : ℂ, c ≠ 0 ∧ ∀ i < n, ∀ j < n, v.v (i * n + j) = c * p i j := by
  obtain ⟨k, hk, hk0⟩ := a2
  obtain ⟨w, w1, w2⟩ := a3
  have hn : 0 < n := Nat.pos_of_ne_zero fun h0 => by rw [h0] at hk; simp at hk
  have hv : IsMat v n fun i j => v.v (i * n + j) := ⟨a1, fun _ _ _ _ => rfl⟩
  have heig : ∀ i < n, ∀ j < n, act dir ts n (fun i j => v.v (i * n + j)) i j = μ * v.v (i * n + j) := by
    intro i hi j hj
    obtain ⟨y, y1, y2⟩ := unit_act dir hne hl hv
    rw [w1] at y1
    cases y1
    rw [← w2 _ (index_lt hi hj), y2.2 i hi j hj]
  obtain ⟨i0, hi0, hp0⟩ := hN.dens.ne
  have hnz : ∃ i < n, ∃ j < n, v.v (i * n + j) ≠ 0 := by
    refine ⟨k / n, Nat.div_lt_of_lt_mul hk, k % n, Nat.mod_lt _ hn, ?_⟩
    rwa [Nat.div_add_mod' k n]
  obtain ⟨c, hc⟩ := hN.uniq μ _ hnz heig hμ
  have hc0 : c ≠ 0 := by
    rintro rfl
    obtain ⟨i, hi, j, hj, h0⟩ := hnz
    exact h0 (by rw [hc i hi j hj, zero_mul])
  refine ⟨?_, c, hc0, hc⟩
  have e := heig i0 hi0 i0 hi0
  rw [act_congr dir ts hc, act_smul, hN.eig i0 hi0 i0 hi0, hc i0 hi0 i0 hi0] at e
  have : c * p i0 i0 * (μ - η) = 0 := by linear_combination -e
  rcases mul_eq_zero.1 this with h' | h'
  · exact absurd h' (mul_ne_zero hc0 hp0)
  · exact sub_eq_zero.1 h'

/-- Among the six leading eigenvalues the one with the largest real part is the leading one. -/
theorem lead_of_list {eigs : Eigs} (hE : EigsSpec eigs) {dir : Dir} {pinv : ℝ} {n : ℕ} {ts : List (Ten ℂ)} {η : ℝ} {p : ℕ → ℕ → ℂ} (hn : 0 < n)
    (hne : ts ≠ []) (hl : Linked n ts n) (hN : Normal dir pinv n ts η p) {k : ℕ} (hk : 0 < k) {l : List (ℂ × Vec ℂ)}
    (h : eigs (n * n) (unitcellTransferOperator dir ts) k = .ok l) :
    ∃ v, argmaxRe l = .ok ((η : ℂ), v) ∧ v.n = n * n ∧ ∃ c : ℂ, c ≠ 0 ∧ ∀ i < n, ∀ j < n, v.v (i * n + j) = c * p i j := by
  obtain ⟨l1, l2⟩ := hE _ _ _ _ h
  obtain ⟨q, hq⟩ := argmaxRe_total (l := l) (by rintro rfl; simp at l1; omega)
  obtain ⟨m1, m2⟩ := Steady.argmaxRe_max hq
  obtain ⟨a1, a2, a3, a4⟩ := l2 q m1
  obtain ⟨x, -, hx⟩ := flat_isMat (f := p) (r := n) rfl
  obtain ⟨i0, hi0, hp0⟩ := hN.dens.ne
  obtain ⟨z, z1, z2⟩ := unit_act dir hne hl hx
  have hle : η ≤ ‖q.1‖ := by
    rcases a4 (η : ℂ) x hx.1 ⟨i0 * n + i0, index_lt hi0 hi0, by rw [hx.2 _ hi0 _ hi0]; exact hp0⟩ ⟨z, z1, fun i hi => by
      have e : i = i / n * n + i % n := (Nat.div_add_mod' i n).symm
      have h1 : i / n < n := Nat.div_lt_of_lt_mul hi
      have h2 : i % n < n := Nat.mod_lt _ hn
      rw [e, z2.2 _ h1 _ h2, hx.2 _ h1 _ h2, hN.eig _ h1 _ h2]⟩ with h' | ⟨q', hq', e⟩
    · simpa [abs_of_pos hN.pos] using h'
    · have := m2 q' hq'
      rw [e, Complex.ofReal_re] at this
      exact this.trans (Complex.re_le_norm _)
  obtain ⟨b1, b2⟩ := lead_unique hne hl hN a1 a2 a3 hle
  exact ⟨q.2, by rw [hq, ← b1], a1, b2⟩

/-- `UnitcellTMeigs` finds the density matrix of a normal cell. -/
theorem cellEigs_ok {eigs : Eigs} (hE : EigsSpec eigs) (hc : ConvergesSix eigs) {dir : Dir} {pinv : ℝ} {D : ℕ} (hD : 3 ≤ D) {ts : List (Ten ℂ)} {η : ℝ}
    {p : ℕ → ℕ → ℂ} (hne : ts ≠ []) (hs : ∀ t ∈ ts, t.l = D ∧ t.r = D) (hN : Normal dir pinv D ts η p) :
    ∃ v, cellEigs eigs dir D ts = .ok ((η : ℂ), v) ∧ v.n = D * D ∧ ∃ c : ℂ, c ≠ 0 ∧ ∀ i < D, ∀ j < D, v.v (i * D + j) = c * p i j := by
  have hl := linked_square hs
  obtain ⟨l, h⟩ := hc dir ts D hne hl hD
  obtain ⟨v, v1, v2, v3⟩ := lead_of_list hE (by omega) hne hl hN (by norm_num) h
  have h9 : 9 ≤ D * D := Nat.mul_le_mul hD hD
  obtain ⟨F, hF⟩ : ∃ F, D * D = F + 1 := ⟨D * D - 1, by omega⟩
  refine ⟨v, ?_, v2, v3⟩
  unfold cellEigs
  rw [cellOp_eq dir hne hs, hF, eigLoop, ← hF, if_neg (by omega), h]
  simp only [v1, Complex.ofReal_im, abs_zero]
  rw [if_neg (by norm_num)]

/-- The density matrix of the eigenvector. -/
theorem densVec_ok {pinv : ℝ} {D : ℕ} {p : ℕ → ℕ → ℂ} (hp : Density pinv D p) {v : Vec ℂ} {c : ℂ} (hc : c ≠ 0)
    (hv : ∀ i < D, ∀ j < D, v.v (i * D + j) = c * p i j) : ∃ x, densVec D v = .ok x ∧ IsMat x D p := by
  have htr : ∑ i ∈ range D, (square D v).v i i = c := by
    simp only [square]
    rw [sum_congr rfl fun i hi => hv i (mem_range.1 hi) i (mem_range.1 hi), ← mul_sum, hp.tr, mul_one]
  refine ⟨_, by unfold densVec; rw [htr, if_neg hc], rfl, fun i hi j hj => ?_⟩
  have hD : 0 < D := by omega
  have e1 : (i * D + j) / D = i := by rw [mul_comm, Nat.mul_add_div hD, Nat.div_eq_of_lt hj, add_zero]
  have e2 : (i * D + j) % D = j := by rw [mul_comm, Nat.mul_add_mod, Nat.mod_eq_of_lt hj]
  simp only [square, e1, e2]
  rw [hv i hi j hj, hv j hj i hi, mul_div_cancel_left₀ _ hc, mul_div_cancel_left₀ _ hc, hp.herm j hj i hi]
  ring

/-! ## The gauge -/

section
open scoped MatrixOrder

theorem root_unique {D : ℕ} {S T : Matrix (Fin D) (Fin D) ℂ} (hS : S.PosSemidef) (hT : T.PosSemidef) (h : S * S = T * T) : S = T := by
  have h1 := CFC.sqrt_unique (a := S * S) (b := S) rfl hS.nonneg
  have h2 := CFC.sqrt_unique (a := S * S) (b := T) h.symm hT.nonneg
  exact h1.symm.trans h2

end

theorem pushR_append {D : ℕ} : ∀ (a b : List (Ten ℂ)) (P : Matrix (Fin D) (Fin D) ℂ), pushR D (a ++ b) P = pushR D b (pushR D a P)
  | [], _, _ => rfl
  | t :: a, b, P => by rw [List.cons_append, pushR, pushR, pushR_append a b]

theorem atT_mem {ts : List (Ten ℂ)} {n : ℕ} (h : n < ts.length) : atT ts n ∈ ts ∧ ts[n]? = some (atT ts n) := by
  unfold atT
  rw [List.getD_eq_getElem _ _ h]
  exact ⟨List.getElem_mem h, List.getElem?_eq_getElem h⟩

theorem pushR_succ {D : ℕ} {ts : List (Ten ℂ)} {n : ℕ} (h : n < ts.length) (P : Matrix (Fin D) (Fin D) ℂ) :
    pushR D (ts.take (n + 1)) P = ∑ s ∈ range (atT ts n).d, (mat D (atT ts n) s)ᴴ * pushR D (ts.take n) P * mat D (atT ts n) s := by
  rw [List.take_add_one, (atT_mem h).2, pushR_append]
  rfl

theorem pushL_succ {D : ℕ} {ts : List (Ten ℂ)} {n : ℕ} (h : n < ts.length) (Q : Matrix (Fin D) (Fin D) ℂ) :
    pushL D (ts.drop n) Q = ∑ s ∈ range (atT ts n).d, mat D (atT ts n) s * pushL D (ts.drop (n + 1)) Q * (mat D (atT ts n) s)ᴴ := by
  rw [List.drop_eq_getElem_cons h, pushL]
  unfold atT
  rw [List.getD_eq_getElem _ _ h]

theorem atT_map {N : ℕ} (f : ℕ → Ten ℂ) {n : ℕ} (h : n < N) : atT ((List.range N).map f) n = f n := by
  unfold atT
  rw [List.getD_eq_getElem _ _ (by simpa using h)]
  simp

theorem at_map {N : ℕ} (f : ℕ → Mat ℂ) {n : ℕ} (h : n < N) : at_ ((List.range N).map f) n = f n := by
  unfold at_
  rw [List.getD_eq_getElem _ _ (by simpa using h)]
  simp

theorem at_list (l : List (Vec ℂ)) (f : Vec ℂ → Mat ℂ) {n : ℕ} (h : n < l.length) : at_ (l.map f) n = f (l.getD n ⟨0, fun _ => 0⟩) := by
  unfold at_
  rw [List.getD_eq_getElem _ _ (by simpa using h), List.getD_eq_getElem _ _ h]
  simp

theorem toM_dotM (D : ℕ) (a b : Mat ℂ) : toM D (dotM D a b).v = toM D a.v * toM D b.v := by
  ext i j
  simp only [toM, dotM, Matrix.mul_apply, sum_range]

theorem mat_dotL (D d : ℕ) (a : Mat ℂ) (A : Ten ℂ) (s : ℕ) : mat D (dotL D d a A) s = toM D a.v * mat D A s := by
  ext i j
  simp only [toM, dotL, mat, Matrix.mul_apply, sum_range]

theorem mat_dotR (D d : ℕ) (a : Mat ℂ) (A : Ten ℂ) (s : ℕ) : mat D (dotR D d A a) s = mat D A s * toM D a.v := by
  ext i j
  simp only [toM, dotR, mat, Matrix.mul_apply, sum_range]

theorem toM_trM (D : ℕ) (a : Mat ℂ) : toM D (trM a).v = (toM D a.v)ᵀ := rfl

/-- The matrices on the bonds: `λ`, `ρ` are the density matrices. -/
structure Roots (D : ℕ) (lam rho L R Pl Pr : Matrix (Fin D) (Fin D) ℂ) : Prop where
  lpos : L.PosSemidef
  rpos : R.PosSemidef
  lsq : L * L = lam
  rsq : R * R = rho
  linv : Pl * L = 1
  rinv : Pr * R = 1

theorem inv_herm {D : ℕ} {P L : Matrix (Fin D) (Fin D) ℂ} (hL : L.PosSemidef) (h : P * L = 1) : L * P = 1 ∧ Pᴴ = P := by
  have h1 : L * P = 1 := mul_eq_one_comm.1 h
  refine ⟨h1, ?_⟩
  have h2 : Pᴴ * L = 1 := by
    have := congrArg conjTranspose h1
    rwa [conjTranspose_mul, hL.1.eq, conjTranspose_one] at this
  calc Pᴴ = Pᴴ * (L * P) := by rw [h1, Matrix.mul_one]
    _ = P := by rw [← Matrix.mul_assoc, h2, Matrix.one_mul]

theorem left_iso {D d : ℕ} {M : ℕ → Matrix (Fin D) (Fin D) ℂ} {lam lam' L L' P : Matrix (Fin D) (Fin D) ℂ} (hL : L.PosSemidef) (hL' : L'.PosSemidef)
    (h1 : L * L = lam) (h2 : L' * L' = lam') (h3 : P * L' = 1) (hs : lam' = ∑ s ∈ range d, (M s)ᴴ * lam * M s) :
    ∑ s ∈ range d, (L * M s * P)ᴴ * (L * M s * P) = 1 := by
  obtain ⟨g1, g2⟩ := inv_herm hL' h3
  calc ∑ s ∈ range d, (L * M s * P)ᴴ * (L * M s * P) = P * (∑ s ∈ range d, (M s)ᴴ * lam * M s) * P := by
        rw [Finset.mul_sum, Finset.sum_mul]
        refine sum_congr rfl fun s _ => ?_
        rw [conjTranspose_mul, conjTranspose_mul, hL.1.eq, g2, ← h1]
        simp only [Matrix.mul_assoc]
    _ = 1 := by rw [← hs, ← h2, ← Matrix.mul_assoc, h3, Matrix.one_mul, g1]

theorem right_iso {D d : ℕ} {M : ℕ → Matrix (Fin D) (Fin D) ℂ} {rho rho' R R' P : Matrix (Fin D) (Fin D) ℂ} (hR : R.PosSemidef) (hR' : R'.PosSemidef)
    (h1 : R * R = rho) (h2 : R' * R' = rho') (h3 : P * R = 1) (hs : rho = ∑ s ∈ range d, M s * rho' * (M s)ᴴ) :
    ∑ s ∈ range d, (P * M s * R') * (P * M s * R')ᴴ = 1 := by
  obtain ⟨g1, g2⟩ := inv_herm hR h3
  calc ∑ s ∈ range d, (P * M s * R') * (P * M s * R')ᴴ = P * (∑ s ∈ range d, M s * rho' * (M s)ᴴ) * P := by
        rw [Finset.mul_sum, Finset.sum_mul]
        refine sum_congr rfl fun s _ => ?_
        rw [conjTranspose_mul, conjTranspose_mul, hR'.1.eq, g2, ← h2]
        simp only [Matrix.mul_assoc]
    _ = 1 := by rw [← hs, ← h1, ← Matrix.mul_assoc, h3, Matrix.one_mul, g1]

/-- Spec: density matrices on all bonds, from the left (`lam`) and from the right (`rho`). -/
structure Bonds (D d : ℕ) (ts : List (Ten ℂ)) (lam rho : ℕ → Matrix (Fin D) (Fin D) ℂ) : Prop where
  wl : ∀ n ≤ ts.length, WellConditioned (lam n)
  wr : ∀ n ≤ ts.length, WellConditioned (rho n)
  sl : ∀ n < ts.length, lam (n + 1) = ∑ s ∈ range d, (mat D (atT ts n) s)ᴴ * lam n * mat D (atT ts n) s
  sr : ∀ n < ts.length, rho n = ∑ s ∈ range d, mat D (atT ts n) s * rho (n + 1) * (mat D (atT ts n) s)ᴴ
  pl : lam 0 = lam ts.length
  pr : rho 0 = rho ts.length

theorem assemble_ok {sqrtm pinv : Mat ℂ → Mat ℂ} (hG : GaugeSpec sqrtm pinv) {D d : ℕ} {ts : List (Ten ℂ)} (hd : ∀ t ∈ ts, t.d = d)
    {lam rho : ℕ → Matrix (Fin D) (Fin D) ℂ} (hB : Bonds D d ts lam rho) {ld rd : List (Vec ℂ)} (hl : ld.length = ts.length + 1)
    (hr : rd.length = ts.length + 1) (el : ∀ n ≤ ts.length, (mOf D (ld.getD n ⟨0, fun _ => 0⟩))ᵀ = lam n)
    (er : ∀ n ≤ ts.length, mOf D (rd.getD (ts.length - n) ⟨0, fun _ => 0⟩) = rho n) (η1 η2 : ℂ) :
    ∃ o, assemble sqrtm pinv D d ts ld rd η1 η2 = .ok o ∧ o.eta1 = η1 ∧ o.eta2 = η2 ∧ o.mps = ts ∧ o.ldens = ld ∧ o.rdens = rd ∧
      Central D d 1 ts o.mpsl o.mpsr o.Cs ∧
      (∀ n < ts.length, ∀ s < d, mat D (atT o.mpsl n) s = toM D (at_ o.Cs n).v * mat D (atT o.gamma n) s ∧
        mat D (atT o.mpsr n) s = mat D (atT o.gamma n) s * toM D (at_ o.Cs (n + 1)).v) ∧
      ∀ n ≤ ts.length, (toM D (at_ o.Cs n).v)ᴴ * toM D (at_ o.Cs n).v =
        toM D (at_ o.sqrtr (ts.length - n)).v * lam n * toM D (at_ o.sqrtr (ts.length - n)).v ∧
        (toM D (at_ o.sqrtr (ts.length - n)).v).PosSemidef ∧ toM D (at_ o.sqrtr (ts.length - n)).v * toM D (at_ o.sqrtr (ts.length - n)).v = rho n := by
  set N := ts.length with hN
  set ls := ld.map fun x => trM (sqrtm (square D x)) with hls
  set rs := rd.map fun x => sqrtm (square D x) with hrs
  have hroots : ∀ n ≤ N, Roots D (lam n) (rho n) (toM D (at_ ls n).v) (toM D (at_ rs (N - n)).v) (toM D (pinv (at_ ls n)).v) (toM D (pinv (at_ rs (N - n))).v) := by
    intro n hn
    have e1 : at_ ls n = trM (sqrtm (square D (ld.getD n ⟨0, fun _ => 0⟩))) := at_list ld _ (by omega)
    have e2 : at_ rs (N - n) = sqrtm (square D (rd.getD (N - n) ⟨0, fun _ => 0⟩)) := at_list rd _ (by omega)
    have w1 : WellConditioned (toM D (square D (ld.getD n ⟨0, fun _ => 0⟩)).v) := by
      have := well_transpose (hB.wl n hn)
      rwa [← el n hn, transpose_transpose] at this
    have w2 : WellConditioned (toM D (square D (rd.getD (N - n) ⟨0, fun _ => 0⟩)).v) := by
      have := hB.wr n hn
      rwa [← er n hn] at this
    obtain ⟨a1, a2, a3, a4⟩ := hG.root D _ rfl rfl w1
    obtain ⟨b1, b2, b3, b4⟩ := hG.root D _ rfl rfl w2
    have c1 : (toM D (at_ ls n).v).PosSemidef := by rw [e1, toM_trM]; exact a3.transpose
    have c2 : toM D (at_ ls n).v * toM D (at_ ls n).v = lam n := by
      rw [e1, toM_trM, ← transpose_mul, a4]; exact el n hn
    have c3 : toM D (at_ rs (N - n)).v * toM D (at_ rs (N - n)).v = rho n := by rw [e2, b4]; exact er n hn
    have c4 : (toM D (at_ rs (N - n)).v).PosSemidef := by rw [e2]; exact b3
    obtain ⟨-, -, i1⟩ := hG.inv D (at_ ls n) (by rw [e1]; exact a2) (by rw [e1]; exact a1) c1 (by rw [c2]; exact hB.wl n hn)
    obtain ⟨-, -, i2⟩ := hG.inv D (at_ rs (N - n)) (by rw [e2]; exact b1) (by rw [e2]; exact b2) c4 (by rw [c3]; exact hB.wr n hn)
    exact ⟨c1, c4, c2, c3, i1, i2⟩
  set Cs := (List.range ld.length).map fun n => dotM D (at_ ls n) (at_ rs (rd.length - 1 - n)) with hCs
  have hC : ∀ n ≤ N, toM D (at_ Cs n).v = toM D (at_ ls n).v * toM D (at_ rs (N - n)).v := by
    intro n hn
    rw [hCs, at_map _ (by omega), toM_dotM, hr, Nat.add_sub_cancel]
  set gamma := (List.range N).map fun n => dotR D d (dotL D d (pinv (at_ rs (N - n))) (atT ts n)) (pinv (at_ ls (n + 1))) with hgam
  have hg : ∀ n < N, ∀ s, mat D (atT gamma n) s = toM D (pinv (at_ rs (N - n))).v * mat D (atT ts n) s * toM D (pinv (at_ ls (n + 1))).v := by
    intro n hn s
    rw [hgam, atT_map _ hn, mat_dotR, mat_dotL]
  have hml : ∀ n < N, ∀ s, mat D (atT ((List.range N).map fun n => dotL D d (at_ Cs n) (atT gamma n)) n) s =
      toM D (at_ ls n).v * mat D (atT ts n) s * toM D (pinv (at_ ls (n + 1))).v := by
    intro n hn s
    have h1 := (inv_herm (hroots n hn.le).rpos (hroots n hn.le).rinv).1
    rw [atT_map _ hn, mat_dotL, hg n hn, hC n hn.le]
    calc _ = toM D (at_ ls n).v * (toM D (at_ rs (N - n)).v * toM D (pinv (at_ rs (N - n))).v) * mat D (atT ts n) s * toM D (pinv (at_ ls (n + 1))).v := by
          simp only [Matrix.mul_assoc]
      _ = _ := by rw [h1, Matrix.mul_one]
  have hmr : ∀ n < N, ∀ s, mat D (atT ((List.range N).map fun n => dotR D d (atT gamma n) (at_ Cs (n + 1))) n) s =
      toM D (pinv (at_ rs (N - n))).v * mat D (atT ts n) s * toM D (at_ rs (N - (n + 1))).v := by
    intro n hn s
    have h1 := (hroots (n + 1) hn).linv
    rw [atT_map _ hn, mat_dotR, hg n hn, hC (n + 1) hn]
    calc _ = toM D (pinv (at_ rs (N - n))).v * mat D (atT ts n) s * (toM D (pinv (at_ ls (n + 1))).v * toM D (at_ ls (n + 1)).v) * toM D (at_ rs (N - (n + 1))).v := by
          simp only [Matrix.mul_assoc]
      _ = _ := by rw [h1, Matrix.mul_one]
  have hrun : assemble sqrtm pinv D d ts ld rd η1 η2 = .ok ⟨gamma, (List.range N).map fun n => dotL D d (at_ Cs n) (atT gamma n),
      (List.range N).map fun n => dotR D d (atT gamma n) (at_ Cs (n + 1)), Cs, ld, rd, ls, rs, η1, η2, ts⟩ := by
    unfold assemble
    rw [if_neg]
    rintro ⟨t, ht, h⟩
    rw [hd t ht] at h
    exact lt_irrefl _ h
  have hper : toM D (at_ ls 0).v = toM D (at_ ls N).v ∧ toM D (at_ rs (N - 0)).v = toM D (at_ rs (N - N)).v := by
    have h0 := hroots 0 (Nat.zero_le _)
    have h1 := hroots N le_rfl
    exact ⟨root_unique h0.lpos h1.lpos (by rw [h0.lsq, h1.lsq, hB.pl]), root_unique h0.rpos h1.rpos (by rw [h0.rsq, h1.rsq, hB.pr])⟩
  refine ⟨_, hrun, rfl, rfl, rfl, rfl, rfl, ⟨⟨(List.length_map _).trans List.length_range, (List.length_map _).trans List.length_range, by rw [hCs, List.length_map, List.length_range, hl]⟩, fun n hn => ?_, fun n hn => ?_, fun n hn => ?_, fun n hn s _ => ?_,
    fun n hn => ?_, ?_, fun n => toM D (at_ ls n).v, fun n hn => ?_, hper.1, fun n hn s _ => ?_⟩, fun n hn s _ => ⟨?_, ?_⟩, fun n hn => ⟨?_, (hroots n hn).rpos, (hroots n hn).rsq⟩⟩
  · dsimp only
    rw [atT_map (fun n => dotL D d (at_ Cs n) (atT gamma n)) hn, atT_map (fun n => dotR D d (atT gamma n) (at_ Cs (n + 1))) hn]
    exact ⟨⟨rfl, rfl, rfl⟩, rfl, rfl, rfl⟩
  · dsimp only
    simp only [hml n hn]
    exact left_iso (hroots n hn.le).lpos (hroots (n + 1) hn).lpos (hroots n hn.le).lsq (hroots (n + 1) hn).lsq (hroots (n + 1) hn).linv (hB.sl n hn)
  · dsimp only
    simp only [hmr n hn]
    exact right_iso (hroots n hn.le).rpos (hroots (n + 1) hn).rpos (hroots n hn.le).rsq (hroots (n + 1) hn).rsq (hroots n hn.le).rinv (hB.sr n hn)
  · dsimp only
    rw [atT_map (fun n => dotL D d (at_ Cs n) (atT gamma n)) hn, atT_map (fun n => dotR D d (atT gamma n) (at_ Cs (n + 1))) hn, mat_dotL, mat_dotR,
      Matrix.mul_assoc]
  · dsimp only
    rw [hC n hn]
    have h := hroots n hn
    exact (IsUnit.of_mul_eq_one _ (inv_herm h.lpos h.linv).1).mul (IsUnit.of_mul_eq_one _ (inv_herm h.rpos h.rinv).1)
  · dsimp only
    rw [hC 0 (Nat.zero_le _), hC N le_rfl, hper.1, hper.2]
  · exact IsUnit.of_mul_eq_one _ (inv_herm (hroots n hn).lpos (hroots n hn).linv).1
  · dsimp only
    rw [hml n hn, Matrix.mul_assoc _ _ (toM D (at_ ls (n + 1)).v), (hroots (n + 1) hn).linv, Matrix.mul_one, Complex.ofReal_one, one_smul]
  · dsimp only
    rw [atT_map _ hn, mat_dotL]
  · dsimp only
    rw [atT_map _ hn, mat_dotR]
  · dsimp only
    have h := hroots n hn
    rw [hC n hn, conjTranspose_mul, h.lpos.1.eq, h.rpos.1.eq, ← h.lsq]
    simp only [Matrix.mul_assoc]

/-- The norm of the matrices on the bonds is the same everywhere. -/
theorem bonds_trace {D d : ℕ} {ts : List (Ten ℂ)} {lam rho : ℕ → Matrix (Fin D) (Fin D) ℂ} (hB : Bonds D d ts lam rho) :
    ∀ n ≤ ts.length, trace (lam n * rho n) = trace (lam 0 * rho 0)
  | 0, _ => rfl
  | n + 1, hn => by
    rw [← bonds_trace hB n (by omega), hB.sl n (by omega), hB.sr n (by omega), Finset.sum_mul, Finset.mul_sum, trace_sum, trace_sum]
    refine sum_congr rfl fun s _ => ?_
    rw [Matrix.mul_assoc, Matrix.mul_assoc, trace_mul_comm]
    simp only [Matrix.mul_assoc]

theorem mulT_eq {z : ℝ} (t : Ten ℂ) : mulT z⁻¹ t = divT z t := by
  unfold mulT divT
  simp only [Complex.ofReal_inv, div_eq_mul_inv]

theorem atT_scale {z : ℝ} {ts : List (Ten ℂ)} {n : ℕ} (h : n < ts.length) : atT (ts.map (mulT z)) n = mulT z (atT ts n) := by
  unfold atT
  rw [List.getD_eq_getElem _ _ (by simpa using h), List.getD_eq_getElem _ _ h, List.getElem_map]

theorem isMat_mOf {D : ℕ} {x : Vec ℂ} {p : ℕ → ℕ → ℂ} (h : IsMat x D p) : mOf D x = toM D p := by
  ext i j
  exact h.2 i i.2 j j.2

/-- The factor in every tensor. -/
theorem phi_eq {η : ℝ} (h : 0 < η) (N : ℕ) : (((η : ℂ) ^ ((-(1 / (2 * (N : ℝ))) : ℝ) : ℂ)).re : ℝ) = (η ^ (1 / (2 * (N : ℝ))))⁻¹ := by
  rw [← Complex.ofReal_cpow h.le, Complex.ofReal_re, Real.rpow_neg h.le]

variable {sqrtm pinv : Mat ℂ → Mat ℂ} {eigs : Eigs} {D d : ℕ} {ts : List (Ten ℂ)} {η : ℝ} {p q : ℕ → ℕ → ℂ}

/-- **C112 (the gauge).**  For a cell of square tensors of bond dimension three or more with one leading eigenvalue and well-conditioned
density matrices `regaugecentralC` returns the left- and right-orthonormal tensors and the matrices on the bonds between them; the same
uniform state, with the tensors divided by `η^(1/(2N))`, which is done in place in the argument, too.  `Gamma` is what is left of both
when the matrices on the bonds are taken off.  The second eigenvalue is that of the normalised cell, so it is always 1. -/
theorem C112_gauge (hG : GaugeSpec sqrtm pinv) (hE : EigsSpec eigs) (hc : ConvergesSix eigs) (h : Cell D d ts η p q) :
    ∃ o, regaugecentralC sqrtm pinv eigs ts = .ok o ∧ o.eta1 = η ∧ o.eta2 = 1 ∧
      o.mps = ts.map (mulT (η ^ (1 / (2 * (ts.length : ℝ))))⁻¹) ∧
      Central D d (η ^ (1 / (2 * (ts.length : ℝ))))⁻¹ ts o.mpsl o.mpsr o.Cs ∧
      (∀ n < ts.length, ∀ s < d, mat D (atT o.mpsl n) s = toM D (at_ o.Cs n).v * mat D (atT o.gamma n) s ∧
        mat D (atT o.mpsr n) s = mat D (atT o.gamma n) s * toM D (at_ o.Cs (n + 1)).v) ∧
      ∀ n ≤ ts.length, trace ((toM D (at_ o.Cs n).v)ᴴ * toM D (at_ o.Cs n).v) = ∑ i ∈ range D, ∑ j ∈ range D, p i j * q i j := by
  obtain ⟨t0, tl, rfl⟩ := List.exists_cons_of_ne_nil h.ne
  set ts := t0 :: tl with hts
  have hsq : ∀ t ∈ ts, t.l = D ∧ t.r = D := fun t ht => ⟨(h.shape t ht).1, (h.shape t ht).2.1⟩
  obtain ⟨s1, s2, s3⟩ := h.shape t0 (by simp [hts])
  have hD := h.three
  have hN : 0 < ts.length := by simp [hts]
  set z := η ^ (1 / (2 * (ts.length : ℝ))) with hz
  have hzp : 0 < z := root_pos h.left.pos _
  have hzN : z ^ (2 * ts.length) = η := root_pow h.left.pos hN
  set ts' := ts.map (mulT z⁻¹) with hts'
  have hdiv : ts' = ts.map (divT z) := by rw [hts']; exact List.map_congr_left fun t _ => mulT_eq t
  have hlen : ts'.length = ts.length := by simp [hts']
  have hne' : ts' ≠ [] := by simp [hts', hts]
  have hsh' : ∀ t ∈ ts', t.l = D ∧ t.r = D ∧ t.d = d := by
    intro t ht
    obtain ⟨u, hu, rfl⟩ := List.mem_map.1 ht
    exact h.shape u hu
  have hsq' : ∀ t ∈ ts', t.l = D ∧ t.r = D := fun t ht => ⟨(hsh' t ht).1, (hsh' t ht).2.1⟩
  have nl : Normal .right 0 D ts' 1 p := by
    have := h.left.scale hzp
    rwa [hzN, div_self h.left.pos.ne', ← hdiv] at this
  have nr : Normal .left 0 D ts' 1 q := by
    have := h.right.scale hzp
    rwa [hzN, div_self h.left.pos.ne', ← hdiv] at this
  obtain ⟨v1, a1, a2, c, c0, a3⟩ := cellEigs_ok hE hc hD h.ne hsq h.left
  obtain ⟨x, x1, x2⟩ := densVec_ok h.left.dens c0 a3
  obtain ⟨ld, l1, l2, l3, l4⟩ := rows_right hsq' x2.1
  obtain ⟨v2, b1, b2, c', c0', b3⟩ := cellEigs_ok hE hc hD hne' hsq' nr
  obtain ⟨y, y1, y2⟩ := densVec_ok h.right.dens c0' b3
  obtain ⟨rd, r1, r2, r3, r4⟩ := rows_left_bond hsq' y2.1
  rw [hlen] at l2 l3 l4 r2 r3 r4
  rw [isMat_mOf x2] at l4
  rw [isMat_mOf y2] at r4
  have lastL : mOf D (ld.getD ts.length ⟨0, fun _ => 0⟩) = toM D p := by
    obtain ⟨w, w1, w2⟩ := unit_act .right hne' (linked_square hsq') x2
    rw [← cellOp_eq .right hne' hsq', order, l3] at w1
    cases w1
    rw [isMat_mOf w2]
    ext i j
    simp only [toM]
    rw [nl.eig i i.2 j j.2, Complex.ofReal_one, one_mul]
  have lastR : mOf D (rd.getD ts.length ⟨0, fun _ => 0⟩) = toM D q := by
    obtain ⟨w, w1, w2⟩ := unit_act .left hne' (linked_square hsq') y2
    rw [← cellOp_eq .left hne' hsq', order, r3] at w1
    cases w1
    rw [isMat_mOf w2]
    ext i j
    simp only [toM]
    rw [nr.eig i i.2 j j.2, Complex.ofReal_one, one_mul]
  have hpow : ∀ k : ℕ, ((z⁻¹ : ℝ) : ℂ) ^ k = ((z⁻¹ ^ k : ℝ) : ℂ) := fun k => by push_cast; rfl
  have hB : Bonds D d ts' (fun n => pushR D (ts'.take n) (toM D p)ᵀ) (fun n => pushL D (ts'.drop n) (toM D q)) := by
    refine ⟨fun n hn => ?_, fun n hn => ?_, fun n hn => ?_, fun n hn => ?_, ?_, ?_⟩
    · rw [hlen] at hn
      rw [hts', ← List.map_take, ← one_smul ℂ (toM D p)ᵀ, pushR_scale, one_mul, hpow]
      exact well_smul (h.wl n hn) (pow_pos (inv_pos.2 hzp) _)
    · rw [hlen] at hn
      rw [hts', ← List.map_drop, pushL_scale, hpow]
      exact well_smul (h.wr n hn) (pow_pos (inv_pos.2 hzp) _)
    · rw [pushR_succ hn, (hsh' _ (atT_mem hn).1).2.2]
    · rw [pushL_succ hn, (hsh' _ (atT_mem hn).1).2.2]
    · rw [hlen, ← l4 _ le_rfl, lastL]
      rfl
    · rw [hlen, ← r4 0 (Nat.zero_le _), Nat.sub_zero, lastR, ← hlen, List.drop_length]
      rfl
  obtain ⟨o, o1, o2, o3, o4, -, -, o5, o6, o7⟩ := assemble_ok hG (fun t ht => (hsh' t ht).2.2) hB (by rw [hlen]; exact l2) (by rw [hlen]; exact r2)
    (by rw [hlen]; exact l4) (by rw [hlen]; exact r4) (η : ℂ) ((1 : ℝ) : ℂ)
  have hrun : regaugecentralC sqrtm pinv eigs ts = .ok o := by
    have hη : (η : ℂ) ≠ 0 := by exact_mod_cast h.left.pos.ne'
    rw [hts] at a1 ⊢
    rw [regaugecentralC, if_neg (by rw [s1, s2, s3]; have := h.dpos; omega), s1, s3]
    simp only [a1, if_neg hη]
    rw [← hts, phi_eq h.left.pos, ← hz, ← hts']
    simp only [x1, l1, b1, y1, r1]
    exact o1
  rw [hlen] at o6 o7
  refine ⟨o, hrun, o2, by rw [o3, Complex.ofReal_one], o4, ?_, o6, fun n hn => ?_⟩
  · obtain ⟨k1, k2, k3, k4, k5, k6, k7, X, k8, k9, k10⟩ := o5
    rw [hlen] at k1 k2 k3 k4 k5 k6 k7 k8 k9 k10
    refine ⟨k1, k2, k3, k4, k5, k6, k7, X, k8, k9, fun n hn s hs => ?_⟩
    rw [← k10 n hn s hs, hts', atT_scale hn, mat_mulT, Matrix.mul_smul, Complex.ofReal_one, one_smul]
  · obtain ⟨e1, -, e2⟩ := o7 n hn
    have e3 := bonds_trace hB n (by rw [hlen]; exact hn)
    have e4 : pushL D (ts'.drop 0) (toM D q) = toM D q := by
      rw [← r4 0 (Nat.zero_le _), Nat.sub_zero, lastR]
    rw [e1, Matrix.mul_assoc, trace_mul_comm, Matrix.mul_assoc, e2, e3, e4, List.take_zero]
    simp only [pushR, trace, diag_apply, Matrix.mul_apply, transpose_apply, toM]
    rw [sum_comm, sum_range]
    refine sum_congr rfl fun i _ => ?_
    rw [sum_range]

/-- **C112 (orthonormal tensors).**  `computeOrthogonalMPS` returns the same. -/
theorem C112_orthogonal (hG : GaugeSpec sqrtm pinv) (hE : EigsSpec eigs) (hc : ConvergesSix eigs) (h : Cell D d ts η p q) :
    ∃ ml mr Cs ld rd, computeOrthogonalMPS sqrtm pinv eigs ts = .ok (ml, mr, Cs, ld, rd, (η : ℂ), 1) ∧
      Central D d (η ^ (1 / (2 * (ts.length : ℝ))))⁻¹ ts ml mr Cs := by
  obtain ⟨o, h1, h2, h3, -, h4, -⟩ := C112_gauge hG hE hc h
  exact ⟨o.mpsl, o.mpsr, o.Cs, o.ldens, o.rdens, by unfold computeOrthogonalMPS; rw [h1, ← h2, ← h3], h4⟩

/-- **C112 (violated for small bond dimensions).**  Six eigenvalues are asked for, so a cell of bond dimension one or two is always
refused, whatever its tensors are. -/
theorem C112_violated_small (sqrtm pinv : Mat ℂ → Mat ℂ) (eigs : Eigs) {t0 : Ten ℂ} {tl : List (Ten ℂ)} (hl : t0.l = 1 ∨ t0.l = 2) (hr : 0 < t0.r) (hd : 0 < t0.d) :
    regaugecentralC sqrtm pinv eigs (t0 :: tl) = .error .type := by
  have hcell : cellEigs eigs .right t0.l (t0 :: tl) = .error .type := by
    unfold cellEigs
    rcases hl with h | h <;> rw [h] <;> simp [eigLoop]
  rw [regaugecentralC, if_neg (by omega)]
  simp only [hcell]

/-- **C112 (components).**  Whatever the local dimensions of the other tensors are, every returned tensor has as many components as the
first one: further components of the others are lost, and a tensor with fewer components is refused. -/
theorem C112_components {t0 : Ten ℂ} {tl : List (Ten ℂ)} {o : Out} (h : regaugecentralC sqrtm pinv eigs (t0 :: tl) = .ok o) :
    (∀ t ∈ o.mpsl, t.d = t0.d) ∧ (∀ t ∈ o.mpsr, t.d = t0.d) ∧ ∀ t ∈ tl, t0.d ≤ t.d := by
  rw [regaugecentralC] at h
  split_ifs at h
  split at h
  · cases h
  split_ifs at h
  dsimp only at h
  split at h
  · cases h
  split at h
  · cases h
  split at h
  · cases h
  split at h
  · cases h
  split at h
  · cases h
  unfold assemble at h
  split_ifs at h with hlt
  cases h
  refine ⟨fun t ht => ?_, fun t ht => ?_, fun t ht => ?_⟩
  · obtain ⟨n, -, rfl⟩ := List.mem_map.1 ht
    rfl
  · obtain ⟨n, -, rfl⟩ := List.mem_map.1 ht
    rfl
  · by_contra hno
    exact hlt ⟨_, List.mem_map.2 ⟨t, by simp [ht], rfl⟩, not_le.1 hno⟩

/-! ## Witnesses -/

theorem exists_eigs_six : ∃ eigs : Eigs, EigsSpec eigs ∧ ConvergesSix eigs := by
  classical
  let Q : ℕ → (Vec ℂ → Res (Vec ℂ)) → ℂ × Vec ℂ → Prop := fun N f q => q.2.n = N ∧ (∃ i < N, q.2.v i ≠ 0) ∧
    (∃ w, f q.2 = .ok w ∧ ∀ i < N, w.v i = q.1 * q.2.v i) ∧
    ∀ (μ : ℂ) (u : Vec ℂ), u.n = N → (∃ i < N, u.v i ≠ 0) → (∃ w, f u = .ok w ∧ ∀ i < N, w.v i = μ * u.v i) → ‖μ‖ ≤ ‖q.1‖
  refine ⟨fun N f k => if h : ∃ q, Q N f q then .ok (List.replicate k h.choose) else .error .value, ?_, ?_⟩
  · intro N f k l h
    simp only at h
    split at h
    · rename_i hk
      cases h
      refine ⟨by simp, fun q hq => ?_⟩
      obtain rfl := List.eq_of_mem_replicate hq
      obtain ⟨h1, h2, h3, h4⟩ := hk.choose_spec
      exact ⟨h1, h2, h3, fun μ u a b c => Or.inl (h4 μ u a b c)⟩
    · cases h
  · intro dir ts n hne hl hn
    have : ∃ q, Q (n * n) (unitcellTransferOperator dir ts) q := exists_lead (‖·‖) dir hne hl (by omega)
    exact ⟨_, dif_pos this⟩

section
open scoped MatrixOrder

theorem exists_gauge : ∃ sqrtm pinv, GaugeSpec sqrtm pinv := by
  classical
  refine ⟨fun M => ⟨M.r, M.r, fromM (CFC.sqrt (toM M.r M.v))⟩, fun M => ⟨M.r, M.r, fromM (toM M.r M.v)⁻¹⟩, fun D M h1 h2 hw => ?_, fun D S h1 h2 hS hw => ?_⟩
  · subst h1
    have hn : 0 ≤ toM M.r M.v := (posDef_of_well hw).posSemidef.nonneg
    dsimp only
    rw [toM_fromM]
    exact ⟨rfl, rfl, (CFC.sqrt_nonneg _).posSemidef, CFC.sqrt_mul_sqrt_self (toM M.r M.v) hn⟩
  · subst h1
    dsimp only
    rw [toM_fromM]
    refine ⟨rfl, rfl, Matrix.nonsing_inv_mul _ ?_⟩
    have hd := (Matrix.isUnit_iff_isUnit_det _).1 (posDef_of_well hw).isUnit
    rw [Matrix.det_mul] at hd
    exact isUnit_of_mul_isUnit_left hd

end

/-- The cell whose nine matrices are the matrix units of dimension three. -/
def nine : Ten ℂ := ⟨3, 3, 9, fun i j s => if s = 3 * i + j then 1 else 0⟩

theorem nine_act (dir : Dir) (f : ℕ → ℕ → ℂ) : ∀ i < 3, ∀ i' < 3, act dir [nine] 3 f i i' = if i = i' then f 0 0 + f 1 1 + f 2 2 else 0 := by
  intro i hi i' hi'
  cases dir <;> interval_cases i <;> interval_cases i' <;>
    simp [act, kern, chain, nine, sumCfg, sum_range_succ, delta]

theorem nine_normal (dir : Dir) : Normal dir 0 3 [nine] 3 fun i j => if i = j then 1 / 3 else 0 := by
  refine ⟨three_pos, ⟨?_, ?_, ?_⟩, ?_, ?_⟩
  · intro i _ j _
    by_cases hij : i = j
    · subst hij; simp
    · rw [if_neg hij, if_neg (Ne.symm hij), star_zero]
  · simp
  · intro x hx
    have : (∑ i ∈ range 3, ∑ j ∈ range 3, star (x i) * (if i = j then 1 / 3 else 0) * x j) = ((1 / 3 : ℝ) : ℂ) := by
      have hx' : ((∑ i ∈ range 3, Complex.normSq (x i) : ℝ) : ℂ) = 1 := by rw [hx]; simp
      simp only [sum_range_succ, sum_range_zero, zero_add] at hx' ⊢
      push_cast at hx' ⊢
      simp only [← Complex.mul_conj, Complex.star_def] at hx' ⊢
      norm_num
      linear_combination (1 / 3) * hx'
    rw [this, Complex.ofReal_re]
    norm_num
  · intro i hi j hj
    rw [nine_act dir _ i hi j hj]
    by_cases hij : i = j
    · subst hij; norm_num
    · simp [hij]
  · intro μ f hf he hle
    have hμ : μ ≠ 0 := by
      rintro rfl
      simp at hle
      linarith
    refine ⟨3 * (f 0 0 + f 1 1 + f 2 2) / μ, fun i hi j hj => ?_⟩
    have := he i hi j hj
    rw [nine_act dir _ i hi j hj] at this
    by_cases hij : i = j
    · subst hij
      simp only [if_true] at this ⊢
      rw [this]
      field_simp
    · rw [if_neg hij] at this
      rw [if_neg hij, mul_zero]
      exact (mul_eq_zero.1 this.symm).resolve_left hμ

theorem third_one : toM 3 (fun i j => if i = j then (1 / 3 : ℂ) else 0) = ((1 / 3 : ℝ) : ℂ) • (1 : Matrix (Fin 3) (Fin 3) ℂ) := by
  ext i j
  simp only [toM, Matrix.smul_apply, Matrix.one_apply, Fin.ext_iff]
  by_cases h : (i : ℕ) = j <;> simp [h]

theorem nine_sum (s1 : ℕ → Matrix (Fin 3) (Fin 3) ℂ) (h : (s1 = fun s => (mat 3 nine s)ᴴ * mat 3 nine s) ∨ s1 = fun s => mat 3 nine s * (mat 3 nine s)ᴴ) :
    ∑ s ∈ range 9, s1 s = (3 : ℂ) • (1 : Matrix (Fin 3) (Fin 3) ℂ) := by
  ext i j
  rcases h with rfl | rfl <;> fin_cases i <;> fin_cases j <;>
    simp [sum_range_succ, Matrix.mul_apply, Fin.sum_univ_three, mat, nine, Matrix.add_apply] <;> norm_num

theorem nine_cell : Cell 3 9 [nine] 3 (fun i j => if i = j then 1 / 3 else 0) fun i j => if i = j then 1 / 3 else 0 := by
  have w1 : WellConditioned (((1 / 3 : ℝ) : ℂ) • (1 : Matrix (Fin 3) (Fin 3) ℂ)) := well_smul (well_one 3) (by norm_num)
  have w3 : WellConditioned (((1 / 3 * 3 : ℝ) : ℂ) • (1 : Matrix (Fin 3) (Fin 3) ℂ)) := well_smul (well_one 3) (by norm_num)
  refine ⟨by simp, le_rfl, by norm_num, by simp [nine], nine_normal _, nine_normal _, fun n hn => ?_, fun n hn => ?_⟩
  · rw [third_one, transpose_smul, transpose_one]
    obtain rfl | rfl : n = 0 ∨ n = 1 := by simp at hn; omega
    · exact w1
    · have : pushR 3 ([nine].take 1) (((1 / 3 : ℝ) : ℂ) • (1 : Matrix (Fin 3) (Fin 3) ℂ)) = ((1 / 3 * 3 : ℝ) : ℂ) • 1 := by
        simp only [List.take, pushR, Matrix.mul_smul, Matrix.smul_mul, Matrix.mul_one]
        rw [← smul_sum, show nine.d = 9 from rfl, nine_sum _ (Or.inl rfl), smul_smul]
        push_cast; rfl
      rw [this]; exact w3
  · rw [third_one]
    obtain rfl | rfl : n = 0 ∨ n = 1 := by simp at hn; omega
    · have : pushL 3 ([nine].drop 0) (((1 / 3 : ℝ) : ℂ) • (1 : Matrix (Fin 3) (Fin 3) ℂ)) = ((1 / 3 * 3 : ℝ) : ℂ) • 1 := by
        simp only [List.drop, pushL, Matrix.mul_smul, Matrix.smul_mul, Matrix.mul_one]
        rw [← smul_sum, show nine.d = 9 from rfl, nine_sum _ (Or.inr rfl), smul_smul]
        push_cast; rfl
      rw [this]; exact w3
    · exact w1

/-- **C112 (violated: the norm).**  The matrices on the bonds are not normalised, as both density matrices have trace one: for the cell of
the nine matrix units the square of their norm, which is the norm of the state, is 1/3. -/
theorem C112_violated_norm (hG : GaugeSpec sqrtm pinv) (hE : EigsSpec eigs) (hc : ConvergesSix eigs) :
    ∃ o, regaugecentralC sqrtm pinv eigs [nine] = .ok o ∧
      ∀ n ≤ 1, trace ((toM 3 (at_ o.Cs n).v)ᴴ * toM 3 (at_ o.Cs n).v) = 1 / 3 := by
  obtain ⟨o, h1, -, -, -, -, -, h2⟩ := C112_gauge hG hE hc nine_cell
  refine ⟨o, h1, fun n hn => ?_⟩
  rw [h2 n hn]
  simp [sum_range_succ]
  norm_num

example : ∃ sqrtm pinv eigs o, GaugeSpec sqrtm pinv ∧ EigsSpec eigs ∧ ConvergesSix eigs ∧ regaugecentralC sqrtm pinv eigs [nine] = .ok o ∧
    Central 3 9 ((3 : ℝ) ^ (1 / (2 * (([nine].length : ℕ) : ℝ))))⁻¹ [nine] o.mpsl o.mpsr o.Cs := by
  obtain ⟨a, b, hG⟩ := exists_gauge
  obtain ⟨e, hE, hc⟩ := exists_eigs_six
  obtain ⟨o, h1, -, -, -, h2, -⟩ := C112_gauge hG hE hc nine_cell
  exact ⟨a, b, e, o, hG, hE, hc, h1, h2⟩

/-- Bond dimension two is refused. -/
example (sqrtm pinv : Mat ℂ → Mat ℂ) (eigs : Eigs) : regaugecentralC sqrtm pinv eigs [⟨2, 2, 4, fun i j s => if s = 2 * i + j then 1 else 0⟩] = .error .type :=
  C112_violated_small sqrtm pinv eigs (Or.inr rfl) (by norm_num) (by norm_num)

end

end PyTeN.CentralC
