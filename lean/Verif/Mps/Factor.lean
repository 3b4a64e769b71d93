import Verif.Mps.Model
import Mathlib.Algebra.BigOperators.Field
import Mathlib.Tactic.FieldSimp
import Mathlib.Tactic.Positivity

/-! # Lemmas on the tensor factorisations -/

namespace PyTeN
open Finset

noncomputable section

/-- Result contract of an exact factorisation to the right: `t = z · a · m`, `a` left-orthonormal,
`m` of unit norm. -/
structure ExactR (t a : Ten ℂ) (m : Mat ℂ) (z : ℝ) : Prop where
  l : a.l = t.l
  d : a.d = t.d
  r : a.r = m.r
  c : m.c = t.r
  le : m.r ≤ t.r
  le' : m.r ≤ t.d * t.l
  zpos : 0 < z
  orth : LeftOrth a
  norm : normF m = 1
  prod : ∀ i < t.l, ∀ j < t.r, ∀ s < t.d,
    t.v i j s = (z : ℂ) * ∑ k ∈ range m.r, a.v i k s * m.v k j

/-- Result contract of an exact factorisation to the left: `t = z · m · a`. -/
structure ExactL (t a : Ten ℂ) (m : Mat ℂ) (z : ℝ) : Prop where
  r : a.r = t.r
  d : a.d = t.d
  l : a.l = m.c
  rr : m.r = t.l
  le : m.c ≤ t.l
  le' : m.c ≤ t.d * t.r
  zpos : 0 < z
  orth : RightOrth a
  norm : normF m = 1
  prod : ∀ i < t.l, ∀ j < t.r, ∀ s < t.d,
    t.v i j s = (z : ℂ) * ∑ k ∈ range m.c, m.v i k * a.v k j s

theorem unphase_mul_star (z : ℂ) : unphase z * star (unphase z) = 1 := by
  have h : star (unphase z) = Complex.exp (Complex.I * Complex.arg z) := by
    unfold unphase
    rw [Complex.star_def, ← Complex.exp_conj]
    simp
  rw [h]
  unfold unphase
  rw [← Complex.exp_add]; simp

theorem star_mul_unphase (z : ℂ) : star (unphase z) * unphase z = 1 := by
  rw [mul_comm]; exact unphase_mul_star z

/-- Phase fixing keeps the QR contract. -/
theorem QRSpec.fix {A q r : Mat ℂ} (h : QRSpec A q r) (f : FixPhase) :
    QRSpec A (fixQR f q r).1 (fixQR f q r).2 := by
  cases f with
  | none => exact h
  | r =>
    refine ⟨h.q_r, h.q_c, h.r_r, h.r_c, ?_, ?_⟩
    · intro i hi j hj
      rw [← h.prod i hi j hj]
      apply sum_congr rfl
      intro k _
      simp only [fixQR]
      calc _ = (star (unphase (r.v k k)) * unphase (r.v k k)) * (q.v i k * r.v k j) := by ring
        _ = _ := by rw [star_mul_unphase, one_mul]
    · intro k hk k' hk'
      simp only [fixQR]
      have : ∀ i, star (q.v i k * star (unphase (r.v k k))) * (q.v i k' * star (unphase (r.v k' k')))
          = (unphase (r.v k k) * star (unphase (r.v k' k'))) * (star (q.v i k) * q.v i k') := by
        intro i; simp only [star_mul', star_star]; ring
      simp_rw [this]
      rw [← mul_sum, h.iso k hk k' hk']
      by_cases e : k = k'
      · subst e; rw [unphase_mul_star, one_mul]
      · simp [delta_ne e]
  | q =>
    refine ⟨h.q_r, h.q_c, h.r_r, h.r_c, ?_, ?_⟩
    · intro i hi j hj
      rw [← h.prod i hi j hj]
      apply sum_congr rfl
      intro k _
      simp only [fixQR]
      calc _ = (unphase (q.v k k) * star (unphase (q.v k k))) * (q.v i k * r.v k j) := by ring
        _ = _ := by rw [unphase_mul_star, one_mul]
    · intro k hk k' hk'
      simp only [fixQR]
      have : ∀ i, star (q.v i k * unphase (q.v k k)) * (q.v i k' * unphase (q.v k' k'))
          = (star (unphase (q.v k k)) * unphase (q.v k' k')) * (star (q.v i k) * q.v i k') := by
        intro i; simp only [star_mul']; ring
      simp_rw [this]
      rw [← mul_sum, h.iso k hk k' hk']
      by_cases e : k = k'
      · subst e; rw [star_mul_unphase, one_mul]
      · simp [delta_ne e]

theorem normF_nonneg (m : Mat ℂ) : 0 ≤ normF m := Real.sqrt_nonneg _

theorem normF_divR {m : Mat ℂ} (h : normF m ≠ 0) : normF (m.divR (normF m)) = 1 := by
  have hpos : 0 < normF m := lt_of_le_of_ne (normF_nonneg m) (Ne.symm h)
  have hs : ∑ i ∈ range m.r, ∑ j ∈ range m.c, Complex.normSq (m.v i j) = normF m ^ 2 := by
    unfold normF
    rw [Real.sq_sqrt]
    exact sum_nonneg fun _ _ => sum_nonneg fun _ _ => Complex.normSq_nonneg _
  unfold normF Mat.divR
  simp only [map_div₀, Complex.normSq_ofReal]
  simp_rw [← Finset.sum_div]
  rw [hs]
  rw [Real.sqrt_sq hpos.le, ← pow_two, div_self (by positivity), Real.sqrt_one]

theorem normF_eq_zero {m : Mat ℂ} : normF m = 0 ↔ ∀ i < m.r, ∀ j < m.c, m.v i j = 0 := by
  unfold normF
  rw [Real.sqrt_eq_zero (sum_nonneg fun _ _ => sum_nonneg fun _ _ => Complex.normSq_nonneg _)]
  rw [sum_eq_zero_iff_of_nonneg (fun _ _ => sum_nonneg fun _ _ => Complex.normSq_nonneg _)]
  constructor
  · intro h i hi j hj
    have := h i (mem_range.mpr hi)
    rw [sum_eq_zero_iff_of_nonneg (fun _ _ => Complex.normSq_nonneg _)] at this
    exact Complex.normSq_eq_zero.mp (this j (mem_range.mpr hj))
  · intro h i hi
    apply sum_eq_zero
    intro j hj
    rw [h i (mem_range.mp hi) j (mem_range.mp hj), map_zero]

/-- `prepareTensor(.,1)` meets its docstring: `tensor = out·r·Z`. -/
theorem prepareTensorR_spec {O : LinAlg} (hO : O.Spec) {f : FixPhase} {t a : Ten ℂ} {m : Mat ℂ}
    {z : ℝ} (h : prepareTensorR O f t = .ok (a, m, z)) : ExactR t a m z := by
  have hq := (hO.qr t.rowMat).fix f
  unfold prepareTensorR at h
  simp only at h
  split at h
  · cases h
  · rename_i hz
    simp only [Except.ok.injEq, Prod.mk.injEq] at h
    obtain ⟨ha, hm, hz'⟩ := h
    generalize (fixQR f (O.qr t.rowMat).1 (O.qr t.rowMat).2).1 = q at *
    generalize (fixQR f (O.qr t.rowMat).1 (O.qr t.rowMat).2).2 = r at *
    subst ha hm hz'
    have hrow : t.rowMat.r = t.d * t.l := rfl
    have hcol : t.rowMat.c = t.r := rfl
    have hzpos : 0 < normF r := lt_of_le_of_ne (normF_nonneg r) (Ne.symm hz)
    refine ⟨rfl, rfl, ?_, ?_, ?_, ?_, hzpos, ?_, normF_divR hz, ?_⟩
    · simp [Mat.divR, hq.q_c, hq.r_r]
    · simp [Mat.divR, hq.r_c, hcol]
    · simp [Mat.divR, hq.r_r, hcol]
    · simp [Mat.divR, hq.r_r, hrow]
    · intro j hj j' hj'
      simp only [hq.q_c] at hj hj'
      have := hq.iso j hj j' hj'
      rw [hrow, sum_range_mul] at this
      exact this
    · intro i hi j hj s hs
      have := hq.prod (s * t.l + i) (by rw [hrow]; exact idx_lt hs hi) j (by rw [hcol]; exact hj)
      have hA : t.rowMat.v (s * t.l + i) j = t.v i j s := by
        simp [Ten.rowMat, idx_div hi, idx_mod hi]
      rw [hA] at this
      rw [← this]
      simp only [Mat.divR, hq.r_r]
      rw [mul_sum]
      apply sum_congr rfl
      intro k _
      have : (normF r : ℂ) ≠ 0 := by exact_mod_cast hz
      field_simp

/-- `prepareTensor(.,-1)` meets its docstring: `tensor = r·out·Z`. -/
theorem prepareTensorL_spec {O : LinAlg} (hO : O.Spec) {f : FixPhase} {t a : Ten ℂ} {m : Mat ℂ}
    {z : ℝ} (h : prepareTensorL O f t = .ok (a, m, z)) : ExactL t a m z := by
  have hq := (hO.qr t.colMatH).fix f
  unfold prepareTensorL at h
  simp only at h
  split at h
  · cases h
  · rename_i hz
    simp only [Except.ok.injEq, Prod.mk.injEq] at h
    obtain ⟨ha, hm, hz'⟩ := h
    generalize (fixQR f (O.qr t.colMatH).1 (O.qr t.colMatH).2).1 = q at *
    generalize (fixQR f (O.qr t.colMatH).1 (O.qr t.colMatH).2).2 = r at *
    subst ha hm hz'
    have hrow : t.colMatH.r = t.d * t.r := rfl
    have hcol : t.colMatH.c = t.l := rfl
    have hzpos := lt_of_le_of_ne (normF_nonneg _) (Ne.symm hz)
    refine ⟨rfl, rfl, ?_, ?_, ?_, ?_, hzpos, ?_, normF_divR hz, ?_⟩
    · simp [Mat.divR, hq.q_c, hq.r_r]
    · simp [Mat.divR, hq.r_c, hcol]
    · simp [Mat.divR, hq.r_r, hcol]
    · simp [Mat.divR, hq.r_r, hrow]
    · intro j hj j' hj'
      simp only [hq.q_c] at hj hj'
      have := hq.iso j hj j' hj'
      rw [hrow, sum_range_mul] at this
      simpa using this
    · intro i hi j hj s hs
      have := hq.prod (s * t.r + j) (by rw [hrow]; exact idx_lt hs hj) i (by rw [hcol]; exact hi)
      have hA : t.colMatH.v (s * t.r + j) i = star (t.v i j s) := by
        simp [Ten.colMatH, idx_div hj, idx_mod hj]
      rw [hA] at this
      rw [← star_star (t.v i j s), ← this, star_sum]
      simp only [Mat.divR, hq.r_r]
      rw [mul_sum]
      apply sum_congr rfl
      intro k _
      have : (normF (⟨r.c, r.r, fun i k => star (r.v k i)⟩ : Mat ℂ) : ℂ) ≠ 0 := by exact_mod_cast hz
      simp only [star_mul']
      simp only [hq.r_r] at this
      field_simp

/-- `prepareTensor(.,1)` fails only with NaN, and only on the zero tensor. -/
theorem prepareTensorR_err {O : LinAlg} (hO : O.Spec) {f : FixPhase} {t : Ten ℂ} {e : PyErr}
    (h : prepareTensorR O f t = .error e) :
    e = .nan ∧ ∀ i < t.l, ∀ j < t.r, ∀ s < t.d, t.v i j s = 0 := by
  have hq := (hO.qr t.rowMat).fix f
  unfold prepareTensorR at h
  simp only at h
  split at h
  · rename_i hz
    refine ⟨by cases h; rfl, ?_⟩
    generalize (fixQR f (O.qr t.rowMat).1 (O.qr t.rowMat).2).1 = q at *
    generalize (fixQR f (O.qr t.rowMat).1 (O.qr t.rowMat).2).2 = r at *
    rw [normF_eq_zero] at hz
    intro i hi j hj s hs
    have hrow : t.rowMat.r = t.d * t.l := rfl
    have hcol : t.rowMat.c = t.r := rfl
    have := hq.prod (s * t.l + i) (by rw [hrow]; exact idx_lt hs hi) j (by rw [hcol]; exact hj)
    have hA : t.rowMat.v (s * t.l + i) j = t.v i j s := by
      simp [Ten.rowMat, idx_div hi, idx_mod hi]
    rw [hA] at this
    rw [← this]
    apply sum_eq_zero
    intro k hk
    rw [hz k (by rw [hq.r_r]; exact mem_range.mp hk) j (by rw [hq.r_c, hcol]; exact hj), mul_zero]
  · cases h

theorem prepareTensorL_err {O : LinAlg} (hO : O.Spec) {f : FixPhase} {t : Ten ℂ} {e : PyErr}
    (h : prepareTensorL O f t = .error e) :
    e = .nan ∧ ∀ i < t.l, ∀ j < t.r, ∀ s < t.d, t.v i j s = 0 := by
  have hq := (hO.qr t.colMatH).fix f
  unfold prepareTensorL at h
  simp only at h
  split at h
  · rename_i hz
    refine ⟨by cases h; rfl, ?_⟩
    generalize (fixQR f (O.qr t.colMatH).1 (O.qr t.colMatH).2).1 = q at *
    generalize (fixQR f (O.qr t.colMatH).1 (O.qr t.colMatH).2).2 = r at *
    rw [normF_eq_zero] at hz
    intro i hi j hj s hs
    have hrow : t.colMatH.r = t.d * t.r := rfl
    have hcol : t.colMatH.c = t.l := rfl
    have := hq.prod (s * t.r + j) (by rw [hrow]; exact idx_lt hs hj) i (by rw [hcol]; exact hi)
    have hA : t.colMatH.v (s * t.r + j) i = star (t.v i j s) := by
      simp [Ten.colMatH, idx_div hj, idx_mod hj]
    rw [hA] at this
    rw [← star_star (t.v i j s), ← this, star_sum]
    apply sum_eq_zero
    intro k hk
    have h0 := hz i (by simp only [hq.r_c, hcol]; exact hi) k
      (by simp only [hq.r_r]; exact mem_range.mp hk)
    have h1 : star (r.v k i) = 0 := h0
    rw [star_mul', h1, mul_zero]
  · cases h

end

end PyTeN
