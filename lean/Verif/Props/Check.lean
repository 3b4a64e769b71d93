import Verif.Mps.Check

/-! # C109: measures of the deviation from a normal form -/

namespace PyTeN
open Finset

noncomputable section

/-! ## Specification -/

/-- Spec: squared norm of a vector of length `n`. -/
def vsq (n : ℕ) (x : ℕ → ℂ) : ℝ := ∑ i ∈ range n, ‖x i‖ ^ 2

/-- Spec: squared norm of the tensor as a map from the right bond to the left and physical index, applied to a vector. -/
def imgL (t : Ten ℂ) (x : ℕ → ℂ) : ℝ := ∑ i ∈ range t.l, ∑ s ∈ range t.d, ‖∑ j ∈ range t.r, t.v i j s * x j‖ ^ 2

/-- Spec: squared norm of the tensor as a map from the left bond to the right and physical index, applied to a vector. -/
def imgR (t : Ten ℂ) (x : ℕ → ℂ) : ℝ := ∑ j ∈ range t.r, ∑ s ∈ range t.d, ‖∑ i ∈ range t.l, t.v i j s * x i‖ ^ 2

/-- Spec: distance of two square matrices. -/
def mdist (n : ℕ) (a b : ℕ → ℕ → ℂ) : ℝ := Real.sqrt (∑ i ∈ range n, ∑ j ∈ range n, ‖a i j - b i j‖ ^ 2)

/-! ## Theorems -/

theorem normF_nn (m : Mat ℂ) : 0 ≤ normF m := Real.sqrt_nonneg _

theorem normF_sqn (m : Mat ℂ) : normF m ^ 2 = ∑ i ∈ range m.r, ∑ j ∈ range m.c, ‖m.v i j‖ ^ 2 := by
  unfold normF
  rw [Real.sq_sqrt (sum_nonneg fun i _ => sum_nonneg fun j _ => Complex.normSq_nonneg _)]
  simp only [Complex.normSq_eq_norm_sq]

theorem normF_zero_iff (m : Mat ℂ) : normF m = 0 ↔ ∀ i < m.r, ∀ j < m.c, m.v i j = 0 := by
  rw [← sq_eq_zero_iff, normF_sqn, sum_eq_zero_iff_of_nonneg (fun i _ => sum_nonneg fun j _ => sq_nonneg _)]
  refine ⟨fun h i hi j hj => ?_, fun h i hi => sum_eq_zero fun j hj => ?_⟩
  · have := (sum_eq_zero_iff_of_nonneg (fun j _ => sq_nonneg _)).mp (h i (mem_range.mpr hi)) j (mem_range.mpr hj)
    simpa using this
  · rw [h i (mem_range.mp hi) j (mem_range.mp hj)]; simp

/-- A quadratic form is bounded by the Frobenius norm of its matrix. -/
theorem form_le (n : ℕ) (g : ℕ → ℕ → ℂ) (x : ℕ → ℂ) :
    ‖∑ j ∈ range n, ∑ j' ∈ range n, g j j' * (x j * star (x j'))‖ ≤ normF ⟨n, n, g⟩ * vsq n x := by
  have h1 : ‖∑ j ∈ range n, ∑ j' ∈ range n, g j j' * (x j * star (x j'))‖ ≤
      ∑ p ∈ range n ×ˢ range n, ‖g p.1 p.2‖ * (‖x p.1‖ * ‖x p.2‖) := by
    rw [← sum_product']
    refine (norm_sum_le _ _).trans (le_of_eq (sum_congr rfl fun p _ => ?_))
    rw [norm_mul, norm_mul, norm_star]
  have h2 := sum_mul_sq_le_sq_mul_sq (range n ×ˢ range n) (fun p => ‖g p.1 p.2‖) fun p => ‖x p.1‖ * ‖x p.2‖
  have e1 : ∑ p ∈ range n ×ˢ range n, ‖g p.1 p.2‖ ^ 2 = normF ⟨n, n, g⟩ ^ 2 := by
    rw [normF_sqn, sum_product' (f := fun i j => ‖g i j‖ ^ 2)]
  have e2 : ∑ p ∈ range n ×ˢ range n, (‖x p.1‖ * ‖x p.2‖) ^ 2 = vsq n x ^ 2 := by
    rw [sum_product' (f := fun i j => (‖x i‖ * ‖x j‖) ^ 2), sq (vsq n x)]
    unfold vsq
    rw [sum_mul_sum]
    refine sum_congr rfl fun i _ => sum_congr rfl fun j _ => by ring
  rw [e1, e2, ← mul_pow] at h2
  exact h1.trans (abs_le_of_sq_le_sq' h2 (mul_nonneg (normF_nn _) (sum_nonneg fun _ _ => sq_nonneg _))).2

theorem sq_norm_star (z : ℂ) : ((‖z‖ ^ 2 : ℝ) : ℂ) = z * star z := by
  rw [← Complex.normSq_eq_norm_sq, Complex.normSq_eq_conj_mul_self, mul_comm]; rfl

theorem eye_form (n : ℕ) (x : ℕ → ℂ) : ∑ j ∈ range n, ∑ j' ∈ range n, delta ℂ j j' * (x j * star (x j')) = (vsq n x : ℂ) := by
  unfold vsq
  push_cast
  refine sum_congr rfl fun j hj => ?_
  rw [sum_delta_left (mem_range.mp hj)]
  exact_mod_cast (sq_norm_star _).symm

/-- A Gram matrix as a form. -/
theorem gram_form {ι : Type*} (S : Finset ι) (n : ℕ) (f : ι → ℕ → ℂ) (x : ℕ → ℂ) :
    ∑ j ∈ range n, ∑ j' ∈ range n, (∑ p ∈ S, f p j * star (f p j')) * (x j * star (x j')) =
      ((∑ p ∈ S, ‖∑ j ∈ range n, f p j * x j‖ ^ 2 : ℝ) : ℂ) := by
  rw [Complex.ofReal_sum]
  have : ∀ p ∈ S, ((‖∑ j ∈ range n, f p j * x j‖ ^ 2 : ℝ) : ℂ)
      = ∑ j ∈ range n, ∑ j' ∈ range n, f p j * star (f p j') * (x j * star (x j')) := by
    intro p _
    rw [sq_norm_star, star_sum, sum_mul_sum]
    refine sum_congr rfl fun j _ => sum_congr rfl fun j' _ => ?_
    rw [star_mul']; ring
  rw [sum_congr rfl this, sum_comm (s := S)]
  refine sum_congr rfl fun j _ => ?_
  rw [sum_comm (s := S)]
  refine sum_congr rfl fun j' _ => ?_
  rw [sum_mul]

theorem gram_bound {ι : Type*} (S : Finset ι) (n : ℕ) (f : ι → ℕ → ℂ) (x : ℕ → ℂ) :
    |∑ p ∈ S, ‖∑ j ∈ range n, f p j * x j‖ ^ 2 - vsq n x| ≤
      normF ⟨n, n, fun j j' => ∑ p ∈ S, f p j * star (f p j') - delta ℂ j j'⟩ * vsq n x := by
  refine le_trans (le_of_eq ?_) (form_le n _ x)
  rw [← Real.norm_eq_abs, ← Complex.norm_real]
  congr 1
  rw [Complex.ofReal_sub, ← gram_form, ← eye_form, ← sum_sub_distrib]
  refine sum_congr rfl fun j _ => ?_
  rw [← sum_sub_distrib]
  exact sum_congr rfl fun j' _ => by ring

/-- **C109**: for `which='l'` the function returns a number that vanishes exactly for left orthonormal tensors and bounds the relative
change of the squared norm of every vector. -/
theorem C109_left (t : Ten ℂ) : ∃ z, checkNormalization t "l" = .ok z ∧ 0 ≤ z ∧ (z = 0 ↔ LeftOrth t) ∧
    ∀ x, |imgL t x - vsq t.r x| ≤ z * vsq t.r x := by
  refine ⟨normF (residL t), by simp [checkNormalization], normF_nn _, ?_, fun x => ?_⟩
  · rw [normF_zero_iff]
    have e : ∀ j j', ∑ i ∈ range t.l, ∑ s ∈ range t.d, t.v i j s * star (t.v i j' s) =
        ∑ s ∈ range t.d, ∑ i ∈ range t.l, star (t.v i j' s) * t.v i j s := fun j j' => by
      rw [sum_comm]; exact sum_congr rfl fun _ _ => sum_congr rfl fun _ _ => mul_comm _ _
    refine ⟨fun h j hj j' hj' => ?_, fun h j hj j' hj' => ?_⟩
    · have := h j' hj' j hj
      simp only [residL, eye, e] at this
      rw [sub_eq_zero.mp this]; simp only [delta, eq_comm]
    · simp only [residL, eye, e]
      rw [h j' hj' j hj]; simp only [delta, eq_comm (a := j), sub_self]
  · have := gram_bound (range t.l ×ˢ range t.d) t.r (fun p j => t.v p.1 j p.2) x
    rw [sum_product' (f := fun i s => ‖∑ j ∈ range t.r, t.v i j s * x j‖ ^ 2)] at this
    refine this.trans (le_of_eq ?_)
    unfold residL eye
    congr 3
    funext j j'
    rw [sum_product' (f := fun i s => t.v i j s * star (t.v i j' s))]

/-- **C109**: for `which='r'` the same with right orthonormal tensors. -/
theorem C109_right (t : Ten ℂ) : ∃ z, checkNormalization t "r" = .ok z ∧ 0 ≤ z ∧ (z = 0 ↔ RightOrth t) ∧
    ∀ x, |imgR t x - vsq t.l x| ≤ z * vsq t.l x := by
  refine ⟨normF (residR t), by simp [checkNormalization], normF_nn _, ?_, fun x => ?_⟩
  · rw [normF_zero_iff]
    have e : ∀ j j', ∑ i ∈ range t.r, ∑ s ∈ range t.d, t.v j i s * star (t.v j' i s) =
        ∑ s ∈ range t.d, ∑ i ∈ range t.r, t.v j i s * star (t.v j' i s) := fun j j' => by rw [sum_comm]
    refine ⟨fun h j hj j' hj' => ?_, fun h j hj j' hj' => ?_⟩
    · have := h j hj j' hj'
      simp only [residR, eye, e] at this
      exact sub_eq_zero.mp this
    · simp only [residR, eye, e]
      rw [h j hj j' hj', sub_self]
  · have := gram_bound (range t.r ×ˢ range t.d) t.l (fun p j => t.v j p.1 p.2) x
    rw [sum_product' (f := fun i s => ‖∑ j ∈ range t.l, t.v j i s * x j‖ ^ 2)] at this
    refine this.trans (le_of_eq ?_)
    unfold residR eye
    congr 3
    funext j j'
    rw [sum_product' (f := fun i s => t.v j i s * star (t.v j' i s))]

/-- **C109**: every other value of `which` raises. -/
theorem C109_other (t : Ten ℂ) {which : String} (h1 : which ≠ "l") (h2 : which ≠ "r") : checkNormalization t which = .error .unbound := by
  simp [checkNormalization, h1, h2]

theorem normF_mdist {a b : Mat ℂ} {v : ℕ → ℕ → ℂ} (h : a.r = a.c) (hb : b.r = a.r ∧ b.c = a.c)
    (hv : ∀ i < a.r, ∀ j < a.r, ‖b.v i j‖ ≤ ‖a.v i j - v i j‖) : normF b ≤ mdist a.r a.v v := by
  unfold mdist
  refine Real.le_sqrt_of_sq_le ?_
  rw [normF_sqn, hb.1, hb.2, ← h]
  exact sum_le_sum fun i hi => sum_le_sum fun j hj => pow_le_pow_left₀ (norm_nonneg _) (hv i (mem_range.mp hi) j (mem_range.mp hj)) 2

theorem mdist_normF {a b : Mat ℂ} {v : ℕ → ℕ → ℂ} (h : a.r = a.c) (hb : b.r = a.r ∧ b.c = a.c)
    (hv : ∀ i < a.r, ∀ j < a.r, ‖b.v i j‖ = ‖a.v i j - v i j‖) : mdist a.r a.v v = normF b := by
  unfold mdist
  rw [← Real.sqrt_sq (normF_nn b), normF_sqn, hb.1, hb.2, ← h]
  congr 1
  exact sum_congr rfl fun i hi => sum_congr rfl fun j hj => by rw [hv i (mem_range.mp hi) j (mem_range.mp hj)]

/-- **C109**: `isDiag` returns the distance of a square matrix to the diagonal matrices and whether it is below `err`. -/
theorem C109_isDiag {a : Mat ℂ} (h : a.r = a.c) (err : ℝ) : ∃ b z, isDiag a err = .ok (b, z) ∧ (b = true ↔ z < err) ∧
    (∃ w : ℕ → ℂ, mdist a.r a.v (fun i j => if i = j then w i else 0) = z) ∧
    ∀ w : ℕ → ℂ, z ≤ mdist a.r a.v (fun i j => if i = j then w i else 0) := by
  refine ⟨decide (normF (offDiag a) < err), normF (offDiag a), ?_, by simp, ⟨fun i => a.v i i, ?_⟩, fun w => ?_⟩
  · unfold isDiag verdict
    rw [if_neg (not_not.mpr h)]
    by_cases h1 : normF (offDiag a) < err <;> simp [h1]
  · refine mdist_normF h ⟨rfl, rfl⟩ fun i _ j _ => ?_
    rw [norm_sub_rev]; rfl
  · refine normF_mdist h ⟨rfl, rfl⟩ fun i _ j _ => ?_
    rw [norm_sub_rev]
    by_cases hij : i = j
    · subst hij; simp [offDiag]
    · simp [offDiag, hij]

/-- **C109**: `isDiagUnitary` returns the distance of a square matrix to the diagonal unitary matrices and whether it is below `err`. -/
theorem C109_isDiagUnitary {a : Mat ℂ} (h : a.r = a.c) (err : ℝ) : ∃ b z, isDiagUnitary a err = .ok (b, z) ∧ (b = true ↔ z < err) ∧
    (∃ w : ℕ → ℂ, (∀ i, ‖w i‖ = 1) ∧ mdist a.r a.v (fun i j => if i = j then w i else 0) = z) ∧
    ∀ w : ℕ → ℂ, (∀ i, ‖w i‖ = 1) → z ≤ mdist a.r a.v (fun i j => if i = j then w i else 0) := by
  refine ⟨decide (normF (absDiff a) < err), normF (absDiff a), ?_, by simp,
    ⟨fun i => if a.v i i = 0 then 1 else a.v i i / ‖a.v i i‖, fun i => ?_, ?_⟩, fun w hw => ?_⟩
  · unfold isDiagUnitary verdict
    rw [if_neg (not_not.mpr h)]
    by_cases h1 : normF (absDiff a) < err <;> simp [h1]
  · dsimp only
    split
    · simp
    · next h0 => rw [norm_div, Complex.norm_real, norm_norm, div_self (norm_ne_zero_iff.mpr h0)]
  · refine mdist_normF h ⟨rfl, rfl⟩ fun i _ j _ => ?_
    by_cases hij : i = j
    · subst hij
      dsimp only [absDiff]
      rw [if_pos rfl]
      by_cases h0 : a.v i i = 0
      · simp [h0, delta]
      · have hn : (‖a.v i i‖ : ℂ) ≠ 0 := by exact_mod_cast norm_ne_zero_iff.mpr h0
        rw [if_neg h0]
        have : a.v i i - a.v i i / ‖a.v i i‖ = (a.v i i / ‖a.v i i‖) * ((‖a.v i i‖ : ℂ) - 1) := by field_simp
        rw [this, norm_mul, norm_div, Complex.norm_real, norm_norm, div_self (norm_ne_zero_iff.mpr h0), one_mul]
        simp [delta]
    · simp [absDiff, hij, delta]
  · refine normF_mdist h ⟨rfl, rfl⟩ fun i _ j _ => ?_
    by_cases hij : i = j
    · subst hij
      dsimp only [absDiff]
      rw [if_pos rfl]
      simp only [delta, if_true]
      have := abs_norm_sub_norm_le (a.v i i) (w i)
      rw [hw i] at this
      rw [← Complex.ofReal_one, ← Complex.ofReal_sub, Complex.norm_real]
      exact this
    · simp [absDiff, hij, delta]

/-- Matrices that are not square raise. -/
theorem C109_square {a : Mat ℂ} (h : a.r ≠ a.c) (err : ℝ) : isDiag a err = .error .assertion ∧ isDiagUnitary a err = .error .assertion := by
  simp [isDiag, isDiagUnitary, h]

/-- Twice an isometry is off by three: the bound of the theorem is met with equality. -/
example : checkNormalization ⟨1, 1, 2, fun _ _ s => if s = 0 then 2 else 0⟩ "l" = .ok 3 ∧
    imgL ⟨1, 1, 2, fun _ _ s => if s = 0 then 2 else 0⟩ (fun _ => 1) = 4 ∧ vsq 1 (fun _ => 1) = 1 := by
  refine ⟨?_, ?_, ?_⟩
  · simp only [checkNormalization, normF, residL, eye, delta]
    simp [Complex.normSq_apply]
    norm_num
    rw [show (9 : ℝ) = 3 ^ 2 by norm_num, Real.sqrt_sq (by norm_num)]
  · simp [imgL, sum_range_succ]; norm_num
  · simp [vsq]

/-- A phase matrix and a matrix that is not one. -/
example : isDiagUnitary ⟨1, 1, fun _ _ => Complex.I⟩ 1e-8 = .ok (true, 0) ∧ isDiag ⟨2, 2, fun i j => if i = 0 ∧ j = 1 then 5 else 1⟩ 6 =
    .ok (true, Real.sqrt 26) := by
  constructor
  · simp [isDiagUnitary, verdict, normF, absDiff, delta]
    norm_num
  · have h : normF (offDiag ⟨2, 2, fun i j => if i = 0 ∧ j = 1 then 5 else 1⟩) = Real.sqrt 26 := by
      simp only [normF, offDiag]
      simp [sum_range_succ, Complex.normSq_apply]
      norm_num
    have h2 : Real.sqrt 26 < 6 := by rw [Real.sqrt_lt' (by norm_num)]; norm_num
    simp only [isDiag, verdict, h, if_pos h2]
    simp

end

end PyTeN
