import Verif.Mps.RegaugeCore

/-! # Lemmas for `regaugeIMPS`: matrix square roots and singular values -/

namespace PyTeN.Regauge
open Finset Transfer Lanczos Idmrg Matrix
noncomputable section

theorem getD_map_of_lt {α β : Type*} (f : α → β) (l : List α) {k : ℕ} (h : k < l.length) (a : α) (b : β) : (l.map f).getD k b = f (l.getD k a) := by
  simp [List.getD_eq_getElem?_getD, h]

/-- The square roots of the eigenvalues. -/
theorem Spectral.roots {pinv : ℝ} (hp : 0 ≤ pinv) {n : ℕ} {p : ℕ → ℕ → ℂ} {w wi : List ℝ} {u : Mat ℂ} (h : Spectral pinv n p w wi u) :
    ∃ S Si : Matrix (Fin n) (Fin n) ℂ, toM n (diagMat (w.map Real.sqrt)).v = S ∧ toM n (diagMat (wi.map Real.sqrt)).v = Si ∧
      Sᴴ = S ∧ Siᴴ = Si ∧ Sᵀ = S ∧ Siᵀ = Si ∧ S * Si = 1 ∧ Si * S = 1 ∧ toM n p = toM n u.v * (S * S) * (toM n u.v)ᴴ := by
  have hlen := h.len
  have e1 : ∀ k : Fin n, (w.map Real.sqrt).getD k 0 = Real.sqrt (w.getD k 0) := fun k => getD_map_of_lt _ _ (by rw [hlen]; exact k.2) _ _
  have e2 : ∀ k : Fin n, (wi.map Real.sqrt).getD k 0 = Real.sqrt (1 / w.getD k 0) := fun k => by
    rw [h.inv, getD_map_of_lt (a := 0) _ _ (by rw [List.length_map, hlen]; exact k.2), getD_map_of_lt (a := 0) _ _ (by rw [hlen]; exact k.2)]
  have hw : ∀ k : Fin n, 0 < w.getD k 0 := fun k => by
    have hk : (k : ℕ) < w.length := by rw [hlen]; exact k.2
    have := h.big _ (List.getElem_mem hk)
    rw [List.getD_eq_getElem?_getD, List.getElem?_eq_getElem hk]
    exact hp.trans_lt this
  have hst : ∀ x : ℝ, star ((x : ℂ)) = x := fun x => Complex.conj_ofReal x
  have hmul : ∀ k : Fin n, Real.sqrt (w.getD k 0) * Real.sqrt (1 / w.getD k 0) = 1 := fun k => by
    rw [← Real.sqrt_mul (hw k).le, mul_one_div_cancel (hw k).ne', Real.sqrt_one]
  refine ⟨diagonal fun k : Fin n => ((Real.sqrt (w.getD k 0) : ℝ) : ℂ), diagonal fun k : Fin n => ((Real.sqrt (1 / w.getD k 0) : ℝ) : ℂ), ?_, ?_,
    ?_, ?_, diagonal_transpose _, diagonal_transpose _, ?_, ?_, ?_⟩
  · rw [toM_diag]; simp_rw [e1]
  · rw [toM_diag]; simp_rw [e2]
  · rw [diagonal_conjTranspose]
    congr 1
    funext k
    exact hst _
  · rw [diagonal_conjTranspose]
    congr 1
    funext k
    exact hst _
  · rw [diagonal_mul_diagonal, ← diagonal_one]
    congr 1
    funext k
    exact_mod_cast hmul k
  · rw [diagonal_mul_diagonal, ← diagonal_one]
    congr 1
    funext k
    have := hmul k
    rw [mul_comm] at this
    exact_mod_cast this
  · rw [h.eq, diagonal_mul_diagonal]
    congr 3
    funext k
    exact_mod_cast (Real.mul_self_sqrt (hw k).le).symm

/-! ## Singular values -/

/-- Squared norm of a vector. -/
def sqn {n : ℕ} (v : Fin n → ℂ) : ℝ := ∑ i, Complex.normSq (v i)

/-- Squared Frobenius norm. -/
def frob {n : ℕ} (M : Matrix (Fin n) (Fin n) ℂ) : ℝ := ∑ i, ∑ j, Complex.normSq (M i j)

theorem frob_trace {n : ℕ} (M : Matrix (Fin n) (Fin n) ℂ) : ((frob M : ℝ) : ℂ) = (M * Mᴴ).trace := by
  simp only [frob, Matrix.trace, diag_apply, Matrix.mul_apply, conjTranspose_apply]
  push_cast
  refine sum_congr rfl fun i _ => sum_congr rfl fun j _ => ?_
  rw [normSq_of, mul_comm]

theorem frob_mul {n : ℕ} (A B : Matrix (Fin n) (Fin n) ℂ) : frob (A * B) ≤ frob A * frob B := by
  have key : ∀ i j, Complex.normSq ((A * B) i j) ≤ (∑ k, Complex.normSq (A i k)) * ∑ k, Complex.normSq (B k j) := by
    intro i j
    rw [Matrix.mul_apply]
    have h1 : ‖∑ k, A i k * B k j‖ ≤ ∑ k, ‖A i k‖ * ‖B k j‖ := (norm_sum_le _ _).trans (le_of_eq (sum_congr rfl fun k _ => norm_mul _ _))
    have h2 := sum_mul_sq_le_sq_mul_sq univ (fun k => ‖A i k‖) fun k => ‖B k j‖
    simp_rw [Complex.normSq_eq_norm_sq]
    exact (pow_le_pow_left₀ (norm_nonneg _) h1 2).trans h2
  calc frob (A * B) ≤ ∑ i, ∑ j, (∑ k, Complex.normSq (A i k)) * ∑ k, Complex.normSq (B k j) :=
        sum_le_sum fun i _ => sum_le_sum fun j _ => key i j
    _ = frob A * ∑ j, ∑ k, Complex.normSq (B k j) := by simp_rw [← mul_sum, ← sum_mul]; rfl
    _ = frob A * frob B := by rw [sum_comm]; rfl

theorem sqn_mulVec {n : ℕ} (M : Matrix (Fin n) (Fin n) ℂ) (v : Fin n → ℂ) : ((sqn (M *ᵥ v) : ℝ) : ℂ) = star v ⬝ᵥ ((Mᴴ * M) *ᵥ v) := by
  rw [← Matrix.mulVec_mulVec, Matrix.dotProduct_mulVec, ← Matrix.star_mulVec]
  simp only [sqn, dotProduct, Pi.star_apply]
  push_cast
  exact sum_congr rfl fun i _ => normSq_of

theorem Density.form {pinv : ℝ} {n : ℕ} {p : ℕ → ℕ → ℂ} (h : Density pinv n p) (v : Fin n → ℂ) :
    pinv * sqn v ≤ (star v ⬝ᵥ (toM n p *ᵥ v)).re := by
  have e : ∀ x : ℕ → ℂ, (star (fun i : Fin n => x i) ⬝ᵥ (toM n p *ᵥ fun i : Fin n => x i)) = ∑ i ∈ range n, ∑ j ∈ range n, star (x i) * p i j * x j := by
    intro x
    simp only [dotProduct, mulVec, Pi.star_apply, toM, Finset.sum_range, mul_sum]
    exact sum_congr rfl fun i _ => sum_congr rfl fun j _ => by ring
  have e' : ∀ x : ℕ → ℂ, sqn (fun i : Fin n => x i) = ∑ i ∈ range n, Complex.normSq (x i) := fun x => by
    simp only [sqn, Finset.sum_range]
  obtain ⟨x, rfl⟩ : ∃ x : ℕ → ℂ, v = fun i : Fin n => x i :=
    ⟨fun i => if h : i < n then v ⟨i, h⟩ else 0, by funext i; simp⟩
  rw [e, e']
  by_cases h0 : ∑ i ∈ range n, Complex.normSq (x i) = 0
  · rw [h0, mul_zero]
    have : ∀ i ∈ range n, x i = 0 := fun i hi =>
      Complex.normSq_eq_zero.1 ((sum_eq_zero_iff_of_nonneg fun i _ => Complex.normSq_nonneg _).1 h0 i hi)
    rw [sum_eq_zero fun i hi => sum_eq_zero fun j hj => by rw [this j hj, mul_zero]]
    simp
  · have hpos : 0 < ∑ i ∈ range n, Complex.normSq (x i) := lt_of_le_of_ne (sum_nonneg fun i _ => Complex.normSq_nonneg _) (Ne.symm h0)
    set c := ∑ i ∈ range n, Complex.normSq (x i)
    have hs : 0 < Real.sqrt c := Real.sqrt_pos.2 hpos
    have hst : star ((Real.sqrt c : ℝ) : ℂ) = (Real.sqrt c : ℂ) := Complex.conj_ofReal _
    have hss : ((Real.sqrt c : ℝ) : ℂ) * (Real.sqrt c : ℂ) = (c : ℂ) := by exact_mod_cast Real.mul_self_sqrt hpos.le
    have h1 := h.pos (fun i => x i / (Real.sqrt c : ℂ)) (by
      simp only [Complex.normSq_div, Complex.normSq_ofReal, Real.mul_self_sqrt hpos.le, ← sum_div]
      exact div_self hpos.ne')
    have h2 : ∑ i ∈ range n, ∑ j ∈ range n, star (x i / (Real.sqrt c : ℂ)) * p i j * (x j / (Real.sqrt c : ℂ))
        = (∑ i ∈ range n, ∑ j ∈ range n, star (x i) * p i j * x j) / (c : ℂ) := by
      rw [sum_div]
      refine sum_congr rfl fun i _ => ?_
      rw [sum_div]
      refine sum_congr rfl fun j _ => ?_
      rw [star_div₀, hst, ← hss, div_mul_eq_mul_div, div_mul_div_comm]
    rw [h2, Complex.div_ofReal_re] at h1
    exact ((lt_div_iff₀ hpos).1 h1).le

/-- The transposed density matrix. -/
theorem Density.transp {pinv : ℝ} {n : ℕ} {p : ℕ → ℕ → ℂ} (h : Density pinv n p) : Density pinv n fun i j => p j i := by
  refine ⟨fun i hi j hj => h.herm j hj i hi, h.tr, fun x hx => ?_⟩
  have := h.pos (fun i => star (x i)) (by rw [← hx]; exact sum_congr rfl fun i _ => Complex.normSq_conj _)
  refine this.trans_eq ?_
  congr 1
  rw [sum_comm]
  refine sum_congr rfl fun i _ => sum_congr rfl fun j _ => ?_
  rw [star_star]; ring

/-- Singular values of the product of the square roots of two density matrices. -/
theorem sing_big {pinv : ℝ} (hp : 0 ≤ pinv) {n : ℕ} {Y X U W : Matrix (Fin n) (Fin n) ℂ} {σ : Fin n → ℝ} (hσ : ∀ k, 0 ≤ σ k)
    (h : Y * X = U * diagonal (fun k => ((σ k : ℝ) : ℂ)) * W) (hU : Uᴴ * U = 1) (hW : W * Wᴴ = 1)
    (hX : ∀ v, pinv * sqn v ≤ (star v ⬝ᵥ ((Xᴴ * X) *ᵥ v)).re) (hY : ∀ v, pinv * sqn v ≤ (star v ⬝ᵥ ((Yᴴ * Y) *ᵥ v)).re) (k : Fin n) : pinv ≤ σ k := by
  set v : Fin n → ℂ := Wᴴ *ᵥ Pi.single k 1 with hv
  have hsingle : sqn (Pi.single k (1 : ℂ) : Fin n → ℂ) = 1 := by
    unfold sqn
    rw [Finset.sum_eq_single k]
    · simp
    · intro b _ hb; simp [hb]
    · simp
  have h1 : sqn v = 1 := by
    have := sqn_mulVec Wᴴ (Pi.single k 1)
    rw [conjTranspose_conjTranspose, hW, Matrix.one_mulVec] at this
    rw [hv, ← hsingle]
    have h2 : star (Pi.single k (1 : ℂ) : Fin n → ℂ) ⬝ᵥ Pi.single k 1 = ((sqn (Pi.single k (1 : ℂ) : Fin n → ℂ) : ℝ) : ℂ) := by
      simp only [sqn, dotProduct, Pi.star_apply]
      push_cast
      exact sum_congr rfl fun i _ => normSq_of.symm
    rw [h2] at this
    exact_mod_cast this
  have h2 : sqn (Y *ᵥ (X *ᵥ v)) = σ k ^ 2 := by
    rw [Matrix.mulVec_mulVec, h, hv, Matrix.mulVec_mulVec, Matrix.mul_assoc _ W, hW, Matrix.mul_one]
    have e : U *ᵥ (diagonal (fun k => ((σ k : ℝ) : ℂ)) *ᵥ Pi.single k 1) = (U * diagonal fun k => ((σ k : ℝ) : ℂ)) *ᵥ Pi.single k 1 :=
      Matrix.mulVec_mulVec _ _ _
    rw [← e]
    have := sqn_mulVec U (diagonal (fun k => ((σ k : ℝ) : ℂ)) *ᵥ Pi.single k 1)
    rw [hU, Matrix.one_mulVec] at this
    have h3 : star (diagonal (fun k => ((σ k : ℝ) : ℂ)) *ᵥ Pi.single k 1) ⬝ᵥ (diagonal (fun k => ((σ k : ℝ) : ℂ)) *ᵥ Pi.single k 1) = ((σ k ^ 2 : ℝ) : ℂ) := by
      simp only [dotProduct, Pi.star_apply, mulVec_diagonal]
      rw [Finset.sum_eq_single k]
      · simp; ring
      · intro b _ hb; simp [hb]
      · simp
    rw [h3] at this
    exact_mod_cast this
  have h3 : pinv * sqn (X *ᵥ v) ≤ σ k ^ 2 := by
    have := hY (X *ᵥ v)
    rwa [← sqn_mulVec, Complex.ofReal_re, h2] at this
  have h4 : pinv ≤ sqn (X *ᵥ v) := by
    have := hX v
    rwa [← sqn_mulVec, Complex.ofReal_re, h1, mul_one] at this
  have h5 : pinv ^ 2 ≤ σ k ^ 2 := by nlinarith
  exact abs_le_of_sq_le_sq' h5 (hσ k) |>.2

end
end PyTeN.Regauge
