import Mathlib.Analysis.Normed.Algebra.MatrixExponential
import Mathlib.Analysis.SpecialFunctions.Exponential
import Mathlib.Analysis.InnerProductSpace.Adjoint
import Mathlib.Analysis.Calculus.MeanValue
import Mathlib.Analysis.Calculus.Deriv.Mul
import Mathlib.Analysis.CStarAlgebra.Exponential

/-! # The error of the evolution in a Krylov space

Mathematical facts used for C77; nothing of the code is modelled here. -/

namespace PyTeN
open Finset

theorem exp_col {n : ℕ} {A : Matrix (Fin n) (Fin n) ℂ} (hA : A.conjTranspose = -A) (j : Fin n) :
    ∑ i, ‖NormedSpace.exp A i j‖ ^ 2 = 1 := by
  have hU : (NormedSpace.exp A).conjTranspose * NormedSpace.exp A = 1 := by
    rw [← Matrix.exp_conjTranspose, hA, ← Matrix.exp_add_of_commute _ _ (Commute.neg_left (Commute.refl A)), neg_add_cancel,
      NormedSpace.exp_zero]
  have h1 := congrArg Complex.re (congrFun (congrFun hU j) j)
  rw [Matrix.mul_apply, Matrix.one_apply_eq, Complex.re_sum, Complex.one_re] at h1
  rw [← h1]
  refine sum_congr rfl fun i _ => ?_
  rw [Matrix.conjTranspose_apply]
  change _ = ((starRingEnd ℂ) _ * _ : ℂ).re
  rw [← Complex.normSq_eq_conj_mul_self, Complex.ofReal_re, Complex.normSq_eq_norm_sq]

theorem matrix_exp_deriv {n : ℕ} (A : Matrix (Fin n) (Fin n) ℂ) (i j : Fin n) (s : ℂ) :
    HasDerivAt (fun s : ℂ => NormedSpace.exp (s • A) i j) ((A * NormedSpace.exp (s • A)) i j) s := by
  let _ : NormedRing (Matrix (Fin n) (Fin n) ℂ) := Matrix.linftyOpNormedRing
  let _ : NormedAlgebra ℂ (Matrix (Fin n) (Fin n) ℂ) := Matrix.linftyOpNormedAlgebra
  have h := hasDerivAt_exp_smul_const' (𝕂 := ℂ) A s
  have hc : Continuous fun B : Matrix (Fin n) (Fin n) ℂ => B i j := (continuous_apply j).comp (continuous_apply i)
  let L : Matrix (Fin n) (Fin n) ℂ →L[ℂ] ℂ := ⟨Matrix.entryLinearMap ℂ ℂ i j, hc⟩
  exact L.hasFDerivAt.comp_hasDerivAt s h

variable {V : Type} [NormedAddCommGroup V] [InnerProductSpace ℂ V] [CompleteSpace V]

theorem exp_isometry {H : V →L[ℂ] V} (hH : (H : V →ₗ[ℂ] V).IsSymmetric) {z : ℂ} (hz : (starRingEnd ℂ) z = -z) (v : V) :
    ‖NormedSpace.exp (z • H) v‖ = ‖v‖ := by
  apply ContinuousLinearMap.norm_map_of_mem_unitary
  let _ : NormedAlgebra ℚ (V →L[ℂ] V) := .restrictScalars ℚ ℂ (V →L[ℂ] V)
  apply NormedSpace.exp_mem_unitary_of_mem_skewAdjoint
  rw [skewAdjoint.mem_iff, star_smul, ContinuousLinearMap.isSelfAdjoint_iff_isSymmetric.mpr hH |>.star_eq]
  change (starRingEnd ℂ) z • H = _
  rw [hz, neg_smul]

/-- The error of the evolution in a subspace that the operator leaves only through one vector. -/
theorem krylov_error {H : V →L[ℂ] V} (hH : (H : V →ₗ[ℂ] V).IsSymmetric) {n : ℕ} {T : Matrix (Fin n) (Fin n) ℂ}
    (hT : T.conjTranspose = T) {q : Fin n → V} {c : Fin n} {last : V}
    (hq : ∀ a : Fin n → ℂ, H (∑ i, a i • q i) = ∑ i, (∑ j, T i j * a j) • q i + a c • last) (j0 : Fin n) {dt : ℂ}
    (hdt : (starRingEnd ℂ) dt = -dt) :
    ‖∑ i, NormedSpace.exp (dt • T) i j0 • q i - NormedSpace.exp (dt • H) (q j0)‖ ≤ ‖dt‖ * ‖last‖ := by
  let u : ℂ → Fin n → ℂ := fun s i => NormedSpace.exp (s • dt • T) i j0
  let g : ℂ → V := fun s => NormedSpace.exp ((1 - s) • dt • H) (∑ i, u s i • q i)
  let g' : ℂ → V := fun s => NormedSpace.exp ((1 - s) • dt • H) (-(dt * u s c) • last)
  have hu : ∀ s i, HasDerivAt (fun s => u s i) (dt * ∑ j, T i j * u s j) s := by
    intro s i
    have h := matrix_exp_deriv (dt • T) i j0 s
    rw [smul_mul_assoc, Matrix.smul_apply, Matrix.mul_apply, smul_eq_mul] at h
    exact h
  have hg : ∀ s, HasDerivAt g (g' s) s := by
    intro s
    have h1 : HasDerivAt (fun s : ℂ => NormedSpace.exp ((1 - s) • dt • H)) (-(NormedSpace.exp ((1 - s) • dt • H) * (dt • H))) s := by
      have h := (hasDerivAt_exp_smul_const (𝕂 := ℂ) (dt • H) (1 - s)).scomp s ((hasDerivAt_id s).const_sub 1)
      rw [neg_one_smul] at h
      exact h
    have h2 : HasDerivAt (fun s => ∑ i, u s i • q i) (∑ i, (dt * ∑ j, T i j * u s j) • q i) s :=
      HasDerivAt.fun_sum fun i _ => (hu s i).smul_const (q i)
    have h3 := h1.clm_apply h2
    refine h3.congr_deriv ?_
    change -(NormedSpace.exp ((1 - s) • dt • H) (dt • H (∑ i, u s i • q i))) + _ = NormedSpace.exp ((1 - s) • dt • H) (-(dt * u s c) • last)
    rw [hq, ← map_neg, ← map_add]
    congr 1
    simp only [mul_smul, neg_smul, smul_add, ← smul_sum]
    abel
  have hconv : Convex ℝ (segment ℝ (0 : ℂ) 1) := convex_segment 0 1
  have key := hconv.norm_image_sub_le_of_norm_hasDerivWithin_le (C := ‖dt‖ * ‖last‖)
    (fun s _ => (hg s).hasDerivWithinAt) (fun s hs => ?_) (left_mem_segment ℝ 0 1) (right_mem_segment ℝ 0 1)
  · have e0 : g 0 = NormedSpace.exp (dt • H) (q j0) := by
      change NormedSpace.exp ((1 - 0 : ℂ) • dt • H) (∑ i, NormedSpace.exp ((0 : ℂ) • dt • T) i j0 • q i) = _
      rw [sub_zero, one_smul, zero_smul, NormedSpace.exp_zero, sum_eq_single j0]
      · rw [Matrix.one_apply_eq, one_smul]
      · intro b _ hb; rw [Matrix.one_apply_ne hb, zero_smul]
      · intro hn; exact absurd (mem_univ _) hn
    have e1 : g 1 = ∑ i, NormedSpace.exp (dt • T) i j0 • q i := by
      change NormedSpace.exp ((1 - 1 : ℂ) • dt • H) (∑ i, NormedSpace.exp ((1 : ℂ) • dt • T) i j0 • q i) = _
      rw [sub_self, zero_smul, NormedSpace.exp_zero, one_smul]
      rfl
    rw [e0, e1] at key
    simpa using key
  · obtain ⟨t, ht, rfl⟩ := (segment_eq_image ℝ (0 : ℂ) 1 ▸ hs)
    simp only [smul_zero, zero_add] at hs ⊢
    have hs1 : (starRingEnd ℂ) (t • (1 : ℂ)) = t • (1 : ℂ) := by simp
    generalize t • (1 : ℂ) = s at hs1
    change ‖NormedSpace.exp ((1 - s) • dt • H) (-(dt * u s c) • last)‖ ≤ _
    rw [smul_smul, exp_isometry hH (by rw [map_mul, map_sub, map_one, hs1, hdt]; ring), norm_smul, norm_neg, norm_mul]
    have hle : ‖u s c‖ ≤ 1 := by
      have h1 := exp_col (A := s • dt • T) (by
        rw [smul_smul, Matrix.conjTranspose_smul, hT, ← neg_smul]
        congr 1
        change (starRingEnd ℂ) (s * dt) = _
        rw [map_mul, hs1, hdt]; ring) j0
      have h2 := single_le_sum (s := univ) (f := fun i => ‖u s i‖ ^ 2) (fun i _ => by positivity) (mem_univ c)
      have h3 : ‖u s c‖ ^ 2 ≤ 1 := h2.trans h1.le
      exact (sq_le_one_iff₀ (norm_nonneg _)).mp h3
    calc ‖dt‖ * ‖u s c‖ * ‖last‖ ≤ ‖dt‖ * 1 * ‖last‖ := by gcongr
      _ = _ := by ring

end PyTeN
