import Verif.Krylov.Lanczos
import Mathlib.Analysis.Matrix.Spectrum
import Mathlib.Data.Fin.Tuple.Sort

/-! # `np.linalg.eigh` -/

namespace PyTeN
open Finset Lanczos
noncomputable section

/-- Contract of `np.linalg.eigh` on Hermitian matrices: all eigenvalues in ascending order, orthonormal eigenvectors as columns. -/
def EighSpec (eigh : Eigh) : Prop := ∀ M : Mat ℂ, M.r = M.c → (∀ i < M.r, ∀ j < M.r, (starRingEnd ℂ) (M.v i j) = M.v j i) →
  (eigh M).1.length = M.r ∧ (eigh M).1.Pairwise (· ≤ ·) ∧ (eigh M).2.r = M.r ∧ (eigh M).2.c = M.r ∧
    (∀ k < M.r, ∀ l < M.r, ∑ i ∈ range M.r, (starRingEnd ℂ) ((eigh M).2.v i k) * (eigh M).2.v i l = delta ℂ k l) ∧
    ∀ k < M.r, ∀ i < M.r, ∑ j ∈ range M.r, M.v i j * (eigh M).2.v j k = (((eigh M).1.getD k 0 : ℝ) : ℂ) * (eigh M).2.v i k

theorem exists_eigh : ∃ eigh : Eigh, EighSpec eigh := by
  have key : ∀ M : Mat ℂ, ∃ r : List ℝ × Mat ℂ, M.r = M.c → (∀ i < M.r, ∀ j < M.r, (starRingEnd ℂ) (M.v i j) = M.v j i) →
      r.1.length = M.r ∧ r.1.Pairwise (· ≤ ·) ∧ r.2.r = M.r ∧ r.2.c = M.r ∧
      (∀ k < M.r, ∀ l < M.r, ∑ i ∈ range M.r, (starRingEnd ℂ) (r.2.v i k) * r.2.v i l = delta ℂ k l) ∧
      ∀ k < M.r, ∀ i < M.r, ∑ j ∈ range M.r, M.v i j * r.2.v j k = ((r.1.getD k 0 : ℝ) : ℂ) * r.2.v i k := by
    intro M
    by_cases hM : ∀ i < M.r, ∀ j < M.r, (starRingEnd ℂ) (M.v i j) = M.v j i
    · let A : Matrix (Fin M.r) (Fin M.r) ℂ := fun i j => M.v i j
      have hA : A.IsHermitian := by
        ext i j
        exact hM j j.2 i i.2
      let s := Tuple.sort hA.eigenvalues
      have hs := Tuple.monotone_sort hA.eigenvalues
      refine ⟨(List.ofFn fun k => hA.eigenvalues (s k),
        ⟨M.r, M.r, fun i k => if h : i < M.r ∧ k < M.r then hA.eigenvectorBasis (s ⟨k, h.2⟩) ⟨i, h.1⟩ else 0⟩), fun _ _ => ⟨?_, ?_, rfl, rfl, ?_, ?_⟩⟩
      · simp
      · rw [List.pairwise_ofFn]
        intro i j hij
        exact hs hij.le
      · intro k hk l hl
        have h1 := hA.eigenvectorBasis.orthonormal
        have h2 := (orthonormal_iff_ite.mp h1) (s ⟨k, hk⟩) (s ⟨l, hl⟩)
        rw [PiLp.inner_apply] at h2
        rw [Finset.sum_range]
        simp only [Fin.is_lt, hk, hl, and_self, dite_true, Fin.eta]
        simp only [RCLike.inner_apply] at h2
        rw [show delta ℂ k l = if s ⟨k, hk⟩ = s ⟨l, hl⟩ then 1 else 0 by simp [delta], ← h2]
        exact Finset.sum_congr rfl fun _ _ => mul_comm _ _
      · intro k hk i hi
        have h1 := congrFun (hA.mulVec_eigenvectorBasis (s ⟨k, hk⟩)) ⟨i, hi⟩
        rw [Finset.sum_range]
        simp only [Fin.is_lt, hk, hi, and_self, dite_true, Fin.eta]
        have h3 : (List.ofFn fun k => hA.eigenvalues (s k)).getD k 0 = hA.eigenvalues (s ⟨k, hk⟩) := by
          simp [List.getD_eq_getElem?_getD, hk]
        rw [h3]
        simpa [Matrix.mulVec, dotProduct, A] using h1
    · exact ⟨([], M), fun _ h => absurd h hM⟩
  choose f hf using key
  exact ⟨f, fun M h1 h2 => hf M h1 h2⟩

end
end PyTeN
