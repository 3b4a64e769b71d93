import Verif.Mps.Model

/-! # `check_normalization`, `isDiag` and `isDiagUnitary` -/

namespace PyTeN
open Finset

noncomputable section

/-! ## Model -/

/-- `np.tensordot(tensor,np.conj(tensor),([0,2],[0,2]))-np.eye(tensor.shape[1])`, lib/mpslib/mpsfunctions.py:86. -/
def residL (t : Ten ℂ) : Mat ℂ :=
  ⟨t.r, t.r, fun j j' => ∑ i ∈ range t.l, ∑ s ∈ range t.d, t.v i j s * star (t.v i j' s) - (eye t.r).v j j'⟩

/-- `np.tensordot(tensor,np.conj(tensor),([1,2],[1,2]))-np.eye(tensor.shape[0])`, lib/mpslib/mpsfunctions.py:90. -/
def residR (t : Ten ℂ) : Mat ℂ :=
  ⟨t.l, t.l, fun i i' => ∑ j ∈ range t.r, ∑ s ∈ range t.d, t.v i j s * star (t.v i' j s) - (eye t.l).v i i'⟩

/-- `check_normalization(tensor,which)`, lib/mpslib/mpsfunctions.py:78-93.  The two `if` statements are independent; a value of `which` that
meets neither leaves `Z` unbound.  The printed text, which depends on `thresh`, is left out. -/
def checkNormalization (t : Ten ℂ) (which : String) : Res ℝ :=
  let Z := if which = "l" then some (normF (residL t)) else none
  let Z := if which = "r" then some (normF (residR t)) else Z
  match Z with
  | some z => .ok z
  | none => .error .unbound

/-- `np.diag(np.diag(matrix))-matrix`, lib/utils/utilities.py:622. -/
def offDiag (a : Mat ℂ) : Mat ℂ := ⟨a.r, a.c, fun i j => (if i = j then a.v i i else 0) - a.v i j⟩

/-- `np.abs(matrix)-np.eye(D)`, lib/utils/utilities.py:632. -/
def absDiff (a : Mat ℂ) : Mat ℂ := ⟨a.r, a.c, fun i j => (‖a.v i j‖ : ℂ) - delta ℂ i j⟩

/-- The two tests at the end of `isDiag` and `isDiagUnitary`, lib/utils/utilities.py:623-626 and 633-636. -/
def verdict (diff err : ℝ) : Bool × ℝ := if diff < err then (true, diff) else (false, diff)

/-- `isDiag(matrix,err)`, lib/utils/utilities.py:619-626. -/
def isDiag (a : Mat ℂ) (err : ℝ) : Res (Bool × ℝ) := if a.r ≠ a.c then .error .assertion else .ok (verdict (normF (offDiag a)) err)

/-- `isDiagUnitary(matrix,err)`, lib/utils/utilities.py:629-636. -/
def isDiagUnitary (a : Mat ℂ) (err : ℝ) : Res (Bool × ℝ) :=
  if a.r ≠ a.c then .error .assertion else .ok (verdict (normF (absDiff a)) err)

end

end PyTeN
