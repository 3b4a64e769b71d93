import Verif.Mps.RegaugeImps
import Verif.Utils.Grid
import Mathlib.Analysis.SpecialFunctions.Pow.Complex

/-! # Distributing a matrix over a unit cell -/

namespace PyTeN.Distribute
open Finset

noncomputable section

/-- `np.diag` of a list of complex numbers. -/
def diagC (s : List ℂ) : Mat ℂ := ⟨s.length, s.length, fun i j => delta ℂ i j * s.getD i 0⟩

/-- The body of the loop of `distributeR`, lib/mpslib/mpsfunctionsgradopt.py:356-359: `temp**(-1.0*n)` is not a number if some entry of
`temp` vanishes and `n>0`, modelled as the error `nan`; `tensordot` fails unless the dimensions agree. -/
def stepR (temp : List ℂ) (U : Mat ℂ) (n : ℕ) (t : Ten ℂ) : Res (Ten ℂ) :=
  let C := (U.dot (diagC (temp.map (· ^ (n + 1))))).dot U.herm
  let Ci := (U.dot (diagC (temp.map fun z => (z ^ n)⁻¹))).dot U.herm
  if n ≠ 0 ∧ (0 : ℂ) ∈ temp then .error .nan
  else if Ci.c ≠ t.l then .error .value
  else if t.r ≠ C.r then .error .value
  else .ok ⟨Ci.r, C.c, t.d, fun i j s => ∑ a ∈ range t.l, ∑ b ∈ range t.r, Ci.v i a * t.v a b s * C.v b j⟩

/-- The loop of `distributeR`, lib/mpslib/mpsfunctionsgradopt.py:355-359, from site `n` on. -/
def loopR (temp : List ℂ) (U : Mat ℂ) : ℕ → List (Ten ℂ) → Res (List (Ten ℂ))
  | _, [] => .ok []
  | n, t :: ts =>
    match stepR temp U n t with
    | .error e => .error e
    | .ok t' =>
      match loopR temp U (n + 1) ts with
      | .error e => .error e
      | .ok ts' => .ok (t' :: ts')

/-- `distributeR(mps,x,L,r)`, lib/mpslib/mpsfunctionsgradopt.py:344-360, for complex tensors; `E` is `np.linalg.eig`.  The module does not
import `sys`, so a grid which is not uniform raises NameError.  The function overwrites the entries of the list `mps` and returns that list. -/
def distributeR (E : Mat ℂ → List ℂ × Mat ℂ) (mps : List (Ten ℂ)) (x : List ℝ) (L : ℝ) (r : Mat ℂ) : Res (List (Ten ℂ)) :=
  match mps with
  | [] => .error .index
  | t :: ts =>
    match Utils.computedx (1 / 10 ^ 12) 0 x L with
    | .error e => .error e
    | .ok dx =>
      if ¬ ∀ d ∈ dx, |d - dx.headD 0| < 1 / 10 ^ 10 then .error .name
      else if r.r ≠ r.c then .error .value
      else loopR ((E r).1.map (· ^ (((t :: ts).length + 1 : ℕ) : ℂ)⁻¹)) (E r).2 0 (t :: ts)

end

end PyTeN.Distribute
