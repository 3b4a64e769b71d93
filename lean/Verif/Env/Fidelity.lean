import Verif.Env.Transfer
import Verif.Mps.RegaugeImps

/-! # The leading eigenvector of the mixed transfer operator -/

namespace PyTeN.Fidelity
open Finset Transfer Regauge

noncomputable section

open Classical in
/-- `m=np.argmax(np.abs(eta))` with the eigenvector, lib/mpslib/mpsfunctions.py:1717-1721; an empty list is a ValueError. -/
def argmaxAbs : List (ℂ × Vec ℂ) → Res (ℂ × Vec ℂ)
  | [] => .error .value
  | [q] => .ok q
  | q :: l =>
    match argmaxAbs l with
    | .error e => .error e
    | .ok b => if ‖b.1‖ ≤ ‖q.1‖ then .ok q else .ok b

/-- `MixedUnitcellTMeigs(mps1,mps2,direction,numeig,...)`, lib/mpslib/mpsfunctions.py:1702-1721, for complex tensors; `numeig` is not
returned.  `scipy.sparse.linalg.eigs` refuses an operator which is not square and `numeig<=0` (ValueError) and `numeig>=n-1`
(TypeError). -/
def mixedUnitcellTMeigs (eigs : Eigs) (mps1 mps2 : List (Ten ℂ)) (dir : Dir) (numeig : ℕ) : Res (ℂ × Vec ℂ) :=
  if mps1.length ≠ mps2.length then .error .assertion
  else
    match mps1.head?, mps1.getLast?, mps2.head?, mps2.getLast? with
    | some a, some b, some a', some b' =>
      if a.l * a'.l ≠ b.r * b'.r then .error .value
      else if numeig = 0 then .error .value
      else if a.l * a'.l ≤ numeig + 1 then .error .type
      else
        match eigs (a.l * a'.l) (mixedUnitcellTransferOperator dir mps2 mps1) numeig with
        | .error e => .error e
        | .ok l => argmaxAbs l
    | _, _, _, _ => .error .index

end

end PyTeN.Fidelity
