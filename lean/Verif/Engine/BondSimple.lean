import Verif.Engine.Integrator
import Verif.Krylov.Sparse

/-! # The ground state of the bond operator -/

namespace PyTeN.BondSimple
open Finset Sparse

noncomputable section

/-- `applyHbond(L,R,mat)`, lib/mpslib/mpsfunctions.py:1480-1482: the contraction of `HAproductBondMatrix`. -/
def applyHbond (L R : Env ℂ) (M : Mat ℂ) : Res (Mat ℂ) := bondH L R M

/-- `eigshbondsimple(L,R,mat0,tolerance,numvecs,numcv)`, lib/mpslib/mpsfunctions.py:1401-1408: the eigenvalues and the matrix.  `HAproductBond`
reshapes to `(chi,chi)` with `chi=L.shape[0]`, which is a ValueError for other matrices (shapes with the same number of entries are
refused here too).  The array `v` of `numvecs` columns is reshaped to one matrix. -/
def eigshbondsimple (arp : Arpack) (numvecs : ℕ) (L R : Env ℂ) (C : Mat ℂ) : Res (List ℝ × Mat ℂ) :=
  if BondFits L R C.r C.c then
    match arp (Fin C.r × Fin C.c) (haBond L R) numvecs (C.vec C.r C.c) with
    | .error e => .error e
    | .ok ps =>
      if C.r * C.c * ps.length = L.w * R.w then
        match ps with
        | q :: _ => .ok (ps.map Prod.fst, BVec.mat q.2)
        | [] => .ok ([], ⟨L.w, R.w, fun _ _ => 0⟩)
      else .error .value
  else .error .value

end

end PyTeN.BondSimple
