import Verif.Env.Layer

/-! # The effective Hamiltonian of one site, applied to a tensor -/

namespace PyTeN.ApplyH
open Finset

variable {K : Type*} [CommRing K] [StarRing K]

/-- `applyHsingleSite(L,mpo,R,mps)`, lib/mpslib/mpsfunctions.py:1470-1478, with `HAproductSingleSite` (959-968).  The contraction is that of
`contractionH`; of the reshapes of its result the one to a vector of the size of the argument (line 968) can fail.  Only shapes that agree axis
by axis are accepted for the argument. -/
def applyHsingleSite (L : Env K) (W : Mpo K) (R : Env K) (A : Ten K) : Res (Ten K) :=
  if A.d ≠ 2 then .error .assertion
  else
    match contractionH L A W R with
    | .error e => .error e
    | .ok T => if T.l * T.r * T.d = L.u * R.u * W.din then .ok T else .error .value

end PyTeN.ApplyH
