import Verif.Mps.Ops

/-! # Four-point correlations -/

namespace PyTeN.FourPoint

noncomputable section

/-- `measure4pointCorrelation(mps,ops,P)`, lib/mpslib/mpsfunctions.py:346-403, in a module with the given names: the outcome, and the object `mps`
afterwards.  The first pass of the loop over the sites (line 364) calls `mf.addELayer` for all arguments, as the parity of the number of operators
is zero (lines 356, 365-366); what follows is the parameter `rest`.  The operators are arrays with two axes.  The object after an exception in
`position` is not modelled. -/
def measure4 (names : List String) (O : LinAlg) (rest : MPS → List (Mat ℂ) → Res ℂ × MPS) (m : MPS) (ops : List (Mat ℂ)) : Res ℂ × MPS :=
  if ops.length ≠ 4 then (.error .assertion, m)
  else
    match m.position O 0 with
    | .error e => (.error e, m)
    | .ok m' =>
      match m'.getItem 0 with
      | .error e => (.error e, m')
      | .ok _ => if "mf" ∈ names then rest m' ops else (.error .name, m')

end

end PyTeN.FourPoint
