import Verif.Env.Layer
import Verif.Mps.Model

/-! # `getBlockHam` -/

namespace PyTeN

noncomputable section

/-! ## Model -/

/-- The last block of a loop over `addLayer`, or the boundary if there was no step. -/
def lastBlock (E : Env ℂ) (l : List (Env ℂ)) : Env ℂ := l.getLastD E

/-- `getBlockHam(mps,lbold,rbold,mpo,index)`, lib/mpslib/mpsfunctions.py:1725-1735, for `index>=0` (a negative one fails in `__position__`).
The object `mps` is changed in place and therefore part of the result.  `mpo` has to reach up to the last site, else there is an IndexError
in one of the loops. -/
def getBlockHam (O : LinAlg) (m : MPS) (lbold rbold : Env ℂ) (mpo : List (Mpo ℂ)) (index : ℕ) : Res (MPS × Env ℂ × Env ℂ × Mat ℂ) :=
  match m.position O index with
  | .error e => .error e
  | .ok m' =>
    match getT m'.tensors index with
    | .error e => .error e
    | .ok t =>
      match prepareTensor O t 1 with
      | .error e => .error e
      | .ok (A, lam, _) =>
        if mpo.length < m'.N then .error .index
        else
          match blocksR lbold (m'.tensors.take index ++ [A]) mpo (m'.tensors.take index ++ [A]) with
          | .error e => .error e
          | .ok ls =>
            match blocksL rbold (m'.tensors.drop (index + 1)).reverse ((mpo.take m'.N).drop (index + 1)).reverse
                (m'.tensors.drop (index + 1)).reverse with
            | .error e => .error e
            | .ok rs => .ok (m', lastBlock lbold ls, lastBlock rbold rs, lam)

end

end PyTeN
