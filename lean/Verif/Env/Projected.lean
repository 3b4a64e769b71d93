import Verif.Env.Layer
import Verif.Mps.Ops

/-! # `getUCL`, `getUCR`, `getLprojected`, `getRprojected` -/

namespace PyTeN
open Finset

noncomputable section

variable {K : Type*} [CommRing K] [StarRing K]

/-- The loop of `getUCL`, lib/mpslib/mpsfunctions.py:1078-1089: like `blocksR`, but only the current block is kept. -/
def lastR (E : Env K) : List (Ten K) → List (Mpo K) → Res (Env K)
  | [], _ => .ok E
  | A :: As, W :: Ws =>
    match addLayerR E A W A with
    | .error e => .error e
    | .ok F => lastR F As Ws
  | _ :: _, [] => .error .index

/-- The loop of `getUCR`, lib/mpslib/mpsfunctions.py:1066-1076; the lists are in processing order, from right to left. -/
def lastL (E : Env K) : List (Ten K) → List (Mpo K) → Res (Env K)
  | [], _ => .ok E
  | A :: As, W :: Ws =>
    match addLayerL E A W A with
    | .error e => .error e
    | .ok F => lastL F As Ws
  | _ :: _, [] => .error .index

/-- `getUCL(mps,mpo,leftboundary)`, lib/mpslib/mpsfunctions.py:1078-1089. -/
def getUCL (mps : List (Ten K)) (mpo : List (Mpo K)) (lb : Env K) : Res (Env K) :=
  if mps = [] then .error .index else lastR lb mps mpo

/-- `getUCR(mps,mpo,rightboundary)`, lib/mpslib/mpsfunctions.py:1066-1076: the first layer uses `mpo[-1]`, the others
`mpo[N-1-n]`.  (For an MPO shorter than `N-1` the IndexError is reported before a possible shape error.) -/
def getUCR (mps : List (Ten K)) (mpo : List (Mpo K)) (rb : Env K) : Res (Env K) :=
  if mps = [] then .error .index
  else match mpo.getLast? with
    | none => .error .index
    | some w =>
      if mpo.length < mps.length - 1 then .error .index
      else lastL rb mps.reverse (w :: (mpo.take (mps.length - 1)).reverse)

/-- `E[:,:,c]=E[:,:,c]-np.trace(E[:,:,c].dot(a))*b` of lib/mpslib/mpsfunctions.py:1114, 1119, 1146 and 1151.  Only matrices of
the shape of the block are accepted (numpy also broadcasts matrices with one row or column, and traces of products that
are not square). -/
def projChan (c : ℕ) (a b : Mat ℂ) (E : Env ℂ) : Res (Env ℂ) :=
  if c < E.m then
    if a.r = E.w ∧ a.c = E.u ∧ b.r = E.u ∧ b.c = E.w then
      .ok { E with v := fun i i' x => if x = c then E.v i i' c - (∑ k ∈ range E.u, ∑ k' ∈ range E.w, E.v k k' c * a.v k' k) * b.v i i'
                                      else E.v i i' x }
    else .error .value
  else .error .index

/-- `ldens[n]` with a Python index. -/
def densAt (l : List (Mat ℂ)) (i : ℤ) : Res (Mat ℂ) :=
  match pyIdx l.length i with
  | none => .error .index
  | some k => match l[k]? with
    | none => .error .index
    | some a => .ok a

/-- Loop of `getLprojected`, lib/mpslib/mpsfunctions.py:1143-1153; `n` is the number of the site. -/
def projLoopR (ldens rdens : List (Mat ℂ)) (n : ℕ) (E : Env ℂ) : List (Ten ℂ) → List (Mpo ℂ) → Res (List (Env ℂ))
  | [], _ => .ok []
  | A :: As, W :: Ws =>
    match addLayerR E A W A with
    | .error e => .error e
    | .ok F =>
      match densAt rdens (n + 1) with
      | .error e => .error e
      | .ok r =>
        match densAt ldens (n + 1) with
        | .error e => .error e
        | .ok l =>
          match projChan 0 r l F with
          | .error e => .error e
          | .ok G =>
            match projLoopR ldens rdens (n + 1) G As Ws with
            | .error e => .error e
            | .ok Gs => .ok (G :: Gs)
  | _ :: _, [] => .error .index

/-- `getLprojected(mps,mpo,leftboundary,ldens,rdens)`, lib/mpslib/mpsfunctions.py:1124-1153. -/
def getLprojected (mps : List (Ten ℂ)) (mpo : List (Mpo ℂ)) (lb : Env ℂ) (ldens rdens : List (Mat ℂ)) : Res (List (Env ℂ)) :=
  if mps = [] then .error .index else projLoopR ldens rdens 0 lb mps mpo

/-- Loop of `getRprojected`, lib/mpslib/mpsfunctions.py:1111-1120, in processing order; `ns` are the indices into the lists of
density matrices. -/
def projLoopL (ldens rdens : List (Mat ℂ)) (E : Env ℂ) : List ℤ → List (Ten ℂ) → List (Mpo ℂ) → Res (List (Env ℂ))
  | _, [], _ => .ok []
  | n :: ns, A :: As, W :: Ws =>
    match addLayerL E A W A with
    | .error e => .error e
    | .ok F =>
      match densAt ldens n with
      | .error e => .error e
      | .ok l =>
        match densAt rdens n with
        | .error e => .error e
        | .ok r =>
          match projChan (F.m - 1) l r F with
          | .error e => .error e
          | .ok G =>
            match projLoopL ldens rdens G ns As Ws with
            | .error e => .error e
            | .ok Gs => .ok (G :: Gs)
  | _, _ :: _, _ => .error .index

/-- `getRprojected(mps,mpo,rightboundary,ldens,rdens)`, lib/mpslib/mpsfunctions.py:1093-1121: the first layer uses `mpo[-1]` and
the density matrices number -2, the others `N-1-n`.  (For an MPO shorter than `N-1` the IndexError is reported before
other errors.) -/
def getRprojected (mps : List (Ten ℂ)) (mpo : List (Mpo ℂ)) (rb : Env ℂ) (ldens rdens : List (Mat ℂ)) : Res (List (Env ℂ)) :=
  if mps = [] then .error .index
  else match mpo.getLast? with
    | none => .error .index
    | some w =>
      if mpo.length < mps.length - 1 then .error .index
      else projLoopL ldens rdens rb (-2 :: List.map (fun k : ℕ => (k : ℤ)) (List.range (mps.length - 1)).reverse) mps.reverse
        (w :: (mpo.take (mps.length - 1)).reverse)

end

end PyTeN
