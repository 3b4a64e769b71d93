import Verif.Mps.Model
import Verif.Ham.Fermion

/-! # The gauges of lattice-cMPS tensors -/

namespace PyTeN.FixA0
open Finset

noncomputable section

/-- `mps[:,:,s]`. -/
def part (t : Ten ℂ) (s : ℕ) : Mat ℂ := ⟨t.l, t.r, fun i j => t.v i j s⟩

/-- `np.tensordot(mat,tensor,([1],[0]))` for a square matrix of matching size (lib/mpslib/mpsfunctionsgradopt.py:247, 258). -/
def mulL (m : Mat ℂ) (t : Ten ℂ) : Ten ℂ := ⟨m.r, t.r, t.d, fun i j s => ∑ k ∈ range t.l, m.v i k * t.v k j s⟩

/-- `np.transpose(np.tensordot(tensor,mat,([1],[0])),(0,2,1))` for a square matrix of matching size
(lib/mpslib/mpsfunctionsgradopt.py:207, 221). -/
def mulR (t : Ten ℂ) (m : Mat ℂ) : Ten ℂ := ⟨t.l, m.c, t.d, fun i j s => ∑ k ∈ range t.r, t.v i k s * m.v k j⟩

/-- The tensor `mat` of lib/mpslib/mpsfunctions.py:798-801 and 810-814 (the same lines are lib/mpslib/mpsfunctionsgradopt.py:181-184,
227-230, 268-271, 278-282): the component 0 is the identity, the component 1 is `mps[:,:,1].dot(pinv(A0))` for `direction>0` and
`pinv(A0).dot(mps[:,:,1])` for `direction<0`, every further component keeps the zeros of `np.zeros`. -/
def scaled (right : Bool) (pinv : Mat ℂ → Mat ℂ) (t : Ten ℂ) : Ten ℂ :=
  ⟨t.l, t.r, t.d, fun i j s =>
    if s = 0 then delta ℂ i j
    else if s = 1 then
      (if right then (part t 1).dot (pinv (part t 0)) else (pinv (part t 0)).dot (part t 1)).v i j
    else 0⟩

/-- The exceptions raised before the factorisation.  `mps[0,0,0]` of an empty array and `mat[:,:,1]` of a tensor with one component
are IndexErrors.  `mat[:,:,0]=np.eye(D1)` does not broadcast unless `D1=D2` or `D1=1`; for `D1=1<D2` the assignment of the product
(`direction<0`) or `r.dot(A0)` (`direction>0`) is a ValueError, unless there is no second component. -/
def refuse (t : Ten ℂ) : Option PyErr :=
  if t.l = 0 ∨ t.r = 0 ∨ t.d = 0 then some .index
  else if t.l ≠ t.r then (if t.l = 1 ∧ t.d = 1 then some .index else some .value)
  else if t.d = 1 then some .index
  else none

/-- `prepareTensorfixA0(mps,direction)`, lib/mpslib/mpsfunctions.py:793-822: `tensor,matout`; `None` for `direction=0`, where no
branch is taken.  The norm `Z` returned by `prepareTensor` is not used. -/
def prepareTensorfixA0 (O : LinAlg) (pinv : Mat ℂ → Mat ℂ) (t : Ten ℂ) (direction : ℤ) : Res (Option (Ten ℂ × Mat ℂ)) :=
  if t.l = 0 ∨ t.r = 0 ∨ t.d = 0 then .error .index
  else if direction = 0 then .ok none
  else match refuse t with
  | some e => .error e
  | none =>
    if direction > 0 then
      match prepareTensor O (scaled true pinv t) 1 .q with
      | .error e => .error e
      | .ok (a, r, _) => .ok (some (a, r.dot (part t 0)))
    else
      match prepareTensor O (scaled false pinv t) (-1) .q with
      | .error e => .error e
      | .ok (a, r, _) => .ok (some (a, (part t 0).dot r))

/-- `prepareTensor(tensor,direction)` of lib/mpslib/mpsfunctionsgradopt.py:290-317: as `prepareTensor` of `mpsfunctions.py` with
`fixphase='q'`, but the bond matrix is not normalised and no norm is returned. -/
def prepareTensorG (O : LinAlg) (t : Ten ℂ) (direction : ℤ) : Res (Ten ℂ × Mat ℂ) :=
  if direction = 0 then .error .assertion
  else if t.l = 0 ∨ t.r = 0 ∨ t.d = 0 then .error .index
  else if direction > 0 then
    let qr := fixQR .q (O.qr t.rowMat).1 (O.qr t.rowMat).2
    .ok (⟨t.l, qr.1.c, t.d, fun i k s => qr.1.v (s * t.l + i) k⟩, qr.2)
  else
    let qr := fixQR .q (O.qr t.colMatH).1 (O.qr t.colMatH).2
    .ok (⟨qr.1.c, t.r, t.d, fun k j s => star (qr.1.v (s * t.r + j) k)⟩, ⟨qr.2.c, qr.2.r, fun i k => star (qr.2.v k i)⟩)

/-- The argument `fix` of `prepareTensorFixPhase`: `'u'`, `'v'` or anything else. -/
inductive Fix | u | v | other
  deriving DecidableEq

/-- The phases of lib/mpslib/mpsfunctionsgradopt.py:203-206 (`'u'`) and 216-219 (`'v'`). -/
def Fix.phase : Fix → FixPhase
  | .u => .q
  | .v => .r
  | .other => .none

/-- `prepareTensorFixPhase(mps,direction,fix)`, lib/mpslib/mpsfunctionsgradopt.py:176-260.  For `fix` other than `'u'` and `'v'` this is
`prepareTensorfixA0` of the same file (lines 263-287).  `np.linalg.svd` is called on a square matrix, where its default
`full_matrices=True` makes no difference; the warnings are left out. -/
def prepareTensorFixPhase (O : LinAlg) (pinv : Mat ℂ → Mat ℂ) (t : Ten ℂ) (direction : ℤ) (fix : Fix) :
    Res (Option (Ten ℂ × Mat ℂ)) :=
  if t.l = 0 ∨ t.r = 0 ∨ t.d = 0 then .error .index
  else if direction = 0 then .ok none
  else match refuse t with
  | some e => .error e
  | none =>
    if direction > 0 then
      match prepareTensorG O (scaled true pinv t) 1 with
      | .error e => .error e
      | .ok (a, r) =>
        let m := r.dot (part t 0)
        if fix = .other then .ok (some (a, m)) else
        let w := O.svd m.herm
        match normalise w.2.1 with
        | .error e => .error e
        | .ok l =>
          let uv := fixQR fix.phase w.2.2.herm w.1.herm
          .ok (some (mulR a uv.1, (diagMat l).dot uv.2))
    else
      match prepareTensorG O (scaled false pinv t) (-1) with
      | .error e => .error e
      | .ok (a, r) =>
        let m := (part t 0).dot r
        if fix = .other then .ok (some (a, m)) else
        let w := O.svd m
        match normalise w.2.1 with
        | .error e => .error e
        | .ok l =>
          let uv := fixQR fix.phase w.1 w.2.2
          .ok (some (mulL uv.2 a, uv.1.dot (diagMat l)))

end

end PyTeN.FixA0
