import Verif.Basic
import Mathlib.Analysis.InnerProductSpace.PiL2
import Mathlib.Data.List.Sort

/-! # `eigsh` and `lobpcg`, lib/mpslib/mpsfunctions.py:1200-1277

The solvers of scipy are parameters.  Vectors are indexed by a finite type, `LinearOperator` is the function `matvec`.
Reshapes are in `Verif/Engine/Solvers.lean`. -/

namespace PyTeN.Sparse

noncomputable section

open Classical

/-- `sp.sparse.linalg.eigsh(LOP,k,which='SA',v0=v0)`: the list of the pairs `e[i], v[:,i]`, or an exception.
The parameters `maxiter`, `tol`, `ncv` are part of the solver. -/
abbrev Arpack := (ι : Type) → [Fintype ι] → (EuclideanSpace ℂ ι → EuclideanSpace ℂ ι) → ℕ → EuclideanSpace ℂ ι →
  Res (List (ℝ × EuclideanSpace ℂ ι))

/-- `sp.sparse.linalg.lobpcg(LOP,X=X,largest=False)` for a single initial vector. -/
abbrev Lobpcg := (ι : Type) → [Fintype ι] → (EuclideanSpace ℂ ι → EuclideanSpace ℂ ι) → EuclideanSpace ℂ ι →
  Res (List (ℝ × EuclideanSpace ℂ ι))

variable {ι : Type} [Fintype ι] {α : Type}

/-- `ind=np.nonzero(e==w)`, then `e[ind[0][0]]`, `v[:,ind[0][0]]`, lib/mpslib/mpsfunctions.py:1222-1224, 1234-1235: the
first pair with eigenvalue `w`. -/
def pick (ps : List (ℝ × α)) (w : ℝ) : Res (ℝ × α) :=
  match ps.find? fun p => decide (p.1 = w) with
  | none => .error .index
  | some p => .ok p

/-- `min(e)` of the eigenvalues (a ValueError if there are none) and the pair belonging to it,
lib/mpslib/mpsfunctions.py:1221-1224, 1262-1264. -/
def pickMin (ps : List (ℝ × α)) : Res (ℝ × α) :=
  match (ps.map Prod.fst).min? with
  | none => .error .value
  | some w => pick ps w

/-- `es`, `vs` of the loop `for n in range(numvecs_returned)`, lib/mpslib/mpsfunctions.py:1230-1236. -/
def pickAll (ps : List (ℝ × α)) : List ℝ → Res (List (ℝ × α))
  | [] => .ok []
  | w :: ws =>
    match pick ps w with
    | .error e => .error e
    | .ok p =>
      match pickAll ps ws with
      | .error e => .error e
      | .ok qs => .ok ((w, p.2) :: qs)

/-- `eigsh(…,numvecs,numcv,numvecs_returned)`, lib/mpslib/mpsfunctions.py:1200-1237; `none` is Python's None (no branch for
`numvecs_returned<1`).  `sys.warning` does not exist: AttributeError. -/
def eigsh (arp : Arpack) (matvec : EuclideanSpace ℂ ι → EuclideanSpace ℂ ι) (numvecs : ℕ) (ret : ℤ) (x0 : EuclideanSpace ℂ ι) :
    Res (Option (List (ℝ × EuclideanSpace ℂ ι))) :=
  match arp ι matvec numvecs x0 with
  | .error e => .error e
  | .ok ps =>
    if ret = 1 then
      match pickMin ps with
      | .error e => .error e
      | .ok p => .ok (some [p])
    else if ret > 1 then
      if ret > numvecs then .error .attribute
      else if ret.toNat > ps.length then .error .index
      else match pickAll ps (((ps.map Prod.fst).insertionSort (· ≤ ·)).take ret.toNat) with
        | .error e => .error e
        | .ok qs => .ok (some qs)
    else .ok none

/-- `lobpcg(…,numvecs_returned)`, lib/mpslib/mpsfunctions.py:1239-1277.  For `numvecs_returned>1` the name `numvecs` is not
defined: NameError after the solver has run (`many` says whether it raised before, random vectors being part of its input);
for `numvecs_returned<1` the assignment `X[:,0]` is out of bounds. -/
def lobpcg (lob : Lobpcg) (many : Option PyErr) (matvec : EuclideanSpace ℂ ι → EuclideanSpace ℂ ι) (ret : ℤ)
    (x0 : EuclideanSpace ℂ ι) : Res (List (ℝ × EuclideanSpace ℂ ι)) :=
  if ret < 0 then .error .value
  else if ret = 0 then .error .index
  else if ret = 1 then
    match lob ι matvec x0 with
    | .error e => .error e
    | .ok ps =>
      match pickMin ps with
      | .error e => .error e
      | .ok p => .ok [p]
  else match many with
    | some e => .error e
    | none => .error .name

end

end PyTeN.Sparse
