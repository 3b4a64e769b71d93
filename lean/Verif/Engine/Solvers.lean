import Verif.Engine.Integrator
import Verif.Krylov.Sparse

/-! # The eigensolvers called by `DMRGengine.optimize`, lib/mpslib/mpsfunctions.py:1156-1277 -/

namespace PyTeN

noncomputable section

/-- `lanczos(L,mpo,R,mps0,…,numeig=1,…)`, lib/mpslib/mpsfunctions.py:1156-1168, as called in lib/mpslib/engines.py:231.  Shapes
that do not fit raise a ValueError in `tensordot` or `reshape` (only shapes that agree axis by axis are accepted here). -/
def lanczosSite (eigh : Lanczos.Eigh) (p : Lanczos.Params) (L : Env ℂ) (W : Mpo ℂ) (R : Env ℂ) (T : Ten ℂ) : Res (ℂ × Ten ℂ) :=
  if SiteFits L W R T.l T.r T.d then
    match Lanczos.lanczosFn (haSite L W R) eigh { p with numeig := 1 } (T.vec T.l T.r T.d) with
    | .error e => .error e
    | .ok [] => .error .index
    | .ok (q :: _) => .ok (q.1, TVec.ten q.2)
  else .error .value

/-- `eigsh(L,mpo,R,mps0,tol,numvecs,ncv)`, lib/mpslib/mpsfunctions.py:1200-1224, as called in lib/mpslib/engines.py:229
(`numvecs_returned=1`). -/
def eigshSite (arp : Sparse.Arpack) (numvecs : ℕ) (L : Env ℂ) (W : Mpo ℂ) (R : Env ℂ) (T : Ten ℂ) : Res (ℂ × Ten ℂ) :=
  if SiteFits L W R T.l T.r T.d then
    match Sparse.eigsh arp (haSite L W R) numvecs 1 (T.vec T.l T.r T.d) with
    | .error e => .error e
    | .ok (some (q :: _)) => .ok (q.1, TVec.ten q.2)
    | .ok _ => .error .type
  else .error .value

/-- `lobpcg(L,mpo,R,mps0,tol)`, lib/mpslib/mpsfunctions.py:1239-1264, as called in lib/mpslib/engines.py:227. -/
def lobpcgSite (lob : Sparse.Lobpcg) (L : Env ℂ) (W : Mpo ℂ) (R : Env ℂ) (T : Ten ℂ) : Res (ℂ × Ten ℂ) :=
  if SiteFits L W R T.l T.r T.d then
    match Sparse.lobpcg lob none (haSite L W R) 1 (T.vec T.l T.r T.d) with
    | .error e => .error e
    | .ok [] => .error .type
    | .ok (q :: _) => .ok (q.1, TVec.ten q.2)
  else .error .value

/-- The eigensolvers of `optimize`, lib/mpslib/engines.py:226-234. -/
def solvers (eigh : Lanczos.Eigh) (p : Lanczos.Params) (arp : Sparse.Arpack) (numvecs : ℕ) (lob : Sparse.Lobpcg) : Solve
  | .LOBPCG, L, W, R, T => lobpcgSite lob L W R T
  | .AR, L, W, R, T => eigshSite arp numvecs L W R T
  | .LAN, L, W, R, T => lanczosSite eigh p L W R T
  | .other, _, _, _, _ => .error .key

end

end PyTeN
