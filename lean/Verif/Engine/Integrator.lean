import Verif.Engine.Evolve
import Verif.Krylov.Lanczos
import Verif.Krylov.Expokit

/-! # The integrators of TDVP, lib/mpslib/mpsfunctions.py:1280-1366

`np.reshape(mps,chi1*chi2*d)` is a vector indexed by the triples `(i,j,s)` (the row-major order of the entries is not
modelled), `np.reshape(mat,chi1*chi2)` one indexed by pairs.  Entries are complex numbers; the real `dtype` is not
modelled. -/

namespace PyTeN
open Finset

noncomputable section

/-- Vectors of the site problem. -/
abbrev TVec (l r d : ℕ) := EuclideanSpace ℂ (Fin l × Fin r × Fin d)

/-- Vectors of the bond problem. -/
abbrev BVec (r c : ℕ) := EuclideanSpace ℂ (Fin r × Fin c)

/-- `np.reshape(mps,(chi1*chi2*d))`, lib/mpslib/mpsfunctions.py:1297, 1330, 1351. -/
def Ten.vec (T : Ten ℂ) (l r d : ℕ) : TVec l r d := WithLp.toLp 2 fun p => T.v p.1 p.2.1 p.2.2

/-- `np.reshape(v,mps.shape)`, lib/mpslib/mpsfunctions.py:1298, 1331, 1354. -/
def TVec.ten {l r d : ℕ} (x : TVec l r d) : Ten ℂ :=
  ⟨l, r, d, fun i j s => if h : i < l ∧ j < r ∧ s < d then x (⟨i, h.1⟩, ⟨j, h.2.1⟩, ⟨s, h.2.2⟩) else 0⟩

/-- `np.reshape(mat,(chi1*chi2))`, lib/mpslib/mpsfunctions.py:1318, 1339, 1365. -/
def Mat.vec (C : Mat ℂ) (r c : ℕ) : BVec r c := WithLp.toLp 2 fun p => C.v p.1 p.2

/-- `np.reshape(v,mat.shape)`, lib/mpslib/mpsfunctions.py:1319, 1340, 1366. -/
def BVec.mat {r c : ℕ} (x : BVec r c) : Mat ℂ := ⟨r, c, fun i j => if h : i < r ∧ j < c then x (⟨i, h.1⟩, ⟨j, h.2⟩) else 0⟩

/-- The shapes for which `HAproductSingleSite` maps tensors of shape `(l,r,d)` to tensors of that shape. -/
def SiteFits (L : Env ℂ) (W : Mpo ℂ) (R : Env ℂ) (l r d : ℕ) : Prop :=
  L.u = l ∧ L.w = l ∧ R.u = r ∧ R.w = r ∧ W.din = d ∧ W.dout = d ∧ W.l = L.m ∧ W.r = R.m

instance {L : Env ℂ} {W : Mpo ℂ} {R : Env ℂ} {l r d : ℕ} : Decidable (SiteFits L W R l r d) := by unfold SiteFits; infer_instance

/-- The shapes for which `HAproductBond` works: the vector is reshaped to `(chi,chi)` with `chi=L.shape[0]`, so the matrix
has to be square. -/
def BondFits (L R : Env ℂ) (r c : ℕ) : Prop := L.u = r ∧ L.w = r ∧ R.u = c ∧ R.w = c ∧ L.m = R.m ∧ r = c

instance {L R : Env ℂ} {r c : ℕ} : Decidable (BondFits L R r c) := by unfold BondFits; infer_instance

/-- `HAproductSingleSite(L,mpo,R,vec)`, lib/mpslib/mpsfunctions.py:959-968, for fitting shapes (called after the test
`SiteFits` only, the second case does not occur). -/
def haSite (L : Env ℂ) (W : Mpo ℂ) (R : Env ℂ) {l r d : ℕ} (x : TVec l r d) : TVec l r d :=
  match contractionH L x.ten W R with
  | .ok Y => Y.vec l r d
  | .error _ => 0

/-- `HAproductBond(L,R,vec)`, lib/mpslib/mpsfunctions.py:1018-1022, for fitting shapes (called after the test `BondFits`
only). -/
def haBond (L R : Env ℂ) {r c : ℕ} (x : BVec r c) : BVec r c :=
  match bondH L R x.mat with
  | .ok Y => Y.vec r c
  | .error _ => 0

/-- `fac*mpo`, lib/mpslib/mpsfunctions.py:1295. -/
def Mpo.scale (f : ℂ) (W : Mpo ℂ) : Mpo ℂ := ⟨W.l, W.r, W.din, W.dout, fun b b' s s' => f * W.v b b' s s'⟩

/-- `fac*R`, lib/mpslib/mpsfunctions.py:1316. -/
def Env.scale (f : ℂ) (R : Env ℂ) : Env ℂ := ⟨R.u, R.w, R.m, fun i i' b => f * R.v i i' b⟩

/-- `evolveTensorLan(L,mpo,R,mps,tau,krylov_dimension,delta)`, lib/mpslib/mpsfunctions.py:1322-1331, for complex `tau`.
Shapes that do not fit raise a ValueError in `tensordot` or `reshape` (only shapes that agree axis by axis are
accepted here). -/
def evolveTensorLan (eigh : Lanczos.Eigh) (expm : Mat ℂ → Mat ℂ) (ncv : ℕ) (delta : ℝ) (L : Env ℂ) (W : Mpo ℂ) (R : Env ℂ)
    (T : Ten ℂ) (tau : ℂ) : Res (Ten ℂ) :=
  if SiteFits L W R T.l T.r T.d then
    match Lanczos.doStep (haSite L W R) eigh expm id ncv delta tau (T.vec T.l T.r T.d) with
    | .error e => .error e
    | .ok y => .ok (TVec.ten y)
  else .error .value

/-- `evolveMatrixLan(L,R,mat,tau,krylov_dimension,delta)`, lib/mpslib/mpsfunctions.py:1333-1340, for complex `tau`. -/
def evolveMatrixLan (eigh : Lanczos.Eigh) (expm : Mat ℂ → Mat ℂ) (ncv : ℕ) (delta : ℝ) (L R : Env ℂ) (C : Mat ℂ) (tau : ℂ) :
    Res (Mat ℂ) :=
  if BondFits L R C.r C.c then
    match Lanczos.doStep (haBond L R) eigh expm id ncv delta tau (C.vec C.r C.c) with
    | .error e => .error e
    | .ok y => .ok (BVec.mat y)
  else .error .value

/-- `evolveTensorSexpmv(L,mpo,R,mps,tau)`, lib/mpslib/mpsfunctions.py:1280-1298, for complex `tau`; `none` if a loop of
`gexpmv` reaches `fuel` passes. -/
def evolveTensorSexpmv (expm : Mat ℂ → Mat ℂ) (eps : ℝ) (fuel : ℕ) (L : Env ℂ) (W : Mpo ℂ) (R : Env ℂ) (T : Ten ℂ) (tau : ℂ) :
    Option (Res (Ten ℂ)) :=
  if SiteFits L W R T.l T.r T.d then
    match Expokit.gexpmv expm eps [T.l * T.r * T.d, T.l * T.r * T.d]
        (haSite L (W.scale (Complex.exp (Complex.I * (Complex.arg tau : ℂ)))) R) (T.vec T.l T.r T.d) ‖tau‖ 1 none 0 500 none fuel with
    | none => none
    | some (.error e) => some (.error e)
    | some (.ok o) => some (.ok (TVec.ten o.w))
  else some (.error .value)

/-- `evolveMatrixSexpmv(L,R,mat,tau)`, lib/mpslib/mpsfunctions.py:1300-1319, for complex `tau`. -/
def evolveMatrixSexpmv (expm : Mat ℂ → Mat ℂ) (eps : ℝ) (fuel : ℕ) (L R : Env ℂ) (C : Mat ℂ) (tau : ℂ) : Option (Res (Mat ℂ)) :=
  if BondFits L R C.r C.c then
    match Expokit.gexpmv expm eps [C.r * C.c, C.r * C.c]
        (haBond L (R.scale (Complex.exp (Complex.I * (Complex.arg tau : ℂ))))) (C.vec C.r C.c) ‖tau‖ 1 none 0 500 none fuel with
    | none => none
    | some (.error e) => some (.error e)
    | some (.ok o) => some (.ok (BVec.mat o.w))
  else some (.error .value)

/-- `scipy.integrate.solve_ivp(fun,t_span=(0,t),y0)`: the last column of `out.y`, for a right hand side that does not
depend on the time. -/
abbrev Ivp := (ι : Type) → [Fintype ι] → (EuclideanSpace ℂ ι → EuclideanSpace ℂ ι) → ℝ → EuclideanSpace ℂ ι → EuclideanSpace ℂ ι

/-- `evolveTensorsolve_ivp(L,mpo,R,mps,tau)`, lib/mpslib/mpsfunctions.py:1343-1354, for real `tau`. -/
def evolveTensorIvp (ivp : Ivp) (L : Env ℂ) (W : Mpo ℂ) (R : Env ℂ) (T : Ten ℂ) (tau : ℝ) : Res (Ten ℂ) :=
  if SiteFits L W R T.l T.r T.d then
    .ok (TVec.ten (ivp (Fin T.l × Fin T.r × Fin T.d) (fun y => (-Complex.I) • haSite L W R y) tau (T.vec T.l T.r T.d)))
  else .error .value

/-- `evolveMatrixsolve_ivp(L,R,mat,tau)`, lib/mpslib/mpsfunctions.py:1357-1366, for real `tau`. -/
def evolveMatrixIvp (ivp : Ivp) (L R : Env ℂ) (C : Mat ℂ) (tau : ℝ) : Res (Mat ℂ) :=
  if BondFits L R C.r C.c then
    .ok (BVec.mat (ivp (Fin C.r × Fin C.c) (fun y => (-Complex.I) • haBond L R y) tau (C.vec C.r C.c)))
  else .error .value

end

end PyTeN
