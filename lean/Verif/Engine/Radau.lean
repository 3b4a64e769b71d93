import Verif.Engine.Integrator

/-! # The Radau integrators -/

namespace PyTeN.RadauInt

noncomputable section

/-- The names which the imports and lambdas at the head of the module bind, lib/mpslib/mpsfunctions.py:5-33.  The functions that the module
defines itself (lines 36-end) are left out: none of them is called `Radau` or `mf`. -/
def imported : List String :=
  ["absolute_import", "division", "print_function", "stdout", "sys", "time", "copy", "warnings", "np", "sexpmv", "MPSL", "ncon", "sp", "LinearOperator",
    "sqrtm", "solve_ivp", "fct", "ArpackNoConvergence", "griddata", "ArpackError", "eigs", "lgmres", "LinAlgError", "lanEn", "comm", "anticomm", "herm"]

/-- The argument `tau`, lib/mpslib/mpsfunctions.py:1372, 1385: a float, or a number of another type. -/
inductive Tau
  | float (t : ℝ)
  | other

/-- `scipy.integrate.Radau(fun,t0=0,y0,t_bound)` after one call of `step`: the time which is reached and the function which `dense_output`
returns; called in lib/mpslib/mpsfunctions.py:1380-1382, 1392-1394. -/
abbrev Radau := (ι : Type) → [Fintype ι] → (EuclideanSpace ℂ ι → EuclideanSpace ℂ ι) → ℝ → EuclideanSpace ℂ ι → ℝ × (ℝ → EuclideanSpace ℂ ι)

/-- `evolveTensorRadau(L,mpo,R,mps,tau)`, lib/mpslib/mpsfunctions.py:1371-1382, in a module with the given names.  Only shapes that agree axis by
axis are accepted. -/
def evolveTensorRadau (names : List String) (rad : Radau) (L : Env ℂ) (W : Mpo ℂ) (R : Env ℂ) (T : Ten ℂ) : Tau → Res (Ten ℂ)
  | .other => .error .type
  | .float tau =>
    if "Radau" ∈ names then
      if SiteFits L W R T.l T.r T.d then
        .ok (TVec.ten ((rad (Fin T.l × Fin T.r × Fin T.d) (fun y => (-Complex.I) • haSite L W R y) tau (T.vec T.l T.r T.d)).2 tau))
      else .error .value
    else .error .name

/-- `evolveMatrixRadau(L,R,mat,tau)`, lib/mpslib/mpsfunctions.py:1384-1394, in a module with the given names. -/
def evolveMatrixRadau (names : List String) (rad : Radau) (L R : Env ℂ) (C : Mat ℂ) : Tau → Res (Mat ℂ)
  | .other => .error .type
  | .float tau =>
    if "Radau" ∈ names then
      if BondFits L R C.r C.c then
        .ok (BVec.mat ((rad (Fin C.r × Fin C.c) (fun y => (-Complex.I) • haBond L R y) tau (C.vec C.r C.c)).2 tau))
      else .error .value
    else .error .name

end

end PyTeN.RadauInt
