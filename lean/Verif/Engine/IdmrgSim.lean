import Verif.Engine.Idmrg
import Verif.Engine.TwoSite
import Verif.Ham.Fermion

/-! # `IDMRGengine` of lib/mpslib/engines.py: construction, regauging and the two simulations -/

namespace PyTeN.Idmrg
open Finset

noncomputable section

/-! ## Model -/

/-- The numerical kernels behind `getBoundaryHams`, as parameters.
* `sym`: `regaugeIMPS(tensors,gauge='symmetric',...)` of lib/mpslib/mpsfunctions.py, called in lib/mpslib/mps.py:1107: the tensors
  after the call and the diagonal of the returned matrix;
* `left`, `right`: the transfer matrix eigensolver, the reduced density matrices and the GMRES solver for the left (right)
  steady-state Hamiltonian, lib/mpslib/mpsfunctions.py:1834-1846, 1861-1874 (1814-1825, 1882-1898): the environment and the energy. -/
structure Kernels where
  sym : List (Ten ℂ) → Res (List (Ten ℂ) × List ℂ)
  left : List (Ten ℂ) → List (Mpo ℂ) → Res (Env ℂ × ℂ)
  right : List (Ten ℂ) → List (Mpo ℂ) → Res (Env ℂ × ℂ)

/-- `np.diag(v)` of a vector. -/
def diagL (v : List ℂ) : Mat ℂ := ⟨v.length, v.length, fun i j => if i = j then v.getD i 0 else 0⟩

/-- `MPS.__regauge__('symmetric')`, lib/mpslib/mps.py:1082-1114.  A vanishing singular value gives an infinite connector; this
is reported as `nan`. -/
def regauge (K : Kernels) (m : MPS) : Res MPS :=
  if m.obc then .ok m
  else
    let first : Res MPS :=
      if m.pos < m.N then
        match m.absorbCenterMatrix 1 with
        | .error x => .error x
        | .ok m1 => m1.absorbConnector "left"
      else .ok m
    match first with
    | .error x => .error x
    | .ok m1 =>
    let second : Res MPS :=
      if m1.pos = m1.N then
        match m1.absorbCenterMatrix (-1) with
        | .error x => .error x
        | .ok m2 => m2.absorbConnector "right"
      else .ok m1
    match second with
    | .error x => .error x
    | .ok m2 =>
    match K.sym m2.tensors with
    | .error x => .error x
    | .ok (ts, lam) =>
      if (0 : ℂ) ∈ lam then .error .nan
      else .ok { m2 with tensors := ts, mat := diagL lam, conn := diagL (lam.map fun x => 1 / x), pos := m2.N }

/-- lib/mpslib/mpsfunctions.py:1829-1831, 1856-1858: the product of centre matrix and connector is moved into the last tensor. -/
def phaseR (m : MPS) : Res MPS :=
  match npDot m.mat m.conn with
  | .error x => .error x
  | .ok p =>
  match m.getItem (-1) with
  | .error x => .error x
  | .ok t =>
  match absorbR t p with
  | .error x => .error x
  | .ok t' =>
  match m.setItem (-1) t' with
  | .error x => .error x
  | .ok m1 =>
  match npDot p.herm m1.mat with
  | .error x => .error x
  | .ok mat => .ok { m1 with mat := mat }

/-- lib/mpslib/mpsfunctions.py:1810-1812, 1878-1880: the product of connector and centre matrix is moved into the first tensor. -/
def phaseL (m : MPS) : Res MPS :=
  match npDot m.conn m.mat with
  | .error x => .error x
  | .ok p =>
  match m.getItem 0 with
  | .error x => .error x
  | .ok t =>
  match absorbL p t with
  | .error x => .error x
  | .ok t' =>
  match m.setItem 0 t' with
  | .error x => .error x
  | .ok m1 =>
  match npDot m1.mat p.herm with
  | .error x => .error x
  | .ok mat => .ok { m1 with mat := mat }

/-- What `getBoundaryHams` returns, apart from the density matrices: four values, six values or `None`. -/
inductive Bounds
  | four (lb rb : Env ℂ)
  | six (lb rb : Env ℂ) (hl hr : ℂ)
  | none

/-- `getBoundaryHams(mps,mpo,regauge)`, lib/mpslib/mpsfunctions.py:1791-1903: the MPS object afterwards and the returned tuple. -/
def getBoundaryHams (O : LinAlg) (K : Kernels) (rg : Bool) (m : MPS) (mpo : List (Mpo ℂ)) : Res (MPS × Bounds) :=
  let start : Res MPS :=
    if rg then regauge K m
    else if (m.N : ℤ) - m.pos < m.pos then m.position O m.N else m.position O 0
  match start with
  | .error x => .error x
  | .ok m0 =>
  if m0.pos = 0 then
    match (if rg then phaseL m0 else .ok m0 : Res MPS) with
    | .error x => .error x
    | .ok m1 =>
    match K.right m1.tensors mpo with
    | .error x => .error x
    | .ok (rb, _) =>
    match m1.position O m1.N with
    | .error x => .error x
    | .ok m2 =>
    match (if rg then phaseR m2 else .ok m2 : Res MPS) with
    | .error x => .error x
    | .ok m3 =>
    match K.left m3.tensors mpo with
    | .error x => .error x
    | .ok (lb, _) => .ok (m3, .four lb rb)
  else if m0.pos = m0.N then
    match (if rg then phaseR m0 else .ok m0 : Res MPS) with
    | .error x => .error x
    | .ok m1 =>
    match K.left m1.tensors mpo with
    | .error x => .error x
    | .ok (lb, hl) =>
    match m1.position O 0 with
    | .error x => .error x
    | .ok m2 =>
    match (if rg then phaseL m2 else .ok m2 : Res MPS) with
    | .error x => .error x
    | .ok m3 =>
    match K.right m3.tensors mpo with
    | .error x => .error x
    | .ok (rb, hr) => .ok (m3, .six lb rb hl hr)
  else .ok (m0, .none)

/-- `lb,rb,lbound,rbound,self._hl,self._hr=getBoundaryHams(mps,mpo,regauge)` followed by `super().__init__(mps,mpo,filename,lb,rb)`,
lib/mpslib/engines.py:436-437, 487-488.  Unpacking four values into six names raises a ValueError, unpacking `None` a TypeError. -/
def rebuild (O : LinAlg) (K : Kernels) (rg : Bool) (m : MPS) (mpo : List (Mpo ℂ)) : Res Eng :=
  match getBoundaryHams O K rg m mpo with
  | .error x => .error x
  | .ok (m', .six lb rb _ _) => Eng.init O m' mpo (some lb) (some rb)
  | .ok (_, .four _ _) => .error .value
  | .ok (_, .none) => .error .type

/-- `IDMRGengine.__init__`, lib/mpslib/engines.py:425-437. -/
def init (O : LinAlg) (K : Kernels) (m : MPS) (mpo : List (Mpo ℂ)) : Res Eng := rebuild O K false m mpo

/-- `IDMRGengine.__update__(regauge)`, lib/mpslib/engines.py:440-489, both branches. -/
def updateR (O : LinAlg) (pinv : Mat ℂ → Mat ℂ) (K : Kernels) (rg : Bool) (e : Eng) : Res (Eng × ℕ) :=
  if rg then
    match shift O pinv e with
    | .error x => .error x
    | .ok (m, mpo, _, _, D) =>
    match rebuild O K true m mpo with
    | .error x => .error x
    | .ok e' => .ok (e', D)
  else update O pinv e

/-- One pass of the outer loop: the engine at its start, the result of the inner simulation, whether the state was regauged, the
engine after `__update__` and the returned bond dimension. -/
structure Pass (τ : Type) where
  start : Eng
  out : τ
  rg : Bool
  next : Eng
  D : ℕ

/-- Outcome of a simulation; `saved` lists the checkpoints of the outer loop. -/
structure Run (τ : Type) where
  eng : Eng
  passes : List (Pass τ)
  saved : List (ℕ × MPS)

/-- `regaugestep>0 and it%regaugestep==0 and it>0`, lib/mpslib/engines.py:530, 604. -/
def rgDue (rs : ℤ) (it : ℕ) : Bool := decide (0 < rs ∧ (it : ℤ) % rs = 0 ∧ 0 < it)

/-- The outer `while` loop, lib/mpslib/engines.py:527-555 and 601-630.  `run` is the inner simulation `super().__simulate__` or
`super().__simulateTwoSite__`, `fin` the engine it leaves.  The printed energies have no effect.  The `resetZ` after the loop is
included.  `fuel` bounds the number of passes and is never exhausted (`C87_fuel`). -/
def loop {τ : Type} (run : Eng → Res τ) (fin : τ → Eng) (upd : Bool → Eng → Res (Eng × ℕ)) (Nmax : ℤ) (cp : Option ℤ) (rs : ℤ) :
    ℕ → ℕ → Eng → List (Pass τ) → List (ℕ × MPS) → Res (Run τ)
  | 0, _, _, _, _ => .error .exit
  | fuel + 1, it, e, ps, sd =>
    match run e with
    | .error x => .error x
    | .ok r =>
    let rg := rgDue rs it
    match upd rg (fin r) with
    | .error x => .error x
    | .ok (e', D) =>
    match cpDue cp it with
    | .error x => .error x
    | .ok due =>
      let sd' := if due then sd ++ [(it, e'.mps)] else sd
      let ps' := ps ++ [⟨e, r, rg, e', D⟩]
      if ((it + 1 : ℕ) : ℤ) > Nmax then .ok ⟨{ e' with mps := { e'.mps with Z := 1 } }, ps', sd'⟩
      else loop run fin upd Nmax cp rs fuel (it + 1) e' ps' sd'

/-- `IDMRGengine.__simulate__`, lib/mpslib/engines.py:492-555; `__simulate__` and `simulate` return `None`, the record lists the
side effects. -/
def simulate (O : LinAlg) (pinv : Mat ℂ → Mat ℂ) (K : Kernels) (solve : Solve) (sv : Solver) (e : Eng) (Nmax NUC : ℤ) (Econv : ℝ)
    (cp : Option ℤ) (rs : ℤ) : Res (Run SimRes) :=
  if rs = 1 then .error .value
  else loop (fun e => e.simulate O solve sv NUC Econv cp) SimRes.eng (updateR O pinv K) Nmax cp rs (max 1 (Nmax + 1).toNat) 0 e [] []

/-- `IDMRGengine.__simulateTwoSite__`, lib/mpslib/engines.py:566-630. -/
def simulateTwoSite (O : LinAlg) (pinv : Mat ℂ → Mat ℂ) (K : Kernels) (solve : Solve) (sv : Solver) (e : Eng) (Nmax NUC : ℤ)
    (Econv : ℝ) (cp : Option ℤ) (trunc : ℝ) (rs : ℤ) : Res (Run SimRes2) :=
  if rs = 1 then .error .value
  else loop (fun e => e.simulateTwoSite O solve sv NUC Econv cp trunc) SimRes2.eng (updateR O pinv K) Nmax cp rs
    (max 1 (Nmax + 1).toNat) 0 e [] []

end

end PyTeN.Idmrg
