import Verif.Engine.Container
import Mathlib.Algebra.Order.Field.Basic

/-! # Step-size control of the gradient engine, and the restart logic of non-linear conjugate gradients

lib/utils/utilities.py:660-765 and `HomogeneousIMPSengine` (lib/mpslib/engines.py:638-835). -/

namespace PyTeN.Step

variable {K : Type*} [Field K] [LinearOrder K]

/-- `(opt-old)/opt > tol` for numpy floats: a division by zero gives an infinity of the sign of the numerator, or nan, for which
every comparison is false. -/
def relGt (opt old tol : K) : Prop := if opt = 0 then 0 < opt - old else tol < (opt - old) / opt

/-- `(opt-old)/opt <= tol` for numpy floats. -/
def relLe (opt old tol : K) : Prop := if opt = 0 then opt - old < 0 else (opt - old) / opt ≤ tol

instance (opt old tol : K) : Decidable (relGt opt old tol) := by unfold relGt; infer_instance
instance (opt old tol : K) : Decidable (relLe opt old tol) := by unfold relLe; infer_instance

/-- Constant arguments of `determineNewStepsize`. -/
structure Par (K : Type*) where
  /-- initial step size -/
  alpha : K
  /-- step sizes for small gradients -/
  alphas : List K
  /-- thresholds for these -/
  nxdots : Option (List K)
  /-- tolerated relative increase of the norm -/
  normtol : K
  /-- reduction factor -/
  factor : K
  /-- number of accepted steps after which the step size may be increased -/
  itreset : ℕ

/-- Variables that `determineNewStepsize` updates. -/
structure Ctl (K : Type*) where
  /-- `alpha_` -/
  cur : K
  /-- `rescaledepth` -/
  depth : ℕ
  /-- `itPerDepth` -/
  itPer : ℕ
  /-- `reset` -/
  reset : Bool
  /-- `warmup` -/
  warmup : Bool

/-- Python division: ZeroDivisionError for a zero divisor (the parameters are Python numbers). -/
def divE (a b : K) : Res K := if b = 0 then .error .zerodiv else .ok (a / b)

/-- The `while` loop over the thresholds, lib/utils/utilities.py:687-696, entered with `opt<nxdots[ind]`: the step size before
division.  The list is `nxdots[ind:]`. -/
def pick (opt : K) (alphas : List K) : ℕ → List K → Res K
  | _, [] => .error .index
  | _, [_] => match alphas.getLast? with
    | none => .error .index
    | some a => .ok a
  | ind, _ :: b :: l => if b ≤ opt then getE alphas ind else pick opt alphas (ind + 1) (b :: l)

/-- The branch `warmup==False`, lib/utils/utilities.py:681-696: new `alpha_`. -/
def plateau (p : Par K) (opt : K) (cur : K) (depth : ℕ) : Res K :=
  match p.nxdots with
  | none => .ok cur
  | some [] => .error .index
  | some (n0 :: ns) =>
    if n0 ≤ opt then divE p.alpha (p.factor ^ depth)
    else
      match pick opt p.alphas 0 (n0 :: ns) with
      | .error e => .error e
      | .ok a => divE a (p.factor ^ depth)

/-- `if reset==True`, lib/utils/utilities.py:670-696. -/
def onReset (p : Par K) (s : Ctl K) (opt : K) : Res (Ctl K) :=
  let depth := s.depth - 1
  let reset := if depth > 0 then false else true
  if s.warmup then
    match divE p.alpha (p.factor ^ depth) with
    | .error e => .error e
    | .ok a =>
      match p.nxdots with
      | none => .ok ⟨a, depth, 0, reset, true⟩
      | some [] => .error .index
      | some (n0 :: _) =>
        if opt < n0 then
          match plateau p opt a depth with
          | .error e => .error e
          | .ok a' => .ok ⟨a', depth, 0, reset, false⟩
        else .ok ⟨a, depth, 0, reset, true⟩
  else
    match plateau p opt s.cur depth with
    | .error e => .error e
    | .ok a' => .ok ⟨a', depth, 0, reset, false⟩

/-- `if reset==False`, lib/utils/utilities.py:699-702. -/
def count (p : Par K) (s : Ctl K) : Res (Ctl K) :=
  if s.reset then .ok s
  else if p.itreset = 0 then .error .zerodiv
  else .ok { s with itPer := s.itPer + 1, reset := decide ((s.itPer + 1) % p.itreset = 0) }

/-- `determineNewStepsize`, lib/utils/utilities.py:660-705: the new variables and `reject`.  If neither condition holds, the variable
`reject` is not assigned and `if reject==False`/`return` raises UnboundLocalError. -/
def determineNewStepsize (p : Par K) (s : Ctl K) (opt old : K) (it : ℤ) : Res (Ctl K × Bool) :=
  if relGt opt old p.normtol ∧ 1 < it then
    match divE s.cur p.factor with
    | .error e => .error e
    | .ok a => .ok (⟨a, s.depth + 1, 0, false, s.warmup⟩, true)
  else if relLe opt old p.normtol ∨ it = 1 then
    match (if s.reset then onReset p s opt else .ok s) with
    | .error e => .error e
    | .ok s1 =>
      match count p s1 with
      | .error e => .error e
      | .ok s2 => .ok (s2, false)
  else .error .unbound

/-! ## The gradient loop -/

/-- What the engine computes from a state: `eval` is the regauging and the gradient (the point is the centre tensor with its
gradient and Schmidt values) and its squared norm; `move` is the new state from a point and a step size.  Initial guesses of
the iterative solvers are not part of the state. -/
structure Grad (S P K : Type*) where
  /-- lib/mpslib/engines.py:724-776 -/
  eval : S → P × K
  /-- lib/mpslib/engines.py:787-788, 796-797, 801-803 -/
  move : P → K → S

/-- Engine state. -/
structure Eng (S P K : Type*) where
  /-- `_mps` -/
  mps : S
  /-- `_gradbackup, _tensorbackup, _lamold`: not set before the first accepted step -/
  backup : Option P
  /-- `_normgradold` -/
  old : K
  /-- `_it` -/
  it : ℤ
  /-- step-size variables -/
  ctl : Ctl K

/-- Record of one gradient step. -/
structure Entry (P K : Type*) where
  /-- point at which the gradient was computed -/
  point : P
  /-- its norm -/
  norm : K
  /-- `_reject` -/
  rejected : Bool
  /-- step size used for the next state -/
  step : K

variable {S P : Type*}

/-- `__doGradStep__`, lib/mpslib/engines.py:723-808: new engine, record and `converged`. -/
def doGradStep (G : Grad S P K) (p : Par K) (eps : K) (e : Eng S P K) : Res (Eng S P K × Entry P K × Bool) :=
  let (pt, g) := G.eval e.mps
  match determineNewStepsize p e.ctl g e.old e.it with
  | .error x => .error x
  | .ok (c, true) =>
    match e.backup with
    | none => .error .attribute
    | some b => .ok ({ e with mps := G.move b c.cur, ctl := c }, ⟨pt, g, true, c.cur⟩, decide (g < eps))
  | .ok (c, false) =>
    .ok ({ e with mps := G.move pt c.cur, ctl := c, backup := some pt, old := g }, ⟨pt, g, false, c.cur⟩, decide (g < eps))

/-- `__simulate__`, lib/mpslib/engines.py:813-826: final engine, records and `converged`.  Checkpoint files are not modelled
(`checkpoint` is not zero). -/
def simulate (G : Grad S P K) (p : Par K) (eps : K) (Nmax : ℤ) : ℕ → Eng S P K → List (Entry P K) → Res (Eng S P K × List (Entry P K) × Bool)
  | 0, _, _ => .error .exit
  | fuel + 1, e, log =>
    match doGradStep G p eps e with
    | .error x => .error x
    | .ok (e', r, conv) =>
      if Nmax ≤ e'.it then .ok (e', log ++ [r], conv)
      else if conv then .ok ({ e' with it := e'.it + 1 }, log ++ [r], true)
      else simulate G p eps Nmax fuel { e' with it := e'.it + 1 } (log ++ [r])

/-- The constructor, lib/mpslib/engines.py:664-705. -/
def init (p : Par K) (mps : S) : Eng S P K := ⟨mps, none, 10, 1, ⟨p.alpha, 0, 0, true, true⟩⟩

/-! ## Restart logic of non-linear conjugate gradients -/

/-- Variables of `determineNonLinearCGBeta` (messages dropped). -/
structure Cg (K : Type*) where
  /-- `betanew` -/
  beta : K
  /-- `itstde` -/
  itstde : ℤ
  /-- `itbeta` -/
  itbeta : ℤ
  /-- `dostde` -/
  dostde : Bool

/-- The Fletcher-Reeves coefficient with its restarts, lib/utils/utilities.py:717-725; `beta` is unassigned for `it<1`.  A division
by `normxoptold=0` gives an infinity (or nan), treated as the error `nan`. -/
def rawBeta (normtol opt old : K) (it : ℤ) : Res K :=
  if 1 < it then
    if relLe opt old normtol then
      if old = 0 then .error .nan
      else if 1 < opt ^ 2 / old ^ 2 then .ok 0 else .ok (opt ^ 2 / old ^ 2)
    else if relGt opt old normtol then .ok 0
    else .error .unbound
  else if it = 1 then .ok 0
  else .error .unbound

/-- The window test, lib/utils/utilities.py:709. -/
def inWindow (upper : Option K) (lower opt : K) : Bool :=
  match upper with
  | none => false
  | some u => decide (opt < u) && decide (lower < opt)

/-- `determineNonLinearCGBeta`, lib/utils/utilities.py:708-765; `lower` is a number (None raises TypeError). -/
def determineBeta (upper : Option K) (lower normtol : K) (nlcgreset stdereset : ℤ) (opt old : K) (it : ℤ) (c : Cg K) : Res (Cg K) :=
  if inWindow upper lower opt then
    match rawBeta normtol opt old it with
    | .error e => .error e
    | .ok beta =>
      let r : Res (Cg K) :=
        if beta = 0 then .ok ⟨0, c.itstde + 1, c.itbeta, true⟩
        else if c.itstde < stdereset ∧ c.dostde = true then .ok ⟨0, c.itstde + 1, c.itbeta, c.dostde⟩
        else if stdereset ≤ c.itstde ∧ c.dostde = true then .ok ⟨beta, 0, c.itbeta, false⟩
        else if c.itstde < stdereset ∧ c.dostde = false then .ok ⟨beta, c.itstde, c.itbeta, c.dostde⟩
        else if c.itbeta = nlcgreset then .ok ⟨0, c.itstde, c.itbeta, c.dostde⟩  -- assigned below before its first use
        else .error .unbound
      match r with
      | .error e => .error e
      | .ok c1 =>
        let c2 : Cg K := if c1.itbeta = nlcgreset then ⟨0, 0, 0, true⟩ else c1
        if c2.beta ≠ 0 then .ok { c2 with itbeta := c2.itbeta + 1 } else .ok { c2 with itbeta := 0 }
  else .ok { c with beta := 0 }

end PyTeN.Step
