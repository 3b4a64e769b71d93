import Verif.Mps.Gates
import Verif.Mps.Ops
import Verif.Env.OpChain

/-! # Engine containers of lib/mpslib/engines.py: `Container` and `DMRGengine`

Objects are values: an engine call returns the engine afterwards.  The state of an engine after an
exception is not modelled. -/

namespace PyTeN

noncomputable section

/-- The attributes `_mps`, `_mpo`, `_lb`, `_rb`, `_L`, `_R` of an engine, lib/mpslib/engines.py:202-222.
The file name is not modelled. -/
structure Eng where
  mps : MPS
  mpo : List (Mpo ℂ)
  lb : Env ℂ
  rb : Env ℂ
  L : List (Env ℂ)
  R : List (Env ℂ)

/-- `l[n]` for a natural number `n`. -/
def getE {α : Type*} (l : List α) (n : ℕ) : Res α :=
  match l[n]? with
  | some x => .ok x
  | none => .error .index

/-- `l[n]=x` for a natural number `n`. -/
def setE {α : Type*} (l : List α) (n : ℕ) (x : α) : Res (List α) :=
  if n < l.length then .ok (l.set n x) else .error .index

/-- `for m in range(pos,n): self._L[m+1]=addLayer(self._L[m],self._mps[m],self._mpo[m],self._mps[m],1)`,
lib/mpslib/engines.py:144-145; `k` iterations from `m` on. -/
def growL (mps : MPS) (mpo : List (Mpo ℂ)) : ℕ → ℕ → List (Env ℂ) → Res (List (Env ℂ))
  | 0, _, L => .ok L
  | k + 1, m, L =>
    match getE L m with
    | .error e => .error e
    | .ok E =>
      match mps.getItem m with
      | .error e => .error e
      | .ok A =>
        match getE mpo m with
        | .error e => .error e
        | .ok W =>
          match addLayerR E A W A with
          | .error e => .error e
          | .ok E' =>
            match setE L (m + 1) E' with
            | .error e => .error e
            | .ok L' => growL mps mpo k (m + 1) L'

/-- `for m in range(pos-1,n-1,-1): self._R[len(self.mps)-m]=addLayer(self._R[len(self.mps)-1-m],self._mps[m],
self._mpo[m],self._mps[m],-1)`, lib/mpslib/engines.py:149-150; `k` iterations, the first with `m+1 = p`. -/
def growR (mps : MPS) (mpo : List (Mpo ℂ)) : ℕ → ℕ → List (Env ℂ) → Res (List (Env ℂ))
  | 0, _, R => .ok R
  | k + 1, p, R =>
    match getE R (mps.N - p) with
    | .error e => .error e
    | .ok E =>
      match mps.getItem ((p : ℤ) - 1) with
      | .error e => .error e
      | .ok A =>
        match getE mpo (p - 1) with
        | .error e => .error e
        | .ok W =>
          match addLayerL E A W A with
          | .error e => .error e
          | .ok E' =>
            match setE R (mps.N - (p - 1)) E' with
            | .error e => .error e
            | .ok R' => growR mps mpo k (p - 1) R'

/-- `Container.position(n)`, lib/mpslib/engines.py:122-152.  The test `n<self.mps.pos` of the second block
is false after the first block, where the position has become `n`. -/
def Eng.position (O : LinAlg) (e : Eng) (n : ℤ) : Res Eng :=
  if n > e.mps.N then .error .index
  else if n < 0 then .error .index
  else if n ≥ e.mps.pos then
    match e.mps.position O n with
    | .error x => .error x
    | .ok m =>
      match growL m e.mpo (n.toNat - e.mps.pos) e.mps.pos e.L with
      | .error x => .error x
      | .ok L => .ok { e with mps := m, L := L }
  else
    match e.mps.position O n with
    | .error x => .error x
    | .ok m =>
      match growR m e.mpo (e.mps.pos - n.toNat) e.mps.pos e.R with
      | .error x => .error x
      | .ok R => .ok { e with mps := m, R := R }

/-- `Container.update()`, lib/mpslib/engines.py:154-172.  `[]*len(self._mps)` is the empty list. -/
def Eng.update (O : LinAlg) (e : Eng) : Res Eng :=
  match e.mps.position O 0 with
  | .error x => .error x
  | .ok m =>
    match getR m.tensors e.mpo e.rb with
    | .error x => .error x
    | .ok R => .ok { e with mps := m, L := [e.lb], R := e.rb :: R }

/-- `Container.truncateMPS(truncation_threshold,D)`, lib/mpslib/engines.py:85-120. -/
def Eng.truncateMPS (O : LinAlg) (inf : MPS → Res MPS) (e : Eng) (thresh : ℝ) (D : Option ℕ) : Res Eng :=
  match e.mps.truncate O inf thresh D with
  | .error x => .error x
  | .ok m => Eng.update O { e with mps := m }

/-- `DMRGengine.__init__`, lib/mpslib/engines.py:182-222: with both boundaries given the shapes are
asserted against them, otherwise open boundaries are used. -/
def Eng.init (O : LinAlg) (mps : MPS) (mpo : List (Mpo ℂ)) (lb rb : Option (Env ℂ)) : Res Eng :=
  match mps.getItem 0 with
  | .error x => .error x
  | .ok a =>
  match mps.getItem (-1) with
  | .error x => .error x
  | .ok z =>
  match mpo.head?, mpo.getLast? with
  | some w, some v =>
    let bd : Res (Env ℂ × Env ℂ) :=
      match lb, rb with
      | some l, some r =>
        if a.l = l.u ∧ z.r = r.u ∧ w.l = l.m ∧ v.r = r.m then .ok (l, r) else .error .assertion
      | _, _ =>
        if w.l = 1 ∧ v.r = 1 ∧ a.l = 1 ∧ z.r = 1 then .ok (oneEnv, oneEnv) else .error .assertion
    match bd with
    | .error x => .error x
    | .ok (l, r) =>
      match mps.position O 0 with
      | .error x => .error x
      | .ok m =>
        match getL m.tensors mpo l with
        | .error x => .error x
        | .ok L =>
          match getR m.tensors mpo r with
          | .error x => .error x
          | .ok R => .ok ⟨m, mpo, l, r, l :: L, r :: R⟩
  | _, _ => .error .index

/-! ## Single-site DMRG -/

/-- Solver names accepted by `simulate`, lib/mpslib/engines.py:264-265. -/
inductive Solver
  | AR | LAN | LOBPCG | other
  deriving DecidableEq

/-- The eigensolvers `mf.eigsh`, `mf.lanczos`, `mf.lobpcg` called by `optimize`,
lib/mpslib/mpsfunctions.py:1156-1267, as a parameter: from left environment, MPO tensor, right environment
and initial tensor they compute an energy and a tensor, or fail. -/
abbrev Solve := Solver → Env ℂ → Mpo ℂ → Env ℂ → Ten ℂ → Res (ℂ × Ten ℂ)

/-- Record of one call of the eigensolver: the site, the MPS object at the time of the call, the arguments
and the results. -/
structure Call where
  n : ℕ
  mps : MPS
  L : Env ℂ
  W : Mpo ℂ
  R : Env ℂ
  T : Ten ℂ
  energy : ℂ
  opt : Ten ℂ

/-- `DMRGengine.optimize(n)`, lib/mpslib/engines.py:225-243, for `n < N`; printing is not modelled.
For an unknown solver, `format` of the error message raises a KeyError because of the field `{'AR','LAN','LOBPCG'}`. -/
def Eng.optimize (solve : Solve) (sv : Solver) (e : Eng) (n : ℕ) : Res (Eng × Call) :=
  if sv = .other then .error .key else
  match getE e.L n with
  | .error x => .error x
  | .ok L =>
  match getE e.mpo n with
  | .error x => .error x
  | .ok W =>
  match getE e.R (e.mps.N - 1 - n) with
  | .error x => .error x
  | .ok R =>
  match e.mps.tensor n true with
  | .error x => .error x
  | .ok (T, m) =>
  match solve sv L W R T with
  | .error x => .error x
  | .ok (en, opt) => .ok ({ e with mps := m }, ⟨n, e.mps, L, W, R, T, en, opt⟩)

/-- One loop iteration of a sweep, lib/mpslib/engines.py:273-275 and 277-279:
`position(p)`, `e,opt=optimize(n)`, `mps[n]=opt`. -/
def Eng.step (O : LinAlg) (solve : Solve) (sv : Solver) (e : Eng) (p n : ℕ) : Res (Eng × Call) :=
  match e.position O p with
  | .error x => .error x
  | .ok e1 =>
    match e1.optimize solve sv n with
    | .error x => .error x
    | .ok (e2, c) =>
      match e2.mps.setItem n c.opt with
      | .error x => .error x
      | .ok m => .ok ({ e2 with mps := m }, c)

/-- `for n in range(self._mps._N-1)`, lib/mpslib/engines.py:272-275; `k` iterations from `n` on.  The records
are appended to `acc`. -/
def Eng.sweepRight (O : LinAlg) (solve : Solve) (sv : Solver) :
    ℕ → ℕ → Eng → List Call → Res (Eng × List Call)
  | 0, _, e, acc => .ok (e, acc)
  | k + 1, n, e, acc =>
    match e.step O solve sv n n with
    | .error x => .error x
    | .ok (e', c) => Eng.sweepRight O solve sv k (n + 1) e' (acc ++ [c])

/-- `for n in range(self._mps._N-1,0,-1)`, lib/mpslib/engines.py:276-279; the loop variable counts down
from `n` to 1. -/
def Eng.sweepLeft (O : LinAlg) (solve : Solve) (sv : Solver) :
    ℕ → Eng → List Call → Res (Eng × List Call)
  | 0, e, acc => .ok (e, acc)
  | n + 1, e, acc =>
    match e.step O solve sv (n + 2) (n + 1) with
    | .error x => .error x
    | .ok (e', c) => Eng.sweepLeft O solve sv n e' (acc ++ [c])

/-- Outcome of `simulate`: the returned energy, the engine, the eigensolver calls of every sweep, and the
checkpoints (iteration number and saved state; all are written to the same file). -/
structure SimRes where
  energy : ℂ
  eng : Eng
  sweeps : List (List Call)
  saved : List (ℕ × MPS)

/-- `cp!=None and self._it>0 and self._it%cp==0`, lib/mpslib/engines.py:284. -/
def cpDue (cp : Option ℤ) (it : ℕ) : Res Bool :=
  match cp with
  | none => .ok false
  | some c => if 0 < it then (if c = 0 then .error .zerodiv else .ok (decide ((it : ℤ) % c = 0))) else .ok false

open Classical in
/-- The `while` loop of `DMRGengine.__simulate__`, lib/mpslib/engines.py:271-293.  `fuel` bounds the number of
sweeps; it is never exhausted when started as in `Eng.simulate` (`C34_fuel`). -/
def Eng.simLoop (O : LinAlg) (solve : Solve) (sv : Solver) (Nmax : ℤ) (Econv : ℝ) (cp : Option ℤ) :
    ℕ → ℕ → ℂ → Eng → List (List Call) → List (ℕ × MPS) → Res SimRes
  | 0, _, _, _, _, _ => .error .exit
  | fuel + 1, it, energy, e, sw, sd =>
    match Eng.sweepRight O solve sv (e.mps.N - 1) 0 e [] with
    | .error x => .error x
    | .ok (e1, c1) =>
    match Eng.sweepLeft O solve sv (e1.mps.N - 1) e1 c1 with
    | .error x => .error x
    | .ok (e2, c2) =>
    match c2.getLast? with
    | none => .error .unbound
    | some c =>
    match cpDue cp it with
    | .error x => .error x
    | .ok due =>
      let sd' := if due then sd ++ [(it, e2.mps)] else sd
      if ((it + 1 : ℕ) : ℤ) > Nmax ∨ ‖c.energy - energy‖ < Econv then
        .ok ⟨c.energy, { e2 with mps := { e2.mps with Z := 1 } }, sw ++ [c2], sd'⟩
      else Eng.simLoop O solve sv Nmax Econv cp fuel (it + 1) c.energy e2 (sw ++ [c2]) sd'

/-- `DMRGengine.simulate`, lib/mpslib/engines.py:246-293 (the defaults `Nmax=4`, `Econv=1E-6`, `cp=10` are
arguments; the tolerances are part of the solver parameter).  The last assigned `e` is the one of the last
step of the sweep. -/
def Eng.simulate (O : LinAlg) (solve : Solve) (sv : Solver) (e : Eng) (Nmax : ℤ) (Econv : ℝ)
    (cp : Option ℤ) : Res SimRes :=
  if sv = .other then .error .key
  else Eng.simLoop O solve sv Nmax Econv cp (max 1 Nmax.toNat) 1 100000 e [] []

end

end PyTeN
