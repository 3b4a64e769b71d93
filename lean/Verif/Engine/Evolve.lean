import Verif.Engine.Container
import Verif.Props.Position

/-! # `TimeEvolutionEngine` of lib/mpslib/engines.py: TEBD and TDVP

Objects are values, the working directory is a map from file names to contents.  Printing is not modelled
(the counters updated inside the printing branches are). -/

namespace PyTeN

noncomputable section

/-- Python `range(a,b,s)` for `s ≠ 0` (the length formula is the one of the language reference). -/
def pyRange (a b s : ℤ) : List ℤ :=
  if 0 < s then (List.range ((b - a + s - 1) / s).toNat).map fun i : ℕ => a + s * (i : ℤ)
  else (List.range ((a - b - s - 1) / -s).toNat).map fun i : ℕ => a + s * (i : ℤ)

/-- Record of an action on the state of a TEBD run (ghost: the code keeps no such record). -/
inductive TEv
  | gate (n : ℤ) (tau : ℂ)
  | reset

/-- A `TimeEvolutionEngine`, lib/mpslib/engines.py:1121-1171: the attributes of `Eng` together with `_t0`,
`_it`, `_tw`, `_maxD`, `_filename`.  `log` is a ghost field.  `_gates` is a parameter of the functions below. -/
structure Evo where
  eng : Eng
  t0 : ℝ
  it : ℕ
  tw : ℝ
  maxD : ℕ
  filename : String
  log : List TEv := []

/-- Content of a file: a pickled engine or something else (of the user). -/
inductive File
  | pickle (e : Evo)
  | other (c : ℕ)

/-- The working directory. -/
abbrev Disk := String → Option File

/-- `Container.save(filename)`, lib/mpslib/engines.py:36-47. -/
def Disk.save (d : Disk) (name : String) (e : Evo) : Disk :=
  Function.update d (name ++ ".pickle") (some (.pickle e))

/-- `if os.path.exists(current+'.pickle'): os.remove(current+'.pickle')`, lib/mpslib/engines.py:1266-1267, 1386-1387. -/
def Disk.removeIf (d : Disk) (name : String) : Disk :=
  if (d (name ++ ".pickle")).isSome then Function.update d (name ++ ".pickle") none else d

/-- The engine together with the working directory. -/
structure World where
  evo : Evo
  disk : Disk

/-- `self._gates.twoSiteGate(n,n+1,tau)` (lib/mpslib/Hamiltonians.py:24-83) as a parameter. -/
abbrev GateFn := ℤ → ℤ → ℂ → Res Gate2

/-- `TimeEvolutionEngine.__init__`, lib/mpslib/engines.py:1121-1171.  The first part is the same as in
`DMRGengine.__init__`; `_maxD=max(self._mps.D)` is the parameter `D0`. -/
def Evo.init (O : LinAlg) (mps : MPS) (mpo : List (Mpo ℂ)) (filename : String) (lb rb : Option (Env ℂ)) (D0 : ℕ) :
    Res Evo :=
  match Eng.init O mps mpo lb rb with
  | .error x => .error x
  | .ok e => .ok ⟨e, 0, 0, 0, D0, filename, []⟩

/-- `reset()`, lib/mpslib/engines.py:1184-1191. -/
def Evo.reset (e : Evo) : Evo := { e with t0 := 0, it := 0, tw := 0 }

/-- `initializeTDVP()`, lib/mpslib/engines.py:1193-1202. -/
def Evo.initializeTDVP (O : LinAlg) (e : Evo) : Res Evo :=
  match e.eng.mps.position O 0 with
  | .error x => .error x
  | .ok m =>
    match getL m.tensors e.eng.mpo e.eng.lb with
    | .error x => .error x
    | .ok L =>
      match getR m.tensors e.eng.mpo e.eng.rb with
      | .error x => .error x
      | .ok R => .ok { e with eng := { e.eng with mps := m, L := e.eng.lb :: L, R := e.eng.rb :: R } }

/-! ## TEBD -/

section
variable (O : LinAlg) (gates : GateFn)

/-- Loop body of `applyEven` and `applyOdd`, lib/mpslib/engines.py:1206-1208, 1216-1218. -/
def Evo.gate (tau : ℂ) (Dmax : Option ℕ) (th : ℝ) (e : Evo) (n : ℤ) : Res Evo :=
  match gates n (n + 1) tau with
  | .error x => .error x
  | .ok g =>
    match e.eng.mps.applyTwoSiteGate O g n Dmax th with
    | .error x => .error x
    | .ok (tw, D, m) =>
      .ok { e with eng := { e.eng with mps := m }, maxD := max e.maxD D, tw := e.tw + tw,
                   log := e.log ++ [.gate n tau] }

/-- The loop over the bonds of a layer. -/
def Evo.layer (tau : ℂ) (Dmax : Option ℕ) (th : ℝ) : List ℤ → Evo → Res Evo
  | [], e => .ok e
  | n :: ns, e =>
    match e.gate O gates tau Dmax th n with
    | .error x => .error x
    | .ok e' => Evo.layer tau Dmax th ns e'

/-- `applyEven(tau,Dmax,tr_thresh)`, lib/mpslib/engines.py:1204-1208. -/
def Evo.applyEven (tau : ℂ) (Dmax : Option ℕ) (th : ℝ) (e : Evo) : Res Evo :=
  e.layer O gates tau Dmax th (pyRange 0 ((e.eng.mps.N : ℤ) - 1) 2)

/-- `applyOdd(tau,Dmax,tr_thresh)`, lib/mpslib/engines.py:1210-1218. -/
def Evo.applyOdd (tau : ℂ) (Dmax : Option ℕ) (th : ℝ) (e : Evo) : Res Evo :=
  let lstart : ℤ := if e.eng.mps.N % 2 = 0 then (e.eng.mps.N : ℤ) - 3 else (e.eng.mps.N : ℤ) - 2
  e.layer O gates tau Dmax th (pyRange lstart (-1) (-2))

/-- `if verbose>=1: self._t0+=np.abs(np.imag(dt))`, lib/mpslib/engines.py:1254-1255, 1378-1379. -/
def Evo.tick (verbose : ℤ) (dt : ℂ) (e : Evo) : Evo :=
  if verbose ≥ 1 then { e with t0 := e.t0 + |dt.im| } else e

/-- `self._it=self._it+1; self._mps.resetZ()`, lib/mpslib/engines.py:1287-1288. -/
def Evo.endStep (e : Evo) : Evo :=
  { e with it := e.it + 1, eng := { e.eng with mps := e.eng.mps.resetZ }, log := e.log ++ [.reset] }

/-- One iteration of the loop of `__doTEBD__`, lib/mpslib/engines.py:1251-1288; `cur` is the variable
`current`. -/
def tebdStep (dt : ℂ) (numsteps : ℤ) (Dmax : Option ℕ) (th : ℝ) (verbose : ℤ) (cp : Option ℤ) (keep : Bool)
    (step : ℤ) (cur : String) (w : World) : Res (String × World) :=
  match w.evo.applyOdd O gates dt Dmax th with
  | .error x => .error x
  | .ok e1 =>
    let e2 := e1.tick verbose dt
    match cpDue cp e2.it with
    | .error x => .error x
    | .ok true =>
      if step < numsteps - 1 then
        match e2.applyEven O gates (dt / 2) Dmax th with
        | .error x => .error x
        | .ok e3 =>
          let d := if !keep then w.disk.removeIf cur else w.disk
          let cur' := e3.filename ++ "_tebd_cp" ++ toString e3.it
          match e3.applyEven O gates (dt / 2) Dmax th with
          | .error x => .error x
          | .ok e4 => .ok (cur', ⟨e4.endStep, d.save cur' e3⟩)
      else
        match e2.applyEven O gates (dt / 2) Dmax th with
        | .error x => .error x
        | .ok e3 =>
          .ok (cur, ⟨e3.endStep, w.disk.save (e3.filename ++ "_tebd_cp" ++ toString e3.it) e3⟩)
    | .ok false =>
      if step < numsteps - 1 then
        match e2.applyEven O gates dt Dmax th with
        | .error x => .error x
        | .ok e3 => .ok (cur, ⟨e3.endStep, w.disk⟩)
      else
        match e2.applyEven O gates (dt / 2) Dmax th with
        | .error x => .error x
        | .ok e3 => .ok (cur, ⟨e3.endStep, w.disk⟩)

/-- `for step in range(numsteps)`, lib/mpslib/engines.py:1251-1288; `k` iterations from `step` on. -/
def tebdLoop (dt : ℂ) (numsteps : ℤ) (Dmax : Option ℕ) (th : ℝ) (verbose : ℤ) (cp : Option ℤ) (keep : Bool) :
    ℕ → ℕ → String → World → Res (String × World)
  | 0, _, cur, w => .ok (cur, w)
  | k + 1, step, cur, w =>
    match tebdStep O gates dt numsteps Dmax th verbose cp keep step cur w with
    | .error x => .error x
    | .ok (cur', w') => tebdLoop dt numsteps Dmax th verbose cp keep k (step + 1) cur' w'

/-- `__doTEBD__(dt,numsteps,Dmax,tr_thresh,verbose,cp,keep_cp)`, lib/mpslib/engines.py:1226-1289; the
returned pair `self._tw,self._t0` can be read off the engine. -/
def doTEBD (dt : ℂ) (numsteps : ℤ) (Dmax : Option ℕ) (th : ℝ) (verbose : ℤ := 1) (cp : Option ℤ := none)
    (keep : Bool := false) (w : World) : Res World :=
  match w.evo.applyEven O gates (dt / 2) Dmax th with
  | .error x => .error x
  | .ok e =>
    match tebdLoop O gates dt numsteps Dmax th verbose cp keep numsteps.toNat 0 "None" ⟨e, w.disk⟩ with
    | .error x => .error x
    | .ok (_, w') => .ok w'

end

/-! ## TDVP -/

/-- Solver names of `doTDVP`, lib/mpslib/engines.py:1312; `ivp` stands for the `solve_ivp` methods
'Radau','RK45','RK23','BDF','LSODA'. -/
inductive TSolver
  | LAN | ivp | SEXPMV | other
  deriving DecidableEq

/-- The integrators for the site problem (`evolveTensorsolve_ivp`, `evolveTensorLan`, `evolveTensorSexpmv`,
lib/mpslib/mpsfunctions.py) as a parameter: from left environment, MPO tensor, right environment, tensor and
time step (the imaginary part for `ivp`) to the evolved tensor. -/
abbrev EvolveTen := TSolver → Env ℂ → Mpo ℂ → Env ℂ → Ten ℂ → ℂ → Res (Ten ℂ)

/-- The integrators for the bond problem (`evolveMatrixsolve_ivp`, `evolveMatrixLan`, `evolveMatrixSexpmv`). -/
abbrev EvolveMat := TSolver → Env ℂ → Env ℂ → Mat ℂ → ℂ → Res (Mat ℂ)

/-- The time handed to the integrator: `np.imag(dt_)` for the `solve_ivp` methods, `dt_` otherwise. -/
def TSolver.time (sv : TSolver) (dt : ℂ) : ℂ := if sv = .ivp then (dt.im : ℂ) else dt

/-- Record of one integrator call: site (or bond `n+1` right of it), state of the MPS object, arguments and
step `dt_` (negative for matrices). -/
inductive TCall
  | ten (n : ℕ) (mps : MPS) (L : Env ℂ) (W : Mpo ℂ) (R : Env ℂ) (T : Ten ℂ) (dt : ℂ)
  | mat (n : ℕ) (mps : MPS) (L R : Env ℂ) (C : Mat ℂ) (dt : ℂ)

section
variable (O : LinAlg) (evT : EvolveTen) (evM : EvolveMat) (sv : TSolver)

/-- `evTen=mf.evolveTensor…(self._L[n],self._mpo[n],self._R[N-1-n],self._mps.__tensor__(n,clear),dt_)`,
lib/mpslib/engines.py:1325-1330 and 1365-1370.  The `solve_ivp` methods get `np.imag(dt_)`. -/
def Eng.evolveTen (clear : Bool) (e : Eng) (n : ℕ) (dt : ℂ) : Res (Eng × Ten ℂ × TCall) :=
  match getE e.L n with
  | .error x => .error x
  | .ok L =>
  match getE e.mpo n with
  | .error x => .error x
  | .ok W =>
  match getE e.R (e.mps.N - 1 - n) with
  | .error x => .error x
  | .ok R =>
  match e.mps.tensor n clear with
  | .error x => .error x
  | .ok (T, m) =>
  match evT sv L W R T (sv.time dt) with
  | .error x => .error x
  | .ok X => .ok ({ e with mps := m }, X, .ten n e.mps L W R T dt)

/-- `evMat/=np.linalg.norm(evMat)`, lib/mpslib/engines.py:1344, 1360; division by zero gives NaN. -/
def Mat.unit (C : Mat ℂ) : Res (Mat ℂ) :=
  if normF C = 0 then .error .nan else .ok (C.divR (normF C))

/-- Backward evolution of a bond matrix, lib/mpslib/engines.py:1338-1345 and 1354-1361. -/
def Eng.evolveMat (e : Eng) (n : ℕ) (C : Mat ℂ) (dt : ℂ) : Res (Eng × TCall) :=
  match getE e.L (n + 1) with
  | .error x => .error x
  | .ok L =>
  match getE e.R (e.mps.N - 1 - n) with
  | .error x => .error x
  | .ok R =>
  match evM sv L R C (sv.time (-dt)) with
  | .error x => .error x
  | .ok X =>
    match X.unit with
    | .error x => .error x
    | .ok Y => .ok ({ e with mps := { e.mps with mat := Y } }, .mat n e.mps L R C (-dt))

/-- Iteration `n` of the right-moving loop, lib/mpslib/engines.py:1318-1347. -/
def Eng.tdvpR (dt : ℂ) (e : Eng) (n : ℕ) : Res (Eng × List TCall) :=
  let dt_ := if n = e.mps.N - 1 then dt else dt / 2
  match e.mps.position O ((n : ℤ) + 1) with
  | .error x => .error x
  | .ok m0 =>
  match Eng.evolveTen evT sv true { e with mps := m0 } n dt_ with
  | .error x => .error x
  | .ok (e1, X, c) =>
  match prepareTensorR O .none X with
  | .error x => .error x
  | .ok (A, C, _) =>
  match e1.mps.setItem n A with
  | .error x => .error x
  | .ok m1 =>
  match getE e1.L n with
  | .error x => .error x
  | .ok L =>
  match getE e1.mpo n with
  | .error x => .error x
  | .ok W =>
  match addLayerR L A W A with
  | .error x => .error x
  | .ok L' =>
  match setE e1.L (n + 1) L' with
  | .error x => .error x
  | .ok Ls =>
    let e2 : Eng := { e1 with mps := m1, L := Ls }
    if n < e.mps.N - 1 then
      match e2.evolveMat evM sv n C dt_ with
      | .error x => .error x
      | .ok (e3, c') => .ok (e3, [c, c'])
    else .ok ({ e2 with mps := { e2.mps with mat := C } }, [c])

/-- Iteration `n` of the left-moving loop, lib/mpslib/engines.py:1349-1377. -/
def Eng.tdvpL (dt : ℂ) (e : Eng) (n : ℕ) : Res (Eng × List TCall) :=
  match e.mps.position O ((n : ℤ) + 1) with
  | .error x => .error x
  | .ok m0 =>
  match getE e.R (m0.N - n - 2) with
  | .error x => .error x
  | .ok R =>
  match m0.getItem ((n : ℤ) + 1) with
  | .error x => .error x
  | .ok B =>
  match getE e.mpo (n + 1) with
  | .error x => .error x
  | .ok W =>
  match addLayerL R B W B with
  | .error x => .error x
  | .ok R' =>
  match setE e.R (m0.N - n - 1) R' with
  | .error x => .error x
  | .ok Rs =>
  match Eng.evolveMat evM sv { e with mps := m0, R := Rs } n m0.mat (dt / 2) with
  | .error x => .error x
  | .ok (e1, c) =>
  match e1.evolveTen evT sv (decide (sv ≠ .SEXPMV)) n (dt / 2) with
  | .error x => .error x
  | .ok (e2, X, c') =>
  match prepareTensorL O .none X with
  | .error x => .error x
  | .ok (A, C, _) =>
  match e2.mps.setItem n A with
  | .error x => .error x
  | .ok m1 => .ok ({ e2 with mps := { m1 with mat := C, pos := n } }, [c, c'])

/-- `for n in range(self._mps._N)`, lib/mpslib/engines.py:1318; `k` iterations from `n` on. -/
def Eng.tdvpRight (dt : ℂ) : ℕ → ℕ → Eng → List TCall → Res (Eng × List TCall)
  | 0, _, e, acc => .ok (e, acc)
  | k + 1, n, e, acc =>
    match e.tdvpR O evT evM sv dt n with
    | .error x => .error x
    | .ok (e', c) => Eng.tdvpRight dt k (n + 1) e' (acc ++ c)

/-- `for n in range(self._mps._N-2,-1,-1)`, lib/mpslib/engines.py:1349; the argument is one more than the loop
variable. -/
def Eng.tdvpLeft (dt : ℂ) : ℕ → Eng → List TCall → Res (Eng × List TCall)
  | 0, e, acc => .ok (e, acc)
  | n + 1, e, acc =>
    match e.tdvpL O evT evM sv dt n with
    | .error x => .error x
    | .ok (e', c) => Eng.tdvpLeft dt n e' (acc ++ c)

/-- One iteration of the loop of `__doTDVP__`, lib/mpslib/engines.py:1317-1394; `cur` is the variable
`current`. -/
def tdvpStep (dt : ℂ) (verbose : ℤ) (cp : Option ℤ) (keep : Bool) (cur : String) (w : World) :
    Res (String × World × List TCall) :=
  match Eng.tdvpRight O evT evM sv dt w.evo.eng.mps.N 0 w.evo.eng [] with
  | .error x => .error x
  | .ok (e1, c1) =>
  match Eng.tdvpLeft O evT evM sv dt (e1.mps.N - 1) e1 c1 with
  | .error x => .error x
  | .ok (e2, c2) =>
    let v := Evo.tick verbose dt { w.evo with eng := e2 }
    match cpDue cp v.it with
    | .error x => .error x
    | .ok true =>
      let d := if !keep then w.disk.removeIf cur else w.disk
      let cur' := v.filename ++ "_tdvp_cp" ++ toString v.it
      .ok (cur', ⟨{ v with it := v.it + 1 }, d.save cur' v⟩, c2)
    | .ok false => .ok (cur, ⟨{ v with it := v.it + 1 }, w.disk⟩, c2)

/-- `for step in range(numsteps)`, lib/mpslib/engines.py:1317. -/
def tdvpLoop (dt : ℂ) (verbose : ℤ) (cp : Option ℤ) (keep : Bool) :
    ℕ → String → World → List (List TCall) → Res (World × List (List TCall))
  | 0, _, w, acc => .ok (w, acc)
  | k + 1, cur, w, acc =>
    match tdvpStep O evT evM sv dt verbose cp keep cur w with
    | .error x => .error x
    | .ok (cur', w', c) => tdvpLoop dt verbose cp keep k cur' w' (acc ++ [c])

/-- `__doTDVP__(dt,numsteps,…)`, lib/mpslib/engines.py:1295-1397.  For an unknown solver the message string,
which contains braces, makes `str.format` raise a KeyError instead of the intended ValueError. -/
def doTDVP (dt : ℂ) (numsteps : ℤ) (cp : Option ℤ := none) (keep : Bool := false) (verbose : ℤ := 1)
    (w : World) : Res (World × List (List TCall)) :=
  if sv = .other then .error .key else
  match w.evo.eng.mps.position O 0 with
  | .error x => .error x
  | .ok m0 =>
  match tdvpLoop O evT evM sv dt verbose cp keep numsteps.toNat "None"
      ⟨{ w.evo with eng := { w.evo.eng with mps := m0 } }, w.disk⟩ [] with
  | .error x => .error x
  | .ok (w', cs) =>
    match w'.evo.eng.mps.position O 0 with
    | .error x => .error x
    | .ok m1 => .ok (⟨{ w'.evo with eng := { w'.evo.eng with mps := m1.resetZ } }, w'.disk⟩, cs)

end

end

end PyTeN
