import Verif.Engine.Container
import Verif.Mps.Gates

/-! # Two-site DMRG, lib/mpslib/engines.py:302-411 -/

namespace PyTeN
open Finset

noncomputable section

/-- The two-site tensor, lib/mpslib/engines.py:331-333 and 365-367: `ncon([T,t],[[-1,1,-2],[1,-4,-3]])` of shape `(Dl,dl,dr,Dr)`,
reshaped to `(Dl,dl*dr,Dr)` in C order and transposed to `(Dl,Dr,dl*dr)`; the pair of local states `x,y` has the index `x*dr+y`. -/
def mergeT (T t : Ten ℂ) : Res (Ten ℂ) :=
  if T.r = t.l then
    .ok ⟨T.l, t.r, T.d * t.d, fun i j s => ∑ k ∈ range T.r, T.v i k (s / t.d) * t.v k j (s % t.d)⟩
  else .error .value

/-- The two-site MPO tensor, lib/mpslib/engines.py:334-336 and 368-370: `ncon([W,w],[[-1,1,-3,-5],[1,-2,-4,-6]])`, the two incoming
and the two outgoing legs fused in C order. -/
def mergeW (W w : Mpo ℂ) : Res (Mpo ℂ) :=
  if W.r = w.l then
    .ok ⟨W.l, w.r, W.din * w.din, W.dout * w.dout, fun b b' s s' =>
      ∑ c ∈ range W.r, W.v b c (s / w.din) (s' / w.dout) * w.v c b' (s % w.din) (s' % w.dout)⟩
  else .error .value

/-- `temp3`, lib/mpslib/engines.py:345 and 379: `opt` reshaped to `(Dl,Dr,dl,dr)`, transposed to `(Dl,dl,dr,Dr)` and reshaped to
`(Dl*dl,dr*Dr)`: the row index is `i*dl+x`, the column index `y*Dr+j`. -/
def pairMat (X : Ten ℂ) (dl dr : ℕ) : Mat ℂ :=
  ⟨X.l * dl, dr * X.r, fun p q => X.v (p / dl) (q % X.r) (p % dl * dr + q / X.r)⟩

/-- Record of one call of the eigensolver in the two-site algorithm: the left site, the MPS object at the time of the call, the
arguments and results, the singular values of the result, the number of those that were kept, and the MPS object after the
assignments. -/
structure Call2 where
  n : ℕ
  mps : MPS
  L : Env ℂ
  W : Mpo ℂ
  R : Env ℂ
  T : Ten ℂ
  energy : ℂ
  opt : Ten ℂ
  S : List ℝ
  kept : ℕ
  after : MPS

/-- The part of a loop iteration common to both sweeps, lib/mpslib/engines.py:330-360 and 364-394, for `n+1 < N`: the engine
after the new tensors and the centre matrix have been assigned, the arguments needed for the update of the environments, and the
record.  `opt` must have the shape of the initial tensor (`reshape` would also accept another shape with as many elements).
Printing is not modelled. -/
def Eng.opt2 (O : LinAlg) (solve : Solve) (sv : Solver) (trunc : ℝ) (e : Eng) (n : ℕ) : Res (Eng × Mpo ℂ × Mpo ℂ × Call2) :=
  match e.mps.position O ((n + 1 : ℕ) : ℤ) with
  | .error x => .error x
  | .ok m =>
  match m.tensor n false with
  | .error x => .error x
  | .ok (A, _) =>
  match m.getItem ((n + 1 : ℕ) : ℤ) with
  | .error x => .error x
  | .ok B =>
  match mergeT A B with
  | .error x => .error x
  | .ok T =>
  match getE e.mpo n with
  | .error x => .error x
  | .ok W =>
  match getE e.mpo (n + 1) with
  | .error x => .error x
  | .ok W' =>
  match mergeW W W' with
  | .error x => .error x
  | .ok W2 =>
  match getE e.L n with
  | .error x => .error x
  | .ok L =>
  match getE e.R (e.mps.N - 2 - n) with
  | .error x => .error x
  | .ok R =>
  match solve sv L W2 R T with
  | .error x => .error x
  | .ok (en, X) =>
  if ¬ (X.l = A.l ∧ X.r = B.r ∧ X.d = A.d * B.d) then .error .value else
  let M := pairMat X A.d B.d
  let U := (O.svd M).1
  let S := (O.svd M).2.1
  let V := (O.svd M).2.2
  let S' := S.filter (fun x => decide (x > trunc))
  let k := min S'.length m.Dmax
  match normalise (S'.take k) with
  | .error x => .error x
  | .ok s =>
  match m.setItem n ⟨A.l, min k U.c, A.d, fun i a x => U.v (i * A.d + x) a⟩ with
  | .error x => .error x
  | .ok m1 =>
  match m1.setItem ((n + 1 : ℕ) : ℤ) ⟨min k V.r, B.r, B.d, fun a j y => V.v a (y * B.r + j)⟩ with
  | .error x => .error x
  | .ok m2 =>
    .ok ({ e with mps := { m2 with mat := diagMat s } }, W, W', ⟨n, m, L, W2, R, T, en, X, S, k, { m2 with mat := diagMat s }⟩)

/-- One iteration of the loop to the right, lib/mpslib/engines.py:329-361. -/
def Eng.stepR2 (O : LinAlg) (solve : Solve) (sv : Solver) (trunc : ℝ) (e : Eng) (n : ℕ) : Res (Eng × Call2) :=
  match e.opt2 O solve sv trunc n with
  | .error x => .error x
  | .ok (e1, W, _, c) =>
  match e1.mps.getItem n with
  | .error x => .error x
  | .ok A =>
  match addLayerR c.L A W A with
  | .error x => .error x
  | .ok E =>
  match setE e1.L (n + 1) E with
  | .error x => .error x
  | .ok L => .ok ({ e1 with L := L }, c)

/-- `self._R[self._mps._N-1-n]=mf.addLayer(self._R[self._mps._N-1-n-1],self._mps[n+1],self._mpo[n+1],self._mps[n+1],-1)`,
lib/mpslib/engines.py:395 and 398. -/
def Eng.refreshR (e : Eng) (n : ℕ) : Res Eng :=
  match getE e.R (e.mps.N - 2 - n) with
  | .error x => .error x
  | .ok R =>
  match e.mps.getItem ((n + 1 : ℕ) : ℤ) with
  | .error x => .error x
  | .ok B =>
  match getE e.mpo (n + 1) with
  | .error x => .error x
  | .ok W =>
  match addLayerL R B W B with
  | .error x => .error x
  | .ok E =>
  match setE e.R (e.mps.N - 1 - n) E with
  | .error x => .error x
  | .ok R' => .ok { e with R := R' }

/-- One iteration of the loop to the left, lib/mpslib/engines.py:363-395. -/
def Eng.stepL2 (O : LinAlg) (solve : Solve) (sv : Solver) (trunc : ℝ) (e : Eng) (n : ℕ) : Res (Eng × Call2) :=
  match e.opt2 O solve sv trunc n with
  | .error x => .error x
  | .ok (e1, _, _, c) =>
  match e1.refreshR n with
  | .error x => .error x
  | .ok e2 => .ok (e2, c)

/-- `for n in range(0,self._mps._N-2)`, lib/mpslib/engines.py:329; `k` iterations from `n` on. -/
def Eng.sweepR2 (O : LinAlg) (solve : Solve) (sv : Solver) (trunc : ℝ) :
    ℕ → ℕ → Eng → List Call2 → Res (Eng × List Call2)
  | 0, _, e, acc => .ok (e, acc)
  | k + 1, n, e, acc =>
    match e.stepR2 O solve sv trunc n with
    | .error x => .error x
    | .ok (e', c) => Eng.sweepR2 O solve sv trunc k (n + 1) e' (acc ++ [c])

/-- `for n in range(self._mps._N-2,-1,-1)`, lib/mpslib/engines.py:363; the loop variable is `n-1`. -/
def Eng.sweepL2 (O : LinAlg) (solve : Solve) (sv : Solver) (trunc : ℝ) :
    ℕ → Eng → List Call2 → Res (Eng × List Call2)
  | 0, e, acc => .ok (e, acc)
  | n + 1, e, acc =>
    match e.stepL2 O solve sv trunc n with
    | .error x => .error x
    | .ok (e', c) => Eng.sweepL2 O solve sv trunc n e' (acc ++ [c])

/-- Outcome of a two-site simulation: returned energy, engine, calls of every sweep, checkpoints. -/
structure SimRes2 where
  energy : ℂ
  eng : Eng
  sweeps : List (List Call2)
  saved : List (ℕ × MPS)

/-- One pass of the `while` loop up to the convergence test, lib/mpslib/engines.py:329-398.  If no loop iteration has been made,
`n` is unbound. -/
def Eng.sweep2 (O : LinAlg) (solve : Solve) (sv : Solver) (trunc : ℝ) (e : Eng) : Res (Eng × List Call2 × Call2) :=
  match Eng.sweepR2 O solve sv trunc (e.mps.N - 2) 0 e [] with
  | .error x => .error x
  | .ok (e1, c1) =>
  match Eng.sweepL2 O solve sv trunc (e1.mps.N - 1) e1 c1 with
  | .error x => .error x
  | .ok (e2, c2) =>
  match e2.mps.position O 0 with
  | .error x => .error x
  | .ok m =>
  match c2.getLast? with
  | none => .error .unbound
  | some c =>
  match Eng.refreshR { e2 with mps := m } c.n with
  | .error x => .error x
  | .ok e3 => .ok (e3, c2, c)

open Classical in
/-- The `while` loop of `DMRGengine.__simulateTwoSite__`, lib/mpslib/engines.py:328-409.  `fuel` bounds the number of sweeps; it is
never exhausted when started as in `Eng.simulateTwoSite`. -/
def Eng.simLoop2 (O : LinAlg) (solve : Solve) (sv : Solver) (trunc : ℝ) (Nmax : ℤ) (Econv : ℝ) (cp : Option ℤ) :
    ℕ → ℕ → ℂ → Eng → List (List Call2) → List (ℕ × MPS) → Res SimRes2
  | 0, _, _, _, _, _ => .error .exit
  | fuel + 1, it, energy, e, sw, sd =>
    match e.sweep2 O solve sv trunc with
    | .error x => .error x
    | .ok (e3, cs, c) =>
    match cpDue cp it with
    | .error x => .error x
    | .ok due =>
      let sd' := if due then sd ++ [(it, e3.mps)] else sd
      if ((it + 1 : ℕ) : ℤ) > Nmax ∨ ‖c.energy - energy‖ < Econv then
        .ok ⟨c.energy, { e3 with mps := { e3.mps with Z := 1 } }, sw ++ [cs], sd'⟩
      else Eng.simLoop2 O solve sv trunc Nmax Econv cp fuel (it + 1) c.energy e3 (sw ++ [cs]) sd'

/-- `DMRGengine.__simulateTwoSite__`, lib/mpslib/engines.py:302-411 (the tolerances are part of the solver parameter).  For an
unknown solver the `format` call raises a KeyError, as in `simulate`.  `self._mps.__position__(0)` moves the centre of the MPS
without touching the environments. -/
def Eng.simulateTwoSite (O : LinAlg) (solve : Solve) (sv : Solver) (e : Eng) (Nmax : ℤ) (Econv : ℝ) (cp : Option ℤ)
    (trunc : ℝ) : Res SimRes2 :=
  if sv = .other then .error .key
  else
    match e.mps.position O 0 with
    | .error x => .error x
    | .ok m => Eng.simLoop2 O solve sv trunc Nmax Econv cp (max 1 Nmax.toNat) 1 100000 { e with mps := m } [] []

end

end PyTeN
