import Verif.Engine.Grow
import Verif.Env.OpChain
import Verif.Ham.Fermion

/-! # `PeriodicMPSengine`: effective operators of a translation invariant state on a ring

lib/mpslib/engines.py:1401-1677.  Arrays are exact; `ncon` raises ValueError when contracted dimensions differ.
A vector `vec` that the code reshapes to `(D,D,d)` (or `(D,D)`) and back is modelled by the tensor itself. -/

namespace PyTeN.Periodic
open Finset

/-- A four-index array, index order (right ket, right bra, left ket, left bra) as in lib/mpslib/engines.py:1482. -/
structure Four where
  r : ℕ
  r' : ℕ
  l : ℕ
  l' : ℕ
  v : ℕ → ℕ → ℕ → ℕ → ℂ

/-- A six-index array, index order (right ket, right bra, right MPO, left ket, left bra, left MPO) as in
lib/mpslib/engines.py:1504. -/
structure Six where
  r : ℕ
  r' : ℕ
  b : ℕ
  l : ℕ
  l' : ℕ
  e : ℕ
  v : ℕ → ℕ → ℕ → ℕ → ℕ → ℕ → ℂ

/-- The attributes of a `PeriodicMPSengine` that its methods read: `_mps[0]`, `_mpo[0..2]`, `_mpo2[0]`, `_mpo2[2]`,
`_mpo3[0]`, `_mpo3[2]` and `_N`.  The three-index arrays of `_mpo2`, `_mpo3` are stored as MPO tensors with one
trivial bond. -/
structure Eng where
  A : Ten ℂ
  mpo0 : Mpo ℂ
  mpo1 : Mpo ℂ
  mpo2 : Mpo ℂ
  row : Mpo ℂ
  col : Mpo ℂ
  row3 : Mpo ℂ
  col3 : Mpo ℂ
  N : ℕ

/-- `PeriodicMPSengine.__init__`, lib/mpslib/engines.py:1433-1478.  `obc = none` stands for an argument without the
attribute `obc`, e.g. the plain list which the docstring allows.  `MPO.fromlist` copies its argument
(lib/mpslib/Hamiltonians.py:20-32), so that `_mpo2` and `_mpo3` share no arrays. -/
noncomputable def initPeriodic (mps : List (Ten ℂ)) (obc : Option Bool) (mpo : List (Mpo ℂ)) (N : ℕ) : Res Eng :=
  if 1 < mps.length then .error .value else
  match obc with
  | none => .error .attribute
  | some true => .error .value
  | some false =>
    match mps with
    | [] => .error .index
    | A :: _ =>
      match mpo with
      | [] => .error .index
      | W :: _ =>
        if W.l = 0 ∨ W.r = 0 then .error .index else
        let row : Mpo ℂ := ⟨1, W.r, W.din, W.dout, fun _ c s t => W.v (W.l - 1) c s t⟩
        let col : Mpo ℂ := ⟨W.l, 1, W.din, W.dout, fun b _ s t => W.v b 0 s t⟩
        .ok { A := A
              mpo0 := { row with v := fun b c s t => if c = 0 then row.v b c s t * 0 else row.v b c s t }
              mpo1 := W
              mpo2 := { col with v := fun b c s t => if b = W.l - 1 then col.v b c s t * 0 else col.v b c s t }
              row := row
              col := col
              row3 := { row with v := fun b c s t => if c = 0 then row.v b c s t / 2 else row.v b c s t }
              col3 := { col with v := fun b c s t => if b = W.l - 1 then col.v b c s t / 2 else col.v b c s t }
              N := N }

/-- lib/mpslib/engines.py:1482: the transfer matrix. -/
def transfer (A : Ten ℂ) : Four :=
  ⟨A.r, A.r, A.l, A.l, fun r r' l l' => ∑ s ∈ range A.d, A.v l r s * star (A.v l' r' s)⟩

/-- lib/mpslib/engines.py:1484: one more pair of tensors on the left. -/
def transferStep (A : Ten ℂ) (E : Four) : Res Four :=
  if E.l = A.r ∧ E.l' = A.r then
    .ok ⟨E.r, E.r', A.l, A.l, fun r r' l l' =>
      ∑ q ∈ range E.l, ∑ q' ∈ range E.l', ∑ s ∈ range A.d, E.v r r' q q' * A.v l q s * star (A.v l' q' s)⟩
  else .error .value

/-- The loop lib/mpslib/engines.py:1483-1484. -/
def powLoop (A : Ten ℂ) : ℕ → Four → Res Four
  | 0, E => .ok E
  | n + 1, E =>
    match transferStep A E with
    | .error x => .error x
    | .ok E' => powLoop A n E'

/-- `empty_pow`, lib/mpslib/engines.py:1481-1485.  `range(N-1)` is empty for `N ≤ 1`, negative values included, so
natural subtraction is exact here and at the calls with `N-3` and `N-n-2`. -/
def emptyPow (A : Ten ℂ) (N : ℕ) : Res Four := powLoop A (N - 1) (transfer A)

/-- lib/mpslib/engines.py:1504. -/
def hblaInit (A : Ten ℂ) (W : Mpo ℂ) : Res Six :=
  if A.d = W.din ∧ A.d = W.dout then
    .ok ⟨A.r, A.r, W.r, A.l, A.l, W.l, fun r r' b l l' e =>
      ∑ s ∈ range A.d, ∑ t ∈ range A.d, A.v l r s * W.v e b s t * star (A.v l' r' t)⟩
  else .error .value

/-- lib/mpslib/engines.py:1507. -/
def hblaStep (A : Ten ℂ) (W : Mpo ℂ) (H : Six) : Res Six :=
  if H.l = A.r ∧ H.e = W.r ∧ A.d = W.din ∧ A.d = W.dout ∧ H.l' = A.r then
    .ok ⟨H.r, H.r', H.b, A.l, A.l, W.l, fun r r' b l l' e =>
      ∑ q ∈ range H.l, ∑ q' ∈ range H.l', ∑ c ∈ range H.e, ∑ s ∈ range A.d, ∑ t ∈ range A.d,
        H.v r r' b q q' c * A.v l q s * W.v e c s t * star (A.v l' q' t)⟩
  else .error .value

/-- The loop lib/mpslib/engines.py:1505-1513. -/
def hblaLoop (A : Ten ℂ) (W : Mpo ℂ) : ℕ → Six → Res Six
  | 0, H => .ok H
  | n + 1, H =>
    match hblaStep A W H with
    | .error x => .error x
    | .ok H' => hblaLoop A W n H'

/-- `Heffsite`, lib/mpslib/engines.py:1543. -/
def heffSite (A : Ten ℂ) (W0 W2 : Mpo ℂ) (T : Four) : Res Six :=
  if T.r = A.l ∧ T.r' = A.l ∧ T.l = A.r ∧ T.l' = A.r ∧ W0.l = W2.r ∧ A.d = W0.din ∧ A.d = W0.dout ∧ A.d = W2.din ∧
      A.d = W2.dout then
    .ok ⟨A.r, A.r, W0.r, A.l, A.l, W2.l, fun r r' b l l' e =>
      ∑ i ∈ range T.r, ∑ s ∈ range A.d, ∑ t ∈ range A.d, ∑ i' ∈ range T.r', ∑ j ∈ range T.l, ∑ x ∈ range A.d,
        ∑ y ∈ range A.d, ∑ j' ∈ range T.l', ∑ c ∈ range W0.l,
          T.v i i' j j' * A.v i r s * W0.v c b s t * star (A.v i' r' t) * A.v l j x * W2.v e c x y * star (A.v l' j' y)⟩
  else .error .value

/-- `Heffbond`, lib/mpslib/engines.py:1546. -/
def heffBond (A : Ten ℂ) (W : Mpo ℂ) (H : Six) : Res Four :=
  if H.r = A.l ∧ H.r' = A.l ∧ H.b = W.l ∧ H.e = W.r ∧ A.d = W.din ∧ A.d = W.dout then
    .ok ⟨A.r, A.r, H.l, H.l', fun r r' l l' =>
      ∑ i ∈ range H.r, ∑ s ∈ range A.d, ∑ b ∈ range H.b, ∑ t ∈ range A.d, ∑ i' ∈ range H.r', ∑ e ∈ range H.e,
        H.v i i' b l l' e * A.v i r s * W.v b e s t * star (A.v i' r' t)⟩
  else .error .value

/-- `Henvbond`, lib/mpslib/engines.py:1548. -/
def henvBond (A : Ten ℂ) (H : Four) : Res Four :=
  if H.r = A.l ∧ H.r' = A.l then
    .ok ⟨A.r, A.r, H.l, H.l', fun r r' l l' =>
      ∑ i ∈ range H.r, ∑ s ∈ range A.d, ∑ i' ∈ range H.r', H.v i i' l l' * A.v i r s * star (A.v i' r' s)⟩
  else .error .value

/-- The six arrays returned by `getHeffNeff`. -/
structure Eff where
  heffSite : Six
  neffSite : Six
  henvSite : Four
  heffBond : Four
  neffBond : Four
  henvBond : Four

/-- `getHeffNeff`, lib/mpslib/engines.py:1502-1551.  The assignment at 1526 into an array of shape
`(D1,D1,1,D2,D2,1)` needs `D1 = D2` (broadcasting apart); that is checked first here, as every call with `D1 ≠ D2` ends
in a ValueError (1543 at the latest). -/
def getHeffNeff (g : Eng) : Res Eff :=
  if g.A.l ≠ g.A.r then .error .value else
  match hblaInit g.A g.mpo1 with
  | .error x => .error x
  | .ok H0 =>
    match hblaLoop g.A g.mpo1 (g.N - 2) H0 with
    | .error x => .error x
    | .ok H =>
      match emptyPow g.A g.N with
      | .error x => .error x
      | .ok nb =>
        match emptyPow g.A (g.N - 3) with
        | .error x => .error x
        | .ok nt =>
          if H.b = 0 ∨ H.e = 0 then .error .index else
          let ns : Six := ⟨g.A.l, g.A.l, 1, g.A.r, g.A.r, 1, fun r r' _ l l' _ => H.v r r' 0 l l' 0⟩
          let he : Four := ⟨H.r, H.r', H.l, H.l', fun r r' l l' => H.v r r' 0 l l' (H.e - 1)⟩
          match heffSite g.A g.mpo0 g.mpo2 nt with
          | .error x => .error x
          | .ok hs =>
            match Periodic.heffBond g.A g.mpo1 hs with
            | .error x => .error x
            | .ok hb =>
              match Periodic.henvBond g.A he with
              | .error x => .error x
              | .ok eb => .ok ⟨hs, ns, he, hb, nb, eb⟩

/-- `matvec`, lib/mpslib/engines.py:1401-1405.  When the two summands have different shapes the model raises ValueError
(numpy would broadcast a length 1). -/
def matvec (H : Six) (E : Four) (W : Mpo ℂ) (X : Ten ℂ) : Res (Ten ℂ) :=
  if X.l = H.r ∧ X.r = H.r ∧ X.d = W.din ∧ H.l = H.r ∧ H.b = W.l ∧ H.e = W.r ∧ E.r = H.r ∧ E.l = H.r ∧
      H.r' = E.r' ∧ H.l' = E.l' ∧ W.dout = W.din ∧ H.r' = H.r ∧ H.l' = H.r then
    .ok ⟨H.r', H.l', W.dout, fun r' l' t =>
      (∑ r ∈ range X.l, ∑ s ∈ range X.d, ∑ b ∈ range H.b, ∑ l ∈ range X.r, ∑ e ∈ range H.e,
        H.v r r' b l l' e * W.v b e s t * X.v r l s) +
      ∑ r ∈ range X.l, ∑ l ∈ range X.r, E.v r r' l l' * X.v r l t⟩
  else .error .value

/-- `gram`, lib/mpslib/engines.py:1407-1412. -/
def gram (H : Six) (W : Mpo ℂ) (X : Ten ℂ) : Res (Ten ℂ) :=
  if X.l = H.r ∧ X.r = H.r ∧ X.d = W.din ∧ H.l = H.r ∧ H.b = W.l ∧ H.e = W.r ∧ W.dout = W.din ∧ H.r' = H.r ∧
      H.l' = H.r then
    .ok ⟨H.r', H.l', W.dout, fun r' l' t =>
      ∑ r ∈ range X.l, ∑ s ∈ range X.d, ∑ b ∈ range H.b, ∑ l ∈ range X.r, ∑ e ∈ range H.e,
        H.v r r' b l l' e * W.v b e s t * X.v r l s⟩
  else .error .value

/-- `matvecbond` and the identical `grambond`, lib/mpslib/engines.py:1420-1428. -/
def matvecbond (H : Four) (C : Mat ℂ) : Res (Mat ℂ) :=
  if C.r = H.r ∧ C.c = H.r ∧ H.l = H.r ∧ H.r' = H.r ∧ H.l' = H.r then
    .ok ⟨H.r', H.l', fun r' l' => ∑ r ∈ range C.r, ∑ l ∈ range C.c, H.v r r' l l' * C.v r l⟩
  else .error .value

/-- `Heffbond+Henvbond`, lib/mpslib/engines.py:1625 (equal shapes). -/
def Four.add (H E : Four) : Res Four :=
  if H.r = E.r ∧ H.r' = E.r' ∧ H.l = E.l ∧ H.l' = E.l' then
    .ok ⟨H.r, H.r', H.l, H.l', fun r r' l l' => H.v r r' l l' + E.v r r' l l'⟩
  else .error .value

/-- `np.reshape(np.eye(d),(1,1,d,d))`, lib/mpslib/engines.py:1620. -/
def eyeMpo (d : ℕ) : Mpo ℂ := ⟨1, 1, d, d, fun _ _ s t => delta ℂ s t⟩

/-- `np.trace(np.reshape(Neffbond,(D1*D1,D2*D2)))`, lib/mpslib/engines.py:1577, 1637, for a square array
(`D1 = D2`): the composite indices `(r,r')` and `(l,l')` agree. -/
def traceFour (H : Four) : ℂ := ∑ r ∈ range H.r, ∑ r' ∈ range H.r', H.v r r' r r'

/-- `np.tensordot(np.conj(Y),V,([0,1,2],[0,1,2]))`, lib/mpslib/engines.py:1576, 1636. -/
def tdot (Y V : Ten ℂ) : Res ℂ :=
  if Y.l = V.l ∧ Y.r = V.r ∧ Y.d = V.d then
    .ok (∑ i ∈ range Y.l, ∑ j ∈ range Y.r, ∑ s ∈ range Y.d, star (Y.v i j s) * V.v i j s)
  else .error .value

/-- `Hlocall`, `Hlocal`, `Hlocalr`, lib/mpslib/engines.py:1488-1490: two tensors with a two-site term `Σ_b row_b⊗col_b`. -/
def hLocal (A : Ten ℂ) (row col : Mpo ℂ) : Res Four :=
  if A.l = A.r ∧ row.r = col.l ∧ A.d = row.din ∧ A.d = row.dout ∧ A.d = col.din ∧ A.d = col.dout then
    .ok ⟨A.r, A.r, A.l, A.l, fun r r' l l' =>
      ∑ i ∈ range A.r, ∑ s ∈ range A.d, ∑ b ∈ range row.r, ∑ t ∈ range A.d, ∑ i' ∈ range A.r, ∑ y ∈ range A.d,
        ∑ x ∈ range A.d, A.v l i s * row.v 0 b s t * star (A.v l' i' t) * A.v i r x * col.v b 0 x y * star (A.v i' r' y)⟩
  else .error .value

/-- `ncon([E,F],[[1,2,-3,-4],[-1,-2,1,2]])`, lib/mpslib/engines.py:1497, 1499; twice at 1495: `E` to the left of `F`. -/
def glue (E F : Four) : Res Four :=
  if E.r = F.l ∧ E.r' = F.l' then
    .ok ⟨F.r, F.r', E.l, E.l', fun r r' l l' => ∑ i ∈ range E.r, ∑ i' ∈ range E.r', E.v i i' l l' * F.v r r' i i'⟩
  else .error .value

/-- The body of the loop of `checkH`, lib/mpslib/engines.py:1494-1499, for a loop variable `n < N`. -/
def checkTerm (A : Ten ℂ) (hl hm hr : Four) (N n : ℕ) : Res (Option Four) :=
  if 0 < n ∧ n + 2 < N then
    match emptyPow A n with
    | .error x => .error x
    | .ok E =>
      match emptyPow A (N - n - 2) with
      | .error x => .error x
      | .ok F =>
        match glue E hm with
        | .error x => .error x
        | .ok G =>
          match glue G F with
          | .error x => .error x
          | .ok R => .ok (some R)
  else if n = 0 ∧ n + 2 < N then
    match emptyPow A (N - n - 2) with
    | .error x => .error x
    | .ok F =>
      match glue hl F with
      | .error x => .error x
      | .ok R => .ok (some R)
  else if 0 < n ∧ n + 2 = N then
    match emptyPow A n with
    | .error x => .error x
    | .ok E =>
      match glue E hr with
      | .error x => .error x
      | .ok R => .ok (some R)
  else .ok none

/-- The loop of `checkH`, lib/mpslib/engines.py:1493-1499, over the loop variables given. -/
def checkLoop (A : Ten ℂ) (hl hm hr : Four) (N : ℕ) : List ℕ → Four → Res Four
  | [], H => .ok H
  | n :: ns, H =>
    match checkTerm A hl hm hr N n with
    | .error x => .error x
    | .ok none => checkLoop A hl hm hr N ns H
    | .ok (some R) =>
      match Four.add H R with
      | .error x => .error x
      | .ok H' => checkLoop A hl hm hr N ns H'

/-- `checkH`, lib/mpslib/engines.py:1487-1500. -/
def checkH (g : Eng) (N : ℕ) : Res Four :=
  match hLocal g.A g.row g.col3, hLocal g.A g.row3 g.col3, hLocal g.A g.row3 g.col with
  | .ok hl, .ok hm, .ok hr =>
    checkLoop g.A hl hm hr N (List.range N) ⟨hm.r, hm.r', hm.l, hm.l', fun _ _ _ _ => 0⟩
  | .error x, _, _ => .error x
  | _, .error x, _ => .error x
  | _, _, .error x => .error x

/-- Calling a function of `arity` positional parameters with `given` arguments. -/
def callPy {α : Type*} (arity given : ℕ) (r : Res α) : Res α := if given = arity then r else .error .type

/-- One round of `gradient_optimize` up to lib/mpslib/engines.py:1572; `canon` is the result of `self._mps.canonize()`
(the tensor and `_mat`).  The name `gradmps` is assigned in the method, hence local, and line 1572 reads it before its
first assignment; the last value stands for `energy`, which is never computed. -/
def gradientRound (g : Eng) (canon : Res (Ten ℂ × Mat ℂ)) : Res ℂ :=
  match canon with
  | .error x => .error x
  | .ok (A, mat) =>
    match getHeffNeff { g with A := A } with
    | .error x => .error x
    | .ok P =>
      -- `Neffsite_`, line 1567
      if P.neffSite.l ≠ mat.c ∨ P.neffSite.l' ≠ mat.c then .error .value else
      -- `mvsite` has three arguments bound by `partial` and gets one more, line 1571
      match callPy 4 (3 + 1) (matvec P.heffSite P.henvSite g.mpo1 A) with
      | .error x => .error x
      | .ok _ =>
        let gradmps : Res (Ten ℂ) := .error .unbound
        match gradmps with
        | .error x => .error x
        | .ok gm => tdot A gm

/-- One round of `simulateVUMPS` up to lib/mpslib/engines.py:1636: `mvsite` is `partial(matvec,calls,stop,Heffsite,
Henvsite,mpo)`, i.e. a function of four parameters with five bound, and gets one more argument. -/
def vumpsRound (g : Eng) (canon : Res (Ten ℂ × Mat ℂ)) : Res ℂ :=
  match canon with
  | .error x => .error x
  | .ok (A, _) =>
    match getHeffNeff { g with A := A } with
    | .error x => .error x
    | .ok P =>
      match callPy 4 (5 + 1) (matvec P.heffSite P.henvSite g.mpo1 A) with
      | .error x => .error x
      | .ok gm => tdot A gm

/-! ## Blocks as sums over configurations -/

/-- Spec: the sites with tensors `As`, operators `Ws` and (conjugated) tensors `Bs`, all bonds at the ends open. -/
def blockOf (As : List (Ten ℂ)) (Ws : List (Mpo ℂ)) (Bs : List (Ten ℂ)) (r r' b l l' e : ℕ) : ℂ :=
  sumCfg (As.map Ten.d) fun s => sumCfg (Bs.map Ten.d) fun t =>
    chain As s l r * mchain Ws s t e b * star (chain Bs t l' r')

theorem len_of_cfg {ds s : List ℕ} (h : List.Forall₂ (fun d x => x < d) ds s) : s.length = ds.length := h.length_eq.symm

theorem blockOf_single {A B : Ten ℂ} {W : Mpo ℂ} {r r' b : ℕ} (hr : r < A.r) (hr' : r' < B.r) (hb : b < W.r)
    (l l' e : ℕ) : blockOf [A] [W] [B] r r' b l l' e
      = ∑ s ∈ range A.d, ∑ t ∈ range B.d, A.v l r s * W.v e b s t * star (B.v l' r' t) := by
  simp only [blockOf, List.map_cons, List.map_nil, sumCfg, chain, mchain]
  refine sum_congr rfl fun s _ => sum_congr rfl fun t _ => ?_
  rw [sum_delta_right hr, sum_delta_right hb, sum_delta_right hr']

theorem prod_sums {a b c : ℕ} (f f' g g' h h' : ℕ → ℂ) :
    (∑ q ∈ range a, f q * f' q) * (∑ γ ∈ range c, g γ * g' γ) * (∑ q' ∈ range b, h q' * h' q')
      = ∑ q ∈ range a, ∑ q' ∈ range b, ∑ γ ∈ range c, (f q * g γ * h q') * (f' q * g' γ * h' q') := by
  rw [mul_assoc, sum_mul]
  refine sum_congr rfl fun q _ => ?_
  rw [sum_mul_sum, mul_sum, sum_comm]
  simp only [mul_sum]
  rw [sum_comm]
  rw [sum_comm]
  refine sum_congr rfl fun q' _ => sum_congr rfl fun γ _ => by ring

theorem blockOf_append {X X' Y Y' : List (Ten ℂ)} {V U : List (Mpo ℂ)} {l0 l0' e0 m m' c : ℕ} (hX : Linked l0 X m)
    (hX' : Linked l0' X' m') (hV : MLinked e0 V c) (h1 : X.length = V.length) (h2 : X'.length = V.length)
    {l l' e : ℕ} (hl : l < l0) (hl' : l' < l0') (he : e < e0) (r r' b : ℕ) :
    blockOf (X ++ Y) (V ++ U) (X' ++ Y') r r' b l l' e
      = ∑ q ∈ range m, ∑ q' ∈ range m', ∑ γ ∈ range c,
          blockOf X V X' q q' γ l l' e * blockOf Y U Y' r r' b q q' γ := by
  simp only [blockOf, List.map_append, sumCfg_append]
  have e1 : ∀ s s2 t t2, List.Forall₂ (fun d x => x < d) (X.map Ten.d) s →
      List.Forall₂ (fun d x => x < d) (X'.map Ten.d) t →
      chain (X ++ Y) (s ++ s2) l r * mchain (V ++ U) (s ++ s2) (t ++ t2) e b * star (chain (X' ++ Y') (t ++ t2) l' r')
      = ∑ q ∈ range m, ∑ q' ∈ range m', ∑ γ ∈ range c,
        (chain X s l q * mchain V s t e γ * star (chain X' t l' q')) *
          (chain Y s2 q r * mchain U s2 t2 γ b * star (chain Y' t2 q' r')) := by
    intro s s2 t t2 hs ht
    have hs := len_of_cfg hs
    have ht := len_of_cfg ht
    simp only [List.length_map] at hs ht
    rw [chain_append hX s s2 hs hl, chain_append hX' t t2 ht hl', mchain_append hV s t s2 t2 (by omega) (by omega) he,
      star_sum]
    simp only [star_mul']
    exact prod_sums _ _ _ _ _ _
  have e2 : sumCfg (X.map Ten.d) (fun s => sumCfg (Y.map Ten.d) fun s2 => sumCfg (X'.map Ten.d) fun t =>
      sumCfg (Y'.map Ten.d) fun t2 => chain (X ++ Y) (s ++ s2) l r * mchain (V ++ U) (s ++ s2) (t ++ t2) e b *
        star (chain (X' ++ Y') (t ++ t2) l' r'))
      = sumCfg (X.map Ten.d) (fun s => sumCfg (Y.map Ten.d) fun s2 => sumCfg (X'.map Ten.d) fun t =>
      sumCfg (Y'.map Ten.d) fun t2 => ∑ q ∈ range m, ∑ q' ∈ range m', ∑ γ ∈ range c,
        (chain X s l q * mchain V s t e γ * star (chain X' t l' q')) *
          (chain Y s2 q r * mchain U s2 t2 γ b * star (chain Y' t2 q' r'))) := by
    refine sumCfg_congr fun s hs => sumCfg_congr fun s2 _ => sumCfg_congr fun t ht => sumCfg_congr fun t2 _ => ?_
    exact e1 s s2 t t2 hs ht
  rw [e2]
  simp only [sumCfg_sum]
  refine sum_congr rfl fun q _ => sum_congr rfl fun q' _ => sum_congr rfl fun γ _ => ?_
  simp only [sumCfg_mul, ← sumCfg_mul_right]
  refine sumCfg_congr fun s _ => ?_
  rw [sumCfg_comm]
  simp only [sumCfg_mul]

/-- Spec: amplitude of a configuration on a ring: the trace of the product of the matrices. -/
def ringAmp (D : ℕ) (As : List (Ten ℂ)) (s : List ℕ) : ℂ := ∑ i ∈ range D, chain As s i i

theorem ring_expand (D E : ℕ) (As Bs : List (Ten ℂ)) (Ws : List (Mpo ℂ)) :
    (sumCfg (As.map Ten.d) fun s => sumCfg (Bs.map Ten.d) fun t =>
      ringAmp D As s * (∑ e ∈ range E, mchain Ws s t e e) * star (ringAmp D Bs t))
    = ∑ l ∈ range D, ∑ l' ∈ range D, ∑ e ∈ range E, blockOf As Ws Bs l l' e l l' e := by
  simp only [blockOf, ← sumCfg_sum, ringAmp, star_sum]
  refine sumCfg_congr fun s _ => sumCfg_congr fun t _ => ?_
  have := prod_sums (a := D) (b := D) (c := E) (fun q => chain As s q q) (fun _ => 1) (fun e => mchain Ws s t e e)
    (fun _ => 1) (fun q => star (chain Bs t q q)) (fun _ => 1)
  simpa using this

theorem reorder {n₁ n₂ n₃ n₄ n₅ n₆ n₇ n₈ : ℕ} (F : ℕ → ℕ → ℕ → ℕ → ℕ → ℕ → ℕ → ℕ → ℂ) :
    ∑ r' ∈ range n₁, ∑ l' ∈ range n₂, ∑ t ∈ range n₃, ∑ r ∈ range n₄, ∑ s ∈ range n₅, ∑ b ∈ range n₆,
      ∑ l ∈ range n₇, ∑ e ∈ range n₈, F r' l' t r s b l e
    = ∑ l ∈ range n₇, ∑ l' ∈ range n₂, ∑ e ∈ range n₈, ∑ r ∈ range n₄, ∑ r' ∈ range n₁, ∑ b ∈ range n₆,
      ∑ s ∈ range n₅, ∑ t ∈ range n₃, F r' l' t r s b l e := by
  have h := Finset.sum_nbij' (s := range n₁ ×ˢ range n₂ ×ˢ range n₃ ×ˢ range n₄ ×ˢ range n₅ ×ˢ range n₆ ×ˢ range n₇ ×ˢ
      range n₈)
    (t := range n₇ ×ˢ range n₂ ×ˢ range n₈ ×ˢ range n₄ ×ˢ range n₁ ×ˢ range n₆ ×ˢ range n₅ ×ˢ range n₃)
    (f := fun (r', l', t, r, s, b, l, e) => F r' l' t r s b l e)
    (g := fun (l, l', e, r, r', b, s, t) => F r' l' t r s b l e)
    (fun (r', l', t, r, s, b, l, e) => (l, l', e, r, r', b, s, t))
    (fun (l, l', e, r, r', b, s, t) => (r', l', t, r, s, b, l, e))
    (by simp; tauto) (by simp; tauto) (by simp) (by simp) (by simp)
  simpa only [Finset.sum_product] using h

/-- A block closed to a ring by one more site. -/
theorem ring_sum {D d B E : ℕ} {As Bs : List (Ten ℂ)} {Ws : List (Mpo ℂ)} {X Y : Ten ℂ} {W : Mpo ℂ}
    (hA : Linked D As D) (hB : Linked D Bs D) (hW : MLinked E Ws B) (h1 : As.length = Ws.length)
    (h2 : Bs.length = Ws.length) (hXr : X.r = D) (hXd : X.d = d) (hYr : Y.r = D) (hYd : Y.d = d) (hWr : W.r = E) :
    ∑ r' ∈ range D, ∑ l' ∈ range D, ∑ t ∈ range d, star (Y.v r' l' t) *
      (∑ r ∈ range D, ∑ s ∈ range d, ∑ b ∈ range B, ∑ l ∈ range D, ∑ e ∈ range E,
        blockOf As Ws Bs r r' b l l' e * W.v b e s t * X.v r l s)
    = sumCfg ((As ++ [X]).map Ten.d) fun s => sumCfg ((Bs ++ [Y]).map Ten.d) fun t =>
      ringAmp D (As ++ [X]) s * (∑ e ∈ range E, mchain (Ws ++ [W]) s t e e) * star (ringAmp D (Bs ++ [Y]) t) := by
  rw [ring_expand]
  simp only [mul_sum]
  rw [reorder]
  refine sum_congr rfl fun l hl => sum_congr rfl fun l' hl' => sum_congr rfl fun e he => ?_
  rw [blockOf_append hA hB hW h1 h2 (mem_range.mp hl) (mem_range.mp hl') (mem_range.mp he)]
  refine sum_congr rfl fun r _ => sum_congr rfl fun r' _ => sum_congr rfl fun b _ => ?_
  rw [blockOf_single (by rw [hXr]; exact mem_range.mp hl) (by rw [hYr]; exact mem_range.mp hl')
    (by rw [hWr]; exact mem_range.mp he), mul_sum, hXd, hYd]
  refine sum_congr rfl fun s _ => ?_
  rw [mul_sum]
  refine sum_congr rfl fun t _ => by ring

/-! ## The blocks computed by the code -/

/-- `H` is the block of the sites `As`, `Ws`. -/
structure IsBlk (D B : ℕ) (H : Six) (As : List (Ten ℂ)) (Ws : List (Mpo ℂ)) : Prop where
  r : H.r = D
  r' : H.r' = D
  b : H.b = B
  l : H.l = D
  l' : H.l' = D
  e : H.e = B
  v : ∀ r < D, ∀ r' < D, ∀ b < B, ∀ l < D, ∀ l' < D, ∀ e < B, H.v r r' b l l' e = blockOf As Ws As r r' b l l' e

/-- Shape of a site tensor of the engine. -/
structure Sq (D d : ℕ) (A : Ten ℂ) : Prop where
  l : A.l = D
  r : A.r = D
  d : A.d = d

theorem one_linked {D D' : ℕ} {A : Ten ℂ} (hl : A.l = D) (hr : A.r = D') : Linked D [A] D' := ⟨hl, hr⟩

theorem one_mlinked {B B' : ℕ} {W : Mpo ℂ} (hl : W.l = B) (hr : W.r = B') : MLinked B [W] B' := ⟨hl, hr⟩

theorem linked_replicate {D : ℕ} {A : Ten ℂ} (hl : A.l = D) (hr : A.r = D) (n : ℕ) :
    Linked D (List.replicate n A) D := by
  induction n with
  | zero => rfl
  | succ n ih => exact ⟨hl, by rw [hr]; exact ih⟩

theorem mlinked_replicate {B : ℕ} {W : Mpo ℂ} (hl : W.l = B) (hr : W.r = B) (n : ℕ) :
    MLinked B (List.replicate n W) B := by
  induction n with
  | zero => rfl
  | succ n ih => exact ⟨hl, by rw [hr]; exact ih⟩

theorem hbla_init {D d B : ℕ} {A : Ten ℂ} {W : Mpo ℂ} (hA : Sq D d A) (hl : W.l = B) (hr : W.r = B) (hi : W.din = d)
    (ho : W.dout = d) : ∃ H, hblaInit A W = .ok H ∧ IsBlk D B H [A] [W] := by
  refine ⟨_, if_pos ⟨by rw [hA.d, hi], by rw [hA.d, ho]⟩, hA.r, hA.r, hr, hA.l, hA.l, hl, ?_⟩
  intro r hr1 r' hr' b hb l _ l' _ e _
  rw [blockOf_single (by rw [hA.r]; exact hr1) (by rw [hA.r]; exact hr') (by rw [hr]; exact hb)]

theorem hbla_step {D d B : ℕ} {A : Ten ℂ} {W : Mpo ℂ} {H : Six} {As : List (Ten ℂ)} {Ws : List (Mpo ℂ)} (hA : Sq D d A)
    (hl : W.l = B) (hr : W.r = B) (hi : W.din = d) (ho : W.dout = d) (hH : IsBlk D B H As Ws) :
    ∃ H', hblaStep A W H = .ok H' ∧ IsBlk D B H' (A :: As) (W :: Ws) := by
  refine ⟨_, if_pos ⟨by rw [hH.l, hA.r], by rw [hH.e, hr], by rw [hA.d, hi], by rw [hA.d, ho], by rw [hH.l', hA.r]⟩,
    hH.r, hH.r', hH.b, hA.l, hA.l, hl, ?_⟩
  intro r hr1 r' hr' b hb l hl1 l' hl' e he
  rw [show A :: As = [A] ++ As from rfl, show W :: Ws = [W] ++ Ws from rfl,
    blockOf_append (l0 := D) (l0' := D) (e0 := B) (m := D) (m' := D) (c := B) (one_linked hA.l hA.r) (one_linked hA.l hA.r) (one_mlinked hl hr)
      rfl rfl
      hl1 hl' he]
  simp only [hH.l, hH.l', hH.e]
  refine sum_congr rfl fun q hq => sum_congr rfl fun q' hq' => sum_congr rfl fun c hc => ?_
  rw [mem_range] at hq hq' hc
  rw [blockOf_single (by rw [hA.r]; exact hq) (by rw [hA.r]; exact hq') (by rw [hr]; exact hc), sum_mul,
    ← hH.v r hr1 r' hr' b hb q hq q' hq' c hc]
  refine sum_congr rfl fun s _ => ?_
  rw [sum_mul]
  refine sum_congr rfl fun t _ => by ring

theorem hbla_loop {D d B : ℕ} {A : Ten ℂ} {W : Mpo ℂ} (hA : Sq D d A) (hl : W.l = B) (hr : W.r = B) (hi : W.din = d)
    (ho : W.dout = d) : ∀ (n m : ℕ) (H : Six), IsBlk D B H (List.replicate m A) (List.replicate m W) →
    ∃ H', hblaLoop A W n H = .ok H' ∧ IsBlk D B H' (List.replicate (m + n) A) (List.replicate (m + n) W)
  | 0, m, H, h => ⟨H, rfl, h⟩
  | n + 1, m, H, h => by
    obtain ⟨H1, e1, h1⟩ := hbla_step hA hl hr hi ho h
    obtain ⟨H2, e2, h2⟩ := hbla_loop hA hl hr hi ho n (m + 1) H1 h1
    refine ⟨H2, by simp only [hblaLoop, e1, e2], ?_⟩
    rw [show m + (n + 1) = m + 1 + n by omega]
    exact h2

/-- `E` is the block of the sites `As` with the operators `Ws`, whose outer MPO bonds are trivial. -/
structure IsBlk4 (D : ℕ) (E : Four) (As : List (Ten ℂ)) (Ws : List (Mpo ℂ)) : Prop where
  r : E.r = D
  r' : E.r' = D
  l : E.l = D
  l' : E.l' = D
  v : ∀ r < D, ∀ r' < D, ∀ l < D, ∀ l' < D, E.v r r' l l' = blockOf As Ws As r r' 0 l l' 0

theorem eye_single {D d : ℕ} {A : Ten ℂ} (hA : Sq D d A) {r r' : ℕ} (hr : r < D) (hr' : r' < D) (l l' : ℕ) :
    blockOf [A] [eyeMpo d] [A] r r' 0 l l' 0 = ∑ s ∈ range d, A.v l r s * star (A.v l' r' s) := by
  rw [blockOf_single (by rw [hA.r]; exact hr) (by rw [hA.r]; exact hr') (by simp [eyeMpo]), hA.d]
  refine sum_congr rfl fun s hs => ?_
  simp only [eyeMpo]
  rw [← sum_delta_left (mem_range.mp hs) fun t => A.v l r s * star (A.v l' r' t)]
  refine sum_congr rfl fun t _ => by ring

theorem transfer_ok {D d : ℕ} {A : Ten ℂ} (hA : Sq D d A) : IsBlk4 D (transfer A) [A] [eyeMpo d] := by
  refine ⟨hA.r, hA.r, hA.l, hA.l, fun r hr r' hr' l _ l' _ => ?_⟩
  rw [eye_single hA hr hr']
  simp only [transfer, hA.d]

theorem transfer_step {D d : ℕ} {A : Ten ℂ} {E : Four} {As : List (Ten ℂ)} {Ws : List (Mpo ℂ)} (hA : Sq D d A)
    (hE : IsBlk4 D E As Ws) : ∃ E', transferStep A E = .ok E' ∧ IsBlk4 D E' (A :: As) (eyeMpo d :: Ws) := by
  refine ⟨_, if_pos ⟨by rw [hE.l, hA.r], by rw [hE.l', hA.r]⟩, hE.r, hE.r', hA.l, hA.l, ?_⟩
  intro r hr r' hr' l hl l' hl'
  rw [show A :: As = [A] ++ As from rfl, show eyeMpo d :: Ws = [eyeMpo d] ++ Ws from rfl,
    blockOf_append (l0 := D) (l0' := D) (e0 := 1) (m := D) (m' := D) (c := 1) (one_linked hA.l hA.r) (one_linked hA.l hA.r) (one_mlinked rfl rfl)
      rfl rfl
      hl hl' (by omega)]
  simp only [hE.l, hE.l', sum_range_one, hA.d]
  refine sum_congr rfl fun q hq => sum_congr rfl fun q' hq' => ?_
  rw [mem_range] at hq hq'
  rw [eye_single hA hq hq', sum_mul, ← hE.v r hr r' hr' q hq q' hq']
  refine sum_congr rfl fun s _ => by ring

theorem pow_loop {D d : ℕ} {A : Ten ℂ} (hA : Sq D d A) : ∀ (n m : ℕ) (E : Four),
    IsBlk4 D E (List.replicate m A) (List.replicate m (eyeMpo d)) →
    ∃ E', powLoop A n E = .ok E' ∧ IsBlk4 D E' (List.replicate (m + n) A) (List.replicate (m + n) (eyeMpo d))
  | 0, m, E, h => ⟨E, rfl, h⟩
  | n + 1, m, E, h => by
    obtain ⟨E1, e1, h1⟩ := transfer_step hA h
    obtain ⟨E2, e2, h2⟩ := pow_loop hA n (m + 1) E1 h1
    refine ⟨E2, by simp only [powLoop, e1, e2], ?_⟩
    rw [show m + (n + 1) = m + 1 + n by omega]
    exact h2

theorem empty_pow {D d : ℕ} {A : Ten ℂ} (hA : Sq D d A) {n : ℕ} (hn : 1 ≤ n) :
    ∃ E, emptyPow A n = .ok E ∧ IsBlk4 D E (List.replicate n A) (List.replicate n (eyeMpo d)) := by
  have := pow_loop hA (n - 1) 1 _ (transfer_ok hA)
  rwa [show 1 + (n - 1) = n by omega] at this

theorem reorder2 {n₁ n₂ n₃ n₄ n₅ n₆ n₇ n₈ : ℕ} (F : ℕ → ℕ → ℕ → ℕ → ℕ → ℕ → ℕ → ℕ → ℂ) :
    ∑ i ∈ range n₁, ∑ s ∈ range n₂, ∑ t ∈ range n₃, ∑ i' ∈ range n₄, ∑ j ∈ range n₅, ∑ x ∈ range n₆,
      ∑ y ∈ range n₇, ∑ j' ∈ range n₈, F i s t i' j x y j'
    = ∑ j ∈ range n₅, ∑ j' ∈ range n₈, ∑ x ∈ range n₆, ∑ y ∈ range n₇, ∑ i ∈ range n₁, ∑ i' ∈ range n₄,
      ∑ s ∈ range n₂, ∑ t ∈ range n₃, F i s t i' j x y j' := by
  have h := Finset.sum_nbij' (s := range n₁ ×ˢ range n₂ ×ˢ range n₃ ×ˢ range n₄ ×ˢ range n₅ ×ˢ range n₆ ×ˢ range n₇ ×ˢ
      range n₈)
    (t := range n₅ ×ˢ range n₈ ×ˢ range n₆ ×ˢ range n₇ ×ˢ range n₁ ×ˢ range n₄ ×ˢ range n₂ ×ˢ range n₃)
    (f := fun (i, s, t, i', j, x, y, j') => F i s t i' j x y j')
    (g := fun (j, j', x, y, i, i', s, t) => F i s t i' j x y j')
    (fun (i, s, t, i', j, x, y, j') => (j, j', x, y, i, i', s, t))
    (fun (j, j', x, y, i, i', s, t) => (i, s, t, i', j, x, y, j'))
    (by simp; tauto) (by simp; tauto) (by simp) (by simp) (by simp)
  simpa only [Finset.sum_product] using h

/-- The sites and operators in `Heffsite`: the closing column at the left end, the opening row at the right end. -/
theorem heff_site {D d B n : ℕ} {A : Ten ℂ} {W0 W2 : Mpo ℂ} {T : Four} (hA : Sq D d A) (h0l : W0.l = 1) (h0r : W0.r = B)
    (h0i : W0.din = d) (h0o : W0.dout = d) (h2l : W2.l = B) (h2r : W2.r = 1) (h2i : W2.din = d) (h2o : W2.dout = d)
    (hT : IsBlk4 D T (List.replicate n A) (List.replicate n (eyeMpo d))) :
    ∃ H, heffSite A W0 W2 T = .ok H ∧ IsBlk D B H ([A] ++ (List.replicate n A ++ [A]))
      ([W2] ++ (List.replicate n (eyeMpo d) ++ [W0])) := by
  refine ⟨_, if_pos ⟨by rw [hT.r, hA.l], by rw [hT.r', hA.l], by rw [hT.l, hA.r], by rw [hT.l', hA.r], by rw [h0l, h2r],
    by rw [hA.d, h0i], by rw [hA.d, h0o], by rw [hA.d, h2i], by rw [hA.d, h2o]⟩, hA.r, hA.r, h0r, hA.l, hA.l, h2l, ?_⟩
  intro r hr r' hr' b hb l hl l' hl' e he
  rw [blockOf_append (m := D) (m' := D) (one_linked hA.l hA.r) (one_linked hA.l hA.r) (one_mlinked h2l h2r) rfl rfl hl hl' he]
  simp only [hT.r, hT.r', hT.l, hT.l', h0l, sum_range_one, hA.d]
  rw [reorder2]
  refine sum_congr rfl fun j hj => sum_congr rfl fun j' hj' => ?_
  rw [mem_range] at hj hj'
  rw [blockOf_append (linked_replicate hA.l hA.r n) (linked_replicate hA.l hA.r n) (mlinked_replicate rfl rfl n) (by simp)
    (by simp) hj hj' (show 0 < (eyeMpo d).l by simp [eyeMpo]),
    blockOf_single (by rw [hA.r]; exact hj) (by rw [hA.r]; exact hj') (by rw [h2r]; omega), hA.d, sum_mul]
  refine sum_congr rfl fun x _ => ?_
  rw [sum_mul]
  refine sum_congr rfl fun y _ => ?_
  rw [mul_sum]
  refine sum_congr rfl fun i hi => ?_
  rw [mul_sum]
  refine sum_congr rfl fun i' hi' => ?_
  rw [mem_range] at hi hi'
  rw [show (eyeMpo d).l = 1 from rfl, sum_range_one, ← hT.v i hi i' hi' j hj j' hj',
    blockOf_single (by rw [hA.r]; exact hr) (by rw [hA.r]; exact hr') (by rw [h0r]; exact hb), hA.d]
  simp only [mul_sum]
  refine sum_congr rfl fun s _ => sum_congr rfl fun t _ => by ring

/-- A block with open ends, followed by one more site whose operator closes the MPO bond. -/
theorem bond_block {D d B E : ℕ} {As : List (Ten ℂ)} {Ws : List (Mpo ℂ)} {A : Ten ℂ} {W : Mpo ℂ} (hA : Sq D d A)
    (hAs : Linked D As D) (hW : MLinked E Ws B) (h1 : As.length = Ws.length) (hWr : W.r = E) {r r' l l' : ℕ}
    (hr : r < D) (hr' : r' < D) (hl : l < D) (hl' : l' < D) :
    ∑ i ∈ range D, ∑ s ∈ range d, ∑ b ∈ range B, ∑ t ∈ range d, ∑ i' ∈ range D, ∑ e ∈ range E,
      blockOf As Ws As i i' b l l' e * A.v i r s * W.v b e s t * star (A.v i' r' t)
    = sumCfg ((As ++ [A]).map Ten.d) fun s => sumCfg ((As ++ [A]).map Ten.d) fun t =>
      chain (As ++ [A]) s l r * (∑ e ∈ range E, mchain (Ws ++ [W]) s t e e) * star (chain (As ++ [A]) t l' r') := by
  have e1 : (sumCfg ((As ++ [A]).map Ten.d) fun s => sumCfg ((As ++ [A]).map Ten.d) fun t =>
      chain (As ++ [A]) s l r * (∑ e ∈ range E, mchain (Ws ++ [W]) s t e e) * star (chain (As ++ [A]) t l' r'))
      = ∑ e ∈ range E, blockOf (As ++ [A]) (Ws ++ [W]) (As ++ [A]) r r' e l l' e := by
    simp only [blockOf, ← sumCfg_sum]
    refine sumCfg_congr fun s _ => sumCfg_congr fun t _ => ?_
    rw [mul_sum, sum_mul]
  rw [e1]
  have e2 : ∀ e ∈ range E, blockOf (As ++ [A]) (Ws ++ [W]) (As ++ [A]) r r' e l l' e
      = ∑ i ∈ range D, ∑ i' ∈ range D, ∑ b ∈ range B, ∑ s ∈ range d, ∑ t ∈ range d,
        blockOf As Ws As i i' b l l' e * A.v i r s * W.v b e s t * star (A.v i' r' t) := by
    intro e he
    rw [blockOf_append hAs hAs hW h1 h1 hl hl' (mem_range.mp he)]
    refine sum_congr rfl fun i _ => sum_congr rfl fun i' _ => sum_congr rfl fun b _ => ?_
    rw [blockOf_single (by rw [hA.r]; exact hr) (by rw [hA.r]; exact hr') (by rw [hWr]; exact mem_range.mp he), hA.d]
    simp only [mul_sum]
    refine sum_congr rfl fun s _ => sum_congr rfl fun t _ => by ring
  rw [sum_congr rfl e2]
  have h := Finset.sum_nbij' (s := range D ×ˢ range d ×ˢ range B ×ˢ range d ×ˢ range D ×ˢ range E)
    (t := range E ×ˢ range D ×ˢ range D ×ˢ range B ×ˢ range d ×ˢ range d)
    (f := fun (i, s, b, t, i', e) => blockOf As Ws As i i' b l l' e * A.v i r s * W.v b e s t * star (A.v i' r' t))
    (g := fun (e, i, i', b, s, t) => blockOf As Ws As i i' b l l' e * A.v i r s * W.v b e s t * star (A.v i' r' t))
    (fun (i, s, b, t, i', e) => (e, i, i', b, s, t)) (fun (e, i, i', b, s, t) => (i, s, b, t, i', e))
    (by simp; tauto) (by simp; tauto) (by simp) (by simp) (by simp)
  simpa only [Finset.sum_product] using h

/-- The operator which picks the open ends `0` on the right and `B-1` on the left of a block. -/
def pick (B d : ℕ) : Mpo ℂ := ⟨B, B, d, d, fun b e s t => if b = 0 ∧ e + 1 = B then delta ℂ s t else 0⟩

theorem pick_sum {B : ℕ} (hB : 0 < B) (d s t : ℕ) (F : ℕ → ℕ → ℂ) :
    ∑ b ∈ range B, ∑ e ∈ range B, F b e * (pick B d).v b e s t = F 0 (B - 1) * delta ℂ s t := by
  rw [sum_eq_single_of_mem 0 (by simpa using hB), sum_eq_single_of_mem (B - 1) (by simp; omega)]
  · simp only [pick, true_and]; rw [if_pos (by omega)]
  · intro e _ h; simp only [pick]; rw [if_neg (by omega), mul_zero]
  · intro b _ h; exact sum_eq_zero fun e _ => by simp only [pick]; rw [if_neg (by tauto), mul_zero]

end PyTeN.Periodic
