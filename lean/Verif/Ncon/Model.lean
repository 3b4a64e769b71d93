import Verif.Engine.Container
import Mathlib.Algebra.BigOperators.Group.List.Lemmas
import Mathlib.Data.List.Sort

/-! # `ncon` (lib/ncon/ncon.py)

Model for numpy arrays and for `check_indices=True` (the default; nothing in the library passes another value).  The inputs
are already normalised to a list of arrays and a list of label lists (lib/ncon/ncon.py:30-39), which is pure reshuffling.
Python sets are duplicate-free lists; the element returned by `set.pop` and the order of `list(set)` are parameters. -/

namespace PyTeN.Ncon
open Finset

/-- A numpy array: shape and entries. -/
structure Arr (K : Type*) where
  /-- shape -/
  shape : List ℕ
  /-- entries -/
  val : List ℕ → K

/-- A tensor of the network with the labels of its legs: the lists `AA` and `v` are always changed in parallel. -/
abbrev Node (K : Type*) := Arr K × List ℤ

/-- The order-dependent operations on Python sets. -/
structure SetOrder where
  /-- `set.pop()` -/
  pop : List ℕ → ℕ
  /-- `list(set)` -/
  lst : List ℤ → List ℤ

/-- Contract: `pop` returns an element, `list` lists every element once. -/
structure SetOrder.Spec (so : SetOrder) : Prop where
  pop_mem : ∀ l, l ≠ [] → so.pop l ∈ l
  lst_perm : ∀ l : List ℤ, l.Nodup → (so.lst l).Perm l

/-! ## Default orders -/

/-- `create_order`, lib/ncon/ncon.py:86-92. -/
def createOrder (v : List (List ℤ)) : List ℤ :=
  ((v.flatten.filter fun i => decide (0 < i)).dedup).mergeSort fun a b => decide (a ≤ b)

/-- `create_forder`, lib/ncon/ncon.py:95-103. -/
def createForder (v : List (List ℤ)) : List ℤ :=
  ((v.flatten.filter fun i => decide (i < 0)).dedup).mergeSort fun a b => decide (b ≤ a)

/-! ## Index check -/

/-- The dimensions of the legs carrying the label `e`, in the order of `v_pairs`, lib/ncon/ncon.py:284-292. -/
def legDims {K : Type*} (net : List (Node K)) (e : ℤ) : List ℕ :=
  net.flatMap fun x => ((x.2.zip x.1.shape).filter fun y => decide (y.1 = e)).map Prod.snd

/-- The test of one contracted label, lib/ncon/ncon.py:293-312: not exactly two legs, or two of different dimensions. -/
def badLegs : List ℕ → Bool
  | [a, b] => decide (a ≠ b)
  | _ => true

/-- `do_check_indices`, lib/ncon/ncon.py:257-321.  All four failures are ValueErrors. -/
def checkIndices {K : Type*} (AA : List (Arr K)) (v : List (List ℤ)) (order forder : List ℤ) : Res Unit :=
  if AA.length ≠ v.length then .error .value
  else if (AA.zip v).any fun x => decide (x.2.length ≠ x.1.shape.length) then .error .value
  else if order.any fun e => badLegs (legDims (AA.zip v) e) then .error .value
  else if forder.any fun e => decide (v.flatten.count e ≠ 1) then .error .value
  else .ok ()

/-! ## Connecting the graph -/

/-- `i_inds.intersection(j_inds)` is non-empty, lib/ncon/ncon.py:129-130. -/
def shares (a b : List ℤ) : Bool := a.any fun e => b.contains e

/-- Inner loop `while to_visit`, lib/ncon/ncon.py:123-133.  `fuel` bounds the number of iterations; running out of
it stands for non-termination (`exit`). -/
def bfs (so : SetOrder) (vs : List (List ℤ)) : ℕ → List ℕ → List ℕ → List ℕ → List ℕ → Res (List ℕ × List ℕ × List ℕ)
  | _, [], unv, vis, comp => .ok (unv, vis, comp)
  | 0, _ :: _, _, _, _ => .error .exit
  | fuel + 1, t :: ts, unv, vis, comp =>
    let i := so.pop (t :: ts)
    let tv := (t :: ts).erase i
    let vis' := vis ++ [i]
    let new := (List.range vs.length).filter fun j =>
      shares (vs.getD i []) (vs.getD j []) && !vis'.contains j && !tv.contains j
    bfs so vs fuel (tv ++ new) (unv.erase i) vis' (comp ++ [i])

/-- Outer loop `while unvisited`, lib/ncon/ncon.py:119-134. -/
def components (so : SetOrder) (vs : List (List ℤ)) : ℕ → List ℕ → List ℕ → List (List ℕ) → Res (List (List ℕ))
  | _, [], _, acc => .ok acc
  | 0, _ :: _, _, _ => .error .exit
  | fuel + 1, u :: us, vis, acc =>
    let r := so.pop (u :: us)
    match bfs so vs vs.length [r] ((u :: us).erase r) vis [] with
    | .error e => .error e
    | .ok (unv, vis', comp) => components so vs fuel unv vis' (acc ++ [comp])

/-- `np.expand_dims(A,axis)` with `axis` the number of axes, lib/ncon/ncon.py:147-154. -/
def Arr.expand {K : Type*} (A : Arr K) : Arr K := ⟨A.shape ++ [1], fun idx => A.val (idx.take A.shape.length)⟩

/-- `max(order)+1`, or 1 if `order` is empty, lib/ncon/ncon.py:155-158. -/
def fresh : List ℤ → ℤ
  | [] => 1
  | a :: l => l.foldl max a + 1

/-- One iteration of the second loop of `connect_graph`, lib/ncon/ncon.py:142-161. -/
def link {K : Type*} (c d : ℕ) (net : List (Node K)) (order : List ℤ) : Res (List (Node K) × List ℤ) :=
  match getE net c with
  | .error e => .error e
  | .ok x =>
    match getE net d with
    | .error e => .error e
    | .ok y =>
      let k := fresh order
      let net1 := net.set c (x.1.expand, x.2 ++ [k])
      let net2 := net1.set d (y.1.expand, (net1.getD d y).2 ++ [k])
      .ok (net2, order ++ [k])

/-- `while ccomponents`, lib/ncon/ncon.py:140-161; the list is given in the order of popping. -/
def linkAll {K : Type*} (so : SetOrder) (c : ℕ) : List (List ℕ) → List (Node K) → List ℤ → Res (List (Node K) × List ℤ)
  | [], net, order => .ok (net, order)
  | comp :: cs, net, order =>
    match link c (so.pop comp) net order with
    | .error e => .error e
    | .ok (net', order') => linkAll so c cs net' order'

/-- `connect_graph`, lib/ncon/ncon.py:106-162: returns the changed lists; the argument `order` is the caller's list object,
so that the returned list is also its new content. -/
def connectGraph {K : Type*} (so : SetOrder) (net : List (Node K)) (order : List ℤ) : Res (List (Node K) × List ℤ) :=
  match components so (net.map Prod.snd) net.length (List.range net.length) [] [] with
  | .error e => .error e
  | .ok comps =>
    match comps.reverse with
    | [] => .error .index
    | comp :: cs => linkAll so (so.pop comp) cs net order

/-! ## Contraction loop -/

/-- `get_tcon`, lib/ncon/ncon.py:165-190. -/
def getTcon {K : Type*} (net : List (Node K)) (e : ℤ) : Res (List ℕ) :=
  let tcon := (List.range net.length).filter fun i => ((net[i]?.map fun x => x.2.contains e).getD false)
  match tcon with
  | [] => .error .value
  | [i] => if ((net[i]?.map fun x => x.2.count e).getD 0) = 2 then .ok [i] else .error .value
  | [i, j] => .ok [i, j]
  | _ => .error .value

/-- Positions of the labels of `icon` in `ls`, lib/ncon/ncon.py:208-215. -/
def getPos (ls icon : List ℤ) : List ℕ :=
  icon.flatMap fun e => (List.range ls.length).filter fun i => decide (ls.getD i 0 = e)

/-- Axes not in `pos`. -/
def restAxes (rank : ℕ) (pos : List ℕ) : List ℕ := (List.range rank).filter fun q => !pos.contains q

/-- Index tuple of the full array from the values `ks` on the axes `pos` and `idx` on the other axes. -/
def fullIdx (rank : ℕ) (pos : List ℕ) (ks idx : List ℕ) : List ℕ :=
  (List.range rank).map fun q =>
    if q ∈ pos then ks.getD (pos.idxOf q) 0 else idx.getD ((restAxes rank pos).idxOf q) 0

/-- Sum over all index tuples of the given dimensions. -/
def sumIdx {K : Type*} [AddCommMonoid K] : List ℕ → (List ℕ → K) → K
  | [], f => f []
  | n :: ns, f => ∑ i ∈ range n, sumIdx ns fun ks => f (i :: ks)

/-- `A.trace(axis1=pos1[0],axis2=pos1[1])`, lib/ncon/ncon.py:65, 323-324. -/
def trace {K : Type*} [AddCommMonoid K] (A : Arr K) (p q : ℕ) : Arr K :=
  let rank := A.shape.length
  ⟨(restAxes rank [p, q]).map fun a => A.shape.getD a 0,
   fun idx => ∑ k ∈ range (min (A.shape.getD p 0) (A.shape.getD q 0)), A.val (fullIdx rank [p, q] [k, k] idx)⟩

/-- `np.tensordot(A,B,(pos1,pos2))`, lib/ncon/ncon.py:68, 315-319: ValueError if the contracted shapes differ. -/
def tensordot {K : Type*} [CommSemiring K] (A B : Arr K) (pos1 pos2 : List ℕ) : Res (Arr K) :=
  let r1 := A.shape.length
  let r2 := B.shape.length
  if pos1.map (fun a => A.shape.getD a 0) = pos2.map fun a => B.shape.getD a 0 then
    .ok ⟨((restAxes r1 pos1).map fun a => A.shape.getD a 0) ++ (restAxes r2 pos2).map fun a => B.shape.getD a 0,
      fun idx => sumIdx (pos1.map fun a => A.shape.getD a 0) fun ks =>
        A.val (fullIdx r1 pos1 ks (idx.take (restAxes r1 pos1).length)) *
          B.val (fullIdx r2 pos2 ks (idx.drop (restAxes r1 pos1).length))⟩
  else .error .value

/-- One iteration of the loop, lib/ncon/ncon.py:52-78: the new lists and the new order. -/
def contractStep {K : Type*} [CommSemiring K] (so : SetOrder) (net : List (Node K)) (e : ℤ) (order : List ℤ) :
    Res (List (Node K) × List ℤ) :=
  match getTcon net e with
  | .error x => .error x
  | .ok [i] =>
    match getE net i with
    | .error x => .error x
    | .ok (A, ls) =>
      match getPos ls [e] with
      | p :: q :: _ =>
        .ok ((net ++ [(trace A p q, ls.filter fun l => !([e] : List ℤ).contains l)]).eraseIdx i,
          order.filter fun l => !([e] : List ℤ).contains l)
      | _ => .error .index
  | .ok (i :: j :: _) =>
    match getE net i with
    | .error x => .error x
    | .ok (A, ls) =>
      match getE net j with
      | .error x => .error x
      | .ok (B, ms) =>
        let icon := so.lst (ls.dedup.filter fun l => ms.contains l)
        match tensordot A B (getPos ls icon) (getPos ms icon) with
        | .error x => .error x
        | .ok C =>
          .ok (((net ++ [(C, (ls ++ ms).filter fun l => !icon.contains l)]).eraseIdx j).eraseIdx i,
            order.filter fun l => !icon.contains l)
  | .ok [] => .error .index

/-- `while len(order)>0`, lib/ncon/ncon.py:52-78; running out of `fuel` stands for non-termination. -/
def loop {K : Type*} [CommSemiring K] (so : SetOrder) : ℕ → List (Node K) → List ℤ → Res (List (Node K))
  | _, net, [] => .ok net
  | 0, _, _ :: _ => .error .exit
  | fuel + 1, net, e :: order =>
    match contractStep so net e (e :: order) with
    | .error x => .error x
    | .ok (net', order') => loop so fuel net' order'

/-- `permute_final`, lib/ncon/ncon.py:244-254: `list.index` and `transpose` raise ValueErrors. -/
def permuteFinal {K : Type*} (A : Arr K) (v forder : List ℤ) : Res (Arr K) :=
  if forder.all fun f => v.contains f then
    let perm := forder.map fun f => v.idxOf f
    if perm.length = A.shape.length ∧ perm.Nodup then
      .ok ⟨perm.map fun a => A.shape.getD a 0,
        fun idx => A.val ((List.range A.shape.length).map fun q => idx.getD (perm.idxOf q) 0)⟩
    else .error .value
  else .error .value

/-- `ncon(AA,v,order,forder)`, lib/ncon/ncon.py:7-84: the returned array and the final content of the caller's `order`
list (if one was passed). -/
def ncon {K : Type*} [CommSemiring K] (so : SetOrder) (AA : List (Arr K)) (v : List (List ℤ))
    (order : Option (List ℤ) := none) (forder : Option (List ℤ) := none) : Res (Arr K × Option (List ℤ)) :=
  if v = [] then .error .index else
  let order0 := order.getD (createOrder v)
  let forder0 := forder.getD (createForder v)
  match checkIndices AA v order0 forder0 with
  | .error e => .error e
  | .ok () =>
    match connectGraph so (AA.zip v) order0 with
    | .error e => .error e
    | .ok (net, order1) =>
      match loop so order1.length net order1 with
      | .error e => .error e
      | .ok [] => .error .index
      | .ok (x :: _) =>
        match permuteFinal x.1 x.2 forder0 with
        | .error e => .error e
        | .ok R => .ok (R, order.map fun _ => order1)

end PyTeN.Ncon
