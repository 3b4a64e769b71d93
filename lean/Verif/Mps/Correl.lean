import Verif.Mps.Measure
import Verif.Props.Measure

/-! # Multi-point correlation functions and matrix elements: model -/

namespace PyTeN
open Finset

noncomputable section

/-! ## `MPS.measure` -/

/-- `A.dot(B)` of two matrices. -/
def Mat.dotR (A B : Mat ℂ) : Res (Mat ℂ) :=
  if A.c = B.r then .ok ⟨A.r, B.c, fun i j => ∑ k ∈ range A.c, A.v i k * B.v k j⟩ else .error .value

/-- `self[n]` inside `__measure__`: AssertionError outside of the chain (lib/mpslib/mps.py:336-339). -/
def itemA (ts : List (Ten ℂ)) (n : ℕ) : Res (Ten ℂ) :=
  match ts[n]? with
  | some t => .ok t
  | none => .error .assertion

/-- Inner `while` of `__measure__`, lib/mpslib/mps.py:935-938: multiplies the operators living on `site`.
The lists are the entries from index `n` on; returned are `op`, `par==1`, `n` and the remaining entries. -/
def measGroup (site : ℕ) : List ℕ → List (Mat ℂ) → Mat ℂ → Bool → ℕ →
    Res (Mat ℂ × Bool × ℕ × List ℕ × List (Mat ℂ))
  | [], os, op, par, n => .ok (op, par, n, [], os)
  | x :: xs, os, op, par, n =>
    if x = site then
      match os with
      | [] => .error .index
      | o :: os' =>
        match op.dotR o with
        | .error e => .error e
        | .ok op' => measGroup site xs os' op' (!par) (n + 1)
    else .ok (op, par, n, x :: xs, os)

/-- Loop over the sites between two operators, lib/mpslib/mps.py:948-952 (over the list of sites `k..`). -/
def measBetween (ts : List (Ten ℂ)) (P : Option (List (Mat ℂ))) (par : Bool) : List ℕ → Env ℂ → Res (Env ℂ)
  | [], L => .ok L
  | k :: ks, L =>
    match itemA ts k with
    | .error e => .error e
    | .ok t =>
      match P, par with
      | some p, true =>
        match p[k]? with
        | none => .error .index
        | some Pk =>
          match addLayerR L t Pk.mpo t with
          | .error e => .error e
          | .ok L' => measBetween ts P par ks L'
      | _, _ =>
        match addELayerR L t t with
        | .error e => .error e
        | .ok L' => measBetween ts P par ks L'

/-- Outer `while` of `__measure__`, lib/mpslib/mps.py:931-953.  `s` is the Python variable `s`; the lists
are the entries from `s` on.  Every round consumes at least one entry, `fuel` is the number of entries. -/
def measLoop (ts : List (Ten ℂ)) (P : Option (List (Mat ℂ))) : ℕ → ℕ → List ℕ → List (Mat ℂ) → Bool → Env ℂ →
    Res (Env ℂ)
  | 0, _, _, _, _, L => .ok L
  | _ + 1, _, [], _, _, L => .ok L
  | fuel + 1, s, x :: xs, os, par, L =>
    match itemA ts s with
    | .error e => .error e
    | .ok t =>
      match measGroup x (x :: xs) os (eyeK ℂ t.d) par s with
      | .error e => .error e
      | .ok (op, par', n, rest, os') =>
        let mpo : Res (Mat ℂ) := match P, par' with
          | some p, true =>
            match p[x]? with
            | none => .error .index
            | some Px => op.dotR Px
          | _, _ => .ok op
        match mpo with
        | .error e => .error e
        | .ok w =>
          match itemA ts x with
          | .error e => .error e
          | .ok tx =>
            match addLayerR L tx w.mpo tx with
            | .error e => .error e
            | .ok L1 =>
              match rest with
              | [] => .ok L1
              | y :: _ =>
                match measBetween ts P par' (List.range' (x + 1) (y - (x + 1))) L1 with
                | .error e => .error e
                | .ok L2 => measLoop ts P fuel n rest os' par' L2

/-- Final contraction `ncon([L,mat,conj(mat),R],[[1,2,3],[1,4],[2,5],[4,5,3]])` with `R` the identity of
dimension `D`, lib/mpslib/mps.py:957-964. -/
def measFinal (L : Env ℂ) (M : Mat ℂ) (D : ℕ) : Res ℂ :=
  if L.u = M.r ∧ L.w = M.r ∧ M.c = D ∧ L.m = 1 then
    .ok (∑ a ∈ range M.r, ∑ b ∈ range M.r, ∑ e ∈ range M.c, ∑ f ∈ range M.c,
      L.v a b 0 * M.v a e * star (M.v b f) * delta ℂ e f)
  else .error .value

/-- The start block of `__measure__`, lib/mpslib/mps.py:922-929, with `par==1` as a Boolean and `x` the first
site.  The two-index arrays `P[n]` passed to `addLayer` in line 929 raise IndexError as soon as that loop is
entered. -/
def measStart (ts : List (Ten ℂ)) (P : Option (List (Mat ℂ))) (par : Bool) (x : ℕ) : Res (Env ℂ) :=
  if par = false ∨ P = none then
    match itemA ts x with
    | .error e => .error e
    | .ok t => .ok (eyeEnv t.l)
  else match itemA ts 0 with
    | .error e => .error e
    | .ok t => if x - 1 = 0 then .ok (eyeEnv t.l) else .error .index

/-- `MPS.measure(ops,sites,P)`, lib/mpslib/mps.py:885-964, for a list of non-negative sites: the value and the
object afterwards (the position is *not* restored). -/
def MPS.measure (O : LinAlg) (m : MPS) (ops : List (Mat ℂ)) (sites : List ℕ) (P : Option (List (Mat ℂ))) :
    Res (ℂ × MPS) :=
  if (P.map List.length).getD m.tensors.length ≠ m.tensors.length then .error .assertion
  else if ¬ sites.Pairwise (· ≤ ·) then .error .exit
  else match sites, sites.getLast? with
    | x :: xs, some last =>
      match m.position O ((last : ℤ) + 1) with
      | .error e => .error e
      | .ok m1 =>
        let par := ops.length % 2 == 1
        match measStart m1.tensors P par x with
        | .error e => .error e
        | .ok L =>
          match measLoop m1.tensors P (x :: xs).length 0 (x :: xs) ops par L with
          | .error e => .error e
          | .ok L' =>
            match itemA m1.tensors last with
            | .error e => .error e
            | .ok t =>
              match measFinal L' m1.mat t.r with
              | .error e => .error e
              | .ok c => .ok (c * m1.Z * star m1.Z, m1)
    | _, _ => .error .index

/-! ## Specification -/

/-- Matrix product of two `d×d` matrices. -/
def mulD (d : ℕ) (A B : ℕ → ℕ → ℂ) : ℕ → ℕ → ℂ := fun s t => ∑ k ∈ range d, A s k * B k t

/-- Spec: the factor of an operator string on site `k` (of dimension `d`): in the order of the list, an
operator living on site `k` contributes itself, an operator living further right its string operator
`Pk`, an operator living further left nothing. -/
def stringAt (d k : ℕ) (Pk : ℕ → ℕ → ℂ) : List (ℕ × Mat ℂ) → ℕ → ℕ → ℂ
  | [] => delta ℂ
  | (x, o) :: rest =>
    if x = k then mulD d o.v (stringAt d k Pk rest)
    else if k < x then mulD d Pk (stringAt d k Pk rest)
    else stringAt d k Pk rest

/-- The string operator on site `k`; the identity if no strings are given. -/
def strP (P : Option (List (Mat ℂ))) (k : ℕ) : ℕ → ℕ → ℂ :=
  match P with
  | none => delta ℂ
  | some p => (p.getD k ⟨0, 0, fun _ _ => 0⟩).v

/-- Spec: the whole operator string as one operator per site. -/
def stringOps (ds : List ℕ) (P : Option (List (Mat ℂ))) (l : List (ℕ × Mat ℂ)) : List (Mat ℂ) :=
  ds.mapIdx fun k d => ⟨d, d, stringAt d k (strP P k) l⟩

/-! ## `matrixElementLocal` and `measure` of mpsfunctions -/

/-- The blocks `R` of `matrixElementLocal`, lib/mpslib/mpsfunctions.py:502-504, listed from the left end:
entry `n` contains the sites `n..N-1` (the Python list in reverse order). -/
def eblocks : List (Ten ℂ) → List (Ten ℂ) → Env ℂ → Res (List (Env ℂ))
  | A :: As, B :: Bs, rb =>
    match eblocks As Bs rb with
    | .error e => .error e
    | .ok [] => .error .index
    | .ok (R :: Rs) =>
      match addELayerL R A B with
      | .error e => .error e
      | .ok R' => .ok (R' :: R :: Rs)
  | _, _, rb => .ok [rb]

/-- `np.tensordot(L,R,([0,1,2],[0,1,2]))`. -/
def Env.pairR (L R : Env ℂ) : Res ℂ :=
  if L.u = R.u ∧ L.w = R.w ∧ L.m = R.m then .ok (L.pair R) else .error .value

/-- Loop of `matrixElementLocal`, lib/mpslib/mpsfunctions.py:505-515; `Rs` starts with the block to the right
of the first site. -/
def meLoop : List (Ten ℂ) → List (Ten ℂ) → List (Mat ℂ) → List (Env ℂ) → Env ℂ → Res (List ℂ)
  | A :: As, B :: Bs, o :: os, R :: Rs, L0 =>
    match addLayerR L0 A o.mpo B with
    | .error e => .error e
    | .ok Lm =>
      match Lm.pairR R with
      | .error e => .error e
      | .ok c =>
        if As = [] then .ok [c]
        else match addELayerR L0 A B with
          | .error e => .error e
          | .ok L1 =>
            match meLoop As Bs os Rs L1 with
            | .error e => .error e
            | .ok l => .ok (c :: l)
  | _, _, _, _, _ => .error .index

/-- `matrixElementLocal(mps1,mps2,operators,lb,rb)`, lib/mpslib/mpsfunctions.py:478-516. -/
def matrixElementLocal (ts1 ts2 : List (Ten ℂ)) (ops : List (Mat ℂ)) (lb rb : Env ℂ) : Res (List ℂ) :=
  if ts1 = [] ∨ ts2 = [] then .error .index
  else if ts1.length ≠ ts2.length then .error .value
  else if ts1.length ≠ ops.length then .error .value
  else match eblocks ts1 ts2 rb with
    | .error e => .error e
    | .ok Rs => meLoop ts1 ts2 ops Rs.tail lb

/-- `MPS.__measureMatrixElementList__(mps,ops)`, lib/mpslib/mps.py:827-848 with `lb=rb=None`. -/
def MPS.matrixElements (O : LinAlg) (m1 m2 : MPS) (ops : List (Mat ℂ)) : Res (Option (List ℂ) × MPS × MPS) :=
  if m1.obc = false then .ok (none, m1, m2)
  else match m1.position O 0 with
    | .error e => .error e
    | .ok n1 =>
      match m2.position O 0 with
      | .error e => .error e
      | .ok n2 =>
        match matrixElementLocal n1.tensors n2.tensors ops oneEnv oneEnv with
        | .error e => .error e
        | .ok L =>
          match n1.position O m1.pos with
          | .error e => .error e
          | .ok p1 =>
            match n2.position O m2.pos with
            | .error e => .error e
            | .ok p2 => .ok (some (L.map fun x => x * n1.mat.v 0 0 * star (n2.mat.v 0 0)), p1, p2)

/-- `MPS.measureMatrixElementList(mps,ops)`, lib/mpslib/mps.py:814-824: the wrapper has no `return`, so the
value is `None` (`Unit`). -/
def MPS.measureMatrixElementList (O : LinAlg) (m1 m2 : MPS) (ops : List (Mat ℂ)) : Res (Unit × MPS × MPS) :=
  match m1.matrixElements O m2 ops with
  | .error e => .error e
  | .ok (_, p1, p2) => .ok ((), p1, p2)

/-- `np.tensordot(L,R,([0,1],[0,1]))[0,0]`. -/
def Env.pair00 (L R : Env ℂ) : Res ℂ :=
  if L.u = R.u ∧ L.w = R.w then
    if 0 < L.m ∧ 0 < R.m then .ok (∑ a ∈ range L.u, ∑ b ∈ range L.w, L.v a b 0 * R.v a b 0) else .error .index
  else .error .value

/-- `mf.measure(operator,lb,rb,mps,site)`, lib/mpslib/mpsfunctions.py:519-542, for an operator in MPO format with
bond dimension one and `0 ≤ site`. -/
def mfMeasure (op : Mat ℂ) (lb rb : Env ℂ) (ts : List (Ten ℂ)) (site : ℕ) : Res ℂ :=
  match elayersR ts ts (List.range' 0 site) lb with
  | .error e => .error e
  | .ok L =>
    match elayersL ts ts (List.range' (site + 1) (ts.length - (site + 1))).reverse rb with
    | .error e => .error e
    | .ok R =>
      match ts[site]? with
      | none => .error .index
      | some t =>
        match addELayerR L t t with
        | .error e => .error e
        | .ok Ln =>
          match addLayerR L t op.mpo t with
          | .error e => .error e
          | .ok Lm =>
            match Lm.pair00 R, Ln.pair00 R with
            | .ok a, .ok b => if b = 0 then .error .nan else .ok (a / b)
            | .error e, _ => .error e
            | _, .error e => .error e

end

end PyTeN
