import Verif.Env.Layer
import Mathlib.Analysis.SpecialFunctions.Complex.Circle
import Mathlib.Algebra.Order.Ring.Star

/-! # Transfer operators of infinite systems and `patchmpo` (lib/mpslib/mpsfunctions.py) -/

namespace PyTeN.Transfer
open Finset

/-- One-dimensional `np.ndarray`. -/
structure Vec (K : Type*) where
  n : ℕ
  v : ℕ → K

/-- `direction>0` or `direction<0`.  For `direction=0` the functions return None, which is not modelled. -/
inductive Dir
  | left | right
  deriving DecidableEq

/-- The argument of a transfer operator: an array, an MPS object, or something else. -/
inductive Arg (K : Type*)
  | arr (A : Ten K)
  | mps (ts : List (Ten K))
  | other

section
variable {K : Type*}

/-- `np.reshape(vector,(a,b))`, row major. -/
def reshape2 (x : Vec K) (a b : ℕ) : Res (Mat K) :=
  if x.n = a * b then .ok ⟨a, b, fun i j => x.v (i * b + j)⟩ else .error .value

/-- `np.reshape(matrix,n)`. -/
def flat (M : Mat K) (n : ℕ) : Res (Vec K) :=
  if M.r * M.c = n then .ok ⟨n, fun k => M.v (k / M.c) (k % M.c)⟩ else .error .value

variable [CommRing K] [StarRing K]

/-- The contraction of `MixedTransferOperator`, lib/mpslib/mpsfunctions.py:1566-1574: `U` is the unconjugated, `L` the conjugated
tensor. -/
def mixedArr (dir : Dir) (U L : Ten K) (x : Vec K) : Res (Vec K) :=
  match dir with
  | .right =>
    match reshape2 x U.l L.l with
    | .error e => .error e
    | .ok X =>
      if U.d = L.d then
        flat ⟨U.r, L.r, fun j j' => ∑ i ∈ range U.l, ∑ i' ∈ range L.l, ∑ s ∈ range U.d, X.v i i' * U.v i j s * star (L.v i' j' s)⟩ (L.r * U.r)
      else .error .value
  | .left =>
    match reshape2 x U.r L.r with
    | .error e => .error e
    | .ok X =>
      if U.d = L.d then
        flat ⟨U.l, L.l, fun i i' => ∑ j ∈ range U.r, ∑ j' ∈ range L.r, ∑ s ∈ range U.d, X.v j j' * U.v i j s * star (L.v i' j' s)⟩ (L.l * U.l)
      else .error .value

/-- `MixedTransferOperator(direction,mpsA,mpsB,vector)`, lib/mpslib/mpsfunctions.py:1522-1574.  For MPS objects `len(A)` or
`len(B)` is evaluated, which are not names of the function: NameError. -/
def mixedTransferOperator (dir : Dir) (a b : Arg K) (x : Vec K) : Res (Vec K) :=
  match a, b with
  | .arr U, .arr L => mixedArr dir U L x
  | .mps _, .mps _ => .error .name
  | .mps _, .arr _ => .error .name
  | .arr _, .mps _ => .error .name
  | _, _ => .error .type

/-- `GeneralizedMatrixVectorProduct(direction,A,B,vector)`, lib/mpslib/mpsfunctions.py:1576-1584. -/
def generalizedMatrixVectorProduct (dir : Dir) (A B : Arg K) (x : Vec K) : Res (Vec K) := mixedTransferOperator dir B A x

/-- `TransferOperator(direction,mps,vector)`, lib/mpslib/mpsfunctions.py:1494-1520: the contraction is that of the mixed operator with
the same tensor twice.  For an MPS object `len(A)` is evaluated before `A` is assigned: UnboundLocalError. -/
def transferOperator (dir : Dir) (a : Arg K) (x : Vec K) : Res (Vec K) :=
  match a with
  | .arr A => mixedArr dir A A x
  | .mps _ => .error .unbound
  | .other => .error .type

/-- The loops of `UnitcellTransferOperator`; the tensors are in processing order. -/
def unitLoop (dir : Dir) : List (Ten K) → Vec K → Res (Vec K)
  | [], x => .ok x
  | A :: l, x =>
    match transferOperator dir (.arr A) x with
    | .error e => .error e
    | .ok y => unitLoop dir l y

/-- `UnitcellTransferOperator(direction,mps,vector)`, lib/mpslib/mpsfunctions.py:1631-1645; `mps[0]` fails for an empty cell. -/
def unitcellTransferOperator (dir : Dir) (ts : List (Ten K)) (x : Vec K) : Res (Vec K) :=
  if ts = [] then .error .index
  else match dir with
    | .right => unitLoop .right ts x
    | .left => unitLoop .left ts.reverse x

/-- `MixedUnitcellTransferOperator(direction,Upper,Lower,vector)`, lib/mpslib/mpsfunctions.py:1650-1662: `len(mps1)` is evaluated, but
the parameters have other names. -/
def mixedUnitcellTransferOperator (_ : Dir) (_ _ : List (Ten K)) (_ : Vec K) : Res (Vec K) := .error .name

/-- `np.tensordot(x,r,([0,1],[0,1]))`. -/
def pairMat (x r : Mat K) : Res K :=
  if x.r = r.r ∧ x.c = r.c then .ok (∑ i ∈ range x.r, ∑ j ∈ range x.c, x.v i j * r.v i j) else .error .value

/-- `np.trace(np.transpose(x).dot(r))`; the trace of a rectangular matrix is not needed: the product is square or `dot` fails, as both
matrices come from square ones. -/
def traceDot (x r : Mat K) : Res K :=
  if x.r = r.r ∧ x.c = r.c then .ok (∑ j ∈ range x.c, ∑ i ∈ range x.r, x.v i j * r.v i j) else .error .value

/-- `a+c*b` for arrays of one dimension.  Broadcasting of arrays of length one is not modelled: different lengths give ValueError. -/
def addScaled (a : Vec K) (c : K) (b : Vec K) : Res (Vec K) :=
  if a.n = b.n then .ok ⟨a.n, fun k => a.v k + c * b.v k⟩ else .error .value

/-- `pseudoTransferOperator(A,r,l,direction,vector)`, lib/mpslib/mpsfunctions.py:2549-2570. -/
def pseudoTransferOperator (A : Ten K) (r l : Mat K) (dir : Dir) (x : Vec K) : Res (Vec K) :=
  match reshape2 x A.l A.l with
  | .error e => .error e
  | .ok X =>
    match transferOperator dir (.arr A) x with
    | .error e => .error e
    | .ok y =>
      match (match dir with | .right => pairMat X r | .left => pairMat l X) with
      | .error e => .error e
      | .ok c =>
        match flat (match dir with | .right => l | .left => r) (A.l * A.l) with
        | .error e => .error e
        | .ok f => addScaled y (-c) f

/-- `pseudoUnitcellTransferOperator(direction,mps,ldens,rdens,vector)`, lib/mpslib/mpsfunctions.py:1946-1954. -/
def pseudoUnitcellTransferOperator (dir : Dir) (ts : List (Ten K)) (ldens rdens : List (Mat K)) (x : Vec K) : Res (Vec K) :=
  match ts.head?, ts.getLast?, ldens.head?, ldens.getLast?, rdens.head?, rdens.getLast? with
  | some a, some b, some l0, some l1, some r0, some r1 =>
    let D := match dir with | .right => a.l | .left => b.r
    let Dout := match dir with | .right => b.r | .left => a.l
    match reshape2 x D D with
    | .error e => .error e
    | .ok X =>
      match unitcellTransferOperator dir ts x with
      | .error e => .error e
      | .ok y =>
        match traceDot X (match dir with | .right => r1 | .left => l0) with
        | .error e => .error e
        | .ok c =>
          match flat (match dir with | .right => l1 | .left => r0) (Dout * Dout) with
          | .error e => .error e
          | .ok f => addScaled y (-c) f
  | _, _, _, _, _, _ => .error .index

/-- `OneMinusPseudoUnitcellTransferOperator(direction,mps,ldens,rdens,vector)`, lib/mpslib/mpsfunctions.py:2516-2527. -/
def oneMinusPseudoUnitcell (dir : Dir) (ts : List (Ten K)) (ldens rdens : List (Mat K)) (x : Vec K) : Res (Vec K) :=
  match ts.head?, ts.getLast?, ldens.head?, ldens.getLast?, rdens.head?, rdens.getLast? with
  | some a, some b, some l0, some l1, some r0, some r1 =>
    let D := match dir with | .right => a.l | .left => b.r
    let Dout := match dir with | .right => b.r | .left => a.l
    match reshape2 x D D with
    | .error e => .error e
    | .ok X =>
      match unitcellTransferOperator dir ts x with
      | .error e => .error e
      | .ok y =>
        match addScaled x (-1) y with
        | .error e => .error e
        | .ok z =>
          match (match dir with | .right => pairMat X r1 | .left => pairMat l0 X) with
          | .error e => .error e
          | .ok c =>
            match flat (match dir with | .right => l1 | .left => r0) (Dout * Dout) with
            | .error e => .error e
            | .ok f => addScaled z c f
  | _, _, _, _, _, _ => .error .index

end

/-- `OneMinusPseudoTransferOperator(Upper,Lower,r,l,direction,momentum,vector)`, lib/mpslib/mpsfunctions.py:2532-2546.  The
condition `np.abs(momentum<1E-8)` is the absolute value of a truth value: it holds for every momentum below `1E-8`, also for large
negative ones. -/
noncomputable def oneMinusPseudo (U L : Ten ℂ) (r l : Mat ℂ) (dir : Dir) (momentum : ℝ) (x : Vec ℂ) : Res (Vec ℂ) :=
  let a := match dir with | .right => U.l | .left => U.r
  let b := match dir with | .right => L.l | .left => L.r
  let n := match dir with | .right => U.r * L.r | .left => U.l * L.l
  match reshape2 x a b with
  | .error e => .error e
  | .ok X =>
    match mixedTransferOperator dir (.arr U) (.arr L) x with
    | .error e => .error e
    | .ok y =>
      if momentum < 1e-8 then
        match addScaled x (-1) y with
        | .error e => .error e
        | .ok z =>
          match (match dir with | .right => pairMat X r | .left => pairMat l X) with
          | .error e => .error e
          | .ok c =>
            match flat (match dir with | .right => l | .left => r) n with
            | .error e => .error e
            | .ok f => addScaled z c f
      else addScaled x (-Complex.exp (Complex.I * momentum)) y

/-- The third loop of `patchmpo`: `mpo[n]=temp[n]` for `n` from `0` on, `k` iterations. -/
def writeBack {α : Type*} (temp : List α) : ℕ → ℕ → List α → Res (List α)
  | 0, _, mpo => .ok mpo
  | k + 1, n, mpo =>
    match getT? temp n with
    | .error e => .error e
    | .ok t => writeBack temp k (n + 1) (mpo.set n t)
where
  /-- `temp[n]` -/
  getT? (l : List α) (n : ℕ) : Res α := match l[n]? with
    | some t => .ok t
    | none => .error .index

/-- `mpo[n]` for an integer index: negative ones count from the end. -/
def pyGet {α : Type*} (l : List α) (n : ℤ) : Res α :=
  if 0 ≤ n then (match l[n.toNat]? with | some t => .ok t | none => .error .index)
  else if -(l.length : ℤ) ≤ n then (match l[(n + l.length).toNat]? with | some t => .ok t | none => .error .index)
  else .error .index

/-- `for n in range(a,b): temp.append(np.copy(mpo[n]))`; `k` iterations are left. -/
def collect {α : Type*} (mpo : List α) : ℕ → ℤ → List α → Res (List α)
  | 0, _, temp => .ok temp
  | k + 1, n, temp =>
    match pyGet mpo n with
    | .error e => .error e
    | .ok t => collect mpo k (n + 1) (temp ++ [t])

/-- `patchmpo(mpo,index)`, lib/mpslib/mpsfunctions.py:1740-1749: the new contents of the argument.  `range(a,b)` has
`max(b-a,0)` elements. -/
def patchmpo {α : Type*} (mpo : List α) (index : ℤ) : Res (List α) :=
  match collect mpo ((mpo.length : ℤ) - index).toNat index [] with
  | .error e => .error e
  | .ok t1 =>
    match collect mpo index.toNat 0 t1 with
    | .error e => .error e
    | .ok t2 => writeBack t2 mpo.length 0 mpo

end PyTeN.Transfer
