import Verif.Engine.Container
import Mathlib.Algebra.Order.Field.Basic
import Mathlib.Data.Sign.Basic

/-! # Grids, brackets and Wick sums (lib/utils/utilities.py) -/

namespace PyTeN.Utils

/-! ## `computedx` -/

/-- The loop body of `computedx`, lib/utils/utilities.py:65-72, for one `n`: `x[n+1]` raises IndexError at the end of the array
(only for an array of length one).  A negative index does not occur. -/
def dxAt {K : Type*} [Field K] (x0 : K) (x : List K) (xN : K) (n : ℕ) : Res K :=
  if n = 0 then
    match getE x 0, getE x 1 with
    | .ok a, .ok b =>
      -- the last `if` overwrites the value when the array has length one, which fails before
      .ok ((b + a) / 2)
    | _, _ => .error .index
  else if n < x.length - 1 then .ok ((x.getD (n + 1) 0 - x.getD (n - 1) 0) / 2)
  else .ok (xN - x0 - (x.getD n 0 + x.getD (n - 1) 0) / 2)

/-- The loop of `computedx`. -/
def dxAll {K : Type*} [Field K] (x0 : K) (x : List K) (xN : K) : List ℕ → Res (List K)
  | [] => .ok []
  | n :: ns =>
    match dxAt x0 x xN n with
    | .error e => .error e
    | .ok d =>
      match dxAll x0 x xN ns with
      | .error e => .error e
      | .ok ds => .ok (d :: ds)

/-- `computedx(x0,x,xN)`, lib/utils/utilities.py:61-75.  The tolerance `1E-12` of the last assertion is the parameter `tol`. -/
def computedx {K : Type*} [Field K] [LinearOrder K] (tol : K) (x0 : K) (x : List K) (xN : K) : Res (List K) :=
  match x with
  | [] => .error .index
  | a :: l =>
    if ¬ x0 ≤ a then .error .assertion
    else if ¬ (a :: l).getLastD 0 ≤ xN then .error .assertion
    else
      match dxAll x0 (a :: l) xN (List.range (a :: l).length) with
      | .error e => .error e
      | .ok ds => if |ds.sum - (xN - x0)| < tol then .ok ds else .error .assertion

/-! ## `placeBraket` -/

/-- `placeBraket(f,a,b,Delta,thresh)`, lib/utils/utilities.py:176-190; running out of `fuel` stands for an endless loop. -/
def placeBraket {K : Type*} [Field K] [LinearOrder K] (f : K → K) (Delta thresh a0 b0 : K) : ℕ → K → K → Res (K × K × Bool)
  | 0, _, _ => .error .exit
  | fuel + 1, a, b =>
    if SignType.sign (f a) ≠ SignType.sign (f b) then .ok (a, b, true)
    else
      let a' := a - Delta
      let b' := b + Delta
      if |a' - a0| > thresh ∨ |b' - b0| > thresh then .ok (a', b', false)
      else placeBraket f Delta thresh a0 b0 fuel a' b'

/-! ## Wick sums -/

/-- `SFwick(Mij,cdag,c)`, lib/utils/utilities.py:40-57: note that `Mij` is read at the positions `n1,n2` and not at the labels
`cdag[n1],c[n2]`, and that all entries equal to `cdag[n1]` are removed.  `Mij` is a function, that is, all labels are assumed to
be in range; `fuel` bounds the recursion depth by the number of labels. -/
def SFwick {K : Type*} [Field K] (M : ℕ → ℕ → K) : ℕ → List ℕ → List ℕ → Res K
  | 0, _, _ => .error .exit
  | fuel + 1, cdag, c =>
    match cdag with
    | [i] =>
      match c with
      | [j] => .ok (M i j)
      | _ => .error .assertion
    | _ =>
      (List.range cdag.length).foldl (fun acc n1 =>
        (List.range c.length).foldl (fun acc n2 =>
          match acc with
          | .error e => .error e
          | .ok s =>
            match SFwick M fuel (cdag.filter fun l => l ≠ cdag.getD n1 0) (c.filter fun l => l ≠ c.getD n2 0) with
            | .error e => .error e
            | .ok w => .ok (s + (-1) ^ ((cdag.length : ℤ) - n1 + n2) * M n1 n2 * w)) acc) (.ok 0)

/-- `SBwick(Mij,cdag,c)`, lib/utils/utilities.py:21-37: no signs at the first level, but the recursion calls the fermionic
`SFwick`. -/
def SBwick {K : Type*} [Field K] (M : ℕ → ℕ → K) (fuel : ℕ) (cdag c : List ℕ) : Res K :=
  match cdag with
  | [i] =>
    match c with
    | [j] => .ok (M i j)
    | _ => .error .assertion
  | _ =>
    (List.range cdag.length).foldl (fun acc n1 =>
      (List.range c.length).foldl (fun acc n2 =>
        match acc with
        | .error e => .error e
        | .ok s =>
          match SFwick M fuel (cdag.filter fun l => l ≠ cdag.getD n1 0) (c.filter fun l => l ≠ c.getD n2 0) with
          | .error e => .error e
          | .ok w => .ok (s + M n1 n2 * w)) acc) (.ok 0)

end PyTeN.Utils
