import Verif.Utils.Grid
import Mathlib.Data.Real.Basic
import Mathlib.Data.Sign.Basic

/-! # `bisection` -/

namespace PyTeN.Utils

/-! ## Model of the two functions called `bisection` in lib/utils/utilities.py -/

noncomputable section

/-- The loop of `bisection(fun,a,b,tol,maxit)`, lib/utils/utilities.py:165-173; the first argument is `maxit-it`.  Falling off the end
returns None. -/
def bisectLoop (f : ℝ → ℝ) (tol : ℝ) : ℕ → ℝ → ℝ → Option ℝ
  | 0, _, _ => none
  | n + 1, a, b =>
    let c := (a + b) / 2
    if f c = 0 ∨ (b - a) / 2 < tol then some c
    else if SignType.sign (f c) = SignType.sign (f a) then bisectLoop f tol n c b
    else bisectLoop f tol n a c

/-- `bisection(fun,a,b,tol,maxit)`, lib/utils/utilities.py:157-173, the first of the two functions of this name. -/
def bisectRoot (f : ℝ → ℝ) (a b tol : ℝ) (maxit : ℕ) : Res (Option ℝ) :=
  if f a = 0 then .ok (some a)
  else if f b = 0 then .ok (some b)
  else if ¬ a < b then .error .assertion
  else if ¬ ((f a < 0 ∧ 0 < f b) ∨ (0 < f a ∧ f b < 0)) then .error .assertion
  else .ok (bisectLoop f tol maxit a b)

/-- An index of a slice, which is an integer or a float. -/
inductive PyIx
  | int (n : ℕ)
  | float (x : ℝ)

/-- `x/y` with two integers, Python 3: a float. -/
def trueDiv (x y : ℕ) : PyIx := .float ((x : ℝ) / y)

/-- `x/y` with two integers, Python 2: an integer. -/
def intDiv (x y : ℕ) : PyIx := .int (x / y)

/-- `g[0:i]`: floats are not accepted. -/
def sliceTo (g : List ℝ) : PyIx → Res (List ℝ)
  | .int n => .ok (g.take n)
  | .float _ => .error .type

/-- `g[i::]`. -/
def sliceFrom (g : List ℝ) : PyIx → Res (List ℝ)
  | .int n => .ok (g.drop n)
  | .float _ => .error .type

/-- The loop of `bisection(grid,position)`, lib/utils/utilities.py:642-657; `div` is the division `/`, running out of fuel stands for an
endless loop. -/
def bisectGrid (div : ℕ → ℕ → PyIx) (grid : List ℝ) (x : ℝ) : ℕ → List ℝ → Res (ℕ × ℕ)
  | 0, _ => .error .exit
  | fuel + 1, g =>
    match sliceTo g (div (g.length - g.length % 2) 2), sliceFrom g (div (g.length - g.length % 2) 2) with
    | .ok lg, .ok rg =>
      match lg.getLast?, rg.head? with
      | some p, some q =>
        if p ≤ x ∧ x ≤ q then .ok (grid.idxOf p, grid.idxOf q)
        else
          -- the two `if` statements: the second one sees the arrays of the first
          bisectGrid div grid x fuel (if q < x then rg else if x < p then lg else g)
      | _, _ => .error .index
    | .error e, _ => .error e
    | _, .error e => .error e

/-- The names of the parameters of a function and the number of those without default. -/
structure PySig where
  params : List String
  required : ℕ

/-- Whether a call with `npos` positional arguments and the keywords `kws` is accepted; otherwise Python raises a TypeError. -/
def PySig.accepts (s : PySig) (npos : ℕ) (kws : List String) : Bool :=
  npos ≤ s.params.length && kws.all (fun k => (s.params.drop npos).contains k) &&
    ((s.params.take s.required).drop npos).all (fun k => kws.contains k)

/-- The `def` statements of the module with the name `bisection` in the order in which they are executed, lib/utils/utilities.py:157 and
640. -/
def bisectionDefs : List PySig := [⟨["fun", "a", "b", "tol", "maxit"], 3⟩, ⟨["grid", "position"], 2⟩]

/-- The call `bisection(fun,a,b,tol=tol,maxit=maxit)` as in lib/utils/utilities.py:240: the name stands for the last definition. -/
def callRoot (f : ℝ → ℝ) (a b tol : ℝ) (maxit : ℕ) : Res (Option ℝ) :=
  match bisectionDefs.getLast? with
  | none => .error .name
  | some s => if s.accepts 3 ["tol", "maxit"] then bisectRoot f a b tol maxit else .error .type

/-- The call `bisection(grid,position)`. -/
def callGrid (grid : List ℝ) (x : ℝ) (fuel : ℕ) : Res (ℕ × ℕ) :=
  match bisectionDefs.getLast? with
  | none => .error .name
  | some s => if s.accepts 2 [] then bisectGrid trueDiv grid x fuel grid else .error .type

end

end PyTeN.Utils
