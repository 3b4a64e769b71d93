import Verif.Basic
import Mathlib.Data.Complex.Basic

/-! # Smoothing of an array of matrices -/

namespace PyTeN.Smooth

noncomputable section

/-- The dtypes which `smoothArray` distinguishes, lib/utils/utilities.py:512, 521. -/
inductive Kind | float | complex | other
  deriving DecidableEq

/-- The argument `ar` of `smoothArray`, lib/utils/utilities.py:508: an array of shape `(a,b,n)`. -/
structure Arr where
  a : ℕ
  b : ℕ
  n : ℕ
  kind : Kind
  v : ℕ → ℕ → ℕ → ℂ

/-- The type of `savgol_filter(x,window_length,polyorder)`, the first argument being the length of `x`; called in
lib/utils/utilities.py:516, 517, 524. -/
abbrev Filter := ℕ → ℕ → ℕ → (ℕ → ℝ) → Res (ℕ → ℝ)

/-- One pass of the inner loop, lib/utils/utilities.py:515-518, 524-525: the row which is written. -/
def entry (F : Filter) (A : Arr) (w p i j : ℕ) : Res (ℕ → ℂ) :=
  if j < A.b then
    match F A.n w p (fun k => (A.v i j k).re) with
    | .error e => .error e
    | .ok x =>
      if A.kind = .complex then
        match F A.n w p (fun k => (A.v i j k).im) with
        | .error e => .error e
        | .ok y => .ok fun k => x k + Complex.I * y k
      else .ok fun k => x k
  else .error .index

/-- The two loops, lib/utils/utilities.py:513-518, 522-525, over a list of pairs of indices. -/
def loop (F : Filter) (A : Arr) (w p : ℕ) : List (ℕ × ℕ) → (ℕ → ℕ → ℕ → ℂ) → Res (ℕ → ℕ → ℕ → ℂ)
  | [], out => .ok out
  | q :: l, out =>
    match entry F A w p q.1 q.2 with
    | .error e => .error e
    | .ok y => loop F A w p l fun i j k => if i = q.1 ∧ j = q.2 then y k else out i j k

/-- The indices of the two loops: both run to `D=ar.shape[0]`, lib/utils/utilities.py:509, 513-514, 522-523. -/
def pairs (D : ℕ) : List (ℕ × ℕ) := (List.range D).flatMap fun i => (List.range D).map fun j => (i, j)

/-- `smoothArray(ar,window_length,polyorder)`, lib/utils/utilities.py:508-526; `none` is the value `None` which is returned if the dtype is
neither float64 nor complex128. -/
def smoothArray (F : Filter) (A : Arr) (w p : ℕ) : Res (Option Arr) :=
  if A.kind = .other then .ok none
  else
    match loop F A w p (pairs A.a) fun _ _ _ => 0 with
    | .error e => .error e
    | .ok v => .ok (some { A with v := v })

end

end PyTeN.Smooth
