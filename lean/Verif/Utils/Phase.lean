import Verif.Mps.LinAlg
import Mathlib.Analysis.SpecialFunctions.Trigonometric.Basic

/-! # Matching the phases of singular vectors (lib/utils/utilities.py) -/

namespace PyTeN.Phase
open Finset

noncomputable section

/-- `fun1(U0,U1,V0,V1,phi)`, lib/utils/utilities.py:547-558. -/
def fun1 (U0 U1 V0 V1 : ℂ) (phi : ℝ) : ℝ :=
  let x := U1.re
  let y := U1.im
  let x0 := U0.re
  let y0 := U0.im
  let v := V1.re
  let w := V1.im
  let v0 := V0.re
  let w0 := V0.im
  (x0 - x * Real.cos phi + Real.sin phi * y) ^ 2 + (y0 - y * Real.cos phi - x * Real.sin phi) ^ 2 +
    (v0 - v * Real.cos phi + w * Real.sin phi) ^ 2 + (w0 - w * Real.cos phi - v * Real.sin phi) ^ 2

/-- `fun3(U0,U1,V0,V1,phi)`, lib/utils/utilities.py:566-569, for vectors of lengths `m` and `m'`. -/
def fun3 (m m' : ℕ) (U0 U1 V0 V1 : ℕ → ℂ) (phi : ℝ) : ℝ :=
  let z1 : ℕ → ℂ := fun i => U0 i - Complex.exp (Complex.I * phi) * U1 i
  let z2 : ℕ → ℂ := fun i => V0 i - Complex.exp (-Complex.I * phi) * V1 i
  (∑ i ∈ range m, star (z1 i) * z1 i + ∑ i ∈ range m', star (z2 i) * z2 i).re

/-- `findPhase(diagU0,diagU1,diagV0,diagV1)`, lib/utils/utilities.py:573-583; `mini f a b` is the attribute `x` of
`minimize_scalar(f,method='bounded',bounds=(a,b))`.  An array shorter than the first raises IndexError. -/
def findPhase (mini : (ℝ → ℝ) → ℝ → ℝ → ℝ) (U0 U1 V0 V1 : List ℂ) : Res (List ℝ) :=
  if U1.length < U0.length ∨ V0.length < U0.length ∨ V1.length < U0.length then .error .index
  else .ok ((List.range U0.length).map fun n =>
    mini (fun1 (U0.getD n 0) (U1.getD n 0) (V0.getD n 0) (V1.getD n 0)) (-2 * Real.pi) (2 * Real.pi))

/-- `findPhase2(U0,U1,V0,V1)`, lib/utils/utilities.py:588-600.  The loop runs over the number of rows of `U0` and indexes its columns; a
matrix with too few columns or rows raises IndexError.  Vectors of different lengths raise ValueError (the broadcasting of vectors of length one
is not modelled). -/
def findPhase2 (mini : (ℝ → ℝ) → ℝ → ℝ → ℝ) (U0 U1 V0 V1 : Mat ℂ) : Res (List ℝ) :=
  if U0.r = 0 then .ok []
  else if U0.c < U0.r ∨ U1.c < U0.r ∨ V0.r < U0.r ∨ V1.r < U0.r then .error .index
  else if U0.r ≠ U1.r ∨ V0.c ≠ V1.c then .error .value
  else .ok ((List.range U0.r).map fun n =>
    mini (fun3 U0.r V0.c (fun i => U0.v i n) (fun i => U1.v i n) (fun j => V0.v n j) fun j => V1.v n j) (-2 * Real.pi) (2 * Real.pi))

end

end PyTeN.Phase
