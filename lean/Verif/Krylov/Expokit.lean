import Verif.Basic
import Mathlib.Analysis.InnerProductSpace.Basic
import Mathlib.Analysis.SpecialFunctions.Log.Base
import Mathlib.Analysis.SpecialFunctions.Pow.Real
import Mathlib.Analysis.Complex.ExponentialBounds

/-! # `gexpmv` of lib/mpslib/sexpmv.py

Vectors are elements of a complex inner product space.  Arithmetic is exact; only the machine epsilon that the code computes
(lines 64-69, an endless loop in exact arithmetic) is a parameter.  `scipy.linalg.expm` is a parameter.  The dtype of the
operator is assumed to be complex, `t` to be a real number and `anorm` not to be negative.  Messages (`verbose`, `itrace`)
and the statistics that are not returned (`hump`, `s_error`, …) are dropped. -/

namespace PyTeN.Expokit
open Finset

noncomputable section

/-- The checks of lib/mpslib/sexpmv.py:25-39; `shape` is `A.shape`.  The result is `m`. -/
def checkArgs (shape : List ℕ) (m : Option ℤ) : Res ℕ :=
  match shape with
  | [] => .error .index
  | n :: rest =>
    if rest ≠ [n] then .error .value
    else if m.getD (min 20 ((n : ℤ) - 1)) ≥ n ∨ m.getD (min 20 ((n : ℤ) - 1)) ≤ 0 then .error .value
    else .ok (m.getD (min 20 ((n : ℤ) - 1))).toNat

/-- Python's `round(x)`: to the nearest integer, halves to the even one. -/
def pyRound (x : ℝ) : ℤ :=
  if Int.fract x < 1 / 2 then ⌊x⌋
  else if Int.fract x > 1 / 2 then ⌊x⌋ + 1
  else if ⌊x⌋ % 2 = 0 then ⌊x⌋ else ⌊x⌋ + 1

/-- `math.trunc(x)`. -/
def trunc (x : ℝ) : ℤ := if 0 ≤ x then ⌊x⌋ else ⌈x⌉

/-- `p1=10.0**(round(log10(x)-SQR1)-1); trunc(x/p1+0.55)*p1`, lib/mpslib/sexpmv.py:90-91, 174-175 and 202-203. -/
def roundStep (x : ℝ) : ℝ :=
  (trunc (x / (10 : ℝ) ^ (pyRound (Real.logb 10 x - Real.sqrt 0.1) - 1) + 0.55) : ℝ)
    * (10 : ℝ) ^ (pyRound (Real.logb 10 x - Real.sqrt 0.1) - 1)

/-- `tol` after lines 70-71. -/
def tolOf (eps tol : ℝ) : ℝ := if tol ≤ eps then Real.sqrt eps else tol

/-- The first step size, lib/mpslib/sexpmv.py:87-91.  For `beta=0` the quotient is infinite and `round` raises an
OverflowError (recorded as `nan`). -/
def firstStep (m : ℕ) (tol anorm beta : ℝ) : Res ℝ :=
  if anorm = 0 then .error .zerodiv
  else if beta = 0 then .error .nan
  else .ok (roundStep (1 / anorm * (tol * (((m : ℝ) + 1) / Real.exp 1) ^ (m + 1) * Real.sqrt (2 * Real.pi * (m + 1))
    / (4 * beta * anorm)) ^ (1 / (m : ℝ))))

variable {V : Type} [NormedAddCommGroup V] [InnerProductSpace ℂ V]

/-- The loop over `i`, lib/mpslib/sexpmv.py:110-115: the overlaps and the remaining vector. -/
def project (vs : List V) (x : V) : List ℂ × V :=
  vs.foldl (fun a v => (a.1 ++ [inner ℂ v a.2], a.2 - (inner ℂ v a.2) • v)) ([], x)

/-- `H[i-1,j-1]=hij` for all `i`. -/
def setCol (H : ℕ → ℕ → ℂ) (j : ℕ) (hs : List ℂ) : ℕ → ℕ → ℂ :=
  fun a b => if b = j ∧ a < hs.length then hs.getD a 0 else H a b

/-- `H[a,b]=x`. -/
def setEntry (H : ℕ → ℕ → ℂ) (a b : ℕ) (x : ℂ) : ℕ → ℕ → ℂ := fun i j => if i = a ∧ j = b then x else H i j

/-- The Arnoldi loop, lib/mpslib/sexpmv.py:106-129, from the pass `j` on (`rem` passes remain).  Result: `vs`, `H` and
`mbrkdwn` if the loop was left by a breakdown.  For a negative `break_tol` the division by zero gives nan. -/
def arnoldi (matvec : V → V) (btol : ℝ) : ℕ → ℕ → List V → (ℕ → ℕ → ℂ) → Res (List V × (ℕ → ℕ → ℂ) × Option ℕ)
  | 0, _, vs, H => .ok (vs, H, none)
  | rem + 1, j, vs, H =>
    if ‖(project vs (matvec (vs.getD (j - 1) 0))).2‖ ≤ btol then
      .ok (vs, setCol H (j - 1) (project vs (matvec (vs.getD (j - 1) 0))).1, some j)
    else if ‖(project vs (matvec (vs.getD (j - 1) 0))).2‖ = 0 then .error .nan
    else arnoldi matvec btol rem (j + 1)
      (vs ++ [((1 / ‖(project vs (matvec (vs.getD (j - 1) 0))).2‖ : ℝ) : ℂ) • (project vs (matvec (vs.getD (j - 1) 0))).2])
      (setEntry (setCol H (j - 1) (project vs (matvec (vs.getD (j - 1) 0))).1) j (j - 1)
        ((‖(project vs (matvec (vs.getD (j - 1) 0))).2‖ : ℝ) : ℂ))

/-- `err_loc` and `xm`, lib/mpslib/sexpmv.py:153-166, from `p1` and `p2`. -/
def errLoc (m k1 : ℕ) (tol p1 p2 xm : ℝ) : Res (ℝ × ℝ) :=
  if k1 = 0 then .ok (tol, xm)
  else if p1 > 10 * p2 then .ok (p2, 1 / (m : ℝ))
  else if p1 > p2 then .ok (p1 * p2 / (p1 - p2), 1 / (m : ℝ))
  else if m = 1 then .error .zerodiv
  else .ok (p1, 1 / ((m : ℝ) - 1))

/-- `expH`, lib/mpslib/sexpmv.py:149. -/
def expH (expm : Mat ℂ → Mat ℂ) (mx : ℕ) (H : ℕ → ℕ → ℂ) (s : ℝ) : Mat ℂ := expm ⟨mx, mx, fun i j => (s : ℂ) * H i j⟩

/-- The loop `while True`, lib/mpslib/sexpmv.py:145-191 (`mxreject=0`): `t_step`, `expH`, `err_loc` and `xm` of the accepted
step; `none` if there are more passes than `fuel`. -/
def accept (expm : Mat ℂ → Mat ℂ) (m k1 mb : ℕ) (H : ℕ → ℕ → ℂ) (sgn beta avnorm tol : ℝ) :
    ℕ → ℝ → ℝ → Option (Res (ℝ × Mat ℂ × ℝ × ℝ))
  | 0, _, _ => none
  | fuel + 1, t, xm =>
    match errLoc m k1 tol (‖(expH expm (mb + k1) H (sgn * t)).v m 0‖ * beta)
        (‖(expH expm (mb + k1) H (sgn * t)).v (m + 1) 0‖ * beta * avnorm) xm with
    | .error e => some (.error e)
    | .ok (err, xm') =>
      if k1 ≠ 0 ∧ err > 1.2 * t * tol then
        accept expm m k1 mb H sgn beta avnorm tol fuel (roundStep (0.9 * t * (t * tol / err) ^ xm')) xm'
      else some (.ok (t, expH expm (mb + k1) H (sgn * t), err, xm'))

/-- The variables that survive a pass of the outer loop; `times` collects the accepted step sizes (not in the code). -/
structure St (V : Type) where
  w : V
  tNow : ℝ
  tNew : ℝ
  xm : ℝ
  nstep : ℕ
  k1 : ℕ
  ibrk : Bool
  mb : ℕ
  avnorm : ℝ
  times : List ℝ

/-- The arguments that do not change. -/
structure Args (V : Type) where
  matvec : V → V
  expm : Mat ℂ → Mat ℂ
  m : ℕ
  tol : ℝ
  btol : ℝ
  sgn : ℝ
  tOut : ℝ

/-- The second half of a pass, lib/mpslib/sexpmv.py:193-223, after the step size was accepted.  `err_loc=0` makes the next
step size infinite and `round` raises an OverflowError (recorded as `nan`). -/
def finish (a : Args V) (st : St V) (vs : List V) (t : ℝ) (E : Mat ℂ) (err xm : ℝ) : Res (St V) :=
  if err = 0 then .error .nan
  else .ok
    { st with
      w := (‖st.w‖ : ℂ) • ∑ i ∈ range (st.mb + (st.k1 - 1)), E.v i 0 • vs.getD i 0
      tNew := roundStep (0.9 * t * (t * a.tol / err) ^ xm)
      xm := xm
      tNow := st.tNow + t
      times := st.times ++ [t] }

/-- One pass of the outer loop, lib/mpslib/sexpmv.py:96-223. -/
def pass (a : Args V) (fuel : ℕ) (st : St V) : Option (Res (St V)) :=
  if ‖st.w‖ = 0 then some (.error .nan)
  else
    match arnoldi a.matvec a.btol a.m 1 [((1 / ‖st.w‖ : ℝ) : ℂ) • st.w] (fun _ _ => 0) with
    | .error e => some (.error e)
    | .ok (vs, H, brk) =>
      let t := match brk with
        | none => min (a.tOut - st.tNow) st.tNew
        | some _ => a.tOut - st.tNow
      let st := match brk with
        | none => { st with nstep := st.nstep + 1 }
        | some j => { st with nstep := st.nstep + 1, k1 := 0, ibrk := true, mb := j }
      let st := if st.ibrk then st else { st with avnorm := ‖a.matvec (vs.getD a.m 0)‖ }
      match accept a.expm a.m st.k1 st.mb (setEntry H (a.m + 1) a.m 1) a.sgn ‖st.w‖ st.avnorm a.tol fuel t st.xm with
      | none => none
      | some (.error e) => some (.error e)
      | some (.ok (t, E, err, xm)) => some (finish a st vs t E err xm)

/-- The outer loop, lib/mpslib/sexpmv.py:94-228. -/
def outer (a : Args V) (mxstep : ℕ) : ℕ → St V → Option (Res (St V))
  | 0, _ => none
  | fuel + 1, st =>
    if st.tNow < a.tOut then
      match pass a fuel st with
      | none => none
      | some (.error e) => some (.error e)
      | some (.ok st') => if mxstep = 0 ∨ st'.nstep < mxstep then outer a mxstep fuel st' else some (.ok st')
    else some (.ok st)

/-- What `gexpmv` returns (`w`, `nstep<mxstep`, `nstep`, `ibrkflag==1`, `mbrkdwn`), and the accepted step sizes. -/
structure Out (V : Type) where
  w : V
  flag : Bool
  nstep : ℕ
  brk : Bool
  mb : ℕ
  times : List ℝ

/-- `gexpmv(A,v,t,anorm,m,tol,mxstep=mxstep,break_tol=break_tol)`, lib/mpslib/sexpmv.py:16-230; `none` if the number of
passes of one of the loops reaches `fuel`. -/
def gexpmv (expm : Mat ℂ → Mat ℂ) (eps : ℝ) (shape : List ℕ) (matvec : V → V) (v : V) (t anorm : ℝ) (m : Option ℤ) (tol : ℝ)
    (mxstep : ℕ) (btol : Option ℝ) (fuel : ℕ) : Option (Res (Out V)) :=
  match checkArgs shape m with
  | .error e => some (.error e)
  | .ok m =>
    match firstStep m (tolOf eps tol) anorm ‖v‖ with
    | .error e => some (.error e)
    | .ok t1 =>
      match outer ⟨matvec, expm, m, tolOf eps tol, btol.getD (anorm * tol), if 0 ≤ t then 1 else -1, |t|⟩ mxstep fuel
          ⟨v, 0, t1, 1 / (m : ℝ), 0, 2, false, m, 0, []⟩ with
      | none => none
      | some (.error e) => some (.error e)
      | some (.ok st) => some (.ok ⟨st.w, decide (st.nstep < mxstep), st.nstep, st.ibrk, st.mb, st.times⟩)

end

end PyTeN.Expokit
