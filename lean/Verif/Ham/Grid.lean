import Verif.Ham.Boson

/-! # Lieb-Liniger Hamiltonians with site-dependent couplings

`UnitcellExLiebLinigermpo`, `projectedUnitcellExLiebLinigermpo` and `projectedLiebLinigermpo3` of lib/mpslib/Hamiltonians.py.  The
variable `n` of a `for` loop keeps its last value after the loop; some of the assignments below a loop use this value. -/

namespace PyTeN.Boson
open Finset

set_option linter.unusedVariables false

noncomputable section

/-- `x[N-1]`; for `N=0` this is the last element. -/
def getLast' (x : List ℂ) (N : ℕ) : Res ℂ := if N = 0 then lastE x else getE x (N - 1)

/-- `(mu/2.0+1.0/(2.0*mass*dx**2))*num+(intac/(2.0*dx))*inpart`, lib/mpslib/Hamiltonians.py:1605-1607, 1621-1623. -/
def uniLoc (d : ℕ) (m g mass dx : ℂ) : Mat ℂ := ((bN d).smul' (m / 2 + 1 / (2 * mass * dx ^ 2))).add' ((bDDCC d).smul' (g / (2 * dx)))

/-- A tensor with four channels, lib/mpslib/Hamiltonians.py:1613-1630. -/
def uniTen (d : ℕ) (h : Mat ℂ) (t : ℂ) : Mpo ℂ :=
  fill (Mpo.zeros 4 4 d) [(0, 0, eyeK ℂ d), (1, 0, bD d), (2, 0, bC d), (3, 0, h), (3, 1, neg' t (bC d)), (3, 2, neg' t (bD d)),
    (3, 3, eyeK ℂ d)]

/-- The value of `n` after `for n in range(1,cutoff)` and `for n in range(1,N-1)`, lib/mpslib/Hamiltonians.py:1596, 1612. -/
def staleN (N cutoff : ℕ) : Res ℕ :=
  if 3 ≤ N then .ok (N - 2) else if 2 ≤ cutoff then .ok (cutoff - 1) else .error .unbound

/-- `UnitcellExLiebLinigermpo(mu,intac,mass,N,dx,cutoff)`, lib/mpslib/Hamiltonians.py:1593-1701; division by zero is that of `t=…` in line
1603, the first statement that can fail. -/
def uniLL (mu : List ℂ) (g mass : ℂ) (N : ℕ) (dx : ℂ) (d : ℕ) : Res (List (Mpo ℂ) × List (Mpo ℂ)) := do
  if 0 ∈ [mass, dx] then .error .zerodiv
  else
    let t := 1 / (4 * mass * dx ^ 2)
    let m0 ← getE mu 0
    let f := fill (Mpo.zeros 1 4 d) [(0, 0, uniLoc d m0 g mass dx), (0, 1, neg' t (bC d)), (0, 2, neg' t (bD d)), (0, 3, eyeK ℂ d)]
    let bulk (n : ℕ) : Res (Mpo ℂ) := do
      let m ← getE mu n
      return uniTen d (uniLoc d m g mass dx) t
    let b ← buildE bulk (List.range' 1 (N - 2))
    let n ← staleN N d
    let mn ← getE mu n
    let l := uniTen d (uniLoc d mn g mass dx) (2 * t)
    let f' := uniTen d (uniLoc d mn g mass dx) t
    let b' ← buildE bulk (List.range' 1 (N - 2))
    let mN ← getLast' mu N
    let l' := fill (Mpo.zeros 4 1 d) [(0, 0, eyeK ℂ d), (1, 0, bD d), (2, 0, bC d), (3, 0, uniLoc d mN g mass dx)]
    return (f :: b ++ [l], f' :: b' ++ [l'])

/-- `projectedUnitcellExLiebLinigermpo(mu,interact,mass,N,dx)`, lib/mpslib/Hamiltonians.py:1704-1812. -/
def projUniLL (mu : List ℂ) (g mass : ℂ) (N : ℕ) (dx : ℂ) : Res (List (Mpo ℂ) × List (Mpo ℂ)) := do
  if 0 ∈ [mass, dx] then .error .zerodiv
  else
    let t := 1 / (2 * mass * dx ^ 2)
    let P := oneMinus 2 (bN 2)
    let row (m : ℂ) (b : ℕ) := projRow 2 ((bN 2).smul' (m / 1)) (P.smul' t) t (g * 1 / (1 * dx)) b
    let col := projCol 2 P (bN 2) (bN 2)
    let ten (m : ℂ) : Mpo ℂ := fill (Mpo.zeros 7 7 2) (col ++ row m 6)
    let bulk (n : ℕ) : Res (Mpo ℂ) := do
      let m ← getE mu n
      return ten m
    let m0 ← getE mu 0
    let b ← buildE bulk (List.range' 1 (N - 2))
    let mN ← getLast' mu N
    let b' ← buildE bulk (List.range' 1 (N - 2))
    return (fill (Mpo.zeros 1 7 2) (row m0 0) :: b ++ [ten mN],
      ten m0 :: b' ++ [fill (Mpo.zeros 7 1 2) (col ++ [(6, 0, (bN 2).smul' (mN / 1))])])

/-- The last row `(0,num/(2*mass*τ*δ),P/(2*mass*τ),-c/(2*mass*τ*sqrt(δ)),-cdag/(2*mass*τ*sqrt(δ)),g*τ*num/δ,1,a*num,1)`, e.g.
lib/mpslib/Hamiltonians.py:1280-1287. -/
def gridRow (mass g : ℂ) (τ δ : ℝ) (a : ℂ) (b : ℕ) : List (ℕ × ℕ × Mat ℂ) :=
  [(b, 1, (bN 2).smul' (1 / (2 * mass * τ) / δ)), (b, 2, (oneMinus 2 (bN 2)).smul' (1 / (2 * mass * τ))),
   (b, 3, (bC 2).smul' (-1 / (2 * mass * τ) / (Real.sqrt δ : ℝ))), (b, 4, (bD 2).smul' (-1 / (2 * mass * τ) / (Real.sqrt δ : ℝ))),
   (b, 5, (bN 2).smul' (g * τ / δ)), (b, 6, eyeK ℂ 2), (b, 7, (bN 2).smul' a), (b, 8, eyeK ℂ 2)]

/-- The first column `(1,P,num/δ,cdag/sqrt(δ),c/sqrt(δ),num/δ,a*num,1)`, e.g. lib/mpslib/Hamiltonians.py:1293-1300. -/
def gridCol (δ : ℝ) (a : ℂ) : List (ℕ × ℕ × Mat ℂ) :=
  [(0, 0, eyeK ℂ 2), (1, 0, oneMinus 2 (bN 2)), (2, 0, (bN 2).smul' (1 / δ)), (3, 0, (bD 2).smul' (1 / (Real.sqrt δ : ℝ))),
   (4, 0, (bC 2).smul' (1 / (Real.sqrt δ : ℝ))), (5, 0, (bN 2).smul' (1 / δ)), (6, 0, (bN 2).smul' a), (7, 0, eyeK ℂ 2)]

/-- A tensor with entries; spacings that are not positive and `mass=0` are reported as `nan` (in the code ZeroDivisionError, or entries
`inf` and `nan`). -/
def okTen (mass : ℂ) (ds : List ℝ) (W : Mpo ℂ) : Res (Mpo ℂ) := if mass = 0 ∨ ∃ x ∈ ds, x ≤ 0 then .error .nan else .ok W

/-- `dxtilde` in lines 1270-1273 and 1321-1325 of lib/mpslib/Hamiltonians.py: `(dx[n+1]+dx[n])/2` for `n<N-1`, `(dx[0]+dx[n])/2` for
`n==N-1`; otherwise it stays unassigned. -/
def dxt (dx : List ℝ) (N n : ℕ) : Res ℝ :=
  if n + 1 < N then do
    let a ← getE dx (n + 1)
    let b ← getE dx n
    return (a + b) / 2
  else if n + 1 = N then do
    let a ← getE dx 0
    let b ← getE dx n
    return (a + b) / 2
  else .error .unbound

/-- `projectedLiebLinigermpo3(mu,interact,mass,dx,obc)`, lib/mpslib/Hamiltonians.py:1255-1353.  Above the first tensor `n` is 1, the last
value of line 1264; below the loop it is `N-2`, or 1 if the loop was not entered. -/
def projLL3 (mu : List ℂ) (g mass : ℂ) (dx : List ℝ) (obc : Bool) : Res (List (Mpo ℂ)) :=
  let N := mu.length
  if obc then
    openMpo (do
        let τ ← dxt dx N 1
        let δ ← getE dx 0
        let m ← getE mu 0
        let e ← getE dx 1
        okTen mass [τ, δ, e] (fill (Mpo.zeros 1 9 2) (gridRow mass g τ δ (m / 2 * τ / e) 0)))
      (fun n => do
        let τ ← getE dx n
        let m ← getE mu n
        okTen mass [τ] (fill (Mpo.zeros 9 9 2) (gridCol τ (m / 2) ++ gridRow mass g τ τ (m / 2 * τ / τ) 8)))
      (do
        let τ ← getE dx (N - 1)
        let δ ← getE dx (if 3 ≤ N then N - 2 else 1)
        let m ← getE mu (N - 1)
        okTen mass [τ, δ] (fill (Mpo.zeros 9 1 2) (gridCol δ (m / 2 * τ / δ)))) N
  else
    buildE (fun n => do
      let τ ← dxt dx N n
      let δ ← getE dx n
      let m ← getE mu n
      okTen mass [τ, δ] (fill (Mpo.zeros 9 9 2) (gridCol δ (m / 2) ++ gridRow mass g τ δ (m / 2) 8))) (List.range N)

end

end PyTeN.Boson
