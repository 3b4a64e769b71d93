import Verif.Ham.Gate
import Mathlib.Data.Nat.Factorial.Basic

/-! # Bosonic Hamiltonians of lib/mpslib/Hamiltonians.py (`PhiFourmpo` to `projectedUnitcellExLiebLinigermpo`)

The builders are modelled assignment by assignment.  Scalar parameters are complex numbers (floats are the special case of real
ones); Python's division by zero raises ZeroDivisionError, but only if the loop body is executed. -/

namespace PyTeN.Boson
open Finset

set_option linter.unusedSimpArgs false
set_option linter.unusedVariables false

noncomputable section

/-! ## Model -/

/-- `c=np.zeros((d,d))`, `for n in range(1,d): c[n-1,n]=np.sqrt(n)`, e.g. lib/mpslib/Hamiltonians.py:674-676. -/
def bC (d : ℕ) : Mat ℂ := ⟨d, d, fun i j => if i + 1 = j then ((Real.sqrt j : ℝ) : ℂ) else 0⟩

/-- `cdag=np.copy(herm(c))`, e.g. lib/mpslib/Hamiltonians.py:677. -/
def bD (d : ℕ) : Mat ℂ := (bC d).herm

/-- `num=cdag.dot(c)`, e.g. lib/mpslib/Hamiltonians.py:678. -/
def bN (d : ℕ) : Mat ℂ := (bD d).dot (bC d)

/-- `c.dot(c)`, `cdag.dot(cdag)`, e.g. lib/mpslib/Hamiltonians.py:697, 700. -/
def bCC (d : ℕ) : Mat ℂ := (bC d).dot (bC d)
@[inherit_doc bCC] def bDD (d : ℕ) : Mat ℂ := (bD d).dot (bD d)

/-- `cdag.dot(cdag).dot(c).dot(c)`, e.g. lib/mpslib/Hamiltonians.py:681. -/
def bDDCC (d : ℕ) : Mat ℂ := (((bD d).dot (bD d)).dot (bC d)).dot (bC d)

/-- `cdag4+4*cdag3c+6*cdag2c2+4*cdagc3+c4`, lib/mpslib/Hamiltonians.py:679-683, 700-701. -/
def bQuart (d : ℕ) : Mat ℂ :=
  (((((((bD d).dot (bD d)).dot (bD d)).dot (bD d)).add' (((((bD d).dot (bD d)).dot (bD d)).dot (bC d)).smul' 4)).add'
    ((bDDCC d).smul' 6)).add' (((((bD d).dot (bC d)).dot (bC d)).dot (bC d)).smul' 4)).add' ((((bC d).dot (bC d)).dot (bC d)).dot (bC d))

/-- A sequence of assignments `temp[b,c,:,:]=M`. -/
def fill (W : Mpo ℂ) (l : List (ℕ × ℕ × Mat ℂ)) : Mpo ℂ := l.foldl (fun W x => W.blk x.1 x.2.1 x.2.2) W

/-- `-x*M`. -/
def neg' (x : ℂ) (M : Mat ℂ) : Mat ℂ := M.smul' (-x)

/-- `np.eye(d)-M`. -/
def oneMinus (d : ℕ) (M : Mat ℂ) : Mat ℂ := (eyeK ℂ d).add' (M.smul' (-1))

/-- The end of the `PhiFourmpo` functions, e.g. lib/mpslib/Hamiltonians.py:721-729: with `obc=True` the first tensor is replaced by the
last row of the first tensor and the last one by the first column of the first tensor, in this order. -/
def closeObc (obc : Bool) (Ws : List (Mpo ℂ)) : Res (List (Mpo ℂ)) :=
  if obc then
    match Ws with
    | [] => .error .index
    | W :: l =>
      let mpol : Mpo ℂ := ⟨1, W.r, W.din, W.dout, fun _ b s t => W.v (W.l - 1) b s t⟩
      let mpor : Mpo ℂ := ⟨W.l, 1, W.din, W.dout, fun b _ s t => W.v b 0 s t⟩
      .ok ((mpol :: l).dropLast ++ [mpor])
  else .ok Ws

/-- `for n in range(0,N): … mpo.append(np.copy(temp))` with a tensor that does not depend on `n` and divisions by the numbers `dens`. -/
def loopMpo (N : ℕ) (dens : List ℂ) (W : Mpo ℂ) : Res (List (Mpo ℂ)) :=
  buildE (fun _ => if 0 ∈ dens then .error .zerodiv else .ok W) (List.range N)

/-- The tensor of `PhiFourmpo` and `PhiFourmpo2`, lib/mpslib/Hamiltonians.py:687-717, 753-783. -/
def phiTen10 (d : ℕ) (x y q J : ℂ) : Mpo ℂ :=
  fill (Mpo.zeros 10 10 d)
    [(0, 0, eyeK ℂ d), (1, 0, bD d), (2, 0, bC d), (3, 0, bN d), (4, 0, (eyeK ℂ d).smul' x), (5, 0, bCC d), (6, 0, (eyeK ℂ d).smul' y),
     (7, 0, bDD d), (8, 0, (eyeK ℂ d).smul' y), (9, 0, (bQuart d).smul' q), (9, 1, neg' J (bC d)), (9, 2, neg' J (bD d)),
     (9, 3, (eyeK ℂ d).smul' x), (9, 4, bN d), (9, 5, (eyeK ℂ d).smul' y), (9, 6, bCC d), (9, 7, (eyeK ℂ d).smul' y), (9, 8, bDD d),
     (9, 9, eyeK ℂ d)]

/-- `PhiFourmpo(mu,nu,g,N,dx,cutoff,obc)`, lib/mpslib/Hamiltonians.py:668-731. -/
def phiFour1 (mu nu g : ℂ) (N : ℕ) (dx : ℂ) (d : ℕ) (obc : Bool) : Res (List (Mpo ℂ)) :=
  match loopMpo N [nu, dx] (phiTen10 d ((mu ^ 2 + nu ^ 2) / (8 * nu) + 1 / (2 * nu * dx ^ 2)) ((mu ^ 2 - nu ^ 2) / (16 * nu))
      (g / (96 * nu ^ 2 * dx)) (1 / (2 * nu * dx ^ 2))) with
  | .error e => .error e
  | .ok Ws => closeObc obc Ws

/-- `PhiFourmpo2(mu,nu,g,N,dx,cutoff,obc)`, lib/mpslib/Hamiltonians.py:734-796. -/
def phiFour2 (mu nu g : ℂ) (N : ℕ) (dx : ℂ) (d : ℕ) (obc : Bool) : Res (List (Mpo ℂ)) :=
  match loopMpo N [nu, dx] (phiTen10 d ((mu ^ 2 + nu ^ 2) / 4 + 1 / dx ^ 2) ((mu ^ 2 - nu ^ 2) / 8)
      (g / (96 * nu * dx)) (1 / (1 * dx ^ 2))) with
  | .error e => .error e
  | .ok Ws => closeObc obc Ws

/-- On-site part `w*num+k*(c.dot(c)+cdag.dot(cdag))+q*(cdag4+…)`, lib/mpslib/Hamiltonians.py:822-824, 867-871. -/
def phiLoc (d : ℕ) (w k q : ℂ) : Mat ℂ := (((bN d).smul' w).add' (((bCC d).add' (bDD d)).smul' k)).add' ((bQuart d).smul' q)

/-- `PhiFourmpo3(mu,nu,g,N,dx,cutoff,obc)`, lib/mpslib/Hamiltonians.py:799-841. -/
def phiFour3 (mu nu g : ℂ) (N : ℕ) (dx : ℂ) (d : ℕ) (obc : Bool) : Res (List (Mpo ℂ)) :=
  match loopMpo N [nu, dx] (fill (Mpo.zeros 6 6 d)
      [(0, 0, eyeK ℂ d), (1, 0, bD d), (2, 0, bC d), (3, 0, eyeK ℂ d), (4, 0, (bN d).smul' (1 / dx ^ 2)),
       (5, 0, phiLoc d ((mu ^ 2 + nu ^ 2) / 2) ((mu ^ 2 - nu ^ 2) / 4) (g / (96 * nu * dx))), (5, 1, neg' (1 / dx ^ 2) (bC d)),
       (5, 2, neg' (1 / dx ^ 2) (bD d)), (5, 3, (bN d).smul' (1 / dx ^ 2)), (5, 4, eyeK ℂ d), (5, 5, eyeK ℂ d)]) with
  | .error e => .error e
  | .ok Ws => closeObc obc Ws

/-- `PhiFourmpo4(mu,nu,g,N,dx,cutoff,obc)`, lib/mpslib/Hamiltonians.py:844-885. -/
def phiFour4 (mu nu g : ℂ) (N : ℕ) (dx : ℂ) (d : ℕ) (obc : Bool) : Res (List (Mpo ℂ)) :=
  match loopMpo N [nu, dx] (fill (Mpo.zeros 4 4 d)
      [(0, 0, eyeK ℂ d), (1, 0, bD d), (2, 0, bC d),
       (3, 0, phiLoc d ((mu ^ 2 + nu ^ 2) / 2 + 2 / dx ^ 2) ((mu ^ 2 - nu ^ 2) / 4) (g / (96 * nu * dx))),
       (3, 1, neg' (1 / dx ^ 2) (bC d)), (3, 2, neg' (1 / dx ^ 2) (bD d)), (3, 3, eyeK ℂ d)]) with
  | .error e => .error e
  | .ok Ws => closeObc obc Ws

/-- `TwoSitePhiFourMPO(mu,nu,g,dx,cutoff)`, lib/mpslib/Hamiltonians.py:888-925. -/
def phiTwoSite (mu nu g dx : ℂ) (d : ℕ) : Res (List (Mpo ℂ)) :=
  if 0 ∈ [nu, dx] then .error .zerodiv
  else
    let h := (phiLoc d ((mu ^ 2 + nu ^ 2) / 2 + 2 / dx ^ 2) ((mu ^ 2 - nu ^ 2) / 4) (g / (96 * nu * dx))).smul' (1 / 2)
    .ok [fill (Mpo.zeros 1 4 d) [(0, 0, h), (0, 1, neg' (1 / dx ^ 2) (bC d)), (0, 2, neg' (1 / dx ^ 2) (bD d)), (0, 3, eyeK ℂ d)],
      fill (Mpo.zeros 4 1 d) [(0, 0, eyeK ℂ d), (1, 0, bD d), (2, 0, bC d), (3, 0, h)]]

/-- `LiebLinigermpo(mu,g,mass,N,dx,cutoff)`, lib/mpslib/Hamiltonians.py:1430-1452. -/
def ll0 (mu g mass : ℂ) (N : ℕ) (dx : ℂ) (d : ℕ) : Res (List (Mpo ℂ)) :=
  loopMpo N [mass, dx] (fill (Mpo.zeros 4 4 d)
    [(0, 0, eyeK ℂ d), (1, 0, bD d), (2, 0, bC d),
     (3, 0, ((bN d).smul' (mu + 2 / (2 * mass * dx ^ 2))).add' ((bDDCC d).smul' (g / dx))),
     (3, 1, neg' (1 / (2 * mass * dx ^ 2)) (bC d)), (3, 2, neg' (1 / (2 * mass * dx ^ 2)) (bD d)), (3, 3, eyeK ℂ d)])

/-- `LiebLinigermpo1(mu,g,mass,N,dx,cutoff)`, lib/mpslib/Hamiltonians.py:1455-1480. -/
def ll1 (mu g mass : ℂ) (N : ℕ) (dx : ℂ) (d : ℕ) : Res (List (Mpo ℂ)) :=
  loopMpo N [mass, dx] (fill (Mpo.zeros 6 6 d)
    [(0, 0, eyeK ℂ d), (1, 0, bD d), (2, 0, bC d), (3, 0, bN d), (4, 0, (eyeK ℂ d).smul' (mu / 2 + 1 / (2 * mass * dx ^ 2))),
     (5, 0, (bDDCC d).smul' (g / dx)), (5, 1, neg' (1 / (2 * mass * dx ^ 2)) (bC d)), (5, 2, neg' (1 / (2 * mass * dx ^ 2)) (bD d)),
     (5, 3, (eyeK ℂ d).smul' (mu / 2 + 1 / (2 * mass * dx ^ 2))), (5, 4, bN d), (5, 5, eyeK ℂ d)])

/-- `LiebLinigermpo2(mu,g,mass,N,dx,cutoff)`, lib/mpslib/Hamiltonians.py:1483-1507. -/
def ll2 (mu g mass : ℂ) (N : ℕ) (dx : ℂ) (d : ℕ) : Res (List (Mpo ℂ)) :=
  loopMpo N [mass, dx] (fill (Mpo.zeros 7 7 d)
    [(0, 0, eyeK ℂ d), (1, 0, bD d), (2, 0, bC d), (3, 0, bN d), (4, 0, (eyeK ℂ d).smul' (mu / 2 + 1 / (2 * mass * dx ^ 2))),
     (5, 0, bN d), (6, 1, neg' (1 / (2 * mass * dx ^ 2)) (bC d)), (6, 2, neg' (1 / (2 * mass * dx ^ 2)) (bD d)),
     (6, 3, (eyeK ℂ d).smul' (mu / 2 + 1 / (2 * mass * dx ^ 2))), (6, 4, bN d), (6, 5, (bN d).smul' (g / dx)), (6, 6, eyeK ℂ d)])

/-- `LiebLinigermpo3(mu,g,mass,N,dx,cutoff)`, lib/mpslib/Hamiltonians.py:1510-1534. -/
def ll3 (mu g mass : ℂ) (N : ℕ) (dx : ℂ) (d : ℕ) : Res (List (Mpo ℂ)) :=
  loopMpo N [mass, dx] (fill (Mpo.zeros 7 7 d)
    [(0, 0, eyeK ℂ d), (1, 0, bD d), (2, 0, bC d), (3, 0, bN d), (4, 0, (eyeK ℂ d).smul' (1 / (2 * mass * dx ^ 2))),
     (5, 0, bN d), (6, 0, (bN d).smul' mu), (6, 1, neg' (1 / (2 * mass * dx ^ 2)) (bC d)), (6, 2, neg' (1 / (2 * mass * dx ^ 2)) (bD d)),
     (6, 3, (eyeK ℂ d).smul' (1 / (2 * mass * dx ^ 2))), (6, 4, bN d), (6, 5, (bN d).smul' (g / dx)), (6, 6, eyeK ℂ d)])

/-- `LocalLiebLinigermpo(mu,intac,mass,dx,cutoff,obc)`, lib/mpslib/Hamiltonians.py:1357-1383 (`obc` is not used). -/
def llLocal (mu : List ℂ) (g mass dx : ℂ) (d : ℕ) : Res (List (Mpo ℂ)) := do
  let m0 ← getE mu 0
  if 0 ∈ [mass, dx] then .error .zerodiv
  else
    let m1 ← lastE mu
    return [fill (Mpo.zeros 1 4 d)
        [(0, 0, ((bN d).smul' (m0 / 2 + 1 / (2 * mass * dx ^ 2))).add' ((bDDCC d).smul' (g / (2 * dx)))),
         (0, 1, neg' (1 / (2 * mass * dx ^ 2)) (bC d)), (0, 2, neg' (1 / (2 * mass * dx ^ 2)) (bD d)), (0, 3, eyeK ℂ d)],
      fill (Mpo.zeros 4 1 d)
        [(0, 0, eyeK ℂ d), (1, 0, bD d), (2, 0, bC d),
         (3, 0, ((bN d).smul' (m1 / 2 + 1 / (2 * mass * dx ^ 2))).add' ((bDDCC d).smul' (g / (dx * 2))))]]

/-- `LiebLinigerEdens(mu,intac,mass,dx,cutoff,N,site)`, lib/mpslib/Hamiltonians.py:1386-1427 (`mu` is not used; the identity tensors
appended in a loop are one and the same array). -/
def llEdens (g mass dx : ℂ) (d N site : ℕ) : Res (List (Mpo ℂ)) :=
  if ¬ site > 1 then .error .assertion
  else if ¬ (site : ℤ) < (N : ℤ) - 1 then .error .assertion
  else if 0 ∈ [mass, dx] then .error .zerodiv
  else
    let one := fill (Mpo.zeros 1 1 d) [(0, 0, eyeK ℂ d)]
    .ok ([one] ++ List.replicate (site - 1 - 1) one ++
      [fill (Mpo.zeros 1 3 d) [(0, 1, bC d), (0, 2, eyeK ℂ d)],
       fill (Mpo.zeros 3 3 d)
        [(0, 0, eyeK ℂ d), (1, 0, (bD d).smul' (-1 / (2 * mass * dx ^ 2))),
         (2, 0, ((bN d).smul' (1 / (mass * dx ^ 2))).add' ((bDDCC d).smul' (g / dx))),
         (2, 1, (bD d).smul' (-1 / (2 * mass * dx ^ 2))), (2, 2, eyeK ℂ d)],
       fill (Mpo.zeros 3 1 d) [(0, 0, eyeK ℂ d), (1, 0, bC d)]] ++ List.replicate (N - (site + 1)) one)

/-- The parts of `projectedLiebLinigermpo` and `projectedLiebLinigermpo2` that depend on the site, lib/mpslib/Hamiltonians.py:1129-1136,
1211-1217: the last row `(h,t*num,P,-t*c,-t*cdag,u*num,1)`. -/
def projRow (d : ℕ) (h P2 : Mat ℂ) (t u : ℂ) (b : ℕ) : List (ℕ × ℕ × Mat ℂ) :=
  [(b, 0, h), (b, 1, (bN d).smul' t), (b, 2, P2), (b, 3, neg' t (bC d)), (b, 4, neg' t (bD d)), (b, 5, (bN d).smul' u), (b, 6, eyeK ℂ d)]

/-- The first column `(1,P,N2,cdag,c,N5)`, e.g. lib/mpslib/Hamiltonians.py:1142-1147. -/
def projCol (d : ℕ) (P1 N2 N5 : Mat ℂ) : List (ℕ × ℕ × Mat ℂ) :=
  [(0, 0, eyeK ℂ d), (1, 0, P1), (2, 0, N2), (3, 0, bD d), (4, 0, bC d), (5, 0, N5)]

/-- `projectedLiebLinigermpo(mu,interact,mass,N,dx,obc)`, lib/mpslib/Hamiltonians.py:1118-1192; the argument `N` is overwritten. -/
def projLL (mu : List ℂ) (g mass dx : ℂ) (obc : Bool) : Res (List (Mpo ℂ)) :=
  let t := 1 / (2 * mass * dx ^ 2)
  let P := oneMinus 2 (bN 2)
  let chk (x : Res (Mpo ℂ)) : Res (Mpo ℂ) := do
    let W ← x
    if 0 ∈ [mass, dx] then .error .zerodiv else return W
  let bulk (n : ℕ) : Res (Mpo ℂ) := chk (do
    let m ← getE mu n
    return fill (Mpo.zeros 7 7 2) (projCol 2 P ((bN 2).smul' t) (bN 2) ++ projRow 2 ((bN 2).smul' m) P t (g * 1 / dx) 6))
  if obc then
    openMpo (chk (do
        let m ← getE mu 0
        return fill (Mpo.zeros 1 7 2) (projRow 2 ((bN 2).smul' (m / 2)) P t (g * 1 / dx) 0))) bulk
      (chk (do
        let m ← lastE mu
        return fill (Mpo.zeros 7 1 2) (projCol 2 P ((bN 2).smul' t) (bN 2) ++ [(6, 0, (bN 2).smul' (m / 2))]))) mu.length
  else buildE bulk (List.range mu.length)

/-- `proj` of `projectedLiebLinigermpo2`, lib/mpslib/Hamiltonians.py:1199-1202. -/
def bProj (d : ℕ) : Mat ℂ := ⟨d, d, fun i j => if i = j ∧ i = 0 then 1 else 0⟩

/-- `projectedLiebLinigermpo2(mu,interact,mass,N,d,dx,obc)`, lib/mpslib/Hamiltonians.py:1195-1252; without open boundaries `mpo` is
returned without having been assigned. -/
def projLL2 (mu : List ℂ) (g mass : ℂ) (d : ℕ) (dx : ℂ) (obc : Bool) : Res (List (Mpo ℂ)) :=
  let t := 1 / (2 * mass * dx ^ 2)
  let h (m : ℂ) : Mat ℂ := ((bN d).smul' m).add' ((bDDCC d).smul' (g / dx))
  let chk (x : Res (Mpo ℂ)) : Res (Mpo ℂ) := do
    let W ← x
    if 0 ∈ [mass, dx] then .error .zerodiv else return W
  if obc then
    openMpo (chk (do
        let m ← getE mu 0
        return fill (Mpo.zeros 1 7 d) (projRow d (h m) ((bProj d).smul' t) t ((g * 1 / dx) * 0) 0)))
      (fun n => chk (do
        let m ← getE mu n
        return fill (Mpo.zeros 7 7 d) (projCol d (bProj d) (bN d) (bN d) ++ projRow d (h m) ((bProj d).smul' t) t ((g * 1 / dx) * 0) 6)))
      (chk (do
        let m ← lastE mu
        return fill (Mpo.zeros 7 1 d) (projCol d (bProj d) (bN d) ((bN d).smul' 0) ++ [(6, 0, h m)]))) mu.length
  else .error .unbound

/-- `HomogeneousLiebLinigermpo(interact,mass)`, lib/mpslib/Hamiltonians.py:1537-1583. -/
def llHomog (g mass : ℂ) : Res (List (Mpo ℂ)) :=
  if mass = 0 then .error .zerodiv
  else
    let t := 1 / (2 * mass)
    let P := oneMinus 2 (bN 2)
    let row (b : ℕ) : List (ℕ × ℕ × Mat ℂ) :=
      [(b, 1, neg' t (bC 2)), (b, 2, neg' t (bD 2)), (b, 3, P.smul' t), (b, 4, (bN 2).smul' t), (b, 5, (bN 2).smul' g), (b, 6, eyeK ℂ 2)]
    let col : List (ℕ × ℕ × Mat ℂ) := [(0, 0, eyeK ℂ 2), (1, 0, bD 2), (2, 0, bC 2), (3, 0, bN 2), (4, 0, P), (5, 0, bN 2)]
    .ok [fill (Mpo.zeros 1 7 2) (row 0), fill (Mpo.zeros 7 7 2) (col ++ row 6), fill (Mpo.zeros 7 1 2) col]

/-! ## Specification: normally ordered products of boson operators -/

/-- The matrix of `a†^q a^p` on the states `0, …, d-1`, first index in, second index out:
`⟨t|a†^q a^p|s⟩ = √(s(s-1)…(s-p+1)) √(t(t-1)…(t-q+1))` if `t-q = s-p ≥ 0`. -/
def nord (d q p : ℕ) : Mat ℂ :=
  ⟨d, d, fun s t => if t + p = s + q ∧ p ≤ s then ((Real.sqrt (s.descFactorial p * t.descFactorial q) : ℝ) : ℂ) else 0⟩

/-- Equality of the entries with indices below `d`. -/
def Same (d : ℕ) (A B : Mat ℂ) : Prop := ∀ s < d, ∀ t < d, A.v s t = B.v s t

theorem bD_v (d i j : ℕ) : (bD d).v i j = if j + 1 = i then ((Real.sqrt i : ℝ) : ℂ) else 0 := by
  simp only [bD, bC, Mat.herm]
  split_ifs
  · simp [Complex.conj_ofReal]
  · simp

theorem same_C (d : ℕ) : Same d (bC d) (nord d 1 0) := by
  intro s _ t _
  simp only [bC, nord, Nat.descFactorial_zero, Nat.descFactorial_one, Nat.cast_one, one_mul, Nat.zero_le, and_true, Nat.add_zero]
  by_cases h : s + 1 = t
  · rw [if_pos h, if_pos h.symm]
  · rw [if_neg h, if_neg (fun h' => h h'.symm)]

theorem same_D (d : ℕ) : Same d (bD d) (nord d 0 1) := by
  intro s _ t _
  rw [bD_v]
  simp only [nord, Nat.descFactorial_zero, Nat.descFactorial_one, Nat.cast_one, mul_one, Nat.add_zero]
  by_cases h : t + 1 = s
  · rw [if_pos h, if_pos ⟨h, by omega⟩]
  · rw [if_neg h, if_neg (fun h' => h h'.1)]

theorem dot_C {d q p : ℕ} {M : Mat ℂ} (hc : M.c = d) (h : Same d M (nord d q p)) : Same d (M.dot (bC d)) (nord d (q + 1) p) := by
  intro s hs t ht
  simp only [Mat.dot, hc, bC]
  rcases t with _ | t
  · rw [sum_eq_zero (fun k _ => by rw [if_neg (by omega), mul_zero])]
    simp only [nord]; rw [if_neg (by omega)]
  · rw [sum_eq_single t (fun k _ hk => by rw [if_neg (by omega), mul_zero]) (fun hk => by simp at hk; omega), if_pos rfl,
      h s hs t (by omega)]
    simp only [nord]
    by_cases h1 : t + p = s + q ∧ p ≤ s
    · rw [if_pos h1, if_pos ⟨by omega, h1.2⟩, Nat.succ_descFactorial_succ, ← Complex.ofReal_mul, ← Real.sqrt_mul (by positivity)]
      congr 2; push_cast; ring
    · rw [if_neg h1, if_neg (by omega), zero_mul]

theorem dot_D {d p : ℕ} {M : Mat ℂ} (hc : M.c = d) (h : Same d M (nord d 0 p)) : Same d (M.dot (bD d)) (nord d 0 (p + 1)) := by
  intro s hs t ht
  simp only [Mat.dot, hc, bD_v]
  by_cases h2 : t + 1 < d
  · rw [sum_eq_single (t + 1) (fun k _ hk => by rw [if_neg (by omega), mul_zero]) (fun hk => by simp at hk; omega), if_pos rfl,
      h s hs (t + 1) h2]
    simp only [nord, Nat.descFactorial_zero, Nat.cast_one, mul_one, Nat.add_zero]
    by_cases h1 : t + 1 + p = s ∧ p ≤ s
    · rw [if_pos h1, if_pos ⟨by omega, by omega⟩, Nat.descFactorial_succ, ← Complex.ofReal_mul, ← Real.sqrt_mul (by positivity)]
      rw [show s - p = t + 1 by omega]
      congr 2; push_cast; ring
    · rw [if_neg h1, if_neg (by omega), zero_mul]
  · rw [sum_eq_zero (fun k hk => by simp at hk; rw [if_neg (by omega), mul_zero])]
    simp only [nord]; rw [if_neg (by omega)]

theorem same_N (d : ℕ) : Same d (bN d) (nord d 1 1) := dot_C rfl (same_D d)
theorem same_CC (d : ℕ) : Same d (bCC d) (nord d 2 0) := dot_C rfl (same_C d)
theorem same_DD (d : ℕ) : Same d (bDD d) (nord d 0 2) := dot_D rfl (same_D d)
theorem same_DDCC (d : ℕ) : Same d (bDDCC d) (nord d 2 2) := dot_C rfl (dot_C rfl (same_DD d))

/-- Normally ordered fourth power of `a+a†`. -/
theorem same_quart (d : ℕ) : ∀ s < d, ∀ t < d, (bQuart d).v s t = (nord d 0 4).v s t + 4 * (nord d 1 3).v s t + 6 * (nord d 2 2).v s t
    + 4 * (nord d 3 1).v s t + (nord d 4 0).v s t := by
  intro s hs t ht
  simp only [bQuart, Mat.add', Mat.smul']
  have h4 : Same d ((((bD d).dot (bD d)).dot (bD d)).dot (bD d)) (nord d 0 4) := dot_D rfl (dot_D rfl (same_DD d))
  have h3 : Same d ((((bD d).dot (bD d)).dot (bD d)).dot (bC d)) (nord d 1 3) := dot_C rfl (dot_D rfl (same_DD d))
  have h1 : Same d ((((bD d).dot (bC d)).dot (bC d)).dot (bC d)) (nord d 3 1) := dot_C rfl (dot_C rfl (same_N d))
  have h0 : Same d ((((bC d).dot (bC d)).dot (bC d)).dot (bC d)) (nord d 4 0) := dot_C rfl (dot_C rfl (same_CC d))
  rw [same_DDCC d s hs t ht, h4 s hs t ht, h3 s hs t ht, h1 s hs t ht, h0 s hs t ht]

/-! ## Lists of tensors in nearest-neighbour form -/

theorem loopMpo_ok {N : ℕ} {dens : List ℂ} {W : Mpo ℂ} (h : 0 ∉ dens) : loopMpo N dens W = .ok (List.replicate N W) := by
  have := buildE_ok (f := fun _ => if 0 ∈ dens then .error .zerodiv else .ok W) (g := fun _ => W) (l := List.range N)
    (fun n _ => if_neg h)
  rw [loopMpo, this]
  simp [List.map_const']

/-- Closing a homogeneous list. -/
theorem closeObc_nn {d K N : ℕ} {W : Mpo ℂ} {X : Loc} (hN : 2 ≤ N) (h : NNBulk d K W X) :
    ∃ Ws, closeObc true (List.replicate N W) = .ok Ws ∧ NNForm d K N Ws fun _ => X := by
  obtain ⟨m, rfl⟩ : ∃ m, N = m + 2 := ⟨N - 2, by omega⟩
  refine ⟨_, ?_, nnForm_of (X := fun _ => X) (f := ⟨1, W.r, W.din, W.dout, fun _ b s t => W.v (W.l - 1) b s t⟩)
    (l := ⟨W.l, 1, W.din, W.dout, fun b _ s t => W.v b 0 s t⟩) (g := fun _ => W) hN ?_ (fun _ _ _ => h) ?_⟩
  · simp only [closeObc, if_true, List.replicate_succ, Nat.add_sub_cancel]
    congr 1
    rw [List.dropLast_cons_of_ne_nil (by simp), ← List.replicate_succ, List.dropLast_replicate]
    simp [List.map_const']
  · refine ⟨rfl, h.r, h.din, h.dout, ?_, ?_, ?_⟩
    · intro s hs t ht; simp only [h.l]; exact h.h s hs t ht
    · intro k hk s hs t ht; simp only [h.l]; exact h.A k hk s hs t ht
    · intro s hs t ht; simp only [h.l]; exact h.one s hs t ht
  · exact ⟨h.l, rfl, h.din, h.dout, h.top, h.B, h.h⟩

/-- A stretch of bulk tensors, from the last row to the first column. -/
theorem stretch_env {d K : ℕ} {X : ℕ → Loc} {g : ℕ → Mpo ℂ} (m n : ℕ)
    (hb : ∀ i, n ≤ i → i ≤ n + m → NNBulk d K (g i) (X i)) (s t : List ℕ)
    (hs : Cf d (m + 1) s) (ht : Cf d (m + 1) t) :
    mchain ((List.range' n (m + 1)).map g) s t 0 0 = opEl (List.replicate (m + 1) (eyeK ℂ d)) s t ∧
    (∀ k < K, mchain ((List.range' n (m + 1)).map g) s t (k + 1) 0
      = opEl ((X n).B k :: List.replicate m (eyeK ℂ d)) s t) ∧
    mchain ((List.range' n (m + 1)).map g) s t (K + 1) 0 = hamRec d K X m n s t := by
  induction m generalizing n s t with
  | zero =>
    obtain ⟨x, ss, rfl, hx, hss⟩ := hs.exists_cons
    obtain ⟨y, tt, rfl, hy, htt⟩ := ht.exists_cons
    obtain rfl := hss.zero
    obtain rfl := htt.zero
    have W := hb n le_rfl (by omega)
    have e : ∀ b, mchain ((List.range' n (0 + 1)).map g) [x] [y] b 0 = (g n).v b 0 x y := by
      intro b
      simp only [Nat.zero_add, List.range'_one, List.map_cons, List.map_nil, mchain]
      rw [sum_eq_single 0 (fun c _ hc => by simp [delta, hc]) (fun h => by simp [W.r] at h), delta_self, mul_one]
    simp only [e, opEl, List.replicate, hamRec, eyeK, mul_one]
    exact ⟨W.top x hx y hy, fun k hk => W.B k hk x hx y hy, W.h x hx y hy⟩
  | succ m ih =>
    obtain ⟨x, ss, rfl, hx, hss⟩ := hs.exists_cons
    obtain ⟨y, tt, rfl, hy, htt⟩ := ht.exists_cons
    obtain ⟨i1, i2, i3⟩ := ih (n + 1) (fun i h1 h2 => hb i (by omega) (by omega)) ss tt hss htt
    have W := hb n (le_refl _) (by omega)
    rw [List.range'_succ]
    simp only [List.map_cons, mchain, W.r, sum_range_succ' (n := K + 1)]
    refine ⟨?_, ?_, ?_⟩
    · rw [i1, W.top x hx y hy, sum_eq_zero fun c hc => by rw [W.zero 0 (by omega) c (mem_range.mp hc) x hx y hy, zero_mul]]
      simp only [List.replicate_succ, opEl, eyeK]; ring
    · intro k hk
      rw [i1, W.B k hk x hx y hy,
        sum_eq_zero fun c hc => by rw [W.zero (k + 1) (by omega) c (mem_range.mp hc) x hx y hy, zero_mul]]
      simp only [opEl]; ring
    · rw [i1, W.h x hx y hy, sum_range_succ, i3, W.one x hx y hy,
        sum_congr rfl fun c hc => by rw [W.A c (mem_range.mp hc) x hx y hy, i2 c (mem_range.mp hc)]]
      simp only [hamRec]; ring

/-- Matrix elements of a stretch of `N` equal tensors. -/
theorem stretch {d K N : ℕ} {W : Mpo ℂ} {X : Loc} (hN : 1 ≤ N) (h : NNBulk d K W X) (s t : List ℕ) (hs : Cf d N s) (ht : Cf d N t) :
    mchain (List.replicate N W) s t (W.l - 1) 0 = hamEl d K N (fun _ => X) s t := by
  obtain ⟨m, rfl⟩ : ∃ m, N = m + 1 := ⟨N - 1, by omega⟩
  have := (stretch_env (d := d) (K := K) (X := fun _ => X) (g := fun _ => W) m 0 (fun _ _ _ => h) s t hs ht).2.2
  rw [hamRec_eq d K _ m 0 s t hs.1 ht.1] at this
  rw [h.l, show K + 2 - 1 = K + 1 by omega, ← this]
  simp [List.map_const']

/-! ## Linearity -/

theorem at2_eye_left (d N n : ℕ) (M : Mat ℂ) : at2 d N n (eyeK ℂ d) M = at1 d N (n + 1) M := by
  simp only [at2, at1, List.replicate_succ', List.append_assoc, List.cons_append, List.nil_append]
  rw [show N - 2 - n = N - 1 - (n + 1) by omega]

theorem at2_eye_right {d N n : ℕ} (hn : n + 2 ≤ N) (M : Mat ℂ) : at2 d N n M (eyeK ℂ d) = at1 d N n M := by
  simp only [at2, at1]
  rw [show N - 1 - n = (N - 2 - n) + 1 by omega, List.replicate_succ]

/-- The matrix element of a one-site operator is linear in the operator. -/
theorem at1_lin {d N n : ℕ} {M : Mat ℂ} {l : List (ℂ × Mat ℂ)} {s t : List ℕ} (hs : Cf d N s) (ht : Cf d N t) (hn : n < N)
    (h : ∀ x < d, ∀ y < d, M.v x y = (l.map fun p => p.1 * p.2.v x y).sum) :
    opEl (at1 d N n M) s t = (l.map fun p => p.1 * opEl (at1 d N n p.2) s t).sum := by
  obtain ⟨p, w, q, rfl, hp, hw, hq⟩ := hs.split (show n + 1 ≤ N by omega)
  obtain ⟨p', w', q', rfl, hp', hw', hq'⟩ := ht.split (show n + 1 ≤ N by omega)
  obtain ⟨x, w, rfl, hx, hw⟩ := hw.exists_cons
  obtain rfl := hw.zero
  obtain ⟨x', w', rfl, hx', hw'⟩ := hw'.exists_cons
  obtain rfl := hw'.zero
  simp only [opEl_at1 (show n + 1 ≤ N by omega) hp.1 hp'.1 hq.1 hq'.1, h x hx x' hx']
  clear h
  induction l with
  | nil => simp
  | cons a l ih => simp only [List.map_cons, List.sum_cons] at ih ⊢; rw [← ih]; ring

/-- Number of neighbours of a site of an open chain. -/
def deg (N n : ℕ) : ℕ := (if 0 < n then 1 else 0) + if n + 1 < N then 1 else 0

/-- Terms given to both ends of every bond. -/
theorem sum_bonds (N : ℕ) (f : ℕ → ℂ) :
    ∑ n ∈ range (N - 1), (f n + f (n + 1)) = ∑ n ∈ range N, (deg N n : ℂ) * f n := by
  rcases N with _ | N
  · simp
  · simp only [Nat.add_sub_cancel, sum_add_distrib, deg, Nat.cast_add, add_mul]
    rw [add_comm]
    congr 1
    · rw [sum_range_succ' _ N]; simp
    · rw [sum_range_succ _ N]
      simp only [lt_irrefl, if_false, Nat.cast_zero, zero_mul, add_zero]
      refine sum_congr rfl fun n hn => ?_
      rw [if_pos (by have := mem_range.mp hn; omega)]; simp

end

end PyTeN.Boson
