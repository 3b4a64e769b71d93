import Verif.Mps.RegaugeImps

/-! # The central gauge of a unit cell -/

namespace PyTeN.CentralC
open Finset Transfer Regauge

noncomputable section

/-- `TransferOperator(direction,A,vector)`, lib/mpslib/mpsfunctionsgradopt.py:484-491; the result is reshaped to `D1*D2` entries, which
fails unless `D1=D2`. -/
def transferOp (dir : Dir) (A : Ten ℂ) (x : Vec ℂ) : Res (Vec ℂ) :=
  match dir with
  | .right =>
    match reshape2 x A.l A.l with
    | .error e => .error e
    | .ok X => flat ⟨A.r, A.r, fun j j' => ∑ i ∈ range A.l, ∑ i' ∈ range A.l, ∑ s ∈ range A.d, X.v i i' * A.v i j s * star (A.v i' j' s)⟩ (A.l * A.r)
  | .left =>
    match reshape2 x A.r A.r with
    | .error e => .error e
    | .ok X => flat ⟨A.l, A.l, fun i i' => ∑ j ∈ range A.r, ∑ j' ∈ range A.r, ∑ s ∈ range A.d, X.v j j' * A.v i j s * star (A.v i' j' s)⟩ (A.l * A.r)

/-- The loops of `UnitcellTransferOperator`, lib/mpslib/mpsfunctionsgradopt.py:533-543, for `returnfull==True`; the tensors are in
processing order, the result is the array `x` as the list of its rows.  Every row has `D²` entries, as `TransferOperator` fails for any
other number. -/
def rows (dir : Dir) : List (Ten ℂ) → Vec ℂ → Res (List (Vec ℂ))
  | [], x => .ok [x]
  | A :: l, x =>
    match transferOp dir A x with
    | .error e => .error e
    | .ok y =>
      match rows dir l y with
      | .error e => .error e
      | .ok r => .ok (x :: r)

/-- The same loops for `returnfull==False`, lib/mpslib/mpsfunctionsgradopt.py:524-532. -/
def lastRow (dir : Dir) : List (Ten ℂ) → Vec ℂ → Res (Vec ℂ)
  | [], x => .ok x
  | A :: l, x =>
    match transferOp dir A x with
    | .error e => .error e
    | .ok y => lastRow dir l y

/-- The order in which the tensors are processed, lib/mpslib/mpsfunctionsgradopt.py:527, 531, 537, 541. -/
def order (dir : Dir) (ts : List (Ten ℂ)) : List (Ten ℂ) := match dir with | .right => ts | .left => ts.reverse

open Classical in
/-- The calls of the eigensolver and the while loop, lib/mpslib/mpsfunctionsgradopt.py:553-560: `n` is the dimension of the operator, `k`
is `numeig`.  scipy refuses to compute `k>=n-1` eigenvalues of a `LinearOperator` (TypeError), so the loop ends after at most `n` steps
and the case of exhausted fuel, in which `k>n`, is this error, too. -/
def eigLoop (eigs : Eigs) (n : ℕ) (f : Vec ℂ → Res (Vec ℂ)) : ℕ → ℕ → Res (ℂ × Vec ℂ)
  | 0, _ => .error .type
  | fuel + 1, k =>
    if n ≤ k + 1 then .error .type
    else
      match eigs n f k with
      | .error e => .error e
      | .ok l =>
        match argmaxRe l with
        | .error e => .error e
        | .ok (η, v) => if |η.im| > 1e-4 then eigLoop eigs n f fuel (k + 1) else .ok (η, v)

/-- `UnitcellTMeigs(mps,direction,numeig=6,...)`, lib/mpslib/mpsfunctionsgradopt.py:547-561, for complex tensors; `numeig` is not returned. -/
def cellEigs (eigs : Eigs) (dir : Dir) (D : ℕ) (ts : List (Ten ℂ)) : Res (ℂ × Vec ℂ) :=
  eigLoop eigs (D * D) (lastRow dir (order dir ts)) (D * D) 6

/-- `np.reshape(v,(D,D))`; every vector has `D²` entries here. -/
def square (D : ℕ) (v : Vec ℂ) : Mat ℂ := ⟨D, D, fun i j => v.v (i * D + j)⟩

/-- `l=np.reshape(v1,(D,D)); l/=np.trace(l); l=(l+herm(l))/2.0; np.reshape(l,D*D)`, lib/mpslib/mpsfunctionsgradopt.py:37-42 and 45-51; a
division by zero gives nan. -/
def densVec (D : ℕ) (v : Vec ℂ) : Res (Vec ℂ) :=
  let tr := ∑ i ∈ range D, (square D v).v i i
  if tr = 0 then .error .nan
  else .ok ⟨D * D, fun k => ((square D v).v (k / D) (k % D) / tr + star ((square D v).v (k % D) (k / D) / tr)) / 2⟩

/-- `mps[n]*=phi` for a real number. -/
def mulT (z : ℝ) (t : Ten ℂ) : Ten ℂ := ⟨t.l, t.r, t.d, fun i j s => t.v i j s * (z : ℂ)⟩

/-- `a.dot(b)` of two square matrices of the same size. -/
def dotM (D : ℕ) (a b : Mat ℂ) : Mat ℂ := ⟨D, D, fun i j => ∑ k ∈ range D, a.v i k * b.v k j⟩

/-- `np.transpose(a)`. -/
def trM (a : Mat ℂ) : Mat ℂ := ⟨a.c, a.r, fun i j => a.v j i⟩

/-- `a.dot(A[:,:,m])` for `m` in `range(d)`. -/
def dotL (D d : ℕ) (a : Mat ℂ) (A : Ten ℂ) : Ten ℂ := ⟨D, D, d, fun i j s => ∑ k ∈ range D, a.v i k * A.v k j s⟩

/-- `A[:,:,m].dot(a)` for `m` in `range(d)`. -/
def dotR (D d : ℕ) (A : Ten ℂ) (a : Mat ℂ) : Ten ℂ := ⟨D, D, d, fun i j s => ∑ k ∈ range D, A.v i k s * a.v k j⟩

/-- What `regaugecentralC` returns, and the argument, which is changed in place. -/
structure Out where
  gamma : List (Ten ℂ)
  mpsl : List (Ten ℂ)
  mpsr : List (Ten ℂ)
  Cs : List (Mat ℂ)
  ldens : List (Vec ℂ)
  rdens : List (Vec ℂ)
  sqrtl : List (Mat ℂ)
  sqrtr : List (Mat ℂ)
  eta1 : ℂ
  eta2 : ℂ
  mps : List (Ten ℂ)

/-- Entry of a list; every index is in range where this is used. -/
def at_ (l : List (Mat ℂ)) (n : ℕ) : Mat ℂ := l.getD n ⟨0, 0, fun _ _ => 0⟩

/-- The same for tensors. -/
def atT (l : List (Ten ℂ)) (n : ℕ) : Ten ℂ := l.getD n ⟨0, 0, 0, fun _ _ _ => 0⟩

/-- The part of `regaugecentralC` after the density matrices are known, lib/mpslib/mpsfunctionsgradopt.py:52-96.  `rd` is in reversed
order.  `mps[n][:,:,m]` fails if tensor `n` has fewer components than tensor 0; more components are not looked at. -/
def assemble (sqrtm pinv : Mat ℂ → Mat ℂ) (D d : ℕ) (ts : List (Ten ℂ)) (ld rd : List (Vec ℂ)) (η1 η2 : ℂ) : Res Out :=
  let N := ts.length
  let ls := ld.map fun x => trM (sqrtm (square D x))
  let rs := rd.map fun x => sqrtm (square D x)
  let Cs := (List.range ld.length).map fun n => dotM D (at_ ls n) (at_ rs (rd.length - 1 - n))
  if ∃ t ∈ ts, t.d < d then .error .index
  else
    let gamma := (List.range N).map fun n =>
      dotR D d (dotL D d (pinv (at_ rs (N - n))) (atT ts n)) (pinv (at_ ls (n + 1)))
    .ok ⟨gamma, (List.range N).map fun n => dotL D d (at_ Cs n) (atT gamma n), (List.range N).map fun n => dotR D d (atT gamma n) (at_ Cs (n + 1)),
      Cs, ld, rd, ls, rs, η1, η2, ts⟩

/-- `regaugecentralC(mps,...)`, lib/mpslib/mpsfunctionsgradopt.py:22-96, for complex tensors; `sqrtm` and `pinv` are
`scipy.linalg.sqrtm` and `np.linalg.pinv(.,rcond=rcond)`.  The power of a complex number is the principal one; 0 to a negative power is
nan. -/
def regaugecentralC (sqrtm pinv : Mat ℂ → Mat ℂ) (eigs : Eigs) (ts : List (Ten ℂ)) : Res Out :=
  match ts with
  | [] => .error .index
  | t0 :: _ =>
    if t0.l = 0 ∨ t0.r = 0 ∨ t0.d = 0 then .error .index
    else
      match cellEigs eigs .right t0.l ts with
      | .error e => .error e
      | .ok (η1, v1) =>
        if η1 = 0 then .error .nan
        else
          let φ : ℝ := (η1 ^ ((-(1 / (2 * (ts.length : ℝ))) : ℝ) : ℂ)).re
          let ts' := ts.map (mulT φ)
          match densVec t0.l v1 with
          | .error e => .error e
          | .ok l =>
            match rows .right ts' l with
            | .error e => .error e
            | .ok ld =>
              match cellEigs eigs .left t0.l ts' with
              | .error e => .error e
              | .ok (η2, v2) =>
                match densVec t0.l v2 with
                | .error e => .error e
                | .ok r =>
                  match rows .left ts'.reverse r with
                  | .error e => .error e
                  | .ok rd => assemble sqrtm pinv t0.l t0.d ts' ld rd η1 η2

/-- `computeOrthogonalMPS(mps,...)`, lib/mpslib/mpsfunctionsgradopt.py:363-367: mpsl, mpsr, Cs, ldens, rdens, etal, etar. -/
def computeOrthogonalMPS (sqrtm pinv : Mat ℂ → Mat ℂ) (eigs : Eigs) (ts : List (Ten ℂ)) :
    Res (List (Ten ℂ) × List (Ten ℂ) × List (Mat ℂ) × List (Vec ℂ) × List (Vec ℂ) × ℂ × ℂ) :=
  match regaugecentralC sqrtm pinv eigs ts with
  | .error e => .error e
  | .ok o => .ok (o.mpsl, o.mpsr, o.Cs, o.ldens, o.rdens, o.eta1, o.eta2)

end

end PyTeN.CentralC
