import Verif.Mps.CentralC
import Verif.Mps.FixA0

/-! # The left gauge of a unit cell of lattice-cMPS tensors -/

namespace PyTeN.GradRegauge
open Finset Transfer Regauge CentralC FixA0

noncomputable section

/-- The sweep of lib/mpslib/mpsfunctionsgradopt.py:152-167: `t` is the tensor of the present site, the list holds those right of it.  All
tensors are `D×D` here, as `TransferOperator` fails for others. -/
def sweep (O : LinAlg) (pinv : Mat ℂ → Mat ℂ) (t : Ten ℂ) : List (Ten ℂ) → Res (List (Ten ℂ) × Mat ℂ)
  | [] =>
    match prepareTensorFixPhase O pinv t 1 .other with
    | .error e => .error e
    | .ok none => .error .type
    | .ok (some (a, m)) => .ok ([a], m)
  | u :: us =>
    match prepareTensorFixPhase O pinv t 1 .other with
    | .error e => .error e
    | .ok none => .error .type
    | .ok (some (a, m)) =>
      match sweep O pinv (mulL m u) us with
      | .error e => .error e
      | .ok (out, r) => .ok (a :: out, r)

/-- `mps[-1]=np.transpose(np.tensordot(mps[-1],RB,([1],[0])),(0,2,1))`, lib/mpslib/mpsfunctionsgradopt.py:148, where `t` is the first tensor
of the cell and the list holds the others. -/
def mulLast (m : Mat ℂ) (t : Ten ℂ) : List (Ten ℂ) → Ten ℂ × List (Ten ℂ)
  | [] => (mulR t m, [])
  | u :: us => let w := mulLast m u us
    (t, w.1 :: w.2)

/-- The part of `regauge` after the density matrices are known, lib/mpslib/mpsfunctionsgradopt.py:128-173.  `rd` is in reversed order.
`LBinv`, `RBinv`, which are not used, are left out. -/
def finish (O : LinAlg) (sqrtm pinv : Mat ℂ → Mat ℂ) (D : ℕ) (ts : List (Ten ℂ)) (ld rd : List (Vec ℂ)) : Res (List (Ten ℂ) × Mat ℂ) :=
  let sqrtl := trM (sqrtm (square D (ld.getD 0 ⟨0, fun _ => 0⟩)))
  let sqrtr := sqrtm (square D (rd.getD (rd.length - 1) ⟨0, fun _ => 0⟩))
  let w := O.svd (dotM D sqrtl sqrtr)
  let LB := dotM D (dotM D (diagMat w.2.1) w.2.2) (pinv sqrtr)
  let RB := dotM D (pinv sqrtl) w.1
  match ts with
  | [] => .error .index
  | t :: tl => let c := mulLast RB (mulL LB t) tl
    sweep O pinv c.1 c.2

/-- `regauge(mps,...)`, lib/mpslib/mpsfunctionsgradopt.py:98-173, for complex tensors; `sqrtm` and `pinv` are `scipy.linalg.sqrtm` and
`np.linalg.pinv`.  The power of a complex number is the principal one; 0 to a negative power is nan. -/
def regauge (O : LinAlg) (sqrtm pinv : Mat ℂ → Mat ℂ) (eigs : Eigs) (ts : List (Ten ℂ)) : Res (List (Ten ℂ) × Mat ℂ) :=
  match ts with
  | [] => .error .index
  | t0 :: _ =>
    if t0.l = 0 ∨ t0.r = 0 ∨ t0.d = 0 then .error .index
    else
      match cellEigs eigs .right t0.l ts with
      | .error e => .error e
      | .ok (η1, v1) =>
        if η1 = 0 then .error .nan
        else
          let φ : ℝ := (η1 ^ ((-(1 / (2 * (ts.length : ℝ))) : ℝ) : ℂ)).re
          let ts' := ts.map (mulT φ)
          match densVec t0.l v1 with
          | .error e => .error e
          | .ok l =>
            match rows .right ts' l with
            | .error e => .error e
            | .ok ld =>
              match cellEigs eigs .left t0.l ts' with
              | .error e => .error e
              | .ok (_, v2) =>
                match densVec t0.l v2 with
                | .error e => .error e
                | .ok r =>
                  match rows .left ts'.reverse r with
                  | .error e => .error e
                  | .ok rd => finish O sqrtm pinv t0.l ts' ld rd

end

end PyTeN.GradRegauge
