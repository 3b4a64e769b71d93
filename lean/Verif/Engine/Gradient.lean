import Verif.Engine.Vumps
import Verif.Mps.Trunc
import Verif.Utils.Step

/-! # `regauge(gauge='symmetric')` (lib/mpslib/mpsfunctions.py) and the numerics of `HomogeneousIMPSengine` (lib/mpslib/engines.py)

Entries are complex numbers; the real `dtype` is not modelled. -/

namespace PyTeN.GradOpt
open Finset Transfer Regauge Vumps Lanczos
noncomputable section

/-! ## `regauge(tensor,gauge='symmetric',...)` -/

/-- The treatment of the eigenvalues of the left density matrix, lib/mpslib/mpsfunctions.py:2441-2449; `Regauge.cleanEig` with
`eigvals<=pinv` in place of `eigvals<pinv`. -/
def cleanLe (pinv : ℝ) (w : List ℝ) : Res (List ℝ × List ℝ) :=
  match unitSum (w.map fun x => |x|) with
  | .error e => .error e
  | .ok w1 =>
    match unitSum (w1.map fun x => if x ≤ pinv then 0 else x) with
    | .error e => .error e
    | .ok w2 => .ok (w2, w2.map fun x => if x > pinv then 1 / x else 0)

/-- `l=np.reshape(v,(chi1,chi1))` and the lines up to `inveigvals`, lib/mpslib/mpsfunctions.py:2435-2449: `eigvals`, `inveigvals`, `u`. -/
def densityLe (eigh : Eigh) (pinv : ℝ) (n : ℕ) (v : Vec ℂ) : Res (List ℝ × List ℝ × Mat ℂ) :=
  match reshape2 v n n with
  | .error e => .error e
  | .ok l =>
    let tr := ∑ i ∈ range n, l.v i i
    if tr = 0 then .error .nan
    else
      let h : Mat ℂ := ⟨n, n, fun i j => (l.v i j / tr + star (l.v j i / tr)) / 2⟩
      match cleanLe pinv (eigh h).1 with
      | .error e => .error e
      | .ok (w, wi) => .ok (w, wi, (eigh h).2)

/-- `lam=lam/Z`, the truncation if `trunc>1E-15`, and `np.sum(rest)`, lib/mpslib/mpsfunctions.py:2485, 2489-2500: the values kept and the
sum of the others. -/
def keep (trunc : ℝ) (Dmax : ℕ) (s : List ℝ) : Res (List ℝ × ℝ) :=
  andThen (normalise s) fun lam =>
  if trunc > 1e-15 then
    let big := lam.filter (trunc < ·)
    andThen (normalise (big.take Dmax)) fun k => .ok (k, (big.drop Dmax).sum + (lam.filter (· ≤ trunc)).sum)
  else .ok (lam, 0)

/-- `Z=np.trace(np.tensordot(A,np.conj(A),([0,2],[0,2]))); gamma/=np.sqrt(Z/len(lam))`, lib/mpslib/mpsfunctions.py:2504-2507; a division by
zero is reported as `nan`. -/
def unitGamma (lam : List ℝ) (A G : Ten ℂ) : Res (Ten ℂ) :=
  if A.sq / lam.length = 0 then .error .nan else .ok (divT (Real.sqrt (A.sq / lam.length)) G)

/-- `regauge(tensor,gauge='symmetric',...,numeig,pinv,trunc,Dmax)`, lib/mpslib/mpsfunctions.py:2429-2513: `gamma`, `lam` and the truncated
weight.  The first `gamma` and `A` (2487-2489) are overwritten before they are used. -/
def regaugeSym (O : LinAlg) (eigh : Eigh) (eigs : ℕ → Eigs) (fuel numeig : ℕ) (pinv trunc : ℝ) (Dmax : ℕ) (A : Ten ℂ) :
    Res (Ten ℂ × List ℝ × ℝ) :=
  andThen (tmEigs eigs fuel .right numeig A) fun (η, v) =>
  andThen (unitEta η A) fun T =>
  andThen (densityLe eigh pinv A.l v) fun (w, wi, u) =>
  let y := transp ((u.dot (diagMat (w.map Real.sqrt))).dot u.herm)
  let invy := ((transp u.herm).dot (diagMat (wi.map Real.sqrt))).dot (transp u)
  andThen (tmEigs eigs fuel .left numeig T) fun (_, v') =>
  andThen (density eigh pinv A.r v') fun (w', wi', u') =>
  let x := (u'.dot (diagMat (w'.map Real.sqrt))).dot u'.herm
  let invx := (u'.dot (diagMat (wi'.map Real.sqrt))).dot u'.herm
  let usv := O.svd (y.dot x)
  andThen (keep trunc Dmax usv.2.1) fun (lam, rest) =>
  andThen (absorbL ((takeRows usv.2.2 lam.length).dot invx) T) fun G1 =>
  andThen (absorbR G1 (invy.dot (takeCols usv.1 lam.length))) fun G =>
  andThen (absorbL (diagMat lam) G) fun A' =>
  andThen (unitGamma lam A' G) fun G' => .ok (G', lam, rest)

/-! ## `HomogeneousIMPSengine` -/

/-- The attributes `_numeig`, `_pinv`, `_trunc`. -/
structure Opts where
  numeig : ℕ
  pinv : ℝ
  trunc : ℝ

/-- `HomogeneousIMPSengine.__init__(Nmax,mps,mpo,...)`, lib/mpslib/engines.py:693-705: the MPO tensors `_mpo`.  They are those of
`VUMPSengine`; the other attributes are in `Step.init`. -/
def init (A : Ten ℂ) (W : Mpo ℂ) : Res Vumps.Eng := Vumps.init [A] [W]

/-- What a call of `__doGradStep__` computes before the step size: `_gamma`, `_lam`, `_A`, `_B`, `_tensor`, `_lb`, `_rb`, `_grad`, `_normgrad`,
`Elocleft`, `Elocright`, `leftn`, `rightn`. -/
structure Pt where
  gamma : Ten ℂ
  lam : List ℝ
  A : Ten ℂ
  B : Ten ℂ
  tensor : Ten ℂ
  lb : Env ℂ
  rb : Env ℂ
  grad : Ten ℂ
  normgrad : ℝ
  en : ℂ
  enR : ℂ
  leftn : ℝ
  rightn : ℝ

/-- `X-c*Y` for tensors; broadcasting is not modelled. -/
def subT (X : Ten ℂ) (c : ℂ) (Y : Ten ℂ) : Res (Ten ℂ) :=
  if X.l = Y.l ∧ X.r = Y.r ∧ X.d = Y.d then .ok ⟨Y.l, Y.r, Y.d, fun i j s => X.v i j s - c * Y.v i j s⟩ else .error .value

/-- `__doGradStep__`, lib/mpslib/engines.py:727-776, up to the norm of the gradient.  `_D` is the bond dimension of `_mps` and becomes
`len(_lam)`.  The environments are those of `VUMPSengine` (`Vumps.envLeft`, `Vumps.envRight`) with `np.diag(_lam**2)` for all density
matrices; `RENORMBLOCKHAMGMRES` ignores `x0`, so `_kleft` and `_kright` are not part of the state. -/
def point (X : Ext) (o : Opts) (e : Vumps.Eng) (mps : Ten ℂ) : Res Pt :=
  andThen (regaugeSym X.O X.eigh X.eigs X.fuel o.numeig o.pinv o.trunc mps.l mps) fun (G, lam, _) =>
  andThen (absorbL (diagMat lam) G) fun A =>
  andThen (absorbR G (diagMat lam)) fun B =>
  andThen (absorbL (diagMat lam) B) fun T =>
  let e' : Vumps.Eng := { e with D := lam.length }
  let rho := diagMat (lam.map (· ^ 2))
  andThen (envLeft X e' A rho rho rho) fun (lb, en) =>
  andThen (envRight X e' B rho rho rho) fun (rb, enR) =>
  andThen (contractionH lb T e.W rb) fun H =>
  andThen (subT H (2 * en) T) fun grad =>
  .ok ⟨G, lam, A, B, T, lb, rb, grad, grad.sq, en, enR, leftDev A, rightDev B⟩

/-- `opt=_tensor-alpha_*_grad`, `_mps=opt·np.diag(1.0/_lam)`, and the normalisation with `prepareTruncate(_mps,direction=1,thresh=1E-14)`,
lib/mpslib/engines.py:787-788, 796-797, 801-803.  A vanishing Schmidt value gives inf or nan, reported as `nan`. -/
def move (O : LinAlg) (pt : Pt) (α : ℝ) : Res (Ten ℂ) :=
  andThen (subT pt.tensor α pt.grad) fun opt =>
  if 0 ∈ pt.lam then .error .nan
  else
    andThen (absorbR opt (diagMat (pt.lam.map (1 / ·)))) fun m =>
    andThen (prepareTruncateR O m none 1e-14) fun (A, s, v, _) =>
    andThen (normalise s) fun s' => absorbR A ((diagMat s').dot v)

/-- `__doGradStep__`, lib/mpslib/engines.py:725-808: the new engine, the record of the step and `converged`. -/
def gradStep (X : Ext) (o : Opts) (e : Vumps.Eng) (p : Step.Par ℝ) (eps : ℝ) (s : Step.Eng (Ten ℂ) Pt ℝ) :
    Res (Step.Eng (Ten ℂ) Pt ℝ × Step.Entry Pt ℝ × Bool) :=
  andThen (point X o e s.mps) fun pt =>
  match Step.determineNewStepsize p s.ctl pt.normgrad s.old s.it with
  | .error x => .error x
  | .ok (c, true) =>
    match s.backup with
    | none => .error .attribute
    | some b => andThen (move X.O b c.cur) fun m =>
      .ok ({ s with mps := m, ctl := c }, ⟨pt, pt.normgrad, true, c.cur⟩, decide (pt.normgrad < eps))
  | .ok (c, false) => andThen (move X.O pt c.cur) fun m =>
      .ok ({ s with mps := m, ctl := c, backup := some pt, old := pt.normgrad }, ⟨pt, pt.normgrad, false, c.cur⟩, decide (pt.normgrad < eps))

/-- `__simulate__`, lib/mpslib/engines.py:813-826, with the steps above; `X` is the same in all steps.  Checkpoint files are not modelled. -/
def simulate (X : Ext) (o : Opts) (e : Vumps.Eng) (p : Step.Par ℝ) (eps : ℝ) (Nmax : ℤ) :
    ℕ → Step.Eng (Ten ℂ) Pt ℝ → List (Step.Entry Pt ℝ) → Res (Step.Eng (Ten ℂ) Pt ℝ × List (Step.Entry Pt ℝ) × Bool)
  | 0, _, _ => .error .exit
  | fuel + 1, s, log =>
    match gradStep X o e p eps s with
    | .error x => .error x
    | .ok (s', r, conv) =>
      if Nmax ≤ s'.it then .ok (s', log ++ [r], conv)
      else if conv then .ok ({ s' with it := s'.it + 1 }, log ++ [r], true)
      else simulate X o e p eps Nmax fuel { s' with it := s'.it + 1 } (log ++ [r])

/-! ## `HomogeneousDiscretizedBosonEngine` -/

/-- Keyword arguments of the constructor. -/
structure Kw where
  factor : ℝ
  itreset : ℕ
  normtol : ℝ
  epsilon : ℝ
  numeig : ℕ

/-- `HomogeneousDiscretizedBosonEngine.__init__`, lib/mpslib/engines.py:834-836: what it passes on to `HomogeneousIMPSengine.__init__` (`tol`,
`lgmrestol`, `ncv` and `Nmaxlgmres` dropped, they are not modelled). -/
def bosonKw (_ : Kw) : Kw := ⟨2, 10, 1 / 10, 1e-10, 3⟩

/-- `dens` in its `__simulate__`, lib/mpslib/engines.py:848-850. -/
def dens (T : Ten ℂ) (dx : ℝ) : ℂ :=
  ∑ ind ∈ Ico 1 T.d, (∑ j ∈ range T.r, ∑ i ∈ range T.l, star (T.v i j ind) * T.v i j ind) / dx

end
end PyTeN.GradOpt
