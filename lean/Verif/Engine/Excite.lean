import Verif.Engine.TdvpInf

/-! # `ExHAproductSingle` (lib/mpslib/mpsfunctions.py)

The routine has the tensors `mpsA` and `mpsAtilde` of the states to the left and to the right of the excitation; only `mpsA=mpsAtilde` is modelled, as in the
code of `ExcitationEngine` (lib/mpslib/engines.py:1689-1811).  Entries are complex numbers. -/

namespace PyTeN.Excite
open Finset Transfer Regauge Vumps Steady
noncomputable section

/-- The arguments of `ExHAproductSingle` that are used, without `k` and `vec1`: `K` is `LAAAA_OneMinusEAAinv`, `KR` is `OneMinusEAAinv_RAAAA`, `il` and `ir` are
`invsqrtl` and `invsqrtr`, `W0` and `W1` are `mpo[0]` and `mpo[1]`. -/
structure Inp where
  l : Mat ℂ
  r : Mat ℂ
  L : Env ℂ
  LAA : Env ℂ
  K : Env ℂ
  R : Env ℂ
  RAA : Env ℂ
  KR : Env ℂ
  A : Ten ℂ
  VL : Ten ℂ
  il : Mat ℂ
  ir : Mat ℂ
  W0 : Mpo ℂ
  W1 : Mpo ℂ

/-- `contractionE(Lexp,mps,Rexp)`, lib/mpslib/mpsfunctions.py:1021-1023. -/
def contractionE (L : Env ℂ) (T : Ten ℂ) (R : Env ℂ) : Res (Ten ℂ) :=
  if R.u = T.r ∧ L.u = T.l ∧ L.m = R.m then
    .ok ⟨L.w, R.w, T.d, fun i' j' s => ∑ i ∈ range L.u, ∑ b ∈ range L.m, ∑ j ∈ range R.u, L.v i i' b * T.v i j s * R.v j j' b⟩
  else .error .value

/-- A number times a tensor. -/
def scaleT (c : ℂ) (T : Ten ℂ) : Ten ℂ := ⟨T.l, T.r, T.d, fun i j s => c * T.v i j s⟩

/-- The sum of two tensors; broadcasting is not modelled. -/
def addT (S T : Ten ℂ) : Res (Ten ℂ) :=
  if S.l = T.l ∧ S.r = T.r ∧ S.d = T.d then .ok ⟨S.l, S.r, S.d, fun i j s => S.v i j s + T.v i j s⟩ else .error .value

/-- `facp`, lib/mpslib/mpsfunctions.py:2644-2648. -/
def facp (k : ℝ) : ℂ := if 1e-8 ≤ |k| then Complex.exp (Complex.I * k) else 1

/-- `facm`, lib/mpslib/mpsfunctions.py:2645-2648. -/
def facm (k : ℝ) : ℂ := if 1e-8 ≤ |k| then Complex.exp (-Complex.I * k) else 1

/-- `temp[:,:,0]-np.tensordot(P,temp,([0,1,2],[0,1,2]))*Q[:,:,0]` for `np.abs(k)<1E-8` and `temp[:,:,0]` otherwise, lib/mpslib/mpsfunctions.py:2677-2681, 2688-2691,
2701-2704, 2717-2721; broadcasting is not modelled. -/
def inhom (k : ℝ) (T P Q : Env ℂ) : Res (Mat ℂ) :=
  if T.m = 0 then .error .index
  else if |k| < 1e-8 then
    if P.u = T.u ∧ P.w = T.w ∧ P.m = T.m then
      if Q.m = 0 then .error .index
      else if Q.u = T.u ∧ Q.w = T.w then
        .ok ⟨T.u, T.w, fun i j => T.v i j 0 - (∑ i' ∈ range T.u, ∑ j' ∈ range T.w, ∑ b ∈ range T.m, P.v i' j' b * T.v i' j' b) * Q.v i j 0⟩
      else .error .value
    else .error .value
  else .ok (slice T 0)

/-- `ih=np.reshape(.,(D1*D1))`, `bla=TDVPGMRES(mpsA,mpsA,r,l,ih,...)` and `np.reshape(bla,(D1,D1,1))`, lib/mpslib/mpsfunctions.py:2677-2683, 2687-2694, 2700-2707,
2716-2724.  `TDVPGMRES` (2570-2592) does not pass its argument `momentum` on to `RENORMBLOCKHAMGMRES`, which uses zero. -/
def resolve (solve : Lgmres) (dir : Dir) (A : Ten ℂ) (r l : Mat ℂ) (D1 : ℕ) (ih : Mat ℂ) (rnd : ℕ → ℂ) : Res (Env ℂ) :=
  andThen (flat ih (D1 * D1)) fun _ =>
  andThen (renorm solve dir A r l ih rnd) fun x =>
  if x.r * x.c = D1 * D1 then .ok ⟨D1, D1, 1, fun i j _ => x.v ((i * D1 + j) / x.c) ((i * D1 + j) % x.c)⟩ else .error .value

/-- `B`, lib/mpslib/mpsfunctions.py:2652-2655; also returns `VLl`. -/
def tangent (I : Inp) (vec : Vec ℂ) : Res (Ten ℂ × Ten ℂ) :=
  andThen (reshape2 vec I.VL.r I.VL.l) fun X =>
  if X.c = I.ir.r then
    andThen (absorbL I.il I.VL) fun VLl =>
    andThen (absorbR VLl (X.dot I.ir)) fun B => .ok (VLl, B)
  else .error .value

/-- The twelve terms, lib/mpslib/mpsfunctions.py:2657-2726. -/
def terms (solve : Lgmres) (rnd : ℕ → ℕ → ℂ) (I : Inp) (k : ℝ) (B : Ten ℂ) : Res (List (Ten ℂ)) :=
  let D1 := I.VL.l
  andThen (contractionH I.L B I.W0 I.RAA) fun t1 =>
  andThen (contractionH I.LAA B I.W1 I.R) fun t2 =>
  andThen (addLayerL I.R B I.W1 I.A) fun e3 =>
  andThen (contractionH I.L I.A I.W0 e3) fun t3 =>
  andThen (addLayerR I.L B I.W0 I.A) fun e4 =>
  andThen (contractionH e4 I.A I.W1 I.R) fun t4 =>
  andThen (contractionE I.L B I.KR) fun t5 =>
  andThen (contractionE I.K B I.R) fun t6 =>
  andThen (addELayerL I.R B I.A) fun e7 =>
  andThen (inhom k e7 I.L I.R) fun i7 =>
  andThen (resolve solve .left I.A I.r I.l D1 i7 (rnd 7)) fun s7 =>
  andThen (contractionE I.K I.A s7) fun t7 =>
  andThen (addELayerR I.K B I.A) fun e8 =>
  andThen (inhom k e8 I.R I.L) fun i8 =>
  andThen (resolve solve .right I.A I.r I.l D1 i8 (rnd 8)) fun x8 =>
  andThen (contractionE x8 I.A I.R) fun t8 =>
  andThen (contractionH I.LAA I.A I.W1 s7) fun t9 =>
  andThen (addLayerR I.LAA B I.W1 I.A) fun e10 =>
  andThen (inhom k e10 I.R I.L) fun i10 =>
  andThen (resolve solve .right I.A I.r I.l D1 i10 (rnd 10)) fun x10 =>
  andThen (contractionE x10 I.A I.R) fun t10 =>
  andThen (addLayerL s7 I.A I.W1 I.A) fun e11 =>
  andThen (contractionH I.L I.A I.W0 e11) fun t11 =>
  andThen (addLayerR e4 I.A I.W1 I.A) fun e12 =>
  andThen (inhom k e12 I.R I.L) fun i12 =>
  andThen (resolve solve .right I.A (slice I.R 0) (slice I.L 0) D1 i12 (rnd 12)) fun x12 =>
  andThen (contractionE x12 I.A I.R) fun t12 =>
  .ok [t1, t2, scaleT (facp k) t3, scaleT (facm k) t4, t5, t6, scaleT (facp k) t7, scaleT (facm k) t8, scaleT (facp k) t9, scaleT (facm k) t10,
    scaleT (facp k * facp k) t11, scaleT (facm k * facm k) t12]

/-- `term1+term2+...`. -/
def sumT : Ten ℂ → List (Ten ℂ) → Res (Ten ℂ)
  | S, [] => .ok S
  | S, T :: Ts => andThen (addT S T) fun S' => sumT S' Ts

/-- `out=np.tensordot(out,np.conj(VLl),([0,2],[0,2]))` and `np.reshape(np.tensordot(out,invsqrtr,([0],[1])),(D1*D2))`, lib/mpslib/mpsfunctions.py:2729-2730. -/
def project (I : Inp) (VLl out : Ten ℂ) : Res (Vec ℂ) :=
  if out.l = VLl.l ∧ out.d = VLl.d ∧ out.r = I.ir.c then
    flat ⟨VLl.r, I.ir.r, fun q j => ∑ b ∈ range out.r, (∑ a ∈ range out.l, ∑ s ∈ range out.d, out.v a b s * star (VLl.v a q s)) * I.ir.v j b⟩ (I.VL.l * I.VL.r)
  else .error .value

/-- `ExHAproductSingle(l,L,LAA,LAAAA,LAAAA_OneMinusEAAinv,mpsA,mpsAtilde,VL,invsqrtl,invsqrtr,mpo,r,R,RAA,RAAAA,OneMinusEAAinv_RAAAA,GSenergy,k,tol,vec1)`,
lib/mpslib/mpsfunctions.py:2638-2730, for `mpsAtilde=mpsA`; `rnd` are the random initial vectors. -/
def exHA (solve : Lgmres) (rnd : ℕ → ℕ → ℂ) (I : Inp) (k : ℝ) (vec : Vec ℂ) : Res (Vec ℂ) :=
  andThen (tangent I vec) fun (VLl, B) =>
  andThen (terms solve rnd I k B) fun ts =>
  match ts with
  | [] => .error .unbound
  | t :: ts => andThen (sumT t ts) fun out => project I VLl out

end
end PyTeN.Excite
