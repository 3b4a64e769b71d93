import Verif.Engine.Excite
import Verif.Engine.ExciteSpec
import Verif.Engine.TdvpInfRun

/-! # Lemmas for `ExHAproductSingle`: what its parts compute, in terms of matrices -/

namespace PyTeN.Excite
open Finset Transfer Regauge Vumps Steady Matrix TdvpInf
noncomputable section

variable {D : ℕ}

/-- Left blocks extended by a site with an MPO tensor. -/
def extR (d : ℕ) (W : Mpo ℂ) (F : ℕ → Matrix (Fin D) (Fin D) ℂ) (A C : ℕ → Matrix (Fin D) (Fin D) ℂ) (c : ℕ) : Matrix (Fin D) (Fin D) ℂ :=
  ∑ b ∈ range W.l, ∑ s ∈ range d, ∑ t ∈ range d, W.v b c s t • ((C t)ᴴ * F b * A s)

/-- Right blocks extended by a site with an MPO tensor. -/
def extL (d : ℕ) (W : Mpo ℂ) (G : ℕ → Matrix (Fin D) (Fin D) ℂ) (A C : ℕ → Matrix (Fin D) (Fin D) ℂ) (b : ℕ) : Matrix (Fin D) (Fin D) ℂ :=
  ∑ c ∈ range W.r, ∑ s ∈ range d, ∑ t ∈ range d, W.v b c s t • (A s * G c * (C t)ᴴ)

/-- The shape of a tensor, an MPO tensor and a block. -/
structure TenD (D d : ℕ) (T : Ten ℂ) : Prop where
  l : T.l = D
  r : T.r = D
  d : T.d = d

structure MpoD (d : ℕ) (W : Mpo ℂ) : Prop where
  i : W.din = d
  o : W.dout = d

structure EnvD (D m : ℕ) (E : Env ℂ) : Prop where
  u : E.u = D
  w : E.w = D
  m : E.m = m

variable {d m : ℕ} {E L R : Env ℂ} {A B T : Ten ℂ} {W W0 W1 : Mpo ℂ}

theorem addR' (hA : TenD D d A) (hB : TenD D d B) (hW : MpoD d W) (hE : EnvD D W.l E) :
    ∃ F, addLayerR E A W B = .ok F ∧ EnvD D W.r F ∧ ∀ c, lo D F c = extR d W (lo D E) (mat D A) (mat D B) c := by
  obtain ⟨F, h1, h2, h3, h4, h5⟩ := addR E A B W hA.l hA.r hB.l hB.r (hA.d.trans hW.i.symm) (hW.o.trans hB.d.symm) hE.u hE.w hE.m
  exact ⟨F, h1, ⟨h2, h3, h4⟩, fun c => by rw [h5, hA.d, hB.d, extR]⟩

theorem addL' (hA : TenD D d A) (hB : TenD D d B) (hW : MpoD d W) (hE : EnvD D W.r E) :
    ∃ F, addLayerL E A W B = .ok F ∧ EnvD D W.l F ∧ ∀ b, up D F b = extL d W (up D E) (mat D A) (mat D B) b := by
  refine ⟨_, if_pos ⟨hE.u.trans hA.r.symm, hE.m, hA.d.trans hW.i.symm, hE.w.trans hB.r.symm, hW.o.trans hB.d.symm⟩, ⟨hA.l, hB.l, rfl⟩, fun c => ?_⟩
  ext j' j
  simp only [up, extL, Matrix.sum_apply, Matrix.smul_apply, Matrix.mul_apply, conjTranspose_apply, mat, hE.u, hE.w, hE.m, smul_eq_mul, hA.d, hB.d]
  rw [Finset.sum_range (n := D)]
  simp only [Finset.sum_range (n := D), Finset.sum_mul, Finset.mul_sum]
  have e : ∀ (F : Fin D → Fin D → ℕ → ℕ → ℕ → ℂ), ∑ i, ∑ i', ∑ b ∈ range W.r, ∑ s ∈ range d, ∑ t ∈ range d, F i i' b s t
      = ∑ b ∈ range W.r, ∑ s ∈ range d, ∑ t ∈ range d, ∑ i', ∑ i, F i i' b s t := by
    intro F
    calc _ = ∑ i, ∑ b ∈ range W.r, ∑ s ∈ range d, ∑ t ∈ range d, ∑ i', F i i' b s t := by
          refine sum_congr rfl fun i _ => ?_
          rw [sum_comm]
          refine sum_congr rfl fun b _ => ?_
          rw [sum_comm]
          refine sum_congr rfl fun s _ => ?_
          rw [sum_comm]
      _ = _ := by
          rw [sum_comm]
          refine sum_congr rfl fun b _ => ?_
          rw [sum_comm]
          refine sum_congr rfl fun s _ => ?_
          rw [sum_comm]
          exact sum_congr rfl fun t _ => sum_comm
  rw [e]
  exact sum_congr rfl fun b _ => sum_congr rfl fun s _ => sum_congr rfl fun t _ => sum_congr rfl fun i _ => sum_congr rfl fun i' _ => by ring

theorem addER (hA : TenD D d A) (hB : TenD D d B) (hE : EnvD D m E) :
    ∃ F, addELayerR E A B = .ok F ∧ EnvD D m F ∧ ∀ b, lo D F b = cap d (mat D A) (mat D B) (lo D E b) := by
  refine ⟨_, if_pos ⟨hE.u.trans hA.l.symm, hE.w.trans hB.l.symm, hA.d.trans hB.d.symm⟩, ⟨hA.r, hB.r, hE.m⟩, fun b => ?_⟩
  ext j' j
  simp only [lo, cap, Matrix.sum_apply, Matrix.mul_apply, conjTranspose_apply, mat, hE.u, hE.w, hA.d]
  rw [Finset.sum_range (n := D)]
  simp only [Finset.sum_range (n := D), Finset.sum_mul]
  have e : ∀ F : Fin D → Fin D → ℕ → ℂ, ∑ i, ∑ i', ∑ s ∈ range d, F i i' s = ∑ s ∈ range d, ∑ i, ∑ i', F i i' s := fun F => by
    rw [sum_congr rfl fun i _ => sum_comm, sum_comm]
  rw [e]
  exact sum_congr rfl fun s _ => sum_congr rfl fun i _ => sum_congr rfl fun i' _ => by ring

theorem addEL (hA : TenD D d A) (hB : TenD D d B) (hE : EnvD D m E) :
    ∃ F, addELayerL E A B = .ok F ∧ EnvD D m F ∧ ∀ b, up D F b = cup d (mat D A) (mat D B) (up D E b) := by
  refine ⟨_, if_pos ⟨hE.u.trans hA.r.symm, hE.w.trans hB.r.symm, hA.d.trans hB.d.symm⟩, ⟨hA.l, hB.l, hE.m⟩, fun b => ?_⟩
  ext j' j
  simp only [up, cup, Matrix.sum_apply, Matrix.mul_apply, conjTranspose_apply, mat, hE.u, hE.w, hA.d]
  rw [Finset.sum_range (n := D)]
  simp only [Finset.sum_range (n := D), Finset.sum_mul]
  have e : ∀ F : Fin D → Fin D → ℕ → ℂ, ∑ i, ∑ i', ∑ s ∈ range d, F i i' s = ∑ s ∈ range d, ∑ i', ∑ i, F i i' s := fun F => by
    rw [sum_congr rfl fun i _ => sum_comm, sum_comm]
    exact sum_congr rfl fun s _ => sum_comm
  rw [e]
  exact sum_congr rfl fun s _ => sum_congr rfl fun i _ => sum_congr rfl fun i' _ => by ring

theorem contrH (hT : TenD D d T) (hW : MpoD d W) (hL : EnvD D W.l L) (hR : EnvD D W.r R) :
    ∃ Q, contractionH L T W R = .ok Q ∧ TenD D d Q ∧ ∀ t, mat D Q t = ∑ b ∈ range W.l, ∑ c ∈ range W.r, ∑ s ∈ range d, W.v b c s t • (lo D L b * mat D T s * up D R c) := by
  refine ⟨_, if_pos ⟨hL.u.trans hT.l.symm, hL.m, hT.d.trans hW.i.symm, hT.r.trans hR.u.symm, hR.m.symm⟩, ⟨hL.w, hR.w, hW.o⟩, fun t => ?_⟩
  ext i' j'
  simp only [mat, lo, up, Matrix.sum_apply, Matrix.smul_apply, Matrix.mul_apply, hL.u, hL.m, hT.d, hR.u, hR.m, smul_eq_mul]
  rw [Finset.sum_range (n := D)]
  simp only [Finset.sum_range (n := D), Finset.sum_mul, Finset.mul_sum]
  rw [sum_comm]
  refine sum_congr rfl fun b _ => ?_
  have e : ∀ F : Fin D → ℕ → Fin D → ℕ → ℂ, ∑ i, ∑ s ∈ range d, ∑ j, ∑ c ∈ range W.r, F i s j c = ∑ c ∈ range W.r, ∑ s ∈ range d, ∑ j, ∑ i, F i s j c := fun F => by
    calc _ = ∑ i, ∑ c ∈ range W.r, ∑ s ∈ range d, ∑ j, F i s j c := by
          refine sum_congr rfl fun i _ => ?_
          rw [sum_congr rfl fun s _ => sum_comm, sum_comm]
      _ = _ := by
          rw [sum_comm]
          refine sum_congr rfl fun c _ => ?_
          rw [sum_comm]
          exact sum_congr rfl fun s _ => sum_comm
  rw [e]
  exact sum_congr rfl fun s _ => sum_congr rfl fun i _ => sum_congr rfl fun i' _ => sum_congr rfl fun i' _ => by ring

theorem contrE (hT : TenD D d T) (hL : EnvD D 1 L) (hR : EnvD D 1 R) :
    ∃ Q, contractionE L T R = .ok Q ∧ TenD D d Q ∧ ∀ s, mat D Q s = lo D L 0 * mat D T s * up D R 0 := by
  refine ⟨_, if_pos ⟨hR.u.trans hT.r.symm, hL.u.trans hT.l.symm, hL.m.trans hR.m.symm⟩, ⟨hL.w, hR.w, hT.d⟩, fun s => ?_⟩
  ext i' j'
  simp only [mat, lo, up, Matrix.mul_apply, hL.u, hL.m, hR.u, range_one, sum_singleton]
  rw [Finset.sum_range (n := D)]
  simp only [Finset.sum_range (n := D), Finset.sum_mul]
  rw [sum_comm]

/-! ## Pairings with a tensor -/

/-- Spec: the scalar product of two tensors. -/
def inner (d : ℕ) (C Q : ℕ → Matrix (Fin D) (Fin D) ℂ) : ℂ := ∑ s ∈ range d, ((C s)ᴴ * Q s).trace

theorem inner_contrE (C T : ℕ → Matrix (Fin D) (Fin D) ℂ) (Y S : Matrix (Fin D) (Fin D) ℂ) : inner d C (fun s => Y * T s * S) = (cap d T C Y * S).trace := by
  rw [inner, cap, Finset.sum_mul, Matrix.trace_sum]
  exact sum_congr rfl fun s _ => by rw [Matrix.mul_assoc, Matrix.mul_assoc, Matrix.mul_assoc]

theorem inner_contrH (C T F G : ℕ → Matrix (Fin D) (Fin D) ℂ) :
    inner d C (fun t => ∑ b ∈ range W.l, ∑ c ∈ range W.r, ∑ s ∈ range d, W.v b c s t • (F b * T s * G c)) = ∑ c ∈ range W.r, (extR d W F T C c * G c).trace := by
  simp only [inner, extR, Finset.mul_sum, Finset.sum_mul, Matrix.mul_smul, Matrix.smul_mul, Matrix.trace_sum, Matrix.trace_smul, smul_eq_mul]
  calc _ = ∑ t ∈ range d, ∑ c ∈ range W.r, ∑ b ∈ range W.l, ∑ s ∈ range d, W.v b c s t * ((C t)ᴴ * (F b * T s * G c)).trace := sum_congr rfl fun t _ => sum_comm
    _ = ∑ c ∈ range W.r, ∑ t ∈ range d, ∑ b ∈ range W.l, ∑ s ∈ range d, W.v b c s t * ((C t)ᴴ * (F b * T s * G c)).trace := sum_comm
    _ = _ := by
      refine sum_congr rfl fun c _ => ?_
      rw [sum_comm]
      refine sum_congr rfl fun b _ => ?_
      rw [sum_comm]
      exact sum_congr rfl fun s _ => sum_congr rfl fun t _ => by simp only [Matrix.mul_assoc]

theorem ext_dual (A C F G : ℕ → Matrix (Fin D) (Fin D) ℂ) : ∑ c ∈ range W.r, (extR d W F A C c * G c).trace = ∑ b ∈ range W.l, (F b * extL d W G A C b).trace := by
  simp only [extR, extL, Finset.mul_sum, Finset.sum_mul, Matrix.mul_smul, Matrix.smul_mul, Matrix.trace_sum, Matrix.trace_smul, smul_eq_mul]
  rw [sum_comm]
  refine sum_congr rfl fun b _ => sum_congr rfl fun c _ => sum_congr rfl fun s _ => sum_congr rfl fun t _ => ?_
  congr 1
  rw [Matrix.mul_assoc, Matrix.mul_assoc, Matrix.trace_mul_comm, Matrix.mul_assoc, Matrix.mul_assoc]

theorem ext_bond (w1 : W0.l = 1) (w3 : W0.r = W1.l) (F u1 u2 l1 l2 : ℕ → Matrix (Fin D) (Fin D) ℂ) :
    extR d W1 (extR d W0 F u1 l1) u2 l2 0 = capG d (TdvpInf.bondH W0 W1) u1 u2 l1 l2 (F 0) := by
  simp only [extR, capG, TdvpInf.bondH, w1, ← w3, range_one, sum_singleton, Finset.mul_sum, Finset.sum_mul, Matrix.mul_smul, Matrix.smul_mul, smul_sum, Finset.sum_smul, smul_smul, conjTranspose_mul]
  rw [reorder d W0.r fun b s1 s2 t1 t2 => (W1.v b 0 s2 t2 * W0.v 0 b s1 t1) • ((l2 t2)ᴴ * ((l1 t1)ᴴ * F 0 * u1 s1) * u2 s2)]
  refine sum_congr rfl fun s1 _ => sum_congr rfl fun s2 _ => sum_congr rfl fun t1 _ => sum_congr rfl fun t2 _ => sum_congr rfl fun b _ => ?_
  rw [mul_comm]
  simp only [Matrix.mul_assoc]

theorem ext_bondL (w1 : W0.l = 1) (w2 : W1.r = 1) (w3 : W0.r = W1.l) (F G u1 u2 l1 l2 : ℕ → Matrix (Fin D) (Fin D) ℂ) :
    ∑ c ∈ range W0.r, (extR d W0 F u1 l1 c * extL d W1 G u2 l2 c).trace = (capG d (TdvpInf.bondH W0 W1) u1 u2 l1 l2 (F 0) * G 0).trace := by
  rw [w3, ← ext_dual, w2, range_one, sum_singleton, ext_bond w1 w3]

/-! ## The linear systems -/

/-- `renorm_total` without the condition on the inhomogeneity. -/
theorem renorm_any {solve : Lgmres} (hC : LgmresConverges solve) (hS : LgmresSpec solve) {A : Ten ℂ} (hl : A.l = D) (hr : A.r = D) {dir : Dir} {R L inh : Mat ℂ}
    {o t own other y : ℕ → ℕ → ℂ} {rnd : ℕ → ℂ} (hd : Dens dir D [L] [R] o t)
    (h1 : ∀ i < D, ∀ j < D, o i j = own i j) (h2 : ∀ i < D, ∀ j < D, t i j = other i j)
    (hy : IsM inh D y) (hown : ∀ i < D, ∀ j < D, act dir [A] D own i j = own i j) (hone : pairing D own other = 1)
    (huniq : ∀ g : ℕ → ℕ → ℂ, (∀ i < D, ∀ j < D, act (opp dir) [A] D g i j = g i j) → ∃ c, ∀ i < D, ∀ j < D, g i j = c * other i j) :
    ∃ K, renorm solve dir A R L inh rnd = .ok K := by
  obtain ⟨v, v1, v2⟩ := flat_spec hy
  obtain ⟨k, hk⟩ := solvable hown hone huniq y
  obtain ⟨w, -, w2⟩ := flat_isMat (f := k) (r := D) rfl
  obtain ⟨z, z1, z2⟩ := C55_oneMinus dir (ts := [A]) (by simp) (one_linked' hl hr) hd (by simp) (by simp) w2
  have hz : IsMat z D y := isMat_congr z2 fun i hi j hj => by
    rw [pair_congr_right h2, h1 i hi j hj, ← hk i hi j hj]
  obtain ⟨x, hx⟩ := hC (oneMinusPseudo A A R L dir 0) v ⟨D * D, rnd⟩ v2.1.symm ⟨w, w2.1.trans v2.1.symm, z, by
    rw [C55_single_oneMinus dir A R L w (by norm_num)]; exact z1, hz.1.trans v2.1.symm, fun i hi => by
      rw [v2.1] at hi
      have hD : 0 < D := Nat.pos_of_ne_zero fun h => by rw [h] at hi; simp at hi
      have e : i = i / D * D + i % D := (Nat.div_add_mod' i D).symm
      have i1 : i / D < D := Nat.div_lt_of_lt_mul hi
      have i2 : i % D < D := Nat.mod_lt _ hD
      rw [e, hz.2 _ i1 _ i2, v2.2 _ i1 _ i2]⟩
  obtain ⟨x1, -⟩ := hS _ _ _ _ hx
  refine ⟨⟨D, D, fun i j => x.v (i * D + j)⟩, ?_⟩
  rw [renorm_eq solve hl hr, v1]
  simp only [andThen, hx, reshape2]
  rw [if_pos (by rw [x1, v2.1])]

section
variable {solve : Lgmres} {r l ih : Mat ℂ} {rnd : ℕ → ℂ}

theorem resolve_eq {dir : Dir} (hi : ih.r = D) (hi' : ih.c = D) {x : Mat ℂ} (hx : renorm solve dir A r l ih rnd = .ok x) (h1 : x.r = D) (h2 : x.c = D) :
    ∃ E, resolve solve dir A r l D ih rnd = .ok E ∧ EnvD D 1 E ∧ ∀ i < D, ∀ j < D, E.v i j 0 = x.v i j := by
  obtain ⟨v, v1, -⟩ := flat_spec (M := ih) (f := ih.v) ⟨hi, hi', fun _ _ _ _ => rfl⟩
  refine ⟨_, by unfold resolve; rw [v1, hx]; simp only [andThen]; rw [if_pos (by rw [h1, h2])], ⟨rfl, rfl, rfl⟩, fun i hi j hj => ?_⟩
  dsimp only
  rw [h2, idx_div hj, idx_mod hj]

theorem resolve_ok {dir : Dir} {E : Env ℂ} (hrun : resolve solve dir A r l D ih rnd = .ok E) : ∃ x, renorm solve dir A r l ih rnd = .ok x := by
  unfold resolve at hrun
  obtain ⟨_, -, hrun⟩ := andThen_ok.1 hrun
  obtain ⟨x, hx, -⟩ := andThen_ok.1 hrun
  exact ⟨x, hx⟩

theorem resolveR_spec (hS : LgmresSpec solve) (hA : TenD D d A) (hr : r.r = D) (hr' : r.c = D) (hl : l.r = D) (hl' : l.c = D) (hl1 : toM D l.v = 1)
    (hi : ih.r = D) (hi' : ih.c = D) {E : Env ℂ} (hrun : resolve solve .right A r l D ih rnd = .ok E) :
    EnvD D 1 E ∧ lo D E 0 - cap d (mat D A) (mat D A) (lo D E 0) + (lo D E 0 * toM D r.v).trace • (1 : Matrix (Fin D) (Fin D) ℂ) = (toM D ih.v)ᵀ := by
  obtain ⟨x, hx⟩ := resolve_ok hrun
  obtain ⟨f, c1, c2⟩ := renorm_spec hS hA.l hA.r (own := l.v) (other := r.v) ⟨⟨_, rfl, hl, hl', rfl⟩, ⟨_, rfl, hr, hr', rfl⟩⟩ (fun _ _ _ _ => rfl) (fun _ _ _ _ => rfl)
    ⟨hi, hi', fun _ _ _ _ => rfl⟩ hx
  obtain ⟨E', e1, e2, e3⟩ := resolve_eq hi hi' hx c1.1 c1.2.1
  rw [e1] at hrun
  obtain rfl := Except.ok.inj hrun
  refine ⟨e2, ?_⟩
  have hE : lo D E' 0 = (toM D f)ᵀ := by
    ext i j
    change E'.v j i 0 = f j i
    rw [e3 j j.2 i i.2, c1.2.2 j j.2 i i.2]
  rw [hE, ← hA.d, ← act_cap hA.r, trace_pairing]
  ext i j
  simp only [Matrix.add_apply, Matrix.sub_apply, transpose_apply, Matrix.smul_apply, smul_eq_mul]
  have := c2 j j.2 i i.2
  rw [show toM D ih.v j i = ih.v j i from rfl, ← this, show l.v j i = (1 : Matrix (Fin D) (Fin D) ℂ) j i from congrFun (congrFun hl1 j) i]
  simp only [toM]
  rw [← Matrix.transpose_apply (1 : Matrix (Fin D) (Fin D) ℂ) i j, transpose_one]

theorem resolveL_spec (hS : LgmresSpec solve) (hA : TenD D d A) (hr : r.r = D) (hr' : r.c = D) (hl : l.r = D) (hl' : l.c = D) (hl1 : toM D l.v = 1)
    (hi : ih.r = D) (hi' : ih.c = D) {E : Env ℂ} (hrun : resolve solve .left A r l D ih rnd = .ok E) :
    EnvD D 1 E ∧ up D E 0 - cup d (mat D A) (mat D A) (up D E 0) + (up D E 0).trace • toM D r.v = toM D ih.v := by
  obtain ⟨x, hx⟩ := resolve_ok hrun
  obtain ⟨f, c1, c2⟩ := renorm_spec hS hA.l hA.r (own := r.v) (other := l.v) ⟨⟨_, rfl, hr, hr', rfl⟩, ⟨_, rfl, hl, hl', rfl⟩⟩ (fun _ _ _ _ => rfl) (fun _ _ _ _ => rfl)
    ⟨hi, hi', fun _ _ _ _ => rfl⟩ hx
  obtain ⟨E', e1, e2, e3⟩ := resolve_eq hi hi' hx c1.1 c1.2.1
  rw [e1] at hrun
  obtain rfl := Except.ok.inj hrun
  refine ⟨e2, ?_⟩
  have hE : up D E' 0 = toM D f := by
    ext i j
    change E'.v i j 0 = f i j
    rw [e3 i i.2 j j.2, c1.2.2 i i.2 j j.2]
  have ht : (toM D f).trace = pairing D f l.v := by
    rw [← trace_pairing, hl1, Matrix.mul_one, Matrix.trace_transpose]
  rw [hE, ht, cup, ← hA.d, act_leftM hA.r]
  ext i j
  exact c2 i i.2 j j.2

theorem resolveR_total (hC : LgmresConverges solve) (hS : LgmresSpec solve) (hA : TenD D d A) (hr : r.r = D) (hr' : r.c = D) (hl : l.r = D) (hl' : l.c = D)
    (hl1 : toM D l.v = 1) (hi : ih.r = D) (hi' : ih.c = D) (ho : cap d (mat D A) (mat D A) 1 = 1) (ht : (toM D r.v).trace = 1)
    (hu : ∀ F : Matrix (Fin D) (Fin D) ℂ, cup d (mat D A) (mat D A) F = F → ∃ c : ℂ, F = c • toM D r.v) :
    ∃ E, resolve solve .right A r l D ih rnd = .ok E := by
  obtain ⟨x, hx⟩ := renorm_any (rnd := rnd) (dir := .right) (R := r) (L := l) hC hS hA.l hA.r (own := l.v) (other := r.v) ⟨⟨_, rfl, hl, hl', rfl⟩, ⟨_, rfl, hr, hr', rfl⟩⟩
    (fun _ _ _ _ => rfl) (fun _ _ _ _ => rfl) (inh := ih) (y := ih.v) ⟨hi, hi', fun _ _ _ _ => rfl⟩ (fun i hi j hj => by
      have := act_cap hA.r l.v
      rw [hl1, transpose_one, hA.d, ho, ← transpose_one, ← hl1] at this
      exact congrFun (congrFun this ⟨j, hj⟩) ⟨i, hi⟩) (by rw [← trace_pairing, hl1, transpose_one, Matrix.one_mul, ht])
    (fun g hg => by
      obtain ⟨c, hc⟩ := hu (toM D g) (by
        rw [cup, ← hA.d, act_leftM hA.r]
        exact toM_ext.2 hg)
      exact ⟨c, fun i hi j hj => congrFun (congrFun hc ⟨i, hi⟩) ⟨j, hj⟩⟩)
  obtain ⟨f, c1, -⟩ := renorm_spec hS hA.l hA.r (own := l.v) (other := r.v) ⟨⟨_, rfl, hl, hl', rfl⟩, ⟨_, rfl, hr, hr', rfl⟩⟩ (fun _ _ _ _ => rfl) (fun _ _ _ _ => rfl)
    ⟨hi, hi', fun _ _ _ _ => rfl⟩ hx
  obtain ⟨E, hE, -⟩ := resolve_eq hi hi' hx c1.1 c1.2.1
  exact ⟨E, hE⟩

theorem resolveL_total (hC : LgmresConverges solve) (hS : LgmresSpec solve) (hA : TenD D d A) (hr : r.r = D) (hr' : r.c = D) (hl : l.r = D) (hl' : l.c = D)
    (hl1 : toM D l.v = 1) (hi : ih.r = D) (hi' : ih.c = D) (hf : cup d (mat D A) (mat D A) (toM D r.v) = toM D r.v) (ht : (toM D r.v).trace = 1)
    (hu : ∀ F : Matrix (Fin D) (Fin D) ℂ, cap d (mat D A) (mat D A) F = F → ∃ c : ℂ, F = c • 1) :
    ∃ E, resolve solve .left A r l D ih rnd = .ok E := by
  obtain ⟨x, hx⟩ := renorm_any (rnd := rnd) (dir := .left) (R := r) (L := l) hC hS hA.l hA.r (own := r.v) (other := l.v) ⟨⟨_, rfl, hr, hr', rfl⟩, ⟨_, rfl, hl, hl', rfl⟩⟩
    (fun _ _ _ _ => rfl) (fun _ _ _ _ => rfl) (inh := ih) (y := ih.v) ⟨hi, hi', fun _ _ _ _ => rfl⟩ (fun i hi j hj => by
      have := act_leftM hA.r r.v
      rw [hA.d] at this
      have h2 := this.symm.trans hf
      exact congrFun (congrFun h2 ⟨i, hi⟩) ⟨j, hj⟩) (by rw [← trace_pairing, hl1, Matrix.mul_one, Matrix.trace_transpose, ht])
    (fun g hg => by
      obtain ⟨c, hc⟩ := hu (toM D g)ᵀ (by
        rw [← hA.d, ← act_cap hA.r]
        exact congrArg transpose (toM_ext.2 hg))
      refine ⟨c, fun i hi j hj => ?_⟩
      have h2 := congrFun (congrFun hc ⟨j, hj⟩) ⟨i, hi⟩
      rw [← transpose_one, ← hl1] at h2
      exact h2)
  obtain ⟨f, c1, -⟩ := renorm_spec hS hA.l hA.r (own := r.v) (other := l.v) ⟨⟨_, rfl, hr, hr', rfl⟩, ⟨_, rfl, hl, hl', rfl⟩⟩ (fun _ _ _ _ => rfl) (fun _ _ _ _ => rfl)
    ⟨hi, hi', fun _ _ _ _ => rfl⟩ hx
  obtain ⟨E, hE, -⟩ := resolve_eq hi hi' hx c1.1 c1.2.1
  exact ⟨E, hE⟩

end

end
end PyTeN.Excite
