import Verif.Engine.ExciteRun

/-! # What `ExHAproductSingle` computes -/

namespace PyTeN.Excite
open Finset Transfer Regauge Vumps Steady Matrix TdvpInf
noncomputable section

variable {D D2 d : ℕ}

/-- Spec: the arguments of `ExHAproductSingle` as its caller prepares them: the tensor of the state is left-orthonormal, `r` is its right density matrix, `L`, `R`
are the boundary blocks of an environment without Hamiltonian, `LAA`, `RAA` these with one site added, `K` and `KR` the renormalised sums of the Hamiltonian to
the left and to the right. -/
structure Ready (D D2 d : ℕ) (I : Inp) : Prop where
  A : TenD D d I.A
  W0 : MpoD d I.W0
  W1 : MpoD d I.W1
  w1 : I.W0.l = 1
  w2 : I.W1.r = 1
  w3 : I.W0.r = I.W1.l
  l : I.l.r = D ∧ I.l.c = D ∧ toM D I.l.v = 1
  r : I.r.r = D ∧ I.r.c = D
  L : EnvD D 1 I.L ∧ lo D I.L 0 = 1
  R : EnvD D 1 I.R ∧ up D I.R 0 = toM D I.r.v
  LAA : addLayerR I.L I.A I.W0 I.A = .ok I.LAA
  RAA : addLayerL I.R I.A I.W1 I.A = .ok I.RAA
  K : EnvD D 1 I.K
  KR : EnvD D 1 I.KR
  VL : I.VL.l = D ∧ I.VL.r = D2 ∧ I.VL.d = d
  il : I.il.r = D ∧ I.il.c = D ∧ toM D I.il.v = 1
  ir : I.ir.r = D ∧ I.ir.c = D

/-- The part of an inhomogeneity that is projected out. -/
def projk (k : ℝ) (c : ℂ) : ℂ := if |k| < 1e-8 then c else 0

theorem inhom_spec {k : ℝ} {T P Q : Env ℂ} (hT : EnvD D 1 T) (hP : EnvD D 1 P) (hQ : EnvD D 1 Q) :
    ∃ ih, inhom k T P Q = .ok ih ∧ ih.r = D ∧ ih.c = D ∧ toM D ih.v = up D T 0 - projk k ((lo D P 0 * up D T 0).trace) • up D Q 0 := by
  unfold inhom
  rw [if_neg (by rw [hT.m]; norm_num)]
  by_cases hk : |k| < 1e-8
  · rw [if_pos hk, if_pos ⟨hP.u.trans hT.u.symm, hP.w.trans hT.w.symm, hP.m.trans hT.m.symm⟩, if_neg (by rw [hQ.m]; norm_num), if_pos ⟨hQ.u.trans hT.u.symm, hQ.w.trans hT.w.symm⟩]
    refine ⟨_, rfl, hT.u, hT.w, ?_⟩
    ext i j
    simp only [toM, projk, if_pos hk, Matrix.sub_apply, Matrix.smul_apply, smul_eq_mul, up, hT.u, hT.w, hT.m, range_one, sum_singleton]
    congr 2
    simp only [Matrix.trace, Matrix.diag, Matrix.mul_apply, lo, Finset.sum_range]
    rw [sum_comm]
    rfl
  · rw [if_neg hk]
    refine ⟨_, rfl, hT.u, hT.w, ?_⟩
    rw [projk, if_neg hk, zero_smul, sub_zero]
    rfl

theorem up_transpose (E : Env ℂ) (b : ℕ) : (up D E b)ᵀ = lo D E b := rfl

theorem trace_lo_up (P T : Env ℂ) : (lo D P 0 * up D T 0).trace = (lo D T 0 * up D P 0).trace := by
  rw [← up_transpose, ← up_transpose, ← Matrix.trace_transpose, Matrix.transpose_mul, Matrix.transpose_transpose]

theorem facp_ne (k : ℝ) : facp k ≠ 0 := by
  unfold facp
  split_ifs
  · exact Complex.exp_ne_zero _
  · exact one_ne_zero

theorem facm_eq (k : ℝ) : facm k = (facp k)⁻¹ := by
  unfold facp facm
  split_ifs
  · rw [neg_mul, Complex.exp_neg]
  · exact inv_one.symm

theorem facp_norm (k : ℝ) : ‖facp k‖ = 1 := by
  unfold facp
  split_ifs
  · rw [mul_comm, Complex.norm_exp_ofReal_mul_I]
  · exact norm_one

theorem inner_scale (C : ℕ → Matrix (Fin D) (Fin D) ℂ) (c : ℂ) (T : Ten ℂ) : inner d C (mat D (scaleT c T)) = c * inner d C (mat D T) := by
  rw [inner, inner, Finset.mul_sum]
  refine sum_congr rfl fun s _ => ?_
  rw [show mat D (scaleT c T) s = c • mat D T s from rfl, Matrix.mul_smul, Matrix.trace_smul, smul_eq_mul]

theorem sumT_spec (C : ℕ → Matrix (Fin D) (Fin D) ℂ) : ∀ (ts : List (Ten ℂ)) (S : Ten ℂ), TenD D d S → (∀ t ∈ ts, TenD D d t) →
    ∃ Q, sumT S ts = .ok Q ∧ TenD D d Q ∧ inner d C (mat D Q) = inner d C (mat D S) + (ts.map fun t => inner d C (mat D t)).sum
  | [], S, hS, _ => ⟨S, rfl, hS, by simp⟩
  | T :: ts, S, hS, h => by
    have hT := h T (by simp)
    obtain ⟨Q, q1, q2, q3⟩ := sumT_spec C ts ⟨S.l, S.r, S.d, fun i j s => S.v i j s + T.v i j s⟩ ⟨hS.l, hS.r, hS.d⟩ fun t ht => h t (by simp [ht])
    refine ⟨Q, ?_, q2, ?_⟩
    · rw [sumT, addT, if_pos ⟨hS.l.trans hT.l.symm, hS.r.trans hT.r.symm, hS.d.trans hT.d.symm⟩]
      exact q1
    · rw [q3, List.map_cons, List.sum_cons, ← add_assoc]
      congr 1
      rw [inner, inner, inner, ← sum_add_distrib]
      refine sum_congr rfl fun s _ => ?_
      rw [← Matrix.trace_add, ← Matrix.mul_add]
      rfl

/-- The systems that the routine solves, and the sum of its terms in terms of the solutions. -/
structure Solved (d : ℕ) (h : ℕ → ℕ → ℕ → ℕ → ℂ) (A B : ℕ → Matrix (Fin D) (Fin D) ℂ) (r K : Matrix (Fin D) (Fin D) ℂ) (k : ℝ) (s7 x8 x10 x12 : Matrix (Fin D) (Fin D) ℂ) : Prop where
  e7 : s7 - cup d A A s7 + s7.trace • r = cup d B A r - projk k (cup d B A r).trace • r
  e8 : x8 - cap d A A x8 + (x8 * r).trace • (1 : Matrix (Fin D) (Fin D) ℂ) = cap d B A K - projk k (cap d B A K * r).trace • (1 : Matrix (Fin D) (Fin D) ℂ)
  e10 : x10 - cap d A A x10 + (x10 * r).trace • (1 : Matrix (Fin D) (Fin D) ℂ)
    = capG d h A B A A 1 - projk k (capG d h A B A A 1 * r).trace • (1 : Matrix (Fin D) (Fin D) ℂ)
  e12 : x12 - cap d A A x12 + (x12 * r).trace • (1 : Matrix (Fin D) (Fin D) ℂ)
    = capG d h B A A A 1 - projk k (capG d h B A A A 1 * r).trace • (1 : Matrix (Fin D) (Fin D) ℂ)

theorem terms_core {solve : Lgmres} {rnd : ℕ → ℕ → ℂ} {I : Inp} {k : ℝ} {B : Ten ℂ} (hS : LgmresSpec solve) (hI : Ready D D2 d I) (hB : TenD D d B)
    {e4 e7 e8 e10 e12 s7 x8 x10 x12 : Env ℂ} {i7 i8 i10 i12 : Mat ℂ}
    (q4 : addLayerR I.L B I.W0 I.A = .ok e4)
    (q7 : addELayerL I.R B I.A = .ok e7) (p7 : inhom k e7 I.L I.R = .ok i7) (r7 : resolve solve .left I.A I.r I.l I.VL.l i7 (rnd 7) = .ok s7)
    (q8 : addELayerR I.K B I.A = .ok e8) (p8 : inhom k e8 I.R I.L = .ok i8) (r8 : resolve solve .right I.A I.r I.l I.VL.l i8 (rnd 8) = .ok x8)
    (q10 : addLayerR I.LAA B I.W1 I.A = .ok e10) (p10 : inhom k e10 I.R I.L = .ok i10) (r10 : resolve solve .right I.A I.r I.l I.VL.l i10 (rnd 10) = .ok x10)
    (q12 : addLayerR e4 I.A I.W1 I.A = .ok e12) (p12 : inhom k e12 I.R I.L = .ok i12)
    (r12 : resolve solve .right I.A (slice I.R 0) (slice I.L 0) I.VL.l i12 (rnd 12) = .ok x12) :
    Solved d (TdvpInf.bondH I.W0 I.W1) (mat D I.A) (mat D B) (toM D I.r.v) (lo D I.K 0) k (up D s7 0) (lo D x8 0) (lo D x10 0) (lo D x12 0)
      ∧ ∃ t ts, terms solve rnd I k B = .ok (t :: ts) ∧ TenD D d t ∧ (∀ t ∈ ts, TenD D d t) ∧ ∀ C : ℕ → Matrix (Fin D) (Fin D) ℂ,
        inner d C (mat D t) + (ts.map fun t => inner d C (mat D t)).sum
          = limitK d (TdvpInf.bondH I.W0 I.W1) (mat D I.A) (mat D B) C (toM D I.r.v) (facp k) (lo D I.K 0) (up D I.KR 0) (up D s7 0)
            ((facp k)⁻¹ • lo D x8 0 + (facp k)⁻¹ • lo D x10 0 + ((facp k)⁻¹ * (facp k)⁻¹) • lo D x12 0) := by
  have hA := hI.A
  have hL : EnvD D I.W0.l I.L := by rw [hI.w1]; exact hI.L.1
  have hR : EnvD D I.W1.r I.R := by rw [hI.w2]; exact hI.R.1
  rw [hI.VL.1] at r7 r8 r10 r12
  -- blocks
  obtain ⟨LAA, a1, hLAA', a3⟩ := addR' hA hA hI.W0 hL
  have hLA := a1.symm.trans hI.LAA
  obtain rfl := Except.ok.inj hLA
  have hLAA : EnvD D I.W1.l I.LAA := by rw [← hI.w3]; exact hLAA'
  obtain ⟨RAA, a4, hRAA', a5⟩ := addL' hA hA hI.W1 hR
  obtain rfl := Except.ok.inj (a4.symm.trans hI.RAA)
  have hRAA : EnvD D I.W0.r I.RAA := by rw [hI.w3]; exact hRAA'
  obtain ⟨e3, b1, he3', b3⟩ := addL' hB hA hI.W1 hR
  have he3 : EnvD D I.W0.r e3 := by rw [hI.w3]; exact he3'
  obtain ⟨e4', b4, he4', b5⟩ := addR' hB hA hI.W0 hL
  obtain rfl := Except.ok.inj (b4.symm.trans q4)
  have he4 : EnvD D I.W1.l e4' := by rw [← hI.w3]; exact he4'
  -- the linear systems
  obtain ⟨e7', b7, he7, c7⟩ := addEL hB hA hI.R.1
  obtain rfl := Except.ok.inj (b7.symm.trans q7)
  obtain ⟨i7', d7, f7, f7', g7⟩ := inhom_spec (k := k) he7 hI.L.1 hI.R.1
  obtain rfl := Except.ok.inj (d7.symm.trans p7)
  obtain ⟨hs7, k7⟩ := resolveL_spec hS hA hI.r.1 hI.r.2 hI.l.1 hI.l.2.1 hI.l.2.2 f7 f7' r7
  obtain ⟨e8', b8, he8, c8⟩ := addER hB hA hI.K
  obtain rfl := Except.ok.inj (b8.symm.trans q8)
  obtain ⟨i8', d8, f8, f8', g8⟩ := inhom_spec (k := k) he8 hI.R.1 hI.L.1
  obtain rfl := Except.ok.inj (d8.symm.trans p8)
  obtain ⟨hx8, k8⟩ := resolveR_spec hS hA hI.r.1 hI.r.2 hI.l.1 hI.l.2.1 hI.l.2.2 f8 f8' r8
  obtain ⟨e10', b10, he10', c10⟩ := addR' hB hA hI.W1 hLAA
  obtain rfl := Except.ok.inj (b10.symm.trans q10)
  have he10 : EnvD D 1 e10' := by rw [← hI.w2]; exact he10'
  obtain ⟨i10', d10, f10, f10', g10⟩ := inhom_spec (k := k) he10 hI.R.1 hI.L.1
  obtain rfl := Except.ok.inj (d10.symm.trans p10)
  obtain ⟨hx10, k10⟩ := resolveR_spec hS hA hI.r.1 hI.r.2 hI.l.1 hI.l.2.1 hI.l.2.2 f10 f10' r10
  obtain ⟨e12', b12, he12', c12⟩ := addR' hA hA hI.W1 he4
  obtain rfl := Except.ok.inj (b12.symm.trans q12)
  have he12 : EnvD D 1 e12' := by rw [← hI.w2]; exact he12'
  obtain ⟨i12', d12, f12, f12', g12⟩ := inhom_spec (k := k) he12 hI.R.1 hI.L.1
  obtain rfl := Except.ok.inj (d12.symm.trans p12)
  have hL1 : toM D (slice I.L 0).v = 1 := by
    have := congrArg transpose hI.L.2
    rw [transpose_one] at this
    exact this
  obtain ⟨hx12, k12⟩ := resolveR_spec hS hA (r := slice I.R 0) (l := slice I.L 0) hI.R.1.u hI.R.1.w hI.L.1.u hI.L.1.w hL1 f12 f12' r12
  have hR1 : toM D (slice I.R 0).v = toM D I.r.v := hI.R.2
  have hlo4 : lo D e4' = extR d I.W0 (lo D I.L) (mat D B) (mat D I.A) := funext b5
  have hloA : lo D I.LAA = extR d I.W0 (lo D I.L) (mat D I.A) (mat D I.A) := funext a3
  have huA : up D I.RAA = extL d I.W1 (up D I.R) (mat D I.A) (mat D I.A) := funext a5
  have hu3 : up D e3 = extL d I.W1 (up D I.R) (mat D B) (mat D I.A) := funext b3
  rw [hR1] at k12
  constructor
  · constructor
    · rw [k7, g7, c7, hI.L.2, Matrix.one_mul, hI.R.2]
    · rw [k8, g8, Matrix.transpose_sub, Matrix.transpose_smul, up_transpose, up_transpose, trace_lo_up, c8, hI.L.2, hI.R.2]
    · rw [k10, g10, Matrix.transpose_sub, Matrix.transpose_smul, up_transpose, up_transpose, trace_lo_up, c10, hloA, ext_bond hI.w1 hI.w3, hI.L.2, hI.R.2]
    · rw [k12, g12, Matrix.transpose_sub, Matrix.transpose_smul, up_transpose, up_transpose, trace_lo_up, c12, hlo4, ext_bond hI.w1 hI.w3, hI.L.2, hI.R.2]
  -- the terms
  have hs7' : EnvD D I.W1.r s7 := by rw [hI.w2]; exact hs7
  obtain ⟨t1, u1, v1, n1⟩ := contrH hB hI.W0 hL hRAA
  obtain ⟨t2, u2, v2, n2⟩ := contrH hB hI.W1 hLAA hR
  obtain ⟨t3, u3, v3, n3⟩ := contrH hA hI.W0 hL he3
  obtain ⟨t4, u4, v4, n4⟩ := contrH hA hI.W1 he4 hR
  obtain ⟨t5, u5, v5, n5⟩ := contrE hB hI.L.1 hI.KR
  obtain ⟨t6, u6, v6, n6⟩ := contrE hB hI.K hI.R.1
  obtain ⟨t7, u7, v7, n7⟩ := contrE hA hI.K hs7
  obtain ⟨t8, u8, v8, n8⟩ := contrE hA hx8 hI.R.1
  obtain ⟨t9, u9, v9, n9⟩ := contrH hA hI.W1 hLAA hs7'
  obtain ⟨t10, u10, v10, n10⟩ := contrE hA hx10 hI.R.1
  obtain ⟨e11, b11, he11', c11⟩ := addL' hA hA hI.W1 hs7'
  have he11 : EnvD D I.W0.r e11 := by rw [hI.w3]; exact he11'
  have hu11 : up D e11 = extL d I.W1 (up D s7) (mat D I.A) (mat D I.A) := funext c11
  obtain ⟨t11, u11, v11, n11⟩ := contrH hA hI.W0 hL he11
  obtain ⟨t12, u12, v12, n12⟩ := contrE hA hx12 hI.R.1
  refine ⟨t1, [t2, scaleT (facp k) t3, scaleT (facm k) t4, t5, t6, scaleT (facp k) t7, scaleT (facm k) t8, scaleT (facp k) t9, scaleT (facm k) t10,
    scaleT (facp k * facp k) t11, scaleT (facm k * facm k) t12], ?_, v1, ?_, fun C => ?_⟩
  · simp only [terms, hI.VL.1, u1, u2, b1, u3, b4, u4, u5, u6, b7, d7, r7, u7, b8, d8, r8, u8, u9, b10, d10, r10, u10, b11, u11, b12, d12, r12, u12, andThen]
  · intro t ht
    simp only [List.mem_cons, List.not_mem_nil, or_false] at ht
    rcases ht with rfl | rfl | rfl | rfl | rfl | rfl | rfl | rfl | rfl | rfl | rfl
    · exact v2
    · exact ⟨v3.l, v3.r, v3.d⟩
    · exact ⟨v4.l, v4.r, v4.d⟩
    · exact v5
    · exact v6
    · exact ⟨v7.l, v7.r, v7.d⟩
    · exact ⟨v8.l, v8.r, v8.d⟩
    · exact ⟨v9.l, v9.r, v9.d⟩
    · exact ⟨v10.l, v10.r, v10.d⟩
    · exact ⟨v11.l, v11.r, v11.d⟩
    · exact ⟨v12.l, v12.r, v12.d⟩
  · have m1 : inner d C (mat D t1) = (capG d (TdvpInf.bondH I.W0 I.W1) (mat D B) (mat D I.A) C (mat D I.A) 1 * toM D I.r.v).trace := by
      rw [funext n1, inner_contrH, huA, ext_bondL hI.w1 hI.w2 hI.w3, hI.L.2, hI.R.2]
    have m2 : inner d C (mat D t2) = (capG d (TdvpInf.bondH I.W0 I.W1) (mat D I.A) (mat D B) (mat D I.A) C 1 * toM D I.r.v).trace := by
      rw [funext n2, inner_contrH, hloA, hI.w2, range_one, sum_singleton, ext_bond hI.w1 hI.w3, hI.L.2, hI.R.2]
    have m3 : inner d C (mat D t3) = (capG d (TdvpInf.bondH I.W0 I.W1) (mat D I.A) (mat D B) C (mat D I.A) 1 * toM D I.r.v).trace := by
      rw [funext n3, inner_contrH, hu3, ext_bondL hI.w1 hI.w2 hI.w3, hI.L.2, hI.R.2]
    have m4 : inner d C (mat D t4) = (capG d (TdvpInf.bondH I.W0 I.W1) (mat D B) (mat D I.A) (mat D I.A) C 1 * toM D I.r.v).trace := by
      rw [funext n4, inner_contrH, hlo4, hI.w2, range_one, sum_singleton, ext_bond hI.w1 hI.w3, hI.L.2, hI.R.2]
    have m5 : inner d C (mat D t5) = (cap d (mat D B) C 1 * up D I.KR 0).trace := by rw [funext n5, inner_contrE, hI.L.2]
    have m6 : inner d C (mat D t6) = (cap d (mat D B) C (lo D I.K 0) * toM D I.r.v).trace := by rw [funext n6, inner_contrE, hI.R.2]
    have m7 : inner d C (mat D t7) = (cap d (mat D I.A) C (lo D I.K 0) * up D s7 0).trace := by rw [funext n7, inner_contrE]
    have m8 : inner d C (mat D t8) = (cap d (mat D I.A) C (lo D x8 0) * toM D I.r.v).trace := by rw [funext n8, inner_contrE, hI.R.2]
    have m9 : inner d C (mat D t9) = (capG d (TdvpInf.bondH I.W0 I.W1) (mat D I.A) (mat D I.A) (mat D I.A) C 1 * up D s7 0).trace := by
      rw [funext n9, inner_contrH, hloA, hI.w2, range_one, sum_singleton, ext_bond hI.w1 hI.w3, hI.L.2]
    have m10 : inner d C (mat D t10) = (cap d (mat D I.A) C (lo D x10 0) * toM D I.r.v).trace := by rw [funext n10, inner_contrE, hI.R.2]
    have m11 : inner d C (mat D t11) = (capG d (TdvpInf.bondH I.W0 I.W1) (mat D I.A) (mat D I.A) C (mat D I.A) 1 * up D s7 0).trace := by
      rw [funext n11, inner_contrH, hu11, ext_bondL hI.w1 hI.w2 hI.w3, hI.L.2]
    have m12 : inner d C (mat D t12) = (cap d (mat D I.A) C (lo D x12 0) * toM D I.r.v).trace := by rw [funext n12, inner_contrE, hI.R.2]
    simp only [List.map_cons, List.map_nil, List.sum_cons, List.sum_nil, inner_scale, m1, m2, m3, m4, m5, m6, m7, m8, m9, m10, m11, m12, facm_eq, limitK, cap_add, cap_smul, Matrix.add_mul,
      Matrix.smul_mul, Matrix.trace_add, Matrix.trace_smul, smul_eq_mul]
    ring

/-! ## The whole routine -/

/-- Spec: the matrices of a tensor with different bond dimensions. -/
def rect (a b : ℕ) (T : Ten ℂ) (s : ℕ) : Matrix (Fin a) (Fin b) ℂ := fun i j => T.v i j s

/-- Spec: a vector as a matrix. -/
def vecM (a b : ℕ) (x : Vec ℂ) : Matrix (Fin a) (Fin b) ℂ := fun i j => x.v (i * b + j)

theorem tangent_spec {I : Inp} (hI : Ready D D2 d I) {vec : Vec ℂ} (hv : vec.n = D2 * D) :
    ∃ VLl B, tangent I vec = .ok (VLl, B) ∧ VLl.l = D ∧ VLl.r = D2 ∧ VLl.d = d ∧ (∀ s, rect D D2 VLl s = rect D D2 I.VL s) ∧ TenD D d B
      ∧ ∀ s, mat D B s = rect D D2 I.VL s * vecM D2 D vec * toM D I.ir.v := by
  have h1 : reshape2 vec I.VL.r I.VL.l = .ok ⟨D2, D, fun i j => vec.v (i * D + j)⟩ := by
    rw [hI.VL.1, hI.VL.2.1, reshape2, if_pos hv]
  have hr : ∀ (i : Fin D) (q s : ℕ), ∑ a ∈ range D, I.il.v i a * I.VL.v a q s = I.VL.v i q s := by
    intro i q s
    have e : ∀ a : Fin D, I.il.v i a = (1 : Matrix (Fin D) (Fin D) ℂ) i a := fun a => congrFun (congrFun hI.il.2.2 i) a
    rw [Finset.sum_range]
    simp only [e, Matrix.one_apply, ite_mul, one_mul, zero_mul, Finset.sum_ite_eq, Finset.mem_univ, if_true]
  have hl : absorbL I.il I.VL = .ok ⟨I.il.r, I.VL.r, I.VL.d, fun i j s => ∑ k ∈ range I.VL.l, I.il.v i k * I.VL.v k j s⟩ := if_pos (hI.il.2.1.trans hI.VL.1.symm)
  refine ⟨⟨I.il.r, I.VL.r, I.VL.d, fun i j s => ∑ k ∈ range I.VL.l, I.il.v i k * I.VL.v k j s⟩,
    ⟨I.il.r, I.ir.c, I.VL.d, fun i j s => ∑ q ∈ range I.VL.r, (∑ k ∈ range I.VL.l, I.il.v i k * I.VL.v k q s) * ∑ a ∈ range D, vec.v (q * D + a) * I.ir.v a j⟩,
    ?_, hI.il.1, hI.VL.2.1, hI.VL.2.2, fun s => ?_, ⟨hI.il.1, hI.ir.2, hI.VL.2.2⟩, fun s => ?_⟩
  · unfold tangent
    rw [h1]
    simp only [andThen, hI.ir.1, if_true, hl]
    simp only [absorbR, Mat.dot, hI.VL.2.1, if_true]
  · ext i q
    simp only [rect, hI.VL.1]
    exact hr i q s
  · ext i j
    simp only [mat, hI.VL.1, hI.VL.2.1, hr, Matrix.mul_apply, rect, vecM, toM, Finset.sum_mul]
    rw [sum_comm, Finset.sum_range]
    refine sum_congr rfl fun q _ => ?_
    rw [Finset.mul_sum, Finset.sum_range]
    exact sum_congr rfl fun a _ => by ring

theorem project_spec {I : Inp} (hI : Ready D D2 d I) {VLl out : Ten ℂ} (h1 : VLl.l = D) (h2 : VLl.r = D2) (h3 : VLl.d = d) (h4 : ∀ s, rect D D2 VLl s = rect D D2 I.VL s)
    (ho : TenD D d out) :
    ∃ y, project I VLl out = .ok y ∧ y.n = D2 * D ∧ ∀ Z : Matrix (Fin D2) (Fin D) ℂ,
      ∑ q, ∑ j, star (Z q j) * vecM D2 D y q j = inner d (fun s => rect D D2 I.VL s * Z * (toM D I.ir.v).map star) (mat D out) := by
  have hf : ∀ (q : Fin D2) (a : Fin D) (s : ℕ), VLl.v a q s = rect D D2 I.VL s a q := fun q a s => congrFun (congrFun (h4 s) a) q
  refine ⟨⟨I.VL.l * I.VL.r, fun n => ∑ b ∈ range out.r, (∑ a ∈ range out.l, ∑ s ∈ range out.d, out.v a b s * star (VLl.v a (n / I.ir.r) s)) * I.ir.v (n % I.ir.r) b⟩, ?_, ?_, fun Z => ?_⟩
  · unfold project
    rw [if_pos ⟨ho.l.trans h1.symm, ho.d.trans h3.symm, ho.r.trans hI.ir.2.symm⟩, flat, if_pos (by rw [h2, hI.ir.1, hI.VL.1, hI.VL.2.1, Nat.mul_comm])]
  · dsimp only
    rw [hI.VL.1, hI.VL.2.1, Nat.mul_comm]
  · have e : ∀ (q : Fin D2) (j : Fin D), star (Z q j) * vecM D2 D ⟨I.VL.l * I.VL.r, fun n => ∑ b ∈ range out.r, (∑ a ∈ range out.l, ∑ s ∈ range out.d,
          out.v a b s * star (VLl.v a (n / I.ir.r) s)) * I.ir.v (n % I.ir.r) b⟩ q j
        = ∑ s ∈ range d, ∑ b : Fin D, ∑ a : Fin D, star (Z q j) * star (rect D D2 I.VL s a q) * I.ir.v j b * mat D out s a b := by
      intro q j
      simp only [vecM, hI.ir.1, idx_div j.2, idx_mod j.2, ho.l, ho.r, ho.d, Finset.mul_sum, Finset.sum_mul]
      rw [Finset.sum_range]
      simp only [Finset.sum_range (n := D)]
      rw [sum_congr rfl fun b _ => sum_comm, sum_comm]
      refine sum_congr rfl fun s _ => sum_congr rfl fun b _ => sum_congr rfl fun a _ => ?_
      rw [hf, show mat D out s a b = out.v a b s from rfl]
      ring
    simp only [e]
    rw [sum_congr rfl fun q _ => sum_comm, sum_comm, inner]
    refine sum_congr rfl fun s _ => ?_
    simp only [Matrix.trace, Matrix.diag, Matrix.mul_apply, conjTranspose_apply, Matrix.map_apply, star_sum, star_mul', star_star, Finset.sum_mul, toM]
    calc ∑ q : Fin D2, ∑ j : Fin D, ∑ b : Fin D, ∑ a : Fin D, star (Z q j) * star (rect D D2 I.VL s a q) * I.ir.v j b * mat D out s a b
        = ∑ b : Fin D, ∑ a : Fin D, ∑ j : Fin D, ∑ q : Fin D2, star (Z q j) * star (rect D D2 I.VL s a q) * I.ir.v j b * mat D out s a b := by
          rw [sum_comm, sum_congr rfl fun j _ => sum_comm, sum_comm]
          refine sum_congr rfl fun b _ => ?_
          rw [sum_congr rfl fun j _ => sum_comm, sum_comm]
      _ = _ := sum_congr rfl fun b _ => sum_congr rfl fun a _ => sum_congr rfl fun j _ => sum_congr rfl fun q _ => by ring

/-- What the routine returns. -/
theorem exHA_spec {solve : Lgmres} {rnd : ℕ → ℕ → ℂ} {I : Inp} {k : ℝ} (hS : LgmresSpec solve) (hI : Ready D D2 d I) {vec y : Vec ℂ} (hv : vec.n = D2 * D)
    (hrun : exHA solve rnd I k vec = .ok y) :
    y.n = D2 * D ∧ ∃ s7 x8 x10 x12 : Matrix (Fin D) (Fin D) ℂ,
      Solved d (TdvpInf.bondH I.W0 I.W1) (mat D I.A) (fun s => rect D D2 I.VL s * vecM D2 D vec * toM D I.ir.v) (toM D I.r.v) (lo D I.K 0) k s7 x8 x10 x12
      ∧ ∀ Z : Matrix (Fin D2) (Fin D) ℂ, ∑ q, ∑ j, star (Z q j) * vecM D2 D y q j
        = limitK d (TdvpInf.bondH I.W0 I.W1) (mat D I.A) (fun s => rect D D2 I.VL s * vecM D2 D vec * toM D I.ir.v)
            (fun s => rect D D2 I.VL s * Z * (toM D I.ir.v).map star) (toM D I.r.v) (facp k) (lo D I.K 0) (up D I.KR 0) s7
            ((facp k)⁻¹ • x8 + (facp k)⁻¹ • x10 + ((facp k)⁻¹ * (facp k)⁻¹) • x12) := by
  obtain ⟨VLl, B, a1, a2, a3, a4, a5, hB, a7⟩ := tangent_spec hI hv
  unfold exHA at hrun
  obtain ⟨_, hp, hrun⟩ := andThen_ok.1 hrun
  obtain rfl := Except.ok.inj (a1.symm.trans hp)
  obtain ⟨ts', hts, hrun⟩ := andThen_ok.1 hrun
  have hts' := hts
  unfold terms at hts'
  obtain ⟨_, -, hts'⟩ := andThen_ok.1 hts'
  obtain ⟨_, -, hts'⟩ := andThen_ok.1 hts'
  obtain ⟨_, -, hts'⟩ := andThen_ok.1 hts'
  obtain ⟨_, -, hts'⟩ := andThen_ok.1 hts'
  obtain ⟨e4, q4, hts'⟩ := andThen_ok.1 hts'
  obtain ⟨_, -, hts'⟩ := andThen_ok.1 hts'
  obtain ⟨_, -, hts'⟩ := andThen_ok.1 hts'
  obtain ⟨_, -, hts'⟩ := andThen_ok.1 hts'
  obtain ⟨e7, q7, hts'⟩ := andThen_ok.1 hts'
  obtain ⟨i7, p7, hts'⟩ := andThen_ok.1 hts'
  obtain ⟨s7, r7, hts'⟩ := andThen_ok.1 hts'
  obtain ⟨_, -, hts'⟩ := andThen_ok.1 hts'
  obtain ⟨e8, q8, hts'⟩ := andThen_ok.1 hts'
  obtain ⟨i8, p8, hts'⟩ := andThen_ok.1 hts'
  obtain ⟨x8, r8, hts'⟩ := andThen_ok.1 hts'
  obtain ⟨_, -, hts'⟩ := andThen_ok.1 hts'
  obtain ⟨_, -, hts'⟩ := andThen_ok.1 hts'
  obtain ⟨e10, q10, hts'⟩ := andThen_ok.1 hts'
  obtain ⟨i10, p10, hts'⟩ := andThen_ok.1 hts'
  obtain ⟨x10, r10, hts'⟩ := andThen_ok.1 hts'
  obtain ⟨_, -, hts'⟩ := andThen_ok.1 hts'
  obtain ⟨_, -, hts'⟩ := andThen_ok.1 hts'
  obtain ⟨_, -, hts'⟩ := andThen_ok.1 hts'
  obtain ⟨e12, q12, hts'⟩ := andThen_ok.1 hts'
  obtain ⟨i12, p12, hts'⟩ := andThen_ok.1 hts'
  obtain ⟨x12, r12, -⟩ := andThen_ok.1 hts'
  obtain ⟨g1, t, ts, g2, g3, g4, g5⟩ := terms_core hS hI hB q4 q7 p7 r7 q8 p8 r8 q10 p10 r10 q12 p12 r12
  obtain rfl := Except.ok.inj (g2.symm.trans hts)
  have hB' : mat D B = fun s => rect D D2 I.VL s * vecM D2 D vec * toM D I.ir.v := funext a7
  rw [hB'] at g1 g5
  dsimp only at hrun
  obtain ⟨out, o1, hrun⟩ := andThen_ok.1 hrun
  obtain ⟨Q, s1, s2, -⟩ := sumT_spec (d := d) (D := D) (fun _ => 0) ts t g3 g4
  obtain rfl := Except.ok.inj (s1.symm.trans o1)
  obtain ⟨y', y1, y2, y3⟩ := project_spec hI a2 a3 a4 a5 s2
  obtain rfl := Except.ok.inj (y1.symm.trans hrun)
  refine ⟨y2, _, _, _, _, g1, fun Z => ?_⟩
  rw [y3 Z, ← g5]
  obtain ⟨Q', s1', -, s3'⟩ := sumT_spec (d := d) (D := D) (fun s => rect D D2 I.VL s * Z * (toM D I.ir.v).map star) ts t g3 g4
  obtain rfl := Except.ok.inj (s1'.symm.trans s1)
  exact s3'

/-- The routine returns if the systems can be solved. -/
theorem exHA_total {solve : Lgmres} {rnd : ℕ → ℕ → ℂ} {I : Inp} {k : ℝ} (hS : LgmresSpec solve) (hC : LgmresConverges solve) (hI : Ready D D2 d I) {vec : Vec ℂ} (hv : vec.n = D2 * D)
    (ho : cap d (mat D I.A) (mat D I.A) 1 = 1) (hf : cup d (mat D I.A) (mat D I.A) (toM D I.r.v) = toM D I.r.v) (ht : (toM D I.r.v).trace = 1)
    (hu : ∀ F : Matrix (Fin D) (Fin D) ℂ, cup d (mat D I.A) (mat D I.A) F = F → ∃ c : ℂ, F = c • toM D I.r.v)
    (hu' : ∀ F : Matrix (Fin D) (Fin D) ℂ, cap d (mat D I.A) (mat D I.A) F = F → ∃ c : ℂ, F = c • 1) :
    ∃ y, exHA solve rnd I k vec = .ok y := by
  obtain ⟨VLl, B, a1, a2, a3, a4, a5, hB, -⟩ := tangent_spec hI hv
  have hA := hI.A
  have hL : EnvD D I.W0.l I.L := by rw [hI.w1]; exact hI.L.1
  obtain ⟨LAA, b1, hLAA', -⟩ := addR' hA hA hI.W0 hL
  obtain rfl := Except.ok.inj (b1.symm.trans hI.LAA)
  have hLAA : EnvD D I.W1.l I.LAA := by rw [← hI.w3]; exact hLAA'
  obtain ⟨e4, q4, he4', -⟩ := addR' hB hA hI.W0 hL
  have he4 : EnvD D I.W1.l e4 := by rw [← hI.w3]; exact he4'
  obtain ⟨e7, q7, he7, -⟩ := addEL hB hA hI.R.1
  obtain ⟨i7, p7, f7, f7', -⟩ := inhom_spec (k := k) he7 hI.L.1 hI.R.1
  obtain ⟨s7, r7⟩ := resolveL_total (rnd := rnd 7) hC hS hA hI.r.1 hI.r.2 hI.l.1 hI.l.2.1 hI.l.2.2 f7 f7' hf ht hu'
  obtain ⟨e8, q8, he8, -⟩ := addER hB hA hI.K
  obtain ⟨i8, p8, f8, f8', -⟩ := inhom_spec (k := k) he8 hI.R.1 hI.L.1
  obtain ⟨x8, r8⟩ := resolveR_total (rnd := rnd 8) hC hS hA hI.r.1 hI.r.2 hI.l.1 hI.l.2.1 hI.l.2.2 f8 f8' ho ht hu
  obtain ⟨e10, q10, he10', -⟩ := addR' hB hA hI.W1 hLAA
  have he10 : EnvD D 1 e10 := by rw [← hI.w2]; exact he10'
  obtain ⟨i10, p10, f10, f10', -⟩ := inhom_spec (k := k) he10 hI.R.1 hI.L.1
  obtain ⟨x10, r10⟩ := resolveR_total (rnd := rnd 10) hC hS hA hI.r.1 hI.r.2 hI.l.1 hI.l.2.1 hI.l.2.2 f10 f10' ho ht hu
  obtain ⟨e12, q12, he12', -⟩ := addR' hA hA hI.W1 he4
  have he12 : EnvD D 1 e12 := by rw [← hI.w2]; exact he12'
  obtain ⟨i12, p12, f12, f12', -⟩ := inhom_spec (k := k) he12 hI.R.1 hI.L.1
  have hL1 : toM D (slice I.L 0).v = 1 := by
    have := congrArg transpose hI.L.2
    rw [transpose_one] at this
    exact this
  have hR1 : toM D (slice I.R 0).v = toM D I.r.v := hI.R.2
  obtain ⟨x12, r12⟩ := resolveR_total (rnd := rnd 12) hC hS hA (r := slice I.R 0) (l := slice I.L 0) hI.R.1.u hI.R.1.w hI.L.1.u hI.L.1.w hL1 f12 f12' ho (by rw [hR1]; exact ht)
    (by rw [hR1]; exact hu)
  obtain ⟨-, t, ts, g2, g3, g4, -⟩ := terms_core hS hI hB q4 q7 p7 (by rw [hI.VL.1]; exact r7) q8 p8 (by rw [hI.VL.1]; exact r8) q10 p10 (by rw [hI.VL.1]; exact r10) q12 p12
    (by rw [hI.VL.1]; exact r12)
  obtain ⟨Q, s1, s2, -⟩ := sumT_spec (d := d) (D := D) (fun _ => 0) ts t g3 g4
  obtain ⟨y, y1, -⟩ := project_spec hI a2 a3 a4 a5 s2
  refine ⟨y, ?_⟩
  unfold exHA
  rw [a1]
  simp only [andThen, g2, s1, y1]

end
end PyTeN.Excite
