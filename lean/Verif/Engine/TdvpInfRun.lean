import Verif.Engine.TdvpInf
import Verif.Engine.TdvpInfSpec
import Verif.Props.VumpsFirst

/-! # Lemmas for `TDVPupdate`: what its parts compute, in terms of matrices -/

namespace PyTeN.TdvpInf
open Finset Transfer Regauge Vumps Steady Matrix
noncomputable section

variable {D : ℕ}

/-- The slices of a left block; rows are the lower, columns the upper indices. -/
def lo (D : ℕ) (E : Env ℂ) (b : ℕ) : Matrix (Fin D) (Fin D) ℂ := fun j' j => E.v j j' b

/-- The slices of a right block; rows are the upper, columns the lower indices. -/
def up (D : ℕ) (E : Env ℂ) (b : ℕ) : Matrix (Fin D) (Fin D) ℂ := fun i i' => E.v i i' b

theorem initR (A B : Ten ℂ) (x : Mat ℂ) (W : Mpo ℂ) (h1 : A.l = D) (h2 : A.r = D) (h3 : B.l = D) (h4 : B.r = D) (hd : A.d = W.din) (hd' : B.d = W.dout)
    (hx : x.r = D) (hx' : x.c = D) (hW : W.l = 1) : ∃ E, initializeLayerR A x B W = .ok E ∧ E.u = D ∧ E.w = D ∧ E.m = W.r ∧
      ∀ b, lo D E b = ∑ s ∈ range A.d, ∑ t ∈ range B.d, W.v 0 b s t • ((mat D B t)ᴴ * (toM D x.v)ᵀ * mat D A s) := by
  refine ⟨_, if_pos ⟨hx.trans h1.symm, hx'.trans h3.symm, hd, hd', hW⟩, h2, h4, rfl, fun b => ?_⟩
  ext j' j
  simp only [lo, Matrix.sum_apply, Matrix.smul_apply, Matrix.mul_apply, conjTranspose_apply, transpose_apply, mat, toM, hx, hx', Finset.sum_range, smul_eq_mul]
  refine sum_congr rfl fun s _ => sum_congr rfl fun t _ => ?_
  rw [mul_comm]
  congr 1
  simp only [Finset.sum_mul]
  rw [sum_comm]
  exact sum_congr rfl fun i _ => sum_congr rfl fun i' _ => by ring

theorem initL (A B : Ten ℂ) (x : Mat ℂ) (W : Mpo ℂ) (h1 : A.l = D) (h2 : A.r = D) (h3 : B.l = D) (h4 : B.r = D) (hd : A.d = W.din) (hd' : B.d = W.dout)
    (hx : x.r = D) (hx' : x.c = D) (hW : W.r = 1) : ∃ E, initializeLayerL A x B W = .ok E ∧ E.u = D ∧ E.w = D ∧ E.m = W.l ∧
      ∀ b, up D E b = ∑ s ∈ range A.d, ∑ t ∈ range B.d, W.v b 0 s t • (mat D A s * toM D x.v * (mat D B t)ᴴ) := by
  refine ⟨_, if_pos ⟨hx.trans h2.symm, hx'.trans h4.symm, hd, hd', hW⟩, h1, h3, rfl, fun b => ?_⟩
  ext i i'
  simp only [up, Matrix.sum_apply, Matrix.smul_apply, Matrix.mul_apply, conjTranspose_apply, mat, toM, hx, hx', Finset.sum_range, smul_eq_mul]
  refine sum_congr rfl fun s _ => sum_congr rfl fun t _ => ?_
  rw [mul_comm]
  congr 1
  simp only [Finset.sum_mul]
  exact sum_congr rfl fun i _ => sum_congr rfl fun i' _ => by ring

theorem addR (E : Env ℂ) (A B : Ten ℂ) (W : Mpo ℂ) (h1 : A.l = D) (h2 : A.r = D) (h3 : B.l = D) (h4 : B.r = D) (hd : A.d = W.din) (hd' : W.dout = B.d)
    (hE : E.u = D) (hE' : E.w = D) (hm : E.m = W.l) : ∃ F, addLayerR E A W B = .ok F ∧ F.u = D ∧ F.w = D ∧ F.m = W.r ∧
      ∀ c, lo D F c = ∑ b ∈ range W.l, ∑ s ∈ range A.d, ∑ t ∈ range B.d, W.v b c s t • ((mat D B t)ᴴ * lo D E b * mat D A s) := by
  refine ⟨_, if_pos ⟨hE.trans h1.symm, hm, hd, hE'.trans h3.symm, hd'⟩, h2, h4, rfl, fun c => ?_⟩
  ext j' j
  simp only [lo, Matrix.sum_apply, Matrix.smul_apply, Matrix.mul_apply, conjTranspose_apply, mat, hE, hE', hm, smul_eq_mul]
  rw [Finset.sum_range (n := D)]
  simp only [Finset.sum_range (n := D), Finset.sum_mul, Finset.mul_sum]
  have e : ∀ (F : Fin D → Fin D → ℕ → ℕ → ℕ → ℂ), ∑ i, ∑ i', ∑ b ∈ range W.l, ∑ s ∈ range A.d, ∑ t ∈ range B.d, F i i' b s t
      = ∑ b ∈ range W.l, ∑ s ∈ range A.d, ∑ t ∈ range B.d, ∑ i, ∑ i', F i i' b s t := by
    intro F
    calc _ = ∑ i, ∑ b ∈ range W.l, ∑ s ∈ range A.d, ∑ t ∈ range B.d, ∑ i', F i i' b s t := by
          refine sum_congr rfl fun i _ => ?_
          rw [sum_comm]
          refine sum_congr rfl fun b _ => ?_
          rw [sum_comm]
          refine sum_congr rfl fun s _ => ?_
          rw [sum_comm]
      _ = _ := by
          rw [sum_comm]
          refine sum_congr rfl fun b _ => ?_
          rw [sum_comm]
          refine sum_congr rfl fun s _ => ?_
          rw [sum_comm]
  rw [e]
  exact sum_congr rfl fun b _ => sum_congr rfl fun s _ => sum_congr rfl fun t _ => sum_congr rfl fun i _ => sum_congr rfl fun i' _ => by ring

theorem join_mat (L R : Env ℂ) {m : ℕ} (h1 : L.u = D) (h2 : L.w = D) (h3 : R.u = D) (h4 : R.w = D) (hm : L.m = m) (hm' : R.m = m) :
    ∃ M, joinLower L R = .ok M ∧ M.r = D ∧ M.c = D ∧ toM D M.v = ∑ b ∈ range m, lo D L b * up D R b := by
  refine ⟨_, if_pos ⟨h1.trans h3.symm, hm.trans hm'.symm⟩, h2, h4, ?_⟩
  ext a b
  simp only [toM, lo, up, Matrix.sum_apply, Matrix.mul_apply, h1, hm]
  rw [Finset.sum_range, sum_comm]

theorem dotT_mat (M P : Mat ℂ) (h1 : M.r = D) (h2 : M.c = D) (h3 : P.r = D) (h4 : P.c = D) :
    ∃ Q, dotT M P = .ok Q ∧ Q.r = D ∧ Q.c = D ∧ toM D Q.v = (toM D M.v)ᵀ * toM D P.v := by
  refine ⟨_, if_pos (h1.trans h3.symm), h2, h4, ?_⟩
  ext i j
  simp only [toM, Mat.dot, transp, Matrix.mul_apply, transpose_apply, h1, Finset.sum_range]

theorem add_mat (M P : Mat ℂ) (h1 : M.r = D) (h2 : M.c = D) (h3 : P.r = D) (h4 : P.c = D) :
    ∃ Q, addM M P = .ok Q ∧ Q.r = D ∧ Q.c = D ∧ toM D Q.v = toM D M.v + toM D P.v :=
  ⟨_, if_pos ⟨h1.trans h3.symm, h2.trans h4.symm⟩, h1, h2, rfl⟩

theorem absL_mat (m : Mat ℂ) (T : Ten ℂ) (h1 : m.r = D) (h2 : m.c = D) (h3 : T.l = D) (h4 : T.r = D) :
    ∃ Q, absorbL m T = .ok Q ∧ Q.l = D ∧ Q.r = D ∧ Q.d = T.d ∧ ∀ s, mat D Q s = toM D m.v * mat D T s := by
  refine ⟨_, if_pos (h2.trans h3.symm), h1, h4, rfl, fun s => ?_⟩
  ext i j
  simp only [mat, toM, Matrix.mul_apply, h3, Finset.sum_range]

theorem absR_mat (T : Ten ℂ) (m : Mat ℂ) (h1 : m.r = D) (h2 : m.c = D) (h3 : T.l = D) (h4 : T.r = D) :
    ∃ Q, absorbR T m = .ok Q ∧ Q.l = D ∧ Q.r = D ∧ Q.d = T.d ∧ ∀ s, mat D Q s = mat D T s * toM D m.v := by
  refine ⟨_, if_pos (h4.trans h1.symm), h3, h2, rfl, fun s => ?_⟩
  ext i j
  simp only [mat, toM, Matrix.mul_apply, h4, Finset.sum_range]

theorem gmvp_mat (A B : Ten ℂ) (K : Mat ℂ) (h1 : A.l = D) (h2 : A.r = D) (h3 : B.l = D) (h4 : B.r = D) (hd : A.d = B.d) (hK : K.r = D) (hK' : K.c = D) :
    ∃ kv v M, flat K (K.r * K.c) = .ok kv ∧ generalizedMatrixVectorProduct .right (.arr B) (.arr A) kv = .ok v ∧ reshape2 v D D = .ok M ∧ M.r = D ∧ M.c = D
      ∧ (toM D M.v)ᵀ = cap A.d (mat D A) (mat D B) (toM D K.v)ᵀ := by
  obtain ⟨kv, k1, k2⟩ := flat_spec (M := K) (f := K.v) ⟨hK, hK', fun _ _ _ _ => rfl⟩
  obtain ⟨v, v1, v2⟩ := flat_isMat (f := fun j j' => ∑ i ∈ range A.l, ∑ i' ∈ range B.l, ∑ s ∈ range A.d, kv.v (i * B.l + i') * A.v i j s * star (B.v i' j' s)) (r := D) rfl
  refine ⟨kv, v, ⟨D, D, fun i j => v.v (i * D + j)⟩, by rw [hK, hK', k1], ?_, ?_, rfl, rfl, ?_⟩
  · simp only [generalizedMatrixVectorProduct, mixedTransferOperator, mixedArr, reshape2, h2, h4, if_pos hd]
    rw [if_pos (by rw [k2.1, h1, h3])]
    exact v1
  · simp only [reshape2]; rw [if_pos v2.1]
  · ext j' j
    simp only [transpose_apply, toM, cap, Matrix.sum_apply, Matrix.mul_apply, conjTranspose_apply, mat]
    rw [v2.2 j j.2 j' j'.2, h1, h3]
    have e : ∀ i ∈ range D, ∑ i' ∈ range D, ∑ s ∈ range A.d, kv.v (i * D + i') * A.v i j s * star (B.v i' j' s)
        = ∑ s ∈ range A.d, ∑ i' ∈ range D, star (B.v i' j' s) * K.v i i' * A.v i j s := by
      intro i hi
      rw [sum_comm]
      exact sum_congr rfl fun s _ => sum_congr rfl fun i' hi' => by rw [k2.2 i (mem_range.1 hi) i' (mem_range.1 hi')]; ring
    dsimp only
    rw [sum_congr rfl e, sum_comm]
    exact sum_congr rfl fun s _ => by simp only [Finset.sum_range, Finset.sum_mul]

/-- Spec: the operator of two neighbours, as given by the two tensors of the MPO. -/
def bondH (W0 W1 : Mpo ℂ) (s1 s2 t1 t2 : ℕ) : ℂ := ∑ b ∈ range W0.r, W0.v 0 b s1 t1 * W1.v b 0 s2 t2

theorem reorder (d m : ℕ) (G : ℕ → ℕ → ℕ → ℕ → ℕ → Matrix (Fin D) (Fin D) ℂ) :
    ∑ b ∈ range m, ∑ s2 ∈ range d, ∑ t2 ∈ range d, ∑ s1 ∈ range d, ∑ t1 ∈ range d, G b s1 s2 t1 t2
      = ∑ s1 ∈ range d, ∑ s2 ∈ range d, ∑ t1 ∈ range d, ∑ t2 ∈ range d, ∑ b ∈ range m, G b s1 s2 t1 t2 := by
  calc _ = ∑ b ∈ range m, ∑ s1 ∈ range d, ∑ s2 ∈ range d, ∑ t1 ∈ range d, ∑ t2 ∈ range d, G b s1 s2 t1 t2 := by
        refine sum_congr rfl fun b _ => ?_
        rw [sum_comm]
        rw [show ∑ t2 ∈ range d, ∑ s2 ∈ range d, ∑ s1 ∈ range d, ∑ t1 ∈ range d, G b s1 s2 t1 t2
          = ∑ t2 ∈ range d, ∑ s1 ∈ range d, ∑ s2 ∈ range d, ∑ t1 ∈ range d, G b s1 s2 t1 t2 from sum_congr rfl fun _ _ => sum_comm, sum_comm]
        refine sum_congr rfl fun s1 _ => ?_
        rw [sum_comm]
        exact sum_congr rfl fun s2 _ => sum_comm
    _ = _ := by
        rw [sum_comm]
        refine sum_congr rfl fun _ _ => ?_
        rw [sum_comm]
        refine sum_congr rfl fun _ _ => ?_
        rw [sum_comm]
        refine sum_congr rfl fun _ _ => ?_
        rw [sum_comm]

theorem bond_mat {d : ℕ} {W0 W1 : Mpo ℂ} {A l1 l2 : ℕ → Matrix (Fin D) (Fin D) ℂ} {Y : Matrix (Fin D) (Fin D) ℂ} {F : ℕ → Matrix (Fin D) (Fin D) ℂ}
    (hF : ∀ b, F b = ∑ s ∈ range d, ∑ t ∈ range d, W0.v 0 b s t • ((l1 t)ᴴ * Y * A s)) :
    ∑ b ∈ range W0.r, ∑ s ∈ range d, ∑ t ∈ range d, W1.v b 0 s t • ((l2 t)ᴴ * F b * A s) = capH d (bondH W0 W1) A l1 l2 Y := by
  simp only [hF, capH, bondH, Finset.mul_sum, Finset.sum_mul, Matrix.mul_smul, Matrix.smul_mul, smul_sum, Finset.sum_smul, smul_smul, conjTranspose_mul]
  rw [reorder d W0.r fun b s1 s2 t1 t2 => (W1.v b 0 s2 t2 * W0.v 0 b s1 t1) • ((l2 t2)ᴴ * ((l1 t1)ᴴ * Y * A s1) * A s2)]
  refine sum_congr rfl fun s1 _ => sum_congr rfl fun s2 _ => sum_congr rfl fun t1 _ => sum_congr rfl fun t2 _ => sum_congr rfl fun b _ => ?_
  rw [mul_comm]
  simp only [Matrix.mul_assoc]

theorem joined {d : ℕ} {W0 W1 : Mpo ℂ} {A V : ℕ → Matrix (Fin D) (Fin D) ℂ} {r ir : Matrix (Fin D) (Fin D) ℂ} {F G : ℕ → Matrix (Fin D) (Fin D) ℂ}
    (hF : ∀ b, F b = ∑ s ∈ range d, ∑ t ∈ range d, W0.v 0 b s t • ((V t)ᴴ * A s))
    (hG : ∀ b, G b = ∑ s ∈ range d, ∑ t ∈ range d, W1.v b 0 s t • (A s * r * (ir * A t)ᴴ)) :
    ∑ b ∈ range W0.r, F b * G b = ∑ s1 ∈ range d, ∑ s2 ∈ range d, ∑ t1 ∈ range d, ∑ t2 ∈ range d,
      bondH W0 W1 s1 s2 t1 t2 • ((V t1)ᴴ * A s1 * (A s2 * r * (A t2)ᴴ * irᴴ)) := by
  simp only [hF, hG, bondH, Finset.mul_sum, Finset.sum_mul, Matrix.mul_smul, Matrix.smul_mul, Finset.sum_smul, smul_smul, conjTranspose_mul]
  rw [reorder d W0.r fun b s1 s2 t1 t2 => (W1.v b 0 s2 t2 * W0.v 0 b s1 t1) • ((V t1)ᴴ * A s1 * (A s2 * r * ((A t2)ᴴ * irᴴ)))]
  refine sum_congr rfl fun s1 _ => sum_congr rfl fun s2 _ => sum_congr rfl fun t1 _ => sum_congr rfl fun t2 _ => sum_congr rfl fun b _ => ?_
  rw [mul_comm]
  simp only [Matrix.mul_assoc]

theorem toM_eye : toM D (eye D).v = 1 := toM_delta D

/-- What the second part of `TDVPupdate` computes. -/
theorem assemble_spec {X : Ext} {r k : Mat ℂ} {A VL : Ten ℂ} {W0 W1 : Mpo ℂ} {E : Env ℂ} (h1 : A.l = D) (h2 : A.r = D) (hr : r.r = D) (hr' : r.c = D)
    (hk : k.r = D) (hk' : k.c = D) (w1 : W0.l = 1) (w2 : W1.r = 1) (w3 : W0.r = W1.l) (w4 : A.d = W0.din) (w5 : A.d = W0.dout) (w6 : A.d = W1.din) (w7 : A.d = W1.dout)
    (hE : initializeLayerR A (eye A.l) A W0 = .ok E) (hV : nullTen X.O X.rand A = .ok VL)
    (s1 : (X.sqrtm (eye D)).r = D) (s2 : (X.sqrtm (eye D)).c = D) (s3 : toM D (X.sqrtm (eye D)).v = 1)
    (i1 : (X.pinv (X.sqrtm (eye D))).r = D) (i2 : (X.pinv (X.sqrtm (eye D))).c = D) (i3 : toM D (X.pinv (X.sqrtm (eye D))).v = 1)
    (t1 : (X.sqrtm r).r = D) (t2 : (X.sqrtm r).c = D) (u1 : (X.pinv (X.sqrtm r)).r = D) (u2 : (X.pinv (X.sqrtm r)).c = D) :
    ∃ x Adot, assemble X r A W0 W1 E k = .ok (x, Adot) ∧ x.r = D ∧ x.c = D
      ∧ toM D x.v = xopt A.d (bondH W0 W1) (mat D A) (mat D VL) (toM D r.v) (toM D (X.sqrtm r).v) (toM D (X.pinv (X.sqrtm r)).v) (toM D k.v)ᵀ
      ∧ Adot.l = D ∧ Adot.r = D ∧ Adot.d = A.d ∧ ∀ s, mat D Adot s = mat D VL s * toM D x.v * toM D (X.pinv (X.sqrtm r)).v := by
  have hdim : VL.l = D ∧ VL.r = D ∧ VL.d = A.d := by
    unfold nullTen at hV
    dsimp only at hV
    split_ifs at hV
    rw [← Except.ok.inj hV]
    exact ⟨h1, h2, rfl⟩
  obtain ⟨v1, v2, v3⟩ := hdim
  obtain ⟨E', e1, e2, e3, e4, e5⟩ := initR A A (eye D) W0 h1 h2 h1 h2 w4 w5 rfl rfl w1
  rw [h1, e1] at hE
  obtain rfl := Except.ok.inj hE
  obtain ⟨L, l1, l2, l3, l4, l5⟩ := initR A VL (X.sqrtm (eye D)) W0 h1 h2 v1 v2 w4 (v3.trans w5) s1 s2 w1
  obtain ⟨A', a1, a2, a3, a4, a5⟩ := absL_mat (X.pinv (X.sqrtm r)) A u1 u2 h1 h2
  obtain ⟨R, r1, r2, r3, r4, r5⟩ := initL A A' r W1 h1 h2 a2 a3 w6 (a4.trans w7) hr hr' w2
  obtain ⟨T1, p1, p2, p3, p4⟩ := join_mat L R l2 l3 r2 r3 l4 (r4.trans w3.symm)
  obtain ⟨V', b1, b2, b3, b4, b5⟩ := absL_mat (X.pinv (X.sqrtm (eye D))) VL i1 i2 v1 v2
  obtain ⟨E2, f1, f2, f3, f4, f5⟩ := addR E' A V' W1 h1 h2 b2 b3 w6 (by rw [b4, v3, w7]) e2 e3 (e4.trans w3)
  have hsq : squeeze E2 D = .ok (slice E2 0) := if_pos ⟨f2, f3, f4.trans w2⟩
  obtain ⟨T2, q1, q2, q3, q4⟩ := dotT_mat (slice E2 0) (X.sqrtm r) f2 f3 t1 t2
  obtain ⟨kv, v, M, g1, g2, g3, g4, g5, g6⟩ := gmvp_mat A V' k h1 h2 b2 b3 (by rw [b4, v3]) hk hk'
  obtain ⟨T3, o1, o2, o3, o4⟩ := dotT_mat M (X.sqrtm r) g4 g5 t1 t2
  obtain ⟨S, m1, m2, m3, m4⟩ := add_mat T1 T2 p2 p3 q2 q3
  obtain ⟨x, x1, x2, x3, x4⟩ := add_mat S T3 m2 m3 o2 o3
  obtain ⟨Y, y1, y2, y3, y4, y5⟩ := absR_mat V' x x2 x3 b2 b3
  obtain ⟨Z, z1, z2, z3, z4, z5⟩ := absR_mat Y (X.pinv (X.sqrtm r)) u1 u2 y2 y3
  have hVV : ∀ s, mat D V' s = mat D VL s := fun s => by rw [b5, i3, Matrix.one_mul]
  refine ⟨x, Z, ?_, x2, x3, ?_, z2, z3, by rw [z4, y4, b4, v3], fun s => by rw [z5, y5, hVV]⟩
  · simp only [assemble, h1, hV, andThen, l1, a1, r1, p1, b1, f1, hsq, q1, g1, g2, g3, o1, m1, x1, y1, z1]
  · rw [x4, m4, p4, q4, o4, xopt]
    congr 1
    · congr 1
      · refine joined (W0 := W0) (W1 := W1) (fun b => ?_) fun b => ?_
        · rw [l5, s3, v3]
          simp only [transpose_one, Matrix.mul_one]
        · rw [r5, a4]
          simp only [a5]
      · congr 1
        have : (toM D (slice E2 0).v)ᵀ = lo D E2 0 := rfl
        rw [this, f5, b4, v3, ← w3]
        simp only [hVV]
        refine bond_mat fun b => ?_
        rw [e5, toM_eye]
        simp only [transpose_one]
    · rw [g6, funext hVV]

theorem trace_pairing (f g : ℕ → ℕ → ℂ) : ((toM D f)ᵀ * toM D g).trace = pairing D f g := by
  simp only [Matrix.trace, Matrix.diag, Matrix.mul_apply, transpose_apply, toM, pairing, Finset.sum_range]
  rw [sum_comm]

theorem act_cap {A : Ten ℂ} (h2 : A.r = D) (f : ℕ → ℕ → ℂ) : (toM D (act .right [A] D f))ᵀ = cap A.d (mat D A) (mat D A) (toM D f)ᵀ := by
  rw [← act_rightM h2, cap]
  simp only [conjTranspose_conjTranspose]

/-- The first part of `TDVPupdate` up to the linear system. -/
theorem solveK_eq {X : Ext} {r : Mat ℂ} {A : Ten ℂ} {W0 W1 : Mpo ℂ} (h1 : A.l = D) (h2 : A.r = D) (hr : r.r = D) (hr' : r.c = D)
    (w1 : W0.l = 1) (w2 : W1.r = 1) (w3 : W0.r = W1.l) (w4 : A.d = W0.din) (w5 : A.d = W0.dout) (w6 : A.d = W1.din) (w7 : A.d = W1.dout) :
    ∃ E inh y, initializeLayerR A (eye A.l) A W0 = .ok E ∧ IsM inh D y
      ∧ (toM D y)ᵀ = capH A.d (bondH W0 W1) (mat D A) (mat D A) (mat D A) 1
        - (capH A.d (bondH W0 W1) (mat D A) (mat D A) (mat D A) 1 * toM D r.v).trace • (1 : Matrix (Fin D) (Fin D) ℂ)
      ∧ solveK X r A W0 W1 = andThen (renorm X.solve .right A r (eye D) inh X.rnd) fun k =>
          .ok (E, (capH A.d (bondH W0 W1) (mat D A) (mat D A) (mat D A) 1 * toM D r.v).trace, k) := by
  obtain ⟨E, e1, e2, e3, e4, e5⟩ := initR A A (eye D) W0 h1 h2 h1 h2 w4 w5 rfl rfl w1
  obtain ⟨E2, f1, f2, f3, f4, f5⟩ := addR E A A W1 h1 h2 h1 h2 w6 w7.symm e2 e3 (e4.trans w3)
  have hsq : squeeze E2 D = .ok (slice E2 0) := if_pos ⟨f2, f3, f4.trans w2⟩
  have hlb : (toM D (slice E2 0).v)ᵀ = capH A.d (bondH W0 W1) (mat D A) (mat D A) (mat D A) 1 := by
    have : (toM D (slice E2 0).v)ᵀ = lo D E2 0 := rfl
    rw [this, f5, ← w3]
    refine bond_mat fun b => ?_
    rw [e5, toM_eye]
    simp only [transpose_one]
  have hM : IsM (slice E2 0) D (slice E2 0).v := ⟨f2, f3, fun _ _ _ _ => rfl⟩
  have hp := pairMat_spec hM (P := r) (g := r.v) ⟨hr, hr', fun _ _ _ _ => rfl⟩
  obtain ⟨inh, n1, n2⟩ := minusEye_spec hM (pairing D (slice E2 0).v r.v)
  have htr : pairing D (slice E2 0).v r.v = (capH A.d (bondH W0 W1) (mat D A) (mat D A) (mat D A) 1 * toM D r.v).trace := by
    rw [← trace_pairing, hlb]
  refine ⟨E, inh, _, by rw [h1, e1], n2, ?_, ?_⟩
  · rw [← htr, ← hlb]
    ext i j
    simp only [transpose_apply, toM, Matrix.sub_apply, Matrix.smul_apply, smul_eq_mul]
    congr 2
    rw [← toM_delta D, toM, delta_comm]
  · simp only [solveK, h1, h2, e1, f1, hsq, hp, n1, andThen]
    rw [← htr]

/-- What the first part of `TDVPupdate` computes. -/
theorem solveK_spec {X : Ext} {r k : Mat ℂ} {A : Ten ℂ} {W0 W1 : Mpo ℂ} {E : Env ℂ} {e : ℂ} (hS : LgmresSpec X.solve) (h1 : A.l = D) (h2 : A.r = D) (hr : r.r = D) (hr' : r.c = D)
    (w1 : W0.l = 1) (w2 : W1.r = 1) (w3 : W0.r = W1.l) (w4 : A.d = W0.din) (w5 : A.d = W0.dout) (w6 : A.d = W1.din) (w7 : A.d = W1.dout)
    (hrun : solveK X r A W0 W1 = .ok (E, e, k)) :
    initializeLayerR A (eye A.l) A W0 = .ok E ∧ k.r = D ∧ k.c = D ∧ e = (capH A.d (bondH W0 W1) (mat D A) (mat D A) (mat D A) 1 * toM D r.v).trace
      ∧ (toM D k.v)ᵀ - cap A.d (mat D A) (mat D A) (toM D k.v)ᵀ + ((toM D k.v)ᵀ * toM D r.v).trace • (1 : Matrix (Fin D) (Fin D) ℂ)
        = capH A.d (bondH W0 W1) (mat D A) (mat D A) (mat D A) 1 - e • (1 : Matrix (Fin D) (Fin D) ℂ) := by
  obtain ⟨E', inh, y, a1, a2, a3, a4⟩ := solveK_eq (X := X) h1 h2 hr hr' w1 w2 w3 w4 w5 w6 w7
  rw [a4] at hrun
  obtain ⟨K, b1, b2⟩ := andThen_ok.1 hrun
  obtain ⟨f, c1, c2⟩ := renorm_spec hS h1 h2 (own := delta ℂ) (other := r.v) ⟨⟨_, rfl, rfl, rfl, rfl⟩, ⟨_, rfl, hr, hr', rfl⟩⟩ (fun _ _ _ _ => rfl) (fun _ _ _ _ => rfl) a2 b1
  have b3 := Except.ok.inj b2
  simp only [Prod.mk.injEq] at b3
  obtain ⟨rfl, rfl, rfl⟩ := b3
  refine ⟨a1, c1.1, c1.2.1, rfl, ?_⟩
  have hK : toM D K.v = toM D f := toM_ext.2 c1.2.2
  rw [← a3, hK, ← act_cap h2, trace_pairing]
  ext i j
  simp only [Matrix.add_apply, Matrix.sub_apply, transpose_apply, Matrix.smul_apply, smul_eq_mul]
  have := c2 j j.2 i i.2
  rw [show toM D y j i = y j i from rfl, ← this, ← toM_delta D]
  simp only [toM, delta_comm]

/-- The first part of `TDVPupdate` returns. -/
theorem solveK_total {X : Ext} {r : Mat ℂ} {A : Ten ℂ} {W0 W1 : Mpo ℂ} (hS : LgmresSpec X.solve) (hC : LgmresConverges X.solve) (h1 : A.l = D) (h2 : A.r = D) (hr : r.r = D) (hr' : r.c = D)
    (w1 : W0.l = 1) (w2 : W1.r = 1) (w3 : W0.r = W1.l) (w4 : A.d = W0.din) (w5 : A.d = W0.dout) (w6 : A.d = W1.din) (w7 : A.d = W1.dout)
    (ho : cap A.d (mat D A) (mat D A) 1 = 1) (hfix : ∑ s ∈ range A.d, mat D A s * toM D r.v * (mat D A s)ᴴ = toM D r.v) (ht : (toM D r.v).trace = 1)
    (hu : ∀ F : Matrix (Fin D) (Fin D) ℂ, ∑ s ∈ range A.d, mat D A s * F * (mat D A s)ᴴ = F → ∃ c : ℂ, F = c • toM D r.v) :
    ∃ q, solveK X r A W0 W1 = .ok q := by
  obtain ⟨E', inh, y, a1, a2, a3, a4⟩ := solveK_eq (X := X) h1 h2 hr hr' w1 w2 w3 w4 w5 w6 w7
  have hone : pairing D (delta ℂ) r.v = 1 := by
    rw [← trace_pairing, toM_delta, transpose_one, Matrix.one_mul, ht]
  obtain ⟨K, hK⟩ := renorm_total hC hS h1 h2 (dir := .right) (R := r) (L := eye D) (rnd := X.rnd) (own := delta ℂ) (other := r.v) (p := r.v) ⟨⟨_, rfl, rfl, rfl, rfl⟩, ⟨_, rfl, hr, hr', rfl⟩⟩ (fun _ _ _ _ => rfl) (fun _ _ _ _ => rfl) a2
    (fun i hi j hj => by
      have := act_cap h2 (delta ℂ)
      rw [toM_delta, transpose_one, ho] at this
      have h3 := congrFun (congrFun this ⟨j, hj⟩) ⟨i, hi⟩
      rw [← toM_delta D] at h3
      rw [delta_comm]
      exact h3) hone hone
    (fun i hi j hj => by
      have := act_leftM h2 r.v
      rw [hfix] at this
      exact (congrFun (congrFun this ⟨i, hi⟩) ⟨j, hj⟩).symm)
    (fun g hg => by
      obtain ⟨c, hc⟩ := hu (toM D g) (by
        rw [act_leftM h2]
        exact toM_ext.2 hg)
      exact ⟨c, fun i hi j hj => congrFun (congrFun hc ⟨i, hi⟩) ⟨j, hj⟩⟩)
    (by rw [← trace_pairing, a3, Matrix.sub_mul, Matrix.trace_sub, Matrix.smul_mul, Matrix.one_mul, Matrix.trace_smul, ht, smul_eq_mul, mul_one, sub_self])
  exact ⟨_, by rw [a4, hK]; rfl⟩

end
end PyTeN.TdvpInf
