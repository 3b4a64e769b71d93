import Verif.Engine.TdvpInfRun
import Mathlib.Algebra.Order.Chebyshev

/-! # Lemmas for `TDVPupdate`: the tensor `VL` from the singular vectors -/

namespace PyTeN.TdvpInf
open Finset Transfer Regauge Vumps Steady Matrix
noncomputable section

section abstract
variable {N D m n : ℕ}

/-- Squared norm of a vector. -/
def nsq {n : ℕ} (y : Fin n → ℂ) : ℝ := ∑ i, Complex.normSq (y i)

theorem nsq_nonneg (y : Fin n → ℂ) : 0 ≤ nsq y := sum_nonneg fun _ _ => Complex.normSq_nonneg _

theorem nsq_dot (y : Fin n → ℂ) : ((nsq y : ℝ) : ℂ) = star y ⬝ᵥ y := by
  simp only [nsq, dotProduct, Complex.ofReal_sum, Pi.star_apply]
  exact sum_congr rfl fun i _ => by rw [Complex.normSq_eq_conj_mul_self]; rfl

theorem nsq_mulVec (B : Matrix (Fin m) (Fin n) ℂ) (y : Fin n → ℂ) : ((nsq (B *ᵥ y) : ℝ) : ℂ) = star y ⬝ᵥ ((Bᴴ * B) *ᵥ y) := by
  rw [nsq_dot, star_mulVec, ← dotProduct_mulVec, mulVec_mulVec]

theorem nsq_pos {y : Fin n → ℂ} (h : y ≠ 0) : 0 < nsq y := by
  obtain ⟨i, hi⟩ : ∃ i, y i ≠ 0 := by
    by_contra h0; push Not at h0; exact h (funext h0)
  exact sum_pos' (fun _ _ => Complex.normSq_nonneg _) ⟨i, mem_univ i, Complex.normSq_pos.2 hi⟩

/-- Squared Frobenius norm. -/
def fro (R : Matrix (Fin m) (Fin n) ℂ) : ℝ := ∑ i, ∑ j, Complex.normSq (R i j)

theorem fro_herm (R : Matrix (Fin m) (Fin n) ℂ) : fro Rᴴ = fro R := by
  unfold fro
  rw [sum_comm]
  exact sum_congr rfl fun i _ => sum_congr rfl fun j _ => by rw [conjTranspose_apply]; exact Complex.normSq_conj _

theorem nsq_le_fro (R : Matrix (Fin m) (Fin n) ℂ) (y : Fin n → ℂ) : nsq (R *ᵥ y) ≤ fro R * nsq y := by
  unfold nsq fro
  rw [sum_mul]
  refine sum_le_sum fun i _ => ?_
  rw [mulVec, dotProduct, Complex.normSq_eq_norm_sq]
  have h1 : ‖∑ j, R i j * y j‖ ≤ ∑ j, ‖R i j‖ * ‖y j‖ := (norm_sum_le _ _).trans (le_of_eq (sum_congr rfl fun j _ => norm_mul _ _))
  calc _ ≤ (∑ j, ‖R i j‖ * ‖y j‖) ^ 2 := pow_le_pow_left₀ (norm_nonneg _) h1 2
    _ ≤ (∑ j, ‖R i j‖ ^ 2) * ∑ j, ‖y j‖ ^ 2 := Finset.sum_mul_sq_le_sq_mul_sq _ _ _
    _ = _ := by simp only [Complex.normSq_eq_norm_sq]

theorem nsq_contract {a : Matrix (Fin N) (Fin D) ℂ} (ha : aᴴ * a = 1) (y : Fin N → ℂ) : nsq (aᴴ *ᵥ y) ≤ nsq y := by
  have h1 : ((nsq (y - a *ᵥ (aᴴ *ᵥ y)) : ℝ) : ℂ) = ((nsq y - nsq (aᴴ *ᵥ y) : ℝ) : ℂ) := by
    have e : y - a *ᵥ (aᴴ *ᵥ y) = (1 - a * aᴴ) *ᵥ y := by rw [sub_mulVec, one_mulVec, mulVec_mulVec]
    have e2 : (1 - a * aᴴ)ᴴ * (1 - a * aᴴ) = 1 - a * aᴴ := by
      rw [conjTranspose_sub, conjTranspose_one, conjTranspose_mul, conjTranspose_conjTranspose, Matrix.mul_sub, Matrix.mul_one, Matrix.sub_mul, Matrix.one_mul,
        Matrix.mul_assoc, ← Matrix.mul_assoc aᴴ, ha, Matrix.one_mul, sub_self, sub_zero]
    rw [e, nsq_mulVec, e2, Complex.ofReal_sub, nsq_mulVec, nsq_dot, conjTranspose_conjTranspose, sub_mulVec, one_mulVec, dotProduct_sub]
  have h2 := nsq_nonneg (y - a *ᵥ (aᴴ *ᵥ y))
  have h3 := Complex.ofReal_injective h1
  linarith

variable {a R : Matrix (Fin N) (Fin D) ℂ} {U : Matrix (Fin N) (Fin N) ℂ} {S : Fin N → ℝ}

theorem nsq_iso (hU : Uᴴ * U = 1) (x : Fin N → ℂ) : nsq (U *ᵥ x) = nsq x := by
  have : ((nsq (U *ᵥ x) : ℝ) : ℂ) = ((nsq x : ℝ) : ℂ) := by rw [nsq_mulVec, hU, one_mulVec, nsq_dot]
  exact Complex.ofReal_injective this

theorem form_two (hU : Uᴴ * U = 1) (hM : a * aᴴ + R * Rᴴ = U * diagonal (fun k => ((S k ^ 2 : ℝ) : ℂ)) * Uᴴ) (x : Fin N → ℂ) :
    nsq (aᴴ *ᵥ (U *ᵥ x)) + nsq (Rᴴ *ᵥ (U *ᵥ x)) = ∑ k, S k ^ 2 * Complex.normSq (x k) := by
  have h : ((nsq (aᴴ *ᵥ (U *ᵥ x)) + nsq (Rᴴ *ᵥ (U *ᵥ x)) : ℝ) : ℂ) = ((∑ k, S k ^ 2 * Complex.normSq (x k) : ℝ) : ℂ) := by
    rw [Complex.ofReal_add, nsq_mulVec, nsq_mulVec, conjTranspose_conjTranspose, conjTranspose_conjTranspose, ← dotProduct_add, ← add_mulVec, hM, star_mulVec,
      ← dotProduct_mulVec, mulVec_mulVec, mulVec_mulVec, Matrix.mul_assoc, Matrix.mul_assoc, hU, Matrix.mul_one, ← Matrix.mul_assoc, hU, Matrix.one_mul]
    simp only [dotProduct, mulVec_diagonal, Pi.star_apply, Complex.ofReal_sum]
    refine sum_congr rfl fun k _ => ?_
    rw [Complex.ofReal_mul, Complex.normSq_eq_conj_mul_self]
    change (starRingEnd ℂ) (x k) * _ = _
    ring
  exact Complex.ofReal_injective h

/-- The singular values after the first `D` are bounded by the added columns. -/
theorem sval_le (hU : Uᴴ * U = 1) (hM : a * aᴴ + R * Rᴴ = U * diagonal (fun k => ((S k ^ 2 : ℝ) : ℂ)) * Uᴴ) (hS : ∀ k, 0 ≤ S k) (hA : Antitone S)
    (k : Fin N) (hk : D ≤ k) : S k ^ 2 ≤ fro R := by
  let f : (Fin N → ℂ) →ₗ[ℂ] (Fin D → ℂ) × ({i : Fin N // k < i} → ℂ) :=
    ((aᴴ * U).mulVecLin).prod (LinearMap.funLeft ℂ ℂ (fun i : {i : Fin N // k < i} => (i : Fin N)))
  have hlt : Module.finrank ℂ ((Fin D → ℂ) × ({i : Fin N // k < i} → ℂ)) < Module.finrank ℂ (Fin N → ℂ) := by
    rw [Module.finrank_prod, Module.finrank_fintype_fun_eq_card, Module.finrank_fintype_fun_eq_card, Module.finrank_fintype_fun_eq_card, Fintype.card_fin, Fintype.card_fin,
      Fintype.card_subtype, show (univ.filter fun i : Fin N => k < i) = Ioi k from by ext; simp, Fin.card_Ioi]
    have := k.2
    omega
  obtain ⟨x, hx, hx0⟩ := Submodule.exists_mem_ne_zero_of_ne_bot (LinearMap.ker_ne_bot_of_finrank_lt (f := f) hlt)
  have hf : f x = 0 := hx
  have h1 : aᴴ *ᵥ (U *ᵥ x) = 0 := by
    rw [mulVec_mulVec]
    exact congrArg Prod.fst hf
  have h2 : ∀ i, k < i → x i = 0 := fun i hi => congrFun (congrArg Prod.snd hf) ⟨i, hi⟩
  have h3 := form_two hU hM x
  rw [h1] at h3
  have h0 : nsq (0 : Fin D → ℂ) = 0 := by simp [nsq]
  rw [h0, zero_add] at h3
  have h4 : nsq (Rᴴ *ᵥ (U *ᵥ x)) ≤ fro R * nsq x := by
    have := nsq_le_fro Rᴴ (U *ᵥ x)
    rwa [fro_herm, nsq_iso hU] at this
  have h5 : S k ^ 2 * nsq x ≤ ∑ i, S i ^ 2 * Complex.normSq (x i) := by
    unfold nsq
    rw [mul_sum]
    refine sum_le_sum fun i _ => ?_
    rcases lt_or_ge k i with h | h
    · rw [h2 i h, map_zero, mul_zero, mul_zero]
    · exact mul_le_mul_of_nonneg_right (pow_le_pow_left₀ (hS k) (hA h) 2) (Complex.normSq_nonneg _)
  have h6 := nsq_pos hx0
  by_contra hc
  push Not at hc
  have := mul_lt_mul_of_pos_right hc h6
  linarith

theorem comm_eq (hU : Uᴴ * U = 1) (hM : a * aᴴ + R * Rᴴ = U * diagonal (fun k => ((S k ^ 2 : ℝ) : ℂ)) * Uᴴ) (ha : aᴴ * a = 1) (k : Fin N) :
    (fun j => ((1 - S k ^ 2 : ℝ) : ℂ) * (aᴴ * U) j k) = -(aᴴ *ᵥ (R *ᵥ (Rᴴ *ᵥ (U *ᵥ Pi.single k 1)))) := by
  have h1 : aᴴ * U + aᴴ * R * Rᴴ * U = aᴴ * U * diagonal (fun k => ((S k ^ 2 : ℝ) : ℂ)) := by
    have : aᴴ * (a * aᴴ + R * Rᴴ) * U = aᴴ * (U * diagonal (fun k => ((S k ^ 2 : ℝ) : ℂ)) * Uᴴ) * U := by rw [hM]
    rw [Matrix.mul_add, ← Matrix.mul_assoc, ha, Matrix.one_mul, Matrix.add_mul] at this
    rw [← Matrix.mul_assoc aᴴ R] at this
    rw [this, Matrix.mul_assoc, Matrix.mul_assoc, hU, Matrix.mul_one, Matrix.mul_assoc]
  funext j
  have h2 := congrFun (congrFun h1 j) k
  rw [Matrix.add_apply, Matrix.mul_diagonal] at h2
  rw [Pi.neg_apply, mulVec_mulVec, mulVec_mulVec, mulVec_mulVec]
  have h3 : ((aᴴ * R * Rᴴ * U) *ᵥ Pi.single k 1) j = (aᴴ * R * Rᴴ * U) j k := by simp
  rw [h3, Complex.ofReal_sub, Complex.ofReal_one]
  linear_combination h2

/-- The overlap of the later singular vectors with the first columns. -/
theorem gauge_bound (hU : Uᴴ * U = 1) (hM : a * aᴴ + R * Rᴴ = U * diagonal (fun k => ((S k ^ 2 : ℝ) : ℂ)) * Uᴴ) (ha : aᴴ * a = 1) (hS : ∀ k, 0 ≤ S k) (hA : Antitone S)
    (hR : fro R < 1) (k : Fin N) (hk : D ≤ k) : ∑ j, Complex.normSq ((aᴴ * U) j k) ≤ (fro R / (1 - fro R)) ^ 2 := by
  have hs := sval_le hU hM hS hA k hk
  have hρ : 0 ≤ fro R := sum_nonneg fun _ _ => sum_nonneg fun _ _ => Complex.normSq_nonneg _
  have h1 : (1 - S k ^ 2) ^ 2 * ∑ j, Complex.normSq ((aᴴ * U) j k) = nsq (aᴴ *ᵥ (R *ᵥ (Rᴴ *ᵥ (U *ᵥ Pi.single k 1)))) := by
    have h := congrArg nsq (comm_eq hU hM ha k)
    have e : nsq (-(aᴴ *ᵥ (R *ᵥ (Rᴴ *ᵥ (U *ᵥ Pi.single k 1))))) = nsq (aᴴ *ᵥ (R *ᵥ (Rᴴ *ᵥ (U *ᵥ Pi.single k 1)))) := by
      simp only [nsq, Pi.neg_apply, Complex.normSq_neg]
    rw [e] at h
    rw [← h, nsq, mul_sum]
    exact sum_congr rfl fun j _ => by rw [Complex.normSq_mul, Complex.normSq_ofReal]; ring
  have h2 : nsq (aᴴ *ᵥ (R *ᵥ (Rᴴ *ᵥ (U *ᵥ Pi.single k 1)))) ≤ fro R * fro R := by
    refine (nsq_contract ha _).trans ((nsq_le_fro R _).trans (mul_le_mul_of_nonneg_left ?_ hρ))
    have h3 := nsq_le_fro Rᴴ (U *ᵥ Pi.single k 1)
    rw [fro_herm, nsq_iso hU] at h3
    have h4 : nsq (Pi.single k 1 : Fin N → ℂ) = 1 := by
      unfold nsq
      rw [Finset.sum_eq_single k (fun i _ hi => by rw [Pi.single_eq_of_ne hi, map_zero]) (fun h => absurd (mem_univ k) h), Pi.single_eq_same, map_one]
    rwa [h4, mul_one] at h3
  have h5 : 0 < 1 - fro R := by linarith
  rw [div_pow, le_div_iff₀ (pow_pos h5 2)]
  have h6 : (1 - fro R) ^ 2 ≤ (1 - S k ^ 2) ^ 2 := pow_le_pow_left₀ h5.le (by linarith) 2
  have h7 : 0 ≤ ∑ j, Complex.normSq ((aᴴ * U) j k) := sum_nonneg fun _ _ => Complex.normSq_nonneg _
  nlinarith

/-- The overlap vanishes if the added columns are orthogonal to the first ones. -/
theorem gauge_exact (hU : Uᴴ * U = 1) (hM : a * aᴴ + R * Rᴴ = U * diagonal (fun k => ((S k ^ 2 : ℝ) : ℂ)) * Uᴴ) (ha : aᴴ * a = 1) (hS : ∀ k, 0 ≤ S k) (hA : Antitone S)
    (hR : fro R < 1) (h0 : aᴴ * R = 0) (k : Fin N) (hk : D ≤ k) (j : Fin D) : (aᴴ * U) j k = 0 := by
  have hs := sval_le hU hM hS hA k hk
  have h1 := congrFun (comm_eq hU hM ha k) j
  rw [mulVec_mulVec, h0, Matrix.zero_mulVec, neg_zero] at h1
  have h2 : ((1 - S k ^ 2 : ℝ) : ℂ) ≠ 0 := Complex.ofReal_ne_zero.2 (by linarith)
  exact (mul_eq_zero.1 h1).resolve_left h2

end abstract

/-- The tensor as a matrix with rows `(s,i)`. -/
def tall (D : ℕ) (A : Ten ℂ) : Matrix (Fin (D * 2)) (Fin D) ℂ := fun k c => A.v (k % D) c (k / D)

/-- The random columns. -/
def rest (D : ℕ) (rand : ℕ → ℕ → ℝ) : Matrix (Fin (D * 2)) (Fin D) ℂ := fun k c => ((rand k c * 0.0001 : ℝ) : ℂ)

theorem tall_mul {D : ℕ} (A B : Ten ℂ) : (tall D B)ᴴ * tall D A = cap 2 (mat D A) (mat D B) 1 := by
  ext j' j
  simp only [cap, Matrix.mul_one, Matrix.mul_apply, Matrix.sum_apply, conjTranspose_apply, tall, mat]
  rw [← Finset.sum_range (fun k => star (B.v (k % D) j' (k / D)) * A.v (k % D) j (k / D)), show D * 2 = 2 * D from mul_comm _ _, sum_range_mul]
  refine sum_congr rfl fun s _ => ?_
  rw [Finset.sum_range]
  exact sum_congr rfl fun i _ => by rw [idx_mod i.2, idx_div i.2]

theorem getD_anti {s : List ℝ} (hs : s.Pairwise (· ≥ ·)) (h0 : ∀ x ∈ s, 0 ≤ x) {i j : ℕ} (h : i ≤ j) : s.getD j 0 ≤ s.getD i 0 := by
  rcases h.eq_or_lt with rfl | h
  · exact le_rfl
  by_cases hj : j < s.length
  · rw [List.getD_eq_getElem _ _ hj, List.getD_eq_getElem _ _ (h.trans hj)]
    exact List.pairwise_iff_getElem.1 hs i j (h.trans hj) hj h
  · rw [List.getD_eq_default _ _ (not_lt.1 hj)]
    by_cases hi : i < s.length
    · rw [List.getD_eq_getElem _ _ hi]; exact h0 _ (List.getElem_mem hi)
    · rw [List.getD_eq_default _ _ (not_lt.1 hi)]

/-- For two states per site `VL` is an isometry; its overlap with the tensor is bounded by the random columns and vanishes if they are orthogonal to the tensor. -/
theorem null_spec {O : LinAlg} (hO : O.Spec) {D : ℕ} {A : Ten ℂ} (h1 : A.l = D) (h2 : A.r = D) (hd : A.d = 2) (ho : cap 2 (mat D A) (mat D A) 1 = 1) (rand : ℕ → ℕ → ℝ) :
    ∃ VL, nullTen O rand A = .ok VL ∧ VL.l = D ∧ VL.r = D ∧ VL.d = 2 ∧ cap 2 (mat D VL) (mat D VL) 1 = 1
      ∧ (fro (rest D rand) < 1 → ∀ j, ∑ i, Complex.normSq (cap 2 (mat D A) (mat D VL) 1 j i) ≤ (fro (rest D rand) / (1 - fro (rest D rand))) ^ 2)
      ∧ (fro (rest D rand) < 1 → (tall D A)ᴴ * rest D rand = 0 → cap 2 (mat D A) (mat D VL) 1 = 0)
      ∧ (cap 2 (mat D A) (mat D VL) 1 = 0 → (tall D A)ᴴ * rest D rand * (rest D rand)ᴴ * tall D VL = 0) := by
  have hsv := hO.svd (stacked rand A)
  set q := O.svd (stacked rand A) with hq
  have hr : (stacked rand A).r = D * 2 := by simp only [stacked, h1, hd]
  have hc : (stacked rand A).c = D * 2 := by simp only [stacked, h2, hd]; omega
  have hmin : min (stacked rand A).r (stacked rand A).c = D * 2 := by rw [hr, hc, min_self]
  have ur : q.1.r = D * 2 := hsv.u_r.trans hr
  have uc : q.1.c = D * 2 := hsv.u_c.trans hmin
  let U : Matrix (Fin (D * 2)) (Fin (D * 2)) ℂ := toM (D * 2) q.1.v
  let V : Matrix (Fin (D * 2)) (Fin (D * 2)) ℂ := toM (D * 2) q.2.2.v
  let S : Fin (D * 2) → ℝ := fun k => q.2.1.getD k 0
  have hU : Uᴴ * U = 1 := by
    ext i j
    rw [Matrix.mul_apply, ← toM_delta (D * 2)]
    have := hsv.isoU i (by rw [hmin]; exact i.2) j (by rw [hmin]; exact j.2)
    rw [hr, Finset.sum_range] at this
    exact this
  have hV : V * Vᴴ = 1 := by
    ext i j
    rw [Matrix.mul_apply, ← toM_delta (D * 2)]
    have := hsv.isoV i (by rw [hmin]; exact i.2) j (by rw [hmin]; exact j.2)
    rw [hc, Finset.sum_range] at this
    exact this
  have hP : toM (D * 2) (stacked rand A).v = U * diagonal (fun k => ((S k : ℝ) : ℂ)) * V := by
    ext i j
    have := hsv.prod i (by rw [hr]; exact i.2) j (by rw [hc]; exact j.2)
    rw [hmin, Finset.sum_range] at this
    rw [show toM (D * 2) (stacked rand A).v i j = (stacked rand A).v i j from rfl, ← this, Matrix.mul_apply]
    exact sum_congr rfl fun k _ => by rw [Matrix.mul_diagonal]; rfl
  have hMM : toM (D * 2) (stacked rand A).v * (toM (D * 2) (stacked rand A).v)ᴴ = U * diagonal (fun k => ((S k ^ 2 : ℝ) : ℂ)) * Uᴴ := by
    rw [hP, conjTranspose_mul, conjTranspose_mul, Matrix.mul_assoc, ← Matrix.mul_assoc V, hV, Matrix.one_mul, diagonal_conjTranspose, Matrix.mul_assoc, ← Matrix.mul_assoc (diagonal _),
      diagonal_mul_diagonal, ← Matrix.mul_assoc]
    congr 3
    funext k
    rw [Pi.star_apply, show star ((S k : ℝ) : ℂ) = ((S k : ℝ) : ℂ) from Complex.conj_ofReal _, ← Complex.ofReal_mul, sq]
  have hsum : tall D A * (tall D A)ᴴ + rest D rand * (rest D rand)ᴴ = toM (D * 2) (stacked rand A).v * (toM (D * 2) (stacked rand A).v)ᴴ := by
    ext i j
    simp only [Matrix.add_apply, Matrix.mul_apply, conjTranspose_apply, tall, rest, toM]
    rw [← Finset.sum_range (fun c => (stacked rand A).v i c * star ((stacked rand A).v j c)), show range (D * 2) = range (D + D) from by rw [mul_two], Finset.sum_range_add,
      Finset.sum_range, Finset.sum_range]
    congr 1
    · exact sum_congr rfl fun c _ => by simp only [stacked, h1, h2, c.2, if_true]
    · exact sum_congr rfl fun c _ => by simp only [stacked, h1, h2, Nat.add_sub_cancel_left, not_lt.2 (Nat.le_add_right D c), if_false]
  rw [hMM] at hsum
  have hn : q.1.c - A.l = D := by rw [uc, h1]; omega
  have hval : nullTen O rand A = .ok ⟨A.l, A.r, A.d, fun i j s => q.1.v (((s * A.l + i) * A.r + j) / D) (A.l + ((s * A.l + i) * A.r + j) % D)⟩ := by
    unfold nullTen
    dsimp only
    rw [← hq, hn, if_pos (by rw [ur, hd, h1, h2]; ring)]
  refine ⟨_, hval, h1, h2, hd, ?_⟩
  set VL : Ten ℂ := ⟨A.l, A.r, A.d, fun i j s => q.1.v (((s * A.l + i) * A.r + j) / D) (A.l + ((s * A.l + i) * A.r + j) % D)⟩ with hVL
  have hent : tall D VL = U.submatrix id (fun j : Fin D => (⟨D + j, by have := j.2; omega⟩ : Fin (D * 2))) := by
    ext k j
    have hD : 0 < D := lt_of_le_of_lt (Nat.zero_le _) j.2
    simp only [tall, hVL, h1, h2, Matrix.submatrix_apply, id, U, toM]
    rw [show (k : ℕ) / D * D + k % D = k from Nat.div_add_mod' _ _, idx_div j.2, idx_mod j.2]
  have hcap : ∀ j i, cap 2 (mat D A) (mat D VL) 1 j i = star (((tall D A)ᴴ * U) i ⟨D + j, by have := j.2; omega⟩) := by
    intro j i
    rw [← tall_mul, hent, ← conjTranspose_apply, conjTranspose_mul, conjTranspose_conjTranspose]
    simp only [Matrix.mul_apply, conjTranspose_apply, Matrix.submatrix_apply, id]
  have hS : ∀ k, 0 ≤ S k := fun k => by
    change 0 ≤ q.2.1.getD k 0
    by_cases h : (k : ℕ) < q.2.1.length
    · rw [List.getD_eq_getElem _ _ h]; exact hsv.nonneg _ (List.getElem_mem h)
    · rw [List.getD_eq_default _ _ (not_lt.1 h)]
  have hA : Antitone S := fun i j h => getD_anti hsv.sorted hsv.nonneg h
  have ha : (tall D A)ᴴ * tall D A = 1 := by rw [tall_mul, ho]
  refine ⟨?_, fun hR j => ?_, fun hR h0 => ?_, fun h0 => ?_⟩
  · rw [← tall_mul, hent]
    ext i j
    have := congrFun (congrFun hU ⟨D + i, by have := i.2; omega⟩) ⟨D + j, by have := j.2; omega⟩
    rw [← toM_delta (D * 2)] at this
    rw [← toM_delta D]
    simp only [Matrix.mul_apply, conjTranspose_apply, Matrix.submatrix_apply, id, toM] at this ⊢
    rw [this]
    simp [delta]
  · simp only [hcap]
    have := gauge_bound hU hsum ha hS hA hR ⟨D + j, by have := j.2; omega⟩ (Nat.le_add_right D j)
    refine le_trans (le_of_eq ?_) this
    exact sum_congr rfl fun i _ => Complex.normSq_conj _
  · ext j i
    rw [hcap, gauge_exact hU hsum ha hS hA hR h0 _ (Nat.le_add_right D j), star_zero]
    rfl
  · ext i j
    have h2 := congrFun (comm_eq hU hsum ha ⟨D + j, by have := j.2; omega⟩) i
    have h3 : ((tall D A)ᴴ * U) i ⟨D + j, by have := j.2; omega⟩ = 0 := by
      have := hcap j i
      rw [h0, Matrix.zero_apply] at this
      exact star_eq_zero.1 this.symm
    rw [h3, mul_zero, Pi.neg_apply, mulVec_mulVec, mulVec_mulVec, mulVec_mulVec] at h2
    have h4 : (((tall D A)ᴴ * rest D rand * (rest D rand)ᴴ * U) *ᵥ Pi.single ⟨D + (j : ℕ), by have := j.2; omega⟩ 1) i
      = ((tall D A)ᴴ * rest D rand * (rest D rand)ᴴ * tall D VL) i j := by
      rw [hent, mulVec_single_one]
      simp only [Matrix.col_apply, Matrix.mul_apply, Matrix.submatrix_apply, id]
    rw [← h4]
    simpa using h2.symm

end
end PyTeN.TdvpInf
