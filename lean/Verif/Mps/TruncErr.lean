import Verif.Props.Truncate
import Verif.Engine.TebdError
import Mathlib.Analysis.InnerProductSpace.PiL2
import Mathlib.Analysis.InnerProductSpace.Projection.Basic

/-! # The error of a truncating sweep -/

namespace PyTeN
open Finset

noncomputable section

/-! ## Bessel's inequality and the best approximation of a matrix by one of smaller rank -/

/-- Norm of what is left after subtracting the projections on orthonormal vectors. -/
theorem bessel_eq {ι κ : Type*} [DecidableEq κ] (s : Finset ι) (t : Finset κ) (φ : κ → ι → ℂ) (f : ι → ℂ)
    (ho : ∀ k ∈ t, ∀ k' ∈ t, ∑ i ∈ s, star (φ k i) * φ k' i = if k = k' then 1 else 0) :
    ∑ i ∈ s, Complex.normSq (f i - ∑ k ∈ t, (∑ i ∈ s, star (φ k i) * f i) * φ k i)
      = ∑ i ∈ s, Complex.normSq (f i) - ∑ k ∈ t, Complex.normSq (∑ i ∈ s, star (φ k i) * f i) := by
  have hN : ∀ z : ℂ, ((Complex.normSq z : ℝ) : ℂ) = star z * z := fun z => normSq_eq_star_mul z
  have key : ∀ c : κ → ℂ, (∀ k, c k = ∑ i ∈ s, star (φ k i) * f i) →
      ∑ i ∈ s, Complex.normSq (f i - ∑ k ∈ t, c k * φ k i) = ∑ i ∈ s, Complex.normSq (f i) - ∑ k ∈ t, Complex.normSq (c k) := by
    intro c hc
    have hc' : ∀ k, star (c k) = ∑ i ∈ s, star (f i) * φ k i := by
      intro k
      rw [hc, star_sum]
      refine sum_congr rfl fun i _ => by rw [star_mul', star_star, mul_comm]
    apply Complex.ofReal_injective
    push_cast
    simp only [hN]
    have e1 : ∑ i ∈ s, star (f i) * ∑ k ∈ t, c k * φ k i = ∑ k ∈ t, star (c k) * c k := by
      simp only [mul_sum]
      rw [sum_comm]
      refine sum_congr rfl fun k _ => ?_
      rw [hc' k, sum_mul]
      refine sum_congr rfl fun i _ => by ring
    have e2 : ∑ i ∈ s, star (∑ k ∈ t, c k * φ k i) * f i = ∑ k ∈ t, star (c k) * c k := by
      simp only [star_sum, sum_mul, star_mul']
      rw [sum_comm]
      refine sum_congr rfl fun k _ => ?_
      rw [show star (c k) * c k = star (c k) * ∑ i ∈ s, star (φ k i) * f i by rw [← hc], mul_sum]
      refine sum_congr rfl fun i _ => by ring
    have e3 : ∑ i ∈ s, star (∑ k ∈ t, c k * φ k i) * ∑ k ∈ t, c k * φ k i = ∑ k ∈ t, star (c k) * c k := by
      simp only [star_sum, sum_mul_sum, star_mul']
      rw [sum_comm]
      refine sum_congr rfl fun k hk => ?_
      rw [sum_comm]
      have : ∀ k' ∈ t, ∑ i ∈ s, star (c k) * star (φ k i) * (c k' * φ k' i) = if k = k' then star (c k) * c k' else 0 := by
        intro k' hk'
        rw [show (if k = k' then star (c k) * c k' else 0) = star (c k) * c k' * (if k = k' then 1 else 0) by split_ifs <;> simp,
          ← ho k hk k' hk', mul_sum]
        refine sum_congr rfl fun i _ => by ring
      rw [sum_congr rfl this, sum_ite_eq, if_pos hk]
    simp only [star_sub, sub_mul, mul_sub, sum_sub_distrib]
    rw [e1, e2, e3]; ring
  exact key _ fun _ => rfl

/-- Bessel's inequality for finite families. -/
theorem bessel {ι κ : Type*} [DecidableEq κ] (s : Finset ι) (t : Finset κ) (φ : κ → ι → ℂ) (f : ι → ℂ)
    (ho : ∀ k ∈ t, ∀ k' ∈ t, ∑ i ∈ s, star (φ k i) * φ k' i = if k = k' then 1 else 0) :
    ∑ k ∈ t, Complex.normSq (∑ i ∈ s, star (φ k i) * f i) ≤ ∑ i ∈ s, Complex.normSq (f i) := by
  have h0 : 0 ≤ ∑ i ∈ s, Complex.normSq (f i - ∑ k ∈ t, (∑ i ∈ s, star (φ k i) * f i) * φ k i) :=
    sum_nonneg fun _ _ => Complex.normSq_nonneg _
  rw [bessel_eq s t φ f ho] at h0
  linarith

/-- The distance to a combination of orthonormal vectors is at least the one to the projection. -/
theorem proj_le {ι κ : Type*} [DecidableEq κ] (s : Finset ι) (t : Finset κ) (φ : κ → ι → ℂ) (f : ι → ℂ) (y : κ → ℂ)
    (ho : ∀ k ∈ t, ∀ k' ∈ t, ∑ i ∈ s, star (φ k i) * φ k' i = if k = k' then 1 else 0) :
    ∑ i ∈ s, Complex.normSq (f i) - ∑ k ∈ t, Complex.normSq (∑ i ∈ s, star (φ k i) * f i)
      ≤ ∑ i ∈ s, Complex.normSq (f i - ∑ k ∈ t, y k * φ k i) := by
  rw [← bessel_eq s t φ f ho]
  have h := bessel_eq s t φ (fun i => f i - ∑ k ∈ t, y k * φ k i) ho
  have hc : ∀ k ∈ t, ∑ i ∈ s, star (φ k i) * (f i - ∑ k ∈ t, y k * φ k i) = ∑ i ∈ s, star (φ k i) * f i - y k := by
    intro k hk
    simp only [mul_sub, sum_sub_distrib, mul_sum]
    congr 1
    rw [sum_comm]
    have : ∀ k' ∈ t, ∑ i ∈ s, star (φ k i) * (y k' * φ k' i) = if k = k' then y k' else 0 := by
      intro k' hk'
      rw [show (if k = k' then y k' else 0) = y k' * (if k = k' then 1 else 0) by split_ifs <;> simp,
        ← ho k hk k' hk', mul_sum]
      refine sum_congr rfl fun i _ => by ring
    rw [sum_congr rfl this, sum_ite_eq, if_pos hk]
  have hr : ∀ i ∈ s, f i - ∑ k ∈ t, y k * φ k i - ∑ k ∈ t, (∑ i ∈ s, star (φ k i) * (f i - ∑ k ∈ t, y k * φ k i)) * φ k i
      = f i - ∑ k ∈ t, (∑ i ∈ s, star (φ k i) * f i) * φ k i := by
    intro i _
    rw [sub_sub, ← sum_add_distrib]
    congr 1
    refine sum_congr rfl fun k hk => ?_
    rw [hc k hk]; ring
  rw [sum_congr rfl fun i hi => by rw [hr i hi]] at h
  have : 0 ≤ ∑ k ∈ t, Complex.normSq (∑ i ∈ s, star (φ k i) * (f i - ∑ k ∈ t, y k * φ k i)) :=
    sum_nonneg fun _ _ => Complex.normSq_nonneg _
  linarith

/-- Orthonormal columns keep the norm. -/
theorem iso_normSq (I n : ℕ) (u : ℕ → ℕ → ℂ) (z : ℕ → ℂ)
    (hu : ∀ k < n, ∀ k' < n, ∑ i ∈ range I, star (u i k) * u i k' = delta ℂ k k') :
    ∑ i ∈ range I, Complex.normSq (∑ q ∈ range n, u i q * z q) = ∑ q ∈ range n, Complex.normSq (z q) := by
  apply Complex.ofReal_injective
  push_cast
  simp only [normSq_eq_star_mul, star_sum, sum_mul_sum, star_mul']
  rw [sum_comm]
  refine sum_congr rfl fun k hk => ?_
  rw [sum_comm]
  have : ∀ k' ∈ range n, ∑ i ∈ range I, star (u i k) * star (z k) * (u i k' * z k') = delta ℂ k k' * (star (z k) * z k') := by
    intro k' hk'
    rw [← hu k (mem_range.mp hk) k' (mem_range.mp hk'), sum_mul]
    refine sum_congr rfl fun i _ => by ring
  rw [sum_congr rfl this, sum_delta_left (mem_range.mp hk)]

/-- Weights between 0 and 1 of total weight at most `D` pick at most the `D` largest values. -/
theorem weights_le {n D : ℕ} {a w : ℕ → ℝ} (ha : ∀ q < n, 0 ≤ a q) (hs : ∀ p q, p ≤ q → q < n → a q ≤ a p)
    (h0 : ∀ q < n, 0 ≤ w q) (h1 : ∀ q < n, w q ≤ 1) (hw : ∑ q ∈ range n, w q ≤ D) (hD : D ≤ n) :
    ∑ q ∈ range (n - D), a (D + q) ≤ ∑ q ∈ range n, a q * (1 - w q) := by
  obtain ⟨m, rfl⟩ := Nat.exists_eq_add_of_le hD
  rw [Nat.add_sub_cancel_left, sum_range_add]
  rw [sum_range_add] at hw
  rcases Nat.eq_zero_or_pos m with rfl | hm
  · simp only [range_zero, sum_empty, add_zero]
    exact sum_nonneg fun q hq => mul_nonneg (ha q (by simpa using hq)) (by linarith [h1 q (by simpa using hq)])
  have k1 : ∑ q ∈ range D, a D * (1 - w q) ≤ ∑ q ∈ range D, a q * (1 - w q) := by
    refine sum_le_sum fun q hq => ?_
    have hq := mem_range.mp hq
    exact mul_le_mul_of_nonneg_right (hs q D hq.le (by omega)) (by linarith [h1 q (by omega)])
  have k2 : ∑ q ∈ range m, a (D + q) * w (D + q) ≤ ∑ q ∈ range m, a D * w (D + q) := by
    refine sum_le_sum fun q hq => ?_
    have hq := mem_range.mp hq
    exact mul_le_mul_of_nonneg_right (hs D (D + q) (by omega) (by omega)) (h0 _ (by omega))
  rw [← mul_sum, sum_sub_distrib, sum_const, card_range, nsmul_eq_mul, mul_one] at k1
  rw [← mul_sum] at k2
  have k3 : ∑ q ∈ range m, a (D + q) * (1 - w (D + q)) = ∑ q ∈ range m, a (D + q) - ∑ q ∈ range m, a (D + q) * w (D + q) := by
    rw [← sum_sub_distrib]; refine sum_congr rfl fun q _ => by ring
  rw [k3]
  have hD0 := ha D (by omega)
  nlinarith

/-- Finitely many vectors lie in the span of no more orthonormal ones. -/
theorem exists_orthonormal (Q D : ℕ) (R : ℕ → ℕ → ℂ) : ∃ (k : ℕ) (b : ℕ → ℕ → ℂ), k ≤ D ∧
    (∀ p < k, ∀ p' < k, ∑ c ∈ range Q, star (b p c) * b p' c = if p = p' then 1 else 0) ∧
    ∀ κ < D, ∃ x : ℕ → ℂ, ∀ c < Q, R κ c = ∑ p ∈ range k, x p * b p c := by
  let v : Fin D → EuclideanSpace ℂ (Fin Q) := fun κ => WithLp.toLp 2 fun c => R κ c
  let W := Submodule.span ℂ (Set.range v)
  have hk : Module.finrank ℂ W ≤ D := by
    have := finrank_range_le_card (R := ℂ) v
    simpa [Set.finrank] using this
  let B := stdOrthonormalBasis ℂ W
  set k := Module.finrank ℂ W
  refine ⟨k, fun p c => if h : p < k ∧ c < Q then (B ⟨p, h.1⟩ : EuclideanSpace ℂ (Fin Q)) ⟨c, h.2⟩ else 0, hk, ?_, ?_⟩
  · intro p hp p' hp'
    have h := orthonormal_iff_ite.mp B.orthonormal ⟨p, hp⟩ ⟨p', hp'⟩
    rw [Submodule.coe_inner, PiLp.inner_apply] at h
    rw [sum_range]
    simp only [Fin.mk.injEq, RCLike.inner_apply] at h
    rw [← h]
    refine sum_congr rfl fun c _ => ?_
    dsimp only
    rw [dif_pos ⟨hp, c.2⟩, dif_pos ⟨hp', c.2⟩, mul_comm]
    rfl
  · intro κ hκ
    let y : W := ⟨v ⟨κ, hκ⟩, Submodule.subset_span ⟨_, rfl⟩⟩
    refine ⟨fun p => if h : p < k then B.repr y ⟨p, h⟩ else 0, fun c hc => ?_⟩
    have h := congrArg (fun z : W => (z : EuclideanSpace ℂ (Fin Q)) ⟨c, hc⟩) (B.sum_repr y)
    simp only [Submodule.coe_sum, Submodule.coe_smul] at h
    rw [show R κ c = (y : EuclideanSpace ℂ (Fin Q)) ⟨c, hc⟩ from rfl, ← h, sum_range]
    rw [WithLp.ofLp_sum, Finset.sum_apply]
    refine sum_congr rfl fun p _ => ?_
    simp [hc]

/-- The discarded singular values bound the distance to every matrix of rank `D` from below. -/
theorem SVDSpec.best {A u v : Mat ℂ} {s : List ℝ} (h : SVDSpec A u s v) (D : ℕ) (L R : ℕ → ℕ → ℂ) :
    ((s.drop D).map (fun x => x ^ 2)).sum
      ≤ ∑ i ∈ range A.r, ∑ c ∈ range A.c, Complex.normSq (A.v i c - ∑ κ ∈ range D, L κ i * R κ c) := by
  rcases Nat.lt_or_ge D s.length with hD | hD
  swap
  · rw [List.drop_of_length_le hD]
    exact sum_nonneg fun _ _ => sum_nonneg fun _ _ => Complex.normSq_nonneg _
  obtain ⟨k, b, hk, hb, hR⟩ := exists_orthonormal A.c D R
  choose! x hx using hR
  set n := min A.r A.c with hn
  have hv : ∀ q < n, ∀ q' < n, ∑ c ∈ range A.c, star (v.v q c) * v.v q' c = if q = q' then 1 else 0 := by
    intro q hq q' hq'
    have := h.isoV q' hq' q hq
    rw [delta_comm] at this
    unfold delta at this
    rw [← this]
    refine sum_congr rfl fun c _ => mul_comm _ _
  set w : ℕ → ℝ := fun q => ∑ p ∈ range k, Complex.normSq (∑ c ∈ range A.c, star (b p c) * v.v q c) with hw
  have hrow : ∀ i ∈ range A.r, ∑ c ∈ range A.c, Complex.normSq (A.v i c)
      - ∑ p ∈ range k, Complex.normSq (∑ c ∈ range A.c, star (b p c) * A.v i c)
      ≤ ∑ c ∈ range A.c, Complex.normSq (A.v i c - ∑ κ ∈ range D, L κ i * R κ c) := by
    intro i _
    refine (proj_le (range A.c) (range k) b (A.v i) (fun p => ∑ κ ∈ range D, L κ i * x κ p)
      fun p hp p' hp' => hb p (mem_range.mp hp) p' (mem_range.mp hp')).trans (le_of_eq ?_)
    refine sum_congr rfl fun c hc => ?_
    congr 2
    simp only [sum_mul]
    rw [sum_comm]
    refine sum_congr rfl fun κ hκ => ?_
    rw [hx κ (mem_range.mp hκ) c (mem_range.mp hc), mul_sum]
    refine sum_congr rfl fun p _ => by ring
  have hsum := sum_le_sum hrow
  refine le_trans ?_ hsum
  rw [sum_sub_distrib]
  have hA : ∑ i ∈ range A.r, ∑ c ∈ range A.c, Complex.normSq (A.v i c) = ∑ q ∈ range n, s.getD q 0 ^ 2 := by
    rw [← normF_sq, ← h.norm2_eq, norm2_sq, h.len]
  have hP : ∑ i ∈ range A.r, ∑ p ∈ range k, Complex.normSq (∑ c ∈ range A.c, star (b p c) * A.v i c)
      = ∑ q ∈ range n, s.getD q 0 ^ 2 * w q := by
    rw [sum_comm]
    simp only [hw, mul_sum]
    rw [sum_comm (s := range n)]
    refine sum_congr rfl fun p _ => ?_
    have e : ∀ i ∈ range A.r, ∑ c ∈ range A.c, star (b p c) * A.v i c
        = ∑ q ∈ range n, u.v i q * (((s.getD q 0 : ℝ) : ℂ) * ∑ c ∈ range A.c, star (b p c) * v.v q c) := by
      intro i hi
      simp only [mul_sum]
      rw [sum_comm]
      refine sum_congr rfl fun c hc => ?_
      rw [← h.prod i (mem_range.mp hi) c (mem_range.mp hc), mul_sum]
      refine sum_congr rfl fun q _ => by ring
    rw [sum_congr rfl fun i hi => by rw [e i hi], iso_normSq A.r n u.v _ h.isoU]
    refine sum_congr rfl fun q _ => ?_
    rw [Complex.normSq_mul, Complex.normSq_ofReal]; ring
  rw [hA, hP, ← sum_sub_distrib]
  have hd : ((s.drop D).map (fun x => x ^ 2)).sum = ∑ q ∈ range (n - D), s.getD (D + q) 0 ^ 2 := by
    rw [sum_sq_list, List.length_drop, h.len]
    refine sum_congr rfl fun q _ => ?_
    rw [List.getD_eq_getElem?_getD, List.getElem?_drop, ← List.getD_eq_getElem?_getD]
  have hs0 : ∀ q < n, 0 ≤ s.getD q 0 := by
    intro q hq
    rw [List.getD_eq_getElem _ _ (by rw [h.len]; exact hq)]
    exact h.nonneg _ (List.getElem_mem _)
  rw [hd]
  refine (weights_le (a := fun q => s.getD q 0 ^ 2) (w := w) (n := n) (D := D) (fun q _ => sq_nonneg _) ?_ ?_ ?_ ?_
    (by rw [h.len] at hD; exact hD.le)).trans (le_of_eq ?_)
  · intro p q hpq hq
    refine pow_le_pow_left₀ (hs0 q hq) ?_ 2
    rcases hpq.eq_or_lt with rfl | hpq
    · exact le_rfl
    rw [List.getD_eq_getElem _ _ (by rw [h.len]; exact hq), List.getD_eq_getElem _ _ (by rw [h.len]; omega)]
    exact List.pairwise_iff_getElem.mp h.sorted p q _ _ hpq
  · intro q _
    exact sum_nonneg fun _ _ => Complex.normSq_nonneg _
  · intro q hq
    refine (bessel (range A.c) (range k) b (v.v q) fun p hp p' hp' => hb p (mem_range.mp hp) p' (mem_range.mp hp')).trans (le_of_eq ?_)
    apply Complex.ofReal_injective
    push_cast
    simp only [normSq_eq_star_mul]
    rw [hv q hq q hq, if_pos rfl]
  · simp only [hw]
    rw [sum_comm]
    have : ∀ p ∈ range k, ∑ q ∈ range n, Complex.normSq (∑ c ∈ range A.c, star (b p c) * v.v q c) ≤ 1 := by
      intro p hp
      have e := bessel (range A.c) (range n) v.v (b p) fun q hq q' hq' => hv q (mem_range.mp hq) q' (mem_range.mp hq')
      have e1 : ∑ c ∈ range A.c, Complex.normSq (b p c) = 1 := by
        apply Complex.ofReal_injective
        push_cast
        simp only [normSq_eq_star_mul]
        rw [hb p (mem_range.mp hp) p (mem_range.mp hp), if_pos rfl]
      rw [e1] at e
      refine (le_of_eq ?_).trans e
      refine sum_congr rfl fun q _ => ?_
      rw [← Complex.normSq_conj]
      congr 1
      rw [map_sum]
      refine sum_congr rfl fun c _ => ?_
      rw [map_mul, Complex.star_def, Complex.conj_conj, mul_comm]
    refine (sum_le_sum this).trans ?_
    rw [sum_const, card_range, nsmul_eq_mul, mul_one]
    exact_mod_cast hk
  · refine sum_congr rfl fun q _ => by ring

/-! ## One truncating factorisation -/

/-- What is dropped is smaller than the threshold, unless `D` values are kept. -/
theorem truncS_stop {s : List ℝ} (hs : s.Pairwise (· ≥ ·)) (D : Option ℕ) (th : ℝ) :
    D = some (truncS s D th).length ∨ ∀ q, (truncS s D th).length ≤ q → q < s.length → th > 1e-16 ∧ s.getD q 0 ≤ th := by
  have h1 : ∀ q, (if th > 1e-16 then s.filter (fun x => decide (x > th)) else s).length ≤ q → q < s.length →
      th > 1e-16 ∧ s.getD q 0 ≤ th := by
    intro q hq hq'
    by_cases h : th > 1e-16
    · refine ⟨h, ?_⟩
      rw [if_pos h] at hq
      set k := (s.filter (fun x => decide (x > th))).length with hk
      have hp : s.filter (fun x => decide (x > th)) = s.take k := filter_gt_prefix hs th
      have e : (s.take k ++ s.drop k).filter (fun x => decide (x > th)) = s.take k := by rw [List.take_append_drop, hp]
      rw [List.filter_append] at e
      have e2 : (s.take k).filter (fun x => decide (x > th)) = s.take k := by
        rw [← hp, List.filter_filter]; simp
      rw [e2] at e
      have e3 : (s.drop k).filter (fun x => decide (x > th)) = [] := by
        have := congrArg List.length e
        rw [List.length_append] at this
        exact List.length_eq_zero_iff.mp (by omega)
      rw [List.filter_eq_nil_iff] at e3
      have hm : s.getD q 0 ∈ s.drop k := by
        rw [List.getD_eq_getElem _ _ hq', List.mem_drop_iff_getElem]
        exact ⟨q - k, by omega, by simp only [show k + (q - k) = q by omega]⟩
      simpa using e3 _ hm
    · rw [if_neg h] at hq; omega
  cases D with
  | none => exact Or.inr h1
  | some D =>
    unfold truncS
    simp only [List.length_take]
    rcases Nat.lt_or_ge D (if th > 1e-16 then s.filter (fun x => decide (x > th)) else s).length with h | h
    · left; congr 1; omega
    · right; intro q hq; exact h1 q (by omega)

/-- A factorisation to the left `t ≈ c · m · a` by a projection whose error is the smallest possible. -/
structure CutBest (t a : Ten ℂ) (m : Mat ℂ) (D : Option ℕ) (th : ℝ) (c : ℝ) : Prop where
  pos : 0 < c
  proj : ∀ i < t.l, ∀ b < m.c, (c : ℂ) * m.v i b = ∑ j ∈ range t.r, ∑ x ∈ range t.d, star (a.v b j x) * t.v i j x
  le : c ^ 2 ≤ t.sq
  one : t.l ≤ 1 → c ^ 2 = t.sq
  best : ∀ (X : ℕ → ℕ → ℕ → ℂ) (ε : ℝ), 0 ≤ ε → (th > 1e-16 → t.l * th ^ 2 ≤ ε) →
    (∀ D', D = some D' → ∃ (L : ℕ → ℕ → ℂ) (R : ℕ → ℕ → ℕ → ℂ), ∀ i < t.l, ∀ j < t.r, ∀ x < t.d,
      X i j x = ∑ κ ∈ range D', L κ i * R κ j x) →
    t.sq - c ^ 2 ≤ ∑ i ∈ range t.l, ∑ j ∈ range t.r, ∑ x ∈ range t.d, Complex.normSq (t.v i j x - X i j x) + ε

theorem ExactL.best {t a : Ten ℂ} {m : Mat ℂ} {z : ℝ} (h : ExactL t a m z) (D : Option ℕ) (th : ℝ) : CutBest t a m D th z := by
  have hz : z ^ 2 = t.sq := h.trunc.zsq
  refine ⟨h.zpos, ?_, hz.le, fun _ => hz, fun X ε hε _ _ => ?_⟩
  · intro i hi b hb
    have e : ∀ j ∈ range t.r, ∀ x ∈ range t.d, star (a.v b j x) * t.v i j x
        = (z : ℂ) * ∑ k ∈ range m.c, m.v i k * (a.v k j x * star (a.v b j x)) := by
      intro j hj x hx
      rw [h.prod i hi j (mem_range.mp hj) x (mem_range.mp hx), mul_left_comm, mul_sum]
      congr 1
      refine sum_congr rfl fun k _ => by ring
    rw [sum_congr rfl fun j hj => sum_congr rfl fun x hx => e j hj x hx]
    simp only [← mul_sum]
    congr 1
    have e2 : ∑ j ∈ range t.r, ∑ x ∈ range t.d, ∑ k ∈ range m.c, m.v i k * (a.v k j x * star (a.v b j x))
        = ∑ k ∈ range m.c, m.v i k * ∑ x ∈ range t.d, ∑ j ∈ range t.r, a.v k j x * star (a.v b j x) := by
      simp only [mul_sum]
      rw [sum_comm]
      rw [sum_congr rfl fun x _ => sum_comm]
      rw [sum_comm]
    rw [e2]
    have e3 : ∀ k ∈ range m.c, m.v i k * ∑ x ∈ range t.d, ∑ j ∈ range t.r, a.v k j x * star (a.v b j x)
        = m.v i k * delta ℂ k b := by
      intro k hk
      rw [← h.d, ← h.r, h.orth k (by rw [h.l]; exact mem_range.mp hk) b (by rw [h.l]; exact hb)]
    rw [sum_congr rfl e3, sum_delta_right hb]
  · rw [hz, sub_self]
    exact add_nonneg (sum_nonneg fun _ _ => sum_nonneg fun _ _ => sum_nonneg fun _ _ => Complex.normSq_nonneg _) hε

theorem dot_diag {u : Mat ℂ} {s : List ℝ} (hc : u.c = s.length) {i j : ℕ} (hj : j < s.length) :
    (u.dot (diagMat s)).v i j = u.v i j * ((s.getD j 0 : ℝ) : ℂ) := by
  simp only [Mat.dot, diagMat, hc]
  rw [sum_eq_single j]
  · simp
  · intro k _ hk; rw [if_neg hk]; simp
  · intro h; exact absurd (mem_range.mpr hj) h

theorem prepareTruncateL_best {O : LinAlg} (hO : O.Spec) {t : Ten ℂ} {D : Option ℕ} {th : ℝ}
    {u : Mat ℂ} {s : List ℝ} {out : Ten ℂ} {Z : ℝ} (h : prepareTruncateL O t D th = .ok (u, s, out, Z)) (h0 : s ≠ []) :
    ∃ c, CutBest t out (u.dot (diagMat s)) D th c := by
  unfold prepareTruncateL at h
  simp only at h
  split at h
  · cases h
  rename_i s' hn
  have hsv := hO.svd t.colMat
  set U := (O.svd t.colMat).1
  set S := (O.svd t.colMat).2.1
  set V := (O.svd t.colMat).2.2
  simp only [Except.ok.injEq, Prod.mk.injEq] at h
  obtain ⟨hu, rfl, ho, -⟩ := h
  obtain ⟨hp1, hp2, -, -⟩ := truncS_prefix hsv.sorted D th
  have hst := truncS_stop hsv.sorted D th
  obtain ⟨n1, n2, n3⟩ := normalise_ok hn
  have hcr : t.colMat.r = t.l := rfl
  have hcc : t.colMat.c = t.d * t.r := rfl
  have hku : min (truncS S D th).length U.c = s'.length := by rw [hsv.u_c, ← hsv.len, n1]; omega
  have hkv : min (truncS S D th).length V.r = s'.length := by rw [hsv.v_r, ← hsv.len, n1]; omega
  rw [hku] at hu
  rw [hkv] at ho
  have hT : truncS S D th ≠ [] := by
    intro e; rw [e] at n1; exact h0 (List.length_eq_zero_iff.mp n1)
  have hc2 : norm2 (truncS S D th) ^ 2 = ((S.take s'.length).map (fun x => x ^ 2)).sum := by
    rw [norm2_sq, ← sum_sq_list, n1, ← hp1]
  have hSn : (S.map (fun x => x ^ 2)).sum = t.sq := by
    rw [sum_sq_list, ← norm2_sq, hsv.norm2_eq, normF_sq, hcr, hcc]
    apply colMat_sq t t rfl rfl rfl
    intro i hi j hj x hx
    simp only [Ten.colMat]
    rw [idx_div hx, idx_mod hx]
  have hdrop : t.sq - norm2 (truncS S D th) ^ 2 = ((S.drop s'.length).map (fun x => x ^ 2)).sum := by
    have e := congrArg List.sum (congrArg (List.map fun x : ℝ => x ^ 2) (List.take_append_drop s'.length S))
    rw [List.map_append, List.sum_append, hSn] at e
    rw [hc2]; linarith
  have hd0 : 0 ≤ ((S.drop s'.length).map (fun x => x ^ 2)).sum := by
    rw [sum_sq_list]; exact sum_nonneg fun _ _ => sq_nonneg _
  refine ⟨norm2 (truncS S D th), (n2 hT).2, ?_, by linarith, ?_, ?_⟩
  · intro i hi b hb
    have hb : b < s'.length := hb
    have hbn : b < min t.colMat.r t.colMat.c := by rw [← hsv.len]; omega
    subst hu ho
    rw [dot_diag rfl hb]
    have e1 : (norm2 (truncS S D th) : ℂ) * (U.v i b * ((s'.getD b 0 : ℝ) : ℂ)) = U.v i b * ((S.getD b 0 : ℝ) : ℂ) := by
      have : S.getD b 0 = norm2 (truncS S D th) * s'.getD b 0 := by
        rw [← n3 b, hp1, List.getD_eq_getElem?_getD, List.getD_eq_getElem?_getD, List.getElem?_take, if_pos (by omega)]
      rw [this]; push_cast; ring
    rw [e1]
    have e2 : ∑ j ∈ range t.r, ∑ x ∈ range t.d, star (V.v b (j * t.d + x)) * t.v i j x
        = ∑ c ∈ range (t.d * t.r), star (V.v b c) * t.colMat.v i c := by
      rw [mul_comm t.d, sum_range_mul]
      refine sum_congr rfl fun j _ => sum_congr rfl fun x hx => ?_
      simp only [Ten.colMat]
      rw [idx_div (mem_range.mp hx), idx_mod (mem_range.mp hx)]
    refine Eq.trans ?_ e2.symm
    have e3 : ∀ c ∈ range (t.d * t.r), star (V.v b c) * t.colMat.v i c
        = ∑ q ∈ range (min t.colMat.r t.colMat.c), U.v i q * ((S.getD q 0 : ℝ) : ℂ) * (V.v q c * star (V.v b c)) := by
      intro c hc
      rw [← hsv.prod i hi c (mem_range.mp hc), mul_sum]
      refine sum_congr rfl fun q _ => by ring
    rw [sum_congr rfl e3, sum_comm]
    simp only [← mul_sum]
    rw [sum_congr rfl fun q hq => by rw [show ∑ c ∈ range (t.d * t.r), V.v q c * star (V.v b c) = delta ℂ q b from
      hsv.isoV q (mem_range.mp hq) b hbn], sum_delta_right hbn (fun q => U.v i q * ((S.getD q 0 : ℝ) : ℂ))]
  · intro hl
    have hlen := hsv.len
    rw [hcr] at hlen
    have : 0 < s'.length := List.length_pos_iff.mpr h0
    rw [List.drop_of_length_le (by omega)] at hdrop
    simp at hdrop
    linarith
  · intro X ε hε hth hX
    rw [hdrop]
    have hn0 : 0 ≤ ∑ i ∈ range t.l, ∑ j ∈ range t.r, ∑ x ∈ range t.d, Complex.normSq (t.v i j x - X i j x) :=
      sum_nonneg fun _ _ => sum_nonneg fun _ _ => sum_nonneg fun _ _ => Complex.normSq_nonneg _
    rcases hst with hst | hst
    · rw [← n1] at hst
      obtain ⟨L, R, hLR⟩ := hX _ hst
      have := hsv.best s'.length L (fun κ c => R κ (c / t.d) (c % t.d))
      refine this.trans ((le_of_eq ?_).trans (le_add_of_nonneg_right hε))
      rw [hcr, hcc]
      refine sum_congr rfl fun i hi => ?_
      rw [mul_comm t.d, sum_range_mul]
      refine sum_congr rfl fun j hj => sum_congr rfl fun x hx => ?_
      simp only [Ten.colMat]
      rw [idx_div (mem_range.mp hx), idx_mod (mem_range.mp hx), hLR i (mem_range.mp hi) j (mem_range.mp hj) x (mem_range.mp hx)]
    · rw [← n1] at hst
      refine le_trans ?_ (le_add_of_nonneg_left hn0)
      rw [sum_sq_list]
      by_cases hlt : s'.length < S.length
      · have hth' := (hst _ le_rfl hlt).1
        refine le_trans ?_ (hth hth')
        have : ∀ q ∈ range (S.drop s'.length).length, (S.drop s'.length).getD q 0 ^ 2 ≤ th ^ 2 := by
          intro q hq
          have hq := mem_range.mp hq
          rw [List.length_drop] at hq
          rw [List.getD_eq_getElem?_getD, List.getElem?_drop, ← List.getD_eq_getElem?_getD]
          refine pow_le_pow_left₀ ?_ (hst _ (by omega) (by omega)).2 2
          rw [List.getD_eq_getElem _ _ (by omega)]
          exact hsv.nonneg _ (List.getElem_mem _)
        refine (sum_le_sum this).trans ?_
        rw [sum_const, card_range, nsmul_eq_mul]
        refine mul_le_mul_of_nonneg_right ?_ (sq_nonneg _)
        have hlen := hsv.len
        rw [hcr] at hlen
        rw [List.length_drop]
        exact_mod_cast (by omega : S.length - s'.length ≤ t.l)
      · rw [List.drop_of_length_le (by omega)]
        simpa using hε

theorem cutL_best {O : LinAlg} (hO : O.Spec) {sth : ℝ} {D : Option ℕ} {t a : Ten ℂ} {m : Mat ℂ} {z : ℝ}
    (h : cutL O sth D t = .ok (a, m, z)) (h0 : m.c ≠ 0) : ∃ c, CutBest t a m D sth c := by
  unfold cutL at h
  split_ifs at h with h1
  · simp only [prepareTensor] at h
    exact ⟨z, (prepareTensorL_spec hO h).best _ _⟩
  · split at h
    · cases h
    rename_i u s out Z hp
    cases h
    exact prepareTruncateL_best hO hp (by rintro rfl; exact h0 rfl)

/-! ## The sweep -/

/-- The configurations can be numbered. -/
theorem exists_enum (ds : List ℕ) : ∃ (n : ℕ) (e : ℕ → List ℕ), (∀ p < n, Conf ds (e p)) ∧
    (∀ F : List ℕ → ℂ, sumCfg ds F = ∑ p ∈ range n, F (e p)) ∧ ∀ F : List ℕ → ℝ, sumCfg ds F = ∑ p ∈ range n, F (e p) := by
  induction ds with
  | nil => exact ⟨1, fun _ => [], fun _ _ => .nil, fun F => by simp [sumCfg], fun F => by simp [sumCfg]⟩
  | cons d ds ih =>
    obtain ⟨n, e, h1, h2, h3⟩ := ih
    have hsum : ∀ {K : Type} [AddCommMonoid K] (F : List ℕ → K),
        ∑ p ∈ range (d * n), F (p / n :: e (p % n)) = ∑ x ∈ range d, ∑ p ∈ range n, F (x :: e p) := by
      intro K _ F
      rw [sum_range_mul]
      refine sum_congr rfl fun x _ => sum_congr rfl fun p hp => ?_
      rw [idx_div (mem_range.mp hp), idx_mod (mem_range.mp hp)]
    refine ⟨d * n, fun p => p / n :: e (p % n), fun p hp => ?_, fun F => ?_, fun F => ?_⟩
    · have hn : 0 < n := by
        rcases Nat.eq_zero_or_pos n with rfl | h
        · simp at hp
        · exact h
      exact .cons (Nat.div_lt_of_lt_mul (by rw [mul_comm]; exact hp)) (h1 _ (Nat.mod_lt _ hn))
    · rw [hsum]; exact sum_congr rfl fun x _ => h2 _
    · rw [hsum]; exact sum_congr rfl fun x _ => h3 _

/-- Spec: squared norm of a wave function with an open index below `r`. -/
def sq1 (ds : List ℕ) (r : ℕ) (f : List ℕ → ℕ → ℂ) : ℝ := sumCfg ds (fun s => ∑ j ∈ range r, Complex.normSq (f s j))

/-- Spec: between any two neighbouring sites the wave function has at most `D` Schmidt values. -/
def RankLe (D : ℕ) (ds : List ℕ) (r : ℕ) (g : List ℕ → ℕ → ℂ) : Prop :=
  ∀ d1 d2, ds = d1 ++ d2 → d1 ≠ [] → d2 ≠ [] → ∃ (L : ℕ → List ℕ → ℂ) (R : ℕ → List ℕ → ℕ → ℂ),
    ∀ s1 s2, Conf d1 s1 → Conf d2 s2 → ∀ j < r, g (s1 ++ s2) j = ∑ κ ∈ range D, L κ s1 * R κ s2 j

theorem chain_one {t : Ten ℂ} {x i j : ℕ} (hj : j < t.r) : chain [t] [x] i j = t.v i j x := by
  simp only [chain]
  exact sum_delta_right hj _

theorem chain_last {l : ℕ} {A : List (Ten ℂ)} {t : Ten ℂ} (hA : Linked l A t.l) {sA : List ℕ} (hs : sA.length = A.length) (x : ℕ)
    {i j : ℕ} (hi : i < l) (hj : j < t.r) :
    chain (A ++ [t]) (sA ++ [x]) i j = ∑ k ∈ range t.l, chain A sA i k * t.v k j x := by
  rw [chain_append hA sA [x] hs hi]
  exact sum_congr rfl fun k _ => by rw [chain_one hj]

theorem left_bessel {A : List (Ten ℂ)} {m : ℕ} (hA : Linked 1 A m) (ho : ∀ t ∈ A, LeftOrth t) (f : List ℕ → ℂ) :
    ∑ i ∈ range m, Complex.normSq (sumCfg (A.map Ten.d) (fun s => star (chain A s 0 i) * f s))
      ≤ sumCfg (A.map Ten.d) (fun s => Complex.normSq (f s)) := by
  obtain ⟨n, e, -, h2, h3⟩ := exists_enum (A.map Ten.d)
  rw [h3]
  simp only [h2]
  refine bessel (range n) (range m) (fun i p => chain A (e p) 0 i) (fun p => f (e p)) fun i hi i' hi' => ?_
  have := chain_leftOrth hA ho (mem_range.mp hi) (mem_range.mp hi')
  rw [h2] at this
  simp only [sum_range_one] at this
  exact this

theorem left_proj {A : List (Ten ℂ)} {m : ℕ} (hA : Linked 1 A m) (ho : ∀ t ∈ A, LeftOrth t) (z : ℕ → ℂ) {i : ℕ} (hi : i < m) :
    sumCfg (A.map Ten.d) (fun s => star (chain A s 0 i) * ∑ k ∈ range m, chain A s 0 k * z k) = z i := by
  simp only [mul_sum]
  rw [sumCfg_sum]
  have : ∀ k ∈ range m, sumCfg (A.map Ten.d) (fun s => star (chain A s 0 i) * (chain A s 0 k * z k)) = delta ℂ i k * z k := by
    intro k hk
    have := chain_leftOrth hA ho hi (mem_range.mp hk)
    simp only [sum_range_one] at this
    rw [← this, ← sumCfg_mul_right]
    refine sumCfg_congr fun s _ => by ring
  rw [sum_congr rfl this, sum_delta_left hi]

theorem right_bessel {a : Ten ℂ} (ho : RightOrth a) (f : ℕ → ℕ → ℂ) :
    ∑ b ∈ range a.l, Complex.normSq (∑ j ∈ range a.r, ∑ x ∈ range a.d, star (a.v b j x) * f j x)
      ≤ ∑ j ∈ range a.r, ∑ x ∈ range a.d, Complex.normSq (f j x) := by
  have := bessel (range a.r ×ˢ range a.d) (range a.l) (fun b p => a.v b p.1 p.2) (fun p => f p.1 p.2) (by
    intro b hb b' hb'
    have h := ho b' (mem_range.mp hb') b (mem_range.mp hb)
    rw [sum_comm, delta_comm] at h
    rw [sum_product]
    unfold delta at h
    rw [← h]
    exact sum_congr rfl fun j _ => sum_congr rfl fun x _ => mul_comm _ _)
  simp only [sum_product] at this
  exact this

/-- The step of the induction: the bond to the left of `t` is cut, and what remains is compared on one site less. -/
theorem step_best {A : List (Ten ℂ)} {t a : Ten ℂ} {m : Mat ℂ} {D : Option ℕ} {z th c ε : ℝ} (hA : Linked 1 A t.l)
    (ho : ∀ t ∈ A, LeftOrth t) (hne : A ≠ []) (hx : TruncL t a m z D) (hb : CutBest t a m D th c) (h1 : t.sq = 1)
    (hε : 0 ≤ ε) (hth : th > 1e-16 → t.l * th ^ 2 ≤ ε) {g : List ℕ → ℕ → ℂ}
    (hg : ∀ D', D = some D' → RankLe D' (A.map Ten.d ++ [t.d]) t.r g) :
    1 - c ^ 2 ≤ sq1 (A.map Ten.d ++ [t.d]) t.r (fun s j => chain (A ++ [t]) s 0 j - g s j) + ε ∧
    ∃ g' : List ℕ → ℕ → ℂ, (∀ D', D = some D' → RankLe D' (A.map Ten.d) m.c g') ∧
      c ^ 2 * sq1 (A.map Ten.d) m.c (fun s b => ∑ k ∈ range t.l, chain A s 0 k * m.v k b - g' s b)
        ≤ sq1 (A.map Ten.d ++ [t.d]) t.r (fun s j => chain (A ++ [t]) s 0 j - g s j) := by
  have hlen : ∀ s, Conf (A.map Ten.d) s → s.length = A.length := fun s hs => by
    have := hs.length_eq; rw [List.length_map] at this; exact this.symm
  have hcj : ∀ f : List ℕ → ℝ, sumCfg [t.d] f = ∑ x ∈ range t.d, f [x] := fun f => by simp [sumCfg]
  have hsq : sq1 (A.map Ten.d ++ [t.d]) t.r (fun s j => chain (A ++ [t]) s 0 j - g s j)
      = ∑ j ∈ range t.r, ∑ x ∈ range t.d, sumCfg (A.map Ten.d) fun s => Complex.normSq (chain (A ++ [t]) (s ++ [x]) 0 j - g (s ++ [x]) j) := by
    unfold sq1
    rw [sumCfg_append]
    simp only [hcj, sumCfg_sum]
    rw [sum_comm]
  have hpos : ((c : ℝ) : ℂ) ≠ 0 := by exact_mod_cast hb.pos.ne'
  constructor
  · have hXe : ∀ i < t.l, ∀ j < t.r, ∀ x, t.v i j x - sumCfg (A.map Ten.d) (fun s => star (chain A s 0 i) * g (s ++ [x]) j)
        = sumCfg (A.map Ten.d) (fun s => star (chain A s 0 i) * (chain (A ++ [t]) (s ++ [x]) 0 j - g (s ++ [x]) j)) := by
      intro i hi j hj x
      have e := left_proj hA ho (fun k => t.v k j x) hi
      rw [← e, sub_eq_add_neg, ← neg_one_mul, ← sumCfg_mul, ← sumCfg_add]
      refine sumCfg_congr fun s hs => ?_
      rw [chain_last hA (hlen s hs) x one_pos hj]; ring
    have := hb.best (fun i j x => sumCfg (A.map Ten.d) (fun s => star (chain A s 0 i) * g (s ++ [x]) j)) ε hε hth ?_
    · rw [h1] at this
      refine this.trans (add_le_add_left ?_ _)
      rw [hsq, sum_comm]
      refine sum_le_sum fun j hj => ?_
      rw [sum_comm]
      refine sum_le_sum fun x _ => ?_
      rw [sum_congr rfl fun i hi => by rw [hXe i (mem_range.mp hi) j (mem_range.mp hj) x]]
      exact left_bessel hA ho _
    · intro D' hD'
      obtain ⟨L, R, hLR⟩ := hg D' hD' _ _ rfl (by simpa using hne) (by simp)
      refine ⟨fun κ i => sumCfg (A.map Ten.d) (fun s => star (chain A s 0 i) * L κ s), fun κ j x => R κ [x] j, ?_⟩
      intro i hi j hj x hx
      simp only [← sumCfg_mul_right]
      rw [← sumCfg_sum]
      refine sumCfg_congr fun s hs => ?_
      rw [hLR s [x] hs (.cons hx .nil) j hj, mul_sum]
      refine sum_congr rfl fun κ _ => by ring
  · refine ⟨fun s b => (c : ℂ)⁻¹ * ∑ j ∈ range t.r, ∑ x ∈ range t.d, star (a.v b j x) * g (s ++ [x]) j, ?_, ?_⟩
    · intro D' hD' d1 d2 hd h1 h2
      obtain ⟨L, R, hLR⟩ := hg D' hD' d1 (d2 ++ [t.d]) (by rw [hd, List.append_assoc]) h1 (by simp)
      refine ⟨L, fun κ s2 b => (c : ℂ)⁻¹ * ∑ j ∈ range t.r, ∑ x ∈ range t.d, star (a.v b j x) * R κ (s2 ++ [x]) j, ?_⟩
      intro s1 s2 hs1 hs2 b _
      have e : ∀ j ∈ range t.r, ∀ x ∈ range t.d, star (a.v b j x) * g (s1 ++ s2 ++ [x]) j
          = ∑ κ ∈ range D', L κ s1 * (star (a.v b j x) * R κ (s2 ++ [x]) j) := by
        intro j hj x hx
        rw [List.append_assoc, hLR s1 (s2 ++ [x]) hs1 (List.rel_append hs2 (.cons (mem_range.mp hx) .nil)) j (mem_range.mp hj), mul_sum]
        refine sum_congr rfl fun κ _ => by ring
      dsimp only
      rw [sum_congr rfl fun j hj => sum_congr rfl fun x hx => e j hj x hx]
      simp only [mul_sum]
      rw [sum_congr rfl fun j _ => sum_comm, sum_comm]
      refine sum_congr rfl fun κ _ => sum_congr rfl fun j _ => sum_congr rfl fun x _ => by ring
    · have e : ∀ s, Conf (A.map Ten.d) s → ∀ b < m.c, (c : ℂ) * (∑ k ∈ range t.l, chain A s 0 k * m.v k b
          - (c : ℂ)⁻¹ * ∑ j ∈ range t.r, ∑ x ∈ range t.d, star (a.v b j x) * g (s ++ [x]) j)
          = ∑ j ∈ range a.r, ∑ x ∈ range a.d, star (a.v b j x) * (chain (A ++ [t]) (s ++ [x]) 0 j - g (s ++ [x]) j) := by
        intro s hs b hbm
        rw [mul_sub, mul_inv_cancel_left₀ hpos, hx.r, hx.d]
        simp only [mul_sub, sum_sub_distrib]
        congr 1
        have e1 : ∀ k ∈ range t.l, (c : ℂ) * (chain A s 0 k * m.v k b)
            = ∑ j ∈ range t.r, ∑ x ∈ range t.d, star (a.v b j x) * (chain A s 0 k * t.v k j x) := by
          intro k hk
          rw [mul_left_comm, hb.proj k (mem_range.mp hk) b hbm]
          simp only [mul_sum]
          refine sum_congr rfl fun j _ => sum_congr rfl fun x _ => by ring
        rw [mul_sum, sum_congr rfl e1, sum_comm]
        refine sum_congr rfl fun j hj => ?_
        rw [sum_comm]
        refine sum_congr rfl fun x _ => ?_
        rw [chain_last hA (hlen s hs) x one_pos (mem_range.mp hj), mul_sum]
      rw [hsq]
      unfold sq1
      rw [← sumCfg_mul]
      simp only [← sumCfg_sum]
      obtain ⟨n, en, h4, -, h5⟩ := exists_enum (A.map Ten.d)
      rw [h5, h5]
      refine sum_le_sum fun p hp => ?_
      have hs := h4 p (mem_range.mp hp)
      have hbes := right_bessel hx.orth (fun j x => chain (A ++ [t]) (en p ++ [x]) 0 j - g (en p ++ [x]) j)
      rw [hx.l] at hbes
      refine (le_of_eq ?_).trans (hbes.trans (le_of_eq ?_))
      · rw [mul_sum]
        refine sum_congr rfl fun b hbm => ?_
        rw [← e _ hs b (mem_range.mp hbm), Complex.normSq_mul, Complex.normSq_ofReal]; ring
      · rw [hx.r, hx.d]

/-- The sweep projects the state on the final right-orthonormal tensors, and each bond costs at most the distance to
any state with at most `D` Schmidt values, up to the values below the threshold. -/
theorem sweepL_best {cut : Ten ℂ → Res (Ten ℂ × Mat ℂ × ℝ)} {D : Option ℕ} {th ε : ℝ} {K r : ℕ}
    (hcut : ∀ t a m z, cut t = .ok (a, m, z) → TruncL t a m z D)
    (hbest : ∀ t a m z, cut t = .ok (a, m, z) → m.c ≠ 0 → ∃ c, CutBest t a m D th c)
    (hε : 0 ≤ ε) (hth : th > 1e-16 → K * th ^ 2 ≤ ε) :
    ∀ (C0 : List (Ten ℂ)) (t : Ten ℂ) (B : List (Ten ℂ)) (m0 : Mat ℂ) (Z : ℂ) (w : Sweep) (g : List ℕ → ℕ → ℂ),
      Linked 1 (C0 ++ t :: B) r → (∀ c ∈ C0, LeftOrth c) → t.sq = 1 → (∀ c ∈ C0, c.l ≤ K) → t.l ≤ K →
      sweepL cut 0 (C0.length + 1) ⟨C0 ++ t :: B, m0, Z⟩ = .ok w → w.mat.c ≠ 0 →
      (∀ D', D = some D' → RankLe D' (C0.map Ten.d ++ [t.d]) t.r g) →
      ∃ (C : List (Ten ℂ)) (c : ℝ), w.ts = C ++ B ∧ C.map Ten.d = C0.map Ten.d ++ [t.d] ∧ 0 < c ∧
        (∀ b < w.mat.c, (c : ℂ) * w.mat.v 0 b
          = sumCfg (C0.map Ten.d ++ [t.d]) (fun s => ∑ j ∈ range t.r, star (chain C s b j) * chain (C0 ++ [t]) s 0 j)) ∧
        1 - c ^ 2 ≤ C0.length * (sq1 (C0.map Ten.d ++ [t.d]) t.r (fun s j => chain (C0 ++ [t]) s 0 j - g s j) + ε) := by
  intro C0
  induction C0 using List.reverseRecOn with
  | nil =>
    intro t B m0 Z w g hl _ h1 _ _ h h0 _
    simp only [List.nil_append, List.length_nil, Nat.zero_add] at h hl
    obtain ⟨hl1, -⟩ := hl
    have h2 := h
    simp only [sweepL, getT, Nat.add_zero, List.getElem?_cons_zero] at h
    split at h
    · cases h
    · rename_i a m z hc
      simp only [gt_iff_lt, lt_irrefl, if_false, List.set_cons_zero, Except.ok.injEq] at h
      subst h
      have hx := hcut _ _ _ _ hc
      obtain ⟨c, hb⟩ := hbest _ _ _ _ hc h0
      refine ⟨[a], c, rfl, by simp [hx.d], hb.pos, ?_, ?_⟩
      · intro b hbm
        rw [hb.proj 0 (by omega) b hbm]
        simp only [List.map_nil, List.nil_append, sumCfg]
        rw [sum_comm]
        refine sum_congr rfl fun x _ => sum_congr rfl fun j hj => ?_
        rw [chain_one (by rw [hx.r]; exact mem_range.mp hj), chain_one (mem_range.mp hj)]
      · rw [hb.one (by omega), h1]; simp
  | append_singleton C0 t1 ih =>
    intro t B m0 Z w g hl ho h1 hK hKt h h0 hg
    simp only [List.length_append, List.length_cons, List.length_nil, Nat.zero_add] at h
    rw [sweepL] at h
    have hlen : 0 + (C0.length + 1) = (C0 ++ [t1]).length := by simp
    simp only [getT_append' _ _ _ hlen, set_append' _ _ _ _ hlen] at h
    split at h
    · cases h
    · rename_i a m z hc
      rw [if_pos (by omega)] at h
      have hx := hcut _ _ _ _ hc
      rw [linked_append] at hl
      obtain ⟨n, hA, ht⟩ := hl
      obtain ⟨rfl, hB⟩ := ht
      have e2 : C0 ++ [t1] ++ a :: B = C0 ++ t1 :: (a :: B) := by simp
      have hlen2 : 0 + (C0.length + 1) - 1 = C0.length := by omega
      rw [e2, getT_append' _ _ _ hlen2] at h
      simp only at h
      have hAA := hA
      rw [linked_append] at hA
      obtain ⟨n', hA', ht1⟩ := hA
      obtain ⟨rfl, ht1r⟩ := ht1
      have ht1r : t1.r = t.l := ht1r
      obtain ⟨t1', habs⟩ : ∃ t1', absorbR t1 m = .ok t1' := ⟨_, absorbR_ok (by rw [ht1r, hx.rr])⟩
      rw [habs] at h
      simp only at h
      rw [set_append' _ _ _ _ hlen2] at h
      obtain ⟨-, hte⟩ := absorbR_eq habs
      have hl' : Linked 1 (C0 ++ t1' :: a :: B) r := by
        rw [linked_append]
        refine ⟨t1.l, hA', by rw [hte], ?_⟩
        exact ⟨by rw [hte]; exact hx.l, by rw [hx.r]; exact hB⟩
      have ht1r' : t1'.r = m.c := by rw [hte]
      have ht1d : t1'.d = t1.d := by rw [hte]
      have ht1l : t1'.l = t1.l := by rw [hte]
      obtain ⟨C', hw', hS⟩ := sweepL_trunc hcut [] C0 t1' (a :: B) m _ w (by simpa using hl') (by simpa using h)
      have hm0 : m.c ≠ 0 := by rw [← ht1r']; exact hS.tpos h0
      obtain ⟨c1, hb⟩ := hbest _ _ _ _ hc hm0
      have ho' : ∀ t ∈ C0 ++ [t1], LeftOrth t := ho
      obtain ⟨hs1, g', hg', hs2⟩ := step_best hAA ho' (by simp) hx hb h1 hε
        (fun hgt => le_trans (mul_le_mul_of_nonneg_right (by exact_mod_cast hKt) (sq_nonneg _)) (hth hgt)) hg
      have hmap : (C0 ++ [t1]).map Ten.d = C0.map Ten.d ++ [t1'.d] := by simp [ht1d]
      have hch : ∀ s, Conf ((C0 ++ [t1]).map Ten.d) s → ∀ b < m.c,
          chain (C0 ++ [t1']) s 0 b = ∑ k ∈ range t.l, chain (C0 ++ [t1]) s 0 k * m.v k b := by
        intro s hs b hbm
        have hls : s.length = C0.length + 1 := by
          have := hs.length_eq; simp at this; exact this.symm
        obtain ⟨sA, x, rfl⟩ : ∃ sA x, s = sA ++ [x] := ⟨s.dropLast, s.getLast (by rintro rfl; simp at hls),
          (List.dropLast_append_getLast _).symm⟩
        rw [chain_append_absorbR hA' habs sA (by simpa using hls) x one_pos hbm, hx.rr]
      obtain ⟨C, c', hw, hds, hc0, hproj, herr⟩ := ih t1' (a :: B) m _ w g' hl' (fun c hc' => ho c (by simp [hc']))
        (absorbR_sq habs (ho t1 (by simp)) (hx.norm hm0)) (fun c hc' => hK c (by simp [hc']))
        (by rw [ht1l]; exact hK t1 (by simp)) h h0 (by rw [ht1r', ← hmap]; exact hg')
      obtain rfl : C = C' := by
        have := hw.symm.trans hw'
        simpa using this
      have hlC : Linked w.mat.c C a.l := by
        have := hS.right
        rw [linked_append] at this
        obtain ⟨q, h3, h4⟩ := this
        rw [h4.1]; exact h3
      refine ⟨C ++ [a], c1 * c', by rw [hw]; simp, by rw [List.map_append, hds]; simp [ht1d, hx.d], mul_pos hb.pos hc0, ?_, ?_⟩
      · intro b hbw
        push_cast
        rw [mul_assoc, hproj b hbw, ← hmap, ht1r', ← sumCfg_mul, sumCfg_append]
        refine sumCfg_congr fun s hs => ?_
        have hls : s.length = (C0 ++ [t1]).length := by
          have := hs.length_eq; rw [List.length_map] at this; exact this.symm
        have hlsC : s.length = C.length := by rw [hls, hS.len]; simp
        simp only [sumCfg]
        rw [mul_sum]
        have e1 : ∀ β ∈ range m.c, (c1 : ℂ) * (star (chain C s b β) * chain (C0 ++ [t1']) s 0 β)
            = ∑ j ∈ range t.r, ∑ x ∈ range t.d, star (chain C s b β * a.v β j x) * chain (C0 ++ [t1] ++ [t]) (s ++ [x]) 0 j := by
          intro β hβ
          rw [hch s hs β (mem_range.mp hβ), mul_left_comm, mul_sum]
          have e3 : ∀ k ∈ range t.l, (c1 : ℂ) * (chain (C0 ++ [t1]) s 0 k * m.v k β)
              = ∑ j ∈ range t.r, ∑ x ∈ range t.d, star (a.v β j x) * (chain (C0 ++ [t1]) s 0 k * t.v k j x) := by
            intro k hk
            rw [mul_left_comm, hb.proj k (mem_range.mp hk) β (mem_range.mp hβ)]
            simp only [mul_sum]
            refine sum_congr rfl fun j _ => sum_congr rfl fun x _ => by ring
          rw [sum_congr rfl e3, sum_comm, mul_sum]
          refine sum_congr rfl fun j hj => ?_
          rw [sum_comm, mul_sum]
          refine sum_congr rfl fun x _ => ?_
          rw [chain_last hAA hls x one_pos (mem_range.mp hj), star_mul', mul_assoc]
          simp only [mul_sum]
        rw [sum_congr rfl e1, sum_comm]
        rw [sum_congr rfl fun j _ => sum_comm, sum_comm]
        refine sum_congr rfl fun x _ => sum_congr rfl fun j hj => ?_
        rw [chain_last hlC hlsC x hbw (by rw [hx.r]; exact mem_range.mp hj), star_sum, sum_mul, hx.l]
      · rw [← hmap, ht1r'] at herr
        have hcong : sq1 ((C0 ++ [t1]).map Ten.d) m.c (fun s j => chain (C0 ++ [t1']) s 0 j - g' s j)
            = sq1 ((C0 ++ [t1]).map Ten.d) m.c (fun s b => ∑ k ∈ range t.l, chain (C0 ++ [t1]) s 0 k * m.v k b - g' s b) := by
          unfold sq1
          refine sumCfg_congr fun s hs => sum_congr rfl fun b hbm => ?_
          dsimp only
          rw [hch s hs b (mem_range.mp hbm)]
        rw [hcong] at herr
        have hle := hb.le
        rw [h1] at hle
        have hc2 : 0 ≤ c1 ^ 2 := sq_nonneg _
        rw [List.length_append, List.length_singleton]
        push_cast
        set X := sq1 ((C0 ++ [t1]).map Ten.d ++ [t.d]) t.r (fun s j => chain (C0 ++ [t1] ++ [t]) s 0 j - g s j)
        set Y := sq1 ((C0 ++ [t1]).map Ten.d) m.c (fun s b => ∑ k ∈ range t.l, chain (C0 ++ [t1]) s 0 k * m.v k b - g' s b)
        have hn : (0 : ℝ) ≤ C0.length := Nat.cast_nonneg _
        have k1 : c1 ^ 2 * (1 - c' ^ 2) ≤ c1 ^ 2 * (C0.length * (Y + ε)) := mul_le_mul_of_nonneg_left herr hc2
        have k2 : c1 ^ 2 * (C0.length * (Y + ε)) = C0.length * (c1 ^ 2 * Y + c1 ^ 2 * ε) := by ring
        have k3 : C0.length * (c1 ^ 2 * Y + c1 ^ 2 * ε) ≤ C0.length * (X + ε) :=
          mul_le_mul_of_nonneg_left (add_le_add hs2 (by nlinarith)) hn
        nlinarith

end

end PyTeN
