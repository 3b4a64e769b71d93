import Verif.Mps.Norm
import Mathlib.Data.List.GetD

/-! # Truncated singular value decompositions -/

namespace PyTeN
open Finset

noncomputable section

theorem normSq_eq_star_mul (z : ℂ) : ((Complex.normSq z : ℝ) : ℂ) = star z * z := by
  rw [Complex.normSq_eq_conj_mul_self]; rfl

/-- Parseval for an svd: the Frobenius norm of `u·diag(w)·v` is the norm of `w`. -/
theorem usv_normSq {R C n : ℕ} {u v : ℕ → ℕ → ℂ}
    (hu : ∀ k < n, ∀ k' < n, ∑ i ∈ range R, star (u i k) * u i k' = delta ℂ k k')
    (hv : ∀ k < n, ∀ k' < n, ∑ j ∈ range C, v k j * star (v k' j) = delta ℂ k k') (w : ℕ → ℝ) :
    ∑ i ∈ range R, ∑ j ∈ range C, Complex.normSq (∑ k ∈ range n, u i k * (w k : ℂ) * v k j)
      = ∑ k ∈ range n, w k ^ 2 := by
  apply Complex.ofReal_injective
  push_cast
  simp_rw [normSq_eq_star_mul, star_sum, sum_mul_sum]
  have h1 : ∀ i ∈ range R, ∑ j ∈ range C, ∑ k ∈ range n, ∑ q ∈ range n,
      star (u i k * (w k : ℂ) * v k j) * (u i q * (w q : ℂ) * v q j)
      = ∑ k ∈ range n, ∑ q ∈ range n, ((w k : ℂ) * (w q : ℂ) * (star (u i k) * u i q)) *
        ∑ j ∈ range C, v q j * star (v k j) := by
    intro i _
    rw [sum_comm]; apply sum_congr rfl; intro k _
    rw [sum_comm]; apply sum_congr rfl; intro q _
    rw [mul_sum]; apply sum_congr rfl; intro j _
    have : star ((w k : ℝ) : ℂ) = ((w k : ℝ) : ℂ) := by rw [Complex.star_def, Complex.conj_ofReal]
    rw [star_mul', star_mul', this]; ring
  rw [sum_congr rfl h1, sum_comm]
  apply sum_congr rfl; intro k hk
  rw [sum_comm]
  have h2 : ∀ q ∈ range n, ∑ i ∈ range R, ((w k : ℂ) * (w q : ℂ) * (star (u i k) * u i q)) *
        ∑ j ∈ range C, v q j * star (v k j) = delta ℂ k q * ((w k : ℂ) * (w q : ℂ)) := by
    intro q hq
    rw [hv q (mem_range.mp hq) k (mem_range.mp hk), ← sum_mul, ← mul_sum,
      hu k (mem_range.mp hk) q (mem_range.mp hq)]
    unfold delta
    by_cases h : k = q
    · subst h; simp
    · rw [if_neg h]; simp
  rw [sum_congr rfl h2, sum_delta_left (mem_range.mp hk)]
  ring

/-- sum of squares of a list as a sum over indices. -/
theorem sum_sq_list (s : List ℝ) : (s.map (fun x => x ^ 2)).sum = ∑ k ∈ range s.length, s.getD k 0 ^ 2 := by
  induction s using List.reverseRecOn with
  | nil => simp
  | append_singleton s x ih =>
    rw [List.map_append, List.sum_append, ih, List.length_append, List.length_singleton,
      sum_range_succ]
    congr 1
    · apply sum_congr rfl; intro k hk
      rw [List.getD_append _ _ _ _ (mem_range.mp hk)]
    · simp

theorem norm2_sq (s : List ℝ) : norm2 s ^ 2 = ∑ k ∈ range s.length, s.getD k 0 ^ 2 := by
  unfold norm2
  rw [Real.sq_sqrt, sum_sq_list]
  exact List.sum_nonneg (by simp only [List.mem_map]; rintro _ ⟨x, _, rfl⟩; positivity)

theorem norm2_nonneg (s : List ℝ) : 0 ≤ norm2 s := Real.sqrt_nonneg _

theorem normF_sq (m : Mat ℂ) :
    normF m ^ 2 = ∑ i ∈ range m.r, ∑ j ∈ range m.c, Complex.normSq (m.v i j) := by
  unfold normF
  rw [Real.sq_sqrt]
  exact sum_nonneg fun _ _ => sum_nonneg fun _ _ => Complex.normSq_nonneg _

theorem normF_eq_of_sq {m : Mat ℂ} {x : ℝ} (hx : 0 ≤ x)
    (h : ∑ i ∈ range m.r, ∑ j ∈ range m.c, Complex.normSq (m.v i j) = x ^ 2) : normF m = x := by
  unfold normF; rw [h, Real.sqrt_sq hx]

/-- The norm of the singular values is the norm of the matrix. -/
theorem SVDSpec.norm2_eq {A u v : Mat ℂ} {s : List ℝ} (h : SVDSpec A u s v) : norm2 s = normF A := by
  symm
  apply normF_eq_of_sq (norm2_nonneg s)
  rw [norm2_sq, h.len, ← usv_normSq h.isoU h.isoV (fun k => s.getD k 0)]
  apply sum_congr rfl; intro i hi
  apply sum_congr rfl; intro j hj
  rw [h.prod i (mem_range.mp hi) j (mem_range.mp hj)]

/-- Eckart–Young arithmetic: keeping the first `k` singular values leaves an error whose squared
Frobenius norm is the sum of the squares of the discarded ones. -/
theorem SVDSpec.truncErr {A u v : Mat ℂ} {s : List ℝ} (h : SVDSpec A u s v) {k : ℕ}
    (hk : k ≤ s.length) :
    ∑ i ∈ range A.r, ∑ j ∈ range A.c,
      Complex.normSq (A.v i j - ∑ a ∈ range k, u.v i a * ((s.getD a 0 : ℝ) : ℂ) * v.v a j)
      = ((s.drop k).map (fun x => x ^ 2)).sum := by
  have hn := h.len
  have e := usv_normSq h.isoU h.isoV (fun a => if a < k then 0 else s.getD a 0)
  have e2 : ∀ i ∈ range A.r, ∀ j ∈ range A.c,
      A.v i j - ∑ a ∈ range k, u.v i a * ((s.getD a 0 : ℝ) : ℂ) * v.v a j
      = ∑ a ∈ range (min A.r A.c), u.v i a * (((if a < k then 0 else s.getD a 0) : ℝ) : ℂ) * v.v a j := by
    intro i hi j hj
    rw [← h.prod i (mem_range.mp hi) j (mem_range.mp hj), sub_eq_iff_eq_add]
    have : ∑ a ∈ range k, u.v i a * ((s.getD a 0 : ℝ) : ℂ) * v.v a j
        = ∑ a ∈ range (min A.r A.c), if a < k then u.v i a * ((s.getD a 0 : ℝ) : ℂ) * v.v a j else 0 := by
      rw [← sum_filter]
      apply sum_congr _ fun _ _ => rfl
      ext a; simp only [mem_filter, mem_range]; omega
    rw [this, ← sum_add_distrib]
    apply sum_congr rfl; intro a _
    split_ifs <;> simp
  rw [sum_congr rfl fun i hi => sum_congr rfl fun j hj => by rw [e2 i hi j hj], e, ← hn]
  rw [sum_sq_list, List.length_drop]
  obtain ⟨p, hp⟩ : ∃ p, s.length = k + p := ⟨s.length - k, by omega⟩
  rw [hp, sum_range_add, Nat.add_sub_cancel_left]
  rw [sum_eq_zero (fun a ha => by rw [if_pos (mem_range.mp ha)]; simp), zero_add]
  apply sum_congr rfl; intro a _
  rw [if_neg (by omega)]
  congr 1
  simp [List.getD_eq_getElem?_getD]

theorem normalise_ok {s s' : List ℝ} (h : normalise s = .ok s') :
    s'.length = s.length ∧ (s ≠ [] → norm2 s' = 1 ∧ 0 < norm2 s) ∧
      ∀ k, s.getD k 0 = norm2 s * s'.getD k 0 := by
  unfold normalise at h
  split_ifs at h with h1 h2
  · cases h; subst h1; simp
  · cases h
    have hpos : 0 < norm2 s := lt_of_le_of_ne (norm2_nonneg s) (Ne.symm h2)
    refine ⟨by simp, fun _ => ⟨?_, hpos⟩, ?_⟩
    · have h3 : norm2 (s.map (· / norm2 s)) ^ 2 = 1 := by
        rw [norm2_sq, List.length_map]
        have : ∀ k ∈ range s.length, (s.map (· / norm2 s)).getD k 0 ^ 2
            = s.getD k 0 ^ 2 / norm2 s ^ 2 := by
          intro k hk
          have hk' := mem_range.mp hk
          rw [List.getD_eq_getElem _ _ (by simpa using hk'), List.getElem_map,
            List.getD_eq_getElem _ _ hk']
          ring
        rw [sum_congr rfl this, ← sum_div, ← norm2_sq]
        field_simp
      have h4 := norm2_nonneg (s.map (· / norm2 s))
      nlinarith [h3, h4]
    · intro k
      rw [List.getD_eq_getElem?_getD, List.getD_eq_getElem?_getD, List.getElem?_map]
      cases s[k]? with
      | none => simp
      | some x => simp only [Option.map_some, Option.getD_some]; field_simp

theorem normalise_err {s : List ℝ} {e : PyErr} (h : normalise s = .error e) :
    e = .nan ∧ s ≠ [] ∧ norm2 s = 0 := by
  unfold normalise at h
  split_ifs at h with h1 h2
  cases h; exact ⟨rfl, h1, h2⟩

/-- Filtering a descending list by a lower bound keeps a prefix. -/
theorem filter_gt_prefix {s : List ℝ} (hs : s.Pairwise (· ≥ ·)) (th : ℝ) :
    s.filter (fun x => decide (x > th)) = s.take (s.filter (fun x => decide (x > th))).length := by
  induction s with
  | nil => rfl
  | cons x s ih =>
    rw [List.pairwise_cons] at hs
    by_cases h : x > th
    · rw [List.filter_cons_of_pos (by simpa using h)]
      simp only [List.length_cons, List.take_succ_cons]
      rw [← ih hs.2]
    · have : (x :: s).filter (fun x => decide (x > th)) = [] := by
        rw [List.filter_eq_nil_iff]
        intro y hy
        simp only [decide_eq_true_eq]
        rcases List.mem_cons.mp hy with rfl | hy
        · exact h
        · have := hs.1 y hy; intro h2; exact h (lt_of_lt_of_le h2 this)
      rw [this]; rfl

/-- `truncS` keeps a prefix of the singular values. -/
theorem truncS_prefix {s : List ℝ} (hs : s.Pairwise (· ≥ ·)) (D : Option ℕ) (th : ℝ) :
    truncS s D th = s.take (truncS s D th).length ∧ (truncS s D th).length ≤ s.length ∧
      (∀ D', D = some D' → (truncS s D th).length ≤ D') ∧
      (th > 1e-16 → ∀ x ∈ truncS s D th, x > th) := by
  have h1 : ∃ k, (if th > 1e-16 then s.filter (fun x => decide (x > th)) else s) = s.take k := by
    by_cases h : th > 1e-16
    · exact ⟨_, by rw [if_pos h]; exact filter_gt_prefix hs th⟩
    · exact ⟨s.length, by rw [if_neg h, List.take_length]⟩
  obtain ⟨k, hk⟩ := h1
  have h2 : ∃ k, truncS s D th = s.take k := by
    unfold truncS
    simp only [hk]
    cases D with
    | none => exact ⟨k, rfl⟩
    | some D => exact ⟨min (min D (s.take k).length) k, by simp only [List.take_take]⟩
  obtain ⟨k', hk'⟩ := h2
  refine ⟨?_, ?_, ?_, ?_⟩
  · rw [hk', List.length_take]
    rw [← List.take_eq_take_min]
  · rw [hk', List.length_take]; omega
  · rintro D' rfl
    unfold truncS
    simp only [List.length_take]
    omega
  · intro hth x hx
    unfold truncS at hx
    simp only [if_pos hth] at hx
    have : x ∈ s.filter (fun x => decide (x > th)) := by
      cases D with
      | none => exact hx
      | some D => exact List.mem_of_mem_take hx
    simpa using (List.mem_filter.mp this).2

end

end PyTeN
