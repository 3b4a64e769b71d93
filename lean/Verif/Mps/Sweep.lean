import Verif.Mps.Factor

/-! # Lemmas on the sweeps of `__position__` -/

namespace PyTeN
open Finset

noncomputable section

/-- Product of a left part, a centre matrix and a right part. -/
def split (A : List (Ten ℂ)) (m : Mat ℂ) (B : List (Ten ℂ)) (sA sB : List ℕ) (i j : ℕ) : ℂ :=
  ∑ k ∈ range m.r, ∑ k' ∈ range m.c, chain A sA i k * m.v k k' * chain B sB k' j

theorem amp_eq_split (m : MPS) (s : List ℕ) (i j : ℕ) :
    m.amp s i j = m.Z * split (m.tensors.take m.pos) m.mat (m.tensors.drop m.pos)
      (s.take m.pos) (s.drop m.pos) i j := rfl

theorem absorbL_ok {m : Mat ℂ} {t : Ten ℂ} (h : m.c = t.l) :
    absorbL m t = .ok ⟨m.r, t.r, t.d, fun i j s => ∑ k ∈ range t.l, m.v i k * t.v k j s⟩ := by
  simp [absorbL, h]

theorem absorbR_ok {m : Mat ℂ} {t : Ten ℂ} (h : t.r = m.r) :
    absorbR t m = .ok ⟨t.l, m.c, t.d, fun i j s => ∑ k ∈ range t.r, t.v i k s * m.v k j⟩ := by
  simp [absorbR, h]

theorem absorbL_eq {m : Mat ℂ} {t t' : Ten ℂ} (h : absorbL m t = .ok t') :
    m.c = t.l ∧ t' = ⟨m.r, t.r, t.d, fun i j s => ∑ k ∈ range t.l, m.v i k * t.v k j s⟩ := by
  unfold absorbL at h
  split at h
  · rename_i hc; exact ⟨hc, by cases h; rfl⟩
  · cases h

theorem absorbR_eq {m : Mat ℂ} {t t' : Ten ℂ} (h : absorbR t m = .ok t') :
    t.r = m.r ∧ t' = ⟨t.l, m.c, t.d, fun i j s => ∑ k ∈ range t.r, t.v i k s * m.v k j⟩ := by
  unfold absorbR at h
  split at h
  · rename_i hc; exact ⟨hc, by cases h; rfl⟩
  · cases h

theorem chain_absorbL {m : Mat ℂ} {t t' : Ten ℂ} (h : absorbL m t = .ok t') (B : List (Ten ℂ))
    (x : ℕ) (ss : List ℕ) (i j : ℕ) :
    chain (t' :: B) (x :: ss) i j = ∑ k ∈ range m.c, m.v i k * chain (t :: B) (x :: ss) k j := by
  obtain ⟨hc, rfl⟩ := absorbL_eq h
  simp only [chain]
  simp_rw [sum_mul, mul_sum]
  rw [sum_comm, hc]
  apply sum_congr rfl; intro k _
  apply sum_congr rfl; intro k' _
  ring

theorem split_absorbL {l : ℕ} {A : List (Ten ℂ)} {m : Mat ℂ} {t t' : Ten ℂ}
    (hA : Linked l A m.r) (h : absorbL m t = .ok t') (B : List (Ten ℂ)) (sA : List ℕ)
    (hs : sA.length = A.length) (x : ℕ) (ss : List ℕ) {i : ℕ} (hi : i < l) (j : ℕ) :
    chain (A ++ t' :: B) (sA ++ x :: ss) i j = split A m (t :: B) sA (x :: ss) i j := by
  rw [chain_append hA sA _ hs hi]
  unfold split
  apply sum_congr rfl; intro k _
  rw [chain_absorbL h, mul_sum]
  apply sum_congr rfl; intro k' _
  ring

theorem chain_append_absorbR {l : ℕ} {A : List (Ten ℂ)} {m : Mat ℂ} {t t' : Ten ℂ}
    (hA : Linked l A t.l) (h : absorbR t m = .ok t') (sA : List ℕ)
    (hs : sA.length = A.length) (x : ℕ) {i : ℕ} (hi : i < l) {j : ℕ} (hj : j < m.c) :
    chain (A ++ [t']) (sA ++ [x]) i j
      = ∑ k ∈ range m.r, chain (A ++ [t]) (sA ++ [x]) i k * m.v k j := by
  obtain ⟨hr, rfl⟩ := absorbR_eq h
  rw [chain_append hA sA [x] hs hi]
  have : ∀ k ∈ range m.r, chain (A ++ [t]) (sA ++ [x]) i k * m.v k j
      = ∑ a ∈ range t.l, chain A sA i a * (t.v a k x * m.v k j) := by
    intro k hk
    rw [chain_append hA sA [x] hs hi, sum_mul]
    apply sum_congr rfl; intro a _
    simp only [chain]
    rw [sum_delta_right (by rw [hr]; exact mem_range.mp hk)]
    ring
  rw [sum_congr rfl this, sum_comm]
  apply sum_congr rfl; intro a _
  simp only [chain]
  rw [sum_delta_right hj, mul_sum, hr]

theorem split_absorbR {l : ℕ} {A : List (Ten ℂ)} {m : Mat ℂ} {t t' : Ten ℂ}
    (hA : Linked l A t.l) (h : absorbR t m = .ok t') (B : List (Ten ℂ)) (sA : List ℕ)
    (hs : sA.length = A.length) (x : ℕ) (ss : List ℕ) {i : ℕ} (hi : i < l) (j : ℕ) :
    chain (A ++ t' :: B) (sA ++ x :: ss) i j = split (A ++ [t]) m B (sA ++ [x]) ss i j := by
  have hA' : Linked l (A ++ [t']) m.c := by
    rw [linked_append]
    obtain ⟨_, rfl⟩ := absorbR_eq h
    exact ⟨t.l, hA, rfl, rfl⟩
  have e1 : A ++ t' :: B = (A ++ [t']) ++ B := by simp
  have e2 : sA ++ x :: ss = (sA ++ [x]) ++ ss := by simp
  rw [e1, e2, chain_append hA' _ _ (by simp [hs]) hi]
  unfold split
  rw [sum_comm]
  apply sum_congr rfl; intro k' hk'
  rw [chain_append_absorbR hA h sA hs x hi (mem_range.mp hk'), sum_mul]

/-- one exact cut to the right. -/
theorem chain_cutR {l : ℕ} {A : List (Ten ℂ)} {t a : Ten ℂ} {m : Mat ℂ} {z : ℝ}
    (h : ExactR t a m z) (hA : Linked l A t.l) (B : List (Ten ℂ)) (sA : List ℕ)
    (hs : sA.length = A.length) {x : ℕ} (hx : x < t.d) (ss : List ℕ) {i : ℕ} (hi : i < l) (j : ℕ) :
    chain (A ++ t :: B) (sA ++ x :: ss) i j
      = (z : ℂ) * split (A ++ [a]) m B (sA ++ [x]) ss i j := by
  rw [chain_append hA sA _ hs hi]
  unfold split
  have : ∀ k ∈ range m.r, ∑ k' ∈ range m.c,
      chain (A ++ [a]) (sA ++ [x]) i k * m.v k k' * chain B ss k' j
      = ∑ b ∈ range t.l, ∑ k' ∈ range m.c, chain A sA i b * (a.v b k x * m.v k k' * chain B ss k' j) := by
    intro k hk
    rw [sum_comm]
    apply sum_congr rfl; intro k' _
    rw [chain_append hA sA [x] hs hi, sum_mul, sum_mul]
    apply sum_congr rfl; intro b _
    simp only [chain]
    rw [sum_delta_right (by rw [h.r]; exact mem_range.mp hk)]
    ring
  rw [sum_congr rfl this, sum_comm, mul_sum]
  apply sum_congr rfl; intro b hb
  simp only [chain]
  simp_rw [← mul_sum]
  rw [mul_left_comm]
  congr 1
  rw [sum_comm, mul_sum, ← h.c]
  apply sum_congr rfl; intro k' hk'
  rw [h.prod b (mem_range.mp hb) k' (by rw [← h.c]; exact mem_range.mp hk') x hx, mul_assoc,
    sum_mul]

/-- one exact cut to the left. -/
theorem chain_cutL {l : ℕ} {A : List (Ten ℂ)} {t a : Ten ℂ} {m : Mat ℂ} {z : ℝ}
    (h : ExactL t a m z) (hA : Linked l A t.l) (B : List (Ten ℂ)) (sA : List ℕ)
    (hs : sA.length = A.length) {x : ℕ} (hx : x < t.d) (ss : List ℕ) {i : ℕ} (hi : i < l) (j : ℕ) :
    chain (A ++ t :: B) (sA ++ x :: ss) i j
      = (z : ℂ) * split A m (a :: B) sA (x :: ss) i j := by
  rw [chain_append hA sA _ hs hi]
  unfold split
  rw [mul_sum, h.rr]
  apply sum_congr rfl; intro b hb
  simp only [chain, h.r]
  have : ∀ k ∈ range t.r, t.v b k x * chain B ss k j
      = ∑ k' ∈ range m.c, (z : ℂ) * (m.v b k' * (a.v k' k x * chain B ss k j)) := by
    intro k hk
    rw [h.prod b (mem_range.mp hb) k (mem_range.mp hk) x hx, mul_assoc, sum_mul, mul_sum]
    apply sum_congr rfl; intro k' _; ring
  rw [sum_congr rfl this, sum_comm, mul_sum, mul_sum]
  apply sum_congr rfl; intro k' _
  simp_rw [mul_sum]
  apply sum_congr rfl; intro k _
  ring

theorem cfg_split {A B : List (Ten ℂ)} {s : List ℕ} (h : Cfg (A ++ B) s) :
    ∃ sA sB, s = sA ++ sB ∧ Cfg A sA ∧ Cfg B sB := by
  induction A generalizing s with
  | nil => exact ⟨[], s, rfl, List.Forall₂.nil, h⟩
  | cons t A ih =>
    cases h with
    | cons hx hr =>
      obtain ⟨sA, sB, rfl, h1, h2⟩ := ih hr
      exact ⟨_ :: sA, sB, rfl, List.Forall₂.cons hx h1, h2⟩

theorem cfg_append {A B : List (Ten ℂ)} {sA sB : List ℕ} (h1 : Cfg A sA) (h2 : Cfg B sB) :
    Cfg (A ++ B) (sA ++ sB) := List.rel_append h1 h2

theorem cfg_length {A : List (Ten ℂ)} {s : List ℕ} (h : Cfg A s) : s.length = A.length :=
  (List.Forall₂.length_eq h).symm

theorem cfg_iff_map {A : List (Ten ℂ)} {s : List ℕ} :
    Cfg A s ↔ List.Forall₂ (fun d x => x < d) (A.map Ten.d) s := by
  unfold Cfg
  rw [List.forall₂_map_left_iff]

/-- Result of an exact sweep over the sites `C0` (left part `A` untouched). -/
structure SweptR (l r : ℕ) (A C0 B : List (Ten ℂ)) (Z : ℂ) (C : List (Ten ℂ)) (m : Mat ℂ) (Z' : ℂ) :
    Prop where
  len : C.length = C0.length
  left : Linked l (A ++ C) m.r
  right : Linked m.c B r
  norm : normF m = 1
  orth : ∀ c ∈ C, LeftOrth c
  ds : C.map Ten.d = C0.map Ten.d
  le : List.Forall₂ (fun c t : Ten ℂ => c.r ≤ t.r) C C0
  amp : ∀ sA sC sB, Cfg A sA → Cfg C0 sC → Cfg B sB → ∀ i < l, ∀ j,
    Z' * split (A ++ C) m B (sA ++ sC) sB i j = Z * chain (A ++ C0 ++ B) (sA ++ sC ++ sB) i j

theorem getT_append (A : List (Ten ℂ)) (t : Ten ℂ) (B : List (Ten ℂ)) :
    getT (A ++ t :: B) A.length = .ok t := by simp [getT]

theorem set_append (A : List (Ten ℂ)) (t t' : Ten ℂ) (B : List (Ten ℂ)) :
    (A ++ t :: B).set A.length t' = A ++ t' :: B := by simp

/-- The right-moving loop: success gives the swept form. -/
theorem sweepR_ok {cut : Ten ℂ → Res (Ten ℂ × Mat ℂ × ℝ)}
    (hcut : ∀ t a m z, cut t = .ok (a, m, z) → ExactR t a m z) {l r : ℕ} :
    ∀ (C0 : List (Ten ℂ)) (A : List (Ten ℂ)) (t : Ten ℂ) (B : List (Ten ℂ)) (m0 : Mat ℂ) (Z : ℂ)
      (w : Sweep), Linked l (A ++ t :: C0 ++ B) r →
      sweepR cut (A.length + C0.length + 1) (C0.length + 1) A.length ⟨A ++ t :: C0 ++ B, m0, Z⟩
        = .ok w →
      ∃ C, w.ts = A ++ C ++ B ∧ SweptR l r A (t :: C0) B Z C w.mat w.Z := by
  intro C0
  induction C0 with
  | nil =>
    intro A t B m0 Z w hl h
    have e : A ++ [t] ++ B = A ++ t :: B := by simp
    rw [e] at h hl
    simp only [List.length_nil, Nat.add_zero, sweepR, getT_append] at h
    split at h
    · cases h
    · rename_i a m z hc
      simp only [lt_irrefl, if_false, set_append, Except.ok.injEq] at h
      subst h
      have hx := hcut _ _ _ _ hc
      rw [linked_append] at hl
      obtain ⟨n, hA, ht⟩ := hl
      obtain ⟨rfl, hB⟩ := ht
      refine ⟨[a], by simp, ⟨rfl, ?_, ?_, hx.norm, ?_, ?_, ?_, ?_⟩⟩
      · rw [linked_append]; exact ⟨t.l, hA, hx.l, hx.r⟩
      · simpa [hx.c] using hB
      · intro c hc'; simp only [List.mem_singleton] at hc'; subst hc'; exact hx.orth
      · simp [hx.d]
      · exact List.Forall₂.cons (by rw [hx.r]; exact hx.le) List.Forall₂.nil
      · intro sA sC sB h1 h2 h3 i hi j
        cases h2 with
        | cons hxd hnil =>
          cases hnil
          rename_i x
          have := chain_cutR hx hA B sA (cfg_length h1) hxd sB hi j
          simp only [List.append_assoc, List.cons_append, List.nil_append] at *
          rw [this]; ring
  | cons t1 C0 ih =>
    intro A t B m0 Z w hl h
    have e : A ++ t :: t1 :: C0 ++ B = A ++ t :: (t1 :: C0 ++ B) := by simp
    rw [e] at h hl
    simp only [List.length_cons] at h
    rw [sweepR] at h
    simp only [getT_append] at h
    split at h
    · cases h
    · rename_i a m z hc
      rw [set_append] at h
      have hlt : A.length + 1 < A.length + (C0.length + 1) + 1 := by omega
      rw [if_pos hlt] at h
      have hx := hcut _ _ _ _ hc
      rw [linked_append] at hl
      obtain ⟨n, hA, ht⟩ := hl
      obtain ⟨rfl, hB⟩ := ht
      have e2 : A ++ a :: (t1 :: C0 ++ B) = (A ++ [a]) ++ t1 :: (C0 ++ B) := by simp
      have e3 : A.length + 1 = (A ++ [a]).length := by simp
      rw [e2, e3, getT_append] at h
      simp only at h
      have hB1 : t1.l = t.r := hB.1
      rw [absorbL_ok (show m.c = t1.l by rw [hx.c, hB1])] at h
      simp only at h
      rw [set_append] at h
      set t1' : Ten ℂ := ⟨m.r, t1.r, t1.d, fun i j s => ∑ k ∈ range t1.l, m.v i k * t1.v k j s⟩
      have habs : absorbL m t1 = .ok t1' := absorbL_ok (show m.c = t1.l by rw [hx.c, hB1])
      have e4 : A.length + (C0.length + 1) + 1 = (A ++ [a]).length + C0.length + 1 := by
        simp; omega
      rw [e4] at h
      have e5 : A ++ [a] ++ t1' :: (C0 ++ B) = A ++ [a] ++ t1' :: C0 ++ B := by simp
      rw [e5] at h
      have hAa : Linked l (A ++ [a]) m.r := by
        rw [linked_append]; exact ⟨t.l, hA, hx.l, hx.r⟩
      have hl' : Linked l (A ++ [a] ++ t1' :: C0 ++ B) r := by
        rw [← e5, linked_append]
        exact ⟨m.r, hAa, rfl, hB.2⟩
      obtain ⟨C, hw, hS⟩ := ih (A ++ [a]) t1' B _ _ w hl' h
      refine ⟨a :: C, by rw [hw]; simp, ⟨by simp [hS.len], ?_, hS.right, hS.norm, ?_, ?_, ?_, ?_⟩⟩
      · have := hS.left; simpa using this
      · intro c hc'
        rcases List.mem_cons.mp hc' with rfl | hc'
        · exact hx.orth
        · exact hS.orth c hc'
      · have := hS.ds; simp only [List.map_cons] at this ⊢; rw [this]; simp [hx.d, t1']
      · have h2 := hS.le
        refine List.Forall₂.cons (by rw [hx.r]; exact hx.le) ?_
        cases h2 with
        | cons h3 h4 => exact List.Forall₂.cons h3 h4
      · intro sA sC sB h1 h2 h3 i hi j
        cases h2 with
        | cons hxd hrest =>
          rename_i x sC
          cases hrest with
          | cons hxd1 hrest =>
            rename_i x1 sC
            have h1' : Cfg (A ++ [a]) (sA ++ [x]) :=
              cfg_append h1 (List.Forall₂.cons (by rw [hx.d]; exact hxd) List.Forall₂.nil)
            have key := hS.amp (sA ++ [x]) (x1 :: sC) sB h1' (List.Forall₂.cons hxd1 hrest) h3 i hi j
            have c1 := chain_cutR hx hA (t1 :: (C0 ++ B)) sA (cfg_length h1) hxd (x1 :: (sC ++ sB)) hi j
            have c2 := split_absorbL hAa habs (C0 ++ B) (sA ++ [x]) (cfg_length h1') x1 (sC ++ sB) hi j
            simp only [List.append_assoc, List.cons_append, List.nil_append] at *
            rw [key, c2, c1]; ring

/-- The right-moving loop fails only with NaN, and only if the represented state vanishes. -/
theorem sweepR_err {cut : Ten ℂ → Res (Ten ℂ × Mat ℂ × ℝ)}
    (hcut : ∀ t a m z, cut t = .ok (a, m, z) → ExactR t a m z)
    (herr : ∀ t e, cut t = .error e →
      e = .nan ∧ ∀ i < t.l, ∀ j < t.r, ∀ s < t.d, t.v i j s = 0) {l r : ℕ} :
    ∀ (C0 : List (Ten ℂ)) (A : List (Ten ℂ)) (t : Ten ℂ) (B : List (Ten ℂ)) (m0 : Mat ℂ) (Z : ℂ)
      (e : PyErr), Linked l (A ++ t :: C0 ++ B) r →
      sweepR cut (A.length + C0.length + 1) (C0.length + 1) A.length ⟨A ++ t :: C0 ++ B, m0, Z⟩
        = .error e →
      e = .nan ∧ ∀ s, Cfg (A ++ t :: C0 ++ B) s → ∀ i < l, ∀ j,
        chain (A ++ t :: C0 ++ B) s i j = 0 := by
  have zero : ∀ (A : List (Ten ℂ)) (t : Ten ℂ) (B : List (Ten ℂ)), Linked l (A ++ t :: B) r →
      (∀ i < t.l, ∀ j < t.r, ∀ s < t.d, t.v i j s = 0) →
      ∀ s, Cfg (A ++ t :: B) s → ∀ i < l, ∀ j, chain (A ++ t :: B) s i j = 0 := by
    intro A t B hl h0 s hs i hi j
    obtain ⟨sA, sB, rfl, h1, h2⟩ := cfg_split hs
    rw [linked_append] at hl
    obtain ⟨n, hA, rfl, _⟩ := hl
    rw [chain_append hA _ _ (cfg_length h1) hi]
    cases h2 with
    | cons hx hr =>
      apply sum_eq_zero; intro k hk
      simp only [chain]
      rw [sum_eq_zero, mul_zero]
      intro k' hk'
      rw [h0 k (mem_range.mp hk) k' (mem_range.mp hk') _ hx, zero_mul]
  intro C0
  induction C0 with
  | nil =>
    intro A t B m0 Z e hl h
    have e : A ++ [t] ++ B = A ++ t :: B := by simp
    rw [e] at h hl ⊢
    simp only [List.length_nil, Nat.add_zero, sweepR, getT_append] at h
    split at h
    · rename_i e' hc
      cases h
      obtain ⟨he, h0⟩ := herr _ _ hc
      exact ⟨he, zero A t B hl h0⟩
    · simp only [lt_irrefl, if_false] at h; cases h
  | cons t1 C0 ih =>
    intro A t B m0 Z er hl h
    have e : A ++ t :: t1 :: C0 ++ B = A ++ t :: (t1 :: C0 ++ B) := by simp
    rw [e] at h hl ⊢
    have hl0 := hl
    simp only [List.length_cons] at h
    rw [sweepR] at h
    simp only [getT_append] at h
    split at h
    · rename_i e' hc
      cases h
      obtain ⟨he, h0⟩ := herr _ _ hc
      exact ⟨he, zero A t _ hl h0⟩
    · rename_i a m z hc
      rw [set_append] at h
      have hlt : A.length + 1 < A.length + (C0.length + 1) + 1 := by omega
      rw [if_pos hlt] at h
      have hx := hcut _ _ _ _ hc
      rw [linked_append] at hl
      obtain ⟨n, hA, ht⟩ := hl
      obtain ⟨rfl, hB⟩ := ht
      have e2 : A ++ a :: (t1 :: C0 ++ B) = (A ++ [a]) ++ t1 :: (C0 ++ B) := by simp
      have e3 : A.length + 1 = (A ++ [a]).length := by simp
      rw [e2, e3, getT_append] at h
      simp only at h
      have hB1 : t1.l = t.r := hB.1
      rw [absorbL_ok (show m.c = t1.l by rw [hx.c, hB1])] at h
      simp only at h
      rw [set_append] at h
      set t1' : Ten ℂ := ⟨m.r, t1.r, t1.d, fun i j s => ∑ k ∈ range t1.l, m.v i k * t1.v k j s⟩
      have habs : absorbL m t1 = .ok t1' := absorbL_ok (show m.c = t1.l by rw [hx.c, hB1])
      have e4 : A.length + (C0.length + 1) + 1 = (A ++ [a]).length + C0.length + 1 := by
        simp; omega
      rw [e4] at h
      have e5 : A ++ [a] ++ t1' :: (C0 ++ B) = A ++ [a] ++ t1' :: C0 ++ B := by simp
      rw [e5] at h
      have hAa : Linked l (A ++ [a]) m.r := by
        rw [linked_append]; exact ⟨t.l, hA, hx.l, hx.r⟩
      have hl' : Linked l (A ++ [a] ++ t1' :: C0 ++ B) r := by
        rw [← e5, linked_append]
        exact ⟨m.r, hAa, rfl, hB.2⟩
      obtain ⟨he, h0⟩ := ih (A ++ [a]) t1' B _ _ er hl' h
      refine ⟨he, ?_⟩
      intro s hs i hi j
      obtain ⟨sA, sB, rfl, h1, h2⟩ := cfg_split hs
      cases h2 with
      | cons hxd hrest =>
        rename_i x ss
        cases hrest with
        | cons hxd1 hrest =>
          rename_i x1 sC
          have h1' : Cfg (A ++ [a]) (sA ++ [x]) :=
            cfg_append h1 (List.Forall₂.cons (by rw [hx.d]; exact hxd) List.Forall₂.nil)
          have c1 := chain_cutR hx hA (t1 :: (C0 ++ B)) sA (cfg_length h1) hxd (x1 :: sC) hi j
          have c2 := split_absorbL hAa habs (C0 ++ B) (sA ++ [x]) (cfg_length h1') x1 sC hi j
          have hcfg : Cfg (A ++ [a] ++ t1' :: C0 ++ B) (sA ++ [x] ++ x1 :: sC) := by
            rw [← e5]
            exact cfg_append h1' (List.Forall₂.cons hxd1 hrest)
          have := h0 _ hcfg i hi j
          rw [← e5, c2] at this
          simp only [List.cons_append] at c1 ⊢
          rw [c1, this, mul_zero]

/-- Result of an exact left-moving sweep over the sites `C0` (right part `B` untouched). -/
structure SweptL (l r : ℕ) (A C0 B : List (Ten ℂ)) (Z : ℂ) (C : List (Ten ℂ)) (m : Mat ℂ) (Z' : ℂ) :
    Prop where
  len : C.length = C0.length
  left : Linked l A m.r
  right : Linked m.c (C ++ B) r
  norm : normF m = 1
  orth : ∀ c ∈ C, RightOrth c
  ds : C.map Ten.d = C0.map Ten.d
  le : List.Forall₂ (fun c t : Ten ℂ => c.l ≤ t.l) C C0
  amp : ∀ sA sC sB, Cfg A sA → Cfg C0 sC → Cfg B sB → ∀ i < l, ∀ j,
    Z' * split A m (C ++ B) sA (sC ++ sB) i j = Z * chain (A ++ C0 ++ B) (sA ++ sC ++ sB) i j

theorem getT_append' (A : List (Ten ℂ)) (t : Ten ℂ) (B : List (Ten ℂ)) {n : ℕ} (h : n = A.length) :
    getT (A ++ t :: B) n = .ok t := by subst h; exact getT_append A t B

theorem set_append' (A : List (Ten ℂ)) (t t' : Ten ℂ) (B : List (Ten ℂ)) {n : ℕ}
    (h : n = A.length) : (A ++ t :: B).set n t' = A ++ t' :: B := by
  subst h; exact set_append A t t' B

/-- The left-moving loop: success gives the swept form. -/
theorem sweepL_ok {cut : Ten ℂ → Res (Ten ℂ × Mat ℂ × ℝ)}
    (hcut : ∀ t a m z, cut t = .ok (a, m, z) → ExactL t a m z) {l r : ℕ} (A : List (Ten ℂ)) :
    ∀ (C0 : List (Ten ℂ)) (t : Ten ℂ) (B : List (Ten ℂ)) (m0 : Mat ℂ) (Z : ℂ)
      (w : Sweep), Linked l (A ++ C0 ++ t :: B) r →
      sweepL cut A.length (C0.length + 1) ⟨A ++ C0 ++ t :: B, m0, Z⟩ = .ok w →
      ∃ C, w.ts = A ++ C ++ B ∧ SweptL l r A (C0 ++ [t]) B Z C w.mat w.Z := by
  intro C0
  induction C0 using List.reverseRecOn with
  | nil =>
    intro t B m0 Z w hl h
    simp only [List.append_nil] at h hl
    simp only [List.length_nil, Nat.add_zero, sweepL, getT_append] at h
    split at h
    · cases h
    · rename_i a m z hc
      simp only [gt_iff_lt, lt_irrefl, if_false, set_append, Except.ok.injEq] at h
      subst h
      have hx := hcut _ _ _ _ hc
      rw [linked_append] at hl
      obtain ⟨n, hA, ht⟩ := hl
      obtain ⟨rfl, hB⟩ := ht
      refine ⟨[a], by simp, ⟨rfl, ?_, ?_, hx.norm, ?_, ?_, ?_, ?_⟩⟩
      · simpa [hx.rr] using hA
      · exact ⟨hx.l, by rw [hx.r]; exact hB⟩
      · intro c hc'; simp only [List.mem_singleton] at hc'; subst hc'; exact hx.orth
      · simp [hx.d]
      · exact List.Forall₂.cons (by rw [hx.l]; exact hx.le) List.Forall₂.nil
      · intro sA sC sB h1 h2 h3 i hi j
        cases h2 with
        | cons hxd hnil =>
          cases hnil
          rename_i x
          have := chain_cutL hx hA B sA (cfg_length h1) hxd sB hi j
          simp only [List.append_assoc, List.cons_append, List.nil_append] at *
          rw [this]; ring
  | append_singleton C0 t1 ih =>
    intro t B m0 Z w hl h
    simp only [List.length_append, List.length_cons, List.length_nil, Nat.zero_add] at h
    rw [sweepL] at h
    have hlen : A.length + (C0.length + 1) = (A ++ (C0 ++ [t1])).length := by simp
    simp only [getT_append' _ _ _ hlen, set_append' _ _ _ _ hlen] at h
    split at h
    · cases h
    · rename_i a m z hc
      have hlt : A.length + (C0.length + 1) > A.length := by omega
      rw [if_pos hlt] at h
      have hx := hcut _ _ _ _ hc
      rw [linked_append] at hl
      obtain ⟨n, hA, ht⟩ := hl
      obtain ⟨rfl, hB⟩ := ht
      have e2 : A ++ (C0 ++ [t1]) ++ a :: B = (A ++ C0) ++ t1 :: (a :: B) := by simp
      have hlen2 : A.length + (C0.length + 1) - 1 = (A ++ C0).length := by
        simp
      rw [e2, getT_append' _ _ _ hlen2] at h
      simp only at h
      rw [show A ++ (C0 ++ [t1]) = (A ++ C0) ++ [t1] by simp, linked_append] at hA
      obtain ⟨n, hA, ht1⟩ := hA
      obtain ⟨rfl, hr1⟩ := ht1
      have hr1 : t1.r = t.l := hr1
      rw [absorbR_ok (show t1.r = m.r by rw [hx.rr, hr1])] at h
      simp only at h
      rw [set_append' _ _ _ _ hlen2] at h
      set t1' : Ten ℂ := ⟨t1.l, m.c, t1.d, fun i j s => ∑ k ∈ range t1.r, t1.v i k s * m.v k j⟩
      have habs : absorbR t1 m = .ok t1' := absorbR_ok (show t1.r = m.r by rw [hx.rr, hr1])
      have hl' : Linked l (A ++ C0 ++ t1' :: a :: B) r := by
        rw [linked_append]
        exact ⟨t1.l, hA, rfl, hx.l, by rw [hx.r]; exact hB⟩
      obtain ⟨C, hw, hS⟩ := ih t1' (a :: B) _ _ w hl' h
      refine ⟨C ++ [a], by rw [hw]; simp,
        ⟨by simp [hS.len], hS.left, ?_, hS.norm, ?_, ?_, ?_, ?_⟩⟩
      · have := hS.right; simpa using this
      · intro c hc'
        rcases List.mem_append.mp hc' with hc' | hc'
        · exact hS.orth c hc'
        · simp only [List.mem_singleton] at hc'; subst hc'; exact hx.orth
      · have := hS.ds
        simp only [List.map_append, List.map_cons, List.map_nil] at this ⊢
        rw [this]; simp [hx.d, t1']
      · have h2 := hS.le
        refine List.rel_append ?_
          (List.Forall₂.cons (by rw [hx.l]; exact hx.le) List.Forall₂.nil)
        have hm := (List.forall₂_map_right_iff (R := fun (c : Ten ℂ) (n : ℕ) => c.l ≤ n)
          (f := Ten.l)).mpr h2
        refine (List.forall₂_map_right_iff (R := fun (c : Ten ℂ) (n : ℕ) => c.l ≤ n)
          (f := Ten.l)).mp ?_
        simpa [t1'] using hm
      · intro sA sC sB h1 h2 h3 i hi j
        obtain ⟨sC1, sx, rfl, h2a, h2b⟩ := cfg_split h2
        obtain ⟨sC0, sx1, rfl, h2c, h2d⟩ := cfg_split h2a
        cases h2b with
        | cons hxd hnil =>
          cases hnil
          cases h2d with
          | cons hxd1 hnil =>
          cases hnil
          rename_i x x1
          have hab : Cfg (a :: B) (x :: sB) := List.Forall₂.cons (by rw [hx.d]; exact hxd) h3
          have hC1 : Cfg (C0 ++ [t1']) (sC0 ++ [x1]) :=
            cfg_append h2c (List.Forall₂.cons hxd1 List.Forall₂.nil)
          have key := hS.amp sA (sC0 ++ [x1]) (x :: sB) h1 hC1 hab i hi j
          have hAll : Linked l (A ++ C0 ++ [t1]) t.l := by
            rw [linked_append]; exact ⟨t1.l, hA, rfl, hr1⟩
          have c1 := chain_cutL hx hAll B (sA ++ sC0 ++ [x1])
            (by simp [cfg_length h1, cfg_length h2c]) hxd sB hi j
          have c2 := split_absorbR hA habs (a :: B) (sA ++ sC0)
            (by simp [cfg_length h1, cfg_length h2c]) x1 (x :: sB) hi j
          simp only [List.append_assoc, List.cons_append, List.nil_append] at *
          rw [key, c2, c1]; ring

theorem chain_zero_of_site {l r : ℕ} (A : List (Ten ℂ)) (t : Ten ℂ) (B : List (Ten ℂ))
    (hl : Linked l (A ++ t :: B) r)
    (h0 : ∀ i < t.l, ∀ j < t.r, ∀ s < t.d, t.v i j s = 0) (s : List ℕ) (hs : Cfg (A ++ t :: B) s)
    (i : ℕ) (hi : i < l) (j : ℕ) : chain (A ++ t :: B) s i j = 0 := by
  obtain ⟨sA, sB, rfl, h1, h2⟩ := cfg_split hs
  rw [linked_append] at hl
  obtain ⟨n, hA, rfl, _⟩ := hl
  rw [chain_append hA _ _ (cfg_length h1) hi]
  cases h2 with
  | cons hx hr =>
    apply sum_eq_zero; intro k hk
    simp only [chain]
    rw [sum_eq_zero, mul_zero]
    intro k' hk'
    rw [h0 k (mem_range.mp hk) k' (mem_range.mp hk') _ hx, zero_mul]

/-- The left-moving loop fails only with NaN, and only if the represented state vanishes. -/
theorem sweepL_err {cut : Ten ℂ → Res (Ten ℂ × Mat ℂ × ℝ)}
    (hcut : ∀ t a m z, cut t = .ok (a, m, z) → ExactL t a m z)
    (herr : ∀ t e, cut t = .error e →
      e = .nan ∧ ∀ i < t.l, ∀ j < t.r, ∀ s < t.d, t.v i j s = 0) {l r : ℕ} (A : List (Ten ℂ)) :
    ∀ (C0 : List (Ten ℂ)) (t : Ten ℂ) (B : List (Ten ℂ)) (m0 : Mat ℂ) (Z : ℂ)
      (e : PyErr), Linked l (A ++ C0 ++ t :: B) r →
      sweepL cut A.length (C0.length + 1) ⟨A ++ C0 ++ t :: B, m0, Z⟩ = .error e →
      e = .nan ∧ ∀ s, Cfg (A ++ C0 ++ t :: B) s → ∀ i < l, ∀ j,
        chain (A ++ C0 ++ t :: B) s i j = 0 := by
  intro C0
  induction C0 using List.reverseRecOn with
  | nil =>
    intro t B m0 Z e hl h
    simp only [List.append_nil] at h hl ⊢
    simp only [List.length_nil, Nat.add_zero, sweepL, getT_append] at h
    split at h
    · rename_i e' hc
      cases h
      obtain ⟨he, h0⟩ := herr _ _ hc
      exact ⟨he, chain_zero_of_site A t B hl h0⟩
    · simp only [gt_iff_lt, lt_irrefl, if_false] at h; cases h
  | append_singleton C0 t1 ih =>
    intro t B m0 Z er hl h
    have hl0 := hl
    simp only [List.length_append, List.length_cons, List.length_nil, Nat.zero_add] at h
    rw [sweepL] at h
    have hlen : A.length + (C0.length + 1) = (A ++ (C0 ++ [t1])).length := by simp
    simp only [getT_append' _ _ _ hlen, set_append' _ _ _ _ hlen] at h
    split at h
    · rename_i e' hc
      cases h
      obtain ⟨he, h0⟩ := herr _ _ hc
      exact ⟨he, chain_zero_of_site _ t B hl h0⟩
    · rename_i a m z hc
      have hlt : A.length + (C0.length + 1) > A.length := by omega
      rw [if_pos hlt] at h
      have hx := hcut _ _ _ _ hc
      rw [linked_append] at hl
      obtain ⟨n, hA, ht⟩ := hl
      obtain ⟨rfl, hB⟩ := ht
      have e2 : A ++ (C0 ++ [t1]) ++ a :: B = (A ++ C0) ++ t1 :: (a :: B) := by simp
      have hlen2 : A.length + (C0.length + 1) - 1 = (A ++ C0).length := by
        simp
      rw [e2, getT_append' _ _ _ hlen2] at h
      simp only at h
      rw [show A ++ (C0 ++ [t1]) = (A ++ C0) ++ [t1] by simp, linked_append] at hA
      obtain ⟨n, hA, ht1⟩ := hA
      obtain ⟨rfl, hr1⟩ := ht1
      have hr1 : t1.r = t.l := hr1
      rw [absorbR_ok (show t1.r = m.r by rw [hx.rr, hr1])] at h
      simp only at h
      rw [set_append' _ _ _ _ hlen2] at h
      set t1' : Ten ℂ := ⟨t1.l, m.c, t1.d, fun i j s => ∑ k ∈ range t1.r, t1.v i k s * m.v k j⟩
      have habs : absorbR t1 m = .ok t1' := absorbR_ok (show t1.r = m.r by rw [hx.rr, hr1])
      have hl' : Linked l (A ++ C0 ++ t1' :: a :: B) r := by
        rw [linked_append]
        exact ⟨t1.l, hA, rfl, hx.l, by rw [hx.r]; exact hB⟩
      obtain ⟨he, h0⟩ := ih t1' (a :: B) _ _ er hl' h
      refine ⟨he, ?_⟩
      intro s hs i hi j
      obtain ⟨sAC, sx, rfl, h2a, h2b⟩ := cfg_split hs
      rw [show A ++ (C0 ++ [t1]) = (A ++ C0) ++ [t1] by simp] at h2a
      obtain ⟨sC0, sx1, rfl, h2c, h2d⟩ := cfg_split h2a
      cases h2b with
      | cons hxd h3 =>
        cases h2d with
        | cons hxd1 hnil =>
        cases hnil
        rename_i x sB x1
        have hab : Cfg (a :: B) (x :: sB) := List.Forall₂.cons (by rw [hx.d]; exact hxd) h3
        have hC1 : Cfg (A ++ C0 ++ t1' :: a :: B) (sC0 ++ x1 :: x :: sB) :=
          cfg_append h2c (List.Forall₂.cons hxd1 hab)
        have hAll : Linked l (A ++ C0 ++ [t1]) t.l := by
          rw [linked_append]; exact ⟨t1.l, hA, rfl, hr1⟩
        have c1 := chain_cutL hx hAll B (sC0 ++ [x1])
          (by simp [cfg_length h2c, Nat.add_assoc]) hxd sB hi j
        have c2 := split_absorbR hA habs (a :: B) sC0
          (cfg_length h2c) x1 (x :: sB) hi j
        have := h0 _ hC1 i hi j
        simp only [List.append_assoc, List.cons_append, List.nil_append] at *
        rw [c1, ← c2, this, mul_zero]

end

end PyTeN
