import Verif.Engine.Shape
import Mathlib.LinearAlgebra.Matrix.Rank

/-! # Bond dimensions under moves of the centre, without assumptions on the shapes -/

namespace PyTeN
open Finset

noncomputable section

variable {O : LinAlg}

theorem cutR_dims (hO : O.Spec) {sth : ℝ} (hs : sth < 1e-15) {t a : Ten ℂ} {m : Mat ℂ} {z : ℝ}
    (h : cutR O sth none t = .ok (a, m, z)) : a.d = t.d ∧ a.l = t.l ∧ a.r = min t.r (t.d * t.l) := by
  have hx := cutR_exact hO hs t a m z h
  have hr : m.r = min t.r (t.d * t.l) := by
    unfold cutR at h
    rw [if_pos ⟨hs, rfl⟩] at h
    simp only [prepareTensor] at h
    have hq := (hO.qr t.rowMat).fix .none
    simp only [prepareTensorR] at h
    rw [if_neg (by norm_num), if_pos (by norm_num)] at h
    split_ifs at h
    simp only [Except.ok.injEq, Prod.mk.injEq] at h
    rw [← h.2.1]
    simp only [Mat.divR]
    rw [hq.r_r]
    simp only [Ten.rowMat]
    rw [min_comm]
  exact ⟨hx.d, hx.l, hx.r.trans hr⟩

theorem cutL_dims (hO : O.Spec) {sth : ℝ} (hs : sth < 1e-15) {t a : Ten ℂ} {m : Mat ℂ} {z : ℝ}
    (h : cutL O sth none t = .ok (a, m, z)) : a.d = t.d ∧ a.r = t.r ∧ a.l = min t.l (t.d * t.r) := by
  have hx := cutL_exact hO hs t a m z h
  have hr : m.c = min t.l (t.d * t.r) := by
    unfold cutL at h
    rw [if_pos ⟨hs, rfl⟩] at h
    simp only [prepareTensor] at h
    have hq := (hO.qr t.colMatH).fix .none
    simp only [prepareTensorL] at h
    rw [if_neg (by norm_num), if_neg (by norm_num)] at h
    split_ifs at h
    simp only [Except.ok.injEq, Prod.mk.injEq] at h
    rw [← h.2.1]
    simp only [Mat.divR]
    rw [hq.r_r]
    simp only [Ten.colMatH]
    rw [min_comm]
  exact ⟨hx.d, hx.r, hx.l.trans hr⟩

theorem sweepR_dims (hO : O.Spec) {sth : ℝ} (hs : sth < 1e-15) {bond : ℕ} : ∀ (k n : ℕ) (w w' : Sweep),
    sweepR (cutR O sth none) bond k n w = .ok w' → n + k = bond →
    (∀ x, x < n → w'.ts[x]? = w.ts[x]?) ∧
    ∀ x t', w'.ts[x]? = some t' → n ≤ x → x < bond → ∃ t, w.ts[x]? = some t ∧ t'.r = min t.r (t'.d * t'.l) := by
  intro k
  induction k with
  | zero =>
    intro n w w' h hb
    simp only [sweepR, Except.ok.injEq] at h
    subst h
    exact ⟨fun _ _ => rfl, fun x t' _ h1 h2 => by omega⟩
  | succ k ih =>
    intro n w w' h hb
    simp only [sweepR] at h
    split at h
    · cases h
    rename_i t ht
    split at h
    · cases h
    rename_i a m z hc
    have ht := getT_ok ht
    obtain ⟨c1, c2, c3⟩ := cutR_dims hO hs hc
    have hn : n < w.ts.length := by
      by_contra hcon
      rw [List.getElem?_eq_none (by omega)] at ht; cases ht
    split_ifs at h with hb1
    · split at h
      · cases h
      rename_i t1 ht1
      split at h
      · cases h
      rename_i t1' hab
      obtain ⟨i1, i2⟩ := ih _ _ _ h (by omega)
      have ht1 := getT_ok ht1
      obtain ⟨-, rfl⟩ := absorbL_eq hab
      refine ⟨fun x hx => ?_, fun x t' h' h1 h2 => ?_⟩
      · rw [i1 x (by omega)]
        simp only
        rw [List.getElem?_set_ne (by omega), List.getElem?_set_ne (by omega)]
      · rcases Nat.eq_or_lt_of_le h1 with rfl | h1
        · rw [i1 n (by omega)] at h'
          simp only at h'
          rw [List.getElem?_set_ne (by omega), List.getElem?_set_self hn, Option.some.injEq] at h'
          subst h'
          exact ⟨t, ht, by rw [c1, c2, c3]⟩
        · obtain ⟨t2, g1, g2⟩ := i2 x t' h' (by omega) h2
          simp only at g1
          rw [List.getElem?_set_ne (by omega)] at ht1
          rcases Nat.eq_or_lt_of_le h1 with rfl | h1
          · have hn1 : n.succ < w.ts.length := by
              by_contra hcon
              rw [List.getElem?_eq_none (by omega)] at ht1; cases ht1
            rw [List.getElem?_set_self (by simpa using hn1), Option.some.injEq] at g1
            subst g1
            exact ⟨t1, ht1, g2⟩
          · rw [List.getElem?_set_ne (by omega), List.getElem?_set_ne (by omega)] at g1
            exact ⟨t2, g1, g2⟩
    · have hk : k = 0 := by omega
      subst hk
      simp only [sweepR, Except.ok.injEq] at h
      subst h
      refine ⟨fun x hx => ?_, fun x t' h' h1 h2 => ?_⟩
      · simp only
        rw [List.getElem?_set_ne (by omega)]
      · obtain rfl : x = n := by omega
        simp only at h'
        rw [List.getElem?_set_self hn, Option.some.injEq] at h'
        subst h'
        exact ⟨t, ht, by rw [c1, c2, c3]⟩

theorem sweepL_dims (hO : O.Spec) {sth : ℝ} (hs : sth < 1e-15) {bond : ℕ} : ∀ (k : ℕ) (w w' : Sweep),
    sweepL (cutL O sth none) bond k w = .ok w' →
    (∀ x, bond + k ≤ x → w'.ts[x]? = w.ts[x]?) ∧
    ∀ x t', w'.ts[x]? = some t' → bond ≤ x → x < bond + k → ∃ t, w.ts[x]? = some t ∧ t'.l = min t.l (t'.d * t'.r) := by
  intro k
  induction k with
  | zero =>
    intro w w' h
    simp only [sweepL, Except.ok.injEq] at h
    subst h
    exact ⟨fun _ _ => rfl, fun x t' _ h1 h2 => by omega⟩
  | succ k ih =>
    intro w w' h
    simp only [sweepL] at h
    split at h
    · cases h
    rename_i t ht
    split at h
    · cases h
    rename_i a m z hc
    have ht := getT_ok ht
    obtain ⟨c1, c2, c3⟩ := cutL_dims hO hs hc
    have hn : bond + k < w.ts.length := by
      by_contra hcon
      rw [List.getElem?_eq_none (by omega)] at ht; cases ht
    split_ifs at h with hb1
    · split at h
      · cases h
      rename_i t1 ht1
      split at h
      · cases h
      rename_i t1' hab
      obtain ⟨i1, i2⟩ := ih _ _ h
      have ht1 := getT_ok ht1
      obtain ⟨-, rfl⟩ := absorbR_eq hab
      refine ⟨fun x hx => ?_, fun x t' h' h1 h2 => ?_⟩
      · rw [i1 x (by omega)]
        simp only
        rw [List.getElem?_set_ne (by omega), List.getElem?_set_ne (by omega)]
      · rcases Nat.eq_or_lt_of_le (show x ≤ bond + k by omega) with rfl | h2
        · rw [i1 _ le_rfl] at h'
          simp only at h'
          rw [List.getElem?_set_ne (by omega), List.getElem?_set_self hn, Option.some.injEq] at h'
          subst h'
          exact ⟨t, ht, by rw [c1, c2, c3]⟩
        · obtain ⟨t2, g1, g2⟩ := i2 x t' h' h1 h2
          simp only at g1
          rw [List.getElem?_set_ne (by omega)] at ht1
          by_cases hx : x = bond + k - 1
          · subst hx
            rw [List.getElem?_set_self (by rw [List.length_set]; omega), Option.some.injEq] at g1
            subst g1
            exact ⟨t1, ht1, g2⟩
          · rw [List.getElem?_set_ne (by omega), List.getElem?_set_ne (by omega)] at g1
            exact ⟨t2, g1, g2⟩
    · have hk : k = 0 := by omega
      subst hk
      simp only [sweepL, Except.ok.injEq] at h
      subst h
      refine ⟨fun x hx => ?_, fun x t' h' h1 h2 => ?_⟩
      · simp only
        rw [List.getElem?_set_ne (by omega)]
      · obtain rfl : x = bond := by omega
        rw [Nat.add_zero] at h' hn ht
        simp only at h'
        rw [List.getElem?_set_self hn, Option.some.injEq] at h'
        subst h'
        exact ⟨t, ht, by rw [c1, c2, c3]⟩

/-- Moving the centre to the right: every bond passed gets the largest dimension possible. -/
theorem position_dimsR (hO : O.Spec) {m m' : MPS} {b : ℕ} (hs : m.sth < 1e-15) (h : m.position O b = .ok m') {x : ℕ} {t' : Ten ℂ}
    (hx : m'.tensors[x]? = some t') (h1 : m.pos ≤ x) (h2 : x < b) : ∃ t, m.tensors[x]? = some t ∧ t'.r = min t.r (t'.d * t'.l) := by
  unfold MPS.position at h
  have hs' := effSth_default hs
  split_ifs at h with q1
  simp only at h
  split_ifs at h with q2 q3
  · omega
  · split at h
    · cases h
    rename_i t ht
    split at h
    · cases h
    rename_i t1 hab
    split at h
    · cases h
    rename_i w hw
    simp only [Except.ok.injEq] at h
    subst h
    obtain ⟨-, rfl⟩ := absorbL_eq hab
    have ht := getT_ok ht
    obtain ⟨t2, g1, g2⟩ := (sweepR_dims hO hs' _ _ _ _ hw (by omega)).2 x t' hx h1 (by omega)
    simp only at g1
    by_cases hxp : x = m.pos
    · subst hxp
      rw [List.getElem?_set_self (by by_contra hcon; rw [List.getElem?_eq_none (by omega)] at ht; cases ht), Option.some.injEq] at g1
      subst g1
      exact ⟨t, ht, g2⟩
    · rw [List.getElem?_set_ne (by omega)] at g1
      exact ⟨t2, g1, g2⟩
  · omega

/-- Moving the centre to the left. -/
theorem position_dimsL (hO : O.Spec) {m m' : MPS} {b : ℕ} (hs : m.sth < 1e-15) (h : m.position O b = .ok m') {x : ℕ} {t' : Ten ℂ}
    (hx : m'.tensors[x]? = some t') (h1 : b ≤ x) (h2 : x < m.pos) : ∃ t, m.tensors[x]? = some t ∧ t'.l = min t.l (t'.d * t'.r) := by
  unfold MPS.position at h
  have hs' := effSth_default hs
  split_ifs at h with q1
  simp only at h
  split_ifs at h with q2 q3
  · omega
  · omega
  · split at h
    · cases h
    rename_i t ht
    split at h
    · cases h
    rename_i t1 hab
    split at h
    · cases h
    rename_i w hw
    simp only [Except.ok.injEq] at h
    subst h
    obtain ⟨-, rfl⟩ := absorbR_eq hab
    have ht := getT_ok ht
    obtain ⟨t2, g1, g2⟩ := (sweepL_dims hO hs' _ _ _ hw).2 x t' hx (by omega) (by omega)
    simp only at g1
    by_cases hxp : x = m.pos - 1
    · subst hxp
      rw [List.getElem?_set_self (by by_contra hcon; rw [List.getElem?_eq_none (by omega)] at ht; cases ht), Option.some.injEq] at g1
      subst g1
      exact ⟨t, ht, g2⟩
    · rw [List.getElem?_set_ne (by omega)] at g1
      exact ⟨t2, g1, g2⟩

/-- The bonds of a chain. -/
theorem linked_seq {l r : ℕ} {ts : List (Ten ℂ)} (h : Linked l ts r) :
    ∃ β : ℕ → ℕ, β 0 = l ∧ β ts.length = r ∧ ∀ x t, ts[x]? = some t → t.l = β x ∧ t.r = β (x + 1) := by
  induction ts generalizing l with
  | nil =>
    have : l = r := h
    exact ⟨fun _ => l, rfl, this, fun x t h => by simp at h⟩
  | cons a ts ih =>
    obtain ⟨β, b1, b2, b3⟩ := ih h.2
    refine ⟨fun x => if x = 0 then l else β (x - 1), by simp, by simp [b2], fun x t hx => ?_⟩
    cases x with
    | zero =>
      simp only [List.getElem?_cons_zero, Option.some.injEq] at hx
      subst hx
      simp [b1, h.1]
    | succ x =>
      simp only [List.getElem?_cons_succ] at hx
      simpa using b3 x t hx

/-- A right-orthonormal tensor has at least as many columns as rows. -/
theorem rightOrth_le {t : Ten ℂ} (h : RightOrth t) : t.l ≤ t.d * t.r := by
  let X : Matrix (Fin t.l) (Fin t.d × Fin t.r) ℂ := fun i p => t.v i p.2 p.1
  let Y : Matrix (Fin t.d × Fin t.r) (Fin t.l) ℂ := fun p i => star (t.v i p.2 p.1)
  have hXY : X * Y = 1 := by
    ext i i'
    rw [Matrix.mul_apply, Fintype.sum_prod_type, Matrix.one_apply]
    have := h i i.2 i' i'.2
    rw [Finset.sum_range] at this
    simp only [Finset.sum_range] at this
    simp only [X, Y]
    rw [this, delta]
    simp only [Fin.ext_iff]
  have h8 := Matrix.rank_mul_le_left X Y
  rw [hXY, Matrix.rank_one] at h8
  have h9 := h8.trans (Matrix.rank_le_card_width X)
  simpa using h9

end

end PyTeN
