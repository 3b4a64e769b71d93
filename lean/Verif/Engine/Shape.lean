import Verif.Engine.Sim

/-! # Shapes under moves of the centre: chains with admissible bonds keep their shapes -/

namespace PyTeN
open Finset

noncomputable section

/-- Shape of a tensor. -/
def Ten.shape (t : Ten ℂ) : ℕ × ℕ × ℕ := (t.l, t.r, t.d)

/-- Spec: no bond of the tensor exceeds what the other legs allow. -/
def Ten.Adm (t : Ten ℂ) : Prop := t.r ≤ t.d * t.l ∧ t.l ≤ t.d * t.r

theorem adm_of_shape {t t' : Ten ℂ} (h : t'.shape = t.shape) (ha : t.Adm) : t'.Adm := by
  simp only [Ten.shape, Prod.mk.injEq] at h
  unfold Ten.Adm at *
  rw [h.1, h.2.1, h.2.2]; exact ha

theorem cutR_shape {O : LinAlg} (hO : O.Spec) {sth : ℝ} (hs : sth < 1e-15) {t a : Ten ℂ} {m : Mat ℂ} {z : ℝ}
    (h : cutR O sth none t = .ok (a, m, z)) (ha : t.Adm) :
    a.shape = t.shape ∧ m.r = t.r ∧ m.c = t.r := by
  have hx := cutR_exact hO hs t a m z h
  have hr : m.r = t.r := by
    unfold cutR at h
    rw [if_pos ⟨hs, rfl⟩] at h
    simp only [prepareTensor] at h
    have hq := (hO.qr t.rowMat).fix .none
    simp only [prepareTensorR] at h
    rw [if_neg (by norm_num), if_pos (by norm_num)] at h
    split_ifs at h
    simp only [Except.ok.injEq, Prod.mk.injEq] at h
    rw [← h.2.1]
    simp only [Mat.divR]
    rw [hq.r_r]
    simp only [Ten.rowMat]
    exact min_eq_right ha.1
  refine ⟨?_, hr, hx.c⟩
  simp only [Ten.shape, hx.l, hx.d, hx.r, hr]

theorem cutL_shape {O : LinAlg} (hO : O.Spec) {sth : ℝ} (hs : sth < 1e-15) {t a : Ten ℂ} {m : Mat ℂ} {z : ℝ}
    (h : cutL O sth none t = .ok (a, m, z)) (ha : t.Adm) :
    a.shape = t.shape ∧ m.r = t.l ∧ m.c = t.l := by
  have hx := cutL_exact hO hs t a m z h
  have hr : m.c = t.l := by
    unfold cutL at h
    rw [if_pos ⟨hs, rfl⟩] at h
    simp only [prepareTensor] at h
    have hq := (hO.qr t.colMatH).fix .none
    simp only [prepareTensorL] at h
    rw [if_neg (by norm_num), if_neg (by norm_num)] at h
    split_ifs at h
    simp only [Except.ok.injEq, Prod.mk.injEq] at h
    rw [← h.2.1]
    simp only [Mat.divR]
    rw [hq.r_r]
    simp only [Ten.colMatH]
    exact min_eq_right ha.2
  refine ⟨?_, hx.rr, hr⟩
  simp only [Ten.shape, hx.l, hx.d, hx.r, hr]

theorem map_shape_set {ts : List (Ten ℂ)} {n : ℕ} {t a : Ten ℂ} (h : ts[n]? = some t) (hs : a.shape = t.shape) :
    (ts.set n a).map Ten.shape = ts.map Ten.shape := by
  rw [List.map_set, hs]
  apply List.ext_getElem?
  intro k
  rw [List.getElem?_set]
  split_ifs with h1 h2
  · subst h1; rw [List.getElem?_map, h]; rfl
  · subst h1
    rw [List.length_map] at h2
    rw [List.getElem?_eq_none (by simpa using h2)]
  · rfl

theorem adm_shape {ts ts' : List (Ten ℂ)} (h : ts'.map Ten.shape = ts.map Ten.shape) (ha : ∀ t ∈ ts, t.Adm) :
    ∀ t ∈ ts', t.Adm := by
  intro t ht
  have : t.shape ∈ ts.map Ten.shape := by rw [← h]; exact List.mem_map.mpr ⟨t, ht, rfl⟩
  obtain ⟨t0, h0, h1⟩ := List.mem_map.mp this
  exact adm_of_shape h1.symm (ha t0 h0)

theorem absorbL_shape {m : Mat ℂ} {t t' : Ten ℂ} (h : absorbL m t = .ok t') (hsq : m.r = m.c) :
    t'.shape = t.shape := by
  obtain ⟨h1, rfl⟩ := absorbL_eq h
  simp [Ten.shape, hsq, h1]

theorem absorbR_shape {m : Mat ℂ} {t t' : Ten ℂ} (h : absorbR t m = .ok t') (hsq : m.r = m.c) :
    t'.shape = t.shape := by
  obtain ⟨h1, rfl⟩ := absorbR_eq h
  simp [Ten.shape, ← hsq, h1]

theorem sweepR_shape {O : LinAlg} (hO : O.Spec) {sth : ℝ} (hs : sth < 1e-15) {bond : ℕ} : ∀ (k n : ℕ) (w w' : Sweep),
    sweepR (cutR O sth none) bond k n w = .ok w' → (∀ t ∈ w.ts, t.Adm) →
    w'.ts.map Ten.shape = w.ts.map Ten.shape ∧ (k = 0 → w' = w) ∧ (0 < k → w'.mat.r = w'.mat.c) := by
  intro k
  induction k with
  | zero =>
    intro n w w' h _
    simp only [sweepR, Except.ok.injEq] at h
    subst h
    exact ⟨rfl, fun _ => rfl, fun h => absurd h (by omega)⟩
  | succ k ih =>
    intro n w w' h ha
    simp only [sweepR] at h
    split at h
    · cases h
    rename_i t ht
    split at h
    · cases h
    rename_i a m z hc
    have ht := getT_ok ht
    obtain ⟨c1, c2, c3⟩ := cutR_shape hO hs hc (ha t (List.mem_of_getElem? ht))
    have e1 := map_shape_set ht c1
    refine ⟨?_, fun h => absurd h (by omega), fun _ => ?_⟩
    · split_ifs at h with hb
      · split at h
        · cases h
        rename_i t1 ht1
        split at h
        · cases h
        rename_i t1' hab
        have e2 := map_shape_set (getT_ok ht1) (absorbL_shape hab (by rw [c2, c3]))
        have := (ih _ _ _ h (adm_shape (e2.trans e1) ha)).1
        rw [this]; exact e2.trans e1
      · have := (ih _ _ _ h (adm_shape e1 ha)).1
        rw [this]; exact e1
    · split_ifs at h with hb
      · split at h
        · cases h
        rename_i t1 ht1
        split at h
        · cases h
        rename_i t1' hab
        have e2 := map_shape_set (getT_ok ht1) (absorbL_shape hab (by rw [c2, c3]))
        obtain ⟨-, i2, i3⟩ := ih _ _ _ h (adm_shape (e2.trans e1) ha)
        rcases Nat.eq_zero_or_pos k with hk | hk
        · rw [i2 hk]; simp only [c2, c3]
        · exact i3 hk
      · obtain ⟨-, i2, i3⟩ := ih _ _ _ h (adm_shape e1 ha)
        rcases Nat.eq_zero_or_pos k with hk | hk
        · rw [i2 hk]; simp only [c2, c3]
        · exact i3 hk

theorem sweepL_shape {O : LinAlg} (hO : O.Spec) {sth : ℝ} (hs : sth < 1e-15) {bond : ℕ} : ∀ (k : ℕ) (w w' : Sweep),
    sweepL (cutL O sth none) bond k w = .ok w' → (∀ t ∈ w.ts, t.Adm) →
    w'.ts.map Ten.shape = w.ts.map Ten.shape ∧ (k = 0 → w' = w) ∧ (0 < k → w'.mat.r = w'.mat.c) := by
  intro k
  induction k with
  | zero =>
    intro w w' h _
    simp only [sweepL, Except.ok.injEq] at h
    subst h
    exact ⟨rfl, fun _ => rfl, fun h => absurd h (by omega)⟩
  | succ k ih =>
    intro w w' h ha
    simp only [sweepL] at h
    split at h
    · cases h
    rename_i t ht
    split at h
    · cases h
    rename_i a m z hc
    have ht := getT_ok ht
    obtain ⟨c1, c2, c3⟩ := cutL_shape hO hs hc (ha t (List.mem_of_getElem? ht))
    have e1 := map_shape_set ht c1
    refine ⟨?_, fun h => absurd h (by omega), fun _ => ?_⟩
    · split_ifs at h with hb
      · split at h
        · cases h
        rename_i t1 ht1
        split at h
        · cases h
        rename_i t1' hab
        have e2 := map_shape_set (getT_ok ht1) (absorbR_shape hab (by rw [c2, c3]))
        have := (ih _ _ h (adm_shape (e2.trans e1) ha)).1
        rw [this]; exact e2.trans e1
      · have := (ih _ _ h (adm_shape e1 ha)).1
        rw [this]; exact e1
    · split_ifs at h with hb
      · split at h
        · cases h
        rename_i t1 ht1
        split at h
        · cases h
        rename_i t1' hab
        have e2 := map_shape_set (getT_ok ht1) (absorbR_shape hab (by rw [c2, c3]))
        obtain ⟨-, i2, i3⟩ := ih _ _ h (adm_shape (e2.trans e1) ha)
        rcases Nat.eq_zero_or_pos k with hk | hk
        · rw [i2 hk]; simp only [c2, c3]
        · exact i3 hk
      · obtain ⟨-, i2, i3⟩ := ih _ _ h (adm_shape e1 ha)
        rcases Nat.eq_zero_or_pos k with hk | hk
        · rw [i2 hk]; simp only [c2, c3]
        · exact i3 hk

/-- Moving the centre of a chain with admissible bonds and square centre matrix changes no shape. -/
theorem position_shape {O : LinAlg} (hO : O.Spec) {m m' : MPS} {b : ℤ} (hs : m.sth < 1e-15)
    (h : m.position O b = .ok m') (ha : ∀ t ∈ m.tensors, t.Adm) (hsq : m.mat.r = m.mat.c) :
    m'.tensors.map Ten.shape = m.tensors.map Ten.shape ∧ m'.mat.r = m'.mat.c := by
  unfold MPS.position at h
  have hs' := effSth_default hs
  split_ifs at h with h1
  simp only at h
  split_ifs at h with h2 h3
  · simp only [Except.ok.injEq] at h; subst h; exact ⟨rfl, hsq⟩
  · split at h
    · cases h
    rename_i t ht
    split at h
    · cases h
    rename_i t' hab
    split at h
    · cases h
    rename_i w hw
    simp only [Except.ok.injEq] at h
    subst h
    have e1 := map_shape_set (getT_ok ht) (absorbL_shape hab hsq)
    obtain ⟨i1, -, i3⟩ := sweepR_shape hO hs' _ _ _ _ hw (adm_shape e1 ha)
    exact ⟨i1.trans e1, i3 (by omega)⟩
  · split at h
    · cases h
    rename_i t ht
    split at h
    · cases h
    rename_i t' hab
    split at h
    · cases h
    rename_i w hw
    simp only [Except.ok.injEq] at h
    subst h
    have e1 := map_shape_set (getT_ok ht) (absorbR_shape hab hsq)
    obtain ⟨i1, -, i3⟩ := sweepL_shape hO hs' _ _ _ hw (adm_shape e1 ha)
    exact ⟨i1.trans e1, i3 (by omega)⟩

end

end PyTeN
