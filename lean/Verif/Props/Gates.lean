import Verif.Mps.Gates2

/-! # Properties of gates and truncation (C21–C24, C59) -/

namespace PyTeN
open Finset

noncomputable section

/-! ## C21 -/

/-- **C21** (`preserve_position=True`).  The gate acts on the requested site, on every configuration
of the new local dimensions; position `site+1`; the other sites keep their local dimension. -/
theorem C21_applyOneSiteGate {O : LinAlg} (hO : O.Spec) {m p : MPS} {l r n : ℕ} {g : Mat ℂ}
    (hw : m.WF l r) (hs : m.sth < 1e-15) (hn : n < m.N)
    (h : m.applyOneSiteGate O g n true = .ok p) :
    p.WF l r ∧ p.pos = n + 1 ∧ p.N = m.N ∧ p.ds = m.ds.set n g.c ∧ m.ds[n]? = some g.r ∧
      (m.Canonical → p.Canonical) ∧
      ∀ s, Cfg p.tensors s → ∀ i < l, ∀ j,
        p.amp s i j = act1 n g.r g.v (fun s => m.amp s i j) s := by
  unfold MPS.applyOneSiteGate at h
  rw [if_neg (by simpa using hn), if_pos rfl] at h
  split at h
  · cases h
  rename_i m1 h1
  obtain ⟨-, -, hM, hcan⟩ := position_one hO hs hw h1
  rw [show ((n : ℤ) + 1).toNat = n + 1 by omega] at hM
  have hlen1 : m1.tensors.length = m.N := by rw [hM.wf.len, hM.N]
  obtain ⟨A, t, B, hts, hA⟩ := split_at m1.tensors (n := n) (by omega)
  obtain ⟨t', hab, hten, hLA, hr, hRB⟩ := tensor_left hM.wf hM.pos hts hA true
  rw [hten] at h
  simp only [if_true] at h
  split at h
  · cases h
  rename_i t2 hg
  split at h
  · cases h
  rename_i a mat z hp
  rw [setZ_nat (by simp only [hts]; simp; omega)] at h
  simp only [Except.ok.injEq] at h
  have hE : ExactR t2 a mat z := by
    simp only [prepareTensor] at hp
    exact prepareTensorR_spec hO hp
  obtain ⟨hgd, hg2⟩ := gate1_eq hg
  obtain ⟨-, ht'⟩ := absorbR_eq hab
  have ht'd : t'.d = t.d := by rw [ht']
  have ht'l : t'.l = t.l := by rw [ht']
  have ht2l : t2.l = t.l := by rw [hg2]; exact ht'l
  have ht2r : t2.r = m1.mat.c := by rw [hg2, ht']
  have hset : m1.tensors.set n a = A ++ a :: B := by
    rw [hts]; exact set_append' A t a B hA.symm
  rw [hset] at h
  subst h
  have hal : a.l = t.l := hE.l.trans ht2l
  have htake : ∀ u : Ten ℂ, (A ++ u :: B).take (n + 1) = A ++ [u] := by
    intro u; rw [show A ++ u :: B = (A ++ [u]) ++ B by simp, ← hA,
      show A.length + 1 = (A ++ [u]).length by simp, List.take_left]
  have hdrop : ∀ u : Ten ℂ, (A ++ u :: B).drop (n + 1) = B := by
    intro u; rw [show A ++ u :: B = (A ++ [u]) ++ B by simp, ← hA,
      show A.length + 1 = (A ++ [u]).length by simp, List.drop_left]
  have hds1 : m.ds = (A ++ t :: B).map Ten.d := by rw [← hM.ds]; unfold MPS.ds; rw [hts]
  have hg2d : t2.d = g.c := by rw [hg2]
  refine ⟨⟨?_, ?_, ?_, ?_⟩, hM.pos, hM.N, ?_, ?_, ?_, ?_⟩
  · simp only [hM.N, ← hlen1, hts]; simp
  · exact hM.wf.pos_le
  · simp only [hM.pos, htake]
    rw [linked_append]
    exact ⟨t.l, hLA, hal, hE.r⟩
  · simp only [hM.pos, hdrop, hE.c, ht2r]; exact hRB
  · rw [hds1]; unfold MPS.ds; simp only [List.map_append, List.map_cons, hE.d, hg2d]
    rw [List.set_append_right _ _ (by simp [hA])]; simp [hA]
  · rw [hds1, ← hgd, ht'd]; simp [hA]
  · intro hc
    have hc1 := hcan hc
    refine ⟨?_, ?_, hE.norm⟩
    · intro x u hx hxp
      simp only [hM.pos] at hxp hx
      rcases Nat.lt_succ_iff_lt_or_eq.mp hxp with h2 | h2
      · apply hc1.left x u _ (by rw [hM.pos]; omega)
        rw [hts, List.getElem?_append_left (by omega)]
        rw [List.getElem?_append_left (by omega)] at hx; exact hx
      · subst h2
        have hax : a = u := by simpa [hA] using hx
        rw [← hax]; exact hE.orth
    · intro x u hx hxp
      simp only [hM.pos] at hxp hx
      apply hc1.right x u _ (by rw [hM.pos]; omega)
      rw [hts]
      rw [List.getElem?_append_right (by omega)] at hx ⊢
      obtain ⟨q, hq⟩ : ∃ q, x - A.length = q + 1 := ⟨x - A.length - 1, by omega⟩
      rw [hq] at hx ⊢
      simpa using hx
  · intro s hcfg i hi j
    obtain ⟨sA, y, sB, rfl, hlA, hcA, hy, hcB⟩ := cfg_split_at hcfg
    rw [act1_append (by omega), amp_eq_split]
    simp only [hM.pos, htake, hdrop]
    have e1 : (sA ++ y :: sB).take (n + 1) = sA ++ [y] := by
      rw [show sA ++ y :: sB = (sA ++ [y]) ++ sB by simp,
        show n + 1 = (sA ++ [y]).length by simp; omega, List.take_left]
    have e2 : (sA ++ y :: sB).drop (n + 1) = sB := by
      rw [show sA ++ y :: sB = (sA ++ [y]) ++ sB by simp,
        show n + 1 = (sA ++ [y]).length by simp; omega, List.drop_left]
    rw [e1, e2, mul_assoc]
    rw [← chain_cutR hE (by rw [ht2l]; exact hLA) B sA hlA (by rw [← hE.d]; exact hy) sB hi j]
    rw [chain_gate1 hg A B sA hlA, mul_sum, hgd]
    apply sum_congr rfl; intro x hx
    have hxd : x < t.d := by rw [← ht'd, hgd]; exact mem_range.mp hx
    rw [split_absorbR hLA hab B sA hlA x sB hi j]
    have hcm : Cfg m1.tensors (sA ++ x :: sB) := by rw [hts]; exact cfg_join hcA hxd hcB
    have hcm' : Cfg m.tensors (sA ++ x :: sB) := cfg_of_ds hM.ds.symm hcm
    have e1 : (sA ++ x :: sB).take (n + 1) = sA ++ [x] := by
      rw [show sA ++ x :: sB = (sA ++ [x]) ++ sB by simp,
        show n + 1 = (sA ++ [x]).length by simp; omega, List.take_left]
    have e2 : (sA ++ x :: sB).drop (n + 1) = sB := by
      rw [show sA ++ x :: sB = (sA ++ [x]) ++ sB by simp,
        show n + 1 = (sA ++ [x]).length by simp; omega, List.drop_left]
    rw [← hM.amp _ hcm' i hi j, amp_eq_split, hM.pos, hts, htake, hdrop, e1, e2]
    ring

/-- **C21.** The call succeeds whenever the gated state does not vanish. -/
theorem C21_applyOneSiteGate_succeeds {O : LinAlg} (hO : O.Spec) {m : MPS} {l r n : ℕ} {g : Mat ℂ}
    (hw : m.WF l r) (hs : m.sth < 1e-15) (hn : n < m.N) (hd : m.ds[n]? = some g.r)
    {s : List ℕ} {i j : ℕ} (hc : List.Forall₂ (fun d x => x < d) (m.ds.set n g.c) s) (hi : i < l)
    (hne : act1 n g.r g.v (fun s => m.amp s i j) s ≠ 0) :
    ∃ p, m.applyOneSiteGate O g n true = .ok p := by
  obtain ⟨A0, t0, B0, hts0, hA0⟩ := split_at m.tensors (n := n) (by rw [hw.len]; exact hn)
  have hds0 : m.ds.set n g.c = A0.map Ten.d ++ g.c :: B0.map Ten.d := by
    unfold MPS.ds; rw [hts0, List.map_append, List.map_cons,
      List.set_append_right _ _ (by simp [hA0])]; simp [hA0]
  have ht0d : t0.d = g.r := by
    have := hd; unfold MPS.ds at this; rw [hts0] at this; simpa [hA0] using this
  obtain ⟨sA, y, sB, rfl, hlA, hcA0, hy, hcB0⟩ : ∃ sA y sB, s = sA ++ y :: sB ∧ sA.length = n ∧
      Cfg A0 sA ∧ y < g.c ∧ Cfg B0 sB := by
    have e : m.ds.set n g.c = (A0 ++ (⟨0, 0, g.c, fun _ _ _ => 0⟩ : Ten ℂ) :: B0).map Ten.d := by
      rw [hds0]; simp
    rw [e] at hc
    obtain ⟨sA, x, sB, h1, h2, h3, h4, h5⟩ := cfg_split_at (cfg_iff_map.mpr hc)
    exact ⟨sA, x, sB, h1, by omega, h3, h4, h5⟩
  rw [act1_append hlA] at hne
  obtain ⟨x0, hx0, hx0ne⟩ := exists_ne_zero_of_sum_ne_zero hne
  have hcm0 : ∀ x < g.r, Cfg m.tensors (sA ++ x :: sB) := by
    intro x hx; rw [hts0]; exact cfg_join hcA0 (by omega) hcB0
  unfold MPS.applyOneSiteGate
  rw [if_neg (by simpa using hn), if_pos rfl]
  cases h1 : m.position O ((n : ℤ) + 1) with
  | error e =>
    exfalso
    have := (position_err hO (b := n + 1) (effSth_default hs) hw (by omega)
      (by push_cast; exact h1)).2 _ (hcm0 x0 (mem_range.mp hx0)) i hi j
    rw [this, zero_mul] at hx0ne; exact hx0ne rfl
  | ok m1 =>
    obtain ⟨-, -, hM, hcan⟩ := position_one hO hs hw h1
    rw [show ((n : ℤ) + 1).toNat = n + 1 by omega] at hM
    have hlen1 : m1.tensors.length = m.N := by rw [hM.wf.len, hM.N]
    obtain ⟨A, t, B, hts, hA⟩ := split_at m1.tensors (n := n) (by omega)
    obtain ⟨t', hab, hten, hLA, hr, hRB⟩ := tensor_left hM.wf hM.pos hts hA true
    obtain ⟨-, ht'⟩ := absorbR_eq hab
    have htd : t.d = g.r := by
      have := hM.ds
      have h2 : m1.ds[n]? = some g.r := by rw [this]; exact hd
      unfold MPS.ds at h2; rw [hts] at h2; simpa [hA] using h2
    have hg : t'.gate1 g = .ok ⟨t'.l, t'.r, g.c, fun i j y => ∑ x ∈ range t'.d, t'.v i j x * g.v x y⟩ := by
      unfold Ten.gate1; rw [if_pos (by rw [ht']; exact htd)]
    simp only [hten, if_true, hg]
    cases hp : prepareTensor O ⟨t'.l, t'.r, g.c, fun i j y => ∑ x ∈ range t'.d, t'.v i j x * g.v x y⟩ 1 with
    | ok r =>
      obtain ⟨a, mat, z⟩ := r
      simp only
      rw [setZ_nat (by simp only [hts]; simp; omega)]
      exact ⟨_, rfl⟩
    | error e =>
      exfalso
      simp only [prepareTensor] at hp
      obtain ⟨-, h0⟩ := prepareTensorR_err hO hp
      apply hne
      have hch := chain_gate1 hg A B sA (by omega) y sB i j
      have hz : chain (A ++ (⟨t'.l, t'.r, g.c, fun i j y => ∑ x ∈ range t'.d, t'.v i j x * g.v x y⟩ : Ten ℂ) :: B)
          (sA ++ y :: sB) i j = 0 := by
        rw [chain_append (m := t.l) hLA _ _ (by omega) hi]
        apply sum_eq_zero; intro k hk
        simp only [chain]
        rw [sum_eq_zero, mul_zero]
        intro k' hk'
        have h3 := h0 k (by rw [ht']; exact mem_range.mp hk) k' (mem_range.mp hk') y hy
        simp only at h3
        rw [h3, zero_mul]
      rw [hz, show t'.d = g.r by rw [ht']; exact htd] at hch
      have : ∑ x ∈ range g.r, (fun s => m.amp s i j) (sA ++ x :: sB) * g.v x y
          = m1.Z * ∑ x ∈ range g.r, chain (A ++ t' :: B) (sA ++ x :: sB) i j * g.v x y := by
        rw [mul_sum]
        apply sum_congr rfl; intro x hx
        rw [split_absorbR hLA hab B sA (by omega) x sB hi j]
        simp only
        rw [← hM.amp _ (hcm0 x (mem_range.mp hx)) i hi j, amp_eq_split, hM.pos, hts]
        rw [show A ++ t :: B = (A ++ [t]) ++ B by simp,
          show sA ++ x :: sB = (sA ++ [x]) ++ sB by simp]
        rw [show (A ++ [t] ++ B).take (n + 1) = A ++ [t] by
              rw [show n + 1 = (A ++ [t]).length by simp; omega, List.take_left],
          show (A ++ [t] ++ B).drop (n + 1) = B by
              rw [show n + 1 = (A ++ [t]).length by simp; omega, List.drop_left],
          show (sA ++ [x] ++ sB).take (n + 1) = sA ++ [x] by
              rw [show n + 1 = (sA ++ [x]).length by simp; omega, List.take_left],
          show (sA ++ [x] ++ sB).drop (n + 1) = sB by
              rw [show n + 1 = (sA ++ [x]).length by simp; omega, List.drop_left]]
        ring
      rw [this, ← hch, mul_zero]

/-- Replacing one tensor by its gated version acts with the gate, wherever the centre is. -/
theorem amp_gate1 {m : MPS} {n : ℕ} {g : Mat ℂ} {A B : List (Ten ℂ)} {t t' : Ten ℂ}
    (hts : m.tensors = A ++ t :: B) (hA : A.length = n) (hg : t.gate1 g = .ok t')
    {sA sB : List ℕ} (hsA : sA.length = n) (y i j : ℕ) :
    ({ m with tensors := A ++ t' :: B } : MPS).amp (sA ++ y :: sB) i j
      = act1 n g.r g.v (fun s => m.amp s i j) (sA ++ y :: sB) := by
  rw [act1_append hsA, ← (gate1_eq hg).1]
  simp only [amp_eq_split, hts]
  by_cases hp : n < m.pos
  · obtain ⟨q, hq⟩ : ∃ q, m.pos = n + (q + 1) := ⟨m.pos - n - 1, by omega⟩
    have e : ∀ (α : Type) (X : List α) (u : α) (Y : List α), X.length = n →
        (X ++ u :: Y).take m.pos = X ++ u :: Y.take q ∧ (X ++ u :: Y).drop m.pos = Y.drop q := by
      intro α X u Y hX
      subst hX
      rw [hq]
      constructor
      · rw [List.take_length_add_append]; rfl
      · rw [List.drop_length_add_append]; rfl
    simp only [(e _ A _ B hA).1, (e _ A _ B hA).2, (e _ sA _ sB hsA).1, (e _ sA _ sB hsA).2]
    unfold split
    simp_rw [chain_gate1 hg A (B.take q) sA (by omega) y (sB.take q) i, mul_sum, sum_mul]
    symm
    rw [sum_comm]
    apply sum_congr rfl; intro k _
    rw [sum_comm]
    apply sum_congr rfl; intro k' _
    rw [mul_sum]
    apply sum_congr rfl; intro x _
    ring
  · obtain ⟨q, hq⟩ : ∃ q, n = m.pos + q := ⟨n - m.pos, by omega⟩
    have e : ∀ (α : Type) (X : List α) (Y : List α), X.length = n →
        (X ++ Y).take m.pos = X.take m.pos ∧ (X ++ Y).drop m.pos = X.drop m.pos ++ Y := by
      intro α X Y hX
      exact ⟨List.take_append_of_le_length (by omega), List.drop_append_of_le_length (by omega)⟩
    simp only [(e _ A _ hA).1, (e _ A _ hA).2, (e _ sA _ hsA).1, (e _ sA _ hsA).2]
    unfold split
    simp_rw [chain_gate1 hg (A.drop m.pos) B (sA.drop m.pos) (by simp; omega) y sB, mul_sum, sum_mul]
    symm
    rw [sum_comm]
    apply sum_congr rfl; intro k _
    rw [sum_comm]
    apply sum_congr rfl; intro k' _
    apply sum_congr rfl; intro x _
    ring

/-- **C21** (`preserve_position=False`).  The call succeeds for every index `-N ≤ site < N` (Python
convention) if the gate fits, keeps position, centre matrix and `Z`, and acts with the gate. -/
theorem C21_applyOneSiteGate_inplace (O : LinAlg) {m : MPS} {l r : ℕ} {g : Mat ℂ} {site : ℤ}
    (hw : m.WF l r) (h1 : -(m.N : ℤ) ≤ site) (h2 : site < m.N) {n : ℕ}
    (hn : (n : ℤ) = if 0 ≤ site then site else m.N + site) (hd : m.ds[n]? = some g.r) :
    ∃ p, m.applyOneSiteGate O g site false = .ok p ∧ p.WF l r ∧ p.pos = m.pos ∧ p.N = m.N ∧
      p.mat = m.mat ∧ p.Z = m.Z ∧ p.ds = m.ds.set n g.c ∧
      ∀ s, s.length = m.N → ∀ i j, p.amp s i j = act1 n g.r g.v (fun s => m.amp s i j) s := by
  have hlen := hw.len
  obtain ⟨a, ha, haL, hav⟩ := pyIdx_spec (L := m.tensors.length) (n := site) (by rw [hlen]; exact h1)
    (by rw [hlen]; exact h2)
  have han : n = a := by
    rw [hlen, ← hn] at hav
    omega
  subst han
  obtain ⟨A, t, B, hts, hA⟩ := split_at m.tensors haL
  have htd : t.d = g.r := by
    unfold MPS.ds at hd; rw [hts] at hd; simpa [hA] using hd
  have hg : t.gate1 g = .ok ⟨t.l, t.r, g.c, fun i j y => ∑ x ∈ range t.d, t.v i j x * g.v x y⟩ := by
    unfold Ten.gate1; rw [if_pos htd]
  have hgi : m.getItem site = .ok t := by
    rw [getItem_eq (by rw [hlen]; exact h1) (by rw [hlen]; exact h2) ha]
    rw [hts]; exact getT_append' A t B hA.symm
  have hset : m.tensors.set n ⟨t.l, t.r, g.c, fun i j y => ∑ x ∈ range t.d, t.v i j x * g.v x y⟩
      = A ++ ⟨t.l, t.r, g.c, fun i j y => ∑ x ∈ range t.d, t.v i j x * g.v x y⟩ :: B := by
    rw [hts]; exact set_append' A t _ B hA.symm
  refine ⟨{ m with tensors := A ++ ⟨t.l, t.r, g.c, fun i j y => ∑ x ∈ range t.d, t.v i j x * g.v x y⟩ :: B },
    ?_, ?_, rfl, rfl, rfl, rfl, ?_, ?_⟩
  · unfold MPS.applyOneSiteGate
    rw [if_neg (by simpa using h2), if_neg (by simp)]
    simp only [hgi, hg]
    unfold MPS.setItem
    rw [if_pos ⟨by rw [hlen]; exact h2, abs_le.mpr ⟨by rw [hlen]; exact h1, by rw [hlen]; exact h2.le⟩⟩, ha]
    simp only [hset]
  · have key : ∀ (ts : List (Ten ℂ)) (L R x : ℕ) (u u' : Ten ℂ), u'.l = u.l → u'.r = u.r →
        ts[x]? = some u → Linked L ts R → Linked L (ts.set x u') R := by
      intro ts
      induction ts with
      | nil => intro L R x u u' _ _ h; simp at h
      | cons c ts ih =>
        intro L R x u u' hl hr hx hlk
        cases x with
        | zero =>
          simp only [List.getElem?_cons_zero, Option.some.injEq] at hx
          subst hx
          exact ⟨hl.trans hlk.1, by rw [hr]; exact hlk.2⟩
        | succ x => exact ⟨hlk.1, ih _ _ x u u' hl hr (by simpa using hx) hlk.2⟩
    have hta : m.tensors[n]? = some t := by rw [hts]; simp [← hA]
    rw [← hset]
    refine ⟨by simp [hlen], hw.pos_le, ?_, ?_⟩
    · simp only
      by_cases hp : n < m.pos
      · rw [List.take_set]
        exact key _ _ _ n t _ rfl rfl (by rw [List.getElem?_take, if_pos hp]; exact hta) hw.left
      · rw [List.take_set_of_le (by omega)]; exact hw.left
    · simp only
      by_cases hp : n < m.pos
      · rw [List.drop_set_of_lt hp]; exact hw.right
      · obtain ⟨q, rfl⟩ : ∃ q, n = m.pos + q := ⟨n - m.pos, by omega⟩
        rw [List.drop_set, if_neg hp, Nat.add_sub_cancel_left]
        exact key _ _ _ q t _ rfl rfl (by rw [List.getElem?_drop]; exact hta) hw.right
  · unfold MPS.ds; simp only [hts, List.map_append, List.map_cons]
    rw [List.set_append_right _ _ (by simp [hA])]; simp [hA]
  · intro s hsl i j
    have hsx : n < s.length := by omega
    have e : s = s.take n ++ s[n] :: s.drop (n + 1) := by
      rw [← List.drop_eq_getElem_cons hsx, List.take_append_drop]
    rw [e]
    exact amp_gate1 hts hA hg (by simp; omega) _ i j

/-- **C21.** Sites to the right of the chain are rejected in both modes, and to the left of `-1`
(`preserve_position=True`) or `-N` (`preserve_position=False`). -/
theorem C21_applyOneSiteGate_rejects (O : LinAlg) {m : MPS} {l r : ℕ} (hw : m.WF l r) (g : Mat ℂ)
    (site : ℤ) (b : Bool)
    (h : (m.N : ℤ) ≤ site ∨ (b = true ∧ site < -1) ∨ (b = false ∧ site < -(m.N : ℤ))) :
    m.applyOneSiteGate O g site b = .error .assertion := by
  unfold MPS.applyOneSiteGate
  by_cases h0 : site < m.N
  · rw [if_neg (by simpa using h0)]
    rcases h with h | ⟨rfl, h⟩ | ⟨rfl, h⟩
    · omega
    · rw [if_pos rfl]
      have : m.position O (site + 1) = .error .assertion := by
        unfold MPS.position
        rw [if_neg (by simp; omega), if_pos (by simp; omega)]
      rw [this]
    · rw [if_neg (by simp)]
      have : m.getItem site = .error .assertion := by
        unfold MPS.getItem
        rw [if_neg]
        rintro ⟨_, h3⟩
        have := (abs_le.mp h3).1
        rw [hw.len] at this
        omega
      rw [this]
  · rw [if_pos h0]

/-- **C21 is violated** at `site=-1` with `preserve_position=True`: the index is outside the range
`0..N-1` but passes both assertions (`site<N`, `site+1≥0`), and a different tensor than the one at the
position is modified.  On an open chain with its centre at bond 0 no AssertionError is raised; the only
possible failure is the NaN of a vanishing gated tensor. -/
theorem C21_applyOneSiteGate_violated_minus_one {O : LinAlg} (hO : O.Spec) {m : MPS} {g : Mat ℂ}
    (hw : m.WF 1 1) (hp : m.pos = 0) (hN : m.N ≠ 0) (hd : m.ds[m.N - 1]? = some g.r) :
    (∃ p, m.applyOneSiteGate O g (-1) true = .ok p ∧ p.pos = 0 ∧
      ∀ x < m.N - 1, p.tensors[x]? = m.tensors[x]?) ∨
    m.applyOneSiteGate O g (-1) true = .error .nan := by
  obtain ⟨t, t', ht, hten, -⟩ := C25_tensor_violated_left hw hp hN
  have htd : t.d = g.r := by
    unfold MPS.ds at hd; rw [List.getElem?_map, ht] at hd; simpa using hd
  have hten' : ∃ mm, m.tensor (-1) true = .ok (t', { m with mat := mm }) ∧ t'.d = t.d := by
    unfold MPS.tensor at hten ⊢
    rw [if_neg (by omega), if_pos (by omega)] at hten ⊢
    have hg : getZ m.tensors (-1) = .ok t := by
      unfold getZ pyIdx
      rw [if_neg (by omega), if_pos (by rw [hw.len]; omega)]
      simp only
      rw [show ((m.tensors.length : ℤ) + -1).toNat = m.N - 1 by rw [hw.len]; omega]
      simp [getT, ht]
    rw [hg] at hten ⊢
    simp only at hten ⊢
    split at hten
    · cases hten
    · rename_i out ho
      simp only [Bool.false_eq_true, if_false, Except.ok.injEq, Prod.mk.injEq, and_true] at hten
      subst hten
      obtain ⟨-, he⟩ := absorbR_eq ho
      exact ⟨_, rfl, by rw [he]⟩
  obtain ⟨mm, h1, h2⟩ := hten'
  unfold MPS.applyOneSiteGate
  rw [if_neg (by simp; omega), if_pos rfl]
  have hpos : m.position O (-1 + 1) = .ok m := by
    unfold MPS.position
    rw [if_neg (by simp), if_neg (by simp)]
    simp [hp]
  rw [hpos]
  simp only [h1]
  have hg : t'.gate1 g = .ok ⟨t'.l, t'.r, g.c, fun i j y => ∑ x ∈ range t'.d, t'.v i j x * g.v x y⟩ := by
    unfold Ten.gate1; rw [if_pos (by omega)]
  rw [hg]
  simp only
  cases hpt : prepareTensor O ⟨t'.l, t'.r, g.c, fun i j y => ∑ x ∈ range t'.d, t'.v i j x * g.v x y⟩ 1 with
  | error e =>
    right
    simp only [prepareTensor] at hpt
    have := (prepareTensorR_err hO hpt).1
    subst this; rfl
  | ok r =>
    obtain ⟨a, mat, z⟩ := r
    left
    have : setZ m.tensors (-1) a = .ok (m.tensors.set (m.N - 1) a) := by
      unfold setZ pyIdx
      rw [if_neg (by omega), if_pos (by rw [hw.len]; omega)]
      simp only
      rw [show ((m.tensors.length : ℤ) + -1).toNat = m.N - 1 by rw [hw.len]; omega]
    simp only [this]
    refine ⟨_, rfl, hp, ?_⟩
    intro x hx
    simp only
    rw [List.getElem?_set_ne (by omega)]

/-- The Pauli matrix `σˣ` used as a gate. -/
def flipGate : Mat ℂ := ⟨2, 2, fun x y => if x = y then 0 else 1⟩

example : ∃ (O : LinAlg) (p : MPS), O.Spec ∧ ghz.applyOneSiteGate O flipGate 1 true = .ok p ∧
    p.amp [1, 0, 1] 0 0 = ghz.amp [1, 1, 1] 0 0 := by
  obtain ⟨O, hO⟩ := exists_linAlg
  have hcfg : Cfg ghz.tensors [1, 1, 1] := by
    simp [ghz, ghzT, Cfg]
  have h0 : act1 1 2 flipGate.v (fun s => ghz.amp s 0 0) [1, 0, 1] = ghz.amp [1, 1, 1] 0 0 := by
    simp [act1, flipGate, sum_range_succ]
  obtain ⟨p, hp⟩ := C21_applyOneSiteGate_succeeds hO (m := ghz) (n := 1) (g := flipGate) (s := [1, 0, 1])
    (i := 0) (j := 0) ghz_wf (by norm_num [ghz]) (by norm_num [ghz]) (by simp [ghz, ghzT, MPS.ds, flipGate])
    (by simp [ghz, ghzT, MPS.ds, flipGate]) (by norm_num)
    (by
      rw [show flipGate.r = 2 from rfl, h0, ghz_amp _ _ _ (by norm_num) (by norm_num) (by norm_num)]
      simp)
  refine ⟨O, p, hO, by simpa using hp, ?_⟩
  obtain ⟨-, -, -, h4, -, -, h7⟩ := C21_applyOneSiteGate hO ghz_wf (by norm_num [ghz]) (by norm_num [ghz]) hp
  rw [h7 [1, 0, 1] (by rw [cfg_iff_map]; rw [show p.tensors.map Ten.d = p.ds from rfl, h4]; simp [ghz, ghzT, MPS.ds, flipGate]) 0 (by norm_num) 0]
  exact h0

example : ∃ p, ghz.applyOneSiteGate ⟨fun A => (A, A), fun A => (A, [], A)⟩ flipGate (-1) false = .ok p ∧ p.N = 3 := by
  obtain ⟨p, h1, h2, h3, h4, -⟩ := C21_applyOneSiteGate_inplace ⟨fun A => (A, A), fun A => (A, [], A)⟩
    (site := -1) (g := flipGate) (n := 2) ghz_wf (by norm_num [ghz]) (by norm_num [ghz]) (by norm_num [ghz])
    (by simp [ghz, ghzT, MPS.ds, flipGate])
  exact ⟨p, h1, h4⟩

example : ghz.applyOneSiteGate ⟨fun A => (A, A), fun A => (A, [], A)⟩ flipGate 3 true = .error .assertion :=
  C21_applyOneSiteGate_rejects _ ghz_wf _ _ _ (Or.inl (by norm_num [ghz]))

/-! ## C22, C23 -/

/-- **C22.** If no weight is discarded (`tw = 0`), the new state is the gated state up to a positive
factor: for every configuration `gate·ψ = z·ψ'`.  The new position is `site+1`, the new local
dimensions are those of the gate. -/
theorem C22_applyTwoSiteGate {O : LinAlg} (hO : O.Spec) {m p : MPS} {l r n : ℕ} {g : Gate2}
    {D : ℕ} {th : ℝ} {k : ℕ} (hw : m.WF l r) (hs : m.sth < 1e-15) (hn : n + 1 < m.N)
    (h : m.applyTwoSiteGate O g n (some D) th = .ok (0, k, p)) :
    p.WF l r ∧ p.pos = n + 1 ∧ p.N = m.N ∧ p.ds = (m.ds.set n g.a').set (n + 1) g.b' ∧
      ∃ z : ℝ, 0 < z ∧ ∀ s, Cfg p.tensors s → ∀ i < l, ∀ j,
        act2 n g.a g.b g.v (fun s => m.amp s i j) s = (z : ℂ) * p.amp s i j := by
  have hG := applyTwoSiteGate_ok hO hw hs hn h
  refine ⟨hG.wf hw hn, ?_⟩
  obtain ⟨m1, A, B, L, R, M, U, S, V, z, hM, hcan, hA, hLA, hRB, hMr, hMc, hsv, hk, htw, hz, hzp,
    ⟨t, w, hpt, htd, hwd, htl, htr, hwl, hwr, htO, hwO⟩, ⟨dA, dB, hds, hdA, hdB⟩, hmr, hmc, hmn, hpos, hN,
    hZ, hdiag, hamp⟩ := hG.blocks
  refine ⟨hpos, hN, ?_, ?_⟩
  · rw [hds]; unfold MPS.ds; rw [hpt]
    have hdl : dA.length = n := by rw [← hdA, List.length_map, hA]
    rw [List.set_append_right _ _ (by omega), List.set_append_right _ _ (by omega), hdl]
    simp [htd, hwd, hdA, hdB]
  have hkS : k ≤ S.length := by rw [hk]; exact (min_le_left _ _).trans (List.length_filter_le _ _)
  have hS0 : ∀ q, k ≤ q → S.getD q 0 = 0 := by
    intro q hq
    rw [eq_comm, sum_sq_list, sum_eq_zero_iff_of_nonneg (fun _ _ => by positivity)] at htw
    by_cases hql : q < S.length
    · have := htw (q - k) (by simp; omega)
      have h2 : (S.drop k).getD (q - k) 0 = S.getD q 0 := by
        simp only [List.getD_eq_getElem?_getD, List.getElem?_drop]; congr 3; omega
      rw [h2] at this
      exact pow_eq_zero_iff (two_ne_zero) |>.mp this
    · simp [List.getD_eq_getElem?_getD, List.getElem?_eq_none (not_lt.mp hql)]
  have key : ∀ a < L, ∀ x < g.a', ∀ y < g.b', ∀ b < R, M.v (a * g.a' + x) (y * R + b)
      = ∑ q ∈ range k, U.v (a * g.a' + x) q * ((S.getD q 0 : ℝ) : ℂ) * V.v q (y * R + b) := by
    intro a ha x hx y hy b hb
    rw [← hsv.prod _ (by rw [hMr]; exact idx_lt ha hx) _ (by rw [hMc]; exact idx_lt hy hb)]
    symm
    apply sum_subset
    · intro q hq; rw [mem_range] at hq ⊢; rw [← hsv.len]; omega
    · intro q _ hq
      rw [hS0 q (by simpa using hq)]; simp
  by_cases hk0 : k = 0
  · refine ⟨1, one_pos, ?_⟩
    intro s hcfg i hi j
    rw [hpt] at hcfg
    obtain ⟨sA, x, sB', rfl, hlA, hcA, hx, hcB'⟩ := cfg_split_at hcfg
    cases hcB' with
    | cons hy hcB =>
      rename_i y sB
      have h1 := (hamp sA x y sB hcA (by omega) (by omega) hcB i hi j).1
      rw [h1]
      have : p.amp (sA ++ x :: y :: sB) i j = 0 := by
        unfold MPS.amp; rw [hmr, hk0]; simp
      rw [this, mul_zero]
      have h2 : block A B L R (fun a b => M.v (a * g.a' + x) (y * R + b)) sA sB i j
          = block A B L R (fun _ _ => 0) sA sB i j := by
        apply block_congr; intro a ha b hb
        rw [key a ha x (by omega) y (by omega) b hb, hk0]; simp
      rw [h2]; simp [block]
  · refine ⟨z, hzp hk0, ?_⟩
    intro s hcfg i hi j
    rw [hpt] at hcfg
    obtain ⟨sA, x, sB', rfl, hlA, hcA, hx, hcB'⟩ := cfg_split_at hcfg
    cases hcB' with
    | cons hy hcB =>
      rename_i y sB
      obtain ⟨h1, h2⟩ := hamp sA x y sB hcA (by omega) (by omega) hcB i hi j
      rw [h1, h2]
      congr 1
      apply block_congr; intro a ha b hb
      exact key a ha x (by omega) y (by omega) b hb

/-- Squared distance of two wave functions on `ds` with outer dimensions `l,r`. -/
def distSq (ds : List ℕ) (l r : ℕ) (f f' : List ℕ → ℕ → ℕ → ℂ) : ℝ :=
  sumCfg ds (fun s => ∑ i ∈ range l, ∑ j ∈ range r, Complex.normSq (f s i j - f' s i j))

/-- Block states between isometric outer parts: squared norm = squared Frobenius norm of the block. -/
theorem block_normSq {l L R r a b : ℕ} {A B : List (Ten ℂ)} (hA : Linked l A L) (hB : Linked R B r)
    (hl : ∀ t ∈ A, LeftOrth t) (hr : ∀ t ∈ B, RightOrth t) (F : ℕ → ℕ → ℂ)
    (f : List ℕ → ℕ → ℕ → ℂ) (c : ℂ)
    (hf : ∀ sA x y sB, Cfg A sA → x < a → y < b → Cfg B sB → ∀ i < l, ∀ j,
      f (sA ++ x :: y :: sB) i j = c * block A B L R (fun p q => F (p * a + x) (y * R + q)) sA sB i j) :
    sumCfg (A.map Ten.d ++ a :: b :: B.map Ten.d) (fun s => ∑ i ∈ range l, ∑ j ∈ range r,
      Complex.normSq (f s i j))
      = Complex.normSq c * ∑ p ∈ range (L * a), ∑ q ∈ range (b * R), Complex.normSq (F p q) := by
  rw [sumCfg_append]
  have h1 : ∀ sA, List.Forall₂ (fun d x => x < d) (A.map Ten.d) sA →
      sumCfg (a :: b :: B.map Ten.d) (fun t => ∑ i ∈ range l, ∑ j ∈ range r,
        Complex.normSq (f (sA ++ t) i j))
      = ∑ x ∈ range a, ∑ y ∈ range b, sumCfg (B.map Ten.d) (fun sB =>
        Complex.normSq c * ∑ i ∈ range l, ∑ j ∈ range r,
          Complex.normSq (block A B L R (fun p q => F (p * a + x) (y * R + q)) sA sB i j)) := by
    intro sA hsA
    simp only [sumCfg]
    apply sum_congr rfl; intro x hx
    apply sum_congr rfl; intro y hy
    apply sumCfg_congr; intro sB hsB
    rw [mul_sum]
    apply sum_congr rfl; intro i hi
    rw [mul_sum]
    apply sum_congr rfl; intro j _
    rw [hf sA x y sB (cfg_iff_map.mpr hsA) (mem_range.mp hx) (mem_range.mp hy) (cfg_iff_map.mpr hsB) i
      (mem_range.mp hi) j, Complex.normSq_mul]
  rw [sumCfg_congr h1, sumCfg_sum]
  simp_rw [sumCfg_sum, sumCfg_mul]
  simp_rw [← mul_sum]
  congr 1
  rw [sum_range_mul']
  apply sum_congr rfl; intro x _
  simp_rw [sum_range_mul b R]
  rw [sum_comm]
  apply sum_congr rfl; intro y _
  have hc := collapse hA hB hl hr (fun p q => F (p * a + x) (y * R + q)) (fun p q => F (p * a + x) (y * R + q))
  apply Complex.ofReal_injective
  rw [sumCfg_ofReal]
  simp_rw [sumCfg_ofReal]
  push_cast
  simp_rw [normSq_eq_star_mul]
  exact hc

theorem filter_gt_iff {s : List ℝ} (hs : s.Pairwise (· ≥ ·)) (th : ℝ) {q : ℕ} (hq : q < s.length) :
    s.getD q 0 > th ↔ q < (s.filter (fun x => decide (x > th))).length := by
  induction s generalizing q with
  | nil => simp at hq
  | cons x s ih =>
    rw [List.pairwise_cons] at hs
    by_cases h : x > th
    · rw [List.filter_cons_of_pos (by simpa using h)]
      cases q with
      | zero => simpa using h
      | succ q => simpa using ih hs.2 (by simpa using hq)
    · have hall : ∀ y ∈ x :: s, ¬ y > th := by
        intro y hy
        rcases List.mem_cons.mp hy with rfl | hy
        · exact h
        · intro h2; exact h (lt_of_lt_of_le h2 (hs.1 y hy))
      have : (x :: s).filter (fun x => decide (x > th)) = [] := by
        rw [List.filter_eq_nil_iff]; intro y hy; simpa using hall y hy
      rw [this]
      simp only [List.length_nil, not_lt_zero, iff_false]
      rw [List.getD_eq_getElem _ _ hq]
      exact hall _ (List.getElem_mem hq)

/-- **C23.** The truncation contract of the two-site gate.  There is a descending list `S` of
non-negative Schmidt values and a factor `z` such that: `D'` of them are kept, `D' ≤ Dmax` is the new bond
dimension; the kept ones are exactly the diagonal of the centre matrix times `z`, all are `> thresh`,
and unless `Dmax` is exhausted every discarded value is `≤ thresh`; `tw` is the sum of the squares of the
discarded ones.  If the state was canonical, with norm `|Z|`, the gated state has squared norm
`|Z|²·ΣS²` and its squared distance from the kept, unnormalised part is `|Z|²·tw`. -/
theorem C23_applyTwoSiteGate_truncation {O : LinAlg} (hO : O.Spec) {m p : MPS} {l r n : ℕ} {g : Gate2}
    {D : ℕ} {th tw : ℝ} {k : ℕ} (hw : m.WF l r) (hs : m.sth < 1e-15) (hn : n + 1 < m.N)
    (h : m.applyTwoSiteGate O g n (some D) th = .ok (tw, k, p)) :
    k ≤ D ∧ p.bondDim (n + 1) = k ∧ p.mat.r = k ∧ p.mat.c = k ∧ p.pos = n + 1 ∧
    ∃ (S : List ℝ) (z : ℝ), S.Pairwise (· ≥ ·) ∧ (∀ x ∈ S, 0 ≤ x) ∧ k ≤ S.length ∧
      (k ≠ 0 → 0 < z) ∧
      (∀ q < k, ((S.getD q 0 : ℝ) : ℂ) = z * p.mat.v q q ∧ S.getD q 0 > th) ∧
      (k = D ∨ ∀ q, k ≤ q → q < S.length → S.getD q 0 ≤ th) ∧
      tw = ((S.drop k).map (fun x => x ^ 2)).sum ∧
      (m.Canonical →
        (k ≠ 0 → p.Canonical ∧ p.normSq l r = m.normSq l r) ∧
        distSq p.ds l r (fun s i j => act2 n g.a g.b g.v (fun s => m.amp s i j) s) (fun _ _ _ => 0)
          = m.normSq l r * (S.map (fun x => x ^ 2)).sum ∧
        distSq p.ds l r (fun s i j => act2 n g.a g.b g.v (fun s => m.amp s i j) s)
          (fun s i j => (z : ℂ) * p.amp s i j) = m.normSq l r * tw) := by
  have hG := applyTwoSiteGate_ok hO hw hs hn h
  have hpw := hG.wf hw hn
  obtain ⟨m1, A, B, L, R, M, U, S, V, z, hM, hcan, hA, hLA, hRB, hMr, hMc, hsv, hk, htw, hz, hzp,
    ⟨t, w, hpt, htd, hwd, htl, htr, hwl, hwr, htO, hwO⟩, ⟨dA, dB, hds, hdA, hdB⟩, hmr, hmc, hmn, hpos, hN,
    hZ, hdiag, hamp⟩ := hG.blocks
  have hkS : k ≤ S.length := by rw [hk]; exact (min_le_left _ _).trans (List.length_filter_le _ _)
  refine ⟨by rw [hk]; exact min_le_right _ _, by simp [MPS.bondDim, hpos, hmr, hmc], hmr, hmc, hpos, S, z,
    hsv.sorted, hsv.nonneg, hkS, hzp, ?_, ?_, htw, ?_⟩
  · intro q hq
    exact ⟨hdiag q hq, (filter_gt_iff hsv.sorted th (by omega)).mpr (by omega)⟩
  · by_cases hD : k = D
    · exact Or.inl hD
    · right
      intro q hq hql
      have := filter_gt_iff hsv.sorted th hql
      by_contra hlt
      have := this.mp (not_le.mp hlt)
      omega
  · intro hc
    obtain ⟨hc1, hlO, hrO⟩ := hcan hc
    have hpds : p.ds = A.map Ten.d ++ g.a' :: g.b' :: B.map Ten.d := by
      unfold MPS.ds; rw [hpt]; simp [htd, hwd]
    have hmZ : m.normSq l r = Complex.normSq p.Z := by
      rw [hZ, ← canonical_normSq hM.wf hc1]
      unfold MPS.normSq
      rw [hM.ds]
      apply sumCfg_congr; intro s hcfg
      apply sum_congr rfl; intro i hi
      apply sum_congr rfl; intro j _
      rw [hM.amp s (cfg_iff_map.mpr hcfg) i (mem_range.mp hi) j]
    refine ⟨?_, ?_, ?_⟩
    · intro hk0
      have hpc : p.Canonical := by
        refine ⟨?_, ?_, hmn hk0⟩
        · intro x u hx hxp
          rw [hpos] at hxp
          have : u ∈ p.tensors.take (n + 1) := by
            rw [List.mem_iff_getElem?]; exact ⟨x, by rw [List.getElem?_take, if_pos hxp]; exact hx⟩
          rw [hpt, take_mid A _ _ hA] at this
          rcases List.mem_append.mp this with h1 | h1
          · exact hlO u h1
          · rw [List.mem_singleton.mp h1]; exact htO
        · intro x u hx hxp
          rw [hpos] at hxp
          have : u ∈ p.tensors.drop (n + 1) := by
            rw [List.mem_iff_getElem?]
            exact ⟨x - (n + 1), by rw [List.getElem?_drop, show n + 1 + (x - (n + 1)) = x by omega]; exact hx⟩
          rw [hpt, drop_mid A _ _ hA] at this
          rcases List.mem_cons.mp this with h1 | h1
          · rw [h1]; exact hwO
          · exact hrO u h1
      exact ⟨hpc, by rw [canonical_normSq hpw hpc, hmZ]⟩
    · unfold distSq
      simp only [sub_zero]
      rw [hpds, block_normSq hLA hRB hlO hrO M.v _ p.Z
        (fun sA x y sB h1 h2 h3 h4 i hi j => (hamp sA x y sB h1 h2 h3 h4 i hi j).1), hmZ]
      congr 1
      have := normF_sq M
      rw [← hsv.norm2_eq, norm2_sq, ← sum_sq_list, hMr, hMc] at this
      exact this.symm
    · unfold distSq
      have e := hsv.truncErr hkS
      rw [hMr, hMc, ← htw] at e
      rw [hpds, block_normSq hLA hRB hlO hrO (fun p q => M.v p q - ∑ a ∈ range k, U.v p a * ((S.getD a 0 : ℝ) : ℂ) * V.v a q) _ p.Z
        (fun sA x y sB h1 h2 h3 h4 i hi j => by
          obtain ⟨e1, e2⟩ := hamp sA x y sB h1 h2 h3 h4 i hi j
          simp only
          rw [e1, e2, ← mul_sub, block_sub]), hmZ, e]

/-- Up to the svd the two-site gate succeeds on every non-vanishing state. -/
theorem applyTwoSiteGate_reach {O : LinAlg} (hO : O.Spec) {m : MPS} {l r n : ℕ} {g : Gate2}
    {th : ℝ} (Dm : Option ℕ) (hw : m.WF l r) (hs : m.sth < 1e-15) (hn : n + 1 < m.N)
    (ha : m.ds[n]? = some g.a) (hb : m.ds[n + 1]? = some g.b)
    {s : List ℕ} {i j : ℕ} (hc : Cfg m.tensors s) (hi : i < l) (hne : m.amp s i j ≠ 0) :
    (Dm = none → m.applyTwoSiteGate O g n Dm th = .error .type) ∧
    (∀ D, Dm = some D → 0 ≤ th → ∃ tw k p, m.applyTwoSiteGate O g n Dm th = .ok (tw, k, p)) := by
  unfold MPS.applyTwoSiteGate
  rw [if_neg (by simp; omega)]
  cases h1 : m.position O ((n : ℤ) + 1) with
  | error e =>
    exact absurd ((position_err hO (b := n + 1) (effSth_default hs) hw (by omega)
      (by push_cast; exact h1)).2 s hc i hi j) hne
  | ok m1 =>
    obtain ⟨-, -, hM, -⟩ := position_one hO hs hw h1
    rw [show ((n : ℤ) + 1).toNat = n + 1 by omega] at hM
    have hlen1 : m1.tensors.length = m.N := by rw [hM.wf.len, hM.N]
    obtain ⟨A, t, B', hts, hA⟩ := split_at m1.tensors (n := n) (by omega)
    obtain ⟨T, hab, hten, hLA, hr, hRB⟩ := tensor_left hM.wf hM.pos hts hA true
    have hB' : B' ≠ [] := by
      rintro rfl
      rw [hts] at hlen1; simp at hlen1; omega
    obtain ⟨w, B, rfl⟩ := List.exists_cons_of_ne_nil hB'
    simp only [hten, if_true]
    have hgz : getZ m1.tensors ((n : ℤ) + 1) = .ok w := by
      have := getZ_nat (ts := m1.tensors) (n := n + 1) (by omega)
      push_cast at this
      rw [this]; congr 1; simp only [hts]
      rw [List.getElem_append_right (by omega)]
      simp [hA]
    rw [hgz]
    simp only
    obtain ⟨-, hT⟩ := absorbR_eq hab
    have hdim : T.r = w.l ∧ T.d = g.a ∧ w.d = g.b := by
      refine ⟨by rw [hT]; exact hRB.1.symm, ?_, ?_⟩
      · rw [← hM.ds] at ha; unfold MPS.ds at ha; rw [hts] at ha
        rw [hT]; simpa [hA] using ha
      · rw [← hM.ds] at hb; unfold MPS.ds at hb; rw [hts] at hb
        rw [List.map_append, List.getElem?_append_right (by simp [hA])] at hb
        simpa [hA] using hb
    rw [if_neg (by simpa using hdim)]
    constructor
    · rintro rfl; rfl
    · rintro D rfl hth
      simp only
      set S := (O.svd (twoSiteMat T w g)).2.1
      have hsv := hO.svd (twoSiteMat T w g)
      cases hnm : normalise (S.take (min (S.filter (fun x => decide (x > th))).length D)) with
      | error e =>
        exfalso
        obtain ⟨-, h2, h3⟩ := normalise_err hnm
        have hk : 0 < min (S.filter (fun x => decide (x > th))).length D := by
          rcases Nat.eq_zero_or_pos (min (S.filter (fun x => decide (x > th))).length D) with h0 | h0
          · rw [h0] at h2; simp at h2
          · exact h0
        set kk := min (S.filter (fun x => decide (x > th))).length D with hkk
        have hlS : 0 < S.length := lt_of_lt_of_le (lt_of_lt_of_le hk (min_le_left _ _)) (List.length_filter_le _ _)
        have hgt := (filter_gt_iff hsv.sorted th (q := 0) hlS).mpr (lt_of_lt_of_le hk (min_le_left _ _))
        have h4 := norm2_sq (S.take kk)
        rw [h3] at h4
        have h5 : (S.take kk).getD 0 0 ^ 2 ≤ ∑ k ∈ range (S.take kk).length, (S.take kk).getD k 0 ^ 2 :=
          single_le_sum (f := fun k => (S.take kk).getD k 0 ^ 2) (fun _ _ => by positivity)
            (mem_range.mpr (by rw [List.length_take]; omega))
        have h6 : (S.take kk).getD 0 0 = S.getD 0 0 := by
          rw [List.getD_eq_getElem?_getD, List.getElem?_take, if_pos hk, ← List.getD_eq_getElem?_getD]
        rw [← h4, h6] at h5
        have h7 : S.getD 0 0 > 0 := lt_of_le_of_lt hth hgt
        nlinarith [h5, h7]
      | ok s' =>
        simp only
        rw [setZ_nat (by omega)]
        simp only
        have := setZ_nat (ts := m1.tensors.set n ⟨T.l, min (min (S.filter (fun x => decide (x > th))).length D)
          (O.svd (twoSiteMat T w g)).1.c, g.a', fun i a x => (O.svd (twoSiteMat T w g)).1.v (i * g.a' + x) a⟩)
          (n := n + 1) (by rw [List.length_set]; omega)
        push_cast at this
        rw [this]
        exact ⟨_, _, _, rfl⟩

/-- **C22.** With an explicit `Dmax` and a non-negative threshold the call succeeds on every
non-vanishing state whose local dimensions fit the gate. -/
theorem C22_applyTwoSiteGate_succeeds {O : LinAlg} (hO : O.Spec) {m : MPS} {l r n : ℕ} {g : Gate2}
    {th : ℝ} (D : ℕ) (hw : m.WF l r) (hs : m.sth < 1e-15) (hn : n + 1 < m.N)
    (ha : m.ds[n]? = some g.a) (hb : m.ds[n + 1]? = some g.b) (hth : 0 ≤ th)
    {s : List ℕ} {i j : ℕ} (hc : Cfg m.tensors s) (hi : i < l) (hne : m.amp s i j ≠ 0) :
    ∃ tw k p, m.applyTwoSiteGate O g n (some D) th = .ok (tw, k, p) :=
  (applyTwoSiteGate_reach hO (some D) hw hs hn ha hb hc hi hne).2 D rfl hth

/-- **C22/C23 are violated** for the default `Dmax=None`: the documented call without a bond dimension
raises a TypeError (`min(len(Strunc),None)`) on every state. -/
theorem C22_default_Dmax_violated {O : LinAlg} (hO : O.Spec) {m : MPS} {l r n : ℕ} {g : Gate2}
    {th : ℝ} (hw : m.WF l r) (hs : m.sth < 1e-15) (hn : n + 1 < m.N)
    (ha : m.ds[n]? = some g.a) (hb : m.ds[n + 1]? = some g.b)
    {s : List ℕ} {i j : ℕ} (hc : Cfg m.tensors s) (hi : i < l) (hne : m.amp s i j ≠ 0) :
    m.applyTwoSiteGate O g n none th = .error .type :=
  (applyTwoSiteGate_reach hO none hw hs hn ha hb hc hi hne).1 rfl

/-- **C22.** There is no site `site+1` to the right of the last bond. -/
theorem C22_applyTwoSiteGate_rejects (O : LinAlg) (m : MPS) (g : Gate2) (site : ℤ) (D : Option ℕ)
    (th : ℝ) (h : (m.N : ℤ) - 1 ≤ site ∨ site < -1) :
    m.applyTwoSiteGate O g site D th = .error .assertion := by
  unfold MPS.applyTwoSiteGate
  by_cases h1 : site < (m.N : ℤ) - 1
  · rw [if_neg (not_not.mpr h1)]
    have : m.position O (site + 1) = .error .assertion := by
      unfold MPS.position
      rw [if_neg (by simp; omega), if_pos (by simp; omega)]
    rw [this]
  · rw [if_pos h1]

/-- The swap gate on two qubits. -/
def swapGate : Gate2 := ⟨2, 2, 2, 2, fun x y x' y' => delta ℂ x y' * delta ℂ y x'⟩

example : ∃ (O : LinAlg) (tw : ℝ) (k : ℕ) (p : MPS), O.Spec ∧
    ghz.applyTwoSiteGate O swapGate 0 (some 2) 0 = .ok (tw, k, p) ∧ k ≤ 2 ∧
    ghz.applyTwoSiteGate O swapGate 0 = .error .type ∧
    ghz.applyTwoSiteGate O swapGate 2 (some 2) 0 = .error .assertion := by
  obtain ⟨O, hO⟩ := exists_linAlg
  have hne : ghz.amp [1, 1, 1] 0 0 ≠ 0 := by
    rw [ghz_amp _ _ _ (by norm_num) (by norm_num) (by norm_num)]; simp
  have ha : ghz.ds[0]? = some swapGate.a := by simp [ghz, ghzT, MPS.ds, swapGate]
  have hb : ghz.ds[0 + 1]? = some swapGate.b := by simp [ghz, ghzT, MPS.ds, swapGate]
  obtain ⟨tw, k, p, h⟩ := C22_applyTwoSiteGate_succeeds hO (n := 0) 2 ghz_wf (by norm_num [ghz]) (by norm_num [ghz])
    ha hb le_rfl (ghz_cfg 1 1 1 (by norm_num) (by norm_num) (by norm_num)) (by norm_num) hne
  refine ⟨O, tw, k, p, hO, by simpa using h,
    (C23_applyTwoSiteGate_truncation hO ghz_wf (by norm_num [ghz]) (by norm_num [ghz]) h).1, ?_, ?_⟩
  · simpa using C22_default_Dmax_violated hO (n := 0) (th := 1e-16) ghz_wf (by norm_num [ghz]) (by norm_num [ghz])
      ha hb (ghz_cfg 1 1 1 (by norm_num) (by norm_num) (by norm_num)) (by norm_num) hne
  · exact C22_applyTwoSiteGate_rejects _ _ _ _ _ _ (Or.inl (by norm_num [ghz]))

/-- **C22.** With threshold 0 nothing is discarded unless `Dmax` is exhausted: then `tw = 0` and the
exactness theorem applies. -/
theorem C22_exact_if_not_exhausted {O : LinAlg} (hO : O.Spec) {m p : MPS} {l r n : ℕ} {g : Gate2}
    {D : ℕ} {tw : ℝ} {k : ℕ} (hw : m.WF l r) (hs : m.sth < 1e-15) (hn : n + 1 < m.N)
    (h : m.applyTwoSiteGate O g n (some D) 0 = .ok (tw, k, p)) (hk : k < D) : tw = 0 := by
  obtain ⟨-, -, -, -, -, S, z, h1, h2, h3, -, -, h6, h7, -⟩ :=
    C23_applyTwoSiteGate_truncation hO hw hs hn h
  rw [h7, sum_sq_list]
  apply sum_eq_zero
  intro q hq
  rw [mem_range, List.length_drop] at hq
  rcases h6 with h6 | h6
  · omega
  have h8 := h6 (k + q) (by omega) (by omega)
  have h9 : 0 ≤ S.getD (k + q) 0 := by
    rw [List.getD_eq_getElem _ _ (by omega)]; exact h2 _ (List.getElem_mem _)
  have h10 : (S.drop k).getD q 0 = S.getD (k + q) 0 := by
    simp only [List.getD_eq_getElem?_getD, List.getElem?_drop]
  rw [h10, le_antisymm h8 h9]; norm_num

example : ∃ (O : LinAlg) (k : ℕ) (p : MPS), O.Spec ∧
    ghz.applyTwoSiteGate O swapGate 0 (some 3) 0 = .ok (0, k, p) ∧
    ∃ z : ℝ, 0 < z ∧ (z : ℂ) * p.amp [1, 1, 1] 0 0 = 1 := by
  obtain ⟨O, hO⟩ := exists_linAlg
  have hne : ghz.amp [1, 1, 1] 0 0 ≠ 0 := by
    rw [ghz_amp _ _ _ (by norm_num) (by norm_num) (by norm_num)]; simp
  have ha : ghz.ds[0]? = some swapGate.a := by simp [ghz, ghzT, MPS.ds, swapGate]
  have hb : ghz.ds[0 + 1]? = some swapGate.b := by simp [ghz, ghzT, MPS.ds, swapGate]
  obtain ⟨tw, k, p, h⟩ := C22_applyTwoSiteGate_succeeds hO (n := 0) 3 ghz_wf (by norm_num [ghz]) (by norm_num [ghz])
    ha hb le_rfl (ghz_cfg 1 1 1 (by norm_num) (by norm_num) (by norm_num)) (by norm_num) hne
  have hk : k < 3 := by
    obtain ⟨m1, A, B, L, R, M, U, S, V, z, -, -, hA, hLA, -, hMr, -, hsv, hk, -⟩ :=
      (applyTwoSiteGate_ok hO ghz_wf (by norm_num [ghz]) (by norm_num [ghz]) h).blocks
    rw [List.length_eq_zero_iff.mp hA] at hLA
    have hL : L = 1 := hLA.symm
    have h1 := hsv.len
    have h2 : k ≤ S.length := by rw [hk]; exact (min_le_left _ _).trans (List.length_filter_le _ _)
    have h3 : M.r = 2 := by rw [hMr, hL]; rfl
    rw [h3] at h1
    omega
  have htw := C22_exact_if_not_exhausted hO ghz_wf (by norm_num [ghz]) (by norm_num [ghz]) h hk
  subst htw
  obtain ⟨-, -, -, h4, z, hz, h5⟩ := C22_applyTwoSiteGate hO ghz_wf (by norm_num [ghz]) (by norm_num [ghz]) h
  refine ⟨O, k, p, hO, by simpa using h, z, hz, ?_⟩
  rw [← h5 [1, 1, 1] (by rw [cfg_iff_map]; rw [show p.tensors.map Ten.d = p.ds from rfl, h4]; simp [ghz, ghzT, MPS.ds, swapGate]) 0 (by norm_num) 0]
  simp only [act2, swapGate, sum_range_succ, range_zero, sum_empty, List.set]
  simp [delta, ghz_amp]

end

end PyTeN
