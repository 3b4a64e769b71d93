import Verif.Mps.TruncErr

/-! # The error of `truncate` (C104) -/

namespace PyTeN
open Finset

noncomputable section

/-- The truncating sweep inside of `position(0)`. -/
theorem position_sweep {O : LinAlg} {m m' : MPS} {l r : ℕ} {sth : ℝ} {D : Option ℕ}
    (hw : m.WF l r) (hp : m.pos = m.N) (hN : 0 < m.N) (h : m.position O 0 sth D = .ok m') :
    ∃ C0 t t' w, m.tensors = C0 ++ [t] ∧ absorbR t m.mat = .ok t' ∧ Linked l (C0 ++ [t']) r ∧ Linked l C0 t.l ∧ t.r = m.mat.r ∧
      m.mat.c = r ∧ sweepL (cutL O (m.effSth sth) D) 0 (C0.length + 1) ⟨C0 ++ [t'], m.mat, m.Z⟩ = .ok w ∧
      m'.tensors = w.ts ∧ m'.mat = w.mat ∧ m'.pos = 0 := by
  obtain ⟨A, C0, t, B, hts, hA, hlen⟩ := tensors_splitL m hw (b := 0) (by omega)
  have hA0 : A = [] := List.length_eq_zero_iff.mp hA
  subst hA0
  have hB0 : B = [] := by
    have := hw.len; rw [hts] at this
    simp only [List.nil_append, List.length_append, List.length_cons] at this
    simp only [List.length_nil] at hlen
    exact List.length_eq_zero_iff.mp (by omega)
  subst hB0
  simp only [List.nil_append] at hts
  have htake : m.tensors.take m.pos = C0 ++ [t] := by
    rw [List.take_of_length_le (by rw [hw.len, hp])]; exact hts
  have hdrop : m.tensors.drop m.pos = [] := List.drop_of_length_le (by rw [hw.len, hp])
  have hL := hw.left
  have hR := hw.right
  rw [htake] at hL
  rw [hdrop] at hR
  have hR : m.mat.c = r := hR
  unfold MPS.position at h
  rw [if_neg (by simp), if_neg (by simp)] at h
  simp only [Int.toNat_zero] at h
  rw [if_neg (by omega), if_neg (by omega)] at h
  have hlAC : m.pos - 1 = C0.length := by simp at hlen; omega
  have hg : getT m.tensors (m.pos - 1) = .ok t := by
    rw [hts]; exact getT_append' _ _ _ hlAC
  rw [hg] at h
  simp only at h
  rw [linked_append] at hL
  obtain ⟨n, hL, ht1⟩ := hL
  obtain ⟨rfl, hcm⟩ := ht1
  have hcm : t.r = m.mat.r := hcm
  obtain ⟨t', ht'⟩ : ∃ t', absorbR t m.mat = .ok t' := ⟨_, absorbR_ok hcm⟩
  rw [ht'] at h
  simp only at h
  obtain ⟨-, hte⟩ := absorbR_eq ht'
  have hset : m.tensors.set (m.pos - 1) t' = C0 ++ [t'] := by
    rw [hts]
    simpa using set_append' C0 t t' [] hlAC
  split at h
  · cases h
  rename_i w hsw
  simp only [Except.ok.injEq] at h
  have e2 : m.pos - 0 = C0.length + 1 := by simp at hlen; omega
  rw [hset, e2] at hsw
  refine ⟨C0, t, t', w, hts, ht', ?_, hL, hcm, hR, hsw, by rw [← h], by rw [← h], by rw [← h]⟩
  rw [linked_append]
  exact ⟨t.l, hL, by rw [hte], by rw [hte]; exact hR⟩

/-- A list of tensors of bond dimension at most `D` has at most `D` Schmidt values. -/
theorem rankLe_chain {D : ℕ} {ts : List (Ten ℂ)} (hl : Linked 1 ts 1) (hD : ∀ t ∈ ts, t.l ≤ D) (z : ℂ) :
    RankLe D (ts.map Ten.d) 1 (fun s j => z * chain ts s 0 j) := by
  intro d1 d2 hd h1 h2
  obtain ⟨A, B, rfl, rfl, rfl⟩ := List.map_eq_append_iff.mp hd
  rw [linked_append] at hl
  obtain ⟨q, hA, hB⟩ := hl
  have hq : q ≤ D := by
    cases B with
    | nil => simp at h2
    | cons b B => rw [← hB.1]; exact hD b (by simp)
  refine ⟨fun κ s1 => if κ < q then z * chain A s1 0 κ else 0, fun κ s2 j => chain B s2 κ j, ?_⟩
  intro s1 s2 hs1 _ j _
  have hlen : s1.length = A.length := by
    have := hs1.length_eq; rw [List.length_map] at this; exact this.symm
  dsimp only
  rw [chain_append hA s1 s2 hlen one_pos, mul_sum]
  rw [← sum_subset (range_subset_range.mpr hq)]
  · refine sum_congr rfl fun κ hκ => ?_
    rw [if_pos (mem_range.mp hκ)]; ring
  · intro κ _ hκ
    rw [if_neg (by simpa using hκ)]; ring

theorem sumCfg_re (ds : List ℕ) (F : List ℕ → ℂ) : sumCfg ds (fun s => (F s).re) = (sumCfg ds F).re := by
  obtain ⟨n, e, -, h2, h3⟩ := exists_enum ds
  rw [h2, h3, Complex.re_sum]

/-- The amplitude of a state with its matrix at the right end, absorbed into the last tensor. -/
theorem amp_right_end {m : MPS} {C0 : List (Ten ℂ)} {t t' : Ten ℂ} (hw : m.WF 1 1) (hp : m.pos = m.N)
    (hts : m.tensors = C0 ++ [t]) (ht' : absorbR t m.mat = .ok t') (hlC0 : Linked 1 C0 t.l) (hmc : m.mat.c = 1)
    (s : List ℕ) (hs : Conf m.ds s) : m.amp s 0 0 = m.Z * chain (C0 ++ [t']) s 0 0 := by
  have hlen : C0.length + 1 = m.N := by rw [← hw.len, hts]; simp
  have hls : s.length = C0.length + 1 := by
    have := hs.length_eq; unfold MPS.ds at this; rw [hts] at this; simp at this; exact this.symm
  obtain ⟨sA, x, rfl⟩ : ∃ sA x, s = sA ++ [x] := ⟨s.dropLast, s.getLast (by rintro rfl; simp at hls),
    (List.dropLast_append_getLast _).symm⟩
  rw [chain_append_absorbR hlC0 ht' sA (by simpa using hls) x one_pos (by rw [hmc]; exact one_pos)]
  unfold MPS.amp
  rw [List.take_of_length_le (by rw [hw.len, hp]), List.take_of_length_le (by rw [hls, hp]; omega),
    List.drop_of_length_le (by rw [hw.len, hp]), List.drop_of_length_le (by rw [hls, hp]; omega), hts, hmc]
  simp [chain, delta]

/-- The truncating sweep from a canonical state: the overlap with the result and its bound. -/
theorem position_best {O : LinAlg} (hO : O.Spec) {m m' : MPS} {sth ε : ℝ} {D : Option ℕ} {K : ℕ}
    (hw : m.WF 1 1) (hp : m.pos = m.N) (hN : 0 < m.N) (hc : m.Canonical) (h : m.position O 0 sth D = .ok m')
    (h0 : m'.mat.c ≠ 0) (hK : ∀ b < m.N, m.bondDim b ≤ K) (hε : 0 ≤ ε) (hth : m.effSth sth > 1e-16 → K * m.effSth sth ^ 2 ≤ ε)
    (hZ : m.Z ≠ 0) :
    ∃ c : ℝ, 0 < c ∧ c ≤ 1 ∧ sumCfg m.ds (fun s => m.amp s 0 0 * star (m'.amp s 0 0)) = (c * m.normSq 1 1 : ℝ) ∧
      distSq m.ds 1 1 m.amp m'.amp = m.normSq 1 1 * (2 - 2 * c) ∧
      ∀ (χ : List (Ten ℂ)) (z : ℂ), Linked 1 χ 1 → χ.map Ten.d = m.ds → (∀ D', D = some D' → ∀ t ∈ χ, t.l ≤ D') →
        m.normSq 1 1 * (1 - c ^ 2)
          ≤ (m.N - 1 : ℕ) * (distSq m.ds 1 1 m.amp (fun s i j => z * chain χ s i j) + m.normSq 1 1 * ε) := by
  obtain ⟨C0, t, t', w, hts, ht', hl, hlC0, htr, hmc, hsw, hwt, hwm, hpos⟩ := position_sweep hw hp hN h
  obtain ⟨a1, -, a3, a4, -, -, -, -, -, a10, -, a12⟩ := position_trunc hO hw hp hN hc h
  obtain ⟨hc', hZ'⟩ := a12 h0
  obtain ⟨-, hte⟩ := absorbR_eq ht'
  have hlen : C0.length + 1 = m.N := by rw [← hw.len, hts]; simp
  have hlo : ∀ x ∈ m.tensors, LeftOrth x := by
    intro x hx
    have := hc.left'
    rw [List.take_of_length_le (by rw [hw.len, hp])] at this
    exact this x hx
  have hds : m.ds = C0.map Ten.d ++ [t'.d] := by unfold MPS.ds; rw [hts]; simp [hte]
  have hbl : ∀ x ∈ m.tensors, x.l ≤ K := by
    intro x hx
    obtain ⟨k, hk, rfl⟩ := List.mem_iff_getElem.mp hx
    rw [hw.len] at hk
    refine le_trans (le_of_eq ?_) (hK k hk)
    unfold MPS.bondDim
    rw [if_neg (by omega), if_pos (by omega), List.getElem?_eq_getElem (by rw [hw.len]; exact hk)]
    simp
  have ht'r : t'.r = 1 := by rw [hte]; exact hmc
  have ht'l : t'.l = t.l := by rw [hte]
  have hamp : ∀ s, Conf m.ds s → m.amp s 0 0 = m.Z * chain (C0 ++ [t']) s 0 0 := by
    intro s hs
    exact amp_right_end hw hp hts ht' hlC0 hmc s hs
  have hsq : t'.sq = 1 := absorbR_sq ht' (hlo t (by rw [hts]; simp)) hc.norm
  have key := fun g => sweepL_best (K := K) (th := m.effSth sth) (D := D) (r := 1) (cutL_trunc hO (sth := m.effSth sth) (D := D))
    (fun t a m z hc h0 => cutL_best hO hc h0) hε hth C0 t' [] m.mat m.Z w g hl
    (fun c hc => hlo c (by rw [hts]; simp [hc])) hsq (fun c hc => hbl c (by rw [hts]; simp [hc]))
    (by rw [ht'l]; exact hbl t (by rw [hts]; simp)) hsw (by rw [← hwm]; exact h0)
  rw [← hds, ht'r] at key
  have hmr : w.mat.r = 1 := by rw [← hwm]; exact a10
  have hn1 := canonical_normSq hw hc
  have hn2 := canonical_normSq a1 hc'
  have hnm : ∑ b ∈ range w.mat.c, Complex.normSq (w.mat.v 0 b) = 1 := by
    have e := normF_sq m'.mat
    rw [hc'.norm, hwm, hmr] at e
    simp only [sum_range_one] at e
    rw [← e]; norm_num
  have hamp' : ∀ s, m'.amp s 0 0 = m.Z * ∑ b ∈ range w.mat.c, w.mat.v 0 b * chain w.ts s b 0 := by
    intro s
    unfold MPS.amp
    rw [hpos, hZ', hwm, hwt, hmr]
    simp [chain, delta]
  -- the overlap
  have hov : ∀ (C : List (Ten ℂ)) (c : ℝ), w.ts = C ++ [] →
      (∀ b < w.mat.c, (c : ℂ) * w.mat.v 0 b
        = sumCfg m.ds (fun s => ∑ j ∈ range 1, star (chain C s b j) * chain (C0 ++ [t']) s 0 j)) →
      sumCfg m.ds (fun s => m.amp s 0 0 * star (m'.amp s 0 0)) = (c * m.normSq 1 1 : ℝ) := by
    intro C c hC hproj
    rw [List.append_nil] at hC
    have e1 : ∀ s, Conf m.ds s → m.amp s 0 0 * star (m'.amp s 0 0)
        = ∑ b ∈ range w.mat.c, (m.Z * star m.Z) * star (w.mat.v 0 b) * (star (chain C s b 0) * chain (C0 ++ [t']) s 0 0) := by
      intro s hs
      rw [hamp s hs, hamp' s, hC, star_mul', star_sum, mul_sum, mul_sum]
      refine sum_congr rfl fun b _ => ?_
      rw [star_mul']; ring
    rw [sumCfg_congr e1, sumCfg_sum]
    have e2 : ∀ b ∈ range w.mat.c, sumCfg m.ds (fun s => (m.Z * star m.Z) * star (w.mat.v 0 b) * (star (chain C s b 0) * chain (C0 ++ [t']) s 0 0))
        = (c : ℂ) * (m.Z * star m.Z) * ((Complex.normSq (w.mat.v 0 b) : ℝ) : ℂ) := by
      intro b hb
      rw [sumCfg_mul]
      have := hproj b (mem_range.mp hb)
      simp only [sum_range_one] at this
      rw [← this, normSq_eq_star_mul]; ring
    rw [sum_congr rfl e2, ← mul_sum, ← Complex.ofReal_sum, hnm, hn1, mul_comm m.Z, ← normSq_eq_star_mul]
    push_cast; ring
  have hdist : ∀ c : ℝ, sumCfg m.ds (fun s => m.amp s 0 0 * star (m'.amp s 0 0)) = (c * m.normSq 1 1 : ℝ) →
      distSq m.ds 1 1 m.amp m'.amp = m.normSq 1 1 * (2 - 2 * c) := by
    intro c he
    have e := nrm2_sub (ds := m.ds) (l := 1) (r := 1) m.amp m'.amp
    have e1 : nrm2 m.ds 1 1 m.amp = m.normSq 1 1 := rfl
    have e2 : nrm2 m.ds 1 1 m'.amp = m.normSq 1 1 := by
      rw [← a4, hn1, ← hZ', ← hn2]; rfl
    have e3 : re2 m.ds 1 1 m.amp m'.amp = c * m.normSq 1 1 := by
      unfold re2
      simp only [sum_range_one]
      rw [sumCfg_re, he, Complex.ofReal_re]
    change distSq m.ds 1 1 m.amp m'.amp = _ at e
    rw [e, e1, e2, e3]; ring
  have hnp : 0 < m.normSq 1 1 := by rw [hn1]; exact Complex.normSq_pos.mpr hZ
  obtain ⟨C, c, hC, -, hc0, hproj, -⟩ := key (fun _ _ => 0) (by
    intro D' _ d1 d2 _ _ _
    exact ⟨fun _ _ => 0, fun _ _ _ => 0, fun _ _ _ _ _ _ => by simp⟩)
  have he := hov C c hC hproj
  have hd := hdist c he
  have hd0 : 0 ≤ distSq m.ds 1 1 m.amp m'.amp := nrm2_nonneg _
  refine ⟨c, hc0, by rw [hd] at hd0; nlinarith, he, hd, fun χ z hχ hχd hχD => ?_⟩
  obtain ⟨C2, c2, hC2, -, -, hproj2, herr⟩ := key (fun s j => m.Z⁻¹ * z * chain χ s 0 j) (by
    intro D' hD'
    rw [← hχd]; exact rankLe_chain hχ (hχD D' hD') _)
  have he2 := hov C2 c2 hC2 hproj2
  obtain rfl : c2 = c := by
    have := Complex.ofReal_injective (he2.symm.trans he)
    exact mul_right_cancel₀ hnp.ne' this
  have hsc : distSq m.ds 1 1 m.amp (fun s i j => z * chain χ s i j)
      = m.normSq 1 1 * sq1 m.ds 1 (fun s j => chain (C0 ++ [t']) s 0 j - m.Z⁻¹ * z * chain χ s 0 j) := by
    unfold distSq sq1
    rw [hn1, ← sumCfg_mul]
    refine sumCfg_congr fun s hs => ?_
    simp only [sum_range_one]
    rw [hamp s hs, ← Complex.normSq_mul, mul_sub, mul_assoc m.Z⁻¹, mul_inv_cancel_left₀ hZ]
  rw [hsc, ← mul_add, mul_left_comm]
  refine mul_le_mul_of_nonneg_left ?_ hnp.le
  rw [show m.N - 1 = C0.length by omega]
  exact herr

/-- Without a threshold a factorisation keeps at least one value. -/
theorem cutL_keeps {O : LinAlg} (hO : O.Spec) {sth : ℝ} {D : Option ℕ} {t a : Ten ℂ} {m : Mat ℂ} {z : ℝ} (hs : sth ≤ 1e-16)
    (hD : D ≠ some 0) (h : cutL O sth D t = .ok (a, m, z)) (h1 : t.sq = 1) : m.c ≠ 0 := by
  unfold cutL at h
  split_ifs at h with h2
  · simp only [prepareTensor] at h
    intro h0
    have e := (prepareTensorL_spec hO h).norm
    have := normF_sq m
    rw [e, h0] at this
    simp at this
  · split at h
    · cases h
    rename_i u s out Z hp
    cases h
    obtain ⟨S, hS⟩ := prepareTruncateL_spec hO hp
    intro h0
    have h0 : s.length = 0 := h0
    have hSne : S ≠ [] := by
      rintro rfl
      have e := hS.Zsq
      rw [← hS.Sn, h1] at e
      simp [norm2] at e
    have := hS.kept.1
    rw [h0, List.take_zero] at this
    exact truncS_ne_nil hSne hs hD this

theorem sweepL_keeps {cut : Ten ℂ → Res (Ten ℂ × Mat ℂ × ℝ)} {D : Option ℕ}
    (hcut : ∀ t a m z, cut t = .ok (a, m, z) → TruncL t a m z D)
    (hk : ∀ t a m z, cut t = .ok (a, m, z) → t.sq = 1 → m.c ≠ 0) {r : ℕ} :
    ∀ (C0 : List (Ten ℂ)) (t : Ten ℂ) (B : List (Ten ℂ)) (m0 : Mat ℂ) (Z : ℂ) (w : Sweep),
      Linked 1 (C0 ++ t :: B) r → (∀ c ∈ C0, LeftOrth c) → t.sq = 1 →
      sweepL cut 0 (C0.length + 1) ⟨C0 ++ t :: B, m0, Z⟩ = .ok w → w.mat.c ≠ 0 := by
  intro C0
  induction C0 using List.reverseRecOn with
  | nil =>
    intro t B m0 Z w _ _ h1 h
    simp only [List.nil_append, List.length_nil, Nat.zero_add] at h
    simp only [sweepL, getT, Nat.add_zero, List.getElem?_cons_zero] at h
    split at h
    · cases h
    · rename_i a m z hc
      simp only [gt_iff_lt, lt_irrefl, if_false, List.set_cons_zero, Except.ok.injEq] at h
      subst h
      exact hk _ _ _ _ hc h1
  | append_singleton C0 t1 ih =>
    intro t B m0 Z w hl ho h1 h
    simp only [List.length_append, List.length_cons, List.length_nil, Nat.zero_add] at h
    rw [sweepL] at h
    have hlen : 0 + (C0.length + 1) = (C0 ++ [t1]).length := by simp
    simp only [getT_append' _ _ _ hlen, set_append' _ _ _ _ hlen] at h
    split at h
    · cases h
    · rename_i a m z hc
      rw [if_pos (by omega)] at h
      have hx := hcut _ _ _ _ hc
      rw [linked_append] at hl
      obtain ⟨n, hA, ht⟩ := hl
      obtain ⟨rfl, hB⟩ := ht
      have e2 : C0 ++ [t1] ++ a :: B = C0 ++ t1 :: (a :: B) := by simp
      have hlen2 : 0 + (C0.length + 1) - 1 = C0.length := by omega
      rw [e2, getT_append' _ _ _ hlen2] at h
      simp only at h
      rw [linked_append] at hA
      obtain ⟨n', hA', ht1⟩ := hA
      obtain ⟨rfl, ht1r⟩ := ht1
      have ht1r : t1.r = t.l := ht1r
      obtain ⟨t1', habs⟩ : ∃ t1', absorbR t1 m = .ok t1' := ⟨_, absorbR_ok (by rw [ht1r, hx.rr])⟩
      rw [habs] at h
      simp only at h
      rw [set_append' _ _ _ _ hlen2] at h
      obtain ⟨-, hte⟩ := absorbR_eq habs
      have hl' : Linked 1 (C0 ++ t1' :: a :: B) r := by
        rw [linked_append]
        refine ⟨t1.l, hA', by rw [hte], ?_⟩
        exact ⟨by rw [hte]; exact hx.l, by rw [hx.r]; exact hB⟩
      exact ih t1' (a :: B) m _ w hl' (fun c hc' => ho c (by simp [hc']))
        (absorbR_sq habs (ho t1 (by simp)) (hx.norm (hk _ _ _ _ hc h1))) h

/-- Splitting `truncate` of an open chain into the move to the right end and the truncating sweep. -/
theorem truncate_split {O : LinAlg} (hO : O.Spec) {inf : MPS → Res MPS} {m m' : MPS} {th : ℝ}
    {D : Option ℕ} (hw : m.WF 1 1) (hobc : m.obc = true) (hs : m.sth < 1e-15) (hN : 0 < m.N)
    (hD : ∀ D', D = some D' → D' ≤ m.Dmax) (h : m.truncate O inf th D = .ok m') :
    ∃ m2 : MPS, m2.WF 1 1 ∧ m2.pos = m2.N ∧ m2.N = m.N ∧ m2.Canonical ∧ m2.ds = m.ds ∧ m2.sth = m.sth ∧
      (∀ b ≤ m.N, m2.bondDim b ≤ m.bondDim b) ∧ (∀ s, Conf m.ds s → m2.amp s 0 0 = m.amp s 0 0) ∧
      m2.position O 0 th D = .ok m' := by
  unfold MPS.truncate at h
  rw [if_neg (by
    cases D with
    | none => simp
    | some D => simp [hD D rfl]), if_pos hobc] at h
  split at h
  · cases h
  rename_i m1 h1
  obtain ⟨-, -, M1, -⟩ := position_one hO hs hw h1
  split at h
  · cases h
  rename_i m2 h2
  obtain ⟨-, -, M2, -⟩ := position_one hO (by rw [M1.sth]; exact hs) M1.wf h2
  simp only [Int.toNat_natCast] at M2
  have hc2 : m2.Canonical := canonical_of_sweep M2 (by rw [M1.N]; exact hN) (Or.inr ⟨by rw [M1.pos]; rfl, rfl⟩)
  refine ⟨m2, M2.wf, by rw [M2.pos, M2.N], M2.N.trans M1.N, hc2, M2.ds.trans M1.ds, M2.sth.trans M1.sth, ?_, ?_, h⟩
  · intro b hb
    exact (M2.bond b (by rw [M1.N]; exact hb)).trans (M1.bond b hb)
  · intro s hcfg
    rw [M2.amp s (cfg_of_ds M1.ds (cfg_iff_map.mpr hcfg)) 0 one_pos 0, M1.amp s (cfg_iff_map.mpr hcfg) 0 one_pos 0]

/-! ## C104 -/

/-- **C104.** `truncate` on an open chain: the overlap of the old with the new state is real and positive, `c` times the
squared norm, the squared distance is `2-2c` times the squared norm, and `1-c²` is at most `N-1` times the relative
squared distance to *any* matrix product state whose bonds do not exceed `D`, plus `N-1` times `K·thresh²`, where `K`
bounds the bond dimensions. -/
theorem C104_truncate {O : LinAlg} (hO : O.Spec) {inf : MPS → Res MPS} {m m' : MPS} {th ε : ℝ}
    {D : Option ℕ} {K : ℕ} (hw : m.WF 1 1) (hobc : m.obc = true) (hs : m.sth < 1e-15) (hN : 0 < m.N)
    (hD : ∀ D', D = some D' → D' ≤ m.Dmax) (h : m.truncate O inf th D = .ok m') (h0 : m'.mat.c ≠ 0) (hn : m.normSq 1 1 ≠ 0)
    (hK : ∀ b < m.N, m.bondDim b ≤ K) (hε : 0 ≤ ε) (hth : m.effSth th > 1e-16 → K * m.effSth th ^ 2 ≤ ε) :
    ∃ c : ℝ, 0 < c ∧ c ≤ 1 ∧ sumCfg m.ds (fun s => m.amp s 0 0 * star (m'.amp s 0 0)) = (c * m.normSq 1 1 : ℝ) ∧
      distSq m.ds 1 1 m.amp m'.amp = m.normSq 1 1 * (2 - 2 * c) ∧
      ∀ (χ : List (Ten ℂ)) (z : ℂ), Linked 1 χ 1 → χ.map Ten.d = m.ds → (∀ D', D = some D' → ∀ t ∈ χ, t.l ≤ D') →
        m.normSq 1 1 * (1 - c ^ 2)
          ≤ (m.N - 1 : ℕ) * (distSq m.ds 1 1 m.amp (fun s i j => z * chain χ s i j) + m.normSq 1 1 * ε) := by
  obtain ⟨m2, w2, p2, n2, c2, d2, s2, b2, a2, h2⟩ := truncate_split hO hw hobc hs hN hD h
  have heff : m2.effSth th = m.effSth th := by unfold MPS.effSth; rw [s2]
  have hnn : m2.normSq 1 1 = m.normSq 1 1 := by
    unfold MPS.normSq
    rw [d2]
    refine sumCfg_congr fun s hs => ?_
    simp only [sum_range_one, a2 s hs]
  have hdd : ∀ f, distSq m.ds 1 1 m2.amp f = distSq m.ds 1 1 m.amp f := by
    intro f
    unfold distSq
    refine sumCfg_congr fun s hs => ?_
    simp only [sum_range_one, a2 s hs]
  have hZ : m2.Z ≠ 0 := by
    intro e
    have := canonical_normSq w2 c2
    rw [e, map_zero, hnn] at this
    exact hn this
  obtain ⟨c, k1, k2, k3, k4, k5⟩ := position_best (K := K) (ε := ε) hO w2 p2 (by rw [n2]; exact hN) c2 h2 h0
    (fun b hb => (b2 b (by omega)).trans (hK b (by omega))) hε (by rw [heff]; exact hth) hZ
  rw [d2, hnn] at k3 k4 k5
  rw [n2] at k5
  rw [hdd] at k4
  refine ⟨c, k1, k2, ?_, k4, fun χ z x1 x2 x3 => ?_⟩
  · rw [← k3]
    exact sumCfg_congr fun s hs => by rw [a2 s hs]
  · have := k5 χ z x1 x2 x3
    rwa [hdd] at this

/-- **C104.** With the default thresholds `truncate(D=D)` is quasi-optimal: the squared distance of the result is at most
`2(N-1)` times the one of any matrix product state of bond dimension `D`. -/
theorem C104_truncate_quasi_optimal {O : LinAlg} (hO : O.Spec) {inf : MPS → Res MPS} {m m' : MPS} {th : ℝ} {D : ℕ}
    (hw : m.WF 1 1) (hobc : m.obc = true) (hs : m.sth ≤ 1e-16) (hN : 0 < m.N) (hth : th ≤ 1e-15) (hD1 : 1 ≤ D) (hD : D ≤ m.Dmax)
    (h : m.truncate O inf th (some D) = .ok m') (hn : m.normSq 1 1 ≠ 0)
    {χ : List (Ten ℂ)} (hχ : Linked 1 χ 1) (hχd : χ.map Ten.d = m.ds) (hχD : ∀ t ∈ χ, t.l ≤ D) :
    m'.Canonical ∧ m'.normSq 1 1 = m.normSq 1 1 ∧
      distSq m.ds 1 1 m.amp m'.amp ≤ 2 * (m.N - 1 : ℕ) * distSq m.ds 1 1 m.amp (chain χ) := by
  have hs' : m.sth < 1e-15 := lt_of_le_of_lt hs (by norm_num)
  have heff : m.effSth th = m.sth := by unfold MPS.effSth; rw [if_neg (not_lt.mpr hth)]
  have h0 : m'.mat.c ≠ 0 := by
    obtain ⟨m2, w2, p2, n2, c2, -, s2, -, -, h2⟩ := truncate_split hO hw hobc hs' hN (by rintro D' ⟨⟩; exact hD) h
    obtain ⟨C0, t, t', w, hts, ht', hl, -, -, -, hsw, -, hwm, -⟩ := position_sweep w2 p2 (by rw [n2]; exact hN) h2
    have hlo : ∀ x ∈ m2.tensors, LeftOrth x := by
      intro x hx
      have := c2.left'
      rw [List.take_of_length_le (by rw [w2.len, p2])] at this
      exact this x hx
    rw [hwm]
    refine sweepL_keeps (cutL_trunc hO) (fun t a m z hc h1 => cutL_keeps hO ?_ (by simp; omega) hc h1) C0 t' [] m2.mat m2.Z w hl
      (fun c hc => hlo c (by rw [hts]; simp [hc])) (absorbR_sq ht' (hlo t (by rw [hts]; simp)) c2.norm) hsw
    unfold MPS.effSth
    rw [if_neg (not_lt.mpr hth), s2]; exact hs
  have hcan := (C24_truncate hO inf hw hobc hs' hN (by rintro D' ⟨⟩; exact ⟨hD1, hD⟩) h).2.2.2.2.2.2 h0
  refine ⟨hcan.1, hcan.2, ?_⟩
  obtain ⟨c, k1, k2, -, k4, k5⟩ := C104_truncate (K := (range m.N).sup m.bondDim) (ε := 0) hO hw hobc hs' hN (by rintro D' ⟨⟩; exact hD) h h0 hn
    (fun b hb => le_sup (f := m.bondDim) (mem_range.mpr hb)) le_rfl
    (by rw [heff]; intro e; exact absurd hs (not_le.mpr e))
  have k6 := k5 χ 1 hχ hχd (by rintro D' ⟨⟩; exact hχD)
  simp only [one_mul] at k6
  rw [mul_zero, add_zero] at k6
  have hn0 : 0 ≤ m.normSq 1 1 := nrm2_nonneg (ds := m.ds) (l := 1) (r := 1) m.amp
  rw [k4]
  have : m.normSq 1 1 * (2 - 2 * c) ≤ 2 * (m.normSq 1 1 * (1 - c ^ 2)) := by
    nlinarith [mul_nonneg hn0 (mul_nonneg k1.le (sub_nonneg.mpr k2))]
  linarith

/-- **C104.** With a threshold and no `D`: the squared distance is at most `2(N-1)·K·thresh²` times the squared norm. -/
theorem C104_truncate_threshold {O : LinAlg} (hO : O.Spec) {inf : MPS → Res MPS} {m m' : MPS} {th : ℝ} {K : ℕ}
    (hw : m.WF 1 1) (hobc : m.obc = true) (hs : m.sth < 1e-15) (hN : 0 < m.N) (hth : 1e-15 < th)
    (h : m.truncate O inf th none = .ok m') (h0 : m'.mat.c ≠ 0) (hn : m.normSq 1 1 ≠ 0) (hK : ∀ b < m.N, m.bondDim b ≤ K) :
    distSq m.ds 1 1 m.amp m'.amp ≤ 2 * (m.N - 1 : ℕ) * (K * th ^ 2) * m.normSq 1 1 := by
  have heff : m.effSth th = th := by unfold MPS.effSth; rw [if_pos hth]
  obtain ⟨c, k1, k2, -, k4, k5⟩ := C104_truncate (K := K) (ε := K * th ^ 2) hO hw hobc hs hN (by rintro D' ⟨⟩) h h0 hn
    hK (by positivity) (by rw [heff]; exact fun _ => le_rfl)
  obtain ⟨m2, w2, p2, n2, c2, d2, s2, b2, a2, h2⟩ := truncate_split hO hw hobc hs hN (by rintro D' ⟨⟩) h
  obtain ⟨C0, t, t', w, hts, ht', hl, hlC0, htr, hmc, -⟩ := position_sweep w2 p2 (by rw [n2]; exact hN) h2
  obtain ⟨-, hte⟩ := absorbR_eq ht'
  have k6 := k5 (C0 ++ [t']) m2.Z hl (by rw [← d2]; unfold MPS.ds; rw [hts]; simp [hte]) (by rintro D' ⟨⟩)
  have hz : distSq m.ds 1 1 m.amp (fun s i j => m2.Z * chain (C0 ++ [t']) s i j) = 0 := by
    have e : ∀ s, Conf m.ds s → (∑ i ∈ range 1, ∑ j ∈ range 1, Complex.normSq (m.amp s i j - m2.Z * chain (C0 ++ [t']) s i j)) = 0 := by
      intro s hs
      simp only [sum_range_one]
      rw [← amp_right_end w2 p2 hts ht' hlC0 hmc s (by rw [d2]; exact hs), a2 s hs, sub_self, map_zero]
    unfold distSq
    rw [sumCfg_congr e, sumCfg_zero]
  rw [hz, zero_add] at k6
  have hn0 : 0 ≤ m.normSq 1 1 := nrm2_nonneg (ds := m.ds) (l := 1) (r := 1) m.amp
  rw [k4]
  have : m.normSq 1 1 * (2 - 2 * c) ≤ 2 * (m.normSq 1 1 * (1 - c ^ 2)) := by
    nlinarith [mul_nonneg hn0 (mul_nonneg k1.le (sub_nonneg.mpr k2))]
  calc m.normSq 1 1 * (2 - 2 * c) ≤ 2 * (m.normSq 1 1 * (1 - c ^ 2)) := this
    _ ≤ 2 * ((m.N - 1 : ℕ) * (m.normSq 1 1 * (K * th ^ 2))) := by linarith
    _ = _ := by ring

/-- **C104.** With the default thresholds, a state that *some* matrix product state of bond dimension `D` represents is
left unchanged by `truncate(D=D)`, whatever its own bond dimensions are. -/
theorem C104_truncate_exact {O : LinAlg} (hO : O.Spec) {inf : MPS → Res MPS} {m m' : MPS} {th : ℝ} {D : ℕ}
    (hw : m.WF 1 1) (hobc : m.obc = true) (hs : m.sth ≤ 1e-16) (hN : 0 < m.N) (hth : th ≤ 1e-15) (hD1 : 1 ≤ D) (hD : D ≤ m.Dmax)
    (h : m.truncate O inf th (some D) = .ok m') (hn : m.normSq 1 1 ≠ 0)
    {χ : List (Ten ℂ)} (hχ : Linked 1 χ 1) (hχd : χ.map Ten.d = m.ds) (hχD : ∀ t ∈ χ, t.l ≤ D)
    (he : ∀ s, Conf m.ds s → chain χ s 0 0 = m.amp s 0 0) :
    (∀ b < m.N, m'.bondDim b ≤ D) ∧ ∀ s, Conf m.ds s → m'.amp s 0 0 = m.amp s 0 0 := by
  have hs' : m.sth < 1e-15 := lt_of_le_of_lt hs (by norm_num)
  have h1 := (C104_truncate_quasi_optimal hO hw hobc hs hN hth hD1 hD h hn hχ hχd hχD).2.2
  have hz : distSq m.ds 1 1 m.amp (chain χ) = 0 := by
    have e : ∀ s, Conf m.ds s → (∑ i ∈ range 1, ∑ j ∈ range 1, Complex.normSq (m.amp s i j - chain χ s i j)) = 0 := by
      intro s hs
      simp only [sum_range_one]
      rw [he s hs, sub_self, map_zero]
    unfold distSq
    rw [sumCfg_congr e, sumCfg_zero]
  rw [hz, mul_zero] at h1
  have h2 := le_antisymm h1 (nrm2_nonneg _)
  refine ⟨fun b hb => ?_, fun s hcf => ?_⟩
  · exact ((C24_truncate hO inf hw hobc hs' hN (by rintro D' ⟨⟩; exact ⟨hD1, hD⟩) h).2.2.2.2.2.1 b (by omega)).2 D rfl
  · have e := sumCfg_eq_zero m.ds _ (fun s => sum_nonneg fun i _ => sum_nonneg fun j _ => Complex.normSq_nonneg _) h2 s hcf
    simp only [sum_range_one] at e
    exact (sub_eq_zero.mp (Complex.normSq_eq_zero.mp e)).symm

/-! ## Concrete cases -/

/-- `|000>` as a product of bond dimension 1. -/
def zero3 : List (Ten ℂ) := List.replicate 3 ⟨1, 1, 2, fun _ _ s => delta ℂ s 0⟩

/-- The entangled three-site state, cut to a product state: the distance is at most four times the one to `|000>`. -/
example : ∃ (O : LinAlg) (m' : MPS), O.Spec ∧ ghz.truncate O (fun m => .ok m) 1e-16 (some 1) = .ok m' ∧
    distSq ghz.ds 1 1 ghz.amp m'.amp ≤ 4 * distSq ghz.ds 1 1 ghz.amp (chain zero3) := by
  obtain ⟨O, hO⟩ := exists_linAlg
  obtain ⟨m', h⟩ := C24_truncate_succeeds hO (fun m => .ok m) 1e-16 (some 1) ghz_wf rfl (by norm_num [ghz])
    (by norm_num [ghz]) (ghz_cfg 1 1 1 (by norm_num) (by norm_num) (by norm_num)) (j := 0)
    (by rw [ghz_amp _ _ _ (by norm_num) (by norm_num) (by norm_num)]; simp)
  have hn : ghz.normSq 1 1 ≠ 0 := by
    intro e
    have := sumCfg_eq_zero ghz.ds _ (fun s => sum_nonneg fun i _ => sum_nonneg fun j _ => Complex.normSq_nonneg _) e [1, 1, 1]
      (cfg_iff_map.mp (ghz_cfg 1 1 1 (by norm_num) (by norm_num) (by norm_num)))
    simp only [sum_range_one] at this
    rw [ghz_amp _ _ _ (by norm_num) (by norm_num) (by norm_num)] at this
    simp at this
  have k := (C104_truncate_quasi_optimal (χ := zero3) hO ghz_wf rfl (by norm_num [ghz]) (by norm_num [ghz]) (by norm_num) le_rfl
    (by norm_num [ghz]) h hn (by simp [zero3, Linked]) (by simp [zero3, MPS.ds, ghz, ghzT])
    (by intro t ht; simp [zero3] at ht; simp [ht])).2.2
  refine ⟨O, m', hO, h, k.trans (le_of_eq ?_)⟩
  norm_num [ghz]

/-- A product state stored with bond dimension 2. -/
def wasteful : MPS :=
  { ghz with tensors := [⟨1, 2, 2, fun _ _ _ => 1⟩, ⟨2, 2, 2, fun _ _ s => s + 1⟩, ⟨2, 1, 2, fun _ _ _ => 1⟩] }

/-- The product state stored with bond dimension 2 is compressed to bond dimension 1 without any change of the state. -/
example : ∃ (O : LinAlg) (m' : MPS), O.Spec ∧ wasteful.truncate O (fun m => .ok m) 1e-16 (some 1) = .ok m' ∧
    wasteful.bondDim 1 = 2 ∧ m'.bondDim 1 ≤ 1 ∧ ∀ s, Conf wasteful.ds s → m'.amp s 0 0 = wasteful.amp s 0 0 := by
  have hw : wasteful.WF 1 1 := by refine ⟨rfl, le_rfl, ?_, ?_⟩ <;> simp [wasteful, ghz, Linked]
  have hcf : Cfg wasteful.tensors [0, 0, 0] :=
    List.Forall₂.cons (by norm_num) (List.Forall₂.cons (by norm_num) (List.Forall₂.cons (by norm_num) List.Forall₂.nil))
  have ha : ∀ a b c, wasteful.amp [a, b, c] 0 0 = 4 * (b + 1) := by
    intro a b c
    simp [MPS.amp, wasteful, ghz, chain, delta]
    ring
  obtain ⟨O, hO⟩ := exists_linAlg
  obtain ⟨m', h⟩ := C24_truncate_succeeds hO (fun m => .ok m) 1e-16 (some 1) hw rfl (by norm_num [wasteful, ghz])
    (by norm_num [wasteful, ghz]) hcf (j := 0) (by rw [ha]; simp)
  have hn : wasteful.normSq 1 1 ≠ 0 := by
    intro e
    have := sumCfg_eq_zero wasteful.ds _ (fun s => sum_nonneg fun i _ => sum_nonneg fun j _ => Complex.normSq_nonneg _) e [0, 0, 0]
      (cfg_iff_map.mp hcf)
    simp only [sum_range_one] at this
    rw [ha] at this
    simp at this
  obtain ⟨k1, k2⟩ := C104_truncate_exact (χ := [⟨1, 1, 2, fun _ _ _ => 4⟩, ⟨1, 1, 2, fun _ _ s => s + 1⟩, ⟨1, 1, 2, fun _ _ _ => 1⟩])
    hO hw rfl (by norm_num [wasteful, ghz]) (by norm_num [wasteful, ghz]) (by norm_num) le_rfl
    (by norm_num [wasteful, ghz]) h hn (by simp [Linked]) (by simp [MPS.ds, wasteful])
    (by intro t ht; simp at ht; rcases ht with rfl | rfl | rfl <;> simp) (by
      intro s hs
      have hl : s.length = 3 := by have := hs.length_eq; simpa [MPS.ds, wasteful] using this.symm
      match s, hl with
      | [a, b, c], _ =>
        rw [ha]
        simp [chain, delta])
  exact ⟨O, m', hO, h, by simp [MPS.bondDim, wasteful, ghz], k1 1 (by norm_num [wasteful, ghz]), k2⟩

end

end PyTeN
