import Verif.Mps.Trunc
import Verif.Props.Gates
import Mathlib.LinearAlgebra.Matrix.Rank

/-! # Properties of truncation (C24, C59) -/

namespace PyTeN
open Finset

noncomputable section

/-! ## C59 -/

/-- **C59** (direction > 0).  `out` is left-orthonormal, the rows of `v` are orthonormal, the kept
values `s` are normalised, non-negative and descending; at most `D` of them are kept; `Z` is the norm of
the tensor; the factors come from a list `S` of all singular values of which the first `len(s)` are kept;
the error of the product of the factors with the *unnormalised* kept values is the sum of the squares of
the discarded values. -/
theorem C59_prepareTruncate_right {O : LinAlg} (hO : O.Spec) {t : Ten ℂ} {D : Option ℕ} {th : ℝ}
    {v : Mat ℂ} {s : List ℝ} {out : Ten ℂ} {Z : ℝ}
    (h : prepareTruncateR O t D th = .ok (out, s, v, Z)) :
    (out.l = t.l ∧ out.r = s.length ∧ out.d = t.d ∧ v.r = s.length ∧ v.c = t.r) ∧ LeftOrth out ∧
    (∀ k < s.length, ∀ k' < s.length, ∑ j ∈ range t.r, v.v k j * star (v.v k' j) = delta ℂ k k') ∧
    (s ≠ [] → (s.map (fun x => x ^ 2)).sum = 1) ∧ (∀ D', D = some D' → s.length ≤ D') ∧
    0 ≤ Z ∧ Z ^ 2 = t.sq ∧
    ∃ S : List ℝ, S.length = min (t.d * t.l) t.r ∧ S.Pairwise (· ≥ ·) ∧ (∀ x ∈ S, 0 ≤ x) ∧
      (∀ k < s.length, S.getD k 0 = norm2 (S.take s.length) * s.getD k 0) ∧
      (th > 1e-16 → ∀ k < s.length, S.getD k 0 > th) ∧
      (⟨t.l, t.r, t.d, fun i j x => t.v i j x - ∑ k ∈ range s.length,
          out.v i k x * ((S.getD k 0 : ℝ) : ℂ) * v.v k j⟩ : Ten ℂ).sq
        = ((S.drop s.length).map (fun x => x ^ 2)).sum ∧
      (s.length = S.length → ∀ i < t.l, ∀ j < t.r, ∀ x < t.d,
        t.v i j x = Z * ∑ k ∈ range s.length, out.v i k x * ((s.getD k 0 : ℝ) : ℂ) * v.v k j) := by
  obtain ⟨S, hS⟩ := prepareTruncateR_spec hO h
  have hp := truncS_prefix hS.sorted D th
  have hle : s.length ≤ S.length := by rw [hS.kept.2]; exact hp.2.1
  refine ⟨⟨hS.ol, hS.outr, hS.od, hS.vr, hS.vc⟩, hS.orth, hS.iso, ?_, ?_, hS.Z0, hS.Zsq, S, hS.Slen,
    hS.sorted, hS.nonneg, hS.vals, ?_, hS.err, ?_⟩
  · intro hne
    rw [sum_sq_list, ← norm2_sq, hS.unit hne]; norm_num
  · intro D' hD'; rw [hS.kept.2]; exact hp.2.2.1 D' hD'
  · intro hth k hk
    apply hp.2.2.2 hth
    rw [hS.kept.1, List.getD_eq_getElem _ _ (by omega)]
    rw [List.mem_take_iff_getElem]
    exact ⟨k, by omega, rfl⟩
  · intro hfull i hi j hj x hx
    have he := hS.err
    rw [hfull, List.drop_length] at he
    simp only [List.map_nil, List.sum_nil] at he
    unfold Ten.sq at he
    rw [sum_eq_zero_iff_of_nonneg (fun _ _ => sum_nonneg fun _ _ => sum_nonneg fun _ _ => Complex.normSq_nonneg _)] at he
    have h1 := he i (mem_range.mpr hi)
    rw [sum_eq_zero_iff_of_nonneg (fun _ _ => sum_nonneg fun _ _ => Complex.normSq_nonneg _)] at h1
    have h2 := h1 j (mem_range.mpr hj)
    rw [sum_eq_zero_iff_of_nonneg (fun _ _ => Complex.normSq_nonneg _)] at h2
    have h3 := h2 x (mem_range.mpr hx)
    rw [Complex.normSq_eq_zero, sub_eq_zero] at h3
    rw [h3, mul_sum, hfull]
    apply sum_congr rfl; intro k hk
    have h4 := hS.vals k (by rw [hfull]; exact mem_range.mp hk)
    rw [hfull, List.take_length, hS.Sn] at h4
    rw [h4]; push_cast; ring

/-- **C59** (direction < 0), mirror image. -/
theorem C59_prepareTruncate_left {O : LinAlg} (hO : O.Spec) {t : Ten ℂ} {D : Option ℕ} {th : ℝ}
    {u : Mat ℂ} {s : List ℝ} {out : Ten ℂ} {Z : ℝ}
    (h : prepareTruncateL O t D th = .ok (u, s, out, Z)) :
    (out.r = t.r ∧ out.l = s.length ∧ out.d = t.d ∧ u.r = t.l ∧ u.c = s.length) ∧ RightOrth out ∧
    (∀ k < s.length, ∀ k' < s.length, ∑ i ∈ range t.l, star (u.v i k) * u.v i k' = delta ℂ k k') ∧
    (s ≠ [] → (s.map (fun x => x ^ 2)).sum = 1) ∧ (∀ D', D = some D' → s.length ≤ D') ∧
    0 ≤ Z ∧ Z ^ 2 = t.sq ∧
    ∃ S : List ℝ, S.length = min t.l (t.d * t.r) ∧ S.Pairwise (· ≥ ·) ∧ (∀ x ∈ S, 0 ≤ x) ∧
      (∀ k < s.length, S.getD k 0 = norm2 (S.take s.length) * s.getD k 0) ∧
      (th > 1e-16 → ∀ k < s.length, S.getD k 0 > th) ∧
      (⟨t.l, t.r, t.d, fun i j x => t.v i j x - ∑ k ∈ range s.length,
          u.v i k * ((S.getD k 0 : ℝ) : ℂ) * out.v k j x⟩ : Ten ℂ).sq
        = ((S.drop s.length).map (fun x => x ^ 2)).sum ∧
      (s.length = S.length → ∀ i < t.l, ∀ j < t.r, ∀ x < t.d,
        t.v i j x = Z * ∑ k ∈ range s.length, u.v i k * ((s.getD k 0 : ℝ) : ℂ) * out.v k j x) := by
  obtain ⟨S, hS⟩ := prepareTruncateL_spec hO h
  have hp := truncS_prefix hS.sorted D th
  have hle : s.length ≤ S.length := by rw [hS.kept.2]; exact hp.2.1
  refine ⟨⟨hS.outr, hS.ol, hS.od, hS.ur, hS.uc⟩, hS.orth, hS.iso, ?_, ?_, hS.Z0, hS.Zsq, S, hS.Slen,
    hS.sorted, hS.nonneg, hS.vals, ?_, hS.err, ?_⟩
  · intro hne
    rw [sum_sq_list, ← norm2_sq, hS.unit hne]; norm_num
  · intro D' hD'; rw [hS.kept.2]; exact hp.2.2.1 D' hD'
  · intro hth k hk
    apply hp.2.2.2 hth
    rw [hS.kept.1, List.getD_eq_getElem _ _ (by omega)]
    rw [List.mem_take_iff_getElem]
    exact ⟨k, by omega, rfl⟩
  · intro hfull i hi j hj x hx
    have he := hS.err
    rw [hfull, List.drop_length] at he
    simp only [List.map_nil, List.sum_nil] at he
    unfold Ten.sq at he
    rw [sum_eq_zero_iff_of_nonneg (fun _ _ => sum_nonneg fun _ _ => sum_nonneg fun _ _ => Complex.normSq_nonneg _)] at he
    have h1 := he i (mem_range.mpr hi)
    rw [sum_eq_zero_iff_of_nonneg (fun _ _ => sum_nonneg fun _ _ => Complex.normSq_nonneg _)] at h1
    have h2 := h1 j (mem_range.mpr hj)
    rw [sum_eq_zero_iff_of_nonneg (fun _ _ => Complex.normSq_nonneg _)] at h2
    have h3 := h2 x (mem_range.mpr hx)
    rw [Complex.normSq_eq_zero, sub_eq_zero] at h3
    rw [h3, mul_sum, hfull]
    apply sum_congr rfl; intro k hk
    have h4 := hS.vals k (by rw [hfull]; exact mem_range.mp hk)
    rw [hfull, List.take_length, hS.Sn] at h4
    rw [h4]; push_cast; ring

theorem sq_pos_of_ne {t : Ten ℂ} {i j x : ℕ} (hi : i < t.l) (hj : j < t.r) (hx : x < t.d)
    (h : t.v i j x ≠ 0) : 0 < t.sq := by
  unfold Ten.sq
  apply sum_pos' (fun _ _ => sum_nonneg fun _ _ => sum_nonneg fun _ _ => Complex.normSq_nonneg _)
  refine ⟨i, mem_range.mpr hi, ?_⟩
  apply sum_pos' (fun _ _ => sum_nonneg fun _ _ => Complex.normSq_nonneg _)
  refine ⟨j, mem_range.mpr hj, ?_⟩
  apply sum_pos' (fun _ _ => Complex.normSq_nonneg _)
  exact ⟨x, mem_range.mpr hx, Complex.normSq_pos.mpr h⟩

theorem truncS_ne_nil {S : List ℝ} (hS : S ≠ []) {D : Option ℕ} {th : ℝ} (hth : th ≤ 1e-16)
    (hD : D ≠ some 0) : truncS S D th ≠ [] := by
  unfold truncS
  rw [if_neg (not_lt.mpr hth)]
  cases D with
  | none => exact hS
  | some D =>
    have : D ≠ 0 := by rintro rfl; exact hD rfl
    have h2 := List.length_pos_iff.mpr hS
    simp only
    intro h3
    have := congrArg List.length h3
    rw [List.length_take, List.length_nil] at this
    omega

/-- **C59.** On a non-zero tensor both directions succeed, and at least one value is kept if `D ≥ 1`
and the threshold is not active (`thresh ≤ 1e-16`). -/
theorem C59_prepareTruncate_keeps_one {O : LinAlg} (hO : O.Spec) {t : Ten ℂ} (D : Option ℕ) (th : ℝ)
    {i j x : ℕ} (hi : i < t.l) (hj : j < t.r) (hx : x < t.d) (hne : t.v i j x ≠ 0) :
    (∃ out s v Z, prepareTruncateR O t D th = .ok (out, s, v, Z) ∧
      (th ≤ 1e-16 → D ≠ some 0 → s ≠ [])) ∧
    (∃ u s out Z, prepareTruncateL O t D th = .ok (u, s, out, Z) ∧
      (th ≤ 1e-16 → D ≠ some 0 → s ≠ [])) := by
  have hpos := sq_pos_of_ne hi hj hx hne
  constructor
  · cases h : prepareTruncateR O t D th with
    | error e => exact absurd (prepareTruncate_err hO (Or.inr h)).2 hpos.ne'
    | ok r =>
      obtain ⟨out, s, v, Z⟩ := r
      refine ⟨out, s, v, Z, rfl, ?_⟩
      intro hth hD h0
      obtain ⟨S, hS⟩ := prepareTruncateR_spec hO h
      have hSne : S ≠ [] := by
        rintro rfl
        have := hS.Slen
        simp only [List.length_nil] at this
        have h2 : 0 < t.d * t.l := Nat.mul_pos (by omega) (by omega)
        omega
      have := hS.kept.1
      rw [h0, List.length_nil, List.take_zero] at this
      exact truncS_ne_nil hSne hth hD this
  · cases h : prepareTruncateL O t D th with
    | error e => exact absurd (prepareTruncate_err hO (Or.inl h)).2 hpos.ne'
    | ok r =>
      obtain ⟨u, s, out, Z⟩ := r
      refine ⟨u, s, out, Z, rfl, ?_⟩
      intro hth hD h0
      obtain ⟨S, hS⟩ := prepareTruncateL_spec hO h
      have hSne : S ≠ [] := by
        rintro rfl
        have := hS.Slen
        simp only [List.length_nil] at this
        have h2 : 0 < t.d * t.r := Nat.mul_pos (by omega) (by omega)
        omega
      have := hS.kept.1
      rw [h0, List.length_nil, List.take_zero] at this
      exact truncS_ne_nil hSne hth hD this

/-- **C59 is violated** by large thresholds: if the threshold is at least the norm of the tensor, every
value is dropped, without any error, even for a non-zero tensor. -/
theorem C59_prepareTruncate_violated_large_thresh {O : LinAlg} (hO : O.Spec) {t : Ten ℂ} {D : Option ℕ}
    {th : ℝ} (hth : th > 1e-16) (hn : t.sq ≤ th ^ 2) :
    ∃ out v Z, prepareTruncateR O t D th = .ok (out, [], v, Z) := by
  have hsv := hO.svd t.rowMat
  have hS1 : norm2 (O.svd t.rowMat).2.1 ^ 2 = t.sq := by
    rw [hsv.norm2_eq, normF_sq]
    apply rowMat_sq t t rfl rfl rfl
    intro i hi j hj x hx
    simp only [Ten.rowMat]
    rw [idx_div hi, idx_mod hi]
  have hall : ∀ x ∈ (O.svd t.rowMat).2.1, ¬ x > th := by
    intro x hx hgt
    obtain ⟨k, hk, rfl⟩ := List.mem_iff_getElem.mp hx
    rw [norm2_sq] at hS1
    have h5 : (O.svd t.rowMat).2.1.getD k 0 ^ 2 ≤ ∑ k ∈ range (O.svd t.rowMat).2.1.length, (O.svd t.rowMat).2.1.getD k 0 ^ 2 :=
      single_le_sum (f := fun k => (O.svd t.rowMat).2.1.getD k 0 ^ 2) (fun _ _ => by positivity) (mem_range.mpr hk)
    rw [hS1, List.getD_eq_getElem _ _ hk] at h5
    have : (0 : ℝ) < th := lt_trans (by norm_num) hth
    nlinarith
  have hnil : truncS (O.svd t.rowMat).2.1 D th = [] := by
    unfold truncS
    have : (O.svd t.rowMat).2.1.filter (fun x => decide (x > th)) = [] := by
      rw [List.filter_eq_nil_iff]; intro x hx; simpa using hall x hx
    rw [if_pos hth, this]
    cases D <;> simp
  unfold prepareTruncateR
  simp only [hnil, normalise, if_true]
  exact ⟨_, _, _, rfl⟩

/-- tensor of a single site `|0>+|1>`. -/
def plusT : Ten ℂ := ⟨1, 1, 2, fun _ _ _ => 1⟩

example : ∃ (O : LinAlg), O.Spec ∧ ∃ out s v Z, prepareTruncateR O plusT (some 1) 1e-16 = .ok (out, s, v, Z) ∧
    s.length = 1 ∧ ∃ out' v' Z', prepareTruncateR O plusT (some 1) 2 = .ok (out', [], v', Z') := by
  obtain ⟨O, hO⟩ := exists_linAlg
  obtain ⟨⟨out, s, v, Z, h1, h2⟩, -⟩ := C59_prepareTruncate_keeps_one hO (t := plusT) (some 1) 1e-16 (i := 0) (j := 0)
    (x := 0) (by norm_num [plusT]) (by norm_num [plusT]) (by norm_num [plusT]) (by norm_num [plusT])
  refine ⟨O, hO, out, s, v, Z, h1, ?_, ?_⟩
  · have h3 := (C59_prepareTruncate_right hO h1).2.2.2.2.1 1 rfl
    have := List.length_pos_iff.mpr (h2 le_rfl (by simp))
    omega
  · apply C59_prepareTruncate_violated_large_thresh hO (by norm_num)
    simp [Ten.sq, plusT]; norm_num

/-! ## C24 -/

/-- The truncating `position(0)` from the right end of a canonical object. -/
theorem position_trunc {O : LinAlg} (hO : O.Spec) {m m' : MPS} {l r : ℕ} {sth : ℝ} {D : Option ℕ}
    (hw : m.WF l r) (hp : m.pos = m.N) (hN : 0 < m.N) (hc : m.Canonical)
    (h : m.position O 0 sth D = .ok m') :
    m'.WF l r ∧ m'.pos = 0 ∧ m'.N = m.N ∧ m'.ds = m.ds ∧ m'.Dmax = m.Dmax ∧ m'.obc = m.obc ∧
      (∀ t ∈ m'.tensors, RightOrth t) ∧
      (∀ b ≤ m.N, m'.bondDim b ≤ m.bondDim b) ∧
      (∀ D', D = some D' → m'.mat.c ≤ D' ∧ ∀ b < m.N, 0 < b → m'.bondDim b ≤ D') ∧
      m'.mat.r = l ∧ m'.bondDim m.N = r ∧
      (m'.mat.c ≠ 0 → m'.Canonical ∧ m'.Z = m.Z) := by
  obtain ⟨A, C0, t, B, hts, hA, hlen⟩ := tensors_splitL m hw (b := 0) (by omega)
  have hA0 : A = [] := List.length_eq_zero_iff.mp hA
  subst hA0
  have hB0 : B = [] := by
    have := hw.len; rw [hts] at this
    simp only [List.nil_append, List.length_append, List.length_cons] at this
    simp only [List.length_nil] at hlen
    exact List.length_eq_zero_iff.mp (by omega)
  subst hB0
  simp only [List.nil_append] at hts
  have htake : m.tensors.take m.pos = C0 ++ [t] := by
    rw [List.take_of_length_le (by rw [hw.len, hp])]; exact hts
  have hdrop : m.tensors.drop m.pos = [] := List.drop_of_length_le (by rw [hw.len, hp])
  have hL := hw.left
  have hR := hw.right
  rw [htake] at hL
  rw [hdrop] at hR
  have hR : m.mat.c = r := hR
  have hlo := hc.left'
  rw [htake] at hlo
  unfold MPS.position at h
  rw [if_neg (by simp), if_neg (by simp)] at h
  simp only [Int.toNat_zero] at h
  rw [if_neg (by omega), if_neg (by omega)] at h
  have hlAC : m.pos - 1 = C0.length := by simp at hlen; omega
  have hg : getT m.tensors (m.pos - 1) = .ok t := by
    rw [hts]; exact getT_append' _ _ _ hlAC
  rw [hg] at h
  simp only at h
  rw [linked_append] at hL
  obtain ⟨n, hL, ht1⟩ := hL
  obtain ⟨rfl, hcm⟩ := ht1
  have hcm : t.r = m.mat.r := hcm
  obtain ⟨t', ht'⟩ : ∃ t', absorbR t m.mat = .ok t' := ⟨_, absorbR_ok hcm⟩
  rw [ht'] at h
  simp only at h
  obtain ⟨-, hte⟩ := absorbR_eq ht'
  have hset : m.tensors.set (m.pos - 1) t' = [] ++ C0 ++ [t'] := by
    rw [hts]
    simpa using set_append' C0 t t' [] hlAC
  have hlinked : Linked l ([] ++ C0 ++ [t']) r := by
    rw [List.nil_append, linked_append]
    exact ⟨t.l, hL, by rw [hte], by rw [hte]; exact hR⟩
  split at h
  · cases h
  rename_i w hsw
  simp only [Except.ok.injEq] at h
  have e2 : m.pos - 0 = C0.length + 1 := by simp at hlen; omega
  rw [hset, e2] at hsw
  obtain ⟨C, hwt, hS⟩ := sweepL_trunc (cutL_trunc hO (sth := m.effSth sth) (D := D)) [] C0 t' [] m.mat m.Z w hlinked hsw
  simp only [List.nil_append, List.append_nil] at hwt
  have hSr := hS.right
  rw [List.append_nil] at hSr
  have hSl : l = w.mat.r := hS.left
  have hClen : C.length = m.N := by rw [hS.len]; omega
  have hle : ∀ k : ℕ, (C[k]?.map Ten.l).getD 0 ≤ (m.tensors[k]?.map Ten.l).getD 0 := by
    intro k
    have hle2 : List.Forall₂ (fun (c : Ten ℂ) (n : ℕ) => c.l ≤ n) C (m.tensors.map Ten.l) := by
      have h2 := (List.forall₂_map_right_iff (R := fun (c : Ten ℂ) (n : ℕ) => c.l ≤ n)
          (f := Ten.l)).mpr hS.le
      rw [hts]; simpa [hte] using h2
    have e : (m.tensors[k]?.map Ten.l).getD 0 = ((m.tensors.map Ten.l)[k]?).getD 0 := by
      rw [List.getElem?_map]
    rw [e]
    by_cases hk : k < C.length
    · have h3 := (List.forall₂_iff_get.mp hle2)
      have hk2 : k < (m.tensors.map Ten.l).length := by rw [← h3.1]; exact hk
      have h4 := h3.2 k hk hk2
      rw [List.getElem?_eq_getElem hk, List.getElem?_eq_getElem hk2]
      simpa using h4
    · rw [List.getElem?_eq_none (by omega)]; simp
  have hm'pos : m'.pos = 0 := by rw [← h]
  have hbond : ∀ b < m.N, 0 < b → m'.bondDim b = (C[b]?.map Ten.l).getD 0 := by
    intro b hb hb0
    have h1 := linked_getElem_l hSr (k := b) (by omega)
    rw [if_neg (by omega)] at h1
    unfold MPS.bondDim
    rw [if_neg (by omega), if_neg (by omega), h1, ← h]
    simp only [hwt]
  have hC0 : (C[0]?.map Ten.l).getD 0 = w.mat.c := by
    have h1 := linked_getElem_l hSr (k := 0) (by omega)
    simpa using h1
  have hmbond : ∀ b < m.N, 0 < b → m.bondDim b = (m.tensors[b]?.map Ten.l).getD 0 := by
    intro b hb hb0
    unfold MPS.bondDim
    rw [if_neg (by omega), if_pos (by omega)]
  have hm'N : m'.bondDim m.N = r := by
    have h1 := linked_last hSr (k := m.N - 1) (by omega)
    unfold MPS.bondDim
    rw [if_neg (by omega), if_neg (by omega), ← h]
    simp only [hwt]
    exact h1
  have hleD : ∀ D', D = some D' → ∀ b : ℕ, (C[b]?.map Ten.l).getD 0 ≤ D' := by
    intro D' hD' b
    cases hb : C[b]? with
    | none => simp
    | some c => exact hS.leD D' hD' c (List.mem_of_getElem? hb)
  refine ⟨?_, hm'pos, ?_, ?_, ?_, ?_, ?_, ?_, ?_, ?_, hm'N, ?_⟩
  · subst h
    refine ⟨by simp only [hwt, hClen], by simp, ?_, ?_⟩
    · simp only [List.take_zero]; exact hS.left
    · simp only [List.drop_zero, hwt]; exact hSr
  · rw [← h]
  · rw [← h]; unfold MPS.ds; simp only [hwt, hS.ds, hts]; simp [hte]
  · rw [← h]
  · rw [← h]
  · rw [← h]; simp only [hwt]; exact hS.orth
  · intro b hb
    rcases Nat.eq_zero_or_pos b with rfl | hb0
    · have e1 : m'.bondDim 0 = max w.mat.r w.mat.c := by unfold MPS.bondDim; rw [if_pos hm'pos.symm, ← h]
      have e3 : m.bondDim 0 = l := by
        unfold MPS.bondDim; rw [if_neg (by omega), if_pos (by omega)]
        have h2 : Linked l (C0 ++ [t]) m.mat.r := by rw [linked_append]; exact ⟨t.l, hL, rfl, hcm⟩
        have h1 := linked_getElem_l h2 (k := 0) (by simp)
        rw [hts]; simpa using h1
      have e4 : w.mat.c ≤ l := by
        rw [← hC0, ← e3]
        unfold MPS.bondDim; rw [if_neg (by omega), if_pos (by omega)]; exact hle 0
      rw [e1, e3, ← hSl]; exact max_le le_rfl e4
    · rcases Nat.lt_or_ge b m.N with hlt | hge
      · rw [hbond b hlt hb0, hmbond b hlt hb0]; exact hle b
      · have : b = m.N := by omega
        subst this
        rw [hm'N]
        unfold MPS.bondDim
        rw [if_pos hp.symm, hR]; exact le_max_right _ _
  · intro D' hD'
    refine ⟨?_, ?_⟩
    · rw [← h]; simp only; rw [← hC0]; exact hleD D' hD' 0
    · intro b hb hb0; rw [hbond b hb hb0]; exact hleD D' hD' b
  · rw [← h]; exact hSl.symm
  · intro h0
    have h0' : w.mat.c ≠ 0 := by rw [← h] at h0; exact h0
    refine ⟨⟨?_, ?_, ?_⟩, ?_⟩
    · intro x u _ hx; omega
    · intro x u hx _
      rw [← h] at hx; simp only [hwt] at hx
      exact hS.orth u (List.mem_of_getElem? hx)
    · rw [← h]; exact hS.norm h0'
    · rw [← h]
      exact hS.Zeq (fun c hc' => hlo c (by simp [hc'])) (absorbR_sq ht' (hlo t (by simp)) hc.norm) h0'

/-- **C24.** `truncate` on an open chain: position 0, same local dimensions, every tensor
right-orthonormal, no bond grows and, with `D` given, every bond dimension is at most `D`.  Unless every
Schmidt value of a bond is thrown away (threshold above all of them) the result is canonical and has the
same norm as before. -/
theorem C24_truncate {O : LinAlg} (hO : O.Spec) (inf : MPS → Res MPS) {m m' : MPS} {th : ℝ}
    {D : Option ℕ} (hw : m.WF 1 1) (hobc : m.obc = true) (hs : m.sth < 1e-15) (hN : 0 < m.N)
    (hD : ∀ D', D = some D' → 1 ≤ D' ∧ D' ≤ m.Dmax) (h : m.truncate O inf th D = .ok m') :
    m'.WF 1 1 ∧ m'.pos = 0 ∧ m'.N = m.N ∧ m'.ds = m.ds ∧ (∀ t ∈ m'.tensors, RightOrth t) ∧
      (∀ b ≤ m.N, m'.bondDim b ≤ m.bondDim b ∧ ∀ D', D = some D' → m'.bondDim b ≤ D') ∧
      (m'.mat.c ≠ 0 → m'.Canonical ∧ m'.normSq 1 1 = m.normSq 1 1) := by
  unfold MPS.truncate at h
  rw [if_neg (by
    cases D with
    | none => simp
    | some D => simp [(hD D rfl).2]), if_pos hobc] at h
  split at h
  · cases h
  rename_i m1 h1
  obtain ⟨-, -, M1, -⟩ := position_one hO hs hw h1
  split at h
  · cases h
  rename_i m2 h2
  obtain ⟨-, -, M2, -⟩ := position_one hO (by rw [M1.sth]; exact hs) M1.wf h2
  simp only [Int.toNat_natCast] at M2
  have hc2 : m2.Canonical := canonical_of_sweep M2 (by rw [M1.N]; exact hN)
    (Or.inr ⟨by rw [M1.pos]; rfl, rfl⟩)
  obtain ⟨a1, a2, a3, a4, -, -, a7, a8, a9, a10, a11, a12⟩ := position_trunc hO M2.wf
    (by rw [M2.pos, M2.N]) (by rw [M2.N, M1.N]; exact hN) hc2 h
  have hbb : ∀ b ≤ m.N, m2.bondDim b ≤ m.bondDim b := by
    intro b hb
    exact (M2.bond b (by rw [M1.N]; exact hb)).trans (M1.bond b hb)
  have hN2 : m2.N = m.N := M2.N.trans M1.N
  refine ⟨a1, a2, a3.trans hN2, a4.trans (M2.ds.trans M1.ds), a7, ?_, ?_⟩
  · intro b hb
    refine ⟨(a8 b (by omega)).trans (hbb b hb), ?_⟩
    intro D' hD'
    rcases Nat.eq_zero_or_pos b with rfl | hb0
    · unfold MPS.bondDim; rw [if_pos a2.symm, a10]
      exact max_le (hD D' hD').1 (a9 D' hD').1
    · rcases Nat.lt_or_ge b m.N with hlt | hge
      · exact (a9 D' hD').2 b (by omega) hb0
      · have : b = m2.N := by omega
        rw [this, a11]; exact (hD D' hD').1
  · intro h0
    obtain ⟨hc, hZ⟩ := a12 h0
    refine ⟨hc, ?_⟩
    rw [canonical_normSq a1 hc, hZ, ← canonical_normSq M2.wf hc2]
    unfold MPS.normSq
    rw [M2.ds, M1.ds]
    apply sumCfg_congr; intro s hcfg
    apply sum_congr rfl; intro i hi
    apply sum_congr rfl; intro j _
    rw [M2.amp s (cfg_of_ds M1.ds (cfg_iff_map.mpr hcfg)) i (mem_range.mp hi) j,
      M1.amp s (cfg_iff_map.mpr hcfg) i (mem_range.mp hi) j]

/-- **C24.** Nothing happens if `D` exceeds the recorded maximal bond dimension `_D`. -/
theorem C24_truncate_noop (O : LinAlg) (inf : MPS → Res MPS) (m : MPS) (th : ℝ) {D : ℕ}
    (h : m.Dmax < D) : m.truncate O inf th (some D) = .ok m := by
  unfold MPS.truncate; simp [h]

theorem cutL_ok {O : LinAlg} (hO : O.Spec) (sth : ℝ) (D : Option ℕ) (t : Ten ℂ)
    (ht : t.sq = 1 ∨ (¬ (sth < 1e-15 ∧ D = none) ∧ t.r = 0)) : ∃ r, cutL O sth D t = .ok r := by
  unfold cutL
  by_cases hp : sth < 1e-15 ∧ D = none
  · rw [if_pos hp]
    have h1 : t.sq = 1 := ht.resolve_right (fun h => h.1 hp)
    cases h : prepareTensor O t (-1) with
    | ok r => exact ⟨r, rfl⟩
    | error e =>
      simp only [prepareTensor] at h
      have h2 := (prepareTensorL_err hO h).2
      have : t.sq = 0 := by
        unfold Ten.sq
        refine sum_eq_zero fun i hi => sum_eq_zero fun j hj => sum_eq_zero fun x hx => ?_
        rw [h2 i (mem_range.mp hi) j (mem_range.mp hj) x (mem_range.mp hx)]; simp
      linarith
  · rw [if_neg hp]
    cases h : prepareTruncateL O t D sth with
    | ok r => obtain ⟨u, s, out, Z⟩ := r; exact ⟨_, rfl⟩
    | error e =>
      exfalso
      rcases ht with ht | ⟨-, ht⟩
      · have := (prepareTruncate_err hO (Or.inl h)).2; linarith
      · have hsv := hO.svd t.colMat
        have h0 : (O.svd t.colMat).2.1 = [] := by
          apply List.length_eq_zero_iff.mp
          rw [hsv.len]; simp [Ten.colMat, ht]
        have h1 : truncS (O.svd t.colMat).2.1 D sth = [] := by
          rw [h0]; unfold truncS; cases D <;> simp
        unfold prepareTruncateL at h
        simp [h1, normalise] at h

/-- **C24**, progress: `truncate` succeeds on every non-vanishing state, whatever the threshold and `D`. -/
theorem C24_truncate_succeeds {O : LinAlg} (hO : O.Spec) (inf : MPS → Res MPS) {m : MPS} (th : ℝ)
    (D : Option ℕ) (hw : m.WF 1 1) (hobc : m.obc = true) (hs : m.sth < 1e-15) (hN : 0 < m.N)
    {s : List ℕ} {j : ℕ} (hcfg : Cfg m.tensors s) (hne : m.amp s 0 j ≠ 0) :
    ∃ m', m.truncate O inf th D = .ok m' := by
  unfold MPS.truncate
  have hif : ∀ (c : Bool) (x : Res MPS), (∃ m', x = .ok m') → ∃ m', (if c = true then .ok m else x) = .ok m' := by
    intro c x hx
    cases c
    · simpa using hx
    · exact ⟨m, rfl⟩
  apply hif
  rw [if_pos hobc]
  have hpos : ∃ m2, m.positions O [0, (m.N : ℤ)] = .ok m2 :=
    C07_position_succeeds hO [0, (m.N : ℤ)] hw hs (by intro b hb; simp at hb; omega)
      ⟨s, 0, j, hcfg, one_pos, hne⟩
  obtain ⟨m2, hm2⟩ := hpos
  simp only [MPS.positions] at hm2
  split at hm2
  · cases hm2
  rename_i m1 h1
  obtain ⟨-, -, M1, -⟩ := position_one hO hs hw h1
  split at hm2
  · cases hm2
  rename_i m2' h2
  simp only [Except.ok.injEq] at hm2
  subst hm2
  obtain ⟨-, -, M2, -⟩ := position_one hO (by rw [M1.sth]; exact hs) M1.wf h2
  simp only [Int.toNat_natCast] at M2
  have hc : m2'.Canonical := canonical_of_sweep M2 (by rw [M1.N]; exact hN)
    (Or.inr ⟨by rw [M1.pos]; rfl, M1.N.symm⟩)
  rw [h1]
  simp only [M1.N, h2]
  -- the truncating sweep
  have hp : m2'.pos = m2'.N := by rw [M2.pos, M2.N, M1.N]
  have hw2 := M2.wf
  have hN2 : 0 < m2'.N := by rw [M2.N, M1.N]; exact hN
  obtain ⟨A, C0, t, B, hts, hA, hlen⟩ := tensors_splitL m2' hw2 (b := 0) (by omega)
  have hA0 : A = [] := List.length_eq_zero_iff.mp hA
  subst hA0
  have hB0 : B = [] := by
    have := hw2.len; rw [hts] at this
    simp only [List.nil_append, List.length_append, List.length_cons] at this
    simp only [List.length_nil] at hlen
    exact List.length_eq_zero_iff.mp (by omega)
  subst hB0
  simp only [List.nil_append] at hts
  have htake : m2'.tensors.take m2'.pos = C0 ++ [t] := by
    rw [List.take_of_length_le (by rw [hw2.len, hp])]; exact hts
  have hdrop : m2'.tensors.drop m2'.pos = [] := List.drop_of_length_le (by rw [hw2.len, hp])
  have hL := hw2.left
  have hR := hw2.right
  rw [htake] at hL
  rw [hdrop] at hR
  have hR : m2'.mat.c = 1 := hR
  have hlo := hc.left'
  rw [htake] at hlo
  unfold MPS.position
  rw [if_neg (by simp), if_neg (by simp)]
  simp only [Int.toNat_zero]
  rw [if_neg (by omega), if_neg (by omega)]
  have hlAC : m2'.pos - 1 = C0.length := by simp at hlen; omega
  have hg : getT m2'.tensors (m2'.pos - 1) = .ok t := by
    rw [hts]; exact getT_append' _ _ _ hlAC
  rw [hg]
  simp only
  rw [linked_append] at hL
  obtain ⟨n, hL, ht1⟩ := hL
  obtain ⟨rfl, hcm⟩ := ht1
  have hcm : t.r = m2'.mat.r := hcm
  obtain ⟨t', ht'⟩ : ∃ t', absorbR t m2'.mat = .ok t' := ⟨_, absorbR_ok hcm⟩
  rw [ht']
  simp only
  obtain ⟨-, hte⟩ := absorbR_eq ht'
  have hset : m2'.tensors.set (m2'.pos - 1) t' = [] ++ C0 ++ [t'] := by
    rw [hts]
    simpa using set_append' C0 t t' [] hlAC
  have hlinked : Linked 1 ([] ++ C0 ++ [t']) 1 := by
    rw [List.nil_append, linked_append]
    exact ⟨t.l, hL, by rw [hte], by rw [hte]; exact hR⟩
  have e2 : m2'.pos - 0 = C0.length + 1 := by simp at hlen; omega
  rw [hset, e2]
  obtain ⟨w, hsw⟩ := sweepL_trunc_succeeds (cutL_trunc hO (sth := m2'.effSth th) (D := D))
    (P := ¬ (m2'.effSth th < 1e-15 ∧ D = none)) (cutL_ok hO _ _)
    (by
      intro t a m z h h0 hp
      have h3 := h
      unfold cutL at h3
      rw [if_pos hp] at h3
      simp only [prepareTensor] at h3
      have := (prepareTensorL_spec hO h3).norm
      rw [normF, h0] at this
      simp at this)
    [] C0 t' [] m2'.mat m2'.Z hlinked (fun c hc' => hlo c (by simp [hc']))
    (Or.inl (absorbR_sq ht' (hlo t (by simp)) hc.norm))
  simp only [List.nil_append, List.length_nil] at hsw
  simp only [List.nil_append]
  rw [hsw]
  exact ⟨_, rfl⟩

/-- The recorded maximal bond dimension `_D` is not updated by a two-site gate. -/
theorem applyTwoSiteGate_Dmax {O : LinAlg} (hO : O.Spec) {m p : MPS} {l r n : ℕ} {g : Gate2}
    {D : ℕ} {th tw : ℝ} {k : ℕ} (hw : m.WF l r) (hs : m.sth < 1e-15) (hn : n + 1 < m.N)
    (h : m.applyTwoSiteGate O g n (some D) th = .ok (tw, k, p)) : p.Dmax = m.Dmax := by
  obtain ⟨m1, A, t, w, B, T, U, S, V, s, hM, -, -, -, -, -, -, -, -, -, -, -, -, -, -, -, hp⟩ :=
    (applyTwoSiteGate_ok hO hw hs hn h).ex
  rw [hp]; exact hM.Dmax

/-- tensors of two Bell pairs on the sites `(0,1)` and `(2,3)`. -/
def bellT : List (Ten ℂ) :=
  [⟨1, 2, 2, fun _ j s => delta ℂ j s⟩, ⟨2, 1, 2, fun i _ s => delta ℂ i s⟩,
   ⟨1, 2, 2, fun _ j s => delta ℂ j s⟩, ⟨2, 1, 2, fun i _ s => delta ℂ i s⟩]

theorem four_le_of_identity {k : ℕ} (x : ℕ → ℕ → ℕ → ℂ) (y : ℕ → ℕ → ℕ → ℂ)
    (h : ∀ a < 2, ∀ b < 2, ∀ c < 2, ∀ d < 2,
      ∑ q ∈ range k, x a b q * y q c d = delta ℂ a c * delta ℂ b d) : 4 ≤ k := by
  let X : Matrix (Fin 2 × Fin 2) (Fin k) ℂ := fun ab q => x ab.1 ab.2 q
  let Y : Matrix (Fin k) (Fin 2 × Fin 2) ℂ := fun q cd => y q cd.1 cd.2
  have hXY : X * Y = 1 := by
    ext ⟨a, b⟩ ⟨c, d⟩
    rw [Matrix.mul_apply]
    simp only [X, Y]
    rw [Fin.sum_univ_eq_sum_range (fun q => x a b q * y q c d), h a a.2 b b.2 c c.2 d d.2]
    simp only [delta, Matrix.one_apply, Prod.mk.injEq, Fin.ext_iff]
    split_ifs <;> simp_all
  have h8 := Matrix.rank_mul_le_left X Y
  rw [hXY, Matrix.rank_one] at h8
  have h9 := h8.trans (Matrix.rank_le_card_width X)
  simpa using h9

/-- **C24 is violated**: `truncate` trusts the bond dimension recorded by the constructor, which gates
never update.  `MPS(tensors)` of two Bell pairs, one SWAP in the middle (giving bond dimension 4), then
`truncate(D=3)`: the object comes back unchanged, with a bond dimension of 4. -/
theorem C24_truncate_violated_stale_D {O : LinAlg} (hO : O.Spec) (inf : MPS → Res MPS) (th : ℝ) :
    ∃ m p tw k, MPS.init bellT 1e-16 1e-14 = .ok m ∧
      m.applyTwoSiteGate O swapGate 1 (some 5) 0 = .ok (tw, k, p) ∧
      p.truncate O inf th (some 3) = .ok p ∧ 3 < p.bondDim 2 := by
  obtain ⟨m, hm⟩ : ∃ m, MPS.init bellT 1e-16 1e-14 = .ok m := ⟨_, rfl⟩
  have hmN : m.N = 4 := by simp [MPS.init, bellT] at hm; rw [← hm]
  have hmD : m.Dmax = 2 := by simp [MPS.init, bellT, Ten.maxDim] at hm; rw [← hm]
  have hms : m.sth < 1e-15 := by simp [MPS.init, bellT] at hm; rw [← hm]; norm_num
  have hmds : m.ds = [2, 2, 2, 2] := by simp [MPS.init, bellT] at hm; rw [← hm]; simp [MPS.ds]
  have hmw : m.WF 1 1 := by
    simp [MPS.init, bellT] at hm
    rw [← hm]
    refine ⟨rfl, le_rfl, ?_, ?_⟩ <;> simp [Linked]
  obtain ⟨ζ, hζ, hmamp⟩ : ∃ ζ : ℂ, ζ ≠ 0 ∧ ∀ a < 2, ∀ b < 2, ∀ c < 2, ∀ d < 2, m.amp [a, b, c, d] 0 0
      = ζ * (delta ℂ a b * delta ℂ c d) := by
    refine ⟨-1e10, by norm_num, ?_⟩
    intro a ha b hb c hc d hd
    simp [MPS.init, bellT] at hm
    rw [← hm]
    simp only [MPS.amp, List.take, List.drop, chain, sum_range_succ, range_zero, sum_empty]
    simp only [delta]
    split_ifs <;> first | omega | simp_all
  have hn : 1 + 1 < m.N := by omega
  have hcfg : Cfg m.tensors [0, 0, 0, 0] := by
    rw [cfg_iff_map, show m.tensors.map Ten.d = m.ds from rfl, hmds]; simp
  obtain ⟨tw, k, p, h⟩ := C22_applyTwoSiteGate_succeeds hO (n := 1) (g := swapGate) (th := 0) 5 hmw hms hn
    (by rw [hmds]; rfl) (by rw [hmds]; rfl) le_rfl hcfg (i := 0) (j := 0) one_pos
    (by rw [hmamp 0 (by norm_num) 0 (by norm_num) 0 (by norm_num) 0 (by norm_num)]; simp [delta, hζ])
  have hD := applyTwoSiteGate_Dmax hO hmw hms hn h
  obtain ⟨m1, A, B, L, R, M, U, S, V, z0, hM1, -, hA, hLA, -, hMr, -, hsv, hk, -, -, -,
    ⟨t, w, hpt, htd, hwd, htl, htr, hwl, hwr, -, -⟩, -, hmr, hmc, -, hpos, -⟩ :=
    (applyTwoSiteGate_ok hO hmw hms hn h).blocks
  have hL2 : L ≤ 2 := by
    obtain ⟨m1, A', t', w', B', T', U', S', V', s', hM', -, hts', hA', hab', hLA', -, -, -, -, -, -, -, -, -, -, hp⟩ :=
      (applyTwoSiteGate_ok hO hmw hms hn h).ex
    have e1 : t'.l = L := by
      have h1 : p.tensors = A ++ t :: w :: B := hpt
      rw [hp] at h1
      simp only at h1
      have h2 := congrArg (fun x => (x[1]?.map Ten.l).getD 0) h1
      simp only [List.getElem?_append_right (Nat.le_of_eq hA'), List.getElem?_append_right (Nat.le_of_eq hA), hA, hA'] at h2
      simpa [htl] using h2
    have hb := hM'.bond 1 (by omega)
    have e2 : m1.bondDim 1 = t'.l := by
      unfold MPS.bondDim
      rw [if_neg (by rw [hM'.pos]; norm_num), if_pos (by rw [hM'.pos]; norm_num), hts',
        List.getElem?_append_right (Nat.le_of_eq hA'), hA']
      simp
    have e3 : m.bondDim 1 = 2 := by
      simp [MPS.init, bellT] at hm
      rw [← hm]; simp [MPS.bondDim]
    omega
  have hk4 : k < 5 := by
    have h1 := hsv.len
    have h2 : k ≤ S.length := by rw [hk]; exact (min_le_left _ _).trans (List.length_filter_le _ _)
    have h3 : M.r ≤ 4 := by rw [hMr]; show L * 2 ≤ 4; omega
    omega
  have htw := C22_exact_if_not_exhausted hO hmw hms hn h hk4
  subst htw
  obtain ⟨-, -, -, h4, z, hz, h5⟩ := C22_applyTwoSiteGate hO hmw hms hn h
  refine ⟨m, p, 0, k, hm, by simpa using h, C24_truncate_noop O inf p th (by rw [hD, hmD]; norm_num), ?_⟩
  have hkge : 4 ≤ k := by
    apply four_le_of_identity
      (fun a b q => ζ⁻¹ * z * p.Z * chain (p.tensors.take 2) [a, b] 0 q)
      (fun q c d => ∑ q' ∈ range k, p.mat.v q q' * chain (p.tensors.drop 2) [c, d] q' 0)
    intro a ha b hb c hc d hd
    have h6 := h5 [a, b, c, d] (by
      rw [cfg_iff_map, show p.tensors.map Ten.d = p.ds from rfl, h4, hmds]
      simp [swapGate, ha, hb, hc, hd]) 0 one_pos 0
    have h7 : ∑ q ∈ range k, (ζ⁻¹ * z * p.Z * chain (p.tensors.take 2) [a, b] 0 q) *
        (∑ q' ∈ range k, p.mat.v q q' * chain (p.tensors.drop 2) [c, d] q' 0)
        = ζ⁻¹ * ((z : ℂ) * p.amp [a, b, c, d] 0 0) := by
      unfold MPS.amp
      rw [hpos, hmr, hmc]
      simp only [mul_sum]
      apply sum_congr rfl; intro q _
      apply sum_congr rfl; intro q' _
      simp only [List.take, List.drop]
      ring
    rw [h7, ← h6]
    simp only [act2, swapGate, sum_range_succ, range_zero, sum_empty, List.set]
    simp only [hmamp a ha 0 (by norm_num) 0 (by norm_num) d hd, hmamp a ha 0 (by norm_num) 1 (by norm_num) d hd,
      hmamp a ha 1 (by norm_num) 0 (by norm_num) d hd, hmamp a ha 1 (by norm_num) 1 (by norm_num) d hd]
    clear * - ha hb hc hd hζ
    interval_cases a <;> interval_cases b <;> interval_cases c <;> interval_cases d <;> simp [delta, hζ]
  unfold MPS.bondDim
  rw [if_pos hpos.symm, hmr, hmc]
  simp; omega

example : ∃ (O : LinAlg) (m' : MPS), O.Spec ∧ ghz.truncate O (fun m => .ok m) 1e-16 (some 1) = .ok m' ∧
    m'.bondDim 1 ≤ 1 ∧ m'.bondDim 2 ≤ 1 ∧ ghz.bondDim 1 = 2 := by
  obtain ⟨O, hO⟩ := exists_linAlg
  obtain ⟨m', h⟩ := C24_truncate_succeeds hO (fun m => .ok m) 1e-16 (some 1) ghz_wf rfl (by norm_num [ghz])
    (by norm_num [ghz]) (ghz_cfg 1 1 1 (by norm_num) (by norm_num) (by norm_num)) (j := 0)
    (by rw [ghz_amp _ _ _ (by norm_num) (by norm_num) (by norm_num)]; simp)
  obtain ⟨-, -, -, -, -, h6, -⟩ := C24_truncate hO _ ghz_wf rfl (by norm_num [ghz]) (by norm_num [ghz])
    (by intro D' hD'; cases hD'; simp [ghz]) h
  exact ⟨O, m', hO, h, (h6 1 (by simp [ghz])).2 1 rfl, (h6 2 (by simp [ghz])).2 1 rfl, by simp [MPS.bondDim, ghz, ghzT]⟩

end

end PyTeN
