import Verif.Props.TruncError
import Verif.Props.OrthoTrunc

/-! # The error of `truncateMPS` (C99) -/

namespace PyTeN
open Finset

noncomputable section

namespace Ortho

/-! ## Mirror images -/

/-- The mirror image of a tensor. -/
def tT (t : Ten ℂ) : Ten ℂ := ⟨t.r, t.l, t.d, fun i j x => t.v j i x⟩

/-- Transposed matrix. -/
def mT (m : Mat ℂ) : Mat ℂ := ⟨m.c, m.r, fun i j => m.v j i⟩

/-- The mirror image of a list of tensors. -/
def mir (ts : List (Ten ℂ)) : List (Ten ℂ) := (ts.map tT).reverse

theorem mir_cons (t : Ten ℂ) (ts : List (Ten ℂ)) : mir (t :: ts) = mir ts ++ [tT t] := by simp [mir]

theorem linked_mir : ∀ {ts : List (Ten ℂ)} {l r : ℕ}, Linked l ts r → Linked r (mir ts) l := by
  intro ts
  induction ts with
  | nil => intro l r h; exact h.symm
  | cons t ts ih =>
    intro l r h
    rw [mir_cons, linked_append]
    exact ⟨t.r, ih h.2, rfl, h.1⟩

theorem chain_mir : ∀ {ts : List (Ten ℂ)} {l r : ℕ}, Linked l ts r → ∀ s, s.length = ts.length → ∀ i < l, ∀ j < r,
    chain (mir ts) s.reverse j i = chain ts s i j := by
  intro ts
  induction ts with
  | nil =>
    intro l r _ s hs i _ j _
    have : s = [] := List.length_eq_zero_iff.mp (by simpa using hs)
    subst this
    simp [mir, chain, delta, eq_comm]
  | cons t ts ih =>
    intro l r h s hs i hi j hj
    cases s with
    | nil => simp at hs
    | cons x s =>
      have hs' : s.length = ts.length := by simpa using hs
      rw [mir_cons, List.reverse_cons, chain_append (linked_mir h.2) _ _ (by simp [mir, hs']) hj]
      rw [chain]
      refine sum_congr rfl fun k hk => ?_
      rw [ih h.2 s hs' k (mem_range.mp hk) j hj, chain_one (t := tT t) (by rw [show (tT t).r = t.l from rfl, h.1]; exact hi)]
      simp only [tT]
      ring

theorem sumCfg_reverse (ds : List ℕ) (f : List ℕ → ℂ) : sumCfg ds.reverse f = sumCfg ds (fun s => f s.reverse) := by
  induction ds generalizing f with
  | nil => simp [sumCfg]
  | cons d ds ih =>
    rw [List.reverse_cons, sumCfg_append, ih]
    simp only [sumCfg]
    rw [sumCfg_sum]
    simp

theorem sumCfg_reverse_real (ds : List ℕ) (f : List ℕ → ℝ) : sumCfg ds.reverse f = sumCfg ds (fun s => f s.reverse) := by
  apply Complex.ofReal_injective
  rw [sumCfg_ofReal, sumCfg_ofReal, sumCfg_reverse]

theorem leftOrth_tT {t : Ten ℂ} (h : RightOrth t) : LeftOrth (tT t) := by
  intro j hj j' hj'
  have := h j' hj' j hj
  simp only [tT]
  rw [show (delta ℂ j j') = delta ℂ j' j by simp [delta, eq_comm], ← this]
  refine sum_congr rfl fun s _ => sum_congr rfl fun i _ => mul_comm _ _

theorem rightOrth_tT {t : Ten ℂ} (h : LeftOrth t) : RightOrth (tT t) := by
  intro i hi i' hi'
  have := h i' hi' i hi
  simp only [tT]
  rw [show (delta ℂ i i') = delta ℂ i' i by simp [delta, eq_comm], ← this]
  refine sum_congr rfl fun s _ => sum_congr rfl fun j _ => mul_comm _ _

theorem absorb_mir {m : Mat ℂ} {u u' : Ten ℂ} (h : absorbL m u = .ok u') : absorbR (tT u) (mT m) = .ok (tT u') := by
  obtain ⟨h1, rfl⟩ := absorbL_eq h
  rw [absorbR_ok (show (tT u).r = (mT m).r from h1.symm)]
  simp only [tT, mT, mul_comm]

/-- The cut of `truncateMPS` seen in the mirror. -/
def cutM (O : LinAlg) (D : ℕ) (t : Ten ℂ) : Res (Ten ℂ × Mat ℂ × ℝ) :=
  match prepareTruncateR O (tT t) (some D) 1e-32 with
  | .error e => .error e
  | .ok (a, lam, v, Z) => .ok (tT a, mT ((diagMat lam).dot v), Z)

theorem diag_dot {v : Mat ℂ} {s : List ℝ} {i : ℕ} (hi : i < s.length) (j : ℕ) :
    ((diagMat s).dot v).v i j = ((s.getD i 0 : ℝ) : ℂ) * v.v i j := by
  simp only [Mat.dot, diagMat]
  rw [sum_eq_single i]
  · simp
  · intro k _ hk; rw [if_neg (Ne.symm hk)]; simp
  · intro h; exact absurd (mem_range.mpr hi) h

theorem tT_sq (t : Ten ℂ) : (tT t).sq = t.sq := by
  unfold Ten.sq
  simp only [tT]
  exact sum_comm

theorem cutM_trunc {O : LinAlg} (hO : O.Spec) {D : ℕ} (t a : Ten ℂ) (m : Mat ℂ) (z : ℝ) (h : cutM O D t = .ok (a, m, z)) :
    TruncL t a m z (some D) := by
  unfold cutM at h
  split at h
  · cases h
  rename_i b lam v Z hp
  cases h
  obtain ⟨S, q⟩ := prepareTruncateR_spec hO hp
  have hlam : lam.length ≤ D := by
    rw [q.kept.2]; unfold truncS; simp only [List.length_take]; omega
  have hSl : lam.length ≤ S.length := by
    have := q.kept; rw [this.2, this.1, List.length_take]; omega
  rw [q.Slen] at hSl
  have hl' : (tT t).l = t.r := rfl
  have hr' : (tT t).r = t.l := rfl
  have hd' : (tT t).d = t.d := rfl
  have hmc : (mT ((diagMat lam).dot v)).c = lam.length := rfl
  refine ⟨?_, ?_, ?_, ?_, ?_, ?_, ?_, q.Z0, ?_, rightOrth_tT q.orth, ?_⟩
  · exact q.ol
  · exact q.od
  · exact q.outr
  · exact q.vc
  · rw [hmc]; rw [hr'] at hSl; omega
  · rw [hmc]; rw [hl', hd'] at hSl; omega
  · rintro D' ⟨⟩; exact hlam
  · rw [q.Zsq, tT_sq]
  · intro h0
    rw [hmc] at h0
    have hne : lam ≠ [] := by rintro rfl; exact h0 rfl
    have hu := q.unit hne
    have : normF (mT ((diagMat lam).dot v)) ^ 2 = 1 := by
      rw [normF_sq, hmc, show (mT ((diagMat lam).dot v)).r = v.c from rfl, q.vc, sum_comm]
      have e : ∀ k ∈ range lam.length, ∑ j ∈ range (tT t).r, Complex.normSq ((mT ((diagMat lam).dot v)).v j k) = lam.getD k 0 ^ 2 := by
        intro k hk
        have hk := mem_range.mp hk
        have e1 : ∀ j, Complex.normSq ((mT ((diagMat lam).dot v)).v j k) = lam.getD k 0 ^ 2 * Complex.normSq (v.v k j) := by
          intro j
          rw [show (mT ((diagMat lam).dot v)).v j k = ((diagMat lam).dot v).v k j from rfl, diag_dot hk, Complex.normSq_mul,
            Complex.normSq_ofReal, sq]
        rw [sum_congr rfl fun j _ => e1 j, ← mul_sum]
        have e2 : ∑ j ∈ range (tT t).r, Complex.normSq (v.v k j) = 1 := by
          apply Complex.ofReal_injective
          push_cast
          have := q.iso k hk k hk
          rw [show (delta ℂ k k) = 1 by simp [delta]] at this
          rw [← this]
          refine sum_congr rfl fun j _ => ?_
          rw [normSq_eq_star_mul, mul_comm]
        rw [e2, mul_one]
      rw [sum_congr rfl e, ← norm2_sq, hu, one_pow]
    have h2 : 0 ≤ normF (mT ((diagMat lam).dot v)) := normF_nonneg _
    nlinarith

theorem svd_transpose {A u v : Mat ℂ} {s : List ℝ} (h : SVDSpec A u s v) : SVDSpec (mT A) (mT v) s (mT u) := by
  have hm : min (mT A).r (mT A).c = min A.r A.c := min_comm _ _
  refine ⟨h.v_c, by rw [hm]; exact h.v_r, by rw [hm]; exact h.len, by rw [hm]; exact h.u_c, h.u_r, h.nonneg, h.sorted, ?_, ?_, ?_⟩
  · intro i hi j hj
    rw [hm]
    refine Eq.trans ?_ (h.prod j hj i hi)
    refine sum_congr rfl fun k _ => ?_
    simp only [mT]; ring
  · intro k hk k' hk'
    rw [hm] at hk hk'
    rw [show delta ℂ k k' = delta ℂ k' k by simp [delta, eq_comm], ← h.isoV k' hk' k hk]
    refine sum_congr rfl fun j _ => ?_
    simp only [mT]; ring
  · intro k hk k' hk'
    rw [hm] at hk hk'
    rw [show delta ℂ k k' = delta ℂ k' k by simp [delta, eq_comm], ← h.isoU k' hk' k hk]
    refine sum_congr rfl fun j _ => ?_
    simp only [mT]; ring

theorem prepareTruncateR_best {O : LinAlg} (hO : O.Spec) {t : Ten ℂ} {D : Option ℕ} {th : ℝ}
    {v : Mat ℂ} {s : List ℝ} {out : Ten ℂ} {Z : ℝ} (h : prepareTruncateR O t D th = .ok (out, s, v, Z)) (h0 : s ≠ []) :
    ∃ c, CutBest (tT t) (tT out) (mT ((diagMat s).dot v)) D th c := by
  unfold prepareTruncateR at h
  simp only at h
  split at h
  · cases h
  rename_i s' hn
  have hsv := svd_transpose (hO.svd t.rowMat)
  set U := (O.svd t.rowMat).1
  set S := (O.svd t.rowMat).2.1
  set V := (O.svd t.rowMat).2.2
  simp only [Except.ok.injEq, Prod.mk.injEq] at h
  obtain ⟨ho, rfl, hu, -⟩ := h
  obtain ⟨hp1, hp2, -, -⟩ := truncS_prefix hsv.sorted D th
  have hst := truncS_stop hsv.sorted D th
  obtain ⟨n1, n2, n3⟩ := normalise_ok hn
  have hcr : (mT t.rowMat).r = t.r := rfl
  have hcc : (mT t.rowMat).c = t.d * t.l := rfl
  have hVr : V.r = min (mT t.rowMat).r (mT t.rowMat).c := hsv.u_c
  have hUc : U.c = min (mT t.rowMat).r (mT t.rowMat).c := hsv.v_r
  have hku : min (truncS S D th).length U.c = s'.length := by rw [hUc, ← hsv.len, n1]; omega
  have hkv : min (truncS S D th).length V.r = s'.length := by rw [hVr, ← hsv.len, n1]; omega
  rw [hku] at ho
  rw [hkv] at hu
  have hT : truncS S D th ≠ [] := by
    intro e; rw [e] at n1; exact h0 (List.length_eq_zero_iff.mp n1)
  have hc2 : norm2 (truncS S D th) ^ 2 = ((S.take s'.length).map (fun x => x ^ 2)).sum := by
    rw [norm2_sq, ← sum_sq_list, n1, ← hp1]
  have hSn : (S.map (fun x => x ^ 2)).sum = (tT t).sq := by
    rw [sum_sq_list, ← norm2_sq, (hO.svd t.rowMat).norm2_eq, normF_sq, tT_sq]
    apply rowMat_sq t t rfl rfl rfl
    intro i hi j hj x hx
    simp only [Ten.rowMat]
    rw [idx_div hi, idx_mod hi]
  have hdrop : (tT t).sq - norm2 (truncS S D th) ^ 2 = ((S.drop s'.length).map (fun x => x ^ 2)).sum := by
    have e := congrArg List.sum (congrArg (List.map fun x : ℝ => x ^ 2) (List.take_append_drop s'.length S))
    rw [List.map_append, List.sum_append, hSn] at e
    rw [hc2]; linarith
  have hd0 : 0 ≤ ((S.drop s'.length).map (fun x => x ^ 2)).sum := by
    rw [sum_sq_list]; exact sum_nonneg fun _ _ => sq_nonneg _
  have hreidx : ∀ F : ℕ → ℝ, ∑ c ∈ range (t.d * t.l), F c = ∑ j ∈ range t.l, ∑ x ∈ range t.d, F (x * t.l + j) := by
    intro F
    rw [sum_range_mul, sum_comm]
  have hreidxC : ∀ F : ℕ → ℂ, ∑ c ∈ range (t.d * t.l), F c = ∑ j ∈ range t.l, ∑ x ∈ range t.d, F (x * t.l + j) := by
    intro F
    rw [sum_range_mul, sum_comm]
  refine ⟨norm2 (truncS S D th), (n2 hT).2, ?_, by linarith, ?_, ?_⟩
  · intro i hi b hb
    have hb : b < s'.length := hb
    have hbn : b < min (mT t.rowMat).r (mT t.rowMat).c := by rw [← hsv.len]; omega
    subst hu ho
    rw [show (mT ((diagMat s').dot ⟨s'.length, V.c, V.v⟩)).v i b = ((diagMat s').dot ⟨s'.length, V.c, V.v⟩).v b i from rfl,
      diag_dot hb]
    have e1 : (norm2 (truncS S D th) : ℂ) * (((s'.getD b 0 : ℝ) : ℂ) * V.v b i) = V.v b i * ((S.getD b 0 : ℝ) : ℂ) := by
      have : S.getD b 0 = norm2 (truncS S D th) * s'.getD b 0 := by
        rw [← n3 b, hp1, List.getD_eq_getElem?_getD, List.getD_eq_getElem?_getD, List.getElem?_take, if_pos (by omega)]
      rw [this]; push_cast; ring
    rw [e1]
    have e2 : ∑ j ∈ range t.l, ∑ x ∈ range t.d, star (U.v (x * t.l + j) b) * t.v j i x
        = ∑ c ∈ range (t.d * t.l), star (U.v c b) * t.rowMat.v c i := by
      rw [hreidxC]
      refine sum_congr rfl fun j hj => sum_congr rfl fun x _ => ?_
      simp only [Ten.rowMat]
      rw [idx_div (mem_range.mp hj), idx_mod (mem_range.mp hj)]
    refine Eq.trans ?_ e2.symm
    have e3 : ∀ c ∈ range (t.d * t.l), star (U.v c b) * t.rowMat.v c i
        = ∑ q ∈ range (min (mT t.rowMat).r (mT t.rowMat).c), V.v q i * ((S.getD q 0 : ℝ) : ℂ) * (U.v c q * star (U.v c b)) := by
      intro c hc
      rw [show t.rowMat.v c i = (mT t.rowMat).v i c from rfl, ← hsv.prod i hi c (mem_range.mp hc), mul_sum]
      refine sum_congr rfl fun q _ => ?_
      simp only [mT]; ring
    rw [sum_congr rfl e3, sum_comm]
    simp only [← mul_sum]
    rw [sum_congr rfl fun q hq => by rw [show ∑ c ∈ range (t.d * t.l), U.v c q * star (U.v c b) = delta ℂ q b from
      hsv.isoV q (mem_range.mp hq) b hbn], sum_delta_right hbn (fun q => V.v q i * ((S.getD q 0 : ℝ) : ℂ))]
  · intro hl
    have hl : t.r ≤ 1 := hl
    have hlen := hsv.len
    rw [hcr] at hlen
    have : 0 < s'.length := List.length_pos_iff.mpr h0
    rw [List.drop_of_length_le (by omega)] at hdrop
    simp at hdrop
    linarith
  · intro X ε hε hth hX
    rw [hdrop]
    have hth : th > 1e-16 → t.r * th ^ 2 ≤ ε := hth
    have hX : ∀ D', D = some D' → ∃ (L : ℕ → ℕ → ℂ) (R : ℕ → ℕ → ℕ → ℂ), ∀ i < t.r, ∀ j < t.l, ∀ x < t.d,
      X i j x = ∑ κ ∈ range D', L κ i * R κ j x := hX
    show _ ≤ ∑ i ∈ range t.r, ∑ j ∈ range t.l, ∑ x ∈ range t.d, Complex.normSq (t.v j i x - X i j x) + ε
    have hn0 : 0 ≤ ∑ i ∈ range t.r, ∑ j ∈ range t.l, ∑ x ∈ range t.d, Complex.normSq (t.v j i x - X i j x) :=
      sum_nonneg fun _ _ => sum_nonneg fun _ _ => sum_nonneg fun _ _ => Complex.normSq_nonneg _
    rcases hst with hst | hst
    · rw [← n1] at hst
      obtain ⟨L, R, hLR⟩ := hX _ hst
      have := hsv.best s'.length L (fun κ c => R κ (c % t.l) (c / t.l))
      refine this.trans ((le_of_eq ?_).trans (le_add_of_nonneg_right hε))
      rw [hcr, hcc]
      refine sum_congr rfl fun i hi => ?_
      rw [hreidx]
      refine sum_congr rfl fun j hj => sum_congr rfl fun x hx => ?_
      simp only [mT, Ten.rowMat]
      rw [idx_div (mem_range.mp hj), idx_mod (mem_range.mp hj), hLR i (mem_range.mp hi) j (mem_range.mp hj) x (mem_range.mp hx)]
    · rw [← n1] at hst
      refine le_trans ?_ (le_add_of_nonneg_left hn0)
      rw [sum_sq_list]
      by_cases hlt : s'.length < S.length
      · have hth' := (hst _ le_rfl hlt).1
        refine le_trans ?_ (hth hth')
        have : ∀ q ∈ range (S.drop s'.length).length, (S.drop s'.length).getD q 0 ^ 2 ≤ th ^ 2 := by
          intro q hq
          have hq := mem_range.mp hq
          rw [List.length_drop] at hq
          rw [List.getD_eq_getElem?_getD, List.getElem?_drop, ← List.getD_eq_getElem?_getD]
          refine pow_le_pow_left₀ ?_ (hst _ (by omega) (by omega)).2 2
          rw [List.getD_eq_getElem _ _ (by omega)]
          exact hsv.nonneg _ (List.getElem_mem _)
        refine (sum_le_sum this).trans ?_
        rw [sum_const, card_range, nsmul_eq_mul]
        refine mul_le_mul_of_nonneg_right ?_ (sq_nonneg _)
        have hlen := hsv.len
        rw [hcr] at hlen
        rw [List.length_drop]
        exact_mod_cast (by omega : S.length - s'.length ≤ t.r)
      · rw [List.drop_of_length_le (by omega)]
        simpa using hε

theorem first_sq {t : Ten ℂ} (htl : t.l = 1) (ho : RightOrth t) : t.sq = 1 := by
  have := ho 0 (by rw [htl]; exact one_pos) 0 (by rw [htl]; exact one_pos)
  apply Complex.ofReal_injective
  unfold Ten.sq
  rw [htl, sum_range_one, sum_comm]
  push_cast
  rw [show delta ℂ 0 0 = 1 by simp [delta]] at this
  rw [← this]
  refine sum_congr rfl fun x _ => sum_congr rfl fun j _ => ?_
  rw [normSq_eq_star_mul, mul_comm]

theorem tT_tT (t : Ten ℂ) : tT (tT t) = t := rfl

theorem cutM_best {O : LinAlg} (hO : O.Spec) {D : ℕ} (t a : Ten ℂ) (m : Mat ℂ) (z : ℝ) (h : cutM O D t = .ok (a, m, z))
    (h0 : m.c ≠ 0) : ∃ c, CutBest t a m (some D) 1e-32 c := by
  unfold cutM at h
  split at h
  · cases h
  rename_i b lam v Z hp
  cases h
  have := prepareTruncateR_best hO hp (by rintro rfl; exact h0 rfl)
  rwa [tT_tT] at this

theorem cutM_keeps {O : LinAlg} (hO : O.Spec) {D : ℕ} (hD : 1 ≤ D) (t a : Ten ℂ) (m : Mat ℂ) (z : ℝ) (h : cutM O D t = .ok (a, m, z))
    (h1 : t.sq = 1) : m.c ≠ 0 := by
  unfold cutM at h
  split at h
  · cases h
  rename_i b lam v Z hp
  cases h
  obtain ⟨S, hS⟩ := prepareTruncateR_spec hO hp
  intro h0
  have h0 : lam.length = 0 := h0
  have hSne : S ≠ [] := by
    rintro rfl
    have e := hS.Zsq
    rw [← hS.Sn, tT_sq, h1] at e
    simp [norm2] at e
  have := hS.kept.1
  rw [h0, List.take_zero] at this
  exact truncS_ne_nil hSne (by norm_num) (by simp; omega) this

/-- The loop of `truncateMPS` is the mirror image of a truncating sweep from right to left. -/
theorem truncLoop_sweep {O : LinAlg} {D : ℕ} : ∀ (rest : List (Ten ℂ)) (t : Ten ℂ) (B : List (Ten ℂ)) (m0 : Mat ℂ) (Z0 : ℂ)
    (done : List (Ten ℂ)) (lams : List (List ℝ)), truncLoop O D t rest = .ok (done, lams) →
    ∃ (Q : List (Ten ℂ)) (lam : List ℝ) (v : Mat ℂ) (w : Sweep),
      sweepL (cutM O D) 0 ((mir rest).length + 1) ⟨mir rest ++ tT t :: B, m0, Z0⟩ = .ok w ∧ w.ts = mir Q ++ B ∧
      w.mat = mT ((diagMat lam).dot v) ∧ lams.getLast? = some lam ∧
      ∃ q a, Q = q ++ [a] ∧ ∃ a', absorbR a (diagMat lam) = .ok a' ∧ done = q ++ [a'] := by
  intro rest
  induction rest with
  | nil =>
    intro t B m0 Z0 done lams h
    simp only [truncLoop] at h
    split at h
    · cases h
    rename_i a lam v Z hp
    split at h
    · cases h
    rename_i a' ha
    simp only [Except.ok.injEq, Prod.mk.injEq] at h
    obtain ⟨rfl, rfl⟩ := h
    have hc : cutM O D (tT t) = .ok (tT a, mT ((diagMat lam).dot v), Z) := by
      unfold cutM; rw [tT_tT, hp]
    refine ⟨[a], lam, v, ⟨tT a :: B, mT ((diagMat lam).dot v), Z0 * Z⟩, ?_, by simp [mir], rfl, rfl, [], a, rfl, a', ha, rfl⟩
    simp [mir, sweepL, getT, hc]
  | cons u rest ih =>
    intro t B m0 Z0 done lams h
    simp only [truncLoop] at h
    split at h
    · cases h
    rename_i a lam v Z hp
    split at h
    · cases h
    rename_i u' hu
    split at h
    · cases h
    rename_i done' lams' hrec
    simp only [Except.ok.injEq, Prod.mk.injEq] at h
    obtain ⟨rfl, rfl⟩ := h
    have hc : cutM O D (tT t) = .ok (tT a, mT ((diagMat lam).dot v), Z) := by
      unfold cutM; rw [tT_tT, hp]
    obtain ⟨Q, lam', v', w, k1, k2, k3, k4, q, b, rfl, b', k5, rfl⟩ := ih u' (tT a :: B) (mT ((diagMat lam).dot v)) (Z0 * Z) done' lams' hrec
    have hl' : lams' ≠ [] := by rintro rfl; simp at k4
    refine ⟨a :: (q ++ [b]), lam', v', w, ?_, ?_, k3, by rw [List.getLast?_cons_of_ne_nil hl']; exact k4, a :: q, b, rfl, b', k5, rfl⟩
    · rw [sweepL]
      have hlen : 0 + (mir (u :: rest)).length = (mir (u :: rest)).length := by simp
      simp only [getT_append' _ _ _ hlen, set_append' _ _ _ _ hlen, hc]
      have hlen1 : (mir (u :: rest)).length = (mir rest).length + 1 := by simp [mir]
      rw [if_pos (by omega), mir_cons, List.append_assoc, List.singleton_append]
      have hlen2 : 0 + (mir rest ++ [tT u]).length - 1 = (mir rest).length := by simp
      rw [getT_append' _ _ _ hlen2]
      simp only
      rw [absorb_mir hu]
      simp only
      rw [set_append' _ _ _ _ hlen2, List.length_append, List.length_singleton]
      exact k1
    · rw [k2, mir_cons, List.append_assoc, List.singleton_append]

theorem rankLe_mir {D : ℕ} {χ : List (Ten ℂ)} (hl : Linked 1 χ 1) (hD : ∀ t ∈ χ, t.l ≤ D) (z : ℂ) :
    RankLe D ((mir χ).map Ten.d) 1 (fun s j => z * chain (mir χ) s 0 j) := by
  refine rankLe_chain (linked_mir hl) ?_ z
  have h : ∀ {χ : List (Ten ℂ)} {l : ℕ}, Linked l χ 1 → (∀ t ∈ χ, t.l ≤ D) → ∀ t ∈ mir χ, t.l ≤ D ∨ t.l ≤ 1 := by
    intro χ
    induction χ with
    | nil => intro l _ _ t ht; simp [mir] at ht
    | cons u χ ih =>
      intro l hl hD t ht
      rw [mir_cons] at ht
      rcases List.mem_append.mp ht with ht | ht
      · exact ih hl.2 (fun t ht => hD t (by simp [ht])) t ht
      · simp only [List.mem_singleton] at ht
        subst ht
        show u.r ≤ D ∨ u.r ≤ 1
        cases χ with
        | nil => exact Or.inr (le_of_eq hl.2)
        | cons y χ => left; rw [← hl.2.1]; exact hD y (by simp)
  intro t ht
  cases χ with
  | nil => simp [mir] at ht
  | cons u χ =>
    have h1 : 1 ≤ D := by rw [← hl.1]; exact hD u (by simp)
    rcases h hl hD t ht with h | h
    · exact h
    · omega

theorem mir_ds (ts : List (Ten ℂ)) : (mir ts).map Ten.d = (ts.map Ten.d).reverse := by
  unfold mir
  rw [List.map_reverse, List.map_map]
  rfl

theorem chain_right_norm {ts : List (Ten ℂ)} (hl : Linked 1 ts 1) (ho : ∀ t ∈ ts, RightOrth t) :
    sumCfg (ts.map Ten.d) (fun s => chain ts s 0 0 * star (chain ts s 0 0)) = 1 := by
  have h := chain_rightOrth hl ho one_pos one_pos
  simpa [delta] using h

/-- The loop returns for every `D ≥ 1` if the list is right-orthonormal up to its normalised first tensor. -/
theorem truncLoop_returns {O : LinAlg} (hO : O.Spec) {D : ℕ} (hD : 1 ≤ D) : ∀ (rest : List (Ten ℂ)) (t : Ten ℂ),
    Linked t.l (t :: rest) 1 → t.sq = 1 → (∀ u ∈ rest, RightOrth u) → ∃ x, truncLoop O D t rest = .ok x := by
  have hp : ∀ t : Ten ℂ, t.sq = 1 → ∃ a lam v Z, prepareTruncateR O t (some D) 1e-32 = .ok (a, lam, v, Z) := by
    intro t ht
    cases h : prepareTruncateR O t (some D) 1e-32 with
    | error e =>
      have := (prepareTruncate_err hO (Or.inr h)).2
      rw [ht] at this
      exact absurd this one_ne_zero
    | ok x => exact ⟨x.1, x.2.1, x.2.2.1, x.2.2.2, rfl⟩
  intro rest
  induction rest with
  | nil =>
    intro t _ ht _
    obtain ⟨a, lam, v, Z, h⟩ := hp t ht
    obtain ⟨S, q⟩ := prepareTruncateR_spec hO h
    simp only [truncLoop, h]
    rw [absorbR_ok (show a.r = (diagMat lam).r from q.outr)]
    exact ⟨_, rfl⟩
  | cons u rest ih =>
    intro t hl ht ho
    obtain ⟨a, lam, v, Z, h⟩ := hp t ht
    obtain ⟨S, q⟩ := prepareTruncateR_spec hO h
    simp only [truncLoop, h]
    have hul : t.r = u.l := hl.2.1.symm
    obtain ⟨u', hu⟩ : ∃ u', absorbL ((diagMat lam).dot v) u = .ok u' := by
      unfold absorbL
      rw [if_pos (show ((diagMat lam).dot v).c = u.l from q.vc.trans hul)]
      exact ⟨_, rfl⟩
    rw [hu]
    have hc : cutM O D (tT t) = .ok (tT a, mT ((diagMat lam).dot v), Z) := by
      unfold cutM; rw [tT_tT, h]
    have hk := cutM_keeps hO hD _ _ _ _ hc (by rw [tT_sq]; exact ht)
    have hn := (cutM_trunc hO _ _ _ _ hc).norm hk
    have hu1 := absorbR_sq (absorb_mir hu) (leftOrth_tT (ho u (by simp))) hn
    rw [tT_sq] at hu1
    obtain ⟨-, hu'⟩ := absorbL_eq hu
    obtain ⟨x, hx⟩ := ih u' ⟨rfl, by rw [hu']; exact hl.2.2⟩ hu1 (fun y hy => ho y (by simp [hy]))
    simp only [hx]
    exact ⟨_, rfl⟩

end Ortho

/-! ## C99 -/

open Ortho

/-- **C99.** `truncateMPS(mps,D)` is quasi-optimal: up to a number `κ` the new list is within `sqrt(2(N-1))` times the
distance from the old state to any matrix product state of bond dimension at most `D`; `|κ|` is the norm of the old state. -/
theorem C99_truncate_error {O : LinAlg} (hO : O.Spec) {ts done : List (Ten ℂ)} {lams : List (List ℝ)} {D : ℕ} (hD : 1 ≤ D)
    (hl : Linked 1 ts 1) (hts : ts ≠ []) (hne : ∃ s, Cfg ts s ∧ chain ts s 0 0 ≠ 0) (h : truncateMPS O ts D = .ok (done, lams)) :
    Linked 1 done 1 ∧ done.map Ten.d = ts.map Ten.d ∧ (∀ t ∈ done, t.r ≤ D) ∧
    sumCfg (ts.map Ten.d) (fun s => Complex.normSq (chain done s 0 0)) = 1 ∧
    ∃ κ : ℂ, Complex.normSq κ = sumCfg (ts.map Ten.d) (fun s => Complex.normSq (chain ts s 0 0)) ∧
      ∀ χ : List (Ten ℂ), Linked 1 χ 1 → χ.map Ten.d = ts.map Ten.d → (∀ t ∈ χ, t.l ≤ D) →
        sumCfg (ts.map Ten.d) (fun s => Complex.normSq (chain ts s 0 0 - κ * chain done s 0 0))
          ≤ 2 * (ts.length - 1 : ℕ) * sumCfg (ts.map Ten.d) (fun s => Complex.normSq (chain ts s 0 0 - chain χ s 0 0)) := by
  obtain ⟨s0, hs0, hx0⟩ := hne
  have hpos : 0 < ts.length := List.length_pos_iff.2 hts
  have hcore := truncate_core hO hl hts ⟨s0, hs0, 0, by omega, hx0⟩ h
  obtain ⟨ts0, R0, Q0, lam0, S0, hR0, T0⟩ := hcore
  unfold truncateMPS at h
  rw [show ((ts.length : ℤ) - 1) = ((ts.length - 1 : ℕ) : ℤ) by omega] at h
  split at h
  · cases h
  · rename_i R hq
    have S := (C99_qr hO hl (a := 0) (Nat.zero_le _) (by omega) hq).left (by norm_num) rfl
    have := S.len
    simp at this; omega
  rename_i t rest R hq
  have S := (C99_qr hO hl (a := 0) (Nat.zero_le _) (by omega) hq).left (by norm_num) rfl
  have hR : R.c = 1 := by
    have h1 := swept_one S hts hl
    have h2 := S.state s0 hs0 0 (by omega) 0 (by omega)
    by_contra hc
    have : R.c = 0 := by omega
    rw [this] at h2
    simp at h2
    exact hx0 h2.symm
  obtain ⟨Q1, lam1, T, -⟩ := truncLoop_spec hO rest t 1 done lams (by rw [← hR]; exact S.link) h
  have hlink : Linked 1 (t :: rest) 1 := by have := S.link; rwa [hR] at this
  have horth : ∀ x ∈ t :: rest, RightOrth x := by
    intro x hx
    obtain ⟨i, hi, rfl⟩ := List.mem_iff_getElem.1 hx
    refine S.orth i ?_ _ (List.getElem?_eq_getElem hi)
    have := S.len
    omega
  obtain ⟨Q, lam, v, w, k1, k2, k3, k4, q, a, hQ, a', k5, k6⟩ := truncLoop_sweep (O := O) (D := D) rest t [] (eye 1) 1 done lams h
  obtain rfl : lam1 = lam := Option.some.inj (T.last.symm.trans k4)
  have hds : (t :: rest).map Ten.d = ts.map Ten.d := S.ds
  have hdm : (mir rest).map Ten.d ++ [(tT t).d] = (ts.map Ten.d).reverse := by
    rw [← hds, ← mir_ds, mir_cons]; simp
  have htl : t.l = 1 := hlink.1
  have hsq : (tT t).sq = 1 := by
    rw [tT_sq]; exact first_sq htl (horth t (by simp))
  have hml : Linked 1 (mir rest ++ tT t :: []) 1 := by
    have := linked_mir hlink
    rwa [mir_cons] at this
  have hmo : ∀ c ∈ mir rest, LeftOrth c := by
    intro c hc
    simp only [mir, List.mem_reverse, List.mem_map] at hc
    obtain ⟨u, hu, rfl⟩ := hc
    exact leftOrth_tT (horth u (by simp [hu]))
  have h0 : w.mat.c ≠ 0 := sweepL_keeps (cutM_trunc hO) (cutM_keeps hO hD) (mir rest) (tT t) [] (eye 1) 1 w hml hmo hsq k1
  have key := fun g => sweepL_best (K := (mir rest).foldr (fun c n => max c.l n) (tT t).l) (th := 1e-32) (ε := 0) (D := some D) (r := 1) (cutM_trunc hO)
    (cutM_best hO) le_rfl (fun h => absurd h (by norm_num)) (mir rest) (tT t) [] (eye 1) 1 w g hml hmo hsq (by
      generalize mir rest = C
      induction C with
      | nil => simp
      | cons c C ih =>
        intro x hx
        simp only [List.foldr_cons]
        rcases List.mem_cons.mp hx with rfl | hx
        · exact le_max_left _ _
        · exact (ih x hx).trans (le_max_right _ _)) (by
      generalize mir rest = C
      induction C with
      | nil => simp
      | cons c C ih => simp only [List.foldr_cons]; exact ih.trans (le_max_right _ _)) k1 h0
  rw [hdm, show (tT t).r = 1 from htl] at key
  rw [List.append_nil] at k2
  obtain ⟨C, hCw, W⟩ := sweepL_trunc (l := 1) (r := 1) (cutM_trunc hO) [] (mir rest) (tT t) [] (eye 1) 1 w (by simpa using hml) (by simpa using k1)
  have hmr : w.mat.r = 1 := W.left.symm
  have hmc : w.mat.c = 1 := by
    have hle := W.le
    have hr' := W.right
    have hll : Linked 1 (mir rest ++ [tT t]) 1 := hml
    generalize mir rest ++ [tT t] = M at hle hll
    cases hle with
    | nil => have := W.len; simp at this
    | cons h1 h2 =>
      have e1 := hr'.1
      have e2 := hll.1
      omega
  have hlen1 : lam1.length = 1 := by rw [k3] at hmc; exact hmc
  obtain ⟨x, rfl⟩ := List.length_eq_one_iff.mp hlen1
  set μ := w.mat.v 0 0 with hμ
  have hμn : Complex.normSq μ = 1 := by
    have e := normF_sq w.mat
    rw [W.norm h0, hmr, hmc] at e
    simp only [sum_range_one] at e
    rw [← e]; norm_num
  have hx : x ^ 2 = 1 := by
    have := T.unit [x] (List.mem_of_getLast? T.last) (by simp)
    have e := norm2_sq [x]
    rw [this] at e
    simpa using e.symm
  have hlinkQ : Linked 1 Q 1 := by
    have h1 := linked_mir W.right
    rw [hCw] at k2
    simp only [List.nil_append, List.append_nil] at k2 h1
    rw [k2, hmc] at h1
    have : mir (mir Q) = Q := by
      unfold mir
      rw [List.map_reverse, List.reverse_reverse, List.map_map]
      simp [Function.comp_def, tT_tT]
    rwa [this] at h1
  have hdl : Linked 1 done 1 := by have := T.link; rwa [hlen1] at this
  have hdd : done.map Ten.d = ts.map Ten.d := T.ds.trans S.ds
  have hdone : ∀ s, Conf (ts.map Ten.d) s → chain done s 0 0 = chain Q s 0 0 * (x : ℂ) := by
    intro s hs
    have hls : s.length = q.length + 1 := by
      have := hs.length_eq; rw [← hdd, k6] at this; simp at this; exact this.symm
    obtain ⟨sA, y, rfl⟩ : ∃ sA y, s = sA ++ [y] := ⟨s.dropLast, s.getLast (by rintro rfl; simp at hls),
      (List.dropLast_append_getLast _).symm⟩
    have hql : Linked 1 q a.l := by
      rw [hQ, linked_append] at hlinkQ
      obtain ⟨n, hq1, hq2⟩ := hlinkQ
      rw [hq2.1]; exact hq1
    rw [k6, hQ, chain_append_absorbR hql k5 sA (by simpa using hls) y one_pos (by simp [diagMat])]
    obtain ⟨har, -⟩ := absorbR_eq k5
    simp [diagMat]
  have hdone1 : sumCfg (ts.map Ten.d) (fun s => Complex.normSq (chain done s 0 0)) = 1 := by
    have := T.norm (by simp)
    rw [hlen1, T.ds.trans S.ds] at this
    simpa using this
  have hts1 : ∀ s, Conf (ts.map Ten.d) s → chain ts s 0 0 = R.v 0 0 * chain (t :: rest) s 0 0 := by
    intro s hs
    have := S.state s (cfg_iff_map.mpr hs) 0 one_pos 0 one_pos
    rw [hR, sum_range_one] at this
    exact this.symm
  have hE1 : sumCfg (ts.map Ten.d) (fun s => Complex.normSq (chain (t :: rest) s 0 0)) = 1 := by
    have := chain_right_norm hlink horth
    rw [hds] at this
    apply Complex.ofReal_injective
    rw [sumCfg_ofReal, Complex.ofReal_one, ← this]
    refine sumCfg_congr fun s _ => ?_
    rw [normSq_eq_star_mul, mul_comm]
  have hF1 : sumCfg (ts.map Ten.d) (fun s => Complex.normSq (chain Q s 0 0)) = 1 := by
    rw [← hdone1]
    refine sumCfg_congr fun s hs => ?_
    rw [hdone s hs, Complex.normSq_mul, Complex.normSq_ofReal, ← sq, hx, mul_one]
  have hRn : Complex.normSq (R.v 0 0) = sumCfg (ts.map Ten.d) (fun s => Complex.normSq (chain ts s 0 0)) := by
    have e : ∀ s, Conf (ts.map Ten.d) s → Complex.normSq (chain ts s 0 0) = Complex.normSq (R.v 0 0) * Complex.normSq (chain (t :: rest) s 0 0) := by
      intro s hs
      rw [hts1 s hs, Complex.normSq_mul]
    rw [sumCfg_congr e, sumCfg_mul, hE1, mul_one]
  have hR0 : R.v 0 0 ≠ 0 := by
    intro e
    have := hts1 s0 (cfg_iff_map.mp hs0)
    rw [e, zero_mul] at this
    exact hx0 this
  have hRp : 0 < Complex.normSq (R.v 0 0) := Complex.normSq_pos.mpr hR0
  have hQl : Q.length = ts.length := by
    have := T.len.trans S.len
    rw [k6] at this
    rw [hQ]
    simpa using this
  -- the overlap
  have hov : ∀ (C : List (Ten ℂ)) (c : ℝ), w.ts = C ++ [] → (∀ b < w.mat.c, (c : ℂ) * w.mat.v 0 b
      = sumCfg (ts.map Ten.d).reverse (fun s => ∑ j ∈ range 1, star (chain C s b j) * chain (mir rest ++ [tT t]) s 0 j)) →
      (c : ℂ) * μ = sumCfg (ts.map Ten.d) (fun s => star (chain Q s 0 0) * chain (t :: rest) s 0 0) := by
    intro C c hC hproj
    rw [List.append_nil, k2] at hC
    rw [hproj 0 (by omega), sumCfg_reverse, ← hC, ← mir_cons]
    refine sumCfg_congr fun s hs => ?_
    have hl := hs.length_eq
    rw [List.length_map] at hl
    simp only [sum_range_one]
    rw [chain_mir hlinkQ s (by rw [hQl, hl]) 0 one_pos 0 one_pos, chain_mir hlink s (by rw [S.len, hl]) 0 one_pos 0 one_pos]
  have hdist : ∀ c : ℝ, (c : ℂ) * μ = sumCfg (ts.map Ten.d) (fun s => star (chain Q s 0 0) * chain (t :: rest) s 0 0) →
      sumCfg (ts.map Ten.d) (fun s => Complex.normSq (chain (t :: rest) s 0 0 - μ * chain Q s 0 0)) = 2 - 2 * c := by
    intro c hc
    have e : ∀ s, Complex.normSq (chain (t :: rest) s 0 0 - μ * chain Q s 0 0)
        = Complex.normSq (chain (t :: rest) s 0 0) + Complex.normSq (chain Q s 0 0)
          + (-2) * (star μ * (star (chain Q s 0 0) * chain (t :: rest) s 0 0)).re := by
      intro s
      rw [Complex.normSq_sub, Complex.normSq_mul, hμn, one_mul, neg_mul, ← sub_eq_add_neg]
      congr 3
      rw [← Complex.star_def, star_mul']; ring
    simp only [e]
    have e2 : sumCfg (ts.map Ten.d) (fun s => (star μ * (star (chain Q s 0 0) * chain (t :: rest) s 0 0)).re) = c := by
      rw [sumCfg_re, sumCfg_mul, ← hc, mul_left_comm, ← normSq_eq_star_mul, hμn]
      simp
    rw [sumCfg_add, sumCfg_add, hE1, hF1, sumCfg_mul, e2]
    ring
  refine ⟨hdl, hdd, T.leD, hdone1, R.v 0 0 * μ * x, ?_, fun χ hχ hχd hχD => ?_⟩
  · rw [Complex.normSq_mul, Complex.normSq_mul, hμn, Complex.normSq_ofReal, ← sq, hx, mul_one, mul_one, hRn]
  obtain ⟨C2, c, hC2, -, hc0, hproj, herr⟩ := key (fun s j => (R.v 0 0)⁻¹ * chain (mir χ) s 0 j) (by
    rintro D' ⟨⟩
    rw [← hχd, ← mir_ds]
    exact rankLe_mir hχ hχD _)
  have hc := hov C2 c hC2 hproj
  have hd := hdist c hc
  have hc1 : c ≤ 1 := by
    have : 0 ≤ sumCfg (ts.map Ten.d) (fun s => Complex.normSq (chain (t :: rest) s 0 0 - μ * chain Q s 0 0)) :=
      sumCfg_nonneg _ _ fun _ => Complex.normSq_nonneg _
    rw [hd] at this; linarith
  have e1 : sumCfg (ts.map Ten.d) (fun s => Complex.normSq (chain ts s 0 0 - R.v 0 0 * μ * x * chain done s 0 0))
      = Complex.normSq (R.v 0 0) * (2 - 2 * c) := by
    rw [← hd, ← sumCfg_mul]
    refine sumCfg_congr fun s hs => ?_
    rw [hts1 s hs, hdone s hs, ← Complex.normSq_mul]
    congr 1
    have hx' : (x : ℂ) * x = 1 := by rw [← sq]; exact_mod_cast hx
    linear_combination (- (R.v 0 0) * μ * chain Q s 0 0) * hx'
  have e2 : sumCfg (ts.map Ten.d) (fun s => Complex.normSq (chain ts s 0 0 - chain χ s 0 0))
      = Complex.normSq (R.v 0 0) * sq1 (ts.map Ten.d).reverse 1 (fun s j => chain (mir rest ++ [tT t]) s 0 j - (R.v 0 0)⁻¹ * chain (mir χ) s 0 j) := by
    unfold sq1
    rw [sumCfg_reverse_real, ← sumCfg_mul, ← mir_cons]
    refine sumCfg_congr fun s hs => ?_
    have hl := hs.length_eq
    rw [List.length_map] at hl
    have hχl : χ.length = ts.length := by simpa using congrArg List.length hχd
    simp only [sum_range_one]
    rw [chain_mir hχ s (by rw [hχl, hl]) 0 one_pos 0 one_pos, chain_mir hlink s (by rw [S.len, hl]) 0 one_pos 0 one_pos,
      hts1 s hs, ← Complex.normSq_mul, mul_sub, mul_inv_cancel_left₀ hR0]
  have hN : (mir rest).length = ts.length - 1 := by
    have := S.len
    simp only [List.length_cons] at this
    simp [mir]; omega
  rw [hN, add_zero] at herr
  rw [e1, e2]
  have : 2 - 2 * c ≤ 2 * (1 - c ^ 2) := by nlinarith
  calc Complex.normSq (R.v 0 0) * (2 - 2 * c) ≤ Complex.normSq (R.v 0 0) * (2 * (1 - c ^ 2)) := mul_le_mul_of_nonneg_left this hRp.le
    _ ≤ Complex.normSq (R.v 0 0) * (2 * ((ts.length - 1 : ℕ) * sq1 (ts.map Ten.d).reverse 1 (fun s j => chain (mir rest ++ [tT t]) s 0 j - (R.v 0 0)⁻¹ * chain (mir χ) s 0 j))) :=
      mul_le_mul_of_nonneg_left (mul_le_mul_of_nonneg_left herr (by norm_num)) hRp.le
    _ = _ := by ring

/-- **C99.** `truncateMPS` returns on every list with open boundaries that is not the zero state, for every `D ≥ 1`. -/
theorem C99_truncate_returns {O : LinAlg} (hO : O.Spec) {ts : List (Ten ℂ)} {D : ℕ} (hD : 1 ≤ D) (hl : Linked 1 ts 1) (hts : ts ≠ [])
    (hne : ∃ s, Cfg ts s ∧ chain ts s 0 0 ≠ 0) : ∃ done lams, truncateMPS O ts D = .ok (done, lams) := by
  have hpos : 0 < ts.length := List.length_pos_iff.2 hts
  obtain ⟨s0, hs0, hx0⟩ := hne
  obtain ⟨ts1, R, hq⟩ := C99_qr_total hO hl (a := 0) (b := ts.length - 1) (Nat.zero_le _) (by omega) (direction := -1)
    (by norm_num) ⟨s0, hs0, 0, by omega, 0, hx0⟩
  have S := (C99_qr hO hl (a := 0) (Nat.zero_le _) (by omega) hq).left (by norm_num) rfl
  have hR : R.c = 1 := by
    have h1 := swept_one S hts hl
    have h2 := S.state s0 hs0 0 (by omega) 0 (by omega)
    by_contra hc
    have : R.c = 0 := by omega
    rw [this] at h2
    simp at h2
    exact hx0 h2.symm
  unfold truncateMPS
  rw [show ((ts.length : ℤ) - 1) = ((ts.length - 1 : ℕ) : ℤ) by omega]
  simp only [Nat.cast_zero] at hq
  rw [hq]
  cases ts1 with
  | nil => exact ⟨_, _, rfl⟩
  | cons t rest =>
    have hlink : Linked 1 (t :: rest) 1 := by have := S.link; rwa [hR] at this
    have htl : t.l = 1 := hlink.1
    have horth : ∀ x ∈ t :: rest, RightOrth x := by
      intro x hx
      obtain ⟨i, hi, rfl⟩ := List.mem_iff_getElem.1 hx
      refine S.orth i ?_ _ (List.getElem?_eq_getElem hi)
      have := S.len
      omega
    obtain ⟨⟨a, b⟩, hx⟩ := truncLoop_returns hO hD rest t (by rw [htl]; exact hlink) (first_sq htl (horth t (by simp)))
      (fun u hu => horth u (by simp [hu]))
    exact ⟨a, b, hx⟩

/-- The entangled three-site state cut to a product: at most four times the squared distance to `|000>`. -/
example : ∃ (O : LinAlg) (done : List (Ten ℂ)) (lams : List (List ℝ)) (κ : ℂ), O.Spec ∧ truncateMPS O ghzT 1 = .ok (done, lams) ∧
    (∀ t ∈ done, t.r ≤ 1) ∧
    sumCfg [2, 2, 2] (fun s => Complex.normSq (chain ghzT s 0 0 - κ * chain done s 0 0))
      ≤ 4 * sumCfg [2, 2, 2] (fun s => Complex.normSq (chain ghzT s 0 0 - chain zero3 s 0 0)) := by
  obtain ⟨O, hO⟩ := exists_linAlg
  have hl : Linked 1 ghzT 1 := by simp [ghzT, Linked]
  have hne : ∃ s, Cfg ghzT s ∧ chain ghzT s 0 0 ≠ 0 :=
    ⟨[1, 1, 1], ghz_cfg 1 1 1 (by norm_num) (by norm_num) (by norm_num), by simp [ghzT, chain, delta]⟩
  obtain ⟨done, lams, h⟩ := C99_truncate_returns hO (D := 1) le_rfl hl (by simp [ghzT]) hne
  obtain ⟨-, -, hb, -, κ, -, he⟩ := C99_truncate_error hO le_rfl hl (by simp [ghzT]) hne h
  have := he zero3 (by simp [zero3, Linked]) (by simp [zero3, ghzT]) (by intro t ht; simp [zero3] at ht; simp [ht])
  refine ⟨O, done, lams, κ, hO, h, hb, ?_⟩
  simp only [ghzT, List.map_cons, List.map_nil, List.length_cons, List.length_nil] at this ⊢
  norm_num at this ⊢
  exact this

end

end PyTeN
