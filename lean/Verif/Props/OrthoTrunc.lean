import Verif.Props.OrthoRun

/-!
# C99: `truncateMPS` and the phases of `prepareTensorSVD`
-/

namespace PyTeN
open Finset Ortho

noncomputable section

namespace Ortho

/-- A truncation to `D ≥` right dimension is exact. -/
theorem truncR_exact {O : LinAlg} (hO : O.Spec) {t out : Ten ℂ} {D : ℕ} {s : List ℝ} {v : Mat ℂ} {Z : ℝ} (hD : t.r ≤ D)
    (h : prepareTruncateR O t (some D) 1e-32 = .ok (out, s, v, Z)) {i j x : ℕ} (hi : i < t.l) (hj : j < t.r) (hx : x < t.d) :
    t.v i j x = Z * ∑ k ∈ range out.r, out.v i k x * ((s.getD k 0 : ℝ) : ℂ) * v.v k j := by
  obtain ⟨S, q⟩ := prepareTruncateR_spec hO h
  have hS : truncS S (some D) 1e-32 = S := Canon.truncS_all (by rw [q.Slen]; omega) (by norm_num)
  have hk : s.length = S.length := by rw [q.kept.2, hS]
  have htk : S.take s.length = S := List.take_of_length_le (by omega)
  have hv := q.vals
  rw [htk, q.Sn] at hv
  have e := q.err
  rw [hk, List.drop_length] at e
  simp only [List.map_nil, List.sum_nil] at e
  have := Canon.ten_sq_zero e i hi j hj x hx
  simp only [sub_eq_zero] at this
  rw [this, q.outr, hk, mul_sum]
  refine sum_congr rfl fun k hkk => ?_
  rw [hv k (by rw [hk]; exact mem_range.mp hkk)]
  push_cast; ring

/-- Spec: what the loop of `truncateMPS` makes of a list: `done` is a chain of left-orthonormal tensors times the diagonal
of the last `lam`, with bonds not above `D` nor above the old ones; if `D` cuts nothing off it is, up to a number and the
isometry `v` at the right end, the old state. -/
structure Truncated (l r D : ℕ) (ts done : List (Ten ℂ)) (lams : List (List ℝ)) (Q : List (Ten ℂ)) (lam : List ℝ) : Prop where
  len : done.length = ts.length
  dims : done.map Ten.r = lams.map List.length
  ds : done.map Ten.d = ts.map Ten.d
  link : Linked l done lam.length
  leD : ∀ t ∈ done, t.r ≤ D
  le : List.Forall₂ (fun t' t : Ten ℂ => t'.r ≤ t.r) done ts
  le' : List.Forall₂ (fun t' _ : Ten ℂ => t'.r ≤ t'.d * t'.l) done ts
  unit : ∀ x ∈ lams, x ≠ [] → norm2 x = 1
  last : lams.getLast? = some lam
  linkQ : Linked l Q lam.length
  dsQ : Q.map Ten.d = ts.map Ten.d
  orth : ∀ t ∈ Q, LeftOrth t
  init : done.dropLast = Q.dropLast
  state : ∀ s, Cfg ts s → ∀ i, ∀ j < lam.length, chain done s i j = chain Q s i j * ((lam.getD j 0 : ℝ) : ℂ)
  exact : (∀ t ∈ ts, t.r ≤ D) → ∃ (c : ℝ) (v : ℕ → ℕ → ℂ), 0 ≤ c
    ∧ (∀ k < lam.length, ∀ k' < lam.length, ∑ j ∈ range r, v k j * star (v k' j) = delta ℂ k k')
    ∧ ∀ s, Cfg ts s → ∀ i < l, ∀ j < r, chain ts s i j = c * ∑ k ∈ range lam.length, chain done s i k * v k j

theorem truncLoop_spec {O : LinAlg} (hO : O.Spec) {D r : ℕ} : ∀ (rest : List (Ten ℂ)) (t : Ten ℂ) (l : ℕ) (done : List (Ten ℂ))
    (lams : List (List ℝ)), Linked l (t :: rest) r → truncLoop O D t rest = .ok (done, lams) →
    ∃ Q lam, Truncated l r D (t :: rest) done lams Q lam ∧ lams.length = rest.length + 1 := by
  intro rest
  induction rest with
  | nil =>
    intro t l done lams hl h
    simp only [truncLoop] at h
    split at h
    · cases h
    rename_i a lam v Z hp
    split at h
    · cases h
    rename_i a' ha
    simp only [Except.ok.injEq, Prod.mk.injEq] at h
    obtain ⟨rfl, rfl⟩ := h
    obtain ⟨S, q⟩ := prepareTruncateR_spec hO hp
    obtain ⟨hr, rfl⟩ := absorbR_eq ha
    obtain ⟨htl, htr⟩ := hl
    simp only [Linked] at htr
    have hlam : lam.length ≤ D := by
      rw [q.kept.2]; unfold truncS; simp only [List.length_take]; omega
    have hSl : lam.length ≤ S.length := by
      have := q.kept; rw [this.2, this.1, List.length_take]; omega
    rw [q.Slen] at hSl
    have hv : ∀ (i j x : ℕ), j < lam.length → ∑ k ∈ range a.r, a.v i k x * (diagMat lam).v k j
        = a.v i j x * ((lam.getD j 0 : ℝ) : ℂ) := by
      intro i j x hj
      simp only [diagMat]
      rw [sum_eq_single j (fun b _ hb => by simp [hb]) (fun hn => absurd (mem_range.2 (by rw [q.outr]; exact hj)) hn)]
      simp
    refine ⟨[a], lam, ⟨rfl, rfl, by simp [q.od], ⟨by rw [← htl]; exact q.ol, rfl⟩, ?_, ?_, ?_, ?_, rfl, ⟨by rw [← htl]; exact q.ol, q.outr⟩,
      by simp [q.od], by simpa using q.orth, rfl, ?_, ?_⟩, rfl⟩
    · simp only [List.mem_singleton, forall_eq]; exact hlam
    · refine .cons ?_ .nil
      show lam.length ≤ t.r; omega
    · refine .cons ?_ .nil
      show lam.length ≤ a.d * a.l; rw [q.od, q.ol]; omega
    · intro x hx hne
      simp only [List.mem_singleton] at hx
      subst hx; exact q.unit hne
    · intro s hs i j hj
      cases hs with
      | cons hx hs' =>
      cases hs'
      simp only [chain]
      rw [show (diagMat lam).c = lam.length from rfl,
        sum_eq_single j (fun b _ hb => by simp [delta, hb]) (fun hn => absurd (mem_range.2 hj) hn), hv i j _ hj,
        sum_eq_single j (fun b _ hb => by simp [delta, hb]) (fun hn => absurd (mem_range.2 (by rw [q.outr]; exact hj)) hn)]
      ring
    · intro hD
      refine ⟨Z, v.v, q.Z0, by rw [← htr]; exact q.iso, ?_⟩
      intro s hs i hi j hj
      cases hs with
      | cons hx hs' =>
      cases hs'
      rename_i x
      simp only [chain]
      rw [sum_eq_single j (fun b _ hb => by simp [delta, hb]) (fun hn => absurd (mem_range.2 (by rw [htr]; exact hj)) hn)]
      rw [truncR_exact hO (hD t (by simp)) hp (by rw [htl]; exact hi) (by rw [htr]; exact hj) hx, q.outr]
      simp only [delta, if_true, mul_one]
      congr 1
      refine sum_congr rfl fun k hk => ?_
      have hk' := mem_range.1 hk
      rw [show (diagMat lam).c = lam.length from rfl,
        sum_eq_single k (fun b _ hb => by simp [hb]) (fun hn => absurd hk hn), if_pos rfl, mul_one, ← q.outr, hv i k _ hk']
  | cons u rest ih =>
    intro t l done lams hl h
    simp only [truncLoop] at h
    split at h
    · cases h
    rename_i a lam v Z hp
    split at h
    · cases h
    rename_i u' hu
    split at h
    · cases h
    rename_i done' lams' hrec
    simp only [Except.ok.injEq, Prod.mk.injEq] at h
    obtain ⟨rfl, rfl⟩ := h
    obtain ⟨S, q⟩ := prepareTruncateR_spec hO hp
    obtain ⟨hc, hu'⟩ := absorbL_eq hu
    obtain ⟨htl, hul, hrest⟩ := hl
    have hlam : lam.length ≤ D := by
      rw [q.kept.2]; unfold truncS; simp only [List.length_take]; omega
    have hSl : lam.length ≤ S.length := by
      have := q.kept; rw [this.2, this.1, List.length_take]; omega
    rw [q.Slen] at hSl
    have hul' : u'.l = lam.length := by rw [hu']; rfl
    have hur : u'.r = u.r := by rw [hu']
    have hud : u'.d = u.d := by rw [hu']
    obtain ⟨Q, lam', T, hlen⟩ := ih u' lam.length done' lams' ⟨hul', by rw [hur]; exact hrest⟩ hrec
    have hlams' : lams' ≠ [] := by intro e; rw [e] at hlen; simp at hlen
    have hdone' : done' ≠ [] := by intro e; have := T.len; rw [e] at this; simp at this
    have hQ' : Q ≠ [] := by intro e; have := congrArg List.length T.dsQ; rw [e] at this; simp at this
    have hcfg : ∀ {s}, Cfg (u :: rest) s → Cfg (u' :: rest) s := by
      intro s hs
      cases hs with
      | cons h1 h2 => exact .cons (by rw [hud]; exact h1) h2
    refine ⟨a :: Q, lam', ⟨by simp [T.len], ?_, ?_, ⟨by rw [← htl]; exact q.ol, by rw [q.outr]; exact T.link⟩, ?_, ?_, ?_, ?_, ?_,
      ⟨by rw [← htl]; exact q.ol, by rw [q.outr]; exact T.linkQ⟩, ?_, ?_, ?_, ?_, ?_⟩, by simp [hlen]⟩
    · simp [T.dims, q.outr]
    · have := T.ds; simp only [List.map_cons] at this
      simp [this, q.od, hud]
    · intro x hx
      rcases List.mem_cons.1 hx with rfl | hx
      · rw [q.outr]; exact hlam
      · exact T.leD x hx
    · refine .cons (by rw [q.outr]; omega) ?_
      have := T.le
      generalize done' = dd at this
      cases this with
      | cons h1 h2 => exact .cons (by rw [← hur]; exact h1) h2
    · refine .cons (by rw [q.outr, q.od, q.ol]; omega) ?_
      have := T.le'
      generalize done' = dd at this
      cases this with
      | cons h1 h2 => exact .cons h1 h2
    · intro x hx hne
      rcases List.mem_cons.1 hx with rfl | hx
      · exact q.unit hne
      · exact T.unit x hx hne
    · rw [List.getLast?_cons_of_ne_nil hlams']; exact T.last
    · have := T.dsQ; simp only [List.map_cons] at this
      simp [this, q.od, hud]
    · intro x hx
      rcases List.mem_cons.1 hx with rfl | hx
      · exact q.orth
      · exact T.orth x hx
    · rw [List.dropLast_cons_of_ne_nil hdone', List.dropLast_cons_of_ne_nil hQ', T.init]
    · intro s hs i j hj
      cases hs with
      | cons hx hs' =>
      simp only [chain]
      rw [sum_mul]
      refine sum_congr rfl fun k _ => ?_
      rw [T.state _ (hcfg hs') k j hj]; ring
    · intro hD
      obtain ⟨c, w, hc0, hw, hst⟩ := T.exact (fun x hx => by
        rcases List.mem_cons.1 hx with rfl | hx
        · rw [hur]; exact hD u (by simp)
        · exact hD x (by simp [hx]))
      refine ⟨Z * c, w, mul_nonneg q.Z0 hc0, hw, ?_⟩
      intro s hs i hi j hj
      cases hs with
      | cons hx hs' =>
      rename_i x ss
      cases hs' with
      | cons hy hss =>
      rename_i y ss'
      have hA : ∀ k ∈ range t.r, t.v i k x * chain (u :: rest) (y :: ss') k j
          = ∑ m ∈ range lam.length, Z * (a.v i m x * (((lam.getD m 0 : ℝ) : ℂ) * v.v m k * chain (u :: rest) (y :: ss') k j)) := by
        intro k hk
        rw [truncR_exact hO (hD t (by simp)) hp (by rw [htl]; exact hi) (mem_range.1 hk) hx, q.outr, mul_sum, sum_mul]
        refine sum_congr rfl fun m _ => ?_
        ring
      have hB : ∀ m ∈ range lam.length, ∑ k ∈ range t.r, ((lam.getD m 0 : ℝ) : ℂ) * v.v m k * chain (u :: rest) (y :: ss') k j
          = chain (u' :: rest) (y :: ss') m j := by
        intro m hm
        rw [chain_absorbL hu rest y ss' m j]
        refine sum_congr ?_ fun k _ => ?_
        · rw [show ((diagMat lam).dot v).c = v.c from rfl, q.vc]
        · congr 1
          simp only [Mat.dot, diagMat]
          rw [sum_eq_single m (fun b _ hb => by simp [Ne.symm hb]) (fun hn => absurd hm hn), if_pos rfl]
      rw [chain, sum_congr rfl hA, sum_comm]
      have hC : ∀ m ∈ range lam.length, ∑ k ∈ range t.r, (Z : ℂ) * (a.v i m x * (((lam.getD m 0 : ℝ) : ℂ) * v.v m k
            * chain (u :: rest) (y :: ss') k j))
          = ((Z * c : ℝ) : ℂ) * ∑ n ∈ range lam'.length, a.v i m x * chain done' (y :: ss') m n * w n j := by
        intro m hm
        have : ∀ k ∈ range t.r, (Z : ℂ) * (a.v i m x * (((lam.getD m 0 : ℝ) : ℂ) * v.v m k * chain (u :: rest) (y :: ss') k j))
            = (Z : ℂ) * a.v i m x * (((lam.getD m 0 : ℝ) : ℂ) * v.v m k * chain (u :: rest) (y :: ss') k j) := by
          intro k _; ring
        rw [sum_congr rfl this, ← mul_sum, hB m hm, hst _ (.cons (by rw [hud]; exact hy) hss) m (mem_range.1 hm) j hj]
        push_cast
        rw [mul_sum, mul_sum, mul_sum]
        refine sum_congr rfl fun n _ => ?_
        ring
      rw [sum_congr rfl hC, ← mul_sum, sum_comm]
      congr 1
      refine sum_congr rfl fun n _ => ?_
      simp only [chain]
      rw [sum_mul, q.outr]

/-- The squared norm of the truncated state is 1. -/
theorem Truncated.norm {l r D : ℕ} {ts done : List (Ten ℂ)} {lams : List (List ℝ)} {Q : List (Ten ℂ)} {lam : List ℝ}
    (T : Truncated l r D ts done lams Q lam) (hne : lam ≠ []) :
    sumCfg (done.map Ten.d) (fun s => ∑ i ∈ range l, ∑ j ∈ range lam.length, Complex.normSq (chain done s i j)) = 1 := by
  have h := collapse (l := l) (n := lam.length) (n' := lam.length) (r := lam.length) (A := Q) (B := []) T.linkQ rfl T.orth
    (by simp) (diagMat lam).v (diagMat lam).v
  have hR : (∑ k ∈ range lam.length, ∑ k' ∈ range lam.length, star ((diagMat lam).v k k') * (diagMat lam).v k k' : ℂ) = 1 := by
    have h1 := T.unit lam (List.mem_of_getLast? T.last) hne
    have h2 : ((norm2 lam ^ 2 : ℝ) : ℂ) = 1 := by rw [h1]; norm_num
    rw [← h2, norm2_sq]
    push_cast
    refine sum_congr rfl fun k hk => ?_
    rw [sum_eq_single k (fun b _ hb => by simp [diagMat, Ne.symm hb]) (fun hn => absurd hk hn)]
    simp [diagMat, sq]
  rw [hR] at h
  have hc : ((sumCfg (done.map Ten.d) (fun s => ∑ i ∈ range l, ∑ j ∈ range lam.length, Complex.normSq (chain done s i j)) : ℝ) : ℂ)
      = 1 := by
    rw [sumCfg_ofReal, ← h, T.ds, ← T.dsQ]
    apply sumCfg_congr
    intro s hs
    have hs' : Cfg ts s := by
      rw [T.dsQ] at hs
      exact List.forall₂_map_left_iff.1 hs
    simp only [List.map_nil, sumCfg]
    push_cast
    refine sum_congr rfl fun i _ => sum_congr rfl fun j hj => ?_
    have e : ∑ k ∈ range lam.length, ∑ k' ∈ range lam.length, chain Q s i k * (diagMat lam).v k k' * chain ([] : List (Ten ℂ)) [] k' j
        = chain done s i j := by
      rw [T.state s hs' i j (mem_range.1 hj), sum_eq_single j, sum_eq_single j]
      · simp [diagMat, chain, delta]
      · intro b _ hb; simp [chain, delta, hb]
      · intro hn; exact absurd hj hn
      · intro b _ hb
        refine sum_eq_zero fun k' _ => ?_
        simp only [diagMat, chain, delta]
        split_ifs with h1 h2
        · exact absurd (h1.trans h2) hb
        all_goals simp
      · intro hn; exact absurd hj hn
    rw [e, Complex.normSq_eq_conj_mul_self]
    rfl
  exact_mod_cast hc

theorem swept_one {l r n : ℕ} {ts ts' : List (Ten ℂ)} {R : Mat ℂ} (S : SweptAllL l r n ts ts' R) (hn : ts ≠ [])
    (hl : Linked l ts r) : R.c ≤ l := by
  have hle := S.le
  have hlk := S.link
  cases ts with
  | nil => exact absurd rfl hn
  | cons a ts =>
    generalize ts' = tt at hle hlk
    cases hle with
    | cons h1 h2 =>
      have e1 := hl.1
      have e2 := hlk.1
      omega

theorem le_right : ∀ {ts ts' : List (Ten ℂ)} {l l' r : ℕ}, Linked l ts r → Linked l' ts' r →
    List.Forall₂ (fun t' t : Ten ℂ => t'.l ≤ t.l) ts' ts → List.Forall₂ (fun t' t : Ten ℂ => t'.r ≤ t.r) ts' ts
  | [], _, _, _, _, _, _, .nil => .nil
  | t :: ts, t' :: ts', l, l', r, h, h', .cons _ h2 => by
    refine .cons ?_ (le_right h.2 h'.2 h2)
    cases h2 with
    | nil =>
      have e1 : t.r = r := h.2
      have e2 : t'.r = r := h'.2
      omega
    | cons h3 h4 =>
      have e1 := h.2.1
      have e2 := h'.2.1
      omega

theorem truncate_core {O : LinAlg} (hO : O.Spec) {ts done : List (Ten ℂ)} {lams : List (List ℝ)} {D r : ℕ}
    (hl : Linked 1 ts r) (hts : ts ≠ []) (hne : ∃ s, Cfg ts s ∧ ∃ j < r, chain ts s 0 j ≠ 0)
    (h : truncateMPS O ts D = .ok (done, lams)) :
    ∃ ts1 R Q lam, SweptAllL 1 r (ts.length - 1) ts ts1 R ∧ R.c = 1 ∧ Truncated 1 r D ts1 done lams Q lam := by
  have hpos : 0 < ts.length := List.length_pos_iff.2 hts
  unfold truncateMPS at h
  rw [show ((ts.length : ℤ) - 1) = ((ts.length - 1 : ℕ) : ℤ) by omega] at h
  split at h
  · cases h
  · rename_i R hq
    have S := (C99_qr hO hl (a := 0) (Nat.zero_le _) (by omega) hq).left (by norm_num) rfl
    have := S.len
    simp at this; omega
  · rename_i t rest R hq
    have S := (C99_qr hO hl (a := 0) (Nat.zero_le _) (by omega) hq).left (by norm_num) rfl
    have hR : R.c = 1 := by
      have h1 := swept_one S hts hl
      obtain ⟨s, hs, j, hj, hx⟩ := hne
      have h2 := S.state s hs 0 (by omega) j hj
      by_contra hc
      have : R.c = 0 := by omega
      rw [this] at h2
      simp at h2
      exact hx h2.symm
    obtain ⟨Q, lam, T, -⟩ := truncLoop_spec hO rest t 1 done lams (by rw [← hR]; exact S.link) h
    exact ⟨_, R, Q, lam, S, hR, T⟩

theorem cfg_ds {ts ts' : List (Ten ℂ)} (h : ts'.map Ten.d = ts.map Ten.d) {s : List ℕ} (hs : Cfg ts s) : Cfg ts' s := by
  have : List.Forall₂ (fun d x => x < d) (ts.map Ten.d) s := List.forall₂_map_left_iff.2 hs
  rw [← h] at this
  exact List.forall₂_map_left_iff.1 this

end Ortho

/-! ## `truncateMPS` -/

/-- **C99.** `truncateMPS(mps,D)` with open boundaries and `D` not below the bonds of the list: the new list is, up to a
number, the old state; its norm is 1; all sites but the last are left-orthonormal; every `lam` is normalised. -/
theorem C99_truncate_exact {O : LinAlg} (hO : O.Spec) {ts done : List (Ten ℂ)} {lams : List (List ℝ)} {D : ℕ}
    (hl : Linked 1 ts 1) (hts : ts ≠ []) (hD : ∀ t ∈ ts, t.r ≤ D) (hne : ∃ s, Cfg ts s ∧ chain ts s 0 0 ≠ 0)
    (h : truncateMPS O ts D = .ok (done, lams)) :
    Linked 1 done 1 ∧ done.map Ten.d = ts.map Ten.d ∧ done.length = ts.length
    ∧ (∀ t ∈ done.dropLast, LeftOrth t) ∧ (∀ x ∈ lams, x ≠ [] → norm2 x = 1)
    ∧ sumCfg (ts.map Ten.d) (fun s => Complex.normSq (chain done s 0 0)) = 1
    ∧ ∃ κ : ℂ, κ ≠ 0 ∧ ∀ s, Cfg ts s → chain ts s 0 0 = κ * chain done s 0 0 := by
  obtain ⟨s0, hs0, hx0⟩ := hne
  obtain ⟨ts1, R, Q, lam, S, hR, T⟩ := truncate_core hO hl hts ⟨s0, hs0, 0, by omega, hx0⟩ h
  have hD1 : ∀ t ∈ ts1, t.r ≤ D := by
    have hF := le_right hl S.link S.le
    intro t ht
    obtain ⟨i, hi, rfl⟩ := List.mem_iff_getElem.1 ht
    have hi' : i < ts.length := by rw [← S.len]; exact hi
    have := (List.forall₂_iff_get.1 hF).2 i hi hi'
    exact le_trans this (hD _ (List.getElem_mem _))
  obtain ⟨c, v, hc0, hv, hst⟩ := T.exact hD1
  have hst' : ∀ s, Cfg ts s → chain ts s 0 0 = R.v 0 0 * (c * ∑ k ∈ range lam.length, chain done s 0 k * v k 0) := by
    intro s hs
    rw [← S.state s hs 0 (by omega) 0 (by omega), hR, sum_range_one, hst s (cfg_ds S.ds hs) 0 (by omega) 0 (by omega)]
  have hlam : lam.length = 1 := by
    have h1 : lam.length ≤ 1 := by
      by_contra hc
      have e1 := hv 0 (by omega) 0 (by omega)
      have e2 := hv 0 (by omega) 1 (by omega)
      have e3 := hv 1 (by omega) 1 (by omega)
      simp only [sum_range_one, delta, if_true, zero_ne_one, if_false] at e1 e2 e3
      rcases mul_eq_zero.1 e2 with h0 | h0
      · rw [h0] at e1; simp at e1
      · rw [h0] at e3; simp at e3
    by_contra hc
    have h0 : lam.length = 0 := by omega
    have := hst' s0 hs0
    rw [h0] at this
    simp at this
    exact hx0 this
  have hk : ∀ s, Cfg ts s → chain ts s 0 0 = (R.v 0 0 * c * v 0 0) * chain done s 0 0 := by
    intro s hs
    rw [hst' s hs, hlam, sum_range_one]; ring
  refine ⟨by have := T.link; rwa [hlam] at this, T.ds.trans S.ds, T.len.trans S.len, ?_, T.unit, ?_, _, ?_, hk⟩
  · intro t ht
    rw [T.init] at ht
    exact T.orth t (List.mem_of_mem_dropLast ht)
  · have := T.norm (by intro e; rw [e] at hlam; simp at hlam)
    rw [hlam, T.ds.trans S.ds] at this
    simpa using this
  · intro e
    have := hk s0 hs0
    rw [e, zero_mul] at this
    exact hx0 this

/-- **C99.** `truncateMPS(mps,D)` for every `D`: bonds not above `D`, left-orthonormal sites but the last, and a state of norm
1 unless nothing was kept on the last bond. -/
theorem C99_truncate {O : LinAlg} (hO : O.Spec) {ts done : List (Ten ℂ)} {lams : List (List ℝ)} {D r : ℕ}
    (hl : Linked 1 ts r) (hts : ts ≠ []) (hne : ∃ s, Cfg ts s ∧ ∃ j < r, chain ts s 0 j ≠ 0)
    (h : truncateMPS O ts D = .ok (done, lams)) :
    done.map Ten.d = ts.map Ten.d ∧ done.map Ten.r = lams.map List.length ∧ (∀ t ∈ done, t.r ≤ D)
    ∧ List.Forall₂ (fun t' t : Ten ℂ => t'.r ≤ t.r) done ts
    ∧ (∀ t ∈ done.dropLast, LeftOrth t) ∧ (∀ x ∈ lams, x ≠ [] → norm2 x = 1)
    ∧ ∃ lam, lams.getLast? = some lam ∧ Linked 1 done lam.length ∧ (lam ≠ [] →
      sumCfg (ts.map Ten.d) (fun s => ∑ j ∈ range lam.length, Complex.normSq (chain done s 0 j)) = 1) := by
  obtain ⟨ts1, R, Q, lam, S, hR, T⟩ := truncate_core hO hl hts hne h
  refine ⟨T.ds.trans S.ds, T.dims, T.leD, ?_, ?_, T.unit, lam, T.last, T.link, fun hn => ?_⟩
  · have h1 := T.le
    have h2 := le_right hl S.link S.le
    refine List.forall₂_iff_get.2 ⟨T.len.trans S.len, fun i hi hi' => ?_⟩
    have hi1 : i < ts1.length := by rw [S.len]; exact hi'
    exact le_trans ((List.forall₂_iff_get.1 h1).2 i hi hi1) ((List.forall₂_iff_get.1 h2).2 i hi1 hi')
  · intro t ht
    rw [T.init] at ht
    exact T.orth t (List.mem_of_mem_dropLast ht)
  · have := T.norm hn
    rw [T.ds.trans S.ds] at this
    simpa using this

/-- **C99.** With a right boundary above 1 the isometry `v` of the last site is lost: for a single site with one physical
state and right dimension 2 the result has right dimension at most 1, whatever `D` is. -/
theorem C99_violated_truncate {O : LinAlg} (hO : O.Spec) {D : ℕ} {done : List (Ten ℂ)} {lams : List (List ℝ)}
    (h : truncateMPS O [⟨1, 2, 1, fun _ _ _ => 1⟩] D = .ok (done, lams)) : ¬ Linked 1 done 2 := by
  have hl : Linked 1 [(⟨1, 2, 1, fun _ _ _ => 1⟩ : Ten ℂ)] 2 := ⟨rfl, rfl⟩
  obtain ⟨ts1, R, Q, lam, S, hR, T⟩ := truncate_core hO hl (by simp)
    ⟨[0], .cons (by simp) .nil, 0, by omega, by simp [chain, delta]⟩ h
  intro hL
  have hlen := T.len.trans S.len
  have hds := T.ds.trans S.ds
  have hle := T.le'
  match done, hL, hlen, hds, hle with
  | [t], hL, _, hds, .cons h1 _ =>
    have e1 : t.l = 1 := hL.1
    have e2 : t.r = 2 := hL.2
    simp at hds
    rw [e1, e2, hds] at h1
    omega

/-! ## `truncateMPS` returns -/

namespace Ortho

theorem truncLoop_total {O : LinAlg} (hO : O.Spec) {D r : ℕ} : ∀ (rest : List (Ten ℂ)) (t : Ten ℂ) (l : ℕ),
    Linked l (t :: rest) r → (∀ u ∈ t :: rest, u.r ≤ D) → (∃ s, Cfg (t :: rest) s ∧ ∃ i < l, ∃ j < r, chain (t :: rest) s i j ≠ 0) →
    ∃ x, truncLoop O D t rest = .ok x := by
  intro rest
  induction rest with
  | nil =>
    intro t l hl hD hne
    simp only [truncLoop]
    cases hp : prepareTruncateR O t (some D) 1e-32 with
    | error e =>
      obtain ⟨-, hz⟩ := prepareTruncate_err hO (Or.inr hp)
      obtain ⟨s, hs, i, hi, j, hj, hx⟩ := hne
      cases hs with
      | cons hy hs' =>
      exact absurd (by
        simp only [chain]
        refine sum_eq_zero fun k hk => ?_
        rw [Canon.ten_sq_zero hz i (by rw [hl.1]; exact hi) k (mem_range.1 hk) _ hy, zero_mul]) hx
    | ok p =>
      obtain ⟨a, lam, v, Z⟩ := p
      obtain ⟨S, q⟩ := prepareTruncateR_spec hO hp
      dsimp only
      rw [absorbR_ok (show a.r = (diagMat lam).r from q.outr)]
      exact ⟨_, rfl⟩
  | cons u rest ih =>
    intro t l hl hD hne
    simp only [truncLoop]
    cases hp : prepareTruncateR O t (some D) 1e-32 with
    | error e =>
      obtain ⟨-, hz⟩ := prepareTruncate_err hO (Or.inr hp)
      obtain ⟨s, hs, i, hi, j, hj, hx⟩ := hne
      cases hs with
      | cons hy hs' =>
      exact absurd (by
        simp only [chain]
        refine sum_eq_zero fun k hk => ?_
        rw [Canon.ten_sq_zero hz i (by rw [hl.1]; exact hi) k (mem_range.1 hk) _ hy, zero_mul]) hx
    | ok p =>
      obtain ⟨a, lam, v, Z⟩ := p
      obtain ⟨S, q⟩ := prepareTruncateR_spec hO hp
      dsimp only
      have hc : ((diagMat lam).dot v).c = u.l := by
        rw [show ((diagMat lam).dot v).c = v.c from rfl, q.vc]; exact hl.2.1.symm
      have hu := absorbL_ok hc
      generalize hu' : (⟨((diagMat lam).dot v).r, u.r, u.d, fun i j s => ∑ k ∈ range u.l, ((diagMat lam).dot v).v i k * u.v k j s⟩ :
        Ten ℂ) = u' at hu
      rw [hu]
      dsimp only
      have hul : u'.l = lam.length := by rw [← hu']; rfl
      have hur : u'.r = u.r := by rw [← hu']
      have hud : u'.d = u.d := by rw [← hu']
      obtain ⟨x, hx⟩ := ih u' lam.length ⟨hul, by rw [hur]; exact hl.2.2⟩ (fun w hw => by
        rcases List.mem_cons.1 hw with rfl | hw
        · rw [hur]; exact hD u (by simp)
        · exact hD w (by simp [hw])) (by
        by_contra hcon
        obtain ⟨s, hs, i, hi, j, hj, hx⟩ := hne
        cases hs with
        | cons hy hs' =>
        rename_i y ss
        cases hs' with
        | cons hy' hss =>
        rename_i y' ss'
        apply hx
        have hz : ∀ m < lam.length, chain (u' :: rest) (y' :: ss') m j = 0 := by
          intro m hm
          by_contra hne
          exact hcon ⟨_, .cons (by rw [hud]; exact hy') hss, m, hm, j, hj, hne⟩
        have hA : ∀ k ∈ range t.r, t.v i k y * chain (u :: rest) (y' :: ss') k j
            = ∑ m ∈ range lam.length, Z * (a.v i m y * (((lam.getD m 0 : ℝ) : ℂ) * v.v m k * chain (u :: rest) (y' :: ss') k j)) := by
          intro k hk
          rw [truncR_exact hO (hD t (by simp)) hp (by rw [hl.1]; exact hi) (mem_range.1 hk) hy, q.outr, mul_sum, sum_mul]
          refine sum_congr rfl fun m _ => ?_
          ring
        rw [chain, sum_congr rfl hA, sum_comm]
        refine sum_eq_zero fun m hm => ?_
        have hB := hz m (mem_range.1 hm)
        rw [chain_absorbL hu rest y' ss' m j] at hB
        have hB' : ∑ k ∈ range t.r, ((lam.getD m 0 : ℝ) : ℂ) * v.v m k * chain (u :: rest) (y' :: ss') k j = 0 := by
          rw [← hB]
          refine sum_congr ?_ fun k _ => ?_
          · rw [show ((diagMat lam).dot v).c = v.c from rfl, q.vc]
          · congr 1
            simp only [Mat.dot, diagMat]
            rw [sum_eq_single m (fun b _ hb => by simp [Ne.symm hb]) (fun hn => absurd hm hn), if_pos rfl]
        have : ∀ k ∈ range t.r, (Z : ℂ) * (a.v i m y * (((lam.getD m 0 : ℝ) : ℂ) * v.v m k * chain (u :: rest) (y' :: ss') k j))
            = (Z : ℂ) * a.v i m y * (((lam.getD m 0 : ℝ) : ℂ) * v.v m k * chain (u :: rest) (y' :: ss') k j) := by
          intro k _; ring
        rw [sum_congr rfl this, ← mul_sum, hB', mul_zero])
      rw [hx]
      exact ⟨_, rfl⟩

end Ortho

/-- **C99.** `truncateMPS` returns on a list with open boundaries, a non-zero amplitude and bonds not above `D`. -/
theorem C99_truncate_total {O : LinAlg} (hO : O.Spec) {ts : List (Ten ℂ)} {D r : ℕ} (hl : Linked 1 ts r) (hts : ts ≠ [])
    (hD : ∀ t ∈ ts, t.r ≤ D) (hne : ∃ s, Cfg ts s ∧ ∃ j < r, chain ts s 0 j ≠ 0) :
    ∃ done lams, truncateMPS O ts D = .ok (done, lams) := by
  have hpos : 0 < ts.length := List.length_pos_iff.2 hts
  obtain ⟨s0, hs0, j0, hj0, hx0⟩ := hne
  obtain ⟨ts1, R, hq⟩ := C99_qr_total hO hl (a := 0) (b := ts.length - 1) (Nat.zero_le _) (by omega) (direction := -1)
    (by norm_num) ⟨s0, hs0, 0, by omega, j0, hx0⟩
  have S := (C99_qr hO hl (a := 0) (Nat.zero_le _) (by omega) hq).left (by norm_num) rfl
  unfold truncateMPS
  rw [show ((ts.length : ℤ) - 1) = ((ts.length - 1 : ℕ) : ℤ) by omega]
  simp only [Nat.cast_zero] at hq
  rw [hq]
  cases ts1 with
  | nil => exact ⟨_, _, rfl⟩
  | cons t rest =>
    have hF := le_right hl S.link S.le
    obtain ⟨⟨a, b⟩, hx⟩ := truncLoop_total hO (D := D) rest t R.c S.link (by
      intro u hu
      obtain ⟨i, hi, rfl⟩ := List.mem_iff_getElem.1 hu
      have hi' : i < ts.length := by rw [← S.len]; exact hi
      exact le_trans ((List.forall₂_iff_get.1 hF).2 i hi hi') (hD _ (List.getElem_mem _))) (by
      by_contra hcon
      apply hx0
      rw [← S.state s0 hs0 0 (by omega) j0 hj0]
      refine sum_eq_zero fun k hk => ?_
      have : chain (t :: rest) s0 k j0 = 0 := by
        by_contra hn
        exact hcon ⟨s0, cfg_ds S.ds hs0, k, mem_range.1 hk, j0, hj0, hn⟩
      rw [this, mul_zero])
    exact ⟨a, b, hx⟩

example : ∃ (O : LinAlg) (ts done : List (Ten ℂ)) (lams : List (List ℝ)), O.Spec ∧ Linked 1 ts 1 ∧ ts.length = 2
    ∧ (∀ t ∈ ts, t.r ≤ 2) ∧ truncateMPS O ts 2 = .ok (done, lams) := by
  obtain ⟨O, hO⟩ := exists_linAlg
  let ts : List (Ten ℂ) := [⟨1, 2, 2, fun _ j s => delta ℂ j s⟩, ⟨2, 1, 2, fun i _ s => delta ℂ i s⟩]
  have hl : Linked 1 ts 1 := ⟨rfl, rfl, rfl⟩
  have hD : ∀ t ∈ ts, t.r ≤ 2 := by intro t ht; simp [ts] at ht; rcases ht with rfl | rfl <;> simp
  obtain ⟨done, lams, h⟩ := C99_truncate_total hO hl (by simp [ts]) hD
    ⟨[0, 0], .cons (by simp) (.cons (by simp) .nil), 0, by omega, by simp [ts, chain, delta]⟩
  exact ⟨O, ts, done, lams, hO, hl, rfl, hD, h⟩

/-! ## The phases of `prepareTensorSVD` -/

theorem Ortho.unphase_mul (z : ℂ) : unphase z * z = (‖z‖ : ℂ) := by
  conv_lhs => rw [← Complex.norm_mul_exp_arg_mul_I z]
  unfold unphase
  rw [mul_left_comm, ← Complex.exp_add]
  have : Complex.arg ((‖z‖ : ℂ) * Complex.exp (Complex.arg z * Complex.I)) = Complex.arg z := by
    rw [Complex.norm_mul_exp_arg_mul_I]
  rw [this, show -(Complex.I * (Complex.arg z : ℂ)) + (Complex.arg z : ℂ) * Complex.I = 0 by ring, Complex.exp_zero, mul_one]

/-- **C99.** `prepareTensorSVD(tensor,-1,fixphase=True)`: the diagonal of `v` (the matrix with column index `j*d+s`) is real
and not negative. -/
theorem C99_phase_left {O : LinAlg} {t out : Ten ℂ} {s : List ℝ} {u : Mat ℂ} {Z : ℝ} {direction : ℤ} (hd : direction < 0)
    (h : prepareTensorSVD O t direction true = .ok (out, s, u, Z)) (k j x : ℕ) (hk : k = j * t.d + x) :
    ∃ p : ℝ, 0 ≤ p ∧ out.v k j x = p := by
  unfold prepareTensorSVD svdL at h
  rw [if_neg (by omega), if_neg (by omega)] at h
  simp only [fixL, if_true] at h
  split at h
  · cases h
  simp only [Except.ok.injEq, Prod.mk.injEq] at h
  obtain ⟨rfl, -⟩ := h
  dsimp only
  rw [← hk, Ortho.unphase_mul]
  exact ⟨_, norm_nonneg _, rfl⟩

/-- **C99.** For `direction>0` the phases go the wrong way round: the diagonal of `u` (row index `s*l+i`) becomes
`p·star(unphase p)`, that is `p²/|p|`.  It is real and not negative if it was real before. -/
theorem C99_phase_right {O : LinAlg} {t out : Ten ℂ} {s : List ℝ} {v : Mat ℂ} {Z : ℝ} {direction : ℤ} (hd : 0 < direction)
    (h : prepareTensorSVD O t direction true = .ok (out, s, v, Z)) (k i x : ℕ) (hk : k = x * t.l + i)
    (hre : ((O.svd t.rowMat).1.v k k).im = 0) : ∃ p : ℝ, 0 ≤ p ∧ out.v i k x = p := by
  unfold prepareTensorSVD svdR at h
  rw [if_neg (by omega), if_pos hd] at h
  simp only [fixR, if_true] at h
  split at h
  · cases h
  simp only [Except.ok.injEq, Prod.mk.injEq] at h
  obtain ⟨rfl, -⟩ := h
  dsimp only
  rw [← hk]
  generalize (O.svd t.rowMat).1.v k k = z at hre
  have hz : star z = z := Complex.conj_eq_iff_im.2 hre
  refine ⟨‖z‖, norm_nonneg _, ?_⟩
  rw [← hz, ← star_mul, hz, Ortho.unphase_mul]
  simp

/-- The svd with a phase moved from `v` to `u`. -/
def Ortho.turn (w : ℂ) (O : LinAlg) : LinAlg :=
  { O with svd := fun A => (⟨(O.svd A).1.r, (O.svd A).1.c, fun i k => (O.svd A).1.v i k * w⟩, (O.svd A).2.1,
      ⟨(O.svd A).2.2.r, (O.svd A).2.2.c, fun k j => star w * (O.svd A).2.2.v k j⟩) }

theorem Ortho.turn_spec {w : ℂ} (hw : w * star w = 1) {O : LinAlg} (hO : O.Spec) : (Ortho.turn w O).Spec := by
  refine ⟨hO.qr, fun A => ?_⟩
  have h := hO.svd A
  refine ⟨h.u_r, h.u_c, h.len, h.v_r, h.v_c, h.nonneg, h.sorted, ?_, ?_, ?_⟩
  · intro i hi j hj
    rw [← h.prod i hi j hj]
    refine sum_congr rfl fun k _ => ?_
    simp only [turn]
    linear_combination ((O.svd A).1.v i k * (((O.svd A).2.1.getD k 0 : ℝ) : ℂ) * (O.svd A).2.2.v k j) * hw
  · intro k hk k' hk'
    rw [← h.isoU k hk k' hk']
    refine sum_congr rfl fun i _ => ?_
    simp only [turn, star_mul']
    linear_combination (star ((O.svd A).1.v i k) * (O.svd A).1.v i k') * hw
  · intro k hk k' hk'
    rw [← h.isoV k hk k' hk']
    refine sum_congr rfl fun i _ => ?_
    simp only [turn, star_mul', star_star]
    linear_combination ((O.svd A).2.2.v k i * star ((O.svd A).2.2.v k' i)) * hw

/-- **C99.** The documentation ("if True and direction>0: fixes the phase of the diagonal of u to be real and positive") is
wrong: with a svd that returns `u[0,0]=1j` the entry becomes `-1`. -/
theorem C99_violated_phase : ∃ (O : LinAlg) (out : Ten ℂ) (s : List ℝ) (v : Mat ℂ) (Z : ℝ), O.Spec
    ∧ prepareTensorSVD O (one111 1) 1 true = .ok (out, s, v, Z) ∧ out.v 0 0 0 = -1 := by
  obtain ⟨O, hO⟩ := exists_linAlg
  set c := (O.svd (one111 1).rowMat).1.v 0 0 with hc
  have hcc : star c * c = 1 := by
    have := (hO.svd (one111 1).rowMat).isoU 0 (by simp [one111, Ten.rowMat]) 0 (by simp [one111, Ten.rowMat])
    have hr : (one111 1).rowMat.r = 1 := by simp [one111, Ten.rowMat]
    rw [hr, sum_range_one, ← hc] at this
    simpa [delta] using this
  have hw : (star c * Complex.I) * star (star c * Complex.I) = 1 := by
    simp only [star_mul', star_star]
    have hI : star Complex.I = -Complex.I := Complex.conj_I
    rw [hI]
    linear_combination (-(Complex.I * Complex.I)) * hcc - Complex.I_mul_I
  have hO' := Ortho.turn_spec hw hO
  have hu : ((Ortho.turn (star c * Complex.I) O).svd (one111 1).rowMat).1.v 0 0 = Complex.I := by
    simp only [Ortho.turn, ← hc]
    linear_combination Complex.I * hcc
  have hZ : norm2 ((Ortho.turn (star c * Complex.I) O).svd (one111 1).rowMat).2.1 ≠ 0 := by
    rw [(hO'.svd _).norm2_eq]
    intro h0
    have := normF_eq_zero.1 h0 0 (by simp [one111, Ten.rowMat]) 0 (by simp [one111, Ten.rowMat])
    simp [one111, Ten.rowMat] at this
  have hrun : prepareTensorSVD (Ortho.turn (star c * Complex.I) O) (one111 1) 1 true
      = svdR (Ortho.turn (star c * Complex.I) O) true (one111 1) := rfl
  unfold svdR at hrun
  dsimp only at hrun
  rw [if_neg hZ] at hrun
  refine ⟨Ortho.turn (star c * Complex.I) O, _, _, _, _, hO', hrun, ?_⟩
  · simp only [fixR, if_true]
    rw [show (0 * (one111 1).l + 0) = 0 by simp, hu]
    have h1 := Ortho.unphase_mul Complex.I
    rw [Complex.norm_I] at h1
    have h2 : unphase Complex.I = -Complex.I := by
      have := congrArg (· * (-Complex.I)) h1
      simp only [mul_assoc, mul_neg, Complex.I_mul_I, neg_neg, mul_one] at this
      rw [this]; push_cast; ring
    rw [h2, star_neg]
    have hI : star Complex.I = -Complex.I := Complex.conj_I
    rw [hI, neg_neg, Complex.I_mul_I]

end

end PyTeN
