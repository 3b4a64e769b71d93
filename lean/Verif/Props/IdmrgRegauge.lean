import Verif.Props.IdmrgSim

/-! # Infinite-system DMRG: regauging (C90) -/

namespace PyTeN.Idmrg
open Finset

noncomputable section

variable {O : LinAlg} {pinv : Mat ℂ → Mat ℂ}

/-- Spec: two tensors have the same shape and the same entries. -/
structure Agree (t t' : Ten ℂ) : Prop where
  l : t.l = t'.l
  r : t.r = t'.r
  d : t.d = t'.d
  v : ∀ i < t.l, ∀ j < t.r, ∀ s < t.d, t.v i j s = t'.v i j s

theorem Agree.refl (t : Ten ℂ) : Agree t t := ⟨rfl, rfl, rfl, fun _ _ _ _ _ _ => rfl⟩

theorem agree_dims {ts ts' : List (Ten ℂ)} (h : List.Forall₂ Agree ts ts') : ts.map Ten.d = ts'.map Ten.d := by
  induction h with
  | nil => rfl
  | cons h _ ih => rw [List.map_cons, List.map_cons, h.d, ih]

theorem agree_linked {ts ts' : List (Ten ℂ)} (h : List.Forall₂ Agree ts ts') : ∀ {l r : ℕ}, Linked l ts' r → Linked l ts r := by
  induction h with
  | nil => exact fun h => h
  | cons h _ ih => exact fun hl => ⟨h.l.trans hl.1, by rw [h.r]; exact ih hl.2⟩

theorem agree_chain {ts ts' : List (Ten ℂ)} (h : List.Forall₂ Agree ts ts') : ∀ {l r : ℕ} {s : List ℕ}, Linked l ts r → Cfg ts s →
    ∀ {i : ℕ}, i < l → ∀ j : ℕ, chain ts s i j = chain ts' s i j := by
  induction h with
  | nil => intro l r s _ hs i _ j; cases hs; rfl
  | cons h _ ih =>
    intro l r s hl hs i hi j
    cases hs with
    | cons hx hs =>
      simp only [chain]
      rw [h.r]
      refine sum_congr rfl fun k hk => ?_
      have hk := mem_range.mp hk
      rw [h.v i (by rw [hl.1]; exact hi) k (by rw [h.r]; exact hk) _ hx, ih hl.2 hs (by rw [h.r]; exact hk)]

theorem agree_self (ts : List (Ten ℂ)) : List.Forall₂ Agree ts ts := by
  induction ts with
  | nil => exact .nil
  | cons t ts ih => exact .cons (.refl t) ih

/-- What the symmetric gauge means (contract of `regaugeIMPS(...,gauge='symmetric')`, lib/mpslib/mpsfunctions.py): left-orthonormal
tensors of a uniform cell with positive, normalised Schmidt values `lam`, whose squares are the right fixed point of the transfer
operator of the cell. -/
structure Symmetric (D : ℕ) (ts : List (Ten ℂ)) (lam : List ℂ) : Prop where
  link : Linked D ts D
  len : lam.length = D
  pos : ∀ x ∈ lam, ∃ y : ℝ, 0 < y ∧ x = y
  norm : ∑ i ∈ range D, lam.getD i 0 ^ 2 = 1
  left : ∀ t ∈ ts, LeftOrth t
  fix : ∀ i < D, ∀ i' < D, sumCfg (ts.map Ten.d) (fun s => ∑ j ∈ range D, chain ts s i j * lam.getD j 0 ^ 2 * star (chain ts s i' j))
    = delta ℂ i i' * lam.getD i 0 ^ 2

theorem Symmetric.real {D : ℕ} {ts : List (Ten ℂ)} {lam : List ℂ} (h : Symmetric D ts lam) {i : ℕ} (hi : i < D) :
    ∃ y : ℝ, 0 < y ∧ lam.getD i 0 = y := by
  have hl : i < lam.length := by rw [h.len]; exact hi
  have : lam.getD i 0 = lam[i] := by simp [List.getD, List.getElem?_eq_getElem hl]
  rw [this]
  exact h.pos _ (List.getElem_mem hl)

/-! ## Removing the phase -/

theorem phaseR_spec {m m' : MPS} {D : ℕ} {ts : List (Ten ℂ)} {lam : List ℂ} (hS : Symmetric D ts lam) (ht : m.tensors = ts) (hN : ts.length = m.N)
    (h0 : 0 < m.N) (hpos : m.pos = m.N) (hm : m.mat = diagL lam) (hc : m.conn = diagL (lam.map fun x => 1 / x)) (h : phaseR m = .ok m') :
    m'.WF D D ∧ m'.pos = m.N ∧ m'.N = m.N ∧ m'.sth = m.sth ∧ m'.conn = m.conn ∧ m'.Z = m.Z ∧ List.Forall₂ Agree m'.tensors ts ∧
    m'.mat.r = D ∧ m'.mat.c = D ∧ ∀ i < D, ∀ j < D, m'.mat.v i j = if i = j then lam.getD i 0 else 0 := by
  obtain ⟨A, t, rfl⟩ : ∃ A t, ts = A ++ [t] := by
    rcases List.eq_nil_or_concat ts with rfl | ⟨A, t, rfl⟩
    · simp at hN; omega
    · exact ⟨A, t, by simp⟩
  rw [List.length_append, List.length_singleton] at hN
  obtain ⟨k, hA, hk⟩ := linked_append.mp hS.link
  have htr : t.r = D := hk.2
  unfold phaseR at h
  rw [npDot, hm, hc, if_pos (by simp [diagL])] at h
  simp only at h
  have hg : m.getItem (-1) = .ok t := by
    unfold MPS.getItem getZ pyIdx
    rw [if_pos (by simp [ht]), if_neg (by omega), if_pos (by simp [ht])]
    simp [ht, getT]
  rw [hg] at h
  simp only at h
  split at h
  · cases h
  rename_i t' ht'
  have hset : m.setItem (-1) t' = .ok { m with tensors := A ++ [t'] } := by
    unfold MPS.setItem pyIdx
    rw [if_pos (by simp [ht]), if_neg (by omega), if_pos (by simp [ht])]
    simp [ht]
  rw [hset] at h
  simp only at h
  split at h
  · cases h
  rename_i mat hmat
  cases h
  -- the product is the identity
  have hid : ∀ i < D, ∀ j < D, ((diagL lam).dot (diagL (lam.map fun x => 1 / x))).v i j = delta ℂ i j := by
    intro i hi j hj
    simp only [Mat.dot, diagL, hS.len]
    rw [sum_eq_single i (fun k _ hk => by rw [if_neg hk.symm, zero_mul]) (fun h => absurd (mem_range.mpr hi) h), if_pos rfl, delta]
    obtain ⟨y, hy, e⟩ := hS.real hi
    by_cases hij : i = j
    · subst hij
      have : (lam.map fun x => 1 / x).getD i 0 = 1 / lam.getD i 0 := by
        have hl : i < lam.length := by rw [hS.len]; exact hi
        simp [List.getD, List.getElem?_eq_getElem hl]
      rw [if_pos rfl, if_pos rfl, this, e]
      have : (y : ℂ) ≠ 0 := by exact_mod_cast hy.ne'
      field_simp
    · rw [if_neg hij, if_neg hij, mul_zero]
  obtain ⟨hr, rfl⟩ := absorbR_eq ht'
  unfold npDot at hmat
  split_ifs at hmat with hsh
  cases hmat
  have ag : List.Forall₂ Agree (A ++ [⟨t.l, (lam.map fun x => 1 / x).length, t.d, fun i j s => ∑ k ∈ range t.r, t.v i k s *
      ((diagL lam).dot (diagL (lam.map fun x => 1 / x))).v k j⟩]) (A ++ [t]) := by
    refine List.rel_append (agree_self A) (.cons ⟨rfl, ?_, rfl, ?_⟩ .nil)
    · simp [hS.len, htr]
    · intro i _ j hj s _
      have hj : j < D := by simpa [hS.len] using hj
      simp only
      rw [sum_congr rfl (fun k hk => by rw [hid k (by rw [← htr]; exact mem_range.mp hk) j hj])]
      rw [sum_eq_single j (fun k _ hk => by rw [delta, if_neg hk, mul_zero]) (fun h => absurd (mem_range.mpr (by rw [htr]; exact hj)) h),
        delta, if_pos rfl, mul_one]
  refine ⟨⟨by simp [hN], hpos.le, ?_, ?_⟩, hpos, rfl, rfl, by rw [hc], rfl, ag, by simp [Mat.dot, Mat.herm, diagL, hS.len],
    by simp [Mat.dot, hm, diagL, hS.len], ?_⟩
  · show Linked D (List.take m.pos _) _
    rw [List.take_of_length_le (by simp; omega)]
    have := agree_linked ag hS.link
    rw [show (((diagL lam).dot (diagL (lam.map fun x => 1 / x))).herm.dot m.mat).r = D by simp [Mat.dot, Mat.herm, diagL, hS.len]]
    exact this
  · show Linked _ (List.drop m.pos _) D
    rw [List.drop_of_length_le (by simp; omega)]
    simp [Linked, Mat.dot, hm, diagL, hS.len]
  · intro i hi j hj
    simp only [hm]
    show ∑ k ∈ range ((diagL lam).dot (diagL (lam.map fun x => 1 / x))).r,
      star (((diagL lam).dot (diagL (lam.map fun x => 1 / x))).v k i) * (diagL lam).v k j = _
    have hrr : ((diagL lam).dot (diagL (lam.map fun x => 1 / x))).r = D := by simp [Mat.dot, diagL, hS.len]
    rw [hrr, sum_eq_single i (fun k hk hne => by rw [hid k (mem_range.mp hk) i hi, delta, if_neg hne, star_zero, zero_mul])
      (fun h => absurd (mem_range.mpr hi) h), hid i hi i hi, delta, if_pos rfl, star_one, one_mul]
    rfl

theorem phaseL_steps {m m' : MPS} {t : Ten ℂ} {B : List (Ten ℂ)} (ht : m.tensors = t :: B) (h : phaseL m = .ok m') :
    m.conn.c = m.mat.r ∧ m.mat.c = t.l ∧
    m' = { m with
      tensors := ⟨m.conn.r, t.r, t.d, fun i j s => ∑ k ∈ range t.l, (m.conn.dot m.mat).v i k * t.v k j s⟩ :: B
      mat := m.mat.dot (m.conn.dot m.mat).herm } := by
  unfold phaseL npDot at h
  split at h
  · cases h
  rename_i p hp
  split_ifs at hp with h1
  cases hp
  have hg : m.getItem 0 = .ok t := by
    unfold MPS.getItem getZ pyIdx
    rw [if_pos (by simp [ht]; omega), if_pos le_rfl, if_pos (by simp [ht])]
    simp [ht, getT]
  rw [hg] at h
  simp only at h
  split at h
  · cases h
  rename_i t' ht'
  have hset : m.setItem 0 t' = .ok { m with tensors := t' :: B } := by
    unfold MPS.setItem pyIdx
    rw [if_pos (by simp [ht]; omega), if_pos le_rfl, if_pos (by simp [ht])]
    simp [ht]
  rw [hset] at h
  simp only at h
  split at h
  · cases h
  rename_i mat hmat
  split_ifs at hmat with h2
  cases hmat
  cases h
  obtain ⟨h3, rfl⟩ := absorbL_eq ht'
  exact ⟨h1, h3, rfl⟩

/-! ## What `regauge` hands to the kernel -/

theorem set_split {ts : List (Ten ℂ)} {n : ℕ} {t : Ten ℂ} (h : getT ts n = .ok t) (t' : Ten ℂ) :
    ts = ts.take n ++ t :: ts.drop (n + 1) ∧ ts.set n t' = ts.take n ++ t' :: ts.drop (n + 1) ∧ n < ts.length := by
  unfold getT at h
  split at h
  · rename_i x hx
    cases h
    obtain ⟨hn, rfl⟩ := List.getElem?_eq_some_iff.mp hx
    refine ⟨?_, by rw [List.set_eq_take_append_cons_drop, if_pos hn], hn⟩
    rw [← List.drop_eq_getElem_cons hn, List.take_append_drop]
  · cases h

theorem center_right {m m1 : MPS} {l r : ℕ} (hw : m.WF l r) (hp : m.pos < m.N) (h : m.absorbCenterMatrix 1 = .ok m1) :
    ∃ T, m1 = { m with tensors := T, mat := eye m.mat.r } ∧ T.map Ten.d = m.ds ∧ Linked l T r ∧
      ∀ s, Cfg m.tensors s → ∀ i < l, ∀ j, m.Z * chain T s i j = m.amp s i j := by
  unfold MPS.absorbCenterMatrix at h
  have hdir : (if m.pos = m.N ∧ (1 : ℤ) > 0 then false else if m.pos = 0 ∧ (1 : ℤ) < 0 then true else decide ((1 : ℤ) > 0)) = true := by
    simp [hp.ne]
  rw [if_neg (by norm_num)] at h
  simp only [hdir, if_true] at h
  split at h
  · cases h
  rename_i t ht
  split at h
  · cases h
  rename_i t' ht'
  cases h
  obtain ⟨e1, e2, hn⟩ := set_split ht t'
  have hr := hw.right
  rw [List.drop_eq_getElem_cons hn] at hr
  have hd : m.tensors.drop m.pos = t :: m.tensors.drop (m.pos + 1) := by
    rw [List.drop_eq_getElem_cons hn]
    unfold getT at ht
    rw [List.getElem?_eq_getElem hn] at ht
    cases ht
    rfl
  have hr := hw.right
  rw [hd] at hr
  obtain ⟨hc, ht2⟩ := absorbL_eq ht'
  refine ⟨_, rfl, ?_, ?_, ?_⟩
  · rw [e2, MPS.ds]
    conv_rhs => rw [e1]
    simp [ht2]
  · rw [e2, linked_append]
    exact ⟨m.mat.r, hw.left, by rw [ht2], by rw [ht2]; exact hr.2⟩
  · intro s hs i hi j
    have hsl : s.length = m.tensors.length := (List.Forall₂.length_eq hs).symm
    have hsd : s = s.take m.pos ++ s[m.pos] :: s.drop (m.pos + 1) := by
      rw [← List.drop_eq_getElem_cons (by omega), List.take_append_drop]
    rw [e2]
    conv_lhs => rw [hsd]
    rw [split_absorbL hw.left ht' _ _ (by simp; omega) _ _ hi]
    unfold MPS.amp
    rw [hd, List.drop_eq_getElem_cons (i := m.pos) (l := s) (by omega)]
    rfl

theorem center_left {m m1 : MPS} {l r : ℕ} (hw : m.WF l r) (hN : 0 < m.N) (hp : m.pos = m.N) (h : m.absorbCenterMatrix (-1) = .ok m1) :
    ∃ T, m1 = { m with tensors := T, mat := eye m.mat.c } ∧ T.map Ten.d = m.ds ∧ Linked l T r ∧
      ∀ s, Cfg m.tensors s → ∀ i < l, ∀ j, m.Z * chain T s i j = m.amp s i j := by
  unfold MPS.absorbCenterMatrix at h
  have hdir : (if m.pos = m.N ∧ (-1 : ℤ) > 0 then false else if m.pos = 0 ∧ (-1 : ℤ) < 0 then true else decide ((-1 : ℤ) > 0)) = false := by
    rw [if_neg (by norm_num), if_neg (by omega)]; decide
  rw [if_neg (by norm_num)] at h
  simp only [hdir, Bool.false_eq_true, if_false] at h
  split at h
  · cases h
  rename_i t ht
  split at h
  · cases h
  rename_i t' ht'
  cases h
  obtain ⟨e1, e2, hn⟩ := set_split ht t'
  have hlen := hw.len
  have hd : m.tensors.drop (m.pos - 1 + 1) = [] := List.drop_of_length_le (by omega)
  rw [hd] at e1 e2
  have hl := hw.left
  rw [List.take_of_length_le (by omega), e1, linked_append] at hl
  obtain ⟨k, hA, hk, hk'⟩ := hl
  have hr := hw.right
  rw [List.drop_of_length_le (by omega)] at hr
  have hr : m.mat.c = r := hr
  obtain ⟨hc, ht2⟩ := absorbR_eq ht'
  subst hk
  refine ⟨_, rfl, ?_, ?_, ?_⟩
  · rw [e2, MPS.ds]
    conv_rhs => rw [e1]
    simp [ht2]
  · rw [e2, linked_append]
    exact ⟨t.l, hA, by rw [ht2], by rw [ht2]; exact hr⟩
  · intro s hs i hi j
    have hsl : s.length = m.tensors.length := (List.Forall₂.length_eq hs).symm
    have hsd : s = s.take (m.pos - 1) ++ s[m.pos - 1]'(by omega) :: s.drop (m.pos - 1 + 1) := by
      rw [← List.drop_eq_getElem_cons (by omega), List.take_append_drop]
    have hs0 : s.drop (m.pos - 1 + 1) = [] := List.drop_of_length_le (by omega)
    rw [hs0] at hsd
    rw [e2]
    conv_lhs => rw [hsd]
    rw [split_absorbR hA ht' _ _ (by simp; omega) _ _ hi]
    unfold MPS.amp split
    rw [← hsd, ← e1]
    rw [List.take_of_length_le (l := m.tensors) (by omega), List.take_of_length_le (l := s) (by omega),
      List.drop_of_length_le (l := m.tensors) (by omega), List.drop_of_length_le (l := s) (by omega)]

theorem conn_left {m m1 : MPS} (h : m.absorbConnector "left" = .ok m1) :
    ∃ t t', getT m.tensors 0 = .ok t ∧ absorbL m.conn t = .ok t' ∧ m1 = { m with tensors := m.tensors.set 0 t', conn := eye t'.l } := by
  unfold MPS.absorbConnector at h
  rw [if_neg (by decide), if_pos rfl] at h
  split at h
  · cases h
  rename_i t ht
  split at h
  · cases h
  rename_i t' ht'
  cases h
  exact ⟨t, t', ht, ht', rfl⟩

theorem conn_right {m m1 : MPS} (h : m.absorbConnector "right" = .ok m1) :
    ∃ t t', getT m.tensors (m.N - 1) = .ok t ∧ absorbR t m.conn = .ok t' ∧
      m1 = { m with tensors := m.tensors.set (m.N - 1) t', conn := eye t'.r } := by
  unfold MPS.absorbConnector at h
  rw [if_pos rfl] at h
  split at h
  · cases h
  rename_i t ht
  split at h
  · cases h
  rename_i t' ht'
  cases h
  exact ⟨t, t', ht, ht', rfl⟩

/-- The object after `regauge`; the tensors given to the kernel are those of the uniform cell: connector times cell, or cell times
connector. -/
theorem regauge_spec {K : Kernels} {m m' : MPS} {l r : ℕ} (hob : m.obc = false) (hw : m.WF l r) (hN : 0 < m.N)
    (hcr : m.conn.r = r) (hcc : m.conn.c = l) (h : regauge K m = .ok m') :
    ∃ ts A lam n, K.sym ts = .ok (A, lam) ∧ (0 : ℂ) ∉ lam ∧ ts.map Ten.d = m.ds ∧ Linked n ts n ∧
      m'.tensors = A ∧ m'.mat = diagL lam ∧ m'.conn = diagL (lam.map fun x => 1 / x) ∧ m'.pos = m.N ∧ m'.N = m.N ∧ m'.sth = m.sth ∧
      m'.Z = m.Z ∧
      (m.pos < m.N → n = r ∧ ∀ s, Cfg m.tensors s → ∀ i < n, ∀ j < n, m.Z * chain ts s i j = ∑ k ∈ range l, m.conn.v i k * m.amp s k j) ∧
      (m.pos = m.N → n = l ∧ ∀ s, Cfg m.tensors s → ∀ i < n, ∀ j < n, m.Z * chain ts s i j = ∑ k ∈ range r, m.amp s i k * m.conn.v k j) := by
  unfold regauge at h
  rw [if_neg (by simp [hob])] at h
  simp only at h
  by_cases hp : m.pos < m.N
  · rw [if_pos hp] at h
    cases h1 : m.absorbCenterMatrix 1 with
    | error x => rw [h1] at h; cases h
    | ok m1 =>
      rw [h1] at h
      obtain ⟨T, rfl, d1, l1, c1⟩ := center_right hw hp h1
      simp only at h
      cases hc1 : ({ m with tensors := T, mat := eye m.mat.r } : MPS).absorbConnector "left" with
      | error x => rw [hc1] at h; cases h
      | ok m2 =>
          rw [hc1] at h
          obtain ⟨t, t', h2, h3, rfl⟩ := conn_left hc1
          simp only at h h2 h3
          rw [if_neg (by omega)] at h
          simp only at h
          obtain ⟨e1, e2, hn⟩ := set_split h2 t'
          rw [List.take_zero, List.nil_append] at e1 e2
          obtain ⟨hc, ht'⟩ := absorbL_eq h3
          split at h
          · cases h
          rename_i A lam hK
          split_ifs at h with h0
          cases h
          have l2 := l1
          rw [e1] at l2
          refine ⟨_, A, lam, r, hK, h0, ?_, ?_, rfl, rfl, rfl, rfl, rfl, rfl, rfl, fun _ => ⟨rfl, ?_⟩, fun hh => absurd hh hp.ne⟩
          · rw [e2, ← d1]
            conv_rhs => rw [e1]
            simp [ht']
          · rw [e2]
            exact ⟨by rw [ht']; exact hcr, by rw [ht']; exact l2.2⟩
          · intro s hs i hi j hj
            rw [e2]
            have hsT : Cfg T s := by
              rw [cfg_iff_map] at hs ⊢
              rw [d1]; exact hs
            rw [e1] at hsT
            cases hsT with
            | cons hx hss =>
              rw [chain_absorbL h3, mul_sum, hcc]
              refine sum_congr rfl fun k hk => ?_
              have := c1 _ hs k (mem_range.mp hk) j
              rw [e1] at this
              rw [← this]
              ring
  · have hpe : m.pos = m.N := le_antisymm hw.pos_le (by omega)
    rw [if_neg hp] at h
    simp only at h
    rw [if_pos hpe] at h
    cases h1 : m.absorbCenterMatrix (-1) with
    | error x => rw [h1] at h; cases h
    | ok m1 =>
      rw [h1] at h
      obtain ⟨T, rfl, d1, l1, c1⟩ := center_left hw hN hpe h1
      simp only at h
      cases hc1 : ({ m with tensors := T, mat := eye m.mat.c } : MPS).absorbConnector "right" with
      | error x => rw [hc1] at h; cases h
      | ok m2 =>
          rw [hc1] at h
          obtain ⟨t, t', h2, h3, rfl⟩ := conn_right hc1
          simp only at h h2 h3
          obtain ⟨e1, e2, hn⟩ := set_split h2 t'
          have hTl : T.length = m.N := by
            have := congrArg List.length d1
            rwa [List.length_map, MPS.ds, List.length_map, hw.len] at this
          rw [List.drop_of_length_le (by omega)] at e1 e2
          obtain ⟨hc, ht'⟩ := absorbR_eq h3
          split at h
          · cases h
          rename_i A lam hK
          split_ifs at h with h0
          cases h
          have l2 := l1
          rw [e1, linked_append] at l2
          obtain ⟨k, hA, hk, hk'⟩ := l2
          subst hk
          refine ⟨_, A, lam, l, hK, h0, ?_, ?_, rfl, rfl, rfl, rfl, rfl, rfl, rfl, fun hh => absurd hh hp, fun _ => ⟨rfl, ?_⟩⟩
          · rw [e2, ← d1]
            conv_rhs => rw [e1]
            simp [ht']
          · rw [e2, linked_append]
            exact ⟨t.l, hA, by rw [ht'], by rw [ht']; exact hcc⟩
          · intro s hs i hi j hj
            have hsl : s.length = m.tensors.length := (List.Forall₂.length_eq hs).symm
            have hlen := hw.len
            have hsd : s = s.take (m.N - 1) ++ [s[m.N - 1]'(by omega)] := by
              have : s.drop (m.N - 1 + 1) = [] := List.drop_of_length_le (by omega)
              rw [← this, ← List.drop_eq_getElem_cons (by omega), List.take_append_drop]
            rw [e2]
            conv_lhs => rw [hsd]
            rw [chain_append_absorbR hA h3 _ (by simp; omega) _ hi (by rw [hcc]; exact hj), ← hsd, ← e1, mul_sum, hcr]
            refine sum_congr rfl fun k hk => ?_
            rw [← c1 s hs i hi k]
            ring

/-! ## The rebuilt engine -/

theorem init_zero {m' : MPS} {mpo : List (Mpo ℂ)} {lb rb : Env ℂ} {e : Eng} (hpos : m'.pos = 0) (len : m'.tensors.length = m'.N)
    (hN0 : 0 < m'.N) (hW : mpo.length = m'.N) (h : Eng.init O m' mpo (some lb) (some rb) = .ok e) :
    e.mps = m' ∧ e.mpo = mpo ∧ e.lb = lb ∧ e.rb = rb ∧ e.Fit ∧ Linked lb.u m'.tensors rb.u := by
  unfold Eng.init at h
  split at h
  · cases h
  split at h
  · cases h
  split at h
  · rename_i w v hw0 hv0
    simp only at h
    split at h
    · cases h
    rename_i l' r' hbd
    split_ifs at hbd with hc
    cases hbd
    have p0 : m'.position O 0 = .ok m' := by
      unfold MPS.position
      rw [if_neg (by simp), if_neg (by simp)]
      simp [hpos]
    rw [p0] at h
    simp only at h
    split at h
    · cases h
    rename_i L hL
    split at h
    · cases h
    rename_i R hR
    cases h
    have hne : m'.tensors ≠ [] := List.length_pos_iff.mp (by omega)
    have V := val_of_get len (by omega) hL hR
    obtain ⟨E, hE⟩ : ∃ E, (lb :: L)[m'.N]? = some E := ⟨_, List.getElem?_eq_getElem (by have := V.lenL; simp only at this; omega)⟩
    have isl := V.left m'.N le_rfl E hE
    obtain ⟨E', hE'⟩ : ∃ E', (rb :: R)[m'.N - 0]? = some E' :=
      ⟨_, List.getElem?_eq_getElem (by have := V.lenR; simp only at this; omega)⟩
    have isr := V.right 0 le_rfl (by omega) E' hE'
    simp only at isl isr
    rw [List.take_of_length_le (by omega), List.take_of_length_le (by omega)] at isl
    rw [List.drop_zero, List.drop_zero] at isr
    have u1 := (linked_unique isl.u isl.w hne).1
    have u2 := (linked_unique isr.u isr.w hne).2
    have u3 := (linked_unique isl.u isr.u hne)
    have ml : MLinked lb.m mpo rb.m := by
      have := mgetLast_r isl.m hv0
      rw [← hc.2.2.2, this]; exact isl.m
    have hf := fits_din isl.fits
    have hlink : Linked lb.u m'.tensors rb.u := by rw [← u3.2]; exact isl.u
    exact ⟨rfl, rfl, rfl, rfl, ⟨u1, u2, ml, hf.1, hf.2⟩, hlink⟩
  · cases h

theorem gram_chain {c r : ℕ} {B : List (Ten ℂ)} (hB : Linked c B r) (ho : ∀ t ∈ B, RightOrth t) (f g : ℕ → ℂ) :
    sumCfg (B.map Ten.d) (fun s => ∑ j ∈ range r, (∑ k ∈ range c, f k * chain B s k j) * star (∑ k ∈ range c, g k * chain B s k j))
      = ∑ k ∈ range c, f k * star (g k) := by
  have e : ∀ s, ∑ j ∈ range r, (∑ k ∈ range c, f k * chain B s k j) * star (∑ k ∈ range c, g k * chain B s k j)
      = ∑ k ∈ range c, ∑ k' ∈ range c, (f k * star (g k')) * ∑ j ∈ range r, chain B s k j * star (chain B s k' j) := by
    intro s
    simp_rw [star_sum, star_mul', sum_mul_sum, mul_sum]
    rw [sum_comm]
    refine sum_congr rfl fun k _ => ?_
    rw [sum_comm]
    refine sum_congr rfl fun k' _ => sum_congr rfl fun j _ => by ring
  simp_rw [e]
  rw [sumCfg_sum]
  refine sum_congr rfl fun k hk => ?_
  rw [sumCfg_sum]
  rw [sum_congr rfl (fun k' hk' => by rw [sumCfg_mul, chain_rightOrth hB ho (mem_range.mp hk) (mem_range.mp hk')])]
  rw [sum_eq_single k (fun k' _ hne => by rw [delta, if_neg hne.symm, mul_zero]) (fun h => absurd hk h), delta, if_pos rfl, mul_one]

theorem gram_ten {t : Ten ℂ} (ho : RightOrth t) (f g : ℕ → ℂ) :
    ∑ s ∈ range t.d, ∑ j ∈ range t.r, (∑ k ∈ range t.l, f k * t.v k j s) * star (∑ k ∈ range t.l, g k * t.v k j s)
      = ∑ k ∈ range t.l, f k * star (g k) := by
  have h := gram_chain (B := [t]) (c := t.l) (r := t.r) ⟨rfl, rfl⟩ (by simpa using ho) f g
  rw [← h]
  simp only [List.map_cons, List.map_nil, sumCfg]
  refine sum_congr rfl fun s _ => sum_congr rfl fun j hj => ?_
  have : ∀ k, chain [t] [s] k j = t.v k j s := by
    intro k
    simp only [chain]
    rw [sum_delta_right (mem_range.mp hj)]
  simp_rw [this]

theorem phaseR_keeps {m m' : MPS} (h : phaseR m = .ok m') : m'.obc = m.obc ∧ m'.Dmax = m.Dmax := by
  unfold phaseR at h
  split at h
  · cases h
  split at h
  · cases h
  split at h
  · cases h
  split at h
  · cases h
  rename_i m1 h1
  split at h
  · cases h
  cases h
  unfold MPS.setItem at h1
  split_ifs at h1
  split at h1
  · cases h1; exact ⟨rfl, rfl⟩
  · cases h1

theorem center_keeps {m m' : MPS} {d : ℤ} (h : m.absorbCenterMatrix d = .ok m') : m'.obc = m.obc ∧ m'.Dmax = m.Dmax := by
  unfold MPS.absorbCenterMatrix at h
  by_cases h0 : d = 0
  · rw [if_pos h0] at h; cases h
  rw [if_neg h0] at h
  simp only at h
  generalize (if m.pos = m.N ∧ d > 0 then false else if m.pos = 0 ∧ d < 0 then true else decide (d > 0)) = b at h
  cases b with
  | true =>
    simp only [if_true] at h
    split at h
    · cases h
    split at h
    · cases h
    cases h
    exact ⟨rfl, rfl⟩
  | false =>
    simp only [Bool.false_eq_true, if_false] at h
    split at h
    · cases h
    split at h
    · cases h
    cases h
    exact ⟨rfl, rfl⟩

theorem regauge_keeps {K : Kernels} {m m' : MPS} (h : regauge K m = .ok m') : m'.obc = m.obc ∧ m'.Dmax = m.Dmax := by
  unfold regauge at h
  by_cases h0 : m.obc = true
  · rw [if_pos h0] at h; cases h; exact ⟨rfl, rfl⟩
  rw [if_neg h0] at h
  simp only at h
  split at h
  · cases h
  rename_i m1 h1
  split at h
  · cases h
  rename_i m2 h2
  split at h
  · cases h
  split_ifs at h
  cases h
  have k1 : m1.obc = m.obc ∧ m1.Dmax = m.Dmax := by
    split at h1
    · split at h1
      · cases h1
      rename_i c hc
      obtain ⟨t, t', -, -, e⟩ := conn_left h1
      have := center_keeps hc
      rw [e]; exact this
    · cases h1; exact ⟨rfl, rfl⟩
  have k2 : m2.obc = m1.obc ∧ m2.Dmax = m1.Dmax := by
    split at h2
    · split at h2
      · cases h2
      rename_i c hc
      obtain ⟨t, t', -, -, e⟩ := conn_right h2
      have := center_keeps hc
      rw [e]; exact this
    · cases h2; exact ⟨rfl, rfl⟩
  exact ⟨k2.1.trans k1.1, k2.2.trans k1.2⟩

/-- **C90 (regauging).**  Regauging a cell that is not an open chain and rebuilding the engine: the kernel receives the tensors of the
uniform cell (connector times cell, or cell times connector); if it returns the symmetric gauge, i.e. left-orthonormal tensors `A`
and Schmidt values `lam`, then the left boundary is computed from `A`, the right boundary from the right-orthonormal tensors `B` of the
new state, the centre matrix is `diag(lam)` at the left end, the connector its inverse, and `lam·B(s) = A(s)·lam` for every
configuration of the cell: the mixed canonical form of the same uniform state.  The new engine is a cell in the sense of C87. -/
theorem C90_regauge (hO : O.Spec) {K : Kernels} {m : MPS} {mpo : List (Mpo ℂ)} {e : Eng} {l r : ℕ} (hob : m.obc = false) (hw : m.WF l r)
    (hN : 0 < m.N) (hs : m.sth < 1e-15) (hZ : m.Z ≠ 0) (hcr : m.conn.r = r) (hcc : m.conn.c = l) (hW : mpo.length = m.N)
    (hK : ∀ ts A lam, K.sym ts = .ok (A, lam) → A.map Ten.d = ts.map Ten.d ∧ ∃ D, Symmetric D A lam)
    (h : rebuild O K true m mpo = .ok e) :
    ∃ ts A lam D n, K.sym ts = .ok (A, lam) ∧ Symmetric D A lam ∧ Linked n ts n ∧
      (m.pos < m.N → n = r ∧ ∀ s, Cfg m.tensors s → ∀ i < n, ∀ j < n, m.Z * chain ts s i j = ∑ k ∈ range l, m.conn.v i k * m.amp s k j) ∧
      (m.pos = m.N → n = l ∧ ∀ s, Cfg m.tensors s → ∀ i < n, ∀ j < n, m.Z * chain ts s i j = ∑ k ∈ range r, m.amp s i k * m.conn.v k j) ∧
      e.mps.pos = 0 ∧ e.mpo = mpo ∧ e.mps.WF D D ∧ e.mps.ds = m.ds ∧ e.mps.Canonical ∧ e.mps.Z = m.Z ∧
      (e.mps.mat.r = D ∧ e.mps.mat.c = D ∧ ∀ i < D, ∀ j < D, e.mps.mat.v i j = if i = j then lam.getD i 0 else 0) ∧
      (e.mps.conn.r = D ∧ e.mps.conn.c = D ∧ ∀ i < D, ∀ j < D, e.mps.conn.v i j = if i = j then 1 / lam.getD i 0 else 0) ∧
      (∀ s, Cfg m.tensors s → ∀ i < D, ∀ j < D, lam.getD i 0 * chain e.mps.tensors s i j = chain A s i j * lam.getD j 0) ∧
      (∃ A' x, List.Forall₂ Agree A' A ∧ K.left A' mpo = .ok (e.lb, x)) ∧ (∃ x, K.right e.mps.tensors mpo = .ok (e.rb, x)) ∧
      e.Fit ∧ (∀ k, m.N = 2 * k → Cell O k e) ∧ A.map Ten.d = m.ds ∧ e.mps.obc = m.obc ∧ e.mps.Dmax = m.Dmax ∧
      ∀ b, (∀ t ∈ A, t.l ≤ b ∧ t.r ≤ b) → ∀ x ≤ m.N, e.mps.bondDim x ≤ b := by
  unfold rebuild getBoundaryHams at h
  simp only [if_true] at h
  cases hg : regauge K m with
  | error x => rw [hg] at h; cases h
  | ok m0 =>
    rw [hg] at h
    simp only at h
    obtain ⟨ts, A, lam, n, a1, a2, a3, a4, t0, mat0, c0, p0, N0, s0, Z0, b1, b2⟩ := regauge_spec hob hw hN hcr hcc hg
    obtain ⟨hAd, D, hS⟩ := hK ts A lam a1
    rw [if_neg (by omega), if_pos (by omega)] at h
    have hAl : A.length = m.N := by
      have := congrArg List.length (hAd.trans a3)
      rwa [List.length_map, MPS.ds, List.length_map, hw.len] at this
    cases h1 : phaseR m0 with
    | error x => rw [h1] at h; cases h
    | ok m1 =>
      rw [h1] at h
      simp only at h
      obtain ⟨w1, p1, N1, s1, c1, Z1, ag, mr, mc, mv⟩ := phaseR_spec hS t0 (by omega) (by omega) (by omega) mat0 c0 h1
      cases h2 : K.left m1.tensors mpo with
      | error x => rw [h2] at h; cases h
      | ok E =>
        obtain ⟨lb, hl⟩ := E
        rw [h2] at h
        simp only at h
        cases h3 : m1.position O 0 with
        | error x => rw [h3] at h; cases h
        | ok m2 =>
          rw [h3] at h
          simp only at h
          have hs1 : m1.sth < 1e-15 := by rw [s1, s0]; exact hs
          obtain ⟨-, -, M⟩ := position_moved hO (effSth_default hs1) w1 h3
          simp only [Int.toNat_zero] at M
          obtain ⟨z, hz, hZ2⟩ := position_Z hO (effSth_default hs1) h3
          cases h4 : phaseL m2 with
          | error x => rw [h4] at h; cases h
          | ok m3 =>
            rw [h4] at h
            simp only at h
            cases h5 : K.right m3.tensors mpo with
            | error x => rw [h5] at h; cases h
            | ok E =>
              obtain ⟨rb, hr⟩ := E
              rw [h5] at h
              simp only at h
              -- the tensors at position 0
              have hne2 : m2.tensors ≠ [] := List.length_pos_iff.mp (by rw [M.wf.len, M.N]; omega)
              obtain ⟨t, B, ht⟩ := List.exists_cons_of_ne_nil hne2
              obtain ⟨q1, q2, rfl⟩ := phaseL_steps ht h4
              have hcm : m2.conn = diagL (lam.map fun x => 1 / x) := by rw [M.conn, c1, c0]
              have cr : m2.conn.r = D := by rw [hcm]; simp [diagL, hS.len]
              have cc : m2.conn.c = D := by rw [hcm]; simp [diagL, hS.len]
              have cv : ∀ i < D, ∀ j, m2.conn.v i j = if i = j then 1 / lam.getD i 0 else 0 := by
                intro i hi j
                have hli : i < lam.length := by rw [hS.len]; exact hi
                rw [hcm]
                simp [diagL, List.getD, List.getElem?_eq_getElem hli]
              have wl : D = m2.mat.r := by
                have := M.wf.left
                rw [M.pos, List.take_zero] at this
                exact this
              have wr : Linked m2.mat.c (t :: B) D := by
                have := M.wf.right
                rwa [M.pos, List.drop_zero, ht] at this
              have ro : ∀ u ∈ t :: B, RightOrth u := by
                intro u hu
                rw [← ht] at hu
                obtain ⟨x, hx⟩ := List.mem_iff_getElem?.mp hu
                refine M.right x u hx (by omega) ?_
                have := (List.getElem?_eq_some_iff.mp hx).1
                rw [M.wf.len, M.N] at this
                omega
              have ds2 : (t :: B).map Ten.d = A.map Ten.d := by
                rw [← ht, ← agree_dims ag]; exact M.ds
              have cfgA : ∀ s, Cfg A s ↔ Cfg m.tensors s := by
                intro s
                rw [cfg_iff_map, cfg_iff_map, hAd, a3]; rfl
              have cfg1 : ∀ s, Cfg A s → Cfg m1.tensors s := by
                intro s
                rw [cfg_iff_map, cfg_iff_map, agree_dims ag]; exact id
              -- amplitudes
              have amp2 : ∀ s, Cfg A s → ∀ i < D, ∀ j < D,
                  m2.Z * ∑ k ∈ range m2.mat.c, m2.mat.v i k * chain (t :: B) s k j = m.Z * (chain A s i j * lam.getD j 0) := by
                intro s hsc i hi j hj
                have e1 := M.amp s (cfg1 s hsc) i hi j
                unfold MPS.amp at e1
                rw [M.pos, List.take_zero, List.take_zero, List.drop_zero, List.drop_zero, ht] at e1
                rw [← wl] at e1
                have e2 : ∑ k ∈ range D, ∑ k' ∈ range m2.mat.c, chain [] [] i k * m2.mat.v k k' * chain (t :: B) s k' j
                    = ∑ k' ∈ range m2.mat.c, m2.mat.v i k' * chain (t :: B) s k' j := by
                  rw [sum_eq_single i (fun k _ hk => sum_eq_zero fun k' _ => by simp [chain, delta, hk.symm])
                    (fun h => absurd (mem_range.mpr hi) h)]
                  simp [chain, delta]
                rw [e2] at e1
                rw [e1, Z1, Z0]
                congr 1
                have hl1 : m1.tensors.length = m1.N := w1.len
                have hsl : s.length = m1.tensors.length := (List.Forall₂.length_eq (cfg1 s hsc)).symm
                rw [p1, List.take_of_length_le (by omega), List.take_of_length_le (by omega), List.drop_of_length_le (by omega),
                  List.drop_of_length_le (by omega), mr, mc]
                have l1 : Linked D m1.tensors D := agree_linked ag hS.link
                rw [sum_eq_single j ?_ (fun h => absurd (mem_range.mpr hj) h), sum_eq_single j ?_ (fun h => absurd (mem_range.mpr hj) h)]
                · rw [agree_chain ag l1 (cfg1 s hsc) hi, mv j hj j hj]
                  simp [chain, delta]
                · intro k' _ hk'
                  simp [chain, delta, hk']
                · intro k hk hkj
                  refine sum_eq_zero fun k' hk' => ?_
                  rw [mv k (mem_range.mp hk) k' (mem_range.mp hk')]
                  by_cases hkk : k = k'
                  · subst hkk; simp [chain, delta, hkj]
                  · rw [if_neg hkk]; ring
              -- the Gram matrix of the centre matrix
              have gram : ∀ i < D, ∀ i' < D, m2.Z * star m2.Z * ∑ k ∈ range m2.mat.c, m2.mat.v i k * star (m2.mat.v i' k)
                  = m.Z * star m.Z * (delta ℂ i i' * lam.getD i 0 ^ 2) := by
                intro i hi i' hi'
                rw [← hS.fix i hi i' hi', ← sumCfg_mul]
                have : ∑ k ∈ range m2.mat.c, m2.mat.v i k * star (m2.mat.v i' k)
                    = sumCfg (A.map Ten.d) (fun s => ∑ j ∈ range D, (∑ k ∈ range m2.mat.c, m2.mat.v i k * chain (t :: B) s k j)
                      * star (∑ k ∈ range m2.mat.c, m2.mat.v i' k * chain (t :: B) s k j)) := by
                  rw [← ds2]
                  exact (gram_chain wr ro _ _).symm
                rw [this, ← sumCfg_mul]
                refine sumCfg_congr fun s hsc => ?_
                have hsc : Cfg A s := cfg_iff_map.mpr hsc
                rw [mul_sum, mul_sum]
                refine sum_congr rfl fun j hj => ?_
                have hj := mem_range.mp hj
                obtain ⟨y, -, hy⟩ := hS.real hj
                have e1 := amp2 s hsc i hi j hj
                have e2 := congrArg star (amp2 s hsc i' hi' j hj)
                rw [star_mul', star_mul', star_mul'] at e2
                have hst : star (lam.getD j 0) = lam.getD j 0 := by rw [hy]; exact Complex.conj_ofReal y
                rw [hst] at e2
                linear_combination star m2.Z * star (∑ k ∈ range m2.mat.c, m2.mat.v i' k * chain (t :: B) s k j) * e1
                  + m.Z * chain A s i j * lam.getD j 0 * e2
              -- the norm does not change
              have hnm : ∑ i ∈ range D, ∑ k ∈ range m2.mat.c, m2.mat.v i k * star (m2.mat.v i k) = 1 := by
                have h1 := M.norm (by omega)
                unfold normF at h1
                rw [Real.sqrt_eq_one] at h1
                rw [wl]
                have h2 := congrArg (fun x : ℝ => (x : ℂ)) h1
                simp only [Complex.ofReal_sum, Complex.ofReal_one] at h2
                rw [← h2]
                refine sum_congr rfl fun i _ => sum_congr rfl fun k _ => ?_
                exact Complex.mul_conj _
              have hzz : m2.Z * star m2.Z = m.Z * star m.Z := by
                have : ∑ i ∈ range D, m2.Z * star m2.Z * ∑ k ∈ range m2.mat.c, m2.mat.v i k * star (m2.mat.v i k)
                    = ∑ i ∈ range D, m.Z * star m.Z * (delta ℂ i i * lam.getD i 0 ^ 2) :=
                  sum_congr rfl fun i hi => gram i (mem_range.mp hi) i (mem_range.mp hi)
                rw [← mul_sum, ← mul_sum, hnm, mul_one] at this
                simp only [delta, if_true, one_mul] at this
                rw [this, hS.norm, mul_one]
              have hnz : m.Z * star m.Z ≠ 0 := mul_ne_zero hZ (star_ne_zero.mpr hZ)
              have hz1 : z = 1 := by
                rw [hZ2, Z1, Z0, star_mul'] at hzz
                have h1 : ((z : ℂ) * star (z : ℂ)) = 1 := by
                  have : m.Z * star m.Z * ((z : ℂ) * star (z : ℂ)) = m.Z * star m.Z * 1 := by
                    rw [mul_one]; linear_combination hzz
                  exact mul_left_cancel₀ hnz this
                have h2 : star (z : ℂ) = z := Complex.conj_ofReal z
                rw [h2] at h1
                have h3 : z * z = 1 := by exact_mod_cast h1
                nlinarith
              have hZe : m2.Z = m.Z := by rw [hZ2, Z1, Z0, hz1]; simp
              have gram' : ∀ i < D, ∀ i' < D, ∑ k ∈ range m2.mat.c, m2.mat.v i k * star (m2.mat.v i' k) = delta ℂ i i' * lam.getD i 0 ^ 2 := by
                intro i hi i' hi'
                have := gram i hi i' hi'
                rw [hzz] at this
                exact mul_left_cancel₀ hnz this
              -- the phase
              have pv : ∀ i < D, ∀ k, (m2.conn.dot m2.mat).v i k = 1 / lam.getD i 0 * m2.mat.v i k := by
                intro i hi k
                show ∑ j ∈ range m2.conn.c, m2.conn.v i j * m2.mat.v j k = _
                rw [cc, sum_eq_single i (fun j _ hj => by rw [cv i hi, if_neg hj.symm, zero_mul]) (fun h => absurd (mem_range.mpr hi) h),
                  cv i hi, if_pos rfl]
              have lamne : ∀ i < D, lam.getD i 0 ≠ 0 := by
                intro i hi
                obtain ⟨y, hy, e⟩ := hS.real hi
                rw [e]; exact_mod_cast hy.ne'
              have lamst : ∀ i < D, star (lam.getD i 0) = lam.getD i 0 := by
                intro i hi
                obtain ⟨y, hy, e⟩ := hS.real hi
                rw [e]; exact Complex.conj_ofReal y
              have pp : ∀ i < D, ∀ i' < D, ∑ k ∈ range m2.mat.c, (m2.conn.dot m2.mat).v i k * star ((m2.conn.dot m2.mat).v i' k) = delta ℂ i i' := by
                intro i hi i' hi'
                rw [sum_congr rfl (g := fun k => 1 / lam.getD i 0 * (1 / lam.getD i' 0) * (m2.mat.v i k * star (m2.mat.v i' k))) (fun k _ => by
                  rw [pv i hi, pv i' hi', star_mul', star_div₀, star_one, lamst i' hi']; ring), ← mul_sum, gram' i hi i' hi']
                have l1 := lamne i hi
                by_cases hii : i = i'
                · subst hii
                  simp only [delta, if_true]
                  field_simp
                · simp [delta, hii]
              have matv : ∀ i < D, ∀ j < D, (m2.mat.dot (m2.conn.dot m2.mat).herm).v i j = if i = j then lam.getD i 0 else 0 := by
                intro i hi j hj
                show ∑ k ∈ range m2.mat.c, m2.mat.v i k * star ((m2.conn.dot m2.mat).v j k) = _
                rw [sum_congr rfl (g := fun k => 1 / lam.getD j 0 * (m2.mat.v i k * star (m2.mat.v j k))) (fun k _ => by
                  rw [pv j hj, star_mul', star_div₀, star_one, lamst j hj]; ring), ← mul_sum, gram' i hi j hj]
                have l1 := lamne j hj
                by_cases hij : i = j
                · subst hij
                  simp only [delta, if_true]
                  field_simp
                · simp [delta, hij]
              have W3 : ({ m2 with
                  tensors := ⟨m2.conn.r, t.r, t.d, fun i j s => ∑ k ∈ range t.l, (m2.conn.dot m2.mat).v i k * t.v k j s⟩ :: B
                  mat := m2.mat.dot (m2.conn.dot m2.mat).herm } : MPS).WF D D := by
                refine ⟨?_, M.wf.pos_le, ?_, ?_⟩
                · have := M.wf.len
                  rw [ht] at this
                  exact this
                · simp only [M.pos, List.take_zero]
                  exact wl
                · simp only [M.pos, List.drop_zero]
                  exact ⟨rfl, wr.2⟩
              have hN2 : m2.N = m.N := by rw [M.N, N1, N0]
              obtain ⟨i1, i2, i3, i4, i5, i6⟩ := init_zero (m' := { m2 with
                  tensors := ⟨m2.conn.r, t.r, t.d, fun i j s => ∑ k ∈ range t.l, (m2.conn.dot m2.mat).v i k * t.v k j s⟩ :: B
                  mat := m2.mat.dot (m2.conn.dot m2.mat).herm }) M.pos W3.len (by simp only; omega) (by simp only; omega) h
              have can : ({ m2 with
                  tensors := ⟨m2.conn.r, t.r, t.d, fun i j s => ∑ k ∈ range t.l, (m2.conn.dot m2.mat).v i k * t.v k j s⟩ :: B
                  mat := m2.mat.dot (m2.conn.dot m2.mat).herm } : MPS).Canonical := by
                refine ⟨fun x u _ hx => by simp only [M.pos] at hx; omega, fun x u hx _ => ?_, ?_⟩
                · cases x with
                  | zero =>
                    simp only [List.getElem?_cons_zero, Option.some.injEq] at hx
                    subst hx
                    intro i hi i' hi'
                    simp only at hi hi' ⊢
                    rw [cr] at hi hi'
                    rw [gram_ten (ro t (by simp)), ← q2]
                    exact pp i hi i' hi'
                  | succ x =>
                    rw [List.getElem?_cons_succ] at hx
                    exact ro u (by simp [List.mem_of_getElem? hx])
                · unfold normF
                  rw [Real.sqrt_eq_one]
                  have hr3 : (m2.mat.dot (m2.conn.dot m2.mat).herm).r = D := wl.symm
                  have hc3 : (m2.mat.dot (m2.conn.dot m2.mat).herm).c = D := cr
                  simp only [hr3, hc3]
                  have : ((∑ i ∈ range D, ∑ j ∈ range D, Complex.normSq ((m2.mat.dot (m2.conn.dot m2.mat).herm).v i j) : ℝ) : ℂ) = 1 := by
                    rw [← hS.norm, Complex.ofReal_sum]
                    refine sum_congr rfl fun i hi => ?_
                    rw [Complex.ofReal_sum, sum_eq_single i (fun j hj hne => by
                      rw [matv i (mem_range.mp hi) j (mem_range.mp hj), if_neg hne.symm]; simp) (fun h => absurd hi h),
                      matv i (mem_range.mp hi) i (mem_range.mp hi), if_pos rfl, ← Complex.mul_conj]
                    have := lamst i (mem_range.mp hi)
                    rw [sq]
                    congr 1
                  exact_mod_cast this
              have hsq : (m2.mat.dot (m2.conn.dot m2.mat).herm).r = (m2.mat.dot (m2.conn.dot m2.mat).herm).c := by
                show m2.mat.r = m2.conn.r
                rw [← wl, cr]
              refine ⟨ts, A, lam, D, n, a1, hS, a4, b1, b2, by rw [i1]; exact M.pos, i2, by rw [i1]; exact W3, ?_, by rw [i1]; exact can,
                by rw [i1]; exact hZe, ?_, ?_, ?_, ⟨m1.tensors, hl, ag, by rw [i3]; exact h2⟩, ⟨hr, by rw [i1, i4]; exact h5⟩, i5, ?_, hAd.trans a3, ?_, ?_, ?_⟩
              · rw [i1, ← a3, ← hAd, ← ds2]
                rfl
              · rw [i1]
                exact ⟨wl.symm, cr, matv⟩
              · rw [i1]
                exact ⟨cr, cc, fun i hi j _ => cv i hi j⟩
              · intro s hsc i hi j hj
                rw [i1]
                have hsA := (cfgA s).mpr hsc
                have hst : Cfg (t :: B) s := by
                  rw [cfg_iff_map] at hsA ⊢
                  rw [ds2]; exact hsA
                have e1 := amp2 s hsA i hi j hj
                rw [hZe] at e1
                have e1 := mul_left_cancel₀ hZ e1
                rw [← e1]
                cases hst with
                | cons hx hss =>
                  have hab : absorbL (m2.conn.dot m2.mat) t = .ok ⟨m2.conn.r, t.r, t.d, fun i j s =>
                      ∑ k ∈ range t.l, (m2.conn.dot m2.mat).v i k * t.v k j s⟩ := absorbL_ok q2
                  rw [chain_absorbL hab, mul_sum]
                  refine sum_congr rfl fun k _ => ?_
                  rw [pv i hi]
                  have l1 := lamne i hi
                  field_simp
              · intro k hk
                have hne3 : (⟨m2.conn.r, t.r, t.d, fun i j s => ∑ k ∈ range t.l, (m2.conn.dot m2.mat).v i k * t.v k j s⟩ :: B : List (Ten ℂ)) ≠ [] := by
                  simp
                have w4 := W3.right
                simp only [M.pos, List.drop_zero] at w4
                have u := linked_unique i6 w4 hne3
                have hc3 : (m2.mat.dot (m2.conn.dot m2.mat).herm).c = D := cr
                rw [hc3] at u
                refine ⟨?_, ?_, by rw [i1]; exact hsq, i5, by rw [i1]; exact M.pos, by rw [i1]; simp only; omega, by omega,
                  by rw [i1]; simp only [M.sth]; exact hs1, by rw [i1]; exact can, by rw [i1]; simp only [hZe]; exact hZ⟩
                · rw [i1, i2, i3, i4]; exact h
                · rw [i1, i3, i4, u.1, u.2]; exact W3
              · rw [i1]; simp only; rw [M.obc, (phaseR_keeps h1).1, (regauge_keeps hg).1]
              · rw [i1]; simp only; rw [M.Dmax, (phaseR_keeps h1).2, (regauge_keeps hg).2]
              · intro b hb x hx
                have hDb : D ≤ b := by
                  obtain ⟨u, U, hu⟩ := List.exists_cons_of_ne_nil (List.length_pos_iff.mp (by omega : 0 < A.length))
                  have hlk := hS.link
                  rw [hu] at hlk
                  rw [← hlk.1]
                  exact (hb u (by simp [hu])).1
                have hA1 : ∀ (x : ℕ) (u : Ten ℂ), m1.tensors[x]? = some u → u.l ≤ b ∧ u.r ≤ b := by
                  intro x u hxu
                  obtain ⟨hx1, rfl⟩ := List.getElem?_eq_some_iff.mp hxu
                  have hlen := ag.length_eq
                  have agx := List.forall₂_iff_get.mp ag |>.2 x hx1 (by omega)
                  simp only [List.get_eq_getElem] at agx
                  have := hb _ (List.getElem_mem (show x < A.length by omega))
                  rw [agx.l, agx.r]
                  exact this
                have hm1 : m1.bondDim x ≤ b := by
                  unfold MPS.bondDim
                  split_ifs with g1 g2
                  · rw [mr, mc, max_self]; exact hDb
                  · cases hxu : m1.tensors[x]? with
                    | none => simp
                    | some u => exact (hA1 x u hxu).1
                  · cases hxu : m1.tensors[x - 1]? with
                    | none => simp
                    | some u => exact (hA1 _ u hxu).2
                have hm2 := (M.bond x (by omega)).trans hm1
                rw [i1]
                unfold MPS.bondDim at hm2 ⊢
                rw [M.pos] at hm2
                simp only [M.pos]
                by_cases h0 : x = 0
                · rw [if_pos h0]
                  have r3 : (m2.mat.dot (m2.conn.dot m2.mat).herm).r = D := wl.symm
                  have c3 : (m2.mat.dot (m2.conn.dot m2.mat).herm).c = D := cr
                  rw [r3, c3, max_self]; exact hDb
                · rw [if_neg h0, if_neg (by omega)] at hm2 ⊢
                  obtain ⟨x, rfl⟩ : ∃ y, x = y + 1 := ⟨x - 1, by omega⟩
                  rw [Nat.add_sub_cancel] at hm2 ⊢
                  rw [ht] at hm2
                  cases x with
                  | zero => exact hm2
                  | succ x => exact hm2

end

end PyTeN.Idmrg
