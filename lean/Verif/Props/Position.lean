import Verif.Mps.Ghz

/-!
# C07 – C10: moving the orthogonality centre

`MPS.amp m s i j` is the specification of the represented state (Verif/Mps/Model.lean): `Z` times the
product of all tensors on the configuration `s` with the centre matrix inserted at the position.
`LinAlg.Spec` is the contract on numpy's qr and svd (satisfiable: `exists_linAlg`).
-/

namespace PyTeN
open Finset

noncomputable section

/-! ## C07 -/

theorem cfg_of_ds {m m' : MPS} (h : m'.ds = m.ds) {s : List ℕ} (hs : Cfg m.tensors s) :
    Cfg m'.tensors s := by
  rw [cfg_iff_map] at hs ⊢
  rw [show m'.tensors.map Ten.d = m.tensors.map Ten.d from h]; exact hs

/-- Result of a history of non-truncating `position` calls. -/
theorem positions_moved {O : LinAlg} (hO : O.Spec) {l r : ℕ} (bs : List ℤ) :
    ∀ {m m' : MPS}, m.sth < 1e-15 → m.WF l r → m.positions O bs = .ok m' →
      m'.WF l r ∧ m'.N = m.N ∧ m'.ds = m.ds ∧ m'.obc = m.obc ∧ m'.Dmax = m.Dmax ∧ m'.sth = m.sth ∧
      m'.rth = m.rth ∧ m'.conn = m.conn ∧
      (∀ b ∈ bs, 0 ≤ b ∧ b ≤ m.N) ∧ (∀ x ≤ m.N, m'.bondDim x ≤ m.bondDim x) ∧
      (∀ s, Cfg m.tensors s → ∀ i < l, ∀ j, m'.amp s i j = m.amp s i j) ∧
      (m.Canonical → m'.Canonical) := by
  induction bs with
  | nil =>
    intro m m' _ hw h
    simp only [MPS.positions] at h
    cases h
    exact ⟨hw, rfl, rfl, rfl, rfl, rfl, rfl, rfl, by simp, fun _ _ => le_rfl, fun _ _ _ _ _ => rfl, id⟩
  | cons b bs ih =>
    intro m m' hs hw h
    simp only [MPS.positions] at h
    split at h
    · cases h
    · rename_i m1 h1
      have heff : m.effSth 1e-16 < 1e-15 := by
        unfold MPS.effSth; rw [if_neg (by norm_num)]; exact hs
      obtain ⟨hb0, hbN, hM⟩ := position_moved hO heff hw h1
      obtain ⟨a1, a2, a3, a4, a5, a6, a6', a6'', a7, a8, a9, a10⟩ :=
        ih (by rw [hM.sth]; exact hs) hM.wf h
      refine ⟨a1, a2.trans hM.N, a3.trans hM.ds, a4.trans hM.obc, a5.trans hM.Dmax,
        a6.trans hM.sth, a6'.trans hM.rth, a6''.trans hM.conn, ?_, ?_, ?_, ?_⟩
      · intro c hc
        rcases List.mem_cons.mp hc with rfl | hc
        · exact ⟨hb0, hbN⟩
        · rw [← hM.N]; exact a7 c hc
      · intro x hx
        exact (a8 x (by rw [hM.N]; exact hx)).trans (hM.bond x hx)
      · intro s hcfg i hi j
        rw [a9 s (cfg_of_ds hM.ds hcfg) i hi j, hM.amp s hcfg i hi j]
      · intro hc
        apply a10
        refine ⟨?_, ?_, ?_⟩
        · intro x t hx hxp
          rw [hM.pos] at hxp
          by_cases h2 : m.pos ≤ x
          · exact hM.left x t hx h2 hxp
          · rw [hM.same x (Or.inl ⟨by omega, hxp⟩)] at hx
            exact hc.left x t hx (by omega)
        · intro x t hx hxp
          rw [hM.pos] at hxp
          by_cases h2 : m.pos ≤ x
          · rw [hM.same x (Or.inr ⟨h2, hxp⟩)] at hx
            exact hc.right x t hx h2
          · exact hM.right x t hx hxp (by omega)
        · by_cases h2 : b.toNat = m.pos
          · have : m1 = m := by
              unfold MPS.position at h1
              rw [if_neg (by simpa using hbN), if_neg (by simpa using hb0)] at h1
              simp only at h1
              rw [if_pos h2] at h1
              cases h1; rfl
            rw [this]; exact hc.norm
          · exact hM.norm h2

/-- **C07.** Any history of non-truncating `position` calls leaves every amplitude of the state
unchanged (whatever the intermediate gauge, chain length, local and bond dimensions). -/
theorem C07_position_preserves_state {O : LinAlg} (hO : O.Spec) {m m' : MPS} {l r : ℕ}
    (hw : m.WF l r) (hs : m.sth < 1e-15) (bs : List ℤ) (h : m.positions O bs = .ok m') :
    ∀ s, Cfg m.tensors s → ∀ i < l, ∀ j, m'.amp s i j = m.amp s i j :=
  (positions_moved hO bs hs hw h).2.2.2.2.2.2.2.2.2.2.1

/-- **C07**, progress: on a state with a non-vanishing amplitude, every history of moves inside
`0..N` succeeds (no exception, no NaN). -/
theorem C07_position_succeeds {O : LinAlg} (hO : O.Spec) {l r : ℕ} (bs : List ℤ) :
    ∀ {m : MPS}, m.WF l r → m.sth < 1e-15 → (∀ b ∈ bs, 0 ≤ b ∧ b ≤ m.N) →
      (∃ s i j, Cfg m.tensors s ∧ i < l ∧ m.amp s i j ≠ 0) →
      ∃ m', m.positions O bs = .ok m' := by
  induction bs with
  | nil => intro m _ _ _ _; exact ⟨m, rfl⟩
  | cons b bs ih =>
    intro m hw hs hb hne
    have heff : m.effSth 1e-16 < 1e-15 := by
      unfold MPS.effSth; rw [if_neg (by norm_num)]; exact hs
    obtain ⟨hb0, hbN⟩ := hb b (by simp)
    obtain ⟨n, rfl⟩ := Int.eq_ofNat_of_zero_le hb0
    cases h1 : m.position O n with
    | error e =>
      obtain ⟨_, hz⟩ := position_err hO heff hw (by exact_mod_cast hbN) h1
      obtain ⟨s, i, j, hcfg, hi, ha⟩ := hne
      exact absurd (hz s hcfg i hi j) ha
    | ok m1 =>
      obtain ⟨_, _, hM⟩ := position_moved hO heff hw h1
      obtain ⟨s, i, j, hcfg, hi, ha⟩ := hne
      obtain ⟨m', h'⟩ := ih (m := m1) hM.wf (by rw [hM.sth]; exact hs)
        (fun c hc => by rw [hM.N]; exact hb c (by simp [hc]))
        ⟨s, i, j, cfg_of_ds hM.ds hcfg, hi, by rw [hM.amp s hcfg i hi j]; exact ha⟩
      exact ⟨m', by simp only [MPS.positions, h1, h']⟩

/-- The hypotheses of C07–C10 are met by the entangled state `ghz` and a non-trivial history. -/
theorem ghz_moves : ∃ O : LinAlg, O.Spec ∧ ∃ m', ghz.positions O [0, 3, 1] = .ok m' := by
  obtain ⟨O, hO⟩ := exists_linAlg
  refine ⟨O, hO, C07_position_succeeds hO _ ghz_wf (by norm_num [ghz]) ?_ ?_⟩
  · intro b hb; simp only [ghz]; fin_cases hb <;> norm_num
  · exact ⟨[0, 0, 0], 0, 0, ghz_cfg 0 0 0 (by norm_num) (by norm_num) (by norm_num), by norm_num, by
      rw [ghz_amp 0 0 0 (by norm_num) (by norm_num) (by norm_num)]; norm_num⟩

example : ∃ (O : LinAlg) (m m' : MPS), O.Spec ∧ m.WF 1 1 ∧ m.sth < 1e-15 ∧
    m.positions O [0, 3, 1] = .ok m' ∧ m.amp [1, 1, 1] 0 0 = 1 ∧ m.amp [0, 1, 1] 0 0 = 0 := by
  obtain ⟨O, hO, m', h⟩ := ghz_moves
  refine ⟨O, ghz, m', hO, ghz_wf, by norm_num [ghz], h, ?_, ?_⟩
  · rw [ghz_amp _ _ _ (by norm_num) (by norm_num) (by norm_num)]; norm_num
  · rw [ghz_amp _ _ _ (by norm_num) (by norm_num) (by norm_num)]; norm_num

/-! ## C08 -/

/-- A move makes the tensors it passes orthonormal and keeps the others. -/
theorem canonical_of_sweep {m m' : MPS} {l r b : ℕ} (hM : Moved m m' l r b)
    (hN : 0 < m.N) (h : (m.pos = m.N ∧ b = 0) ∨ (m.pos = 0 ∧ b = m.N)) : m'.Canonical := by
  have hlen : ∀ x t, m'.tensors[x]? = some t → x < m.N := by
    intro x t hx
    have := (List.getElem?_eq_some_iff.mp hx).1
    have h2 := hM.wf.len
    have h3 := hM.N
    omega
  refine ⟨?_, ?_, hM.norm (by omega)⟩
  · intro x t hx hxp
    rw [hM.pos] at hxp
    rcases h with ⟨h1, h2⟩ | ⟨h1, h2⟩
    · omega
    · exact hM.left x t hx (by omega) hxp
  · intro x t hx hxp
    rw [hM.pos] at hxp
    have := hlen x t hx
    rcases h with ⟨h1, h2⟩ | ⟨h1, h2⟩
    · exact hM.right x t hx hxp (by omega)
    · omega

theorem positions_append {O : LinAlg} {m : MPS} (as bs : List ℤ) :
    m.positions O (as ++ bs) = match m.positions O as with
      | .error e => .error e
      | .ok m1 => m1.positions O bs := by
  induction as generalizing m with
  | nil => rfl
  | cons a as ih =>
    simp only [List.cons_append, MPS.positions]
    split
    · rfl
    · exact ih

/-- **C08.** As soon as the history contains one full sweep over the chain (a move to `0` later
followed by a move to `N`, or the reverse, with arbitrary moves before, between and after), the
object is in mixed canonical form. -/
theorem C08_canonical_after_history {O : LinAlg} (hO : O.Spec) {m m' : MPS} {l r : ℕ}
    (hw : m.WF l r) (hs : m.sth < 1e-15) (hN : 0 < m.N) (as bs : List ℤ) (e : ℤ × ℤ)
    (he : e = (0, (m.N : ℤ)) ∨ e = ((m.N : ℤ), 0))
    (h : m.positions O (as ++ e.1 :: e.2 :: bs) = .ok m') : m'.Canonical := by
  rw [positions_append] at h
  split at h
  · cases h
  rename_i m1 h1
  obtain ⟨w1, n1, _, _, _, s1, _⟩ := positions_moved hO as hs hw h1
  simp only [MPS.positions] at h
  split at h
  · cases h
  rename_i m2 h2
  have heff1 : m1.effSth 1e-16 < 1e-15 := by
    unfold MPS.effSth; rw [if_neg (by norm_num), s1]; exact hs
  obtain ⟨_, _, M2⟩ := position_moved hO heff1 w1 h2
  split at h
  · cases h
  rename_i m3 h3
  have heff2 : m2.effSth 1e-16 < 1e-15 := by
    unfold MPS.effSth; rw [if_neg (by norm_num), M2.sth, s1]; exact hs
  obtain ⟨_, _, M3⟩ := position_moved hO heff2 M2.wf h3
  have hn2 : m2.N = m.N := by rw [M2.N, n1]
  have hc : m3.Canonical := by
    apply canonical_of_sweep M3 (by omega)
    rw [M2.pos, hn2]
    rcases he with rfl | rfl
    · right; simp
    · left; simp
  exact (positions_moved hO bs (by rw [M3.sth, M2.sth, s1]; exact hs) M3.wf h).2.2.2.2.2.2.2.2.2.2.2 hc

/-- **C08**, single sweep: a freshly constructed object has its position at `N`, so the first
`position(0)` already produces the canonical form, and every later history keeps it. -/
theorem C08_canonical_from_right_end {O : LinAlg} (hO : O.Spec) {m m' : MPS} {l r : ℕ}
    (hw : m.WF l r) (hs : m.sth < 1e-15) (hN : 0 < m.N) (hp : m.pos = m.N) (bs : List ℤ)
    (h : m.positions O (0 :: bs) = .ok m') : m'.Canonical := by
  simp only [MPS.positions] at h
  split at h
  · cases h
  rename_i m1 h1
  have heff1 : m.effSth 1e-16 < 1e-15 := by
    unfold MPS.effSth; rw [if_neg (by norm_num)]; exact hs
  obtain ⟨_, _, M1⟩ := position_moved hO heff1 hw h1
  have hc : m1.Canonical := canonical_of_sweep M1 hN (Or.inl ⟨hp, rfl⟩)
  exact (positions_moved hO bs (by rw [M1.sth]; exact hs) M1.wf h).2.2.2.2.2.2.2.2.2.2.2 hc

example : ∃ (O : LinAlg) (m m' : MPS), O.Spec ∧ m.WF 1 1 ∧ m.sth < 1e-15 ∧ 0 < m.N ∧ m.pos = m.N ∧
    m.positions O (([] : List ℤ) ++ 0 :: (m.N : ℤ) :: [1]) = .ok m' := by
  obtain ⟨O, hO, m', h⟩ := ghz_moves
  exact ⟨O, ghz, m', hO, ghz_wf, by norm_num [ghz], by norm_num [ghz], rfl, h⟩

/-! ## C09 -/

/-- **C09.** `position(bond)` raises an AssertionError exactly outside `0..N` (this check precedes
every write, lib/mpslib/mps.py:729-730, so nothing has been changed by then). -/
theorem C09_position_range {O : LinAlg} (hO : O.Spec) {m : MPS} {l r : ℕ} (hw : m.WF l r)
    (hs : m.sth < 1e-15) (b : ℤ) :
    m.position O b = .error .assertion ↔ (b < 0 ∨ (m.N : ℤ) < b) := by
  have heff : m.effSth 1e-16 < 1e-15 := by
    unfold MPS.effSth; rw [if_neg (by norm_num)]; exact hs
  constructor
  · intro h
    by_contra hc
    push Not at hc
    obtain ⟨n, rfl⟩ := Int.eq_ofNat_of_zero_le hc.1
    have := (position_err hO heff hw (by exact_mod_cast hc.2) h).1
    cases this
  · intro h
    unfold MPS.position
    by_cases h1 : b ≤ m.N
    · rw [if_neg (by simpa using h1), if_pos (by omega)]
    · rw [if_pos h1]

/-- **C09.** Bookkeeping after any history: last target is the position, number of tensors, local
dimensions, flags and outer bond dimensions are unchanged, neighbouring dimensions match (`WF`) and
no bond dimension has grown. -/
theorem C09_position_bookkeeping {O : LinAlg} (hO : O.Spec) {m m' : MPS} {l r : ℕ}
    (hw : m.WF l r) (hs : m.sth < 1e-15) (bs : List ℤ) (h : m.positions O bs = .ok m') :
    m'.WF l r ∧ m'.tensors.length = m.tensors.length ∧ m'.ds = m.ds ∧ m'.obc = m.obc ∧
    m'.Dmax = m.Dmax ∧ (∀ x ≤ m.N, m'.bondDim x ≤ m.bondDim x) ∧
    (m'.pos : ℤ) = bs.getLast?.getD m.pos := by
  obtain ⟨a1, a2, a3, a4, a5, _, _, _, _, a8, _⟩ := positions_moved hO bs hs hw h
  refine ⟨a1, by rw [a1.len, hw.len, a2], a3, a4, a5, a8, ?_⟩
  rcases List.eq_nil_or_concat bs with rfl | ⟨as, b, rfl⟩
  · simp only [MPS.positions] at h; cases h; simp
  · rw [List.concat_eq_append] at h ⊢
    rw [show (as ++ [b]).getLast? = some b by simp, Option.getD_some]
    rw [positions_append] at h
    split at h
    · cases h
    rename_i m1 h1
    obtain ⟨w1, n1, _, _, _, s1, _⟩ := positions_moved hO as hs hw h1
    simp only [MPS.positions] at h
    split at h
    · cases h
    rename_i m2 h2
    cases h
    have heff1 : m1.effSth 1e-16 < 1e-15 := by
      unfold MPS.effSth; rw [if_neg (by norm_num), s1]; exact hs
    obtain ⟨hb, _, M2⟩ := position_moved hO heff1 w1 h2
    rw [M2.pos]; exact Int.toNat_of_nonneg hb

example : ∃ (O : LinAlg) (m m' : MPS), O.Spec ∧ m.WF 1 1 ∧ m.sth < 1e-15 ∧
    m.positions O [0, 3, 1] = .ok m' ∧ m.bondDim 1 = 2 := by
  obtain ⟨O, hO, m', h⟩ := ghz_moves
  exact ⟨O, ghz, m', hO, ghz_wf, by norm_num [ghz], h, by simp [MPS.bondDim, ghz, ghzT]⟩

/-! ## C10 -/

/-- `resetZ`, lib/mpslib/mps.py:1268-1273. -/
def MPS.resetZ (m : MPS) : MPS := { m with Z := 1 }

/-- **C10.** After a history containing a full sweep, the squared norm of the original (and of the
present) state, summed over all configurations, is `|Z|²`. -/
theorem C10_Z_is_norm {O : LinAlg} (hO : O.Spec) {m m' : MPS} {l r : ℕ}
    (hw : m.WF l r) (hs : m.sth < 1e-15) (hN : 0 < m.N) (as bs : List ℤ) (e : ℤ × ℤ)
    (he : e = (0, (m.N : ℤ)) ∨ e = ((m.N : ℤ), 0))
    (h : m.positions O (as ++ e.1 :: e.2 :: bs) = .ok m') :
    m.normSq l r = Complex.normSq m'.Z ∧ m'.normSq l r = Complex.normSq m'.Z := by
  have hc := C08_canonical_after_history hO hw hs hN as bs e he h
  obtain ⟨a1, a2, a3, _, _, _, _, _, _, _, a9, _⟩ := positions_moved hO _ hs hw h
  have h1 := canonical_normSq a1 hc
  refine ⟨?_, h1⟩
  rw [← h1]
  unfold MPS.normSq
  rw [a3]
  apply sumCfg_congr
  intro s hcfg
  apply sum_congr rfl; intro i hi
  apply sum_congr rfl; intro j _
  rw [a9 s (cfg_iff_map.mpr hcfg) i (mem_range.mp hi) j]

/-- **C10.** `resetZ` after such a history gives a state of norm one, and the original state is
`Z` times it. -/
theorem C10_resetZ_normalises {O : LinAlg} (hO : O.Spec) {m m' : MPS} {l r : ℕ}
    (hw : m.WF l r) (hs : m.sth < 1e-15) (hN : 0 < m.N) (as bs : List ℤ) (e : ℤ × ℤ)
    (he : e = (0, (m.N : ℤ)) ∨ e = ((m.N : ℤ), 0))
    (h : m.positions O (as ++ e.1 :: e.2 :: bs) = .ok m') :
    m'.resetZ.normSq l r = 1 ∧
    ∀ s, Cfg m.tensors s → ∀ i < l, ∀ j, m.amp s i j = m'.Z * m'.resetZ.amp s i j := by
  have hc := C08_canonical_after_history hO hw hs hN as bs e he h
  obtain ⟨a1, _, _, _, _, _, _, _, _, _, a9, _⟩ := positions_moved hO _ hs hw h
  constructor
  · have : m'.resetZ.Canonical := ⟨hc.left, hc.right, hc.norm⟩
    rw [canonical_normSq (m := m'.resetZ) ⟨a1.len, a1.pos_le, a1.left, a1.right⟩ this]
    simp [MPS.resetZ]
  · intro s hcfg i hi j
    rw [← a9 s hcfg i hi j]
    simp [MPS.amp, MPS.resetZ]

example : ∃ (O : LinAlg) (m m' : MPS), O.Spec ∧ m.WF 1 1 ∧ m.sth < 1e-15 ∧ 0 < m.N ∧
    m.positions O (([] : List ℤ) ++ 0 :: (m.N : ℤ) :: [1]) = .ok m' ∧ m.amp [0, 0, 0] 0 0 = 1 := by
  obtain ⟨O, hO, m', h⟩ := ghz_moves
  refine ⟨O, ghz, m', hO, ghz_wf, by norm_num [ghz], by norm_num [ghz], h, ?_⟩
  rw [ghz_amp _ _ _ (by norm_num) (by norm_num) (by norm_num)]; norm_num

end

end PyTeN
