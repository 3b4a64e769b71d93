import Verif.Props.Algebra
import Verif.Props.Position

/-!
# C25 – C28, C62, C63: access to tensors, construction, complex conjugation
-/

namespace PyTeN
open Finset

noncomputable section

/-! ## C25: `tolist` and `tensor` -/

/-- **C25.** `tolist()` of every well-formed object returns a chain of tensors (no centre matrix) with
the same local and outer dimensions, whose product times `Z` is the state. -/
theorem C25_tolist {m : MPS} {l r : ℕ} (hw : m.WF l r) (hN : m.N ≠ 0) :
    ∃ ts, m.tolist = .ok ts ∧ Linked l ts r ∧ ts.length = m.N ∧ ts.map Ten.d = m.ds ∧
      ∀ s, s.length = m.N → ∀ i < l, ∀ j < r, m.amp s i j = m.Z * chain ts s i j := by
  obtain ⟨ts, h1, h2, h3, h4, h5⟩ := tolist_spec hw hN
  refine ⟨ts, h1, h2, ?_, h3, h5⟩
  have := congrArg List.length h3
  simpa [MPS.ds, hw.len] using this

/-- **C25.** `tensor(pos)` is the tensor right of the centre with the centre matrix absorbed from the
left, and without `clear` the object is unchanged. -/
theorem C25_tensor_right {m : MPS} {l r : ℕ} (hw : m.WF l r) (hp : m.pos < m.N) :
    ∃ t t', m.tensors[m.pos]? = some t ∧ m.tensor m.pos = .ok (t', m) ∧
      t'.l = m.mat.r ∧ t'.r = t.r ∧ t'.d = t.d ∧
      (∀ i j s, t'.v i j s = ∑ k ∈ range t.l, m.mat.v i k * t.v k j s) ∧
      m.tolist = .ok (m.tensors.set m.pos t') := by
  have hx : m.pos < m.tensors.length := by rw [hw.len]; exact hp
  have hR := hw.right
  rw [List.drop_eq_getElem_cons hx] at hR
  have hab := absorbL_ok (m := m.mat) (t := m.tensors[m.pos]) hR.1.symm
  have hg : getT m.tensors m.pos = .ok m.tensors[m.pos] := by
    simp [getT, List.getElem?_eq_getElem hx]
  refine ⟨m.tensors[m.pos], ⟨m.mat.r, m.tensors[m.pos].r, m.tensors[m.pos].d, fun i j s =>
    ∑ k ∈ range m.tensors[m.pos].l, m.mat.v i k * m.tensors[m.pos].v k j s⟩, List.getElem?_eq_getElem hx, ?_, rfl, rfl, rfl, fun _ _ _ => rfl, ?_⟩
  · unfold MPS.tensor getZ pyIdx
    simp only [if_true, Int.natCast_nonneg, Nat.cast_lt, hx, Int.toNat_natCast, hg, hab]
    simp
  · unfold MPS.tolist
    rw [if_pos hx, hg]
    simp only [hab]

/-- **C25.** `tensor(pos-1)` is the tensor left of the centre with the centre matrix absorbed from the
right. -/
theorem C25_tensor_left {m : MPS} {l r : ℕ} (hw : m.WF l r) (hp : 0 < m.pos) :
    ∃ t t', m.tensors[m.pos - 1]? = some t ∧ m.tensor ((m.pos : ℤ) - 1) = .ok (t', m) ∧
      t'.l = t.l ∧ t'.r = m.mat.c ∧ t'.d = t.d ∧
      (∀ i j s, t'.v i j s = ∑ k ∈ range t.r, t.v i k s * m.mat.v k j) ∧
      (m.pos = m.N → m.tolist = .ok (m.tensors.set (m.pos - 1) t')) := by
  have hx : m.pos - 1 < m.tensors.length := by have := hw.pos_le; rw [hw.len]; omega
  have hL := hw.left
  have he : m.tensors.take m.pos = m.tensors.take (m.pos - 1) ++ [m.tensors[m.pos - 1]] := by
    rw [← List.take_succ_eq_append_getElem hx]; congr 1; omega
  rw [he, linked_append] at hL
  obtain ⟨n, -, h2⟩ := hL
  have hab := absorbR_ok (m := m.mat) (t := m.tensors[m.pos - 1]) h2.2
  have hg : getT m.tensors (m.pos - 1) = .ok m.tensors[m.pos - 1] := by
    simp [getT, List.getElem?_eq_getElem hx]
  refine ⟨m.tensors[m.pos - 1], ⟨m.tensors[m.pos - 1].l, m.mat.c, m.tensors[m.pos - 1].d,
    fun i j s => ∑ k ∈ range m.tensors[m.pos - 1].r, m.tensors[m.pos - 1].v i k s * m.mat.v k j⟩, List.getElem?_eq_getElem hx, ?_, rfl, rfl, rfl,
    fun _ _ _ => rfl, ?_⟩
  · unfold MPS.tensor getZ pyIdx
    rw [if_neg (by omega), if_pos rfl, if_pos (by omega), if_pos (by omega)]
    have : ((m.pos : ℤ) - 1).toNat = m.pos - 1 := by omega
    simp only [this, hg, hab]
    simp
  · intro hpN
    unfold MPS.tolist
    rw [if_neg (by rw [hw.len]; omega), if_pos (by rw [hw.len]; exact hpN), hg]
    simp only [hab]

/-- **C25.** Every site other than the two neighbours of the centre is an AssertionError. -/
theorem C25_tensor_assertion (m : MPS) (site : ℤ) (c : Bool) (h1 : site ≠ m.pos)
    (h2 : site ≠ (m.pos : ℤ) - 1) : m.tensor site c = .error .assertion := by
  unfold MPS.tensor; rw [if_neg h1, if_neg h2]

/-- **C25 is violated** at the left end: at position `0` the call `tensor(-1)` is accepted and returns
the *last* tensor with the centre matrix multiplied from the wrong end. -/
theorem C25_tensor_violated_left {m : MPS} (hw : m.WF 1 1) (hp : m.pos = 0) (hN : m.N ≠ 0) :
    ∃ t t', m.tensors[m.N - 1]? = some t ∧ m.tensor (-1) = .ok (t', m) ∧
      ∀ i j s, t'.v i j s = t.v i 0 s * m.mat.v 0 j := by
  have hx : m.N - 1 < m.tensors.length := by rw [hw.len]; omega
  have hL := hw.left
  rw [hp, List.take_zero] at hL
  have hR := hw.right
  rw [hp, List.drop_zero] at hR
  have hlast := linked_last hR (k := m.N - 1) (by rw [hw.len]; omega)
  rw [List.getElem?_eq_getElem hx] at hlast
  simp only [Option.map_some, Option.getD_some] at hlast
  have hL : 1 = m.mat.r := hL
  have hab := absorbR_ok (m := m.mat) (t := m.tensors[m.N - 1]) (hlast.trans hL)
  have hg : getT m.tensors (m.N - 1) = .ok m.tensors[m.N - 1] := by
    simp [getT, List.getElem?_eq_getElem hx]
  refine ⟨m.tensors[m.N - 1], ⟨m.tensors[m.N - 1].l, m.mat.c, m.tensors[m.N - 1].d, fun i j s => ∑ k ∈ range m.tensors[m.N - 1].r,
    m.tensors[m.N - 1].v i k s * m.mat.v k j⟩, List.getElem?_eq_getElem hx, ?_, ?_⟩
  · unfold MPS.tensor getZ pyIdx
    rw [if_neg (by omega), if_pos (by omega), if_neg (by omega), if_pos (by rw [hw.len]; omega)]
    have : ((m.tensors.length : ℤ) + -1).toNat = m.N - 1 := by rw [hw.len]; omega
    simp only [this, hg, hab]
    simp only [Bool.false_eq_true, if_false]
  · intro i j s
    simp [hlast]

/-- **C25 is violated** at the right end: at position `N` the call `tensor(N)` passes the assertion and
fails with IndexError. -/
theorem C25_tensor_violated_right {m : MPS} (hlen : m.tensors.length = m.N) (hp : m.pos = m.N)
    (c : Bool) : m.tensor m.N c = .error .index := by
  unfold MPS.tensor getZ pyIdx
  rw [if_pos (by rw [hp]), if_pos (by omega), if_neg (by rw [hlen]; omega)]

example : ∃ ts, ghz.tolist = .ok ts ∧ ts.length = 3 ∧ chain ts [1, 1, 1] 0 0 = 1 := by
  obtain ⟨ts, h1, -, h3, -, h5⟩ := C25_tolist ghz_wf (by norm_num [ghz])
  refine ⟨ts, h1, h3, ?_⟩
  have := h5 [1, 1, 1] rfl 0 (by norm_num) 0 (by norm_num)
  rw [ghz_amp _ _ _ (by norm_num) (by norm_num) (by norm_num)] at this
  simpa [ghz] using this.symm

example : ∃ t t', pairMid.tensor 1 = .ok (t, pairMid) ∧ pairMid.tensor 0 = .ok (t', pairMid) ∧
    pairMid.tensor 2 = .error .assertion := by
  obtain ⟨_, t, -, h, -⟩ := C25_tensor_right pairMid_wf (by norm_num [pairMid, pair])
  obtain ⟨_, t', -, h', -⟩ := C25_tensor_left pairMid_wf (by norm_num [pairMid])
  exact ⟨t, t', by simpa [pairMid] using h, by simpa [pairMid] using h',
    C25_tensor_assertion _ _ _ (by simp [pairMid]) (by simp [pairMid])⟩

/-- `pair` with its centre at the left end. -/
def pairLeft : MPS := { pair with mat := ⟨1, 1, fun _ _ => 1⟩, pos := 0 }

example : ∃ t', pairLeft.tensor (-1) = .ok (t', pairLeft) := by
  obtain ⟨_, t', -, h, -⟩ := C25_tensor_violated_left (m := pairLeft)
    ⟨rfl, by simp [pairLeft], by simp [pairLeft, pair, Linked], by simp [pairLeft, pair, Linked]⟩
    rfl (by norm_num [pairLeft, pair])
  exact ⟨t', h⟩

/-! ## C26: index access -/

theorem pyIdx_spec {L : ℕ} {n : ℤ} (h1 : -(L : ℤ) ≤ n) (h2 : n < L) :
    ∃ a : ℕ, pyIdx L n = some a ∧ a < L ∧ (a : ℤ) = if 0 ≤ n then n else L + n := by
  unfold pyIdx
  by_cases h3 : 0 ≤ n
  · rw [if_pos h3, if_pos h2, if_pos h3]; exact ⟨_, rfl, by omega, by omega⟩
  · rw [if_neg h3, if_pos h1, if_neg h3]; exact ⟨_, rfl, by omega, by omega⟩

theorem getItem_eq {m : MPS} {n : ℤ} (h1 : -(m.tensors.length : ℤ) ≤ n)
    (h2 : n < m.tensors.length) {a : ℕ} (ha : pyIdx m.tensors.length n = some a) :
    m.getItem n = getT m.tensors a := by
  unfold MPS.getItem getZ
  rw [if_pos ⟨h2, abs_le.mpr ⟨h1, h2.le⟩⟩, ha]

/-- **C26.** `mps[n]` returns a tensor exactly for `-N ≤ n < N` … -/
theorem C26_getItem_domain (m : MPS) (n : ℤ) :
    (∃ t, m.getItem n = .ok t) ↔ -(m.tensors.length : ℤ) ≤ n ∧ n < m.tensors.length := by
  constructor
  · rintro ⟨t, h⟩
    unfold MPS.getItem at h
    by_cases h1 : n < m.tensors.length ∧ |n| ≤ (m.tensors.length : ℤ)
    · exact ⟨(abs_le.mp h1.2).1, h1.1⟩
    · rw [if_neg h1] at h; cases h
  · rintro ⟨h1, h2⟩
    obtain ⟨a, ha, hL, -⟩ := pyIdx_spec h1 h2
    rw [getItem_eq h1 h2 ha]
    exact ⟨m.tensors[a], by simp [getT, List.getElem?_eq_getElem hL]⟩

/-- **C26.** … it is the tensor at `n` counted from the left, or from the right for negative `n`; … -/
theorem C26_getItem_value {m : MPS} {n : ℤ} {t : Ten ℂ} (h : m.getItem n = .ok t) :
    m.tensors[(if 0 ≤ n then n else m.tensors.length + n).toNat]? = some t := by
  have hd := (C26_getItem_domain m n).mp ⟨t, h⟩
  obtain ⟨a, ha, hL, he⟩ := pyIdx_spec hd.1 hd.2
  rw [getItem_eq hd.1 hd.2 ha] at h
  simp only [getT, List.getElem?_eq_getElem hL, Except.ok.injEq] at h
  rw [← he, Int.toNat_natCast, List.getElem?_eq_getElem hL, h]

/-- **C26.** … and any other index is an AssertionError, for reading and for writing. -/
theorem C26_item_assertion (m : MPS) (n : ℤ) (t : Ten ℂ)
    (h : ¬ (-(m.tensors.length : ℤ) ≤ n ∧ n < m.tensors.length)) :
    m.getItem n = .error .assertion ∧ m.setItem n t = .error .assertion := by
  have h' : ¬ (n < m.tensors.length ∧ |n| ≤ (m.tensors.length : ℤ)) := by
    rintro ⟨h1, h2⟩
    exact h ⟨(abs_le.mp h2).1, h1⟩
  unfold MPS.getItem MPS.setItem
  rw [if_neg h', if_neg h']
  exact ⟨rfl, rfl⟩

/-- **C26.** `mps[n]=t` followed by `mps[k]` gives `t` if `k` and `n` denote the same site and the old
tensor otherwise; nothing but the list of tensors is touched. -/
theorem C26_setItem {m : MPS} {n : ℤ} (t : Ten ℂ)
    (hn : -(m.tensors.length : ℤ) ≤ n ∧ n < m.tensors.length) :
    ∃ m', m.setItem n t = .ok m' ∧ { m' with tensors := m.tensors } = m ∧
      m'.tensors.length = m.tensors.length ∧
      ∀ k : ℤ, -(m.tensors.length : ℤ) ≤ k → k < m.tensors.length →
        m'.getItem k = if (k - n) % m.tensors.length = 0 then .ok t else m.getItem k := by
  have hr : n < m.tensors.length ∧ |n| ≤ (m.tensors.length : ℤ) :=
    ⟨hn.2, abs_le.mpr ⟨hn.1, hn.2.le⟩⟩
  obtain ⟨a, ha, haL, hae⟩ := pyIdx_spec hn.1 hn.2
  refine ⟨{ m with tensors := m.tensors.set a t }, ?_, rfl, by simp, ?_⟩
  · unfold MPS.setItem
    rw [if_pos hr, ha]
  intro k hk1 hk2
  have hkr : k < m.tensors.length ∧ |k| ≤ (m.tensors.length : ℤ) := ⟨hk2, abs_le.mpr ⟨hk1, hk2.le⟩⟩
  obtain ⟨b, hb, hbL, hbe⟩ := pyIdx_spec hk1 hk2
  unfold MPS.getItem getZ
  simp only [List.length_set]
  rw [if_pos hkr, hb, if_pos hkr]
  simp only [getT, List.getElem?_set]
  have key : ((k - n) % m.tensors.length = 0) ↔ a = b := by
    have e1 : ((k - n) % (m.tensors.length : ℤ) = 0) ↔ ((b : ℤ) - a) % (m.tensors.length : ℤ) = 0 := by
      rw [hae, hbe]
      split_ifs with h1 h2 h2
      · rfl
      · rw [show k - ((m.tensors.length : ℤ) + n) = (k - n) - m.tensors.length by ring]; simp
      · rw [show (m.tensors.length : ℤ) + k - n = (k - n) + m.tensors.length by ring]; simp
      · rw [show (m.tensors.length : ℤ) + k - (m.tensors.length + n) = k - n by ring]
    rw [e1]
    constructor
    · intro h
      have hdvd := Int.dvd_of_emod_eq_zero h
      have : (b : ℤ) - a = 0 := Int.eq_zero_of_abs_lt_dvd hdvd (by rw [abs_lt]; constructor <;> omega)
      omega
    · rintro rfl; simp
  by_cases hab : a = b
  · subst hab
    rw [if_pos rfl, if_pos (key.mpr rfl)]
    simp [haL]
  · rw [if_neg hab, if_neg (fun h => hab (key.mp h))]

example : ∃ t t', ghz.getItem (-3) = .ok t ∧ ghz.getItem 2 = .ok t' ∧
    ghz.getItem 3 = .error .assertion ∧ ghz.getItem (-4) = .error .assertion := by
  obtain ⟨t, ht⟩ := (C26_getItem_domain ghz (-3)).mpr (by norm_num [ghz, ghzT])
  obtain ⟨t', ht'⟩ := (C26_getItem_domain ghz 2).mpr (by norm_num [ghz, ghzT])
  exact ⟨t, t', ht, ht', (C26_item_assertion ghz 3 t (by norm_num [ghz, ghzT])).1,
    (C26_item_assertion ghz (-4) t (by norm_num [ghz, ghzT])).1⟩

/-! ## C27: product states -/

theorem chain_vecTen (vs : List (List ℂ)) (s : List ℕ) (hs : s.length = vs.length) :
    chain (vs.map vecTen) s 0 0 = (List.zipWith (fun v x => v.getD x 0) vs s).prod := by
  induction vs generalizing s with
  | nil =>
    obtain rfl : s = [] := by simpa using hs
    simp [chain]
  | cons v vs ih =>
    cases s with
    | nil => simp at hs
    | cons x s =>
      simp only [List.map_cons, chain, List.zipWith_cons_cons, List.prod_cons]
      rw [← ih s (by simpa using hs)]
      simp [vecTen]

theorem linked_vecTen (vs : List (List ℂ)) : Linked 1 (vs.map vecTen) 1 := by
  induction vs with
  | nil => rfl
  | cons v vs ih => exact ⟨rfl, ih⟩

/-- **C27.** `productState(localstate,obc)` with non-tiny local vectors represents the product state:
the amplitude of a configuration is the product of the entries. -/
theorem C27_productState {vs : List (List ℂ)} {obc : Bool} {sth rth : ℝ} (h0 : vs ≠ [])
    (h1 : ∀ v ∈ vs, ¬ tinyVec v) (h2 : ¬ (obc = true ∧ vs.length = 1)) :
    ∃ m, MPS.productState vs obc sth rth = .ok m ∧ m.WF 1 1 ∧ m.N = vs.length ∧
      m.ds = vs.map List.length ∧ m.obc = obc ∧ m.pos = m.N ∧
      ∀ s, s.length = vs.length →
        m.amp s 0 0 = (List.zipWith (fun v x => v.getD x 0) vs s).prod := by
  obtain ⟨m, m', h3, rfl, h5⟩ := productState_ok (sth := sth) (rth := rth) h0 h1 h2
  obtain ⟨hw, hmat, hv, -⟩ := init_obc h3 (linked_vecTen vs)
  obtain ⟨-, f1, f2, f3, -⟩ := init_fields h3
  have hw' : ({ m' with obc := obc, Z := 1 } : MPS).WF 1 1 := ⟨hw.len, hw.pos_le, hw.left, hw.right⟩
  refine ⟨_, h5, hw', by simp only [f2, List.length_map], ?_, rfl, by simp only [f2, f3], ?_⟩
  · simp only [MPS.ds, f1, List.map_map]; rfl
  · intro s hs
    rw [amp_trivial hw' (by simp only [f2, f3]) hmat s (by simp only [f1, List.length_map]; exact hs)]
    simp only [hv, one_mul, f1]
    exact chain_vecTen vs s hs

/-- **C27.** A local state of norm below `1e-10` and a single site with open boundaries are rejected. -/
theorem C27_productState_rejects {vs : List (List ℂ)} {obc : Bool} {sth rth : ℝ}
    (h : (∃ v ∈ vs, tinyVec v) ∨ (obc = true ∧ vs.length = 1)) :
    MPS.productState vs obc sth rth = .error .value := by
  unfold MPS.productState
  by_cases h1 : ∃ v ∈ vs, tinyVec v
  · rw [if_pos h1]
  · rw [if_neg h1, if_pos (h.resolve_left h1)]

example : ∃ m, MPS.productState [[1, 0], [0, 2], [3, 1]] true 1e-16 1e-16 = .ok m ∧
    m.amp [0, 1, 0] 0 0 = 6 ∧ m.amp [0, 0, 0] 0 0 = 0 := by
  obtain ⟨m, h1, -, -, -, -, -, h2⟩ := C27_productState (vs := [[1, 0], [0, 2], [3, 1]])
    (obc := true) (sth := 1e-16) (rth := 1e-16) (by simp) (by
      intro v hv h
      unfold tinyVec at h
      rw [Real.sqrt_lt' (by norm_num)] at h
      fin_cases hv <;> norm_num [Complex.normSq] at h) (by simp)
  refine ⟨m, h1, ?_, ?_⟩
  · rw [h2 _ rfl]; norm_num
  · rw [h2 _ rfl]; norm_num

example : MPS.productState [[1, 0], [0, 0]] true 1e-16 1e-16 = .error .value :=
  C27_productState_rejects (Or.inl ⟨[0, 0], by simp, by norm_num [tinyVec]⟩)

/-! ## C28: initialisers -/

theorem fillLoop_ok {gen : ℕ → ℕ → ℕ → ℕ → ℂ} {c : Bool} {scale shift : ℝ} {D : ℕ} {ds : List ℕ}
    {n k : ℕ} (h : n + k ≤ ds.length) :
    ∃ ts, fillLoop gen c scale shift D ds n k = .ok ts ∧ ts.map Ten.d = (ds.drop n).take k ∧
      Linked D ts D ∧ ∀ t ∈ ts, t.l = D := by
  induction k generalizing n with
  | zero => exact ⟨[], rfl, by simp, rfl, by simp⟩
  | succ k ih =>
    obtain ⟨ts, h1, h2, h3, h4⟩ := ih (n := n + 1) (by omega)
    have hn : n < ds.length := by omega
    refine ⟨fillTen gen c scale shift n D D ds[n] :: ts, ?_, ?_, ⟨rfl, h3⟩, ?_⟩
    · simp only [fillLoop, getD!, List.getElem?_eq_getElem hn, h1]
    · rw [List.drop_eq_getElem_cons hn, List.take_succ_cons, ← h2]; rfl
    · intro t ht
      rcases List.mem_cons.mp ht with rfl | ht
      · rfl
      · exact h4 t ht

/-- **C28.** Open boundaries: for every length `≥ 2` the initialiser returns `length` tensors with the
requested local dimensions, matching bonds, outer dimension 1 and inner dimension `D`. -/
theorem C28_obc (gen : ℕ → ℕ → ℕ → ℕ → ℂ) (D : ℕ) (d : LocDim) {length : ℕ} {dtype : DType}
    (scale shift : ℝ) (h2 : 2 ≤ length) (hd : (d.toList length).length = length)
    (ht : dtype ≠ .other) :
    ∃ ts, mpsInitializer gen length D d true dtype scale shift = .ok ts ∧
      ts.map Ten.d = d.toList length ∧ Linked 1 ts 1 ∧
      ∀ k, 0 < k → k < length → ts[k]?.map Ten.l = some D := by
  set ds := d.toList length with hds
  obtain ⟨mids, h3, h4, h5, h6⟩ := fillLoop_ok (gen := gen) (c := decide (dtype = .complex))
    (scale := scale) (shift := shift) (D := D) (ds := ds) (n := 1) (k := length - 1 - 1) (by omega)
  have h0 : 0 < ds.length := by omega
  have hl : ds.getLast? = some ds[length - 1] := by
    have : length - 1 = ds.length - 1 := by omega
    simp only [this]
    rw [List.getLast?_eq_getElem?, List.getElem?_eq_getElem]
  have hlen : mids.length = length - 2 := by
    have := congrArg List.length h4
    simp only [List.length_map, List.length_take, List.length_drop] at this
    omega
  refine ⟨fillTen gen (decide (dtype = .complex)) scale shift 0 1 D ds[0] :: mids ++
      [fillTen gen (decide (dtype = .complex)) scale shift (length - 1) D 1 ds[length - 1]],
    ?_, ?_, ?_, ?_⟩
  rotate_left
  · simp only [List.map_cons, List.cons_append, List.map_append, h4, fillTen, List.map_nil]
    apply List.ext_getElem?
    intro k
    rcases Nat.lt_or_ge k length with hk | hk
    · rcases Nat.eq_zero_or_pos k with rfl | hk0
      · simp [List.getElem?_eq_getElem h0]
      · obtain ⟨k, rfl⟩ : ∃ x, k = x + 1 := ⟨k - 1, by omega⟩
        rw [List.getElem?_cons_succ]
        by_cases hk1 : k < length - 2
        · rw [List.getElem?_append_left (by simp; omega), List.getElem?_take, if_pos (by omega),
            List.getElem?_drop, Nat.add_comm]
        · have : k = length - 2 := by omega
          subst this
          rw [List.getElem?_append_right (by simp; omega)]
          simp only [List.length_take, List.length_drop, hd]
          rw [show length - 2 - min (length - 1 - 1) (length - 1) = 0 by omega]
          rw [List.getElem?_cons_zero, List.getElem?_eq_getElem (by omega)]
          congr 2; omega
    · rw [List.getElem?_eq_none (by simp; omega), List.getElem?_eq_none (by omega)]
  · refine ⟨rfl, ?_⟩
    rw [List.append_eq, linked_append]
    exact ⟨D, h5, rfl, rfl⟩
  · intro k hk0 hk
    obtain ⟨k, rfl⟩ : ∃ x, k = x + 1 := ⟨k - 1, by omega⟩
    rw [List.cons_append, List.getElem?_cons_succ]
    by_cases hk1 : k < mids.length
    · rw [List.getElem?_append_left hk1, List.getElem?_eq_getElem hk1]
      simp [h6 _ (List.getElem_mem hk1)]
    · rw [List.getElem?_append_right (by omega), show k - mids.length = 0 by omega]
      rfl
  · unfold mpsInitializer
    simp only [if_true, ← hds]
    rw [if_neg (by omega), if_neg ht]
    simp only [getD!, List.getElem?_eq_getElem h0, h3, hl]

/-- **C28.** Periodic/infinite boundaries: `length` tensors of bond dimension `D` everywhere. -/
theorem C28_pbc (gen : ℕ → ℕ → ℕ → ℕ → ℂ) (D : ℕ) (d : LocDim) {length : ℕ} {dtype : DType}
    (scale shift : ℝ) (hd : (d.toList length).length = length) (ht : dtype ≠ .other) :
    ∃ ts, mpsInitializer gen length D d false dtype scale shift = .ok ts ∧
      ts.map Ten.d = d.toList length ∧ Linked D ts D ∧ ∀ t ∈ ts, t.l = D := by
  obtain ⟨ts, h1, h2, h3, h4⟩ := fillLoop_ok (gen := gen) (c := decide (dtype = .complex))
    (scale := scale) (shift := shift) (D := D) (ds := d.toList length) (n := 0) (k := length) (by omega)
  refine ⟨ts, ?_, ?_, h3, h4⟩
  · unfold mpsInitializer
    simp only [Bool.false_eq_true, if_false]
    rw [if_neg ht, h1]
  · rw [h2, List.drop_zero, List.take_of_length_le (by omega)]

/-- **C28.** An open chain of length one is a ValueError, one of length zero an IndexError. -/
theorem C28_obc_short (gen : ℕ → ℕ → ℕ → ℕ → ℂ) (D : ℕ) (d : ℕ) (dtype : DType) (scale shift : ℝ) :
    mpsInitializer gen 1 D (.int d) true dtype scale shift = .error .value ∧
    (dtype ≠ .other → mpsInitializer gen 0 D (.int d) true dtype scale shift = .error .index) := by
  constructor
  · simp [mpsInitializer]
  · intro h
    simp [mpsInitializer, h, LocDim.toList, getD!]

/-- **C28 is violated** for other dtypes (e.g. float32, int): the initialiser silently returns an empty
list instead of `length` tensors, and the class methods then fail with ValueError in `max([])`. -/
theorem C28_dtype_violated (O : LinAlg) (gen : ℕ → ℕ → ℕ → ℕ → ℂ) (N D : ℕ) (d : LocDim) (obc : Bool)
    (scale shift sth rth : ℝ) (h : ¬ (obc = true ∧ N = 1)) :
    mpsInitializer gen N D d obc .other scale shift = .ok [] ∧
    MPS.factory O gen N D d obc .other scale shift sth rth = .error .value := by
  have h1 : mpsInitializer gen N D d obc .other scale shift = .ok [] := by
    unfold mpsInitializer
    cases obc
    · simp
    · have : N ≠ 1 := fun e => h ⟨rfl, e⟩
      simp [this]
  refine ⟨h1, ?_⟩
  unfold MPS.factory
  rw [h1]
  rfl

/-- **C28.** `random`/`ones` with open boundaries: whenever the class method returns (no NaN), the
result is a normalised state in canonical form at position `N` with the requested shapes. -/
theorem C28_factory {O : LinAlg} (hO : O.Spec) {gen : ℕ → ℕ → ℕ → ℕ → ℂ} {N D : ℕ} {d : LocDim}
    {dtype : DType} {scale shift sth rth : ℝ} (hs : sth < 1e-15) (h2 : 2 ≤ N)
    (hd : (d.toList N).length = N) (ht : dtype ≠ .other) {m : MPS}
    (h : MPS.factory O gen N D d true dtype scale shift sth rth = .ok m) :
    m.WF 1 1 ∧ m.N = N ∧ m.ds = d.toList N ∧ m.obc = true ∧ m.pos = N ∧ m.Canonical ∧
      m.normSq 1 1 = 1 ∧ ∀ b, 0 < b → b < N → m.bondDim b ≤ D := by
  obtain ⟨ts, h3, h4, h5, h6⟩ := C28_obc gen D d scale shift h2 hd ht
  unfold MPS.factory at h
  rw [h3] at h
  simp only at h
  have hlen : ts.length = N := by
    have := congrArg List.length h4
    simpa [hd] using this
  obtain ⟨m0, h7⟩ := init_ok (ts := ts) (by rintro rfl; simp at hlen; omega) sth rth
  obtain ⟨-, f1, f2, f3, f4, -⟩ := init_fields h7
  obtain ⟨w0, -⟩ := init_obc h7 h5
  rw [h7] at h
  simp only at h
  split at h
  · cases h
  rename_i m1 h8
  split at h
  · cases h
  rename_i m2 h9
  cases h
  have w1 : ({ m0 with obc := true } : MPS).WF 1 1 := ⟨w0.len, w0.pos_le, w0.left, w0.right⟩
  have e1 : ({ m0 with obc := true } : MPS).effSth 1e-16 < 1e-15 := by
    unfold MPS.effSth; rw [if_neg (by norm_num)]; simp only [f4]; exact hs
  obtain ⟨-, -, M1⟩ := position_moved hO e1 w1 h8
  have e2 : m1.effSth 1e-16 < 1e-15 := by
    unfold MPS.effSth; rw [if_neg (by norm_num), M1.sth]; simp only [f4]; exact hs
  obtain ⟨-, -, M2⟩ := position_moved hO e2 M1.wf h9
  have hN1 : m1.N = N := by rw [M1.N]; simp only [f2, hlen]
  have hc : m2.Canonical := canonical_of_sweep M2 (by omega)
    (Or.inr ⟨by rw [M1.pos]; rfl, by simp⟩)
  have hc' : ({ m2 with Z := 1 } : MPS).Canonical := ⟨hc.left, hc.right, hc.norm⟩
  have hw' : ({ m2 with Z := 1 } : MPS).WF 1 1 := ⟨M2.wf.len, M2.wf.pos_le, M2.wf.left, M2.wf.right⟩
  refine ⟨hw', by simp only; rw [M2.N, hN1], ?_, by simp only; rw [M2.obc, M1.obc],
    by simp only; rw [M2.pos]; simp [hN1], hc', ?_, ?_⟩
  · have := M2.ds.trans M1.ds
    have e3 : ({ m0 with obc := true } : MPS).ds = ts.map Ten.d := by simp only [MPS.ds, f1]
    rw [e3, h4] at this
    exact this
  · rw [canonical_normSq hw' hc']; simp
  · intro b hb0 hb
    have h10 := (M2.bond b (by omega)).trans (M1.bond b (by simp only [f2, hlen]; omega))
    refine le_trans h10 ?_
    unfold MPS.bondDim
    rw [if_neg (by simp only [f3, hlen]; omega), if_pos (by simp only [f3, hlen]; omega)]
    simp only [f1, h6 b hb0 hb]
    rfl

/-- **C28 is violated** by `MPS.zeros` (and by `random` whenever the last tensor vanishes): the state
cannot be normalised, so instead of the zero state with the requested shapes the result is filled with
NaN. -/
theorem C28_zeros_violated {O : LinAlg} (hO : O.Spec) {N D : ℕ} {d : LocDim} {dtype : DType}
    {scale sth rth : ℝ} (hs : sth < 1e-15) (h2 : 2 ≤ N)
    (hd : (d.toList N).length = N) (ht : dtype ≠ .other) :
    MPS.factory O (fun _ _ _ _ => 0) N D d true dtype scale 0 sth rth = .error .nan := by
  obtain ⟨ts, h3, h4, h5, -⟩ := C28_obc (fun _ _ _ _ => 0) D d scale 0 h2 hd ht
  have hlen : ts.length = N := by
    have := congrArg List.length h4
    simpa [hd] using this
  have hz : ∀ s i, chain ts s i 0 = 0 := by
    unfold mpsInitializer at h3
    simp only [if_true] at h3
    rw [if_neg (by omega), if_neg ht] at h3
    split at h3
    · cases h3
    split at h3
    · cases h3
    split at h3
    · cases h3
    cases h3
    intro s i
    cases s with
    | nil => rfl
    | cons x s =>
      simp only [List.cons_append, chain]
      apply sum_eq_zero
      intro k _
      simp only [fillTen]
      split <;> simp
  obtain ⟨m0, h7⟩ := init_ok (ts := ts) (by rintro rfl; simp at hlen; omega) sth rth
  obtain ⟨-, f1, f2, f3, f4, -⟩ := init_fields h7
  obtain ⟨w0, g1, g2, -⟩ := init_obc h7 h5
  have hZ0 : m0.Z ≠ 0 := by
    unfold MPS.init at h7
    split at h7
    · cases h7; norm_num
    · cases h7
  have w1 : ({ m0 with obc := true } : MPS).WF 1 1 := ⟨w0.len, w0.pos_le, w0.left, w0.right⟩
  have e1 : ({ m0 with obc := true } : MPS).effSth 1e-16 < 1e-15 := by
    unfold MPS.effSth; rw [if_neg (by norm_num)]; simp only [f4]; exact hs
  unfold MPS.factory
  rw [h3]
  simp only [h7]
  cases h8 : ({ m0 with obc := true } : MPS).position O 0 with
  | error e =>
    obtain ⟨he, -⟩ := position_err hO (b := 0) e1 w1 (by simp) (by exact_mod_cast h8)
    simp only [he]
  | ok m1 =>
    exfalso
    obtain ⟨-, -, M1⟩ := position_moved hO e1 w1 h8
    obtain ⟨z, hz0, hZ1⟩ := position_Z hO e1 h8
    have hc : m1.Canonical := canonical_of_sweep M1 (by simp only [f2]; omega)
      (Or.inl ⟨by simp only [f2, f3], rfl⟩)
    have hn := canonical_normSq M1.wf hc
    have h0 : m1.normSq 1 1 = 0 := by
      unfold MPS.normSq
      rw [M1.ds]
      rw [sumCfg_congr (g := fun _ => 0), sumCfg_zero]
      intro s hcfg
      have hcfg' : Cfg ({ m0 with obc := true } : MPS).tensors s := cfg_iff_map.mpr hcfg
      simp only [range_one, sum_singleton]
      rw [M1.amp s hcfg' 0 (by norm_num) 0]
      rw [amp_trivial w1 (by simp only [f2, f3]) g1 s (cfg_length hcfg')]
      simp only [f1, hz]
      simp
    rw [h0] at hn
    have : m1.Z = 0 := Complex.normSq_eq_zero.mp hn.symm
    rw [hZ1] at this
    rcases mul_eq_zero.mp this with h | h
    · exact hZ0 h
    · norm_cast at h; linarith

example : ∃ O : LinAlg, O.Spec ∧ ∀ sth : ℝ, sth < 1e-15 →
    MPS.factory O (fun _ _ _ _ => 0) 4 5 (.int 2) true .float 1 0 sth 1e-14 = .error .nan := by
  obtain ⟨O, hO⟩ := exists_linAlg
  exact ⟨O, hO, fun sth h => C28_zeros_violated hO h (by norm_num) (by simp [LocDim.toList]) (by simp)⟩

example (gen : ℕ → ℕ → ℕ → ℕ → ℂ) : ∃ ts,
    mpsInitializer gen 3 7 (.list [2, 3, 4]) true .complex 1 0.5 = .ok ts ∧
      ts.map Ten.d = [2, 3, 4] ∧ Linked 1 ts 1 ∧ ts[1]?.map Ten.l = some 7 := by
  obtain ⟨ts, h1, h2, h3, h4⟩ := C28_obc gen 7 (.list [2, 3, 4]) (length := 3) (dtype := .complex)
    1 0.5 (by norm_num) rfl (by simp)
  exact ⟨ts, h1, h2, h3, h4 1 (by norm_num) (by norm_num)⟩

/-- `ones` succeeds, so `C28_factory` is not vacuous. -/
theorem C28_ones_succeeds {O : LinAlg} (hO : O.Spec) :
    ∃ m, MPS.factory O (fun _ _ _ _ => 1) 3 2 (.int 2) true .float 1 0 1e-16 1e-14 = .ok m := by
  obtain ⟨ts, h3, h4, h5, -⟩ := C28_obc (fun _ _ _ _ => 1) 2 (.int 2) (length := 3) (dtype := .float)
    1 0 (by norm_num) (by simp [LocDim.toList]) (by simp)
  have hts : ts = [⟨1, 2, 2, fun _ _ _ => 1⟩, ⟨2, 2, 2, fun _ _ _ => 1⟩, ⟨2, 1, 2, fun _ _ _ => 1⟩] := by
    simp [mpsInitializer, LocDim.toList, getD!, fillLoop, fillTen, List.replicate] at h3
    rw [← h3]
  obtain ⟨m0, h7⟩ := init_ok (ts := ts) (by rw [hts]; simp) 1e-16 1e-14
  obtain ⟨-, f1, f2, f3, f4, -⟩ := init_fields h7
  obtain ⟨w0, g1, g2, -⟩ := init_obc h7 h5
  have hZ0 : m0.Z = -1e10 := by
    unfold MPS.init at h7
    split at h7
    · cases h7; rfl
    · cases h7
  have w1 : ({ m0 with obc := true } : MPS).WF 1 1 := ⟨w0.len, w0.pos_le, w0.left, w0.right⟩
  have hN : m0.N = 3 := by rw [f2, hts]; rfl
  have hne : ∃ s i j, Cfg ({ m0 with obc := true } : MPS).tensors s ∧ i < 1 ∧
      ({ m0 with obc := true } : MPS).amp s i j ≠ 0 := by
    refine ⟨[0, 0, 0], 0, 0, ?_, by norm_num, ?_⟩
    · simp only [f1, hts]
      exact .cons (by norm_num) (.cons (by norm_num) (.cons (by norm_num) .nil))
    · rw [amp_trivial w1 (by simp only [f2, f3]) g1 _ (by simp only [f1, hts]; rfl)]
      simp only [f1, hts, g2, hZ0]
      norm_num [chain, sum_range_succ, delta]
  obtain ⟨m2, h8⟩ := C07_position_succeeds hO [0, 3] w1 (by simp only [f4]; norm_num)
    (by intro b hb; simp only [hN]; fin_cases hb <;> norm_num) hne
  · simp only [MPS.positions] at h8
    split at h8
    · cases h8
    rename_i m1 h9
    split at h8
    · cases h8
    rename_i m2' h10
    obtain ⟨-, -, M1⟩ := position_moved hO (by
      unfold MPS.effSth; rw [if_neg (by norm_num)]; simp only [f4]; norm_num) w1 h9
    have hN1 : m1.N = 3 := by rw [M1.N]; exact hN
    unfold MPS.factory
    rw [h3]
    simp only [h7, h9, hN1]
    have : ((3 : ℕ) : ℤ) = 3 := rfl
    rw [this, h10]
    exact ⟨_, rfl⟩

/-! ## C62: complex conjugation -/

/-- **C62 is violated**: `conj()`, `conjugate()`, `imag()` raise for every object with at least one
tensor (NameError, TypeError, AttributeError), also when `__conjugate__` is called without the spurious
argument. -/
theorem C62_conj_violated {m : MPS} (h : m.tensors ≠ []) :
    m.conj = .error .name ∧ m.conjugate = .error .type ∧ m.imag = .error .attribute ∧
      m.conjugateDunder false = .error .attribute := by
  obtain ⟨c, hc⟩ := copy_ok h
  obtain ⟨-, -, -, h1, -⟩ := copy_fields hc
  refine ⟨rfl, ?_, rfl, ?_⟩
  · unfold MPS.conjugate MPS.conjugateDunder MPS.unaryRes
    rw [hc]
    simp only [h1]
    cases ht : m.tensors with
    | nil => exact absurd ht h
    | cons t ts => rfl
  · unfold MPS.conjugateDunder MPS.unaryRes
    rw [hc]
    simp only
    have : ∀ ts : List (Ten ℂ), ∃ us, ts.mapM (npConj false) = .ok us := by
      intro ts
      induction ts with
      | nil => exact ⟨[], rfl⟩
      | cons t ts ih =>
        obtain ⟨us, hu⟩ := ih
        refine ⟨⟨t.l, t.r, t.d, fun i j s => star (t.v i j s)⟩ :: us, ?_⟩
        rw [List.mapM_cons, hu]
        rfl
    obtain ⟨us, hu⟩ := this c.tensors
    rw [hu]

example : ghz.conjugate = .error .type := (C62_conj_violated (by simp [ghz, ghzT])).2.1

/-! ## C63: real part -/

theorem chain_re {ts : List (Ten ℂ)} (h : ∀ t ∈ ts, ∀ i j s, (t.v i j s).im = 0) (s : List ℕ)
    (i j : ℕ) : chain (ts.map Ten.re) s i j = chain ts s i j ∧ (chain ts s i j).im = 0 := by
  induction ts generalizing s i with
  | nil =>
    cases s with
    | nil => simp only [List.map_nil, chain, delta, true_and]; split <;> simp
    | cons _ _ => simp [chain]
  | cons t ts ih =>
    cases s with
    | nil => simp [chain]
    | cons x s =>
      have hre : ∀ i j s, ((t.v i j s).re : ℂ) = t.v i j s := fun i j s =>
        Complex.ext (by simp) (by simp [h t (by simp) i j s])
      have ih' := fun k => ih (fun t ht => h t (by simp [ht])) s k
      simp only [List.map_cons, chain, Ten.re, hre]
      constructor
      · exact sum_congr rfl fun k _ => by rw [(ih' k).1]
      · rw [Complex.im_sum]
        apply sum_eq_zero
        intro k _
        rw [Complex.mul_im, h t (by simp), (ih' k).2]; simp

/-- **C63, partial.** `real()` returns the real part of the state if all tensors, the centre matrix and
`Z` are real (and then it is the state itself).  Missing: complex states, where the claim is false
(`C63_real_violated`). -/
theorem C63_real_partial {m : MPS} (h0 : m.tensors ≠ [])
    (h1 : ∀ t ∈ m.tensors, ∀ i j s, (t.v i j s).im = 0) (h2 : ∀ i j, (m.mat.v i j).im = 0)
    (h3 : m.Z.im = 0) :
    ∃ p, m.real = .ok p ∧ ∀ s i j, p.amp s i j = ((m.amp s i j).re : ℂ) := by
  obtain ⟨k, hk⟩ := copy_ok h0
  refine ⟨{ k with tensors := k.tensors.map Ten.re }, by simp only [MPS.real, MPS.unary, hk], ?_⟩
  intro s i j
  obtain ⟨-, -, -, f1, f2, -, f3, -, -, f4⟩ := copy_fields hk
  have e1 := fun s i j => chain_re (fun t ht => h1 t (List.mem_of_mem_take ht))
    (ts := m.tensors.take m.pos) s i j
  have e2 := fun s i j => chain_re (fun t ht => h1 t (List.mem_of_mem_drop ht))
    (ts := m.tensors.drop m.pos) s i j
  have hamp : ({ k with tensors := k.tensors.map Ten.re } : MPS).amp s i j = m.amp s i j := by
    unfold MPS.amp
    simp only [f1, f2, f3, f4, ← List.map_take, ← List.map_drop]
    congr 1
    apply sum_congr rfl; intro a _
    apply sum_congr rfl; intro b _
    rw [(e1 _ _ _).1, (e2 _ _ _).1]
  rw [hamp]
  apply Complex.ext
  · simp
  · rw [Complex.ofReal_im]
    unfold MPS.amp
    rw [Complex.mul_im, h3, zero_mul, add_zero, Complex.im_sum]
    rw [sum_eq_zero, mul_zero]
    intro a _
    rw [Complex.im_sum]
    apply sum_eq_zero
    intro b _
    rw [Complex.mul_im, Complex.mul_im, (e1 _ _ _).2, (e2 _ _ _).2, h2]
    simp

example : ∃ p, ghz.real = .ok p ∧ p.amp [1, 1, 1] 0 0 = 1 := by
  obtain ⟨p, h1, h2⟩ := C63_real_partial (m := ghz) (by simp [ghz, ghzT])
    (by intro t ht i j s; simp only [ghz] at ht; fin_cases ht <;> simp [delta] <;> split_ifs <;> simp)
    (by intro i j; simp [ghz]) (by simp [ghz])
  refine ⟨p, h1, ?_⟩
  rw [h2, ghz_amp _ _ _ (by norm_num) (by norm_num) (by norm_num)]; norm_num

/-- The two-site product state with amplitude `i·i = -1` on `00`. -/
def imagPair : MPS :=
  { pair with tensors := [⟨1, 1, 1, fun _ _ _ => Complex.I⟩, ⟨1, 1, 1, fun _ _ _ => Complex.I⟩] }

/-- **C63 is violated** for complex tensors: the real part of a state whose tensors are purely
imaginary is `-1`, but `real()` returns the zero state. -/
theorem C63_real_violated : ∃ p, imagPair.WF 1 1 ∧ imagPair.real = .ok p ∧
    imagPair.amp [0, 0] 0 0 = -1 ∧ p.amp [0, 0] 0 0 = 0 := by
  have hne : imagPair.tensors ≠ [] := by simp [imagPair]
  obtain ⟨k, hk⟩ := copy_ok hne
  obtain ⟨-, -, -, f1, f2, -, f3, -, -, f4⟩ := copy_fields hk
  refine ⟨{ k with tensors := k.tensors.map Ten.re }, ?_,
    by simp only [MPS.real, MPS.unary, hk], ?_, ?_⟩
  · refine ⟨rfl, le_rfl, ?_, ?_⟩ <;> simp [imagPair, pair, Linked]
  · simp [MPS.amp, imagPair, pair, chain, delta]
  · simp [MPS.amp, f1, f2, f3, f4, imagPair, pair, chain, delta, Ten.re]

end

end PyTeN
