import Verif.Mps.Ops
import Verif.Mps.Ghz
import Mathlib.Algebra.Ring.Parity

/-!
# C11 – C17: arithmetic on matrix product states, copying, saving
-/

namespace PyTeN
open Finset

noncomputable section

theorem ghz_ne : ghz.tensors ≠ [] := by simp [ghz, ghzT]

/-! ## C11 -/

/-- **C11.** `mps*c` and `c*mps` represent `c` times the state, on every configuration. -/
theorem C11_mul {m : MPS} (hm : m.tensors ≠ []) (c : ℂ) :
    ∃ m', m.mul (.scalar c) = .ok m' ∧ ∀ s i j, m'.amp s i j = c * m.amp s i j := by
  obtain ⟨k, hk⟩ := copy_ok hm
  refine ⟨{ k with Z := k.Z * c }, by simp only [MPS.mul, hk], fun s i j => ?_⟩
  rw [amp_setZ k (c := c) (by ring), copy_amp hk]

/-- **C11.** `mps/c` represents the state divided by `c`, on every configuration. -/
theorem C11_truediv {m : MPS} (hm : m.tensors ≠ []) {c : ℂ} (hc : c ≠ 0) :
    ∃ m', m.truediv (.scalar c) = .ok m' ∧ ∀ s i j, c * m'.amp s i j = m.amp s i j := by
  obtain ⟨k, hk⟩ := copy_ok hm
  refine ⟨{ k with Z := k.Z / c }, by simp only [MPS.truediv, hk, if_neg hc], fun s i j => ?_⟩
  rw [amp_setZ k (c := 1 / c) (by ring), copy_amp hk]
  field_simp

/-- **C11.** `mps*=c` and `mps/=c` in place. -/
theorem C11_inplace (m : MPS) (c : ℂ) :
    (∃ m', m.imul (.scalar c) = .ok m' ∧ ∀ s i j, m'.amp s i j = c * m.amp s i j) ∧
    (c ≠ 0 → ∃ m', m.idiv (.scalar c) = .ok m' ∧ ∀ s i j, c * m'.amp s i j = m.amp s i j) := by
  constructor
  · exact ⟨{ m with Z := m.Z * c }, rfl, fun s i j => amp_setZ m (by ring) s i j⟩
  · intro hc
    refine ⟨{ m with Z := m.Z / c }, by simp only [MPS.idiv, if_neg hc], fun s i j => ?_⟩
    rw [amp_setZ m (c := 1 / c) (by ring)]
    field_simp

/-- **C11.** A non-scalar argument raises TypeError in all five methods. -/
theorem C11_type_error (m : MPS) :
    m.mul .other = .error .type ∧ m.imul .other = .error .type ∧
      m.truediv .other = .error .type ∧ m.idiv .other = .error .type := ⟨rfl, rfl, rfl, rfl⟩

example : ∃ m', ghz.mul (.scalar 3) = .ok m' ∧ m'.amp [1, 1, 1] 0 0 = 3 := by
  obtain ⟨m', h1, h2⟩ := C11_mul ghz_ne 3
  exact ⟨m', h1, by rw [h2, ghz_amp _ _ _ (by norm_num) (by norm_num) (by norm_num)]; norm_num⟩

/-! ## C12, C13 -/

/-- **C12.** `mps1+mps2` of open chains with the same local dimensions succeeds, represents the sum
of the two states on every configuration, keeps the local dimensions, and its interior bond
dimensions are the sums of those of the operands; whatever the positions of the operands. -/
theorem C12_add {m o : MPS} (hm : m.WF 1 1) (ho : o.WF 1 1) (hN : 2 ≤ m.N) (hd : m.ds = o.ds) :
    ∃ p, m.add o = .ok p ∧ p.WF 1 1 ∧ p.ds = m.ds ∧ p.N = m.N ∧ p.obc = true ∧
      (∀ k, 0 < k → k < m.N → p.leftDim k = m.leftDim k + o.leftDim k) ∧
      ∀ s, s.length = m.N → p.amp s 0 0 = m.amp s 0 0 + o.amp s 0 0 := by
  have hNo : o.N = m.N := by
    have := congrArg List.length hd
    simp only [MPS.ds, List.length_map] at this
    rw [← hm.len, ← ho.len, this]
  obtain ⟨t1, h1, hl1, hd1, hb1, ha1⟩ := tolist_spec hm (by omega)
  obtain ⟨t2, h2, hl2, hd2, hb2, ha2⟩ := tolist_spec ho (by omega)
  have hlen1 : t1.length = m.N := by
    have := congrArg List.length hd1
    simp only [MPS.ds, List.length_map] at this
    rw [this, hm.len]
  obtain ⟨ts, hts⟩ := (addMPS_ok_iff (ts1 := t1) (ts2 := t2) m.Z o.Z (by omega)).mpr (by rw [hd1, hd2, hd])
  obtain ⟨c1, c2, -, c4, c5⟩ := chain_addMPS hts (by omega) hl1 hl2
  have hlen : ts.length = m.N := by
    have := congrArg List.length c2
    simpa [hlen1] using this
  have hne : ts ≠ [] := by intro h; rw [h] at hlen; simp at hlen; omega
  obtain ⟨out, hout⟩ := init_ok hne 1e-16 1e-16
  obtain ⟨-, e1, e2, e3, -, -⟩ := init_fields hout
  obtain ⟨w, wm, wv, wo⟩ := init_obc hout c1
  have w' : ({ out with Z := 1 } : MPS).WF 1 1 := ⟨w.len, w.pos_le, w.left, w.right⟩
  refine ⟨{ out with Z := 1 }, by simp only [MPS.add, h1, h2, hts, hout], w', ?_, ?_, ?_, ?_, ?_⟩
  · simp only [MPS.ds, e1, c2]; exact hd1
  · simp only; rw [e2, hlen]
  · simp only; rw [wo]; rfl
  · intro k hk hkN
    have := c4 k hk (by omega)
    rw [hb1 k hkN, hb2 k (by omega)] at this
    unfold MPS.leftDim at this ⊢
    simp only
    rw [if_neg (by omega), e1, this]
  · intro s hs
    rw [amp_trivial w' (by simp only; rw [e2, e3]) wm s (by simp only; rw [e1, hlen, hs])]
    simp only [e1, wv, mul_one, one_mul]
    rw [c5, ha1 s hs 0 one_pos 0 one_pos, ha2 s (by omega) 0 one_pos 0 one_pos]

/-- **C12.** Different lengths or local dimensions raise ValueError. -/
theorem C12_add_mismatch {m o : MPS} (hm : m.WF 1 1) (ho : o.WF 1 1) (hN : 2 ≤ m.N)
    (hNo : o.N ≠ 0) (hd : m.ds ≠ o.ds) : m.add o = .error .value := by
  obtain ⟨t1, h1, hl1, hd1, -, ha1⟩ := tolist_spec hm (by omega)
  obtain ⟨t2, h2, hl2, hd2, -, ha2⟩ := tolist_spec ho hNo
  have hlen1 : t1.length = m.N := by
    have := congrArg List.length hd1
    simp only [MPS.ds, List.length_map] at this
    rw [this, hm.len]
  cases h : addMPS t1 m.Z t2 o.Z with
  | ok ts =>
    have := (addMPS_ok_iff (ts1 := t1) (ts2 := t2) m.Z o.Z (by omega)).mp ⟨ts, h⟩
    rw [hd1, hd2] at this
    exact absurd this hd
  | error e =>
    have := addMPS_err (by omega) h
    subst this
    simp only [MPS.add, h1, h2, h]

/-- **C13.** `mps1-mps2` represents the difference. -/
theorem C13_sub {m o : MPS} (hm : m.WF 1 1) (ho : o.WF 1 1) (hN : 2 ≤ m.N) (hd : m.ds = o.ds) :
    ∃ p, m.sub o = .ok p ∧ p.WF 1 1 ∧ p.ds = m.ds ∧
      ∀ s, s.length = m.N → p.amp s 0 0 = m.amp s 0 0 - o.amp s 0 0 := by
  have hNo : o.N = m.N := by
    have := congrArg List.length hd
    simp only [MPS.ds, List.length_map] at this
    rw [← hm.len, ← ho.len, this]
  have hne : o.tensors ≠ [] := by
    intro h; have := ho.len; rw [h] at this; simp at this; omega
  obtain ⟨k, hk⟩ := copy_ok hne
  obtain ⟨-, hkN, -, h1, -⟩ := copy_fields hk
  have hmul : o.mul (.scalar (-1)) = .ok { k with Z := k.Z * -1 } := by simp only [MPS.mul, hk]
  have hamp : ∀ s i j, ({ k with Z := k.Z * -1 } : MPS).amp s i j = -1 * o.amp s i j :=
    fun s i j => by rw [amp_setZ k (c := -1) (by ring), copy_amp hk]
  have hwf : ({ k with Z := k.Z * -1 } : MPS).WF 1 1 :=
    have hk' := copy_wf hk ho
    ⟨hk'.len, hk'.pos_le, hk'.left, hk'.right⟩
  have hds : ({ k with Z := k.Z * -1 } : MPS).ds = o.ds := by simp only [MPS.ds, h1]
  have hN' : ({ k with Z := k.Z * -1 } : MPS).N = m.N := by simp only; rw [hkN, ho.len, hNo]
  obtain ⟨p, q1, q2, q3, -, -, -, q6⟩ := C12_add hwf hm (by rw [hN']; exact hN) (by rw [hds, hd])
  refine ⟨p, by simp only [MPS.sub, hmul, q1], q2, by rw [q3, hds, hd], ?_⟩
  intro s hs
  rw [q6 s (by rw [hN', hs]), hamp]; ring

/-- **C13.** `mps-mps` represents zero. -/
theorem C13_sub_self {m : MPS} (hm : m.WF 1 1) (hN : 2 ≤ m.N) :
    ∃ p, m.sub m = .ok p ∧ ∀ s, s.length = m.N → p.amp s 0 0 = 0 := by
  obtain ⟨p, h1, -, -, h2⟩ := C13_sub hm hm hN rfl
  exact ⟨p, h1, fun s hs => by rw [h2 s hs, sub_self]⟩

example : ∃ p, ghz.add ghz = .ok p ∧ p.amp [1, 1, 1] 0 0 = 2 ∧ p.leftDim 1 = 4 := by
  obtain ⟨p, h1, -, -, -, -, h5, h6⟩ := C12_add ghz_wf ghz_wf (by norm_num [ghz]) rfl
  refine ⟨p, h1, ?_, ?_⟩
  · rw [h6 _ rfl, ghz_amp _ _ _ (by norm_num) (by norm_num) (by norm_num)]; norm_num
  · rw [h5 1 (by norm_num) (by norm_num [ghz])]; simp [MPS.leftDim, ghz, ghzT]

/-- two-site chain of local dimension 2, used for the mismatch example. -/
def pair : MPS :=
  { N := 2, Dmax := 2, obc := true, sth := 1e-16, rth := 1e-14
    tensors := [⟨1, 2, 2, fun _ j s => delta ℂ j s⟩, ⟨2, 1, 2, fun i _ s => delta ℂ i s⟩]
    mat := ⟨1, 1, fun _ _ => 1⟩, conn := ⟨1, 1, fun _ _ => 1⟩, pos := 2, Z := 1 }

theorem pair_wf : pair.WF 1 1 := by
  refine ⟨rfl, le_rfl, ?_, ?_⟩ <;> simp [pair, Linked]

theorem pair_amp (a b : ℕ) (_ : a < 2) (_ : b < 2) :
    pair.amp [a, b] 0 0 = if a = b then 1 else 0 := by
  simp only [MPS.amp, pair, List.take, List.drop, chain, sum_range_succ, range_zero, sum_empty]
  simp only [delta]
  split_ifs <;> first | omega | simp_all

example : ghz.add pair = .error .value :=
  C12_add_mismatch ghz_wf pair_wf (by norm_num [ghz]) (by norm_num [pair])
    (by simp [MPS.ds, ghz, ghzT, pair])

example : ∃ p, pair.sub pair = .ok p ∧ p.amp [1, 1] 0 0 = 0 := by
  obtain ⟨p, h1, h2⟩ := C13_sub_self pair_wf (by norm_num [pair])
  exact ⟨p, h1, h2 _ rfl⟩

/-! ## C14: `+=` is not `+` -/

/-- Result of `+=` on open chains. -/
theorem iadd_spec {m o : MPS} (hm : m.WF 1 1) (ho : o.WF 1 1) (hN : 2 ≤ m.N) (hd : m.ds = o.ds) :
    ∃ ts, m.iadd o = .ok { m with tensors := ts, Z := 1 } ∧ Linked 1 ts 1 ∧ ts.length = m.N ∧
      ts.map Ten.d = m.ds ∧
      (∀ k, 0 < k → k < m.N → (ts[k]?.map Ten.l).getD 0 = m.leftDim k + o.leftDim k) ∧
      ∀ s, s.length = m.N → chain ts s 0 0 = m.amp s 0 0 + o.amp s 0 0 := by
  have hNo : o.N = m.N := by
    have := congrArg List.length hd
    simp only [MPS.ds, List.length_map] at this
    rw [← hm.len, ← ho.len, this]
  obtain ⟨t1, h1, hl1, hd1, hb1, ha1⟩ := tolist_spec hm (by omega)
  obtain ⟨t2, h2, hl2, hd2, hb2, ha2⟩ := tolist_spec ho (by omega)
  have hlen1 : t1.length = m.N := by
    have := congrArg List.length hd1
    simp only [MPS.ds, List.length_map] at this
    rw [this, hm.len]
  obtain ⟨ts, hts⟩ := (addMPS_ok_iff (ts1 := t1) (ts2 := t2) m.Z o.Z (by omega)).mpr (by rw [hd1, hd2, hd])
  obtain ⟨c1, c2, -, c4, c5⟩ := chain_addMPS hts (by omega) hl1 hl2
  have hlen : ts.length = m.N := by
    have := congrArg List.length c2
    simpa [hlen1] using this
  refine ⟨ts, by simp only [MPS.iadd, h1, h2, hts], c1, hlen, by rw [c2, hd1], ?_, ?_⟩
  · intro k hk hkN
    rw [c4 k hk (by omega), hb1 k hkN, hb2 k (by omega)]
  · intro s hs
    rw [c5, ha1 s hs 0 one_pos 0 one_pos, ha2 s (by omega) 0 one_pos 0 one_pos]

/-- What `+=` really does at the right end of the chain: the state is the sum multiplied with the old
`1 x 1` centre matrix, which has already been absorbed into the summand. -/
theorem C14_iadd_factor {m o : MPS} (hm : m.WF 1 1) (ho : o.WF 1 1) (hN : 2 ≤ m.N)
    (hd : m.ds = o.ds) (hp : m.pos = m.N) (hr : m.mat.r = 1) :
    ∃ p, m.iadd o = .ok p ∧ p.WF 1 1 ∧
      ∀ s, s.length = m.N → p.amp s 0 0 = m.mat.v 0 0 * (m.amp s 0 0 + o.amp s 0 0) := by
  obtain ⟨ts, h, hl, hlen, -, -, ha⟩ := iadd_spec hm ho hN hd
  have hc : m.mat.c = 1 := by
    have h2 := hm.right
    rw [hp, ← hm.len, List.drop_length] at h2
    exact h2
  have hmat : m.mat = ⟨1, 1, m.mat.v⟩ := by
    cases hm' : m.mat; rw [hm'] at hr hc; simp only at hr hc; subst hr; subst hc; rfl
  have hwf : ({ m with tensors := ts, Z := 1 } : MPS).WF 1 1 := by
    refine ⟨hlen, hm.pos_le, ?_, ?_⟩
    · simp only; rw [hp, ← hlen, List.take_length, hr]; exact hl
    · simp only; rw [hp, ← hlen, List.drop_length, hc]; rfl
  refine ⟨_, h, hwf, fun s hs => ?_⟩
  rw [amp_trivial hwf hp hmat s (by simp only; omega)]
  simp only [one_mul]
  rw [ha s hs]

/-- **C14, partial.** `mps+=other` represents the sum if the object is at its right end with the
trivial centre matrix `1` (as after construction or `+`).  Missing: every other position and centre
matrix, where the claim is false, see `C14_iadd_violated` and `C14_iadd_unusable`. -/
theorem C14_iadd_partial {m o : MPS} (hm : m.WF 1 1) (ho : o.WF 1 1) (hN : 2 ≤ m.N)
    (hd : m.ds = o.ds) (hp : m.pos = m.N) (hr : m.mat.r = 1) (h1 : m.mat.v 0 0 = 1) :
    ∃ p, m.iadd o = .ok p ∧ p.WF 1 1 ∧
      ∀ s, s.length = m.N → p.amp s 0 0 = m.amp s 0 0 + o.amp s 0 0 := by
  obtain ⟨p, h2, h3, h4⟩ := C14_iadd_factor hm ho hN hd hp hr
  exact ⟨p, h2, h3, fun s hs => by rw [h4 s hs, h1, one_mul]⟩

example : ∃ p, ghz.iadd ghz = .ok p ∧ p.amp [1, 1, 1] 0 0 = 2 := by
  obtain ⟨p, h1, -, h3⟩ := C14_iadd_partial ghz_wf ghz_wf (by norm_num [ghz]) rfl rfl rfl rfl
  refine ⟨p, h1, ?_⟩
  rw [h3 _ rfl, ghz_amp _ _ _ (by norm_num) (by norm_num) (by norm_num)]; norm_num

/-- The state `-(|00>+|11>)` at its right end with the centre matrix `-1`, as qr may produce it. -/
def pairNeg : MPS := { pair with mat := ⟨1, 1, fun _ _ => -1⟩ }

theorem pairNeg_wf : pairNeg.WF 1 1 := by
  refine ⟨rfl, le_rfl, ?_, ?_⟩ <;> simp [pairNeg, pair, Linked]

theorem pairNeg_amp : pairNeg.amp [0, 0] 0 0 = -1 := by
  simp [MPS.amp, pairNeg, pair, chain, delta]

/-- **C14 is violated**: for an object whose centre matrix is `-1`, `mps+=other` does not represent
the sum of the two states (while `mps+other` does). -/
theorem C14_iadd_violated :
    ∃ m o p q : MPS, m.WF 1 1 ∧ o.WF 1 1 ∧ m.iadd o = .ok p ∧ m.add o = .ok q ∧
      q.amp [0, 0] 0 0 = m.amp [0, 0] 0 0 + o.amp [0, 0] 0 0 ∧
      p.amp [0, 0] 0 0 ≠ m.amp [0, 0] 0 0 + o.amp [0, 0] 0 0 := by
  obtain ⟨p, h1, -, h2⟩ := C14_iadd_factor pairNeg_wf pairNeg_wf (by norm_num [pairNeg, pair])
    rfl rfl rfl
  obtain ⟨q, h3, -, -, -, -, -, h4⟩ := C12_add pairNeg_wf pairNeg_wf
    (by norm_num [pairNeg, pair]) rfl
  refine ⟨pairNeg, pairNeg, p, q, pairNeg_wf, pairNeg_wf, h1, h3, h4 _ rfl, ?_⟩
  rw [h2 _ rfl, pairNeg_amp]
  norm_num [pairNeg]

/-- **C14 is violated** at every interior position: after `mps+=other` the bond dimensions at the
position do not match the kept centre matrix any more, and every later move raises ValueError. -/
theorem C14_iadd_unusable {m o : MPS} (hm : m.WF 1 1) (ho : o.WF 1 1) (hN : 2 ≤ m.N)
    (hd : m.ds = o.ds) (h0 : 0 < m.pos) (hp : m.pos < m.N) (hsq : m.mat.r = m.mat.c)
    (hpos : 0 < o.leftDim m.pos) :
    ∃ p, m.iadd o = .ok p ∧ ∀ O : LinAlg, ∀ b : ℕ, b ≤ m.N → b ≠ m.pos →
      p.position O b = .error .value := by
  obtain ⟨ts, h, hl, hlen, -, hb, -⟩ := iadd_spec hm ho hN hd
  refine ⟨_, h, fun O b hbN hbne => ?_⟩
  have hdim := hb m.pos h0 hp
  have hld : m.leftDim m.pos = m.mat.r := by simp [MPS.leftDim]
  rw [hld] at hdim
  unfold MPS.position
  simp only
  rw [if_neg (by simp; omega), if_neg (by simp), Int.toNat_natCast, if_neg hbne]
  split_ifs with hlt
  · have hx : m.pos < ts.length := by omega
    have hg : getT ts m.pos = .ok ts[m.pos] := by simp [getT, List.getElem?_eq_getElem hx]
    rw [List.getElem?_eq_getElem hx] at hdim
    simp only [Option.map_some, Option.getD_some] at hdim
    rw [hg]
    simp only
    have : absorbL m.mat ts[m.pos] = .error .value := by
      unfold absorbL; rw [if_neg (by omega)]
    rw [this]
  · have hx : m.pos - 1 < ts.length := by omega
    have hg : getT ts (m.pos - 1) = .ok ts[m.pos - 1] := by simp [getT, List.getElem?_eq_getElem hx]
    have hr := linked_getElem_l hl (k := m.pos) (by omega)
    rw [hdim, if_neg (by omega), List.getElem?_eq_getElem hx] at hr
    simp only [Option.map_some, Option.getD_some] at hr
    rw [hg]
    simp only
    have : absorbR ts[m.pos - 1] m.mat = .error .value := by
      unfold absorbR; rw [if_neg (by omega)]
    rw [this]

/-- `pair` with its centre between the two sites. -/
def pairMid : MPS := { pair with mat := ⟨2, 2, fun i j => delta ℂ i j⟩, pos := 1 }

theorem pairMid_wf : pairMid.WF 1 1 := by
  refine ⟨rfl, by simp [pairMid, pair], ?_, ?_⟩ <;> simp [pairMid, pair, Linked]

example : ∃ p, pairMid.iadd pair = .ok p ∧ ∀ O : LinAlg, p.position O 0 = .error .value := by
  obtain ⟨p, h1, h2⟩ := C14_iadd_unusable pairMid_wf pair_wf (by norm_num [pairMid, pair]) rfl
    (by norm_num [pairMid]) (by norm_num [pairMid, pair]) rfl (by simp [MPS.leftDim, pairMid, pair])
  exact ⟨p, h1, fun O => h2 O 0 (by simp) (by norm_num [pairMid])⟩

/-! ## C15: unary minus -/

theorem chain_neg (ts : List (Ten ℂ)) (s : List ℕ) (i j : ℕ) :
    chain (ts.map Ten.neg) s i j = (-1) ^ ts.length * chain ts s i j := by
  induction ts generalizing s i with
  | nil => cases s <;> simp [chain]
  | cons t ts ih =>
    cases s with
    | nil => simp [chain]
    | cons x s =>
      simp only [List.map_cons, chain, Ten.neg, ih, List.length_cons, mul_sum]
      apply sum_congr rfl; intro k _
      rw [pow_succ]; ring

/-- What `-mps` really is: `(-1)^N` times the state. -/
theorem C15_neg_factor {m : MPS} {l r : ℕ} (hw : m.WF l r) (hN : m.N ≠ 0) :
    ∃ p, m.neg = .ok p ∧ ∀ s i j, p.amp s i j = (-1) ^ m.N * m.amp s i j := by
  have hne : m.tensors ≠ [] := by
    intro h; have := hw.len; rw [h] at this; simp at this; omega
  obtain ⟨k, hk⟩ := copy_ok hne
  refine ⟨{ k with tensors := k.tensors.map Ten.neg }, by simp only [MPS.neg, MPS.unary, hk], ?_⟩
  intro s i j
  obtain ⟨-, h0, -, h1, h2, -, h3, -, -, h4⟩ := copy_fields hk
  unfold MPS.amp
  simp only [h1, h2, h3, h4, ← List.map_take, ← List.map_drop, chain_neg, mul_sum]
  apply sum_congr rfl; intro a _
  apply sum_congr rfl; intro b _
  have e : ((-1 : ℂ)) ^ m.N = (-1) ^ (m.tensors.take m.pos).length *
      (-1) ^ (m.tensors.drop m.pos).length := by
    rw [← pow_add, ← List.length_append, List.take_append_drop, hw.len]
  rw [e]; ring

/-- **C15, partial.** `-mps` represents minus the state for chains of odd length.  Missing: even
length, where the claim is false (`C15_neg_violated`). -/
theorem C15_neg_partial {m : MPS} {l r : ℕ} (hw : m.WF l r) (hN : Odd m.N) :
    ∃ p, m.neg = .ok p ∧ ∀ s i j, p.amp s i j = - m.amp s i j := by
  obtain ⟨p, h1, h2⟩ := C15_neg_factor hw hN.pos.ne'
  exact ⟨p, h1, fun s i j => by rw [h2, hN.neg_one_pow]; ring⟩

example : ∃ p, ghz.neg = .ok p ∧ p.amp [1, 1, 1] 0 0 = -1 := by
  obtain ⟨p, h1, h2⟩ := C15_neg_partial ghz_wf (by decide : Odd 3)
  exact ⟨p, h1, by rw [h2, ghz_amp _ _ _ (by norm_num) (by norm_num) (by norm_num)]; norm_num⟩

/-- **C15 is violated** for every even length: `-mps` is the state itself, so it is not minus the
state on any configuration with a non-vanishing amplitude. -/
theorem C15_neg_violated {m : MPS} {l r : ℕ} (hw : m.WF l r) (hN : Even m.N) (h0 : m.N ≠ 0) :
    ∃ p, m.neg = .ok p ∧ (∀ s i j, p.amp s i j = m.amp s i j) ∧
      ∀ s i j, m.amp s i j ≠ 0 → p.amp s i j ≠ - m.amp s i j := by
  obtain ⟨p, h1, h2⟩ := C15_neg_factor hw h0
  have h3 : ∀ s i j, p.amp s i j = m.amp s i j := fun s i j => by
    rw [h2, hN.neg_one_pow, one_mul]
  refine ⟨p, h1, h3, fun s i j hne heq => hne ?_⟩
  rw [h3] at heq
  have : (2 : ℂ) * m.amp s i j = 0 := by linear_combination heq
  simpa using this

example : ∃ p, pair.neg = .ok p ∧ p.amp [1, 1] 0 0 = 1 := by
  obtain ⟨p, h1, h2, -⟩ := C15_neg_violated pair_wf (by decide : Even 2) (by norm_num [pair])
  exact ⟨p, h1, by rw [h2, pair_amp _ _ (by norm_num) (by norm_num)]; norm_num⟩

/-! ## C16: copy -/

/-- **C16, partial.** `copy()` of a well-formed object has the same length, tensors, centre matrix,
connector, position, norm factor, thresholds and maximal bond dimension, and therefore the same
amplitudes.  Missing: the boundary flag (`C16_copy_obc_violated`); independence of later operations
is built into the value semantics of the model (the code deep-copies every array). -/
theorem C16_copy_partial {m : MPS} {l r : ℕ} (hw : m.WF l r) (h0 : m.N ≠ 0) :
    ∃ c, m.copy = .ok c ∧ c = { m with obc := c.obc } ∧ ∀ s i j, c.amp s i j = m.amp s i j := by
  have hne : m.tensors ≠ [] := by
    intro h; have := hw.len; rw [h] at this; simp at this; omega
  obtain ⟨c, hc⟩ := copy_ok hne
  obtain ⟨-, h0, h5, h1, h2, h6, h3, h7, h8, h4⟩ := copy_fields hc
  refine ⟨c, hc, ?_, copy_amp hc⟩
  rw [hw.len] at h0
  cases c
  simp only at h0 h5 h1 h2 h6 h3 h7 h8 h4
  subst h0 h5 h1 h2 h6 h3 h7 h8 h4
  rfl

/-- The flag of the copy is faithful exactly if it agrees with the shapes of the outer tensors. -/
theorem C16_copy_obc_iff {m c : MPS} (h : m.copy = .ok c) {a b : Ten ℂ}
    (ha : m.tensors.head? = some a) (hb : m.tensors.getLast? = some b) :
    c.obc = m.obc ↔ m.obc = (decide (a.l = 1) && decide (b.r = 1)) := by
  rw [copy_obc h ha hb]; exact eq_comm

/-- **C16 is violated** for the boundary flag: the copy of a product state constructed with
`obc=False` is an open chain. -/
theorem C16_copy_obc_violated :
    ∃ m c, MPS.productState [[1, 0], [0, 1]] false 1e-16 1e-16 = .ok m ∧ m.copy = .ok c ∧
      m.obc = false ∧ c.obc = true := by
  have ht : ∀ v ∈ ([[1, 0], [0, 1]] : List (List ℂ)), ¬ tinyVec v := by
    intro v hv h
    unfold tinyVec at h
    fin_cases hv <;> norm_num at h
  obtain ⟨m, m', h1, h5, h2⟩ := productState_ok (vs := [[1, 0], [0, 1]]) (obc := false)
    (sth := 1e-16) (rth := 1e-16) (by simp) ht (by simp)
  have h3 : m.tensors = [vecTen [1, 0], vecTen [0, 1]] := by
    rw [h5]; exact (init_fields h1).2.1
  have h4 : m.obc = false := by rw [h5]
  obtain ⟨c, hc⟩ := copy_ok (m := m) (by rw [h3]; simp)
  exact ⟨m, c, h2, hc, h4, by rw [copy_obc hc (by rw [h3]; rfl) (by rw [h3]; rfl)]; rfl⟩

example : ∃ c, ghz.copy = .ok c ∧ c = { ghz with obc := c.obc } ∧ c.obc = ghz.obc := by
  obtain ⟨c, h1, h2, -⟩ := C16_copy_partial ghz_wf (by norm_num [ghz])
  exact ⟨c, h1, h2, (C16_copy_obc_iff h1 rfl rfl).mpr rfl⟩

/-! ## C17: save and load -/

/-- **C17, partial.** After `obj.load(f)` every field except the maximal bond dimension equals that of
the saved object, so the amplitudes agree.  Missing: `Dmax`, see `C17_load_violated`. -/
theorem C17_load_partial (self f : MPS) :
    self.load f = { f with Dmax := f.N } ∧ ∀ s i j, (self.load f).amp s i j = f.amp s i j :=
  ⟨rfl, fun _ _ _ => rfl⟩

/-- **C17 is violated** for `Dmax`: it becomes the number of sites, so the round trip is faithful
exactly if `Dmax` happened to be equal to `N`. -/
theorem C17_load_violated (self f : MPS) : self.load f = f ↔ f.Dmax = f.N := by
  constructor
  · intro h; have := congrArg MPS.Dmax h; simpa [MPS.load] using this.symm
  · intro h; cases f; simp only at h; subst h; rfl

example : ghz.load ghz ≠ ghz := by rw [Ne, C17_load_violated]; norm_num [ghz]

end

end PyTeN
