import Verif.Env.BlockHam
import Verif.Props.Energy

/-! # C110: `getBlockHam` -/

namespace PyTeN
open Finset

noncomputable section

/-! ## What the blocks are -/

theorem lastBlock_L {E : Env ℂ} {As Bs : List (Ten ℂ)} {Ws : List (Mpo ℂ)} {ls : List (Env ℂ)} (h : blocksR E As Ws Bs = .ok ls)
    (hB : Bs.length = As.length) : IsL E As (Ws.take As.length) Bs (lastBlock E ls) := by
  obtain ⟨h1, h2, h3, h4⟩ := blocksR_spec _ _ _ _ _ h
  unfold lastBlock
  rcases List.eq_nil_or_concat ls with rfl | ⟨xs, x, rfl⟩
  · have : As = [] := List.length_eq_zero_iff.mp (by simpa using h1.symm)
    subst this
    have : Bs = [] := List.length_eq_zero_iff.mp (by simpa using hB)
    subst this
    simpa using isL_nil E
  · rw [List.concat_eq_append] at *
    have hl : xs.length + 1 = As.length := by simpa using h1
    have := h4 xs.length x (by simp)
    rw [hl, List.take_length] at this
    rw [List.take_of_length_le hB.le] at this
    simpa using this

theorem lastBlock_R {E : Env ℂ} {As : List (Ten ℂ)} {Ws : List (Mpo ℂ)} {ls : List (Env ℂ)} (h : blocksL E As.reverse Ws.reverse As.reverse = .ok ls)
    (hW : Ws.length = As.length) : IsR E As Ws As (lastBlock E ls) := by
  obtain ⟨h1, h2, h3, h4⟩ := blocksL_spec _ _ _ _ _ h
  unfold lastBlock
  rcases List.eq_nil_or_concat ls with rfl | ⟨xs, x, rfl⟩
  · have : As = [] := List.length_eq_zero_iff.mp (by simpa using h1.symm)
    subst this
    have : Ws = [] := List.length_eq_zero_iff.mp (by simpa using hW)
    subst this
    simpa using isR_nil E
  · rw [List.concat_eq_append] at *
    have hl : xs.length + 1 = As.length := by simpa using h1
    have := h4 xs.length x (by simp)
    rw [hl, List.take_of_length_le (by simp), List.take_of_length_le (by simp [hW]), List.reverse_reverse, List.reverse_reverse] at this
    simpa using this

variable {O : LinAlg} {m m' : MPS} {lb rb L R : Env ℂ} {mpo : List (Mpo ℂ)} {n l r : ℕ} {lam : Mat ℂ}

/-- **C110**, the blocks: the left block is the contraction of the sites up to `index`, with the orthonormal factor of the last one, the
right block that of the other sites, and the matrix is the other factor divided by its norm. -/
theorem C110_blocks (hO : O.Spec) (hw : m.WF l r) (hs : m.sth < 1e-15) (hlen : mpo.length = m.N)
    (h : getBlockHam O m lb rb mpo n = .ok (m', L, R, lam)) :
    m.position O n = .ok m' ∧ n < m.N ∧ ∃ t A z, m'.tensors[n]? = some t ∧ ExactR t A lam z ∧
      IsL lb (m'.tensors.take n ++ [A]) (mpo.take (n + 1)) (m'.tensors.take n ++ [A]) L ∧
      IsR rb (m'.tensors.drop (n + 1)) (mpo.drop (n + 1)) (m'.tensors.drop (n + 1)) R := by
  unfold getBlockHam at h
  split at h
  · cases h
  rename_i m1 hm
  obtain ⟨-, -, M⟩ := position_moved hO (effSth_default hs) hw hm
  split at h
  · cases h
  rename_i t ht
  split at h
  · cases h
  rename_i A lam' z hp
  split at h
  · cases h
  rename_i hN
  split at h
  · cases h
  rename_i ls hls
  split at h
  · cases h
  rename_i rs hrs
  simp only [Except.ok.injEq, Prod.mk.injEq] at h
  obtain ⟨rfl, rfl, rfl, rfl⟩ := h
  have ht' : m1.tensors[n]? = some t := by
    unfold getT at ht
    split at ht
    · simp only [Except.ok.injEq] at ht; rw [← ht]; assumption
    · cases ht
  have hn : n < m1.tensors.length := by
    by_contra hc
    rw [List.getElem?_eq_none (by omega)] at ht'
    cases ht'
  have hnN : n < m.N := by rw [← M.N, ← M.wf.len]; exact hn
  have hlen' : mpo.length = m1.tensors.length := by rw [M.wf.len, M.N, hlen]
  refine ⟨hm, hnN, t, A, z, ht', prepareTensorR_spec hO (by rw [← hp]; rfl), ?_, ?_⟩
  · have := lastBlock_L hls rfl
    rwa [show (m1.tensors.take n ++ [A]).length = n + 1 by simp [hn.le]] at this
  · rw [show mpo.take m1.N = mpo by rw [← M.wf.len, ← hlen', List.take_length]] at hrs
    exact lastBlock_R hrs (by rw [List.length_drop, List.length_drop, hlen'])

/-- The chain with its tensor at site `n` factorised. -/
theorem chain_factor {ts : List (Ten ℂ)} {t A : Ten ℂ} {z : ℝ} (ht : ts[n]? = some t) (hE : ExactR t A lam z) (hL : Linked l ts r)
    {s : List ℕ} (hs : Conf (ts.map Ten.d) s) {i : ℕ} (hi : i < l) (j : ℕ) :
    chain ts s i j = z * split (ts.take n ++ [A]) lam (ts.drop (n + 1)) (s.take (n + 1)) (s.drop (n + 1)) i j := by
  have hn : n < ts.length := by
    by_contra hc
    rw [List.getElem?_eq_none (by omega)] at ht
    cases ht
  have hts : ts = ts.take n ++ t :: ts.drop (n + 1) := by
    have hget : ts[n] = t := by rw [List.getElem?_eq_getElem hn] at ht; exact Option.some.inj ht
    rw [← hget, ← List.drop_eq_getElem_cons hn, List.take_append_drop]
  have hsl : s.length = ts.length := by rw [hs.length, List.length_map]
  have hns : n < s.length := by omega
  have hss : s = s.take n ++ s[n] :: s.drop (n + 1) := by rw [← List.drop_eq_getElem_cons hns, List.take_append_drop]
  have hx : s[n] < t.d := by
    have := List.Forall₂.get hs (i := n) (by simpa using hn) hns
    have hget : ts[n] = t := by rw [List.getElem?_eq_getElem hn] at ht; exact Option.some.inj ht
    simpa [hget] using this
  have hL' := hL
  rw [hts, linked_append] at hL'
  obtain ⟨x, q1, q2, q3⟩ := hL'
  have hlt : (s.take n).length = (ts.take n).length := by rw [List.length_take, List.length_take, hsl]
  conv_lhs => rw [hts, hss]
  rw [chain_append q1 _ _ hlt hi]
  have e1 : s.take (n + 1) = s.take n ++ [s[n]] := by rw [List.take_add_one, List.getElem?_eq_getElem hns]; rfl
  unfold split
  rw [e1]
  have q1' : Linked l (ts.take n) A.l := by rw [hE.l, q2]; exact q1
  have e2 : ∀ k < lam.r, chain (ts.take n ++ [A]) (s.take n ++ [s[n]]) i k = ∑ y ∈ range x, chain (ts.take n) (s.take n) i y * A.v y k s[n] := by
    intro k hk
    rw [chain_append q1 _ _ hlt hi]
    refine sum_congr rfl fun y _ => ?_
    simp only [chain]
    rw [sum_delta_right (by rw [hE.r]; exact hk)]
  have e3 : ∀ y ∈ range x, chain (ts.take n) (s.take n) i y * chain (t :: ts.drop (n + 1)) (s[n] :: s.drop (n + 1)) y j =
      z * ∑ k ∈ range lam.r, ∑ k' ∈ range lam.c, chain (ts.take n) (s.take n) i y * A.v y k s[n] * lam.v k k' *
        chain (ts.drop (n + 1)) (s.drop (n + 1)) k' j := by
    intro y hy
    simp only [chain]
    rw [mul_sum, mul_sum, sum_congr rfl fun k _ => mul_sum _ _ _, sum_comm, hE.c]
    refine sum_congr rfl fun k' hk' => ?_
    rw [hE.prod y (by rw [q2]; exact mem_range.mp hy) k' (mem_range.mp hk') s[n] hx, mul_sum, sum_mul, mul_sum]
    exact sum_congr rfl fun k _ => by ring
  rw [sum_congr rfl e3, ← mul_sum]
  congr 1
  rw [sum_comm]
  refine sum_congr rfl fun k hk => ?_
  rw [sum_comm]
  refine sum_congr rfl fun k' _ => ?_
  rw [e2 k (mem_range.mp hk), sum_mul, sum_mul]

/-- The blocks as environments of a bond. -/
theorem blockHam_ctx {ts : List (Ten ℂ)} {t A : Ten ℂ} {z : ℝ} (hlen : mpo.length = ts.length) (ht : ts[n]? = some t) (hE : ExactR t A lam z)
    (hL : IsL lb (ts.take n ++ [A]) (mpo.take (n + 1)) (ts.take n ++ [A]) L)
    (hR : IsR rb (ts.drop (n + 1)) (mpo.drop (n + 1)) (ts.drop (n + 1)) R)
    (hc : R.u = lam.c ∧ R.w = lam.c) (hm : L.m = R.m) (hd : ts.map Ten.d = ds) :
    BondCtx lb rb mpo ds (ts.take n ++ A :: ts.drop (n + 1)) (n + 1) L R lam.r lam.c := by
  have hn : n < ts.length := by
    by_contra hc
    rw [List.getElem?_eq_none (by omega)] at ht
    cases ht
  have e1 : (ts.take n ++ A :: ts.drop (n + 1)).take (n + 1) = ts.take n ++ [A] := by
    rw [show ts.take n ++ A :: ts.drop (n + 1) = (ts.take n ++ [A]) ++ ts.drop (n + 1) by simp]
    exact List.take_left' (by simp [hn.le])
  have e2 : (ts.take n ++ A :: ts.drop (n + 1)).drop (n + 1) = ts.drop (n + 1) := by
    rw [show ts.take n ++ A :: ts.drop (n + 1) = (ts.take n ++ [A]) ++ ts.drop (n + 1) by simp]
    exact List.drop_left' (by simp [hn.le])
  have hlast : ∀ {a b : ℕ}, Linked a (ts.take n ++ [A]) b → b = lam.r := by
    intro a b h
    obtain ⟨x, -, -, h3⟩ := linked_append.mp h
    rw [← hE.r]; exact h3.symm
  refine ⟨by simp; omega, ?_, by rw [e1]; exact hL, by rw [e2]; exact hR, ?_, hlast hL.u, hlast hL.w, hc.1, hc.2, hm⟩
  · simp; omega
  · rw [← hd]
    have hts : ts = ts.take n ++ t :: ts.drop (n + 1) := by
      have hget : ts[n] = t := by rw [List.getElem?_eq_getElem hn] at ht; exact Option.some.inj ht
      rw [← hget, ← List.drop_eq_getElem_cons hn, List.take_append_drop]
    conv_rhs => rw [hts]
    simp [hE.d]

/-- Spec: the boundaries and the MPO fit a chain with outer bonds `l` and `r`. -/
structure BoundFit (lb rb : Env ℂ) (mpo : List (Mpo ℂ)) (l r : ℕ) : Prop where
  lu : lb.u = l
  lw : lb.w = l
  ru : rb.u = r
  rw : rb.w = r
  m : MLinked lb.m mpo rb.m

/-- What `getBlockHam` returns in terms of the chain of all tensors without the centre matrix. -/
theorem blockHam_chain (hO : O.Spec) (hw : m.WF l r) (hs : m.sth < 1e-15) (hc : m.Canonical) (hlen : mpo.length = m.N) (hf : BoundFit lb rb mpo l r)
    (h : getBlockHam O m lb rb mpo n = .ok (m', L, R, lam)) :
    Moved m m' l r n ∧ m'.Canonical ∧ m'.mat.r = m'.mat.c ∧ lam.nsq = 1 ∧ Linked l m'.tensors r ∧
      ∃ z : ℝ, 0 < z ∧ nsq m.ds l r (chain m'.tensors) = z ^ 2 ∧
        hform lb mpo rb m.ds (chain m'.tensors) (chain m'.tensors) = z ^ 2 * bondForm L R lam lam := by
  obtain ⟨hm, hn, t, A, z, ht, hE, hL, hR⟩ := C110_blocks hO hw hs hlen h
  obtain ⟨-, -, M⟩ := position_moved hO (effSth_default hs) hw hm
  have hM : Moved m m' l r n := by simpa using M
  have hc' := canonical_position hO hw hs hc hm
  have hnt : n < m'.tensors.length := by rw [hM.wf.len, hM.N]; exact hn
  have hdrop : m'.tensors.drop n = t :: m'.tensors.drop (n + 1) := by
    have hget : m'.tensors[n] = t := by rw [List.getElem?_eq_getElem hnt] at ht; exact Option.some.inj ht
    rw [← hget, ← List.drop_eq_getElem_cons hnt]
  have hright := hM.wf.right
  rw [hM.pos, hdrop] at hright
  obtain ⟨r1, r2⟩ := hright
  obtain ⟨x, l1, l2, l3⟩ := linked_append.mp hL.u
  have hx : x = t.l := by rw [← l2, hE.l]
  have hleft := hM.wf.left
  rw [hM.pos] at hleft
  rw [hf.lu, hx] at l1
  have hmat : m'.mat.r = t.l := by rw [← linked_rdim hleft, linked_rdim l1]
  have hlink : Linked l m'.tensors r := by
    rw [← List.take_append_drop n m'.tensors, hdrop, linked_append]
    exact ⟨_, l1, rfl, r2⟩
  have hu : R.u = lam.c := by rw [hE.c]; exact linked_ldim_unique (hf.ru ▸ hR.u) r2
  have hw' : R.w = lam.c := by rw [hE.c]; exact linked_ldim_unique (hf.rw ▸ hR.w) r2
  have hne : mpo ≠ [] := by rintro rfl; simp at hlen; omega
  have hmm : L.m = R.m := mlinked_take_drop hf.m hf.m hne hL.m hR.m
  have hlen' : mpo.length = m'.tensors.length := by rw [hM.wf.len, hM.N, hlen]
  have ctx := blockHam_ctx (ds := m.ds) hlen' ht hE hL hR ⟨hu, hw'⟩ hmm hM.ds
  have e1 : (m'.tensors.take n ++ A :: m'.tensors.drop (n + 1)).take (n + 1) = m'.tensors.take n ++ [A] := by
    rw [show m'.tensors.take n ++ A :: m'.tensors.drop (n + 1) = (m'.tensors.take n ++ [A]) ++ m'.tensors.drop (n + 1) by simp]
    exact List.take_left' (by simp [hnt.le])
  have e2 : (m'.tensors.take n ++ A :: m'.tensors.drop (n + 1)).drop (n + 1) = m'.tensors.drop (n + 1) := by
    rw [show m'.tensors.take n ++ A :: m'.tensors.drop (n + 1) = (m'.tensors.take n ++ [A]) ++ m'.tensors.drop (n + 1) by simp]
    exact List.drop_left' (by simp [hnt.le])
  have hfac : ∀ s, Conf m.ds s → ∀ i < l, ∀ j, chain m'.tensors s i j =
      z * split (m'.tensors.take n ++ [A]) lam (m'.tensors.drop (n + 1)) (s.take (n + 1)) (s.drop (n + 1)) i j :=
    fun s hcs i hi j => chain_factor ht hE hlink (by have := hM.ds; unfold MPS.ds at this; rw [this]; exact hcs) hi j
  have hlam : lam.nsq = 1 := by
    have := hE.norm
    unfold normF at this
    rw [Real.sqrt_eq_one] at this
    exact this
  refine ⟨hM, hc', by rw [hmat, r1], hlam, hlink, z, hE.zpos, ?_, ?_⟩
  · rw [nsq_congr fun s hcs i hi j _ => hfac s hcs i hi j, nsq_smul]
    have := ctx.nsq (C := lam) ⟨rfl, rfl⟩ ?_ ?_
    · rw [e1, e2, hf.lu, hf.ru, hlam] at this
      rw [this, mul_one, Complex.normSq_ofReal, sq]
    · intro y u hy hyn
      rcases Nat.lt_or_ge y n with h1 | h1
      · rw [List.getElem?_append_left (by simp; omega), List.getElem?_take_of_lt h1] at hy
        exact hc'.left y u hy (by rw [hM.pos]; exact h1)
      · obtain rfl : y = n := by omega
        rw [List.getElem?_append_right (by simp)] at hy
        simp [hnt.le] at hy
        rw [← hy]; exact hE.orth
    · intro y u hy hyn
      rw [List.getElem?_append_right (by simp; omega), List.length_take, min_eq_left hnt.le, show y - n = (y - n - 1) + 1 by omega,
        List.getElem?_cons_succ, List.getElem?_drop, show n + 1 + (y - n - 1) = y by omega] at hy
      exact hc'.right y u hy (by rw [hM.pos]; omega)
  · have := ctx.form (by rw [hf.lw, hf.lu]) (C := lam) (X := lam) ⟨rfl, rfl⟩ ⟨rfl, rfl⟩
    rw [e1, e2] at this
    rw [hform_congr (fun s hcs i hi j _ => hfac s hcs i (hf.lu ▸ hi) j) (fun s hcs i hi j _ => hfac s hcs i (hf.lw ▸ hi) j), hform_smul, this]
    simp [sq]

/-- **C110**, what the expectation value of the returned matrix is: the energy of the state that has the centre matrix left out. -/
theorem C110_without_centre (hO : O.Spec) (hw : m.WF l r) (hs : m.sth < 1e-15) (hc : m.Canonical) (hlen : mpo.length = m.N)
    (hf : BoundFit lb rb mpo l r) (h : getBlockHam O m lb rb mpo n = .ok (m', L, R, lam)) :
    lam.nsq = 1 ∧ bondForm L R lam lam = energy lb mpo rb m.ds (chain m'.tensors) := by
  obtain ⟨-, -, -, h1, -, z, hz, h2, h3⟩ := blockHam_chain hO hw hs hc hlen hf h
  refine ⟨h1, ?_⟩
  have hz' : (z : ℂ) ≠ 0 := by exact_mod_cast hz.ne'
  unfold energy
  rw [hf.lu, hf.ru, h2, h3]
  push_cast
  field_simp

/-- **C110 (partial:** the centre matrix has to be a multiple of the identity**).**  The expectation value of the returned matrix in the
returned blocks is the energy of the state. -/
theorem C110_energy_partial (hO : O.Spec) (hw : m.WF l r) (hs : m.sth < 1e-15) (hc : m.Canonical) (hZ : m.Z ≠ 0) (hlen : mpo.length = m.N)
    (hf : BoundFit lb rb mpo l r) (h : getBlockHam O m lb rb mpo n = .ok (m', L, R, lam))
    (hsc : ∃ c : ℂ, ∀ k < m'.mat.r, ∀ k' < m'.mat.c, m'.mat.v k k' = c * delta ℂ k k') :
    lam.nsq = 1 ∧ bondForm L R lam lam = energy lb mpo rb m.ds m.amp := by
  obtain ⟨h1, h2⟩ := C110_without_centre hO hw hs hc hlen hf h
  obtain ⟨M, hc', hsq, -, hlink, -⟩ := blockHam_chain hO hw hs hc hlen hf h
  refine ⟨h1, ?_⟩
  obtain ⟨c, hcv⟩ := hsc
  have hamp : ∀ s, Conf m.ds s → ∀ i < l, ∀ j < r, m.amp s i j = (m'.Z * c) * chain m'.tensors s i j := by
    intro s hcs i hi j _
    rw [← M.amp s (conf_cfg hcs) i hi j]
    unfold MPS.amp
    rw [mul_assoc]
    congr 1
    have hlt : (s.take m'.pos).length = (m'.tensors.take m'.pos).length := by
      have := M.ds
      rw [List.length_take, List.length_take, hcs.length, ← M.ds, MPS.ds, List.length_map]
    conv_rhs => rw [← List.take_append_drop m'.pos m'.tensors, ← List.take_append_drop m'.pos s]
    rw [chain_append M.wf.left _ _ hlt hi, mul_sum]
    refine sum_congr rfl fun k hk => ?_
    have hk' : k < m'.mat.c := by rw [← hsq]; exact mem_range.mp hk
    have : ∀ k' ∈ range m'.mat.c, chain (m'.tensors.take m'.pos) (s.take m'.pos) i k * m'.mat.v k k' *
        chain (m'.tensors.drop m'.pos) (s.drop m'.pos) k' j = delta ℂ k k' * (c * (chain (m'.tensors.take m'.pos) (s.take m'.pos) i k *
        chain (m'.tensors.drop m'.pos) (s.drop m'.pos) k' j)) := by
      intro k' hk'
      rw [hcv k (mem_range.mp hk) k' (mem_range.mp hk')]; ring
    rw [sum_congr rfl this, sum_delta_left hk']
  have hn0 : nsq m.ds l r m.amp ≠ 0 := by
    rw [canonical_nsq hw hc]; exact (Complex.normSq_pos.mpr hZ).ne'
  have hn1 : nsq m.ds l r m.amp = Complex.normSq (m'.Z * c) * nsq m.ds l r (chain m'.tensors) := by
    rw [nsq_congr hamp, nsq_smul]
  have hq : (m'.Z * c) ≠ 0 := by
    intro h0
    rw [hn1, h0] at hn0; simp at hn0
  have hq' : (Complex.normSq (m'.Z * c) : ℂ) ≠ 0 := by exact_mod_cast (Complex.normSq_pos.mpr hq).ne'
  rw [h2]
  unfold energy
  rw [hf.lu, hf.ru, hn1]
  rw [hform_congr (f := m.amp) (f' := fun s i j => (m'.Z * c) * chain m'.tensors s i j) (g := m.amp)
    (g' := fun s i j => (m'.Z * c) * chain m'.tensors s i j) (fun s hcs i hi j hj => hamp s hcs i (hf.lu ▸ hi) j (hf.ru ▸ hj))
    (fun s hcs i hi j hj => hamp s hcs i (hf.lw ▸ hi) j (hf.rw ▸ hj)), hform_smul]
  have e : m'.Z * c * star (m'.Z * c) = (Complex.normSq (m'.Z * c) : ℂ) := by rw [Complex.normSq_eq_conj_mul_self, mul_comm]; rfl
  rw [e]
  push_cast
  rw [mul_div_mul_left _ _ hq']

/-- **C110 (partial)**: with one state on the left boundary the first site is always such a case. -/
theorem C110_first_partial (hO : O.Spec) (hw : m.WF 1 r) (hs : m.sth < 1e-15) (hc : m.Canonical) (hZ : m.Z ≠ 0) (hlen : mpo.length = m.N)
    (hf : BoundFit lb rb mpo 1 r) (h : getBlockHam O m lb rb mpo 0 = .ok (m', L, R, lam)) :
    lam.nsq = 1 ∧ bondForm L R lam lam = energy lb mpo rb m.ds m.amp := by
  refine C110_energy_partial hO hw hs hc hZ hlen hf h ⟨m'.mat.v 0 0, ?_⟩
  obtain ⟨M, -, hsq, -⟩ := blockHam_chain hO hw hs hc hlen hf h
  have h1 : m'.mat.r = 1 := by
    have := M.wf.left
    rw [M.pos, List.take_zero] at this
    exact this.symm
  intro k hk k' hk'
  obtain rfl : k = 0 := by omega
  obtain rfl : k' = 0 := by omega
  simp [delta]

/-! ## When it returns -/

theorem blocksR_returns : ∀ (As : List (Ten ℂ)) (Ws : List (Mpo ℂ)) (E : Env ℂ) {x y z : ℕ}, Linked E.u As x → Linked E.w As y → MLinked E.m (Ws.take As.length) z →
    Fits As (Ws.take As.length) As → ∃ ls, blocksR E As Ws As = .ok ls
  | [], Ws, E, _, _, _, _, _, _, _ => ⟨[], by simp [blocksR]⟩
  | A :: As, [], E, _, _, _, _, _, _, hf => by simp [Fits] at hf
  | A :: As, W :: Ws, E, x, y, z, h1, h2, h3, hf => by
    simp only [List.length_cons, List.take_succ_cons] at h3 hf
    obtain ⟨f1, f2, f3⟩ := hf
    have hc : E.u = A.l ∧ E.m = W.l ∧ A.d = W.din ∧ E.w = A.l ∧ W.dout = A.d := ⟨h1.1.symm, h3.1.symm, f1, h2.1.symm, f2⟩
    unfold blocksR
    have ha : ∃ E', addLayerR E A W A = .ok E' ∧ E'.u = A.r ∧ E'.w = A.r ∧ E'.m = W.r := by
      unfold addLayerR; rw [if_pos hc]; exact ⟨_, rfl, rfl, rfl, rfl⟩
    obtain ⟨E', e1, e2, e3, e4⟩ := ha
    obtain ⟨ls, hls⟩ := blocksR_returns As Ws E' (by rw [e2]; exact h1.2) (by rw [e3]; exact h2.2) (by rw [e4]; exact h3.2) f3
    rw [e1]
    simp only [hls]
    exact ⟨_, rfl⟩

theorem fits_snoc {As Bs : List (Ten ℂ)} {Ws : List (Mpo ℂ)} {A B : Ten ℂ} {W : Mpo ℂ} (h : Fits (As ++ [A]) (Ws ++ [W]) (Bs ++ [B]))
    (h1 : As.length = Ws.length) (h2 : Bs.length = Ws.length) : Fits As Ws Bs ∧ A.d = W.din ∧ W.dout = B.d := by
  induction As generalizing Ws Bs with
  | nil =>
    obtain rfl : Ws = [] := List.length_eq_zero_iff.mp h1.symm
    obtain rfl : Bs = [] := List.length_eq_zero_iff.mp h2
    exact ⟨trivial, h.1, h.2.1⟩
  | cons X As ih =>
    cases Ws with
    | nil => simp at h1
    | cons V Ws =>
      cases Bs with
      | nil => simp at h2
      | cons Y Bs =>
        obtain ⟨q1, q2, q3⟩ := h
        obtain ⟨r1, r2, r3⟩ := ih q3 (by simpa using h1) (by simpa using h2)
        exact ⟨⟨q1, q2, r1⟩, r2, r3⟩

theorem blocksL_returns (As : List (Ten ℂ)) : ∀ (Ws : List (Mpo ℂ)) (E : Env ℂ) {x y z : ℕ}, Linked x As E.u → Linked y As E.w → MLinked z Ws E.m →
    Fits As Ws As → ∃ ls, blocksL E As.reverse Ws.reverse As.reverse = .ok ls := by
  induction As using List.reverseRecOn with
  | nil => intro Ws E x y z _ _ _ _; exact ⟨[], by simp [blocksL]⟩
  | append_singleton As A ih =>
    intro Ws E x y z h1 h2 h3 hf
    have hl := (fits_length hf).1
    rcases List.eq_nil_or_concat Ws with rfl | ⟨Vs, W, rfl⟩
    · simp at hl
    rw [List.concat_eq_append] at *
    have hl' : As.length = Vs.length := by simpa using hl
    obtain ⟨g1, g2, g3⟩ := fits_snoc hf hl' hl'
    obtain ⟨a, a1, a2, a3⟩ := linked_append.mp h1
    obtain ⟨b, b1, b2, b3⟩ := linked_append.mp h2
    obtain ⟨c, c1, c2, c3⟩ := mlinked_append.mp h3
    have a3' : A.r = E.u := a3
    have b3' : A.r = E.w := b3
    have c3' : W.r = E.m := c3
    have ha : ∃ E', addLayerL E A W A = .ok E' ∧ E'.u = A.l ∧ E'.w = A.l ∧ E'.m = W.l := by
      unfold addLayerL; rw [if_pos ⟨a3'.symm, c3'.symm, g2, b3'.symm, g3⟩]; exact ⟨_, rfl, rfl, rfl, rfl⟩
    obtain ⟨E', e1, e2, e3, e4⟩ := ha
    obtain ⟨ls, hls⟩ := ih Vs E' (by rw [e2, a2]; exact a1) (by rw [e3, b2]; exact b1) (by rw [e4, c2]; exact c1) g1
    simp only [List.reverse_append, List.reverse_cons, List.reverse_nil, List.nil_append, List.singleton_append, blocksL]
    rw [e1]
    simp only [hls]
    exact ⟨_, rfl⟩

theorem fits_dims {As Bs : List (Ten ℂ)} {Ws : List (Mpo ℂ)} (h : Fits As Ws As) (hd : Bs.map Ten.d = As.map Ten.d) : Fits Bs Ws Bs := by
  induction As generalizing Bs Ws with
  | nil =>
    obtain rfl : Bs = [] := by simpa using hd
    exact h
  | cons A As ih =>
    cases Bs with
    | nil => simp at hd
    | cons B Bs =>
      cases Ws with
      | nil => simp [Fits] at h
      | cons W Ws =>
        simp only [List.map_cons, List.cons.injEq] at hd
        obtain ⟨q1, q2, q3⟩ := h
        exact ⟨by rw [hd.1]; exact q1, by rw [hd.1]; exact q2, ih q3 hd.2⟩

theorem fits_take {As Bs : List (Ten ℂ)} : ∀ {Ws : List (Mpo ℂ)} (k : ℕ), Fits As Ws Bs → Fits (As.take k) (Ws.take k) (Bs.take k) := by
  intro Ws k h
  induction k generalizing As Ws Bs with
  | zero => simp [Fits]
  | succ k ih =>
    cases As <;> cases Ws <;> cases Bs <;> simp_all [Fits]

theorem fits_drop {As Bs : List (Ten ℂ)} : ∀ {Ws : List (Mpo ℂ)} (k : ℕ), Fits As Ws Bs → Fits (As.drop k) (Ws.drop k) (Bs.drop k) := by
  intro Ws k h
  induction k generalizing As Ws Bs with
  | zero => simpa using h
  | succ k ih =>
    cases As <;> cases Ws <;> cases Bs <;> simp_all [Fits]

/-- **C110**: on a canonical object `getBlockHam` returns for every site at whose left bond the centre matrix is square. -/
theorem C110_returns (hO : O.Spec) (hw : m.WF l r) (hs : m.sth < 1e-15) (hc : m.Canonical) (hlen : mpo.length = m.N) (hf : BoundFit lb rb mpo l r)
    (hfit : Fits m.tensors mpo m.tensors) (hn : n < m.N) (hm : m.position O n = .ok m') (hsq : m'.mat.r = m'.mat.c) :
    ∃ L R lam, getBlockHam O m lb rb mpo n = .ok (m', L, R, lam) := by
  obtain ⟨-, -, M⟩ := position_moved hO (effSth_default hs) hw hm
  have hM : Moved m m' l r n := by simpa using M
  have hc' := canonical_position hO hw hs hc hm
  have hnt : n < m'.tensors.length := by rw [hM.wf.len, hM.N]; exact hn
  have hdrop : m'.tensors.drop n = m'.tensors[n] :: m'.tensors.drop (n + 1) := List.drop_eq_getElem_cons hnt
  have hright := hM.wf.right
  rw [hM.pos, hdrop] at hright
  obtain ⟨r1, r2⟩ := hright
  have hleft := hM.wf.left
  rw [hM.pos] at hleft
  have hro := hc'.right n m'.tensors[n] (List.getElem?_eq_getElem hnt) (by rw [hM.pos])
  have hmc : 0 < m'.mat.c := by
    by_contra h0
    have h1 := hc'.norm
    unfold normF at h1
    rw [Nat.eq_zero_of_not_pos h0] at h1
    simp at h1
  have hp : ∃ A lam z, prepareTensor O m'.tensors[n] 1 = .ok (A, lam, z) := by
    cases hq : prepareTensor O m'.tensors[n] 1 with
    | ok x => exact ⟨x.1, x.2.1, x.2.2, rfl⟩
    | error e =>
      have h0 := (prepareTensorR_err hO hq).2
      have h1 := hro 0 (by rw [r1]; exact hmc) 0 (by rw [r1]; exact hmc)
      rw [sum_eq_zero fun s hs => sum_eq_zero fun j hj => by
        rw [h0 0 (by rw [r1]; exact hmc) j (mem_range.mp hj) s (mem_range.mp hs), zero_mul]] at h1
      simp [delta] at h1
  obtain ⟨A, lam, z, hq⟩ := hp
  have hX := prepareTensorR_spec hO hq
  have hlen' : mpo.length = m'.tensors.length := by rw [hM.wf.len, hM.N, hlen]
  have hfit' : Fits m'.tensors mpo m'.tensors := fits_dims hfit hM.ds
  have hlA : Linked l (m'.tensors.take n ++ [A]) A.r := linked_append.mpr ⟨_, hleft, by rw [hX.l, r1, hsq], rfl⟩
  have hl1 : (m'.tensors.take n ++ [A]).length = n + 1 := by simp [hnt.le]
  have htk : m'.tensors.take (n + 1) = m'.tensors.take n ++ [m'.tensors[n]] := by
    rw [List.take_add_one, List.getElem?_eq_getElem hnt]; rfl
  have hmk : MLinked lb.m (mpo.take (n + 1) ++ mpo.drop (n + 1)) rb.m := by rw [List.take_append_drop]; exact hf.m
  obtain ⟨q, q1, q2⟩ := mlinked_append.mp hmk
  obtain ⟨ls, hls⟩ := blocksR_returns (m'.tensors.take n ++ [A]) mpo lb (x := A.r) (y := A.r) (z := q) (by rw [hf.lu]; exact hlA)
    (by rw [hf.lw]; exact hlA) (by rw [hl1]; exact q1) (by
      rw [hl1]
      refine fits_dims (fits_take (n + 1) hfit') ?_
      rw [htk, List.map_append, List.map_append, List.map_singleton, List.map_singleton, hX.d])
  obtain ⟨rs, hrs⟩ := blocksL_returns (m'.tensors.drop (n + 1)) (mpo.drop (n + 1)) rb (by rw [hf.ru]; exact r2) (by rw [hf.rw]; exact r2) q2
    (fits_drop (n + 1) hfit')
  refine ⟨lastBlock lb ls, lastBlock rb rs, lam, ?_⟩
  unfold getBlockHam
  rw [hm]
  have hg : getT m'.tensors n = .ok m'.tensors[n] := by unfold getT; rw [List.getElem?_eq_getElem hnt]
  simp only [hg, hq]
  rw [if_neg (by rw [hlen, hM.N]; omega), hls, show mpo.take m'.N = mpo by rw [← hM.wf.len, ← hlen', List.take_length], hrs]

/-! ## The centre matrix matters -/

/-- The state `3/5|00>+4/5|11>` with the centre matrix between the sites. -/
def twoSiteMPS : MPS where
  N := 2
  Dmax := 2
  obc := true
  sth := 1e-16
  rth := 1e-16
  tensors := [⟨1, 2, 2, fun _ j s => delta ℂ j s⟩, ⟨2, 1, 2, fun i _ s => delta ℂ i s⟩]
  mat := ⟨2, 2, fun i j => if i = j then (if i = 0 then 3 / 5 else 4 / 5) else 0⟩
  conn := eye 1
  pos := 1
  Z := 1

/-- The operator `sigma_z` on the first site. -/
def zFirst : List (Mpo ℂ) :=
  [⟨1, 1, 2, 2, fun _ _ s s' => if s = s' then (if s = 0 then 1 else -1) else 0⟩, ⟨1, 1, 2, 2, fun _ _ s s' => delta ℂ s s'⟩]

theorem twoSite_wf : twoSiteMPS.WF 1 1 := by
  refine ⟨rfl, by simp [twoSiteMPS], ?_, ?_⟩ <;> simp [twoSiteMPS, Linked]

theorem twoSite_canonical : twoSiteMPS.Canonical := by
  refine ⟨fun x t hx hp => ?_, fun x t hx hp => ?_, ?_⟩
  · obtain rfl : x = 0 := by simp only [twoSiteMPS] at hp; omega
    simp only [twoSiteMPS, List.getElem?_cons_zero, Option.some.injEq] at hx
    subst hx
    intro j hj j' hj'
    simp only at hj hj' ⊢
    interval_cases j <;> interval_cases j' <;> simp [delta]
  · simp only [twoSiteMPS] at hp hx
    obtain rfl : x = 1 := by
      rcases x with _ | _ | x
      · omega
      · rfl
      · simp at hx
    simp only [List.getElem?_cons_succ, List.getElem?_cons_zero, Option.some.injEq] at hx
    subst hx
    intro j hj j' hj'
    simp only at hj hj' ⊢
    interval_cases j <;> interval_cases j' <;> simp [delta]
  · unfold normF
    rw [Real.sqrt_eq_one]
    simp [twoSiteMPS, sum_range_succ, Complex.normSq_apply]
    norm_num

theorem twoSite_fit : BoundFit oneEnv oneEnv zFirst 1 1 := ⟨rfl, rfl, rfl, rfl, by simp [oneEnv, zFirst, MLinked]⟩

theorem twoSite_fits : Fits twoSiteMPS.tensors zFirst twoSiteMPS.tensors := by simp [twoSiteMPS, zFirst, Fits]

theorem twoSite_energy : energy oneEnv zFirst oneEnv twoSiteMPS.ds twoSiteMPS.amp = -7 / 25 := by
  have h : nsq twoSiteMPS.ds 1 1 twoSiteMPS.amp = 1 := by rw [canonical_nsq twoSite_wf twoSite_canonical]; simp [twoSiteMPS]
  unfold energy
  rw [show oneEnv.u = 1 from rfl, h]
  simp [hform, helem, twoSiteMPS, MPS.ds, MPS.amp, sumCfg, zFirst, oneEnv, mchain, chain, sum_range_succ, delta]
  norm_num

theorem twoSite_chain : hform oneEnv zFirst oneEnv twoSiteMPS.ds (chain twoSiteMPS.tensors) (chain twoSiteMPS.tensors) = 0 := by
  simp [hform, helem, twoSiteMPS, MPS.ds, sumCfg, zFirst, oneEnv, mchain, chain, sum_range_succ, delta]

/-- **C110 is violated**: on the state `3/5|00>+4/5|11>` with the centre matrix between the two sites the blocks for the second site give
the energy 0 instead of `-7/25`, whatever the factorisation routines return. -/
theorem C110_violated_energy (hO : O.Spec) : ∃ (m m' : MPS) (lb rb L R : Env ℂ) (mpo : List (Mpo ℂ)) (lam : Mat ℂ), m.WF 1 1 ∧ m.Canonical ∧
    m.sth < 1e-15 ∧ m.Z ≠ 0 ∧ mpo.length = m.N ∧ BoundFit lb rb mpo 1 1 ∧ getBlockHam O m lb rb mpo 1 = .ok (m', L, R, lam) ∧
    energy lb mpo rb m.ds m.amp = -7 / 25 ∧ bondForm L R lam lam = 0 := by
  have hp : twoSiteMPS.position O (1 : ℕ) = .ok twoSiteMPS := by simp [MPS.position, twoSiteMPS]
  have hs : twoSiteMPS.sth < 1e-15 := by simp only [twoSiteMPS]; norm_num
  obtain ⟨L, R, lam, h⟩ : ∃ L R lam, getBlockHam O twoSiteMPS oneEnv oneEnv zFirst 1 = .ok (twoSiteMPS, L, R, lam) := by
    exact C110_returns hO twoSite_wf hs twoSite_canonical rfl twoSite_fit twoSite_fits (by simp [twoSiteMPS]) hp rfl
  obtain ⟨-, h2⟩ := C110_without_centre hO twoSite_wf hs twoSite_canonical rfl twoSite_fit h
  refine ⟨twoSiteMPS, twoSiteMPS, oneEnv, oneEnv, L, R, zFirst, lam, twoSite_wf, twoSite_canonical, hs, by simp [twoSiteMPS], rfl, twoSite_fit, h, twoSite_energy, ?_⟩
  rw [h2]
  unfold energy
  rw [twoSite_chain, zero_div]

/-- On the first site of the same state the energy is right. -/
example : ∃ (O : LinAlg) (m' : MPS) (L R : Env ℂ) (lam : Mat ℂ), O.Spec ∧
    getBlockHam O twoSiteMPS oneEnv oneEnv zFirst 0 = .ok (m', L, R, lam) ∧ bondForm L R lam lam = -7 / 25 := by
  obtain ⟨O, hO⟩ := exists_linAlg
  have hs : twoSiteMPS.sth < 1e-15 := by simp only [twoSiteMPS]; norm_num
  have hne : ∃ s i j, Cfg twoSiteMPS.tensors s ∧ i < 1 ∧ twoSiteMPS.amp s i j ≠ 0 :=
    ⟨[0, 0], 0, 0, conf_cfg (List.Forall₂.cons (by norm_num) (List.Forall₂.cons (by norm_num) List.Forall₂.nil)), one_pos, by
      simp [twoSiteMPS, MPS.amp, chain, delta]⟩
  obtain ⟨m', hp⟩ := position_ok (b := 0) hO twoSite_wf hs hne (Nat.zero_le _)
  have hp' : twoSiteMPS.position O ((0 : ℕ) : ℤ) = .ok m' := by simpa using hp
  obtain ⟨-, -, M⟩ := position_moved hO (effSth_default hs) twoSite_wf hp'
  have hr : m'.mat.r = 1 := by
    have := M.wf.left
    rw [M.pos] at this
    simpa [Linked, eq_comm] using this
  have hcc : m'.mat.c = 1 := by
    have h1 := M.bond 0 (Nat.zero_le _)
    have h3 : 0 < m'.mat.c := by
      by_contra h0
      have h4 := (canonical_position hO twoSite_wf hs twoSite_canonical hp').norm
      unfold normF at h4
      rw [Nat.eq_zero_of_not_pos h0] at h4
      simp at h4
    have h5 : m'.bondDim 0 = max m'.mat.r m'.mat.c := by unfold MPS.bondDim; rw [M.pos]; simp
    have h6 : twoSiteMPS.bondDim 0 = 1 := by simp [MPS.bondDim, twoSiteMPS]
    rw [h5, h6] at h1
    have := le_max_right m'.mat.r m'.mat.c
    omega
  obtain ⟨L, R, lam, h⟩ := C110_returns hO twoSite_wf hs twoSite_canonical rfl twoSite_fit twoSite_fits (by simp [twoSiteMPS]) hp' (hr.trans hcc.symm)
  obtain ⟨-, h2⟩ := C110_first_partial hO twoSite_wf hs twoSite_canonical (by simp [twoSiteMPS]) rfl twoSite_fit h
  exact ⟨O, m', L, R, lam, hO, h, by rw [h2, twoSite_energy]⟩

end

end PyTeN
