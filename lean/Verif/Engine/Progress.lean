import Verif.Engine.Shape
import Verif.Engine.Sim

/-! # Progress: engine moves and DMRG sweeps do not fail on consistent input -/

namespace PyTeN
open Finset

noncomputable section

/-- Spec: the MPO fits the chain and the boundaries. -/
structure Eng.Fit (e : Eng) : Prop where
  lb : e.lb.u = e.lb.w
  rb : e.rb.u = e.rb.w
  mlink : MLinked e.lb.m e.mpo e.rb.m
  ins : e.mpo.map Mpo.din = e.mps.ds
  outs : e.mpo.map Mpo.dout = e.mps.ds

theorem mlinked_rdim {K : Type*} {l r r' : ℕ} {Ws : List (Mpo K)} (h : MLinked l Ws r) (h' : MLinked l Ws r') : r = r' := by
  induction Ws generalizing l with
  | nil => exact h.symm.trans h'
  | cons W Ws ih => exact ih h.2 h'.2

theorem linked_rdim_unique {l r r' : ℕ} {As : List (Ten ℂ)} (h : Linked l As r) (h' : Linked l As r') : r = r' := by
  rw [← linked_rdim h, ← linked_rdim h']

theorem linked_unique_l {l l' r r' : ℕ} {As : List (Ten ℂ)} (h : Linked l As r) (h' : Linked l' As r')
    (hr : r = r') : l = l' := by
  cases As with
  | nil => exact h.trans (hr.trans h'.symm)
  | cons A As => rw [← h.1, ← h'.1]

theorem mlinked_unique_l {K : Type*} {l l' r r' : ℕ} {Ws : List (Mpo K)} (h : MLinked l Ws r) (h' : MLinked l' Ws r')
    (hr : r = r') : l = l' := by
  cases Ws with
  | nil => exact h.trans (hr.trans h'.symm)
  | cons A As => rw [← h.1, ← h'.1]

theorem fit_site {e : Eng} (hf : e.Fit) {m : MPS} (hds : m.ds = e.mps.ds) {n : ℕ} {A : Ten ℂ} {W : Mpo ℂ}
    (hA : m.tensors[n]? = some A) (hW : e.mpo[n]? = some W) : A.d = W.din ∧ W.dout = A.d := by
  have h1 : m.ds[n]? = some A.d := by simp [MPS.ds, hA]
  have h2 : e.mps.ds[n]? = some W.din := by rw [← hf.ins]; simp [hW]
  have h3 : e.mps.ds[n]? = some W.dout := by rw [← hf.outs]; simp [hW]
  rw [hds] at h1
  rw [h1] at h2 h3
  simp only [Option.some.injEq] at h2 h3
  exact ⟨h2, h3.symm⟩

theorem mlinked_take {K : Type*} {l r : ℕ} {Ws : List (Mpo K)} (h : MLinked l Ws r) (n : ℕ) :
    ∃ q, MLinked l (Ws.take n) q ∧ MLinked q (Ws.drop n) r := by
  rw [← List.take_append_drop n Ws, mlinked_append] at h
  exact h

theorem linked_take {l r : ℕ} {As : List (Ten ℂ)} (h : Linked l As r) (n : ℕ) :
    ∃ q, Linked l (As.take n) q ∧ Linked q (As.drop n) r := by
  rw [← List.take_append_drop n As, linked_append] at h
  exact h

theorem getItem_ok {m : MPS} {n : ℕ} {t : Ten ℂ} (h : m.tensors[n]? = some t) : m.getItem n = .ok t := by
  have hn : n < m.tensors.length := (List.getElem?_eq_some_iff.mp h).1
  unfold MPS.getItem getZ pyIdx
  rw [if_pos ⟨by omega, by rw [abs_of_nonneg (by omega)]; omega⟩, if_pos (by omega), if_pos (by omega)]
  simp [getT, h]

theorem getE_some {α : Type*} {l : List α} {n : ℕ} {x : α} (h : l[n]? = some x) : getE l n = .ok x := by
  simp [getE, h]

/-- The right-moving loop succeeds on a linked chain. -/
theorem growL_ok {e : Eng} (hf : e.Fit) {m : MPS} (hds : m.ds = e.mps.ds) (hmlen : e.mpo.length = m.tensors.length) :
    ∀ (k p : ℕ) (L : List (Env ℂ)), L.length = m.tensors.length + 1 → p + k ≤ m.tensors.length →
    (∀ E, L[p]? = some E → IsL e.lb (m.tensors.take p) (e.mpo.take p) (m.tensors.take p) E) →
    (∃ x, Linked e.lb.u (m.tensors.take (p + k)) x) → ∃ L', growL m e.mpo k p L = .ok L' := by
  intro k
  induction k with
  | zero => intro p L _ _ _ _; exact ⟨L, rfl⟩
  | succ k ih =>
    intro p L hL hp hv ⟨x, hx⟩
    obtain ⟨E, hE⟩ : ∃ E, L[p]? = some E := ⟨L[p], List.getElem?_eq_getElem (by omega)⟩
    obtain ⟨A, hA⟩ : ∃ A, m.tensors[p]? = some A := ⟨_, List.getElem?_eq_getElem (by omega)⟩
    obtain ⟨W, hW⟩ : ∃ W, e.mpo[p]? = some W := ⟨_, List.getElem?_eq_getElem (by omega)⟩
    have i1 := hv E hE
    obtain ⟨d1, d2⟩ := fit_site hf hds hA hW
    obtain ⟨q, q1, q2⟩ := linked_take hx (p + 1)
    rw [List.take_take, show min (p + 1) (p + (k + 1)) = p + 1 by omega, take_succ_getElem? hA, linked_append] at q1
    obtain ⟨y, y1, y2, y3⟩ := q1
    obtain ⟨u, u1, u2⟩ := mlinked_take hf.mlink (p + 1)
    rw [take_succ_getElem? hW, mlinked_append] at u1
    obtain ⟨v, v1, v2, v3⟩ := u1
    have hEu : E.u = A.l := by rw [y2]; exact linked_rdim_unique i1.u y1
    have hEw : E.w = A.l := by rw [y2]; exact linked_rdim_unique i1.w (hf.lb ▸ y1)
    have hEm : E.m = W.l := by rw [v2]; exact mlinked_rdim i1.m v1
    have hadd : ∃ E', addLayerR E A W A = .ok E' := by
      unfold addLayerR
      rw [if_pos ⟨hEu, hEm, d1, hEw, d2⟩]
      exact ⟨_, rfl⟩
    obtain ⟨E', hE'⟩ := hadd
    have i2 := isL_snoc i1 hE'
    rw [← take_succ_getElem? hA, ← take_succ_getElem? hW] at i2
    have hset : setE L (p + 1) E' = .ok (L.set (p + 1) E') := by
      unfold setE; rw [if_pos (by omega)]
    simp only [growL, getE_some hE, getItem_ok hA, getE_some hW, hE', hset]
    refine ih (p + 1) _ (by simpa using hL) (by omega) ?_ ⟨x, by rwa [show p + 1 + k = p + (k + 1) by omega]⟩
    intro E0 h0
    rw [List.getElem?_set_self (by omega)] at h0
    simp only [Option.some.injEq] at h0
    subst h0; exact i2

/-- The left-moving loop succeeds on a linked chain. -/
theorem growR_ok {e : Eng} (hf : e.Fit) {m : MPS} (hN : m.tensors.length = m.N) (hds : m.ds = e.mps.ds)
    (hmlen : e.mpo.length = m.tensors.length) :
    ∀ (k p : ℕ) (R : List (Env ℂ)), R.length = m.N + 1 → k ≤ p → p ≤ m.N →
    (∀ E, R[m.N - p]? = some E → IsR e.rb (m.tensors.drop p) (e.mpo.drop p) (m.tensors.drop p) E) →
    (∃ x, Linked x (m.tensors.drop (p - k)) e.rb.u) → ∃ R', growR m e.mpo k p R = .ok R' := by
  intro k
  induction k with
  | zero => intro p R _ _ _ _ _; exact ⟨R, rfl⟩
  | succ k ih =>
    intro p R hR hk hp hv ⟨x, hx⟩
    obtain ⟨E, hE⟩ : ∃ E, R[m.N - p]? = some E := ⟨_, List.getElem?_eq_getElem (by omega)⟩
    obtain ⟨A, hA⟩ : ∃ A, m.tensors[p - 1]? = some A := ⟨_, List.getElem?_eq_getElem (by omega)⟩
    obtain ⟨W, hW⟩ : ∃ W, e.mpo[p - 1]? = some W := ⟨_, List.getElem?_eq_getElem (by omega)⟩
    have i1 := hv E hE
    obtain ⟨d1, d2⟩ := fit_site hf hds hA hW
    have dA := drop_getElem? hA
    have dW := drop_getElem? hW
    rw [show p - 1 + 1 = p by omega] at dA dW
    have hy : ∃ y, Linked y (m.tensors.drop (p - 1)) e.rb.u := by
      obtain ⟨q, q1, q2⟩ := linked_take hx (p - 1 - (p - (k + 1)))
      rw [List.drop_drop, show p - (k + 1) + (p - 1 - (p - (k + 1))) = p - 1 by omega] at q2
      exact ⟨q, q2⟩
    obtain ⟨y, y1⟩ := hy
    rw [dA] at y1
    obtain ⟨u, u1, u2⟩ := mlinked_take hf.mlink (p - 1)
    rw [dW] at u2
    have hEu : E.u = A.r := linked_unique_l i1.u y1.2 rfl
    have hEw : E.w = A.r := linked_unique_l i1.w y1.2 hf.rb.symm
    have hEm : E.m = W.r := mlinked_unique_l i1.m u2.2 rfl
    have hadd : ∃ E', addLayerL E A W A = .ok E' := by
      unfold addLayerL
      rw [if_pos ⟨hEu, hEm, d1, hEw, d2⟩]
      exact ⟨_, rfl⟩
    obtain ⟨E', hE'⟩ := hadd
    have i2 := isR_cons i1 hE'
    rw [← dA, ← dW] at i2
    have hset : setE R (m.N - (p - 1)) E' = .ok (R.set (m.N - (p - 1)) E') := by
      unfold setE; rw [if_pos (by omega)]
    have hg : m.getItem ((p : ℤ) - 1) = .ok A := by
      rw [show (p : ℤ) - 1 = ((p - 1 : ℕ) : ℤ) by omega]; exact getItem_ok hA
    simp only [growR, getE_some hE, hg, getE_some hW, hE', hset]
    refine ih (p - 1) _ (by simpa using hR) (by omega) (by omega) ?_ ⟨x, by rwa [show p - 1 - k = p - (k + 1) by omega]⟩
    intro E0 h0
    rw [List.getElem?_set_self (by omega)] at h0
    simp only [Option.some.injEq] at h0
    subst h0; exact i2

/-- A move of the engine succeeds if the represented state does not vanish. -/
theorem eng_position_ok {O : LinAlg} (hO : O.Spec) {e : Eng} {p a b : ℕ} (hw : e.mps.WF e.lb.u e.rb.u)
    (hs : e.mps.sth < 1e-15) (hf : e.Fit) (hv : e.Val a b) (hp : p ≤ e.mps.N)
    (ha : e.mps.pos < p → e.mps.pos ≤ a) (hb : p < e.mps.pos → b ≤ e.mps.pos)
    (hne : ∃ s i j, Cfg e.mps.tensors s ∧ i < e.lb.u ∧ e.mps.amp s i j ≠ 0) :
    ∃ e', e.position O p = .ok e' := by
  obtain ⟨m, hm⟩ := position_ok hO hw hs hne hp
  obtain ⟨-, -, M⟩ := position_moved hO (effSth_default hs) hw hm
  rw [Int.toNat_natCast] at M
  have hlen : m.tensors.length = e.mps.N := by rw [M.wf.len, M.N]
  have hpos := hw.pos_le
  unfold Eng.position
  rw [if_neg (by omega), if_neg (by omega)]
  by_cases h : (p : ℤ) ≥ e.mps.pos
  · rw [if_pos h]
    by_cases h0 : p = e.mps.pos
    · have : p - e.mps.pos = 0 := by omega
      simp only [hm, Int.toNat_natCast, this, growL]
      exact ⟨_, rfl⟩
    obtain ⟨L, hL⟩ := growL_ok hf M.ds (by rw [hv.lenW, hlen]) (p - e.mps.pos) e.mps.pos e.L (by rw [hv.lenL, hlen])
      (by omega) (by
        intro E hE
        rw [take_congr_getElem? (l' := m.tensors) (l := e.mps.tensors) fun x hx => M.same x (by omega)]
        rcases Nat.eq_or_lt_of_le (show e.mps.pos ≤ p by omega) with h1 | h1
        · omega
        · exact hv.left _ (ha h1) E hE) ⟨_, by
        rw [show e.mps.pos + (p - e.mps.pos) = m.pos by rw [M.pos]; omega]; exact M.wf.left⟩
    simp only [hm, Int.toNat_natCast, hL]
    exact ⟨_, rfl⟩
  · rw [if_neg h]
    obtain ⟨R, hR⟩ := growR_ok hf M.wf.len M.ds (by rw [hv.lenW, hlen]) (e.mps.pos - p) e.mps.pos e.R (by rw [hv.lenR, M.N])
      (by omega) (by rw [M.N]; exact hpos) (by
        intro E hE
        rw [drop_congr_getElem? (l' := m.tensors) (l := e.mps.tensors) fun x hx => M.same x (by omega)]
        rw [M.N] at hE
        exact hv.right _ (hb (by omega)) hpos E hE) ⟨_, by
        rw [show e.mps.pos - (e.mps.pos - p) = m.pos by rw [M.pos]; omega]; exact M.wf.right⟩
    simp only [hm, Int.toNat_natCast, hR]
    exact ⟨_, rfl⟩

/-- Spec: the tensor has a non-zero entry. -/
def Ten.NonZero (t : Ten ℂ) : Prop := ∃ i < t.l, ∃ j < t.r, ∃ s < t.d, t.v i j s ≠ 0

theorem sumCfg_ne_zero {ds : List ℕ} {f : List ℕ → ℂ} (h : sumCfg ds f ≠ 0) :
    ∃ s, List.Forall₂ (fun d x => x < d) ds s ∧ f s ≠ 0 := by
  by_contra hc
  push Not at hc
  apply h
  rw [sumCfg_congr (g := fun _ => 0) hc, sumCfg_zero]

/-- A non-zero tensor between orthonormal tensors gives a non-zero state. -/
theorem chain_ne_zero {l r : ℕ} {A B : List (Ten ℂ)} {X : Ten ℂ} (hA : Linked l A X.l) (hB : Linked X.r B r)
    (hl : ∀ t ∈ A, LeftOrth t) (hr : ∀ t ∈ B, RightOrth t) (hX : X.NonZero) :
    ∃ s i j, Cfg (A ++ X :: B) s ∧ i < l ∧ j < r ∧ chain (A ++ X :: B) s i j ≠ 0 := by
  obtain ⟨i0, hi0, j0, hj0, x, hx, hne⟩ := hX
  have hc := collapse hA hB hl hr (fun i j => X.v i j x) (fun i j => X.v i j x)
  have hpos : ∑ k ∈ range X.l, ∑ k' ∈ range X.r, star (X.v k k' x) * X.v k k' x ≠ 0 := by
    have e : ∀ k k', star (X.v k k' x) * X.v k k' x = ((‖X.v k k' x‖ ^ 2 : ℝ) : ℂ) := by
      intro k k'
      rw [mul_comm]
      have := Complex.mul_conj' (X.v k k' x)
      push_cast
      exact this
    simp only [e]
    rw [← Complex.ofReal_zero]
    simp only [← Complex.ofReal_sum]
    rw [Complex.ofReal_inj.ne]
    intro h0
    have h1 := (Finset.sum_eq_zero_iff_of_nonneg (fun k _ => Finset.sum_nonneg fun k' _ => sq_nonneg _)).mp h0 i0
      (Finset.mem_range.mpr hi0)
    have h2 := (Finset.sum_eq_zero_iff_of_nonneg (fun k' _ => sq_nonneg _)).mp h1 j0 (Finset.mem_range.mpr hj0)
    exact hne (norm_eq_zero.mp (pow_eq_zero_iff (by norm_num) |>.mp h2))
  rw [← hc] at hpos
  obtain ⟨sA, hsA, h1⟩ := sumCfg_ne_zero hpos
  obtain ⟨sB, hsB, h2⟩ := sumCfg_ne_zero h1
  obtain ⟨i, hi, h3⟩ := Finset.exists_ne_zero_of_sum_ne_zero h2
  obtain ⟨j, hj, h4⟩ := Finset.exists_ne_zero_of_sum_ne_zero h3
  have h5 := right_ne_zero_of_mul h4
  have hcA := cfg_iff_map.mpr hsA
  refine ⟨sA ++ x :: sB, i, j, cfg_append hcA (List.Forall₂.cons hx (cfg_iff_map.mpr hsB)), Finset.mem_range.mp hi,
    Finset.mem_range.mp hj, ?_⟩
  rw [chain_append hA sA _ (cfg_length hcA) (Finset.mem_range.mp hi)]
  simp only [chain, Finset.mul_sum, ← mul_assoc]
  exact h5

theorem split_eyeNormed {l D : ℕ} {A : List (Ten ℂ)} (hA : Linked l A D) (B : List (Ten ℂ)) {sA : List ℕ}
    (hs : sA.length = A.length) (sB : List ℕ) {i : ℕ} (hi : i < l) (j : ℕ) :
    split A (eyeNormed D) B sA sB i j = ((Real.sqrt D : ℂ))⁻¹ * chain (A ++ B) (sA ++ sB) i j := by
  rw [chain_append hA sA sB hs hi, split, Finset.mul_sum]
  refine Finset.sum_congr rfl fun k hk => ?_
  rw [Finset.sum_eq_single k]
  · simp only [eyeNormed, delta, if_true]; ring
  · intro k' _ hk'
    simp [eyeNormed, delta, Ne.symm hk']
  · intro h; exact absurd hk h

/-- `tensor(n,clear=True)` succeeds at the centre. -/
theorem tensor_ok {m : MPS} {l r n : ℕ} (hw : m.WF l r) (hp : m.pos = n ∨ m.pos = n + 1)
    {t : Ten ℂ} (ht : m.tensors[n]? = some t) :
    ∃ T, m.tensor n true = .ok (T, { m with mat := eyeNormed (if m.pos = n then t.l else t.r) }) ∧
      (m.mat.r = m.mat.c → T.shape = t.shape) := by
  have hlt : n < m.tensors.length := (List.getElem?_eq_some_iff.mp ht).1
  have hz : getZ m.tensors (n : ℤ) = .ok t := by
    rw [getZ_nat hlt, (List.getElem?_eq_some_iff.mp ht).2]
  unfold MPS.tensor
  rcases hp with hp | hp
  · have hr := hw.right
    rw [hp, drop_getElem? ht] at hr
    rw [if_pos (by omega), if_pos hp, hz]
    have h := absorbL_ok hr.1.symm
    refine ⟨_, by simp only [h, if_true], fun hsq => absorbL_shape h hsq⟩
  · have hl := hw.left
    rw [hp, take_succ_getElem? ht, linked_append] at hl
    obtain ⟨q, q1, q2, q3⟩ := hl
    have q3 : t.r = m.mat.r := q3
    rw [if_neg (by omega), if_pos (by omega), if_neg (by omega), hz]
    have h := absorbR_ok q3
    refine ⟨_, by simp only [h, if_true], fun hsq => absorbR_shape h hsq⟩

/-- Contract of the eigensolvers used for progress only: on arguments of matching shape and a non-zero initial
tensor (and possibly under a further condition `Q` on the arguments) they return a non-zero tensor (an eigenvector). -/
def Solve.Live (solve : Solve) (sv : Solver) (Q : Env ℂ → Mpo ℂ → Env ℂ → Ten ℂ → Prop := fun _ _ _ _ => True) : Prop :=
  ∀ L W R T, L.u = T.l → L.w = T.l → L.m = W.l → R.u = T.r → R.w = T.r → R.m = W.r → T.d = W.din → W.dout = T.d →
    T.NonZero → Q L W R T → ∃ en X, solve sv L W R T = .ok (en, X) ∧ X.NonZero

/-- Spec: the condition `Q` holds for every site of every chain with its environments, for the given MPO and boundaries. -/
def Grants (lb rb : Env ℂ) (mpo : List (Mpo ℂ)) (Q : Env ℂ → Mpo ℂ → Env ℂ → Ten ℂ → Prop) : Prop :=
  ∀ (ts : List (Ten ℂ)) (n : ℕ) (L : Env ℂ) (W : Mpo ℂ) (R : Env ℂ) (T : Ten ℂ), n < ts.length → mpo[n]? = some W →
    IsL lb (ts.take n) (mpo.take n) (ts.take n) L → IsR rb (ts.drop (n + 1)) (mpo.drop (n + 1)) (ts.drop (n + 1)) R →
    Linked lb.u (ts.set n T) rb.u → (ts.set n T).map Ten.d = mpo.map Mpo.din → Q L W R T

/-- Spec: an engine on which a DMRG step cannot fail. -/
structure Eng.Live (e : Eng) : Prop where
  wf : e.mps.WF e.lb.u e.rb.u
  sq : e.mps.mat.r = e.mps.mat.c
  sth : e.mps.sth < 1e-15
  fit : e.Fit
  adm : ∀ t ∈ e.mps.tensors, t.Adm
  ne : ∃ s i j, Cfg e.mps.tensors s ∧ i < e.lb.u ∧ e.mps.amp s i j ≠ 0

theorem getElem?_of_lt {α : Type*} {l : List α} {n : ℕ} (h : n < l.length) : ∃ x, l[n]? = some x :=
  ⟨l[n], List.getElem?_eq_getElem h⟩

/-- One iteration of a sweep succeeds and can be continued. -/
theorem step_ok {O : LinAlg} (hO : O.Spec) {solve : Solve} (hsv : solve.Shape) {sv : Solver} (hso : sv ≠ .other)
    {Q : Env ℂ → Mpo ℂ → Env ℂ → Ten ℂ → Prop} (hlv : solve.Live sv Q) {e : Eng} {p n a b : ℕ} (hQ : Grants e.lb e.rb e.mpo Q) (hL : e.Live) (hv : e.Val a b) (ho : e.Orth a b)
    (hpn : p = n ∨ p = n + 1) (hn : n < e.mps.N)
    (c1 : e.mps.pos < p → e.mps.pos ≤ a ∧ b ≤ n + 1) (c2 : p < e.mps.pos → b ≤ e.mps.pos ∧ n ≤ a)
    (c3 : p = e.mps.pos → n ≤ a ∧ b ≤ n + 1) :
    ∃ e' c, e.step O solve sv p n = .ok (e', c) ∧ e'.Live := by
  obtain ⟨hw, hsq, hs, hf, had, hne⟩ := hL
  obtain ⟨e1, he1⟩ := eng_position_ok (p := p) hO hw hs hf hv (by omega) (fun h => (c1 h).1) (fun h => (c2 h).1) hne
  obtain ⟨-, M, g1, g2, g3, V, Or⟩ := eng_move hO (Or.inl hw) hs hv he1 hpn c1 c2 c3
  have Or := Or ho
  obtain ⟨sh, sq1⟩ := position_shape hO hs (eng_mps_position he1) had hsq
  have had1 := adm_shape sh had
  have hlen1 : e1.mps.tensors.length = e1.mps.N := M.wf.len
  have hn1 : n < e1.mps.N := by rw [M.N]; exact hn
  obtain ⟨t, ht⟩ := getElem?_of_lt (l := e1.mps.tensors) (n := n) (by omega)
  obtain ⟨L, hL⟩ := getElem?_of_lt (l := e1.L) (n := n) (by rw [V.lenL]; omega)
  obtain ⟨R, hR⟩ := getElem?_of_lt (l := e1.R) (n := e1.mps.N - 1 - n) (by rw [V.lenR]; omega)
  obtain ⟨W, hW⟩ := getElem?_of_lt (l := e1.mpo) (n := n) (by rw [V.lenW]; omega)
  have iL := V.left n le_rfl L hL
  have iR := V.right (n + 1) le_rfl (by omega) R (by rw [← hR]; congr 1; omega)
  have hpp : e1.mps.pos = n ∨ e1.mps.pos = n + 1 := by rw [M.pos]; exact hpn
  obtain ⟨T, hT, hTs⟩ := tensor_ok M.wf hpp ht
  have hTs := hTs sq1
  obtain ⟨-, -, -, t4, t5⟩ := tensor_clear M.wf hT
  have hlt : n < e1.mps.tensors.length := by omega
  have hds : e1.mps.ds = e.mps.ds := M.ds
  -- shapes
  obtain ⟨d1, d2⟩ := fit_site hf hds ht (g1 ▸ hW)
  have hlk := t4
  rw [set_take_drop hlt, linked_append] at hlk
  obtain ⟨q, q1, q2, q3⟩ := hlk
  simp only [Ten.shape, Prod.mk.injEq] at hTs
  obtain ⟨s1, s2, s3⟩ := hTs
  rw [g1, g2] at iL
  rw [g1, g3] at iR
  have hLu : L.u = T.l := by rw [q2]; exact linked_rdim_unique iL.u q1
  have hLw : L.w = T.l := by rw [q2]; exact linked_rdim_unique iL.w (hf.lb ▸ q1)
  have hRu : R.u = T.r := linked_unique_l iR.u q3 rfl
  have hRw : R.w = T.r := linked_unique_l iR.w q3 hf.rb.symm
  obtain ⟨u, u1, u2⟩ := mlinked_take hf.mlink n
  rw [drop_getElem? (g1 ▸ hW)] at u2
  have hLm : L.m = W.l := by rw [u2.1]; exact mlinked_rdim iL.m u1
  have hRm : R.m = W.r := mlinked_unique_l iR.m u2.2 rfl
  -- the initial tensor is not zero
  obtain ⟨s, i, j, hc, hi, hamp⟩ := hne
  have hmap : e1.mps.tensors.map Ten.d = e.mps.tensors.map Ten.d := hds
  have hc1 : Cfg e1.mps.tensors s := by rw [cfg_iff_map, hmap]; exact cfg_iff_map.mp hc
  have hch : e1.mps.Z * chain (e1.mps.tensors.set n T) s i j ≠ 0 := by
    rw [← t5 s (by rw [cfg_length hc1, hlen1]) i hi j, M.amp s hc i hi j]; exact hamp
  have hTn : T.NonZero := by
    by_contra h0
    simp only [Ten.NonZero] at h0
    push Not at h0
    apply right_ne_zero_of_mul hch
    rw [set_take_drop hlt] at t4 ⊢
    refine chain_zero_of_site _ _ _ t4 (fun i hi j hj s hs => h0 i hi j hj s hs) s ?_ i hi j
    rw [← set_take_drop hlt, cfg_iff_map, List.map_set, s3, ← List.map_set]
    rw [show e1.mps.tensors.set n t = e1.mps.tensors from by
      rw [← (List.getElem?_eq_some_iff.mp ht).2]; exact List.set_getElem_self hlt]
    exact cfg_iff_map.mp hc1
  have hTds : (e1.mps.tensors.set n T).map Ten.d = e1.mps.ds := by
    rw [List.map_set, s3, MPS.ds, ← (List.getElem?_eq_some_iff.mp ht).2, ← List.map_set, List.set_getElem_self]
  obtain ⟨en, X, hX, hXn⟩ := hlv L W R T hLu hLw hLm hRu hRw hRm (by rw [s3]; exact d1) (by rw [s3]; exact d2) hTn
    (hQ e1.mps.tensors n L W R T hlt (g1 ▸ hW) iL iR t4 (by rw [hTds, hds, hf.ins]))
  obtain ⟨x1, x2, x3⟩ := hsv _ _ _ _ _ _ _ hX
  have xs : X.shape = t.shape := by simp only [Ten.shape, x1, x2, x3, hLw, hRw, s1, s2, d2]
  have hset : ∀ D, MPS.setItem { e1.mps with mat := eyeNormed D } (n : ℤ) X
      = .ok { e1.mps with mat := eyeNormed D, tensors := e1.mps.tensors.set n X } := by
    intro D
    unfold MPS.setItem pyIdx
    simp only
    rw [if_pos ⟨by omega, by rw [abs_of_nonneg (by omega)]; omega⟩, if_pos (by omega), if_pos (by omega)]
    simp
  have hopt : e1.optimize solve sv n = .ok ({ e1 with mps := { e1.mps with mat := eyeNormed (if e1.mps.pos = n then t.l else t.r) } },
      ⟨n, e1.mps, L, W, R, T, en, X⟩) := by
    unfold Eng.optimize
    rw [if_neg hso]
    simp only [getE_some hL, getE_some hW, getE_some hR, hT, hX]
  have hstep : e.step O solve sv p n = .ok ({ e1 with mps := { e1.mps with
      mat := eyeNormed (if e1.mps.pos = n then t.l else t.r), tensors := e1.mps.tensors.set n X } },
      ⟨n, e1.mps, L, W, R, T, en, X⟩) := by
    unfold Eng.step
    simp only [he1, hopt, hset]
  refine ⟨_, _, hstep, ?_⟩
  have hshX := map_shape_set ht xs
  have hlinkX : Linked e.lb.u (e1.mps.tensors.take n) X.l := by rw [x1, hLw, q2]; exact q1
  have hlinkX' : Linked X.r (e1.mps.tensors.drop (n + 1)) e.rb.u := by rw [x2, hRw]; exact q3
  simp only [Ten.shape, Prod.mk.injEq] at xs
  obtain ⟨xs1, xs2, xs3⟩ := xs
  have hdsX : (e1.mps.tensors.set n X).map Ten.d = e1.mps.tensors.map Ten.d := by
    have := congrArg (List.map fun q => q.2.2) hshX
    simpa [Ten.shape, Function.comp_def] using this
  -- the centre of the new chain
  have key : Linked e.lb.u ((e1.mps.tensors.set n X).take e1.mps.pos) (if e1.mps.pos = n then t.l else t.r) ∧
      Linked (if e1.mps.pos = n then t.l else t.r) ((e1.mps.tensors.set n X).drop e1.mps.pos) e.rb.u := by
    have hfull : (e1.mps.tensors.set n X)[n]? = some X := List.getElem?_set_self hlt
    rcases hpp with hp | hp
    · rw [if_pos hp, hp, List.take_set_of_le le_rfl, drop_getElem? hfull, List.drop_set_of_lt (by omega)]
      rw [← xs1]
      exact ⟨hlinkX, rfl, hlinkX'⟩
    · rw [if_neg (by omega), hp, take_succ_getElem? hfull, List.take_set_of_le le_rfl, List.drop_set_of_lt (by omega),
        linked_append, ← xs2]
      exact ⟨⟨_, hlinkX, rfl, rfl⟩, hlinkX'⟩
  refine ⟨⟨by simp [hlen1], M.wf.pos_le, ?_, ?_⟩, rfl, by simp only [M.sth]; exact hs, ⟨?_, ?_, ?_, ?_, ?_⟩, ?_, ?_⟩
  · simp only [g2]; exact key.1
  · simp only [g3]; exact key.2
  · simp only [g2]; exact hf.lb
  · simp only [g3]; exact hf.rb
  · simp only [g1, g2, g3]; exact hf.mlink
  · simp only [g1, MPS.ds, hdsX]; rw [hf.ins]; exact hds.symm
  · simp only [g1, MPS.ds, hdsX]; rw [hf.outs]; exact hds.symm
  · exact adm_shape hshX had1
  · obtain ⟨s', i', j', k1, k2, k3, k4⟩ := chain_ne_zero hlinkX hlinkX'
      (by
        intro y hy
        obtain ⟨x, hx⟩ := List.mem_iff_getElem?.mp hy
        rw [List.getElem?_take] at hx
        split_ifs at hx with hxn
        exact Or.left x y hx hxn)
      (by
        intro y hy
        obtain ⟨x, hx⟩ := List.mem_iff_getElem?.mp hy
        rw [List.getElem?_drop] at hx
        exact Or.right _ y hx (by omega)) hXn
    rw [← set_take_drop hlt] at k1 k4
    refine ⟨s', i', j', k1, by simp only [g2]; exact k2, ?_⟩
    rw [amp_eq_split]
    have hlen' : (s'.take e1.mps.pos).length = ((e1.mps.tensors.set n X).take e1.mps.pos).length := by
      rw [List.length_take, List.length_take, cfg_length k1]
    simp only
    rw [split_eyeNormed key.1 _ hlen' _ k2, List.take_append_drop, List.take_append_drop]
    refine mul_ne_zero (left_ne_zero_of_mul hch) (mul_ne_zero (inv_ne_zero ?_) k4)
    have hD : 0 < (if e1.mps.pos = n then t.l else t.r) := by
      obtain ⟨i0, hi0, j0, hj0, -⟩ := hXn
      split_ifs <;> omega
    rw [Complex.ofReal_ne_zero]
    exact Real.sqrt_ne_zero'.mpr (by exact_mod_cast hD)

variable {O : LinAlg} {solve : Solve} {sv : Solver}

variable {Q : Env ℂ → Mpo ℂ → Env ℂ → Ten ℂ → Prop}

theorem Grants.same {e e' : Eng} (h : Grants e.lb e.rb e.mpo Q) (S : e.Same e') : Grants e'.lb e'.rb e'.mpo Q := by
  rw [S.lb, S.rb, S.mpo]; exact h

theorem step_live (hO : O.Spec) (hsv : solve.Shape) (hso : sv ≠ .other) (hlv : solve.Live sv Q) {e : Eng} {p n : ℕ}
    (hQ : Grants e.lb e.rb e.mpo Q) (hL : e.Live) (hr : e.Ready True p n) (hpn : p = n ∨ p = n + 1) (hn : n < e.mps.N) :
    ∃ e' c, e.step O solve sv p n = .ok (e', c) ∧ e'.Live ∧ e'.Post True p n ∧ e.Same e' := by
  have hr' := hr
  obtain ⟨a, b, -, hv, c1, c2, c3, ho⟩ := hr'
  obtain ⟨e', c, h1, h2⟩ := step_ok hO hsv hso hlv hQ hL hv (ho trivial) hpn hn c1 c2 c3
  obtain ⟨-, -, h3, h4, -⟩ := step_ready hO hsv hL.fit.lb hL.fit.rb hL.sth hr h1 hpn hn
  exact ⟨e', c, h1, h2, h3, h4⟩

theorem sweepRight_ok (hO : O.Spec) (hsv : solve.Shape) (hso : sv ≠ .other) (hlv : solve.Live sv Q) :
    ∀ (k n : ℕ) (e : Eng) (acc : List Call), Grants e.lb e.rb e.mpo Q → e.Live → (0 < k → e.Ready True n n) → n + k ≤ e.mps.N →
    ∃ e' acc', Eng.sweepRight O solve sv k n e acc = .ok (e', acc') ∧ e'.Live := by
  intro k
  induction k with
  | zero => intro n e acc _ hL _ _; exact ⟨e, acc, rfl, hL⟩
  | succ k ih =>
    intro n e acc hQ hL hr hN
    obtain ⟨e1, c, h1, h2, h3, h4⟩ := step_live hO hsv hso hlv hQ hL (hr (by omega)) (Or.inl rfl) (by omega)
    simp only [Eng.sweepRight, h1]
    exact ih (n + 1) e1 _ (hQ.same h4) h2 (fun _ => h3.ready (by omega) (fun _ => by omega) (fun h => by omega)) (by rw [h4.N]; omega)

theorem sweepLeft_ok (hO : O.Spec) (hsv : solve.Shape) (hso : sv ≠ .other) (hlv : solve.Live sv Q) :
    ∀ (n : ℕ) (e : Eng) (acc : List Call), Grants e.lb e.rb e.mpo Q → e.Live → (0 < n → e.Ready True (n + 1) n) → n < e.mps.N →
    ∃ e' acc', Eng.sweepLeft O solve sv n e acc = .ok (e', acc') ∧ e'.Live := by
  intro n
  induction n with
  | zero => intro e acc _ hL _ _; exact ⟨e, acc, rfl, hL⟩
  | succ n ih =>
    intro e acc hQ hL hr hN
    obtain ⟨e1, c, h1, h2, h3, h4⟩ := step_live hO hsv hso hlv hQ hL (hr (by omega)) (Or.inr rfl) (by omega)
    simp only [Eng.sweepLeft, h1]
    exact ih e1 _ (hQ.same h4) h2 (fun _ => h3.ready (by omega) (fun _ => by omega) (fun h => by omega)) (by rw [h4.N]; omega)

theorem cpDue_isOk {cp : Option ℤ} (h : cp ≠ some 0) (it : ℕ) : ∃ b, cpDue cp it = .ok b := by
  unfold cpDue
  cases cp with
  | none => exact ⟨_, rfl⟩
  | some c =>
    have hc : c ≠ 0 := fun h0 => h (by rw [h0])
    simp only [if_neg hc]
    split_ifs
    · exact ⟨_, rfl⟩
    · exact ⟨_, rfl⟩

theorem simLoop_ok (hO : O.Spec) (hsv : solve.Shape) (hso : sv ≠ .other) (hlv : solve.Live sv Q) {Nmax : ℤ} {Econv : ℝ}
    {cp : Option ℤ} (hcp : cp ≠ some 0) :
    ∀ (fuel it : ℕ) (energy : ℂ) (e : Eng) (sw : List (List Call)) (sd : List (ℕ × MPS)),
    0 < fuel → Nmax < it + fuel → Grants e.lb e.rb e.mpo Q → e.Live → e.Ready True 0 0 → 2 ≤ e.mps.N →
    ∃ res, Eng.simLoop O solve sv Nmax Econv cp fuel it energy e sw sd = .ok res ∧ res.eng.Live := by
  intro fuel
  induction fuel with
  | zero => intro it energy e sw sd h; exact absurd h (by omega)
  | succ fuel ih =>
    intro it energy e sw sd _ hN hQ hL hr h2
    obtain ⟨e1, c1, h1, L1⟩ := sweepRight_ok hO hsv hso hlv (e.mps.N - 1) 0 e [] hQ hL (fun _ => hr) (by omega)
    obtain ⟨cs1, a1, a2, a3, a4, a5, a6⟩ := sweepRight_spec (flag := True) hO hsv _ _ _ _ _ _ h1 hL.fit.lb hL.fit.rb hL.sth
      (fun _ => hr) (by omega)
    have P1 := a6 (by omega)
    have hrl : 0 < e1.mps.N - 1 → e1.Ready True (e1.mps.N - 1 + 1) (e1.mps.N - 1) := fun _ =>
      P1.ready (by rw [a4.N]; omega) (fun _ => by rw [a4.N]; omega) (fun h => by rw [a4.N] at h; omega)
    obtain ⟨e2, c2, h3, L2⟩ := sweepLeft_ok hO hsv hso hlv (e1.mps.N - 1) e1 c1 (hQ.same a4) L1 hrl (by rw [a4.N]; omega)
    obtain ⟨cs2, b1, b2, b3, b4, -, b6⟩ := sweepLeft_spec (flag := True) hO hsv _ _ _ _ _ h3 L1.fit.lb L1.fit.rb L1.sth
      hrl (by rw [a4.N]; omega)
    obtain ⟨P2, c', d1, d2⟩ := b6 (by rw [a4.N]; omega)
    have hlast : c2.getLast? = some c' := by rw [b1, List.getLast?_append, d1]; rfl
    obtain ⟨due, hdue⟩ := cpDue_isOk hcp it
    simp only [Eng.simLoop, h1, h3, hlast, hdue]
    by_cases hst : ((it + 1 : ℕ) : ℤ) > Nmax ∨ ‖c'.energy - energy‖ < Econv
    · rw [if_pos hst]
      refine ⟨_, rfl, ⟨L2.wf.len, L2.wf.pos_le, L2.wf.left, L2.wf.right⟩, L2.sq, L2.sth, ⟨L2.fit.lb, L2.fit.rb, L2.fit.mlink, L2.fit.ins,
        L2.fit.outs⟩, L2.adm, ?_⟩
      obtain ⟨s, i, j, l1, l2, l3⟩ := L2.ne
      refine ⟨s, i, j, l1, l2, ?_⟩
      rw [amp_eq_split] at l3 ⊢
      rw [one_mul]
      exact right_ne_zero_of_mul l3
    · rw [if_neg hst]
      push Not at hst
      refine ih _ _ _ _ _ ?_ ?_ (hQ.same (a4.trans b4)) L2 (P2.ready (by omega) (fun h => by omega) (fun _ => by omega)) (by
        rw [b4.N, a4.N]; exact h2)
      · omega
      · push_cast at hN ⊢; omega

end

end PyTeN
