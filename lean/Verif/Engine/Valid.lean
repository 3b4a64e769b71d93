import Verif.Engine.Container
import Verif.Props.Environment
import Verif.Props.Measure

/-! # Consistency of the environment caches of an engine -/

namespace PyTeN
open Finset

noncomputable section

/-- Spec: the tensors form a chain with the outer dimensions of the boundaries; the centre matrix is square
(but need not fit). -/
structure MPS.Loose (m : MPS) (l r : ℕ) : Prop where
  len : m.tensors.length = m.N
  pos_le : m.pos ≤ m.N
  link : Linked l m.tensors r
  sq : m.mat.r = m.mat.c

/-- Spec: `_L[k]` is the environment of the *current* first `k` sites for `k ≤ a`, `_R[k]` the one of the last
`k` sites for `k ≤ N-b`. -/
structure Eng.Val (e : Eng) (a b : ℕ) : Prop where
  lenL : e.L.length = e.mps.N + 1
  lenR : e.R.length = e.mps.N + 1
  lenW : e.mpo.length = e.mps.N
  left : ∀ k ≤ a, ∀ E, e.L[k]? = some E →
    IsL e.lb (e.mps.tensors.take k) (e.mpo.take k) (e.mps.tensors.take k) E
  right : ∀ k, b ≤ k → k ≤ e.mps.N → ∀ E, e.R[e.mps.N - k]? = some E →
    IsR e.rb (e.mps.tensors.drop k) (e.mpo.drop k) (e.mps.tensors.drop k) E

theorem getE_ok {α : Type*} {l : List α} {n : ℕ} {x : α} (h : getE l n = .ok x) : l[n]? = some x := by
  unfold getE at h
  split at h
  · rename_i y hy; simp only [Except.ok.injEq] at h; rw [hy, h]
  · cases h

theorem setE_ok {α : Type*} {l l' : List α} {n : ℕ} {x : α} (h : setE l n x = .ok l') :
    n < l.length ∧ l' = l.set n x := by
  unfold setE at h
  split_ifs at h with h1
  simp only [Except.ok.injEq] at h
  exact ⟨h1, h.symm⟩

theorem getItem_nat {m : MPS} {n : ℕ} {t : Ten ℂ} (h : m.getItem n = .ok t) : m.tensors[n]? = some t := by
  unfold MPS.getItem at h
  split_ifs at h with h1
  unfold getZ pyIdx at h
  rw [if_pos (by omega), if_pos h1.1] at h
  simp only [Int.toNat_natCast] at h
  unfold getT at h
  split at h
  · rename_i y hy; simp only [Except.ok.injEq] at h; rw [hy, h]
  · cases h

theorem take_succ_getElem? {α : Type*} {l : List α} {n : ℕ} {x : α} (h : l[n]? = some x) :
    l.take (n + 1) = l.take n ++ [x] := by
  obtain ⟨h1, h2⟩ := List.getElem?_eq_some_iff.mp h
  rw [List.take_succ_eq_append_getElem h1, h2]

theorem drop_getElem? {α : Type*} {l : List α} {n : ℕ} {x : α} (h : l[n]? = some x) :
    l.drop n = x :: l.drop (n + 1) := by
  obtain ⟨h1, h2⟩ := List.getElem?_eq_some_iff.mp h
  rw [List.drop_eq_getElem_cons h1, h2]

/-- The right-moving loop keeps the entries up to the start and fills in correct ones. -/
theorem growL_spec {m : MPS} {mpo : List (Mpo ℂ)} {lb : Env ℂ} : ∀ (k p : ℕ) (L L' : List (Env ℂ)),
    growL m mpo k p L = .ok L' →
    (∀ q ≤ p, ∀ E, L[q]? = some E → IsL lb (m.tensors.take q) (mpo.take q) (m.tensors.take q) E) →
    L'.length = L.length ∧
    (∀ q ≤ p + k, ∀ E, L'[q]? = some E → IsL lb (m.tensors.take q) (mpo.take q) (m.tensors.take q) E) := by
  intro k
  induction k with
  | zero =>
    intro p L L' h hv
    simp only [growL, Except.ok.injEq] at h
    subst h
    exact ⟨rfl, hv⟩
  | succ k ih =>
    intro p L L' h hv
    simp only [growL] at h
    split at h
    · cases h
    rename_i E hE
    split at h
    · cases h
    rename_i A hA
    split at h
    · cases h
    rename_i W hW
    split at h
    · cases h
    rename_i E' hE'
    split at h
    · cases h
    rename_i L1 hL1
    obtain ⟨hn, rfl⟩ := setE_ok hL1
    have i1 := hv p le_rfl E (getE_ok hE)
    have hA' := getItem_nat hA
    have i2 := isL_snoc i1 hE'
    rw [← take_succ_getElem? hA', ← take_succ_getElem? (getE_ok hW)] at i2
    obtain ⟨r1, r2⟩ := ih (p + 1) _ L' h (by
      intro q hq E0 h0
      rw [List.getElem?_set] at h0
      split_ifs at h0 with h3
      · simp only [Option.some.injEq] at h0; subst h0; subst h3; exact i2
      · exact hv q (by omega) E0 h0)
    refine ⟨by rw [r1, List.length_set], ?_⟩
    intro q hq
    exact r2 q (by omega)

/-- The left-moving loop. -/
theorem growR_spec {m : MPS} {mpo : List (Mpo ℂ)} {rb : Env ℂ} : ∀ (k p : ℕ) (R R' : List (Env ℂ)),
    growR m mpo k p R = .ok R' → k ≤ p → p ≤ m.N →
    (∀ q, p ≤ q → q ≤ m.N → ∀ E, R[m.N - q]? = some E →
      IsR rb (m.tensors.drop q) (mpo.drop q) (m.tensors.drop q) E) →
    R'.length = R.length ∧
    (∀ q, p - k ≤ q → q ≤ m.N → ∀ E, R'[m.N - q]? = some E →
      IsR rb (m.tensors.drop q) (mpo.drop q) (m.tensors.drop q) E) := by
  intro k
  induction k with
  | zero =>
    intro p R R' h _ _ hv
    simp only [growR, Except.ok.injEq] at h
    subst h
    exact ⟨rfl, hv⟩
  | succ k ih =>
    intro p R R' h hk hp hv
    simp only [growR] at h
    split at h
    · cases h
    rename_i E hE
    split at h
    · cases h
    rename_i A hA
    split at h
    · cases h
    rename_i W hW
    split at h
    · cases h
    rename_i E' hE'
    split at h
    · cases h
    rename_i R1 hR1
    obtain ⟨hn, rfl⟩ := setE_ok hR1
    have i1 := hv p le_rfl hp E (getE_ok hE)
    rw [show (p : ℤ) - 1 = ((p - 1 : ℕ) : ℤ) by omega] at hA
    have hA' := getItem_nat hA
    have i2 := isR_cons i1 hE'
    have d1 := drop_getElem? hA'
    have d2 := drop_getElem? (getE_ok hW)
    rw [show p - 1 + 1 = p by omega] at d1 d2
    rw [← d1, ← d2] at i2
    obtain ⟨r1, r2⟩ := ih (p - 1) _ R' h (by omega) (by omega) (by
      intro q hq hq2 E0 h0
      rw [List.getElem?_set] at h0
      split_ifs at h0 with h3
      · simp only [Option.some.injEq] at h0; subst h0
        have : q = p - 1 := by omega
        subst this; exact i2
      · exact hv q (by omega) hq2 E0 h0)
    refine ⟨by rw [r1, List.length_set], ?_⟩
    intro q hq
    exact r2 q (by omega)

theorem take_congr_getElem? {α : Type*} {l l' : List α} {k : ℕ} (h : ∀ x < k, l'[x]? = l[x]?) :
    l'.take k = l.take k := by
  apply List.ext_getElem?
  intro x
  rw [List.getElem?_take, List.getElem?_take]
  split_ifs with hx
  · exact h x hx
  · rfl

theorem drop_congr_getElem? {α : Type*} {l l' : List α} {k : ℕ} (h : ∀ x, k ≤ x → l'[x]? = l[x]?) :
    l'.drop k = l.drop k := by
  apply List.ext_getElem?
  intro x
  rw [List.getElem?_drop, List.getElem?_drop]
  exact h _ (by omega)

/-- A successful move to the right. -/
theorem eng_right {O : LinAlg} (hO : O.Spec) {e e' : Eng} {n l r a b : ℕ} (hw : e.mps.WF l r)
    (hs : e.mps.sth < 1e-15) (hv : e.Val a b) (h : e.position O n = .ok e') (hn : e.mps.pos < n)
    (ha : e.mps.pos ≤ a) :
    n ≤ e.mps.N ∧ e.mps.position O n = .ok e'.mps ∧ Moved e.mps e'.mps l r n ∧
      e'.mpo = e.mpo ∧ e'.lb = e.lb ∧ e'.rb = e.rb ∧ e'.Val n (max b n) := by
  unfold Eng.position at h
  split_ifs at h with h1 h2 h3
  · split at h
    · cases h
    rename_i m hm
    split at h
    · cases h
    rename_i L hL
    simp only [Except.ok.injEq] at h
    subst h
    obtain ⟨-, hN, M⟩ := position_moved hO (effSth_default hs) hw hm
    rw [Int.toNat_natCast] at M hL
    have hN' : n ≤ e.mps.N := by omega
    obtain ⟨g1, g2⟩ := growL_spec (lb := e.lb) _ _ _ _ hL (by
      intro q hq E hE
      rw [take_congr_getElem? (l' := m.tensors) (l := e.mps.tensors) fun x hx => M.same x (by omega)]
      exact hv.left q (by omega) E hE)
    refine ⟨hN', hm, M, rfl, rfl, rfl, ?_, ?_, ?_, ?_, ?_⟩
    · simp only [g1, hv.lenL, M.N]
    · simp only [hv.lenR, M.N]
    · simp only [hv.lenW, M.N]
    · intro k hk
      exact g2 k (by omega)
    · intro k hk hkN E hE
      simp only [M.N] at hkN hE
      simp only
      rw [drop_congr_getElem? (l' := m.tensors) (l := e.mps.tensors) fun x hx => M.same x (by omega)]
      exact hv.right k (by omega) hkN E hE
  · exfalso; omega

/-- A successful move to the left. -/
theorem eng_left {O : LinAlg} (hO : O.Spec) {e e' : Eng} {n l r a b : ℕ} (hw : e.mps.WF l r)
    (hs : e.mps.sth < 1e-15) (hv : e.Val a b) (h : e.position O n = .ok e') (hn : n < e.mps.pos)
    (hb : b ≤ e.mps.pos) :
    e.mps.position O n = .ok e'.mps ∧ Moved e.mps e'.mps l r n ∧
      e'.mpo = e.mpo ∧ e'.lb = e.lb ∧ e'.rb = e.rb ∧ e'.Val (min a n) n := by
  unfold Eng.position at h
  split_ifs at h with h1 h2 h3
  · exfalso; omega
  · split at h
    · cases h
    rename_i m hm
    split at h
    · cases h
    rename_i R hR
    simp only [Except.ok.injEq] at h
    subst h
    obtain ⟨-, hN, M⟩ := position_moved hO (effSth_default hs) hw hm
    rw [Int.toNat_natCast] at M hR
    have hp := hw.pos_le
    obtain ⟨g1, g2⟩ := growR_spec (rb := e.rb) _ _ _ _ hR (by omega) (by rw [M.N]; exact hp) (by
      intro q hq hqN E hE
      rw [M.N] at hqN hE
      rw [drop_congr_getElem? (l' := m.tensors) (l := e.mps.tensors) fun x hx => M.same x (by omega)]
      exact hv.right q (by omega) hqN E hE)
    refine ⟨hm, M, rfl, rfl, rfl, ?_, ?_, ?_, ?_, ?_⟩
    · simp only [hv.lenL, M.N]
    · simp only [g1, hv.lenR, M.N]
    · simp only [hv.lenW, M.N]
    · intro k hk E hE
      simp only
      rw [take_congr_getElem? (l' := m.tensors) (l := e.mps.tensors) fun x hx => M.same x (by omega)]
      exact hv.left k (by omega) E hE
    · intro k hk hkN
      exact g2 k (by omega) hkN

/-- Moving to the current position changes nothing. -/
theorem eng_stay {O : LinAlg} {e e' : Eng} {n : ℕ} (h : e.position O n = .ok e') (hn : n = e.mps.pos) :
    e' = e := by
  unfold Eng.position at h
  split_ifs at h with h1 h2 h3
  · split at h
    · cases h
    rename_i m hm
    split at h
    · cases h
    rename_i L hL
    simp only [Except.ok.injEq] at h
    subst h
    have := position_same hm (by simp [hn])
    subst this
    rw [Int.toNat_natCast, hn, Nat.sub_self] at hL
    simp only [growL, Except.ok.injEq] at hL
    subst hL
    rfl
  · exfalso; omega

/-- A loose object on which a proper move succeeds was well formed. -/
theorem loose_wf {O : LinAlg} {m m' : MPS} {n l r : ℕ} (hl : m.Loose l r)
    (h : m.position O n = .ok m') (hn : n ≠ m.pos) : m.WF l r := by
  have hlink := hl.link
  rw [← List.take_append_drop m.pos m.tensors, linked_append] at hlink
  obtain ⟨p, l1, l2⟩ := hlink
  have key : p = m.mat.r := by
    unfold MPS.position at h
    simp only [Int.toNat_natCast] at h
    split_ifs at h with h1 h2 h3
    · split at h
      · cases h
      rename_i t ht
      split at h
      · cases h
      rename_i t' ht'
      unfold absorbL at ht'
      split_ifs at ht' with hc
      have ht2 : m.tensors[m.pos]? = some t := by
        unfold getT at ht; split at ht
        · rename_i y hy; simp only [Except.ok.injEq] at ht; rw [hy, ht]
        · cases ht
      rw [drop_getElem? ht2] at l2
      rw [← l2.1, ← hc, hl.sq]
    · split at h
      · cases h
      rename_i t ht
      split at h
      · cases h
      rename_i t' ht'
      unfold absorbR at ht'
      split_ifs at ht' with hc
      have ht2 : m.tensors[m.pos - 1]? = some t := by
        unfold getT at ht; split at ht
        · rename_i y hy; simp only [Except.ok.injEq] at ht; rw [hy, ht]
        · cases ht
      have := take_succ_getElem? ht2
      rw [show m.pos - 1 + 1 = m.pos by omega] at this
      rw [this, linked_append] at l1
      obtain ⟨q, -, q1, q2⟩ := l1
      have q2 : t.r = p := q2
      rw [← q2, hc]
  exact ⟨hl.len, hl.pos_le, key ▸ l1, by rw [← hl.sq, ← key]; exact l2⟩

theorem wf_link {m : MPS} {l r : ℕ} (hw : m.WF l r) (hsq : m.mat.r = m.mat.c) : Linked l m.tensors r := by
  rw [← List.take_append_drop m.pos m.tensors, linked_append]
  exact ⟨_, hw.left, hsq ▸ hw.right⟩

end

end PyTeN
