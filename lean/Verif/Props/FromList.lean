import Verif.Mps.FromList
import Verif.Props.Energy

/-! # C107: `MPS.fromList` -/

namespace PyTeN
open Finset

noncomputable section

/-- Spec: the state given by a list of tensors and a matrix on the last bond. -/
def listAmp (ts : List (Ten ℂ)) (a : Mat ℂ) (s : List ℕ) (i j : ℕ) : ℂ := ∑ k ∈ range a.r, chain ts s i k * a.v k j

/-- The object on which the sweeps start. -/
theorem fromList_start {ts : List (Ten ℂ)} {sth rth : ℝ} {m : MPS} (h : MPS.init ts sth rth = .ok m) {l : ℕ} {a : Mat ℂ}
    (hL : Linked l ts a.r) : ({ m with mat := a } : MPS).WF l a.c ∧
      ∀ s, s.length = ts.length → ∀ i, ∀ j < a.c, ({ m with mat := a } : MPS).amp s i j = m.Z * listAmp ts a s i j := by
  obtain ⟨hne, h1, h2, h3, -, -⟩ := init_fields h
  refine ⟨⟨by simp only [h1, h2], by simp only [h2, h3, le_refl], ?_, ?_⟩, fun s hs i j hj => ?_⟩
  · simp only [h1, h3, List.take_length]; exact hL
  · simp only [h1, h3, List.drop_length, Linked]
  · unfold MPS.amp listAmp
    simp only [h1, h3, List.take_length, List.drop_length]
    rw [← hs, List.take_length, List.drop_length]
    congr 1
    refine sum_congr rfl fun k _ => ?_
    rw [sum_eq_single j]
    · simp [chain, delta]
    · intro k' _ hk'
      simp [chain, delta, hk']
    · intro h'; exact absurd (mem_range.mpr hj) h'

/-- **C107 (partial:** only for a matrix with one column**).**  `MPS.fromList` succeeds on every list of tensors and every matrix whose
state does not vanish, and returns this state, normalised, in canonical form with the centre on the last bond. -/
theorem C107_fromList_partial {O : LinAlg} (hO : O.Spec) {ts : List (Ten ℂ)} {a : Mat ℂ} {l : ℕ} {sth rth : ℝ} (hs : sth < 1e-15)
    (h0 : ts ≠ []) (hL : Linked l ts a.r) (hc : a.c = 1) (hne : ∃ s i, Conf (ts.map Ten.d) s ∧ i < l ∧ listAmp ts a s i 0 ≠ 0) :
    ∃ m, MPS.fromList O ts (some a) sth rth = .ok m ∧ m.WF l 1 ∧ m.N = ts.length ∧ m.pos = m.N ∧ m.ds = ts.map Ten.d ∧ m.Canonical ∧
      m.Z = 1 ∧ nsq m.ds l 1 m.amp = 1 ∧
      ∃ k : ℝ, 0 < k ∧ ∀ s, Conf (ts.map Ten.d) s → ∀ i < l, m.amp s i 0 = k * listAmp ts a s i 0 := by
  obtain ⟨m, hm⟩ := init_ok h0 sth rth
  obtain ⟨-, f1, f2, f3, f4, -⟩ := init_fields hm
  obtain ⟨w0, ha⟩ := fromList_start hm hL
  rw [hc] at w0 ha
  have hZ : m.Z = -1e10 := by
    unfold MPS.init at hm
    split at hm
    · simp only [Except.ok.injEq] at hm; rw [← hm]
    · cases hm
  have hZ0 : m.Z ≠ 0 := by rw [hZ]; norm_num
  set m0 : MPS := { m with mat := a } with hm0
  have hts : m0.tensors = ts := f1
  have hconf : ∀ s, Conf (ts.map Ten.d) s → Cfg m0.tensors s ∧ s.length = ts.length := by
    intro s hcs
    have := hcs.length_eq
    rw [List.length_map] at this
    exact ⟨conf_cfg (by rw [MPS.ds, hts]; exact hcs), this.symm⟩
  have hs0 : m0.sth < 1e-15 := by rw [hm0]; simp only [f4]; exact hs
  obtain ⟨s, i, q1, q2, q3⟩ := hne
  have hamp0 : m0.amp s i 0 ≠ 0 := by rw [ha s (hconf s q1).2 i 0 one_pos]; exact mul_ne_zero hZ0 q3
  obtain ⟨m1, h1⟩ := position_ok (b := 0) hO w0 hs0 ⟨s, i, 0, (hconf s q1).1, q2, hamp0⟩ (Nat.zero_le _)
  obtain ⟨-, -, M1⟩ := position_moved hO (effSth_default hs0) w0 h1
  have hs1 : m1.sth < 1e-15 := by rw [M1.sth]; exact hs0
  have hd1 : ∀ s, Conf (ts.map Ten.d) s → Cfg m1.tensors s := by
    intro s hcs
    exact conf_cfg (by rw [M1.ds, MPS.ds, hts]; exact hcs)
  obtain ⟨m2, h2⟩ := position_ok (b := m1.N) hO M1.wf hs1 ⟨s, i, 0, hd1 s q1, q2, by rw [M1.amp s (hconf s q1).1 i q2 0]; exact hamp0⟩ le_rfl
  obtain ⟨-, -, M2⟩ := position_moved hO (effSth_default hs1) M1.wf h2
  obtain ⟨z1, hz1, e1⟩ := position_Z hO (effSth_default hs0) h1
  obtain ⟨z2, hz2, e2⟩ := position_Z hO (effSth_default hs1) h2
  have hN1 : m1.N = ts.length := by rw [M1.N]; exact f2
  have hlen : 0 < ts.length := List.length_pos_iff.mpr h0
  have hcan : m2.Canonical := canonical_of_sweep M2 (by omega) (Or.inr ⟨by rw [M1.pos]; rfl, by simp⟩)
  have hcan' : ({ m2 with Z := 1 } : MPS).Canonical := ⟨hcan.left, hcan.right, hcan.norm⟩
  have hw' : ({ m2 with Z := 1 } : MPS).WF l 1 := ⟨M2.wf.len, M2.wf.pos_le, M2.wf.left, M2.wf.right⟩
  have hall : allRows (some a) = .ok (decide (a.c = 1 ∧ ∀ i < a.r, a.v i 0 ≠ 0)) ∨ allRows (some a) = .ok true := by
    simp only [allRows]
    by_cases hr : a.r = 0
    · right; rw [if_pos hr]
    · left; rw [if_neg hr, if_neg (by omega)]
  refine ⟨{ m2 with Z := 1 }, ?_, hw', by simp only [M2.N, hN1], by simp only [M2.pos, M2.N]; simp, ?_, hcan', rfl, ?_, (z1 * z2)⁻¹,
    inv_pos.mpr (mul_pos hz1 hz2), ?_⟩
  · unfold MPS.fromList
    rw [hm]
    rcases hall with h | h <;> (rw [h]; simp only [Option.getD_some]; rw [← hm0]; change (match m0.position O (0 : ℕ) with | .error e => _ | .ok m1 => _) = _; rw [h1]; dsimp only; rw [h2])
  · have := M2.ds.trans M1.ds
    rw [show m0.ds = ts.map Ten.d by rw [MPS.ds, hts]] at this
    exact this
  · rw [canonical_nsq hw' hcan']; simp
  · intro s hcs i hi
    obtain ⟨c1, c2⟩ := hconf s hcs
    have hz : (z1 : ℂ) ≠ 0 := by exact_mod_cast hz1.ne'
    have hz' : (z2 : ℂ) ≠ 0 := by exact_mod_cast hz2.ne'
    have e3 : m2.Z * ({ m2 with Z := 1 } : MPS).amp s i 0 = m.Z * listAmp ts a s i 0 := by
      rw [← ha s c2 i 0 one_pos, ← M1.amp s c1 i hi 0, ← M2.amp s (hd1 s hcs) i hi 0]
      simp only [MPS.amp, one_mul]
    rw [e2, e1, show m0.Z = m.Z from rfl] at e3
    have e4 : m.Z * (z1 * z2 * ({ m2 with Z := 1 } : MPS).amp s i 0) = m.Z * listAmp ts a s i 0 := by rw [← e3]; ring
    have e5 := mul_left_cancel₀ hZ0 e4
    push_cast
    rw [← e5]
    field_simp

/-- **C107 is violated**: without a matrix, which is the default and according to the documentation means the identity, `MPS.fromList`
always raises. -/
theorem C107_violated_default (O : LinAlg) {ts : List (Ten ℂ)} (h0 : ts ≠ []) (sth rth : ℝ) :
    MPS.fromList O ts none sth rth = .error .type := by
  obtain ⟨m, hm⟩ := init_ok h0 sth rth
  unfold MPS.fromList
  rw [hm]
  rfl

/-- **C107 is violated**: every matrix with more than one column is rejected. -/
theorem C107_violated_matrix (O : LinAlg) {ts : List (Ten ℂ)} (h0 : ts ≠ []) {a : Mat ℂ} (hr : 0 < a.r) (hc : 2 ≤ a.c) (sth rth : ℝ) :
    MPS.fromList O ts (some a) sth rth = .error .value := by
  obtain ⟨m, hm⟩ := init_ok h0 sth rth
  unfold MPS.fromList
  rw [hm]
  simp only [allRows, if_neg hr.ne', if_pos hc]

/-- A state of three qubits closed with a negative number. -/
example : ∃ (O : LinAlg) (m : MPS), O.Spec ∧ MPS.fromList O ghzT (some ⟨1, 1, fun _ _ => -2⟩) 1e-16 1e-16 = .ok m ∧
    nsq [2, 2, 2] 1 1 m.amp = 1 ∧ ∃ k : ℝ, 0 < k ∧ m.amp [1, 1, 1] 0 0 = k * -2 ∧ m.amp [1, 0, 1] 0 0 = 0 := by
  obtain ⟨O, hO⟩ := exists_linAlg
  have conf : ∀ a b c : ℕ, a < 2 → b < 2 → c < 2 → Conf (ghzT.map Ten.d) [a, b, c] := fun a b c ha hb hc =>
    List.Forall₂.cons ha (List.Forall₂.cons hb (List.Forall₂.cons hc List.Forall₂.nil))
  have h1 : listAmp ghzT ⟨1, 1, fun _ _ => -2⟩ [1, 1, 1] 0 0 = -2 := by
    simp [listAmp, ghzT, chain, delta]
  have h2 : listAmp ghzT ⟨1, 1, fun _ _ => -2⟩ [1, 0, 1] 0 0 = 0 := by
    simp [listAmp, ghzT, chain, delta]
  obtain ⟨m, e1, -, -, -, e2, -, -, e3, k, hk, e4⟩ := C107_fromList_partial hO (ts := ghzT) (a := ⟨1, 1, fun _ _ => -2⟩) (l := 1) (sth := 1e-16)
    (rth := 1e-16) (by norm_num) (by simp [ghzT]) (by simp [ghzT, Linked]) rfl
    ⟨[1, 1, 1], 0, conf 1 1 1 (by norm_num) (by norm_num) (by norm_num), one_pos, by rw [h1]; norm_num⟩
  refine ⟨O, m, hO, e1, by rw [e2] at e3; exact e3, k, hk, ?_, ?_⟩
  · rw [e4 _ (conf 1 1 1 (by norm_num) (by norm_num) (by norm_num)) 0 one_pos, h1]
  · rw [e4 _ (conf 1 0 1 (by norm_num) (by norm_num) (by norm_num)) 0 one_pos, h2, mul_zero]

end

end PyTeN
