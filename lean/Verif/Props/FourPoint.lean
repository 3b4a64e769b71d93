import Verif.Engine.Radau
import Verif.Mps.FourPoint
import Verif.Props.Measure

/-! # C124: `measure4pointCorrelation` -/

namespace PyTeN.FourPoint

noncomputable section

/-! ## Specification -/

/-- Spec: two objects of the same length and local dimensions have the same amplitudes. -/
def Same (m m' : MPS) (l : ℕ) : Prop := m'.tensors.length = m.tensors.length ∧ m'.ds = m.ds ∧ ∀ s, Cfg m.tensors s → ∀ i < l, ∀ j, m'.amp s i j = m.amp s i j

/-! ## Properties -/

theorem mf_missing : "mf" ∉ RadauInt.imported := by simp [RadauInt.imported]

/-- **C124 (violated).**  In the module as it is no call returns, whatever the rest of the function may be. -/
theorem C124_violated (O : LinAlg) (rest : MPS → List (Mat ℂ) → Res ℂ × MPS) (m : MPS) (ops : List (Mat ℂ)) (z : ℂ) :
    (measure4 RadauInt.imported O rest m ops).1 ≠ .ok z := by
  unfold measure4
  simp only [if_neg mf_missing]
  split
  · simp
  · split
    · simp
    · split <;> simp

/-- **C124 (the object afterwards).**  For a state that is not zero and four operators, NameError is raised after the centre has been moved to bond
0; the state of the object is the same as before. -/
theorem C124_after {O : LinAlg} (hO : O.Spec) (rest : MPS → List (Mat ℂ) → Res ℂ × MPS) {m : MPS} {l r : ℕ} (hw : m.WF l r) (hs : m.sth < 1e-15) (hN : 0 < m.N)
    (ha : ∃ s i j, Cfg m.tensors s ∧ i < l ∧ m.amp s i j ≠ 0) {ops : List (Mat ℂ)} (h4 : ops.length = 4) :
    ∃ m', measure4 RadauInt.imported O rest m ops = (.error .name, m') ∧ m'.pos = 0 ∧ m'.WF l r ∧ Same m m' l := by
  obtain ⟨m', hm⟩ := position_ok hO hw hs ha (b := 0) (Nat.zero_le _)
  have hm0 : m.position O 0 = .ok m' := hm
  have hp : m.positions O [0] = .ok m' := by
    rw [MPS.positions, hm0]
    rfl
  obtain ⟨w, e1, e2, -, -, -, e3⟩ := C09_position_bookkeeping hO hw hs [0] hp
  have e4 := C07_position_preserves_state hO hw hs [0] hp
  refine ⟨m', ?_, by simpa using e3, w, e1, e2, e4⟩
  have hl : 0 < m'.tensors.length := by rw [e1, hw.len]; exact hN
  have hg : ∃ t, m'.getItem 0 = .ok t := by
    refine ⟨m'.tensors[0], ?_⟩
    rw [MPS.getItem, if_pos ⟨by exact_mod_cast hl, by simp⟩, getZ, pyIdx]
    simp [hl, getT]
  obtain ⟨t, ht⟩ := hg
  rw [measure4, if_neg (by simp [h4]), hm0]
  simp only
  rw [ht]
  simp only
  rw [if_neg mf_missing]

/-- **C124 (number of operators).**  Any other number of operators raises AssertionError, and the object is unchanged. -/
theorem C124_count (names : List String) (O : LinAlg) (rest : MPS → List (Mat ℂ) → Res ℂ × MPS) (m : MPS) {ops : List (Mat ℂ)} (h4 : ops.length ≠ 4) :
    measure4 names O rest m ops = (.error .assertion, m) := by
  rw [measure4, if_pos h4]

/-! ## Witnesses -/

example : ∃ (O : LinAlg) (m' : MPS), O.Spec ∧
    measure4 RadauInt.imported O (fun m _ => (.ok 0, m)) ghz (List.replicate 4 ⟨2, 2, fun i j => if i = j then 1 else 0⟩) = (.error .name, m') ∧
      m'.pos = 0 ∧ Same ghz m' 1 := by
  obtain ⟨O, hO, -⟩ := ghz_moves
  obtain ⟨m', h1, h2, -, h3⟩ := C124_after hO (fun m _ => (.ok 0, m)) ghz_wf (by norm_num [ghz]) (by norm_num [ghz])
    ⟨[1, 1, 1], 0, 0, by simp [Cfg, ghz, ghzT], by norm_num, by rw [ghz_amp _ _ _ (by norm_num) (by norm_num) (by norm_num)]; norm_num⟩
    (ops := List.replicate 4 ⟨2, 2, fun i j => if i = j then 1 else 0⟩) (by simp)
  exact ⟨O, m', hO, h1, h2, h3⟩

end

end PyTeN.FourPoint
