import Verif.Engine.TebdError
import Verif.Props.HamGate

/-! # The truncated weight of a real-time TEBD run (C103) -/

namespace PyTeN
open Finset

variable {O : LinAlg} {gates : GateFn} {ds : List ℕ} {G : ℕ → ℂ → Gate2}

theorem numGates_append (a b : List TEv) : numGates (a ++ b) = numGates a + numGates b := by simp [numGates]

theorem numGates_map (ns : List ℤ) (tau : ℂ) : numGates (ns.map (TEv.gate · tau)) = ns.length := by
  induction ns with
  | nil => rfl
  | cons n ns ih => simp only [numGates, List.map_cons, List.filter_cons, if_true, List.length_cons] at ih ⊢; rw [ih]

theorem bonds_length (N : ℕ) : (bonds N 0).length + (bonds N 1).length = N - 1 := by
  unfold bonds
  rw [List.length_map, List.length_map]
  induction N - 1 with
  | zero => rfl
  | succ k ih =>
    rw [List.range_succ, List.filter_append, List.filter_append, List.length_append, List.length_append]
    rcases Nat.mod_two_eq_zero_or_one k with h | h <;> simp [h] <;> omega

theorem numGates_E (N : ℕ) (tau : ℂ) : numGates (Layer.evs N (.E tau)) = (bonds N 0).length := numGates_map _ _

theorem numGates_O (N : ℕ) (tau : ℂ) : numGates (Layer.evs N (.O tau)) = (bonds N 1).length := by
  have := numGates_map (bonds N 1).reverse tau
  rw [List.length_reverse] at this
  exact this

theorem numGates_cons (N : ℕ) (x : Layer) (ls : List Layer) :
    numGates (layersEvs N (x :: ls)) = numGates (x.evs N) + numGates (layersEvs N ls) := by
  rw [← numGates_append]; rfl

theorem numGates_step (N : ℕ) (dt : ℂ) (last due : Bool) :
    numGates (layersEvs N (stepLayers dt last due)) ≤ (bonds N 1).length + (if last then 1 else 2) * (bonds N 0).length := by
  have h0 : numGates (layersEvs N []) = 0 := rfl
  have hR : numGates (Layer.evs N .R) = 0 := rfl
  unfold stepLayers closing
  cases last <;> cases due <;> simp [numGates_cons, numGates_E, numGates_O, h0, hR] <;> omega

theorem numGates_pre (N : ℕ) (dt : ℂ) (cp : Option ℤ) : ∀ k it,
    numGates (layersEvs N (preLayers dt cp it k)) ≤ k * ((bonds N 1).length + 2 * (bonds N 0).length) := by
  intro k
  induction k with
  | zero => intro it; simp [preLayers, layersEvs, numGates]
  | succ k ih =>
    intro it
    rw [preLayers, layersEvs_append, numGates_append]
    have := numGates_step N dt false (cpAt cp it)
    have := ih (it + 1)
    simp only [Bool.false_eq_true, if_false] at *
    rw [Nat.succ_mul]; omega

/-- A run of `n+1` steps on `N` sites applies at most `2(n+1)(N-1)` gates. -/
theorem numGates_run (N : ℕ) (dt : ℂ) (cp : Option ℤ) (n it : ℕ) :
    numGates (layersEvs N (.E (dt / 2) :: allLayers dt cp it (n + 1))) ≤ 2 * (n + 1) * (N - 1) := by
  rw [numGates_cons, numGates_E, allLayers, layersEvs_append, numGates_append, ← bonds_length]
  have h1 := numGates_step N dt true (cpAt cp (it + n))
  have h2 := numGates_pre N dt cp n it
  simp only [if_true] at h1
  nlinarith

theorem layer_imag {N : ℕ} {x : Layer} (h : match x with | .E t => star t = -t | .O t => star t = -t | .R => True) :
    ∀ e ∈ x.evs N, e.Imag := by
  intro e he
  cases x with
  | R => simp only [Layer.evs, List.mem_singleton] at he; subst he; trivial
  | E tau => obtain ⟨n, hn, rfl⟩ := List.mem_map.mp he; exact h
  | O tau => obtain ⟨n, hn, rfl⟩ := List.mem_map.mp he; exact h

theorem step_imag {dt : ℂ} (h : star dt = -dt) (last due : Bool) :
    ∀ x ∈ stepLayers dt last due, match x with | .E t => star t = -t | .O t => star t = -t | .R => True := by
  have h2 : star (dt / 2) = -(dt / 2) := by
    rw [star_div₀, h, neg_div]; congr 2; simp
  intro x hx
  unfold stepLayers closing at hx
  cases last <;> cases due <;> simp at hx <;> rcases hx with rfl | rfl | rfl <;> first | exact h | exact h2 | trivial

theorem run_imag {dt : ℂ} (h : star dt = -dt) (N : ℕ) (cp : Option ℤ) (n it : ℕ) :
    ∀ e ∈ layersEvs N (.E (dt / 2) :: allLayers dt cp it (n + 1)), e.Imag := by
  have h2 : star (dt / 2) = -(dt / 2) := by
    rw [star_div₀, h, neg_div]; congr 2; simp
  have hp : ∀ k it, ∀ x ∈ preLayers dt cp it k, match x with | .E t => star t = -t | .O t => star t = -t | .R => True := by
    intro k
    induction k with
    | zero => intro it x hx; simp [preLayers] at hx
    | succ k ih =>
      intro it x hx
      rw [preLayers] at hx
      rcases List.mem_append.mp hx with hx | hx
      · exact step_imag h _ _ x hx
      · exact ih _ x hx
  intro e he
  obtain ⟨x, hx, he⟩ := List.mem_flatMap.mp he
  refine layer_imag ?_ e he
  rcases List.mem_cons.mp hx with rfl | hx
  · exact h2
  · rw [allLayers] at hx
    rcases List.mem_append.mp hx with hx | hx
    · exact hp _ _ x hx
    · exact step_imag h _ _ x hx

/-- The Schmidt values of a truncating unitary gate. -/
theorem gate_weights (hO : O.Spec) {m p : MPS} {l r n D : ℕ} {g : Gate2} {th tw : ℝ} {k : ℕ} (hw : m.WF l r) (hs : m.sth < 1e-15)
    (hc : m.Canonical) (hZ : m.Z ≠ 0) (hn : n + 1 < m.N) (ha : g.a' = g.a) (hb : g.b' = g.b)
    (hg : ∀ x < g.a, ∀ y < g.b, ∀ x' < g.a, ∀ y' < g.b,
      ∑ u ∈ range g.a, ∑ w ∈ range g.b, g.v x y u w * star (g.v x' y' u w) = if x = x' ∧ y = y' then 1 else 0)
    (h : m.applyTwoSiteGate O g n (some D) th = .ok (tw, k, p)) :
    ∃ S : List ℝ, (∀ x ∈ S, 0 ≤ x) ∧ k ≤ S.length ∧ (∀ q < k, th < S.getD q 0) ∧
      (k = D ∨ ∀ q, k ≤ q → q < S.length → S.getD q 0 ≤ th) ∧ tw = ((S.drop k).map (fun x => x ^ 2)).sum ∧
      (S.map (fun x => x ^ 2)).sum = 1 ∧ (k ≠ 0 → p.Canonical ∧ p.normSq l r = m.normSq l r ∧
        distSq m.ds l r (fun s i j => act2 n g.a g.b g.v (fun s => m.amp s i j) s) p.amp ≤ m.normSq l r * (2 * tw)) := by
  have hd : p.ds = m.ds ∧ g.a = m.ds.getD n 0 ∧ g.b = m.ds.getD (n + 1) 0 := by
    obtain ⟨m1, A, B, L, R, M, U, S, V, z, hM, hcan, hA, hLA, hRB, hMr, hMc, hsv, hk, htw, hz, hzp,
      ⟨t, w, hpt, htd, hwd, htl, htr, hwl, hwr, htO, hwO⟩, ⟨dA, dB, hds, hdA, hdB⟩, -⟩ := (applyTwoSiteGate_ok hO hw hs hn h).blocks
    have hl : dA.length = n := by rw [← hdA, List.length_map, hA]
    refine ⟨?_, ?_, ?_⟩
    · unfold MPS.ds at hds ⊢
      rw [hpt, List.map_append, List.map_cons, List.map_cons, hdA, hdB, htd, hwd, ha, hb, ← hds]
    · rw [hds]; subst hl; simp [List.getD_eq_getElem?_getD]
    · rw [hds]; subst hl; simp [List.getD_eq_getElem?_getD]
  obtain ⟨hd, hga, hgb⟩ := hd
  have hN : m.N = m.ds.length := by rw [← hw.len, MPS.ds, List.length_map]
  obtain ⟨-, -, -, -, -, S, z, -, hS0, hkS, hz, hth, hDk, h7, h8⟩ := C23_applyTwoSiteGate_truncation hO hw hs hn h
  obtain ⟨h9, h10, h11⟩ := h8 hc
  rw [hd] at h10 h11
  have h0 : 0 ≤ tw := by rw [h7, sum_sq_list]; exact sum_nonneg fun _ _ => by positivity
  have hν : 0 < m.normSq l r := by
    rw [canonical_normSq hw hc]; exact Complex.normSq_pos.mpr hZ
  have hu : nrm2 m.ds l r (fun s i j => act2 n g.a g.b g.v (fun s => m.amp s i j) s) = m.normSq l r := by
    have hg' : g.Unit := by unfold Gate2.Unit; rw [ha, hb]; exact hg
    rw [act2_nrm2 hg' (by omega) hga (ha.trans hga) hgb (hb.trans hgb)]
    rfl
  have hS : (S.map (fun x => x ^ 2)).sum = 1 := by
    have : m.normSq l r = m.normSq l r * (S.map (fun x => x ^ 2)).sum := by
      rw [← h10, ← hu]; unfold nrm2 distSq; simp only [sub_zero]
    have h2 : m.normSq l r * ((S.map (fun x => x ^ 2)).sum - 1) = 0 := by linarith
    rcases mul_eq_zero.mp h2 with h3 | h3
    · exact absurd h3 hν.ne'
    · linarith
  refine ⟨S, hS0, hkS, fun q hq => (hth q hq).2, hDk, h7, hS, fun hk => ?_⟩
  obtain ⟨hpc, hpn⟩ := h9 hk
  have h1 : tw ≤ 1 := by
    rw [h7, ← hS]
    have e := congrArg List.sum (congrArg (List.map fun x : ℝ => x ^ 2) (List.take_append_drop k S))
    rw [List.map_append, List.sum_append] at e
    have : 0 ≤ ((S.take k).map fun x : ℝ => x ^ 2).sum := by rw [sum_sq_list]; exact sum_nonneg fun _ _ => by positivity
    linarith
  refine ⟨hpc, hpn, renormalised_le hν (hz hk) h0 h1 hu ?_ h11⟩
  rw [← hpn, ← hd]
  rfl

/-- **C103.** One truncating gate: for a unitary gate and a canonical state, the state after `applyTwoSiteGate` has the norm of the state before, and its squared
distance from the gated state is at most twice the weight `tw<1` that the call returns, relative to the squared norm. -/
theorem C103_gate (hO : O.Spec) {m p : MPS} {l r n D : ℕ} {g : Gate2} {th tw : ℝ} {k : ℕ} (hw : m.WF l r) (hs : m.sth < 1e-15)
    (hc : m.Canonical) (hZ : m.Z ≠ 0) (hn : n + 1 < m.N) (ha : g.a' = g.a) (hb : g.b' = g.b)
    (hg : ∀ x < g.a, ∀ y < g.b, ∀ x' < g.a, ∀ y' < g.b,
      ∑ u ∈ range g.a, ∑ w ∈ range g.b, g.v x y u w * star (g.v x' y' u w) = if x = x' ∧ y = y' then 1 else 0)
    (h : m.applyTwoSiteGate O g n (some D) th = .ok (tw, k, p)) (htw : tw < 1) :
    p.Canonical ∧ p.normSq l r = m.normSq l r ∧
    distSq m.ds l r (fun s i j => act2 n g.a g.b g.v (fun s => m.amp s i j) s) p.amp ≤ m.normSq l r * (2 * tw) := by
  obtain ⟨S, -, -, -, -, h5, h6, h7⟩ := gate_weights hO hw hs hc hZ hn ha hb hg h
  refine h7 ?_
  rintro rfl
  rw [List.drop_zero, h6] at h5
  linarith

/-- The phase gates keep norms. -/
theorem phaseG_unit {n : ℕ} (tau : ℂ) (ht : star tau = -tau) : (phaseG n tau).Unit := by
  intro x hx y hy x' hx' y' hy'
  change ∑ u ∈ range (phaseG n tau).a, ∑ w ∈ range (phaseG n tau).b, (phaseG n tau).v x y u w * star ((phaseG n tau).v x' y' u w) = _
  rw [sum_eq_single_of_mem x (mem_range.mpr hx), sum_eq_single_of_mem y (mem_range.mpr hy)]
  · by_cases h : x' = x ∧ y' = y
    · obtain ⟨rfl, rfl⟩ := h
      simp only [phaseG, and_self, if_true]
      rw [Complex.star_def, ← Complex.exp_conj, ← Complex.exp_add]
      have : (starRingEnd ℂ) tau = -tau := ht
      simp [this]
    · rw [if_neg (fun e => h ⟨e.1.symm, e.2.symm⟩)]
      simp only [phaseG, if_neg h, star_zero, mul_zero]
  · intro b _ hb
    simp [phaseG, hb.symm]
  · intro b _ hb
    refine sum_eq_zero fun c _ => ?_
    simp [phaseG, hb.symm]

/-- **C103.** With `thresh=0` and `Dmax≥1` a single unitary gate never discards everything: `tw<1`. -/
theorem C103_gate_lt_one (hO : O.Spec) {m p : MPS} {l r n D : ℕ} {g : Gate2} {tw : ℝ} {k : ℕ} (hw : m.WF l r) (hs : m.sth < 1e-15)
    (hc : m.Canonical) (hZ : m.Z ≠ 0) (hn : n + 1 < m.N) (ha : g.a' = g.a) (hb : g.b' = g.b)
    (hg : ∀ x < g.a, ∀ y < g.b, ∀ x' < g.a, ∀ y' < g.b,
      ∑ u ∈ range g.a, ∑ w ∈ range g.b, g.v x y u w * star (g.v x' y' u w) = if x = x' ∧ y = y' then 1 else 0)
    (hD : 1 ≤ D) (h : m.applyTwoSiteGate O g n (some D) 0 = .ok (tw, k, p)) : tw < 1 ∧ 1 ≤ k := by
  obtain ⟨S, h1, h2, h3, h4, h5, h6, h7⟩ := gate_weights hO hw hs hc hZ hn ha hb hg h
  have hk : k ≠ 0 := by
    rintro rfl
    have : (S.map (fun x => x ^ 2)).sum = 0 := by
      rw [sum_sq_list]
      refine sum_eq_zero fun q hq => ?_
      have hq' := mem_range.mp hq
      have h11 : 0 ≤ S.getD q 0 := by
        rw [List.getD_eq_getElem _ _ hq']; exact h1 _ (List.getElem_mem _)
      rcases h4 with h4 | h4
      · omega
      rw [le_antisymm (h4 q (Nat.zero_le _) hq') h11]; norm_num
    linarith
  refine ⟨?_, by omega⟩
  have e := congrArg List.sum (congrArg (List.map fun x : ℝ => x ^ 2) (List.take_append_drop k S))
  rw [List.map_append, List.sum_append, ← h5, h6, sum_sq_list] at e
  have : 0 < ∑ q ∈ range (S.take k).length, (S.take k).getD q 0 ^ 2 := by
    refine sum_pos' (fun _ _ => by positivity) ⟨0, mem_range.mpr (by rw [List.length_take]; omega), ?_⟩
    have : (S.take k).getD 0 0 = S.getD 0 0 := by
      rw [List.getD_eq_getElem?_getD, List.getElem?_take, if_pos (by omega), ← List.getD_eq_getElem?_getD]
    rw [this]
    exact pow_pos (h3 0 (by omega)) 2
  linarith

/-- A truncating call: on `|000>+|111>` with `Dmax=1` a phase gate discards some weight, but not all of it. -/
example : ∃ (O : LinAlg) (m p : MPS) (tw : ℝ) (k : ℕ), O.Spec ∧ Good [2, 2, 2] 1 1 m ∧
    m.applyTwoSiteGate O (phaseG 0 Complex.I) (0 : ℕ) (some 1) 0 = .ok (tw, k, p) ∧ 0 < tw ∧ tw < 1 ∧
    distSq m.ds 1 1 (fun s i j => act2 0 2 2 (phaseG 0 Complex.I).v (fun s => m.amp s i j) s) p.amp ≤ m.normSq 1 1 * (2 * tw) := by
  obtain ⟨O, hO⟩ := exists_linAlg
  obtain ⟨m, -, hm, hp, ham⟩ := ghz_good hO
  have hg := phaseG_unit (n := 0) Complex.I (by simp)
  have hn : 0 + 1 < m.N := by rw [hm.N]; norm_num
  have hcf : Conf [2, 2, 2] [0, 0, 0] := .cons (by norm_num) (.cons (by norm_num) (.cons (by norm_num) .nil))
  have hne : m.amp [0, 0, 0] 0 0 ≠ 0 := by
    rw [ham _ hcf, ghz_amp _ _ _ (by norm_num) (by norm_num) (by norm_num)]; simp
  obtain ⟨tw, k, p, h⟩ := C22_applyTwoSiteGate_succeeds hO (g := phaseG 0 Complex.I) (th := 0) 1 hm.wf hm.sth hn
    (by rw [hm.ds_eq]; rfl) (by rw [hm.ds_eq]; rfl) le_rfl
    (cfg_iff_map.mpr (by show List.Forall₂ _ m.ds _; rw [hm.ds_eq]; exact hcf)) (by norm_num) hne
  obtain ⟨hlt, hk⟩ := C103_gate_lt_one hO hm.wf hm.sth hm.can hm.Z hn rfl rfl hg le_rfl h
  have hnn := tw_nonneg hO hm.toFit (by norm_num) h
  refine ⟨O, m, p, tw, k, hO, hm, h, lt_of_le_of_ne hnn ?_, hlt, (C103_gate hO hm.wf hm.sth hm.can hm.Z hn rfl rfl hg h hlt).2.2⟩
  intro h0
  rw [← h0] at h
  obtain ⟨hk1, -, hr, hc, hpos, -⟩ := C23_applyTwoSiteGate_truncation hO hm.wf hm.sth hn h
  obtain ⟨-, -, -, hd, z, hz, hamp⟩ := C22_applyTwoSiteGate hO hm.wf hm.sth hn h
  rw [hm.ds_eq] at hd
  have key : ∀ x < 2, ∀ y < 2, ∀ u < 2, ghz.amp [x, y, u] 0 0 * Complex.exp (Complex.I * x) = (z : ℂ) * p.amp [x, y, u] 0 0 := by
    intro x hx y hy u hu
    have hcf : Conf [2, 2, 2] [x, y, u] := .cons hx (.cons hy (.cons hu .nil))
    have := hamp [x, y, u] (cfg_iff_map.mpr (by show List.Forall₂ _ p.ds _; rw [hd]; exact hcf)) 0 (by norm_num) 0
    rw [← this, ← ham _ hcf]
    unfold act2
    change _ = ∑ x' ∈ range 2, ∑ y' ∈ range 2, _
    rw [sum_eq_single_of_mem x (mem_range.mpr hx), sum_eq_single_of_mem y (mem_range.mpr hy)]
    · simp [phaseG]
    · intro b _ hb
      simp [phaseG, hb]
    · intro b _ hb
      refine sum_eq_zero fun c _ => ?_
      simp [phaseG, hb]
  have hfac : ∀ x y u, p.amp [x, y, u] 0 0 = p.Z * (chain (p.tensors.take 1) [x] 0 0 * p.mat.v 0 0 * chain (p.tensors.drop 1) [y, u] 0 0) := by
    intro x y u
    unfold MPS.amp
    rw [hr, hc, hpos, show k = 1 by omega]
    simp
  have k1 := key 0 (by norm_num) 0 (by norm_num) 0 (by norm_num)
  have k2 := key 1 (by norm_num) 1 (by norm_num) 1 (by norm_num)
  have k3 := key 0 (by norm_num) 1 (by norm_num) 1 (by norm_num)
  have hz0 : (z : ℂ) ≠ 0 := by exact_mod_cast hz.ne'
  rw [ghz_amp _ _ _ (by norm_num) (by norm_num) (by norm_num), hfac] at k1 k2 k3
  have e3 : (0 : ℂ) = z * (p.Z * (chain (p.tensors.take 1) [0] 0 0 * p.mat.v 0 0 * chain (p.tensors.drop 1) [1, 1] 0 0)) := by
    rw [← k3]; simp
  have e1 : Complex.exp (Complex.I * ((0 : ℕ) : ℂ)) ≠ 0 := Complex.exp_ne_zero _
  have e2 : Complex.exp (Complex.I * ((1 : ℕ) : ℂ)) ≠ 0 := Complex.exp_ne_zero _
  rw [if_pos (by simp), one_mul] at k1 k2
  rw [k1] at e1
  rw [k2] at e2
  rw [eq_comm, mul_eq_zero, mul_eq_zero, mul_eq_zero, mul_eq_zero] at e3
  rcases e3 with e | e | (e | e) | e
  · exact hz0 e
  · simp [e] at e1
  · simp [e] at e1
  · simp [e] at e1
  · exact e2 (by rw [e]; ring)

/-- **C103.** Real-time TEBD (`dt` imaginary, gates unitary): if the truncated weight of the engine grows by less than one during a run of `n+1` steps from a
canonical state, the final state is normalised, and its squared distance from the exact result of the `n+1` symmetric Trotter steps, applied to the normalised
initial state, is at most `4(n+1)(N-1)` times that growth. -/
theorem C103_run (hO : O.Spec) (hG : GateGroup gates ds G)
    (hU : ∀ n, n + 1 < ds.length → ∀ tau : ℂ, star tau = -tau → (G n tau).Unit) {l r : ℕ} {dt : ℂ} (hdt : star dt = -dt) {n : ℕ}
    {D : Option ℕ} {th : ℝ} {v : ℤ} {cp : Option ℤ} {keep : Bool} {w w' : World} (hm : Good ds l r w.evo.eng.mps)
    (hZ : PosC w.evo.eng.mps.Z) (h : doTEBD O gates dt ((n : ℤ) + 1) D th v cp keep w = .ok w') (htw : w'.evo.tw - w.evo.tw < 1) :
    w.evo.tw ≤ w'.evo.tw ∧ w'.evo.eng.mps.Canonical ∧ w'.evo.eng.mps.normSq l r = 1 ∧
    distSq ds l r (fun s i j => opEvs G (layersEvs ds.length (symSteps dt (n + 1)))
        (fun s => w.evo.eng.mps.amp s i j / √(w.evo.eng.mps.normSq l r)) s) w'.evo.eng.mps.amp
      ≤ 4 * (n + 1) * (ds.length - 1 : ℕ) * (w'.evo.tw - w.evo.tw) := by
  have h2 := (C36_schedule h).2
  rw [hm.N, show ((n : ℤ) + 1).toNat = n + 1 by omega] at h2
  unfold Evo.st at h2
  have hmono := replay_mono hO hG _ _ _ _ _ hm.toFit (layers_inRange _) h2
  obtain ⟨a1, a2, c, a3, a4, a5⟩ := replay_error hO hG hU _ _ _ _ _ hm hZ (layers_inRange _) (run_imag hdt _ _ _ _) h2 htw
  have hn1 : w'.evo.eng.mps.normSq l r = 1 := by rw [canonical_normSq a1.wf a1.can, doTEBD_Z h]; simp
  have hc : c = √(w.evo.eng.mps.normSq l r) := by
    rw [← a4, hn1, mul_one, Real.sqrt_sq a3.le]
  refine ⟨hmono, a1.can, hn1, ?_⟩
  set ν := w.evo.eng.mps.normSq l r with hν
  have hν0 : 0 < ν := by rw [← a4, hn1]; positivity
  have e1 : distSq ds l r (fun s i j => opEvs G (layersEvs ds.length (symSteps dt (n + 1)))
        (fun s => w.evo.eng.mps.amp s i j / √ν) s) w'.evo.eng.mps.amp
      = Complex.normSq ((c : ℂ)⁻¹) * nrm2 ds l r (fun s i j => opEvs G (layersEvs ds.length (.E (dt / 2) :: allLayers dt cp w.evo.it (n + 1)))
        (fun s => w.evo.eng.mps.amp s i j) s - (c : ℂ) * w'.evo.eng.mps.amp s i j) := by
    rw [← nrm2_smul]
    refine nrm2_congr (f := fun s i j => _ - _) fun s hs i _ j => ?_
    have hc0 : (c : ℂ) ≠ 0 := by exact_mod_cast a3.ne'
    rw [← all_same hG dt cp n w.evo.it _ s hs, mul_sub, ← mul_assoc, inv_mul_cancel₀ hc0, one_mul, ← opEvs_smul, ← hc]
    congr 2
    funext t
    rw [div_eq_inv_mul]
  rw [e1, map_inv₀, Complex.normSq_ofReal, ← pow_two, hc, Real.sq_sqrt hν0.le]
  rw [hc] at a5
  have hK : (numGates (layersEvs ds.length (.E (dt / 2) :: allLayers dt cp w.evo.it (n + 1))) : ℝ) ≤ 2 * (n + 1) * (ds.length - 1 : ℕ) := by
    exact_mod_cast numGates_run ds.length dt cp n w.evo.it
  have hT : 0 ≤ w'.evo.tw - w.evo.tw := by linarith
  calc _ ≤ ν⁻¹ * (ν * (2 * numGates (layersEvs ds.length (.E (dt / 2) :: allLayers dt cp w.evo.it (n + 1))) * (w'.evo.tw - w.evo.tw))) :=
        mul_le_mul_of_nonneg_left a5 (by positivity)
    _ = 2 * numGates (layersEvs ds.length (.E (dt / 2) :: allLayers dt cp w.evo.it (n + 1))) * (w'.evo.tw - w.evo.tw) := by
        rw [← mul_assoc, inv_mul_cancel₀ hν0.ne', one_mul]
    _ ≤ _ := by
        refine mul_le_mul_of_nonneg_right ?_ hT
        linarith

/-- **C103.** The same in terms of the overlap of the final state with the exact one. -/
theorem C103_overlap (hO : O.Spec) (hG : GateGroup gates ds G)
    (hU : ∀ n, n + 1 < ds.length → ∀ tau : ℂ, star tau = -tau → (G n tau).Unit) {l r : ℕ} {dt : ℂ} (hdt : star dt = -dt) {n : ℕ}
    {D : Option ℕ} {th : ℝ} {v : ℤ} {cp : Option ℤ} {keep : Bool} {w w' : World} (hm : Good ds l r w.evo.eng.mps)
    (hZ : PosC w.evo.eng.mps.Z) (h1 : w.evo.eng.mps.normSq l r = 1)
    (h : doTEBD O gates dt ((n : ℤ) + 1) D th v cp keep w = .ok w') (htw : w'.evo.tw - w.evo.tw < 1) :
    1 - 2 * (n + 1) * (ds.length - 1 : ℕ) * (w'.evo.tw - w.evo.tw)
      ≤ sumCfg ds (fun s => ∑ i ∈ range l, ∑ j ∈ range r,
        (opEvs G (layersEvs ds.length (symSteps dt (n + 1))) (fun s => w.evo.eng.mps.amp s i j) s * star (w'.evo.eng.mps.amp s i j)).re) := by
  obtain ⟨-, hc, hn, he⟩ := C103_run hO hG hU hdt hm hZ h htw
  simp only [h1, Real.sqrt_one, Complex.ofReal_one, div_one] at he
  have hd : w'.evo.eng.mps.ds = ds := by
    have h2 := (C36_schedule h).2
    rw [hm.N, show ((n : ℤ) + 1).toNat = n + 1 by omega] at h2
    exact (replay_error hO hG hU _ _ _ _ _ hm hZ (layers_inRange _) (run_imag hdt _ _ _ _) h2 htw).1.ds_eq
  have e1 : nrm2 ds l r (fun s i j => opEvs G (layersEvs ds.length (symSteps dt (n + 1))) (fun s => w.evo.eng.mps.amp s i j) s) = 1 := by
    have h0 : ∀ s, Conf ds s → ∀ i < l, ∀ j, opEvs G (layersEvs ds.length (symSteps dt (n + 1))) (fun s => w.evo.eng.mps.amp s i j) s
        = opEvs G (layersEvs ds.length (.E (dt / 2) :: allLayers dt none 0 (n + 1))) (fun s => w.evo.eng.mps.amp s i j) s :=
      fun s hs i _ j => (all_same hG dt none n 0 _ s hs).symm
    rw [nrm2_congr h0, opEvs_nrm2 hG hU _ (layers_inRange _) (run_imag hdt _ _ _ _), ← h1, ← hm.ds_eq]
    rfl
  have e2 : nrm2 ds l r w'.evo.eng.mps.amp = 1 := by rw [← hn, ← hd]; rfl
  have e3 := nrm2_sub (ds := ds) (l := l) (r := r)
    (fun s i j => opEvs G (layersEvs ds.length (symSteps dt (n + 1))) (fun s => w.evo.eng.mps.amp s i j) s) w'.evo.eng.mps.amp
  rw [e1, e2] at e3
  have e4 : nrm2 ds l r (fun s i j => opEvs G (layersEvs ds.length (symSteps dt (n + 1))) (fun s => w.evo.eng.mps.amp s i j) s
      - w'.evo.eng.mps.amp s i j) ≤ 4 * (n + 1) * (ds.length - 1 : ℕ) * (w'.evo.tw - w.evo.tw) := he
  rw [e3] at e4
  change _ ≤ re2 ds l r (fun s i j => opEvs G (layersEvs ds.length (symSteps dt (n + 1))) (fun s => w.evo.eng.mps.amp s i j) s) w'.evo.eng.mps.amp
  linarith

/-- **C103** for the transverse-field Ising chain with real couplings, for every threshold and bond dimension: the gates `exp(tau h_n)` are the ones whose generators
add up to the Hamiltonian of the MPO (C73). -/
theorem C103_tfi (hO : O.Spec) (Jx Bz : List ℂ) (hN : 3 ≤ Bz.length) (hJ : Bz.length - 1 ≤ Jx.length) (h1 : RealL Jx) (h2 : RealL Bz) :
    ∃ Ws G, tfi Jx Bz true = .ok Ws ∧ GateGroup (twoSiteGate Ws) (List.replicate Bz.length 2) G ∧
      ∀ {l r n : ℕ} {dt : ℂ} {D : Option ℕ} {th : ℝ} {v : ℤ} {cp : Option ℤ} {keep : Bool} {w w' : World}, star dt = -dt →
        Good (List.replicate Bz.length 2) l r w.evo.eng.mps → PosC w.evo.eng.mps.Z →
        doTEBD O (twoSiteGate Ws) dt ((n : ℤ) + 1) D th v cp keep w = .ok w' → w'.evo.tw - w.evo.tw < 1 →
        w'.evo.eng.mps.normSq l r = 1 ∧
        distSq (List.replicate Bz.length 2) l r (fun s i j => opEvs G (layersEvs Bz.length (symSteps dt (n + 1)))
            (fun s => w.evo.eng.mps.amp s i j / √(w.evo.eng.mps.normSq l r)) s) w'.evo.eng.mps.amp
          ≤ 4 * (n + 1) * (Bz.length - 1 : ℕ) * (w'.evo.tw - w.evo.tw) := by
  obtain ⟨Ws, e1, e2⟩ := tfi_nn Jx Bz (by omega) hJ
  have hG := gateGroup_nn e2 hN
  refine ⟨Ws, _, e1, hG, ?_⟩
  intro l r n dt D th v cp keep w w' hdt hm hZ h htw
  have hU : ∀ n, n + 1 < (List.replicate Bz.length 2).length → ∀ tau : ℂ, star tau = -tau →
      (nnGates 2 1 Bz.length (tfiX Jx Bz) n tau).Unit := by
    intro n hn tau ht
    rw [List.length_replicate] at hn
    obtain ⟨Ws', e1', e3⟩ := C74_tfi Jx Bz hN hJ h1 h2 ht
    obtain rfl := Except.ok.inj (e1.symm.trans e1')
    obtain ⟨G', e4, e5⟩ := e3 n hn
    have e6 := hG.val n tau (by rw [List.length_replicate]; exact hn)
    obtain rfl := Except.ok.inj (e6.symm.trans e4)
    have hg : ∀ n < Bz.length, (List.replicate Bz.length 2).getD n 0 = 2 := fun n hn => by simp [hn]
    have a := hG.a n tau
    have a' := hG.a' n tau
    have b := hG.b n tau
    have b' := hG.b' n tau
    rw [hg n (by omega)] at a a'
    rw [hg _ hn] at b b'
    unfold Gate2.Unit
    rw [a, a', b, b']
    exact e5
  obtain ⟨-, -, a3, a4⟩ := C103_run hO hG hU hdt hm hZ h htw
  rw [List.length_replicate] at a4
  exact ⟨a3, a4⟩

/-- **C103** for a run after `reset()`: the accumulators count this run alone.  The truncated weight that is returned bounds the
error with respect to the state held before, iteration and time are those of this run. -/
theorem C103_reset (hO : O.Spec) (hG : GateGroup gates ds G)
    (hU : ∀ n, n + 1 < ds.length → ∀ tau : ℂ, star tau = -tau → (G n tau).Unit) {l r : ℕ} {dt : ℂ} (hdt : star dt = -dt) {n : ℕ}
    {D : Option ℕ} {th : ℝ} {v : ℤ} {cp : Option ℤ} {keep : Bool} {e : Evo} {disk : Disk} {w' : World} (hm : Good ds l r e.eng.mps)
    (hZ : PosC e.eng.mps.Z) (h : doTEBD O gates dt ((n : ℤ) + 1) D th v cp keep ⟨e.reset, disk⟩ = .ok w') (htw : w'.evo.tw < 1) :
    0 ≤ w'.evo.tw ∧ w'.evo.it = n + 1 ∧ (1 ≤ v → w'.evo.t0 = (n + 1) * |dt.im|) ∧
    distSq ds l r (fun s i j => opEvs G (layersEvs ds.length (symSteps dt (n + 1)))
        (fun s => e.eng.mps.amp s i j / √(e.eng.mps.normSq l r)) s) w'.evo.eng.mps.amp
      ≤ 4 * (n + 1) * (ds.length - 1 : ℕ) * w'.evo.tw := by
  have e1 : (⟨e.reset, disk⟩ : World).evo.tw = 0 := rfl
  have e2 : (⟨e.reset, disk⟩ : World).evo.t0 = 0 := rfl
  have e3 : (⟨e.reset, disk⟩ : World).evo.it = 0 := rfl
  have h0 := C103_run hO hG hU hdt (w := ⟨e.reset, disk⟩) hm hZ h (by rw [e1, sub_zero]; exact htw)
  rw [e1, sub_zero] at h0
  have hcast : ((n : ℤ) + 1) = ((n + 1 : ℕ) : ℤ) := by push_cast; rfl
  rw [hcast] at h
  refine ⟨h0.1, ?_, fun hv => ?_, h0.2.2.2⟩
  · rcases le_or_gt 1 v with hv | hv
    · have := (C37_tebd_time_partial hv h).1
      rwa [e3, zero_add] at this
    · have := (C37_tebd_silent (by omega) h).1
      rwa [e3, zero_add] at this
  · have := (C37_tebd_time_partial hv h).2
    rw [e2, zero_add] at this
    rw [this]; push_cast; rfl

/-- Five steps on three entangled qubits. -/
example : ∃ (O : LinAlg) (m : MPS) (w : World), O.Spec ∧ Good [2, 2, 2] 1 1 m ∧ PosC m.Z ∧
    doTEBD O phaseFn Complex.I 5 (some 8) 0 1 (some 2) false ⟨evoOf m "run", fun _ => none⟩ = .ok w ∧ w.evo.tw - 0 < 1 ∧
    distSq [2, 2, 2] 1 1 (fun s i j => opEvs phaseG (layersEvs 3 (symSteps Complex.I 5)) (fun s => m.amp s i j / √(m.normSq 1 1)) s)
      w.evo.eng.mps.amp ≤ 40 * (w.evo.tw - 0) := by
  obtain ⟨O, hO⟩ := exists_linAlg
  obtain ⟨m, -, hg, hp, -⟩ := ghz_good hO
  obtain ⟨w, h1, h2⟩ := tebd_runs hO Complex.I 4 (some 2) (by simp) false 1 (fun _ => none) hg
  have hlt : w.evo.tw - (evoOf m "run").tw < 1 := by rw [h2]; simp [evoOf]
  have := (C103_run hO phase_group (fun n _ tau ht => phaseG_unit tau ht) (dt := Complex.I) (by simp) (n := 4) hg hp h1 hlt).2.2.2
  refine ⟨O, m, w, hO, hg, hp, h1, hlt, this.trans (le_of_eq ?_)⟩
  norm_num [evoOf]

/-- Five steps after `reset()` on an engine that has already accumulated something. -/
example : ∃ (O : LinAlg) (m : MPS) (w : World), O.Spec ∧ Good [2, 2, 2] 1 1 m ∧ PosC m.Z ∧
    doTEBD O phaseFn Complex.I 5 (some 8) 0 1 (some 2) false
      ⟨({ evoOf m "run" with tw := 3, t0 := 7, it := 11 } : Evo).reset, fun _ => none⟩ = .ok w ∧ w.evo.tw < 1 := by
  obtain ⟨O, hO⟩ := exists_linAlg
  obtain ⟨m, -, hg, hp, -⟩ := ghz_good hO
  obtain ⟨w, h1, h2⟩ := tebd_runs hO Complex.I 4 (some 2) (by simp) false 1 (fun _ => none) hg
  exact ⟨O, m, w, hO, hg, hp, h1, by rw [h2]; simp⟩

end PyTeN
