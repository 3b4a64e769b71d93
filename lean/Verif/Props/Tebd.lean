import Verif.Engine.TebdFull

/-! # Properties of TEBD (C35–C38, C68, C69) -/

namespace PyTeN
open Finset

noncomputable section

variable {gates : GateFn} {ds : List ℕ} {G : ℕ → ℂ → Gate2} {O : LinAlg}

/-! ## Witnesses -/

/-- Gates `exp(τ n_x)` counting the first site of a bond, on three qubits. -/
def phaseG (n : ℕ) (tau : ℂ) : Gate2 :=
  ⟨[2, 2, 2].getD n 0, [2, 2, 2].getD (n + 1) 0, [2, 2, 2].getD n 0, [2, 2, 2].getD (n + 1) 0,
    fun x y x' y' => if x = x' ∧ y = y' then Complex.exp (tau * x) else 0⟩

/-- The corresponding `twoSiteGate`. -/
def phaseFn : GateFn := fun n _ tau => .ok (phaseG n.toNat tau)

theorem phase_group : GateGroup phaseFn [2, 2, 2] phaseG := by
  refine ⟨?_, fun _ _ => rfl, fun _ _ => rfl, fun _ _ => rfl, fun _ _ => rfl, ?_, ?_⟩
  · intro n tau _; simp [phaseFn]
  · intro n tau tau' _ x hx y hy x' hx' y' hy'
    rw [sum_eq_single_of_mem x (mem_range.mpr hx), sum_eq_single_of_mem y (mem_range.mpr hy)]
    · simp only [phaseG, and_self, if_true]
      split_ifs
      · rw [← Complex.exp_add]; ring_nf
      · simp
    · intro b _ hb
      simp [phaseG, hb.symm]
    · intro b _ hb
      refine sum_eq_zero fun c _ => ?_
      simp [phaseG, hb.symm]
  · intro n _ x _ y _ x' _ y' _
    simp [phaseG]

/-- The entangled state `ghz` in canonical form. -/
theorem ghz_good (hO : O.Spec) : ∃ m, ghz.position O 0 = .ok m ∧ Good [2, 2, 2] 1 1 m ∧ PosC m.Z ∧
    ∀ s, Conf [2, 2, 2] s → m.amp s 0 0 = ghz.amp s 0 0 := by
  obtain ⟨m, hm⟩ := C07_position_succeeds hO [0] ghz_wf (by norm_num [ghz]) (by intro b hb; simp [ghz] at *; omega)
    ⟨[0, 0, 0], 0, 0, ghz_cfg 0 0 0 (by norm_num) (by norm_num) (by norm_num), by norm_num, by
      rw [ghz_amp 0 0 0 (by norm_num) (by norm_num) (by norm_num)]; norm_num⟩
  have hs : ghz.sth < 1e-15 := by norm_num [ghz]
  have hc := C08_canonical_from_right_end hO ghz_wf hs (by norm_num [ghz]) rfl [] hm
  have hb := C09_position_bookkeeping hO ghz_wf hs _ hm
  have ha := C07_position_preserves_state hO ghz_wf hs _ hm
  simp only [MPS.positions] at hm
  split at hm
  · cases hm
  rename_i m1 h1
  cases hm
  obtain ⟨z, hz, hZ⟩ := position_Z hO (effSth_default hs) h1
  have hp : PosC m.Z := ⟨z, hz, by rw [hZ]; simp [ghz]⟩
  refine ⟨m, h1, ⟨⟨hb.1, by rw [hb.2.2.1]; rfl, by rw [(position_keeps h1).2]; exact hs, hp.ne⟩, hc⟩, hp, ?_⟩
  intro s hs'
  exact ha s (cfg_iff_map.mpr hs') 0 (by norm_num) 0

/-- Engine on a state, with nothing computed yet. -/
def evoOf (m : MPS) (file : String) : Evo := ⟨⟨m, [], oneEnv, oneEnv, [], []⟩, 0, 0, 0, 0, file, []⟩

/-! ## C35 -/

/-- **C35.** For every chain length: `applyEven` applies one gate to every even bond, `applyOdd` one to every odd
bond (in some order), together exactly one to each bond `0..N-2`; two gates of the same layer share no site.  The state
afterwards is the one obtained by these gates. -/
theorem C35_layers_partition {D : Option ℕ} {th : ℝ} {tau tau' : ℂ} {e e1 e2 : Evo}
    (h1 : e.applyEven O gates tau D th = .ok e1) (h2 : e1.applyOdd O gates tau' D th = .ok e2) :
    ∃ ev od : List ℤ,
      (ev ++ od).Perm ((List.range (e.eng.mps.N - 1)).map Int.ofNat) ∧
      (∀ n ∈ ev, n % 2 = 0) ∧ (∀ n ∈ od, n % 2 = 1) ∧
      (ev.Pairwise fun n m => n + 2 ≤ m ∨ m + 2 ≤ n) ∧ (od.Pairwise fun n m => n + 2 ≤ m ∨ m + 2 ≤ n) ∧
      e1.log = e.log ++ ev.map (TEv.gate · tau) ∧ e2.log = e1.log ++ od.map (TEv.gate · tau') ∧
      replay O gates D th (ev.map (TEv.gate · tau)) e.st = .ok e1.st ∧
      replay O gates D th (od.map (TEv.gate · tau')) e1.st = .ok e2.st := by
  obtain ⟨a1, a2, a3⟩ := applyEven_spec h1
  obtain ⟨b1, b2, b3⟩ := applyOdd_spec h2
  rw [a1.N] at b2 b3
  refine ⟨bonds e.eng.mps.N 0, (bonds e.eng.mps.N 1).reverse, ?_, ?_, ?_, bonds_apart _ _, ?_, a2, b2, a3, b3⟩
  · have hp : ∀ l : List ℕ, ((l.filter fun n => n % 2 = 0) ++ (l.filter fun n => n % 2 = 1)).Perm l := by
      intro l
      have := List.filter_append_perm (fun n : ℕ => decide (n % 2 = 0)) l
      have e : (l.filter fun n => n % 2 = 1) = l.filter fun n => !decide (n % 2 = 0) := by
        refine List.filter_congr fun n _ => ?_
        rcases Nat.mod_two_eq_zero_or_one n with h | h <;> simp [h]
      rw [e]
      exact this
    refine ((List.reverse_perm _).append_left _).trans ?_
    unfold bonds
    rw [← List.map_append]
    exact (hp _).map _
  · intro n hn; exact (mem_bonds.mp hn).2.2
  · intro n hn; exact (mem_bonds.mp (List.mem_reverse.mp hn)).2.2
  · rw [List.pairwise_reverse]
    exact (bonds_apart _ _).imp fun h => h.symm

example : ∃ (O : LinAlg) (e e1 e2 : Evo), O.Spec ∧ e.eng.mps.N = 3 ∧ e.applyEven O phaseFn 1 (some 4) 0 = .ok e1 ∧
    e1.applyOdd O phaseFn 2 (some 4) 0 = .ok e2 ∧ e2.log = [.gate 0 1, .gate 1 2] := by
  obtain ⟨O, hO⟩ := exists_linAlg
  obtain ⟨m, -, hg, -, -⟩ := ghz_good hO
  obtain ⟨e1, h1, g1⟩ := applyEven_progress hO phase_group 1 (D := 4) (by norm_num) (e := evoOf m "") hg
  obtain ⟨e2, h2, -⟩ := applyOdd_progress hO phase_group 2 (D := 4) (by norm_num) g1
  refine ⟨O, _, e1, e2, hO, hg.N, h1, h2, ?_⟩
  rw [(applyOdd_spec h2).2.1, (applyEven_spec h1).2.1, g1.N, show (evoOf m "").eng.mps.N = 3 from hg.N]
  simp [evoOf, Layer.evs, bonds, List.range_succ]

/-! ## C36: schedule -/

/-- **C36.** Record of a run: an opening half layer, then `numsteps` steps; the state and the accumulated truncated
weight are the ones obtained by carrying out this record. -/
theorem C36_schedule {dt : ℂ} {ns : ℤ} {D : Option ℕ} {th : ℝ} {v : ℤ} {cp : Option ℤ} {keep : Bool} {w w' : World}
    (h : doTEBD O gates dt ns D th v cp keep w = .ok w') :
    w'.evo.log = w.evo.log ++ layersEvs w.evo.eng.mps.N (.E (dt / 2) :: allLayers dt cp w.evo.it ns.toNat) ∧
    replay O gates D th (layersEvs w.evo.eng.mps.N (.E (dt / 2) :: allLayers dt cp w.evo.it ns.toNat)) w.evo.st
      = .ok w'.evo.st := by
  unfold doTEBD at h
  split at h
  · cases h
  rename_i e he
  split at h
  · cases h
  rename_i c w1 hw
  simp only [Except.ok.injEq] at h
  subst h
  obtain ⟨a1, a2, a3⟩ := applyEven_spec he
  by_cases hns : 0 ≤ ns
  · obtain ⟨-, -, -, b4, b5, -⟩ := tebdLoop_spec _ _ _ _ _ _ (by rw [Nat.zero_add]; exact Int.toNat_of_nonneg hns) hw
    simp only at b4 b5
    rw [a1.N, a1.it] at b4 b5
    refine ⟨by rw [b4, a2, List.append_assoc]; rfl, replay_append _ _ _ _ _ a3 b5⟩
  · have h0 : ns.toNat = 0 := by omega
    rw [h0] at hw ⊢
    simp only [tebdLoop, Except.ok.injEq, Prod.mk.injEq] at hw
    obtain ⟨-, rfl⟩ := hw
    simpa [layersEvs, allLayers] using And.intro a2 a3

/-- Spec: the even layers `E(dt/2)`, `numsteps` odd layers between them, full even layers inside. -/
def trotter (dt : ℂ) (n : ℕ) : List Layer :=
  .E (dt / 2) :: .O dt :: (List.replicate n [Layer.E dt, Layer.O dt]).flatten ++ [.E (dt / 2)]

/-- Spec: leave out norm resets and join an even layer with the even layer directly after it. -/
def mergeE : List Layer → List Layer
  | [] => []
  | .R :: ls => mergeE ls
  | .O t :: ls => .O t :: mergeE ls
  | .E t :: ls =>
    match mergeE ls with
    | .E t' :: ls' => .E (t + t') :: ls'
    | ls' => .E t :: ls'

theorem mergeE_all (dt : ℂ) (cp : Option ℤ) : ∀ (n it : ℕ) (t : ℂ),
    mergeE (.E t :: allLayers dt cp it (n + 1))
      = .E t :: .O dt :: (List.replicate n [Layer.E dt, Layer.O dt]).flatten ++ [.E (dt / 2)] := by
  intro n
  induction n with
  | zero =>
    intro it t
    simp [allLayers, preLayers, stepLayers, closing, mergeE]
  | succ n ih =>
    intro it t
    have e : allLayers dt cp it (n + 1 + 1)
        = stepLayers dt false (cpAt cp it) ++ allLayers dt cp (it + 1) (n + 1) := by
      simp only [allLayers, preLayers, List.append_assoc]
      rw [show it + 1 + n = it + (n + 1) by omega]
    rw [e]
    have h1 := ih (it + 1) dt
    have h2 := ih (it + 1) (dt / 2)
    cases hc : cpAt cp it
    · have : mergeE (Layer.O dt :: Layer.E dt :: Layer.R :: allLayers dt cp (it + 1) (n + 1))
          = .O dt :: mergeE (.E dt :: allLayers dt cp (it + 1) (n + 1)) := by simp [mergeE]
      simp only [stepLayers, closing, Bool.false_eq_true, if_false, List.cons_append, List.nil_append]
      rw [mergeE, this, h1]
      simp [List.replicate_succ]
    · have : mergeE (Layer.O dt :: Layer.E (dt / 2) :: Layer.E (dt / 2) :: Layer.R :: allLayers dt cp (it + 1) (n + 1))
          = .O dt :: mergeE (.E dt :: allLayers dt cp (it + 1) (n + 1)) := by
        simp only [mergeE] at h1 h2 ⊢
        rw [h2, h1]
        simp
      simp only [stepLayers, closing, if_true, Bool.false_eq_true, if_false, List.cons_append, List.nil_append]
      rw [mergeE, this, h1]
      simp [List.replicate_succ]

/-- **C36.** For every `numsteps ≥ 1`, `cp` and starting iteration the layers of a run are, up to splitting full even
layers at checkpoints, the sequence `E(dt/2) O(dt) E(dt) … O(dt) E(dt/2)`, which is palindromic. -/
theorem C36_trotter {dt : ℂ} {n : ℕ} {D : Option ℕ} {th : ℝ} {v : ℤ} {cp : Option ℤ} {keep : Bool} {w w' : World}
    (h : doTEBD O gates dt ((n : ℤ) + 1) D th v cp keep w = .ok w') :
    ∃ ls : List Layer, w'.evo.log = w.evo.log ++ layersEvs w.evo.eng.mps.N ls ∧
      replay O gates D th (layersEvs w.evo.eng.mps.N ls) w.evo.st = .ok w'.evo.st ∧
      mergeE ls = trotter dt n ∧ (trotter dt n).reverse = trotter dt n := by
  obtain ⟨h1, h2⟩ := C36_schedule h
  rw [show ((n : ℤ) + 1).toNat = n + 1 by omega] at h1 h2
  refine ⟨_, h1, h2, mergeE_all dt cp n w.evo.it (dt / 2), ?_⟩
  have key : ∀ n, ((List.replicate n [Layer.E dt, Layer.O dt]).flatten).reverse ++ [Layer.O dt]
      = Layer.O dt :: (List.replicate n [Layer.E dt, Layer.O dt]).flatten := by
    intro n
    induction n with
    | zero => rfl
    | succ n ih =>
      have e : (List.replicate (n + 1) [Layer.E dt, Layer.O dt]).flatten
          = (List.replicate n [Layer.E dt, Layer.O dt]).flatten ++ [Layer.E dt, Layer.O dt] := by
        rw [List.replicate_succ', List.flatten_append]; simp
      rw [e, List.reverse_append, ← e]
      simp only [List.reverse_cons, List.reverse_nil, List.nil_append, List.cons_append]
      rw [ih, List.replicate_succ, List.flatten_cons]
      rfl
  unfold trotter
  simp only [List.reverse_append, List.reverse_cons, List.reverse_nil, List.nil_append, List.cons_append, List.append_assoc]
  have e := congrArg (· ++ [Layer.E (dt / 2)]) (key n)
  simp only [List.append_assoc, List.cons_append, List.nil_append] at e
  rw [e]

/-- Spec: total time the gates of a record apply to bond `n`. -/
def totalTau (n : ℤ) (es : List TEv) : ℂ :=
  (es.map fun | .gate m tau => if m = n then tau else 0 | .reset => 0).sum

theorem totalTau_append (n : ℤ) (a b : List TEv) : totalTau n (a ++ b) = totalTau n a + totalTau n b := by
  simp [totalTau]

theorem totalTau_map {n : ℤ} {tau : ℂ} : ∀ {ns : List ℤ}, ns.Nodup →
    totalTau n (ns.map (TEv.gate · tau)) = if n ∈ ns then tau else 0 := by
  intro ns
  induction ns with
  | nil => intro _; simp [totalTau]
  | cons m ns ih =>
    intro h
    rw [List.nodup_cons] at h
    have := ih h.2
    simp only [totalTau, List.map_cons, List.sum_cons] at this ⊢
    rw [this]
    by_cases hm : m = n
    · subst hm; simp [h.1]
    · simp [hm, Ne.symm hm]

/-- Time a layer applies to bonds of parity `p`. -/
def Layer.time (p : ℕ) : Layer → ℂ
  | .E t => if p = 0 then t else 0
  | .O t => if p = 0 then 0 else t
  | .R => 0

theorem totalTau_layers {N n : ℕ} (hn : n + 1 < N) (ls : List Layer) :
    totalTau n (layersEvs N ls) = (ls.map (Layer.time (n % 2))).sum := by
  induction ls with
  | nil => simp [layersEvs, totalTau]
  | cons x ls ih =>
    rw [List.map_cons, List.sum_cons, ← ih]
    rw [show layersEvs N (x :: ls) = x.evs N ++ layersEvs N ls from rfl, totalTau_append]
    congr 1
    have nd : ∀ p, (bonds N p).Nodup := fun p => (bonds_lt N p).imp fun h => h.ne
    cases x with
    | R => simp [Layer.evs, totalTau, Layer.time]
    | E t =>
      rw [Layer.evs, totalTau_map (nd 0), Layer.time]
      refine if_congr ?_ rfl rfl
      rw [mem_bonds]; omega
    | O t =>
      rw [Layer.evs, totalTau_map (List.nodup_reverse.mpr (nd 1)), Layer.time, ← ite_not]
      refine if_congr ?_ rfl rfl
      rw [List.mem_reverse, mem_bonds]; omega

theorem pre_time (dt : ℂ) (cp : Option ℤ) (p : ℕ) : ∀ (k it : ℕ),
    ((preLayers dt cp it k).map (Layer.time p)).sum = k * dt := by
  intro k
  induction k with
  | zero => intro it; simp [preLayers]
  | succ k ih =>
    intro it
    rw [preLayers, List.map_append, List.sum_append, ih]
    cases cpAt cp it <;> by_cases hp : p = 0 <;>
      simp [stepLayers, closing, Layer.time, hp] <;> ring

/-- **C36.** Every bond is evolved by `numsteps*dt` in total (`numsteps ≥ 1`), for every checkpointing. -/
theorem C36_total_time {dt : ℂ} {ns : ℤ} {D : Option ℕ} {th : ℝ} {v : ℤ} {cp : Option ℤ} {keep : Bool} {w w' : World}
    (hns : 1 ≤ ns) (h : doTEBD O gates dt ns D th v cp keep w = .ok w') {n : ℕ} (hn : n + 1 < w.evo.eng.mps.N) :
    ∃ es, w'.evo.log = w.evo.log ++ es ∧ replay O gates D th es w.evo.st = .ok w'.evo.st ∧ totalTau n es = ns * dt := by
  obtain ⟨h1, h2⟩ := C36_schedule h
  refine ⟨_, h1, h2, ?_⟩
  obtain ⟨k, rfl⟩ : ∃ k : ℕ, ns = k + 1 := ⟨(ns - 1).toNat, by omega⟩
  rw [totalTau_layers hn, show ((k : ℤ) + 1).toNat = k + 1 by omega, List.map_cons, List.sum_cons, allLayers, List.map_append,
    List.sum_append, pre_time]
  cases cpAt cp (w.evo.it + k) <;> by_cases hp : n % 2 = 0 <;>
      simp [stepLayers, closing, Layer.time, hp] <;> ring

/-- **C36.** Verbosity and retention of checkpoints have no influence on the run, truncated or not. -/
theorem C36_keep_verbose_independent {dt : ℂ} {ns : ℤ} {D : Option ℕ} {th : ℝ} {v v' : ℤ} {cp : Option ℤ}
    {keep keep' : Bool} {d d' : Disk} {e : Evo} {w w' : World} (h : doTEBD O gates dt ns D th v cp keep ⟨e, d⟩ = .ok w)
    (h' : doTEBD O gates dt ns D th v' cp keep' ⟨e, d'⟩ = .ok w') :
    w.evo.eng.mps = w'.evo.eng.mps ∧ w.evo.tw = w'.evo.tw ∧ w.evo.log = w'.evo.log := by
  obtain ⟨h1, h2⟩ := C36_schedule h
  obtain ⟨h3, h4⟩ := C36_schedule h'
  simp only at h1 h2 h3 h4
  rw [h2, Except.ok.injEq] at h4
  exact ⟨congrArg Prod.fst h4, congrArg Prod.snd h4, by rw [h1, h3]⟩

/-! ## C36: the state -/

/-- Spec: `n` symmetric steps `E(dt/2) O(dt) E(dt/2)`. -/
def symSteps (dt : ℂ) (n : ℕ) : List Layer := (List.replicate n [Layer.E (dt / 2), Layer.O dt, Layer.E (dt / 2)]).flatten

/-- Same action on wave functions. -/
def SameOp (G : ℕ → ℂ → Gate2) (ds : List ℕ) (ls ls' : List Layer) : Prop :=
  ∀ ψ s, Conf ds s → opEvs G (layersEvs ds.length ls) ψ s = opEvs G (layersEvs ds.length ls') ψ s

theorem SameOp.refl (ls : List Layer) : SameOp G ds ls ls := fun _ _ _ => rfl

theorem SameOp.trans {a b c : List Layer} (h : SameOp G ds a b) (h' : SameOp G ds b c) : SameOp G ds a c :=
  fun ψ s hs => (h ψ s hs).trans (h' ψ s hs)

theorem SameOp.append (hG : GateGroup gates ds G) {a b a' b' : List Layer} (h : SameOp G ds a a') (h' : SameOp G ds b b') :
    SameOp G ds (a ++ b) (a' ++ b') := by
  intro ψ s hs
  rw [layersEvs_append, layersEvs_append, opEvs_append, opEvs_append, h' _ s hs]
  exact opEvs_congr hG _ (fun t ht => h ψ t ht) s hs

theorem pre_same (hG : GateGroup gates ds G) (dt : ℂ) (cp : Option ℤ) : ∀ (k it : ℕ),
    SameOp G ds (.E (dt / 2) :: preLayers dt cp it k) (symSteps dt k ++ [.E (dt / 2)]) := by
  intro k
  induction k with
  | zero => intro it; exact SameOp.refl _
  | succ k ih =>
    intro it
    have hR : SameOp G ds [.R] [] := fun _ _ _ => rfl
    have hc : SameOp G ds (closing dt false (cpAt cp it)) [.E (dt / 2), .E (dt / 2)] := by
      unfold closing
      rw [if_neg (by simp)]
      split_ifs
      · exact SameOp.refl _
      · intro ψ s hs
        rw [even_merge hG _ _ _ hs, add_halves]
    have h1 : SameOp G ds (.E (dt / 2) :: stepLayers dt false (cpAt cp it)) ([.E (dt / 2), .O dt] ++ [.E (dt / 2), .E (dt / 2)]) := by
      have := SameOp.append hG (SameOp.refl [.E (dt / 2), .O dt]) (SameOp.append hG hc hR)
      simpa [stepLayers] using this
    have h2 := SameOp.append hG h1 (SameOp.refl (preLayers dt cp (it + 1) k))
    have h3 := SameOp.append hG (SameOp.refl [.E (dt / 2), .O dt, .E (dt / 2)]) (ih (it + 1))
    refine SameOp.trans ?_ (SameOp.trans h3 ?_)
    · simpa [preLayers] using h2
    · rw [show symSteps dt (k + 1) = [.E (dt / 2), .O dt, .E (dt / 2)] ++ symSteps dt k by
        simp [symSteps, List.replicate_succ], List.append_assoc]
      exact SameOp.refl _

theorem all_same (hG : GateGroup gates ds G) (dt : ℂ) (cp : Option ℤ) (k it : ℕ) :
    SameOp G ds (.E (dt / 2) :: allLayers dt cp it (k + 1)) (symSteps dt (k + 1)) := by
  have hR : SameOp G ds [.R] [] := fun _ _ _ => rfl
  have h1 : SameOp G ds (stepLayers dt true (cpAt cp (it + k))) [.O dt, .E (dt / 2)] := by
    have := SameOp.append hG (SameOp.refl [.O dt, .E (dt / 2)]) hR
    simpa [stepLayers, closing] using this
  have h2 := SameOp.append hG (pre_same hG dt cp k it) h1
  rw [show symSteps dt (k + 1) = symSteps dt k ++ [.E (dt / 2), .O dt, .E (dt / 2)] by
    unfold symSteps; rw [List.replicate_succ', List.flatten_append]; simp]
  simpa [allLayers] using h2

/-- **C36.** A run without truncation (`tr_thresh`, `Dmax` large enough: the accumulated truncated weight does not grow)
evolves the state by `numsteps` symmetric Trotter steps, up to a non-zero constant (the norm is reset after every step),
for every checkpointing, verbosity and starting iteration. -/
theorem C36_state (hO : O.Spec) (hG : GateGroup gates ds G) {l r : ℕ} {dt : ℂ} {n : ℕ} {D : Option ℕ} {th : ℝ} {v : ℤ}
    {cp : Option ℤ} {keep : Bool} {w w' : World} (hm : Fit ds l r w.evo.eng.mps)
    (h : doTEBD O gates dt ((n : ℤ) + 1) D th v cp keep w = .ok w') (htw : w'.evo.tw = w.evo.tw) :
    w'.evo.eng.mps.WF l r ∧ w'.evo.eng.mps.ds = ds ∧
    ∃ c : ℂ, c ≠ 0 ∧ (PosC w.evo.eng.mps.Z → PosC c) ∧ ∀ s, Conf ds s → ∀ i < l, ∀ j,
      opEvs G (layersEvs ds.length (symSteps dt (n + 1))) (fun s => w.evo.eng.mps.amp s i j) s
        = c * w'.evo.eng.mps.amp s i j := by
  obtain ⟨-, h2⟩ := C36_schedule h
  rw [hm.N] at h2
  unfold Evo.st at h2
  rw [htw] at h2
  obtain ⟨a1, -, c, a2, a3, a4⟩ := replay_exact hO hG _ _ _ _ hm (layers_inRange _) h2
  refine ⟨a1.wf, a1.ds_eq, c, a2, a3, fun s hs i hi j => ?_⟩
  rw [← a4 s hs i hi j, show ((n : ℤ) + 1).toNat = n + 1 by omega]
  exact (all_same hG dt cp n w.evo.it _ s hs).symm

/-- A canonical state whose norm has been reset: the last action of a run. -/
theorem doTEBD_Z {dt : ℂ} {n : ℕ} {D : Option ℕ} {th : ℝ} {v : ℤ} {cp : Option ℤ} {keep : Bool} {w w' : World}
    (h : doTEBD O gates dt ((n : ℤ) + 1) D th v cp keep w = .ok w') : w'.evo.eng.mps.Z = 1 := by
  obtain ⟨-, h2⟩ := C36_schedule h
  rw [show ((n : ℤ) + 1).toNat = n + 1 by omega] at h2
  have key : ∀ (es : List TEv) (m p : MPS × ℝ), replay O gates D th (es ++ [.reset]) m = .ok p → p.1.Z = 1 := by
    intro es
    induction es with
    | nil =>
      intro m p h
      simp only [List.nil_append, replay, Except.ok.injEq] at h
      subst h; rfl
    | cons a es ih =>
      intro m p h
      cases a with
      | reset => simp only [List.cons_append, replay] at h; exact ih _ _ h
      | gate n tau =>
        simp only [List.cons_append, replay] at h
        split at h
        · cases h
        split at h
        · cases h
        exact ih _ _ h
  have e : ∃ es, layersEvs w.evo.eng.mps.N (.E (dt / 2) :: allLayers dt cp w.evo.it (n + 1)) = es ++ [.reset] := by
    refine ⟨layersEvs w.evo.eng.mps.N (.E (dt / 2) :: (preLayers dt cp w.evo.it n ++ .O dt :: closing dt true (cpAt cp (w.evo.it + n)))), ?_⟩
    rw [show [TEv.reset] = layersEvs w.evo.eng.mps.N [.R] from rfl, ← layersEvs_append]
    simp [allLayers, stepLayers]
  obtain ⟨es, he⟩ := e
  rw [he] at h2
  exact key _ _ _ h2

/-- **C36.** The evolved state does not depend on `cp`, `keep_cp` and `verbose`: runs without truncation from a canonical
state (with positive norm factor) give the same amplitudes, whenever and however often they write checkpoints.  The
common state has norm one. -/
theorem C36_checkpoint_independent (hO : O.Spec) (hG : GateGroup gates ds G) {l r : ℕ} {dt : ℂ} {n : ℕ} {D D' : Option ℕ}
    {th th' : ℝ} {v v' : ℤ} {cp cp' : Option ℤ} {keep keep' : Bool} {e : Evo} {d d' : Disk} {w w' : World}
    (hm : Good ds l r e.eng.mps) (hZ : PosC e.eng.mps.Z)
    (h : doTEBD O gates dt ((n : ℤ) + 1) D th v cp keep ⟨e, d⟩ = .ok w) (htw : w.evo.tw = e.tw)
    (h' : doTEBD O gates dt ((n : ℤ) + 1) D' th' v' cp' keep' ⟨e, d'⟩ = .ok w') (htw' : w'.evo.tw = e.tw) :
    w.evo.eng.mps.normSq l r = 1 ∧
    ∀ s, Conf ds s → ∀ i < l, ∀ j < r, w.evo.eng.mps.amp s i j = w'.evo.eng.mps.amp s i j := by
  have norm1 : ∀ {D : Option ℕ} {th : ℝ} {v : ℤ} {cp : Option ℤ} {keep : Bool} {d : Disk} {w : World},
      doTEBD O gates dt ((n : ℤ) + 1) D th v cp keep ⟨e, d⟩ = .ok w → w.evo.tw = e.tw →
      w.evo.eng.mps.ds = ds ∧ w.evo.eng.mps.normSq l r = 1 := by
    intro D th v cp keep d w h htw
    obtain ⟨-, h2⟩ := C36_schedule h
    simp only at h2
    rw [hm.N] at h2
    unfold Evo.st at h2
    rw [htw] at h2
    have g := replay_canonical hO hG _ _ _ _ hm (layers_inRange _) h2
    refine ⟨g.ds_eq, ?_⟩
    rw [canonical_normSq g.wf g.can, doTEBD_Z h]; simp
  obtain ⟨d1, n1⟩ := norm1 h htw
  obtain ⟨d2, n2⟩ := norm1 h' htw'
  refine ⟨n1, ?_⟩
  obtain ⟨-, -, c, -, hc, a⟩ := C36_state hO hG hm.toFit h htw
  obtain ⟨-, -, c', -, hc', a'⟩ := C36_state hO hG hm.toFit h' htw'
  obtain ⟨x, hx, rfl⟩ := hc hZ
  obtain ⟨y, hy, rfl⟩ := hc' hZ
  have e1 : ∀ s, Conf ds s → ∀ i < l, ∀ j, (x : ℂ) * w.evo.eng.mps.amp s i j = (y : ℂ) * w'.evo.eng.mps.amp s i j :=
    fun s hs i hi j => by rw [← a s hs i hi j, ← a' s hs i hi j]
  have e2 : x ^ 2 * w.evo.eng.mps.normSq l r = y ^ 2 * w'.evo.eng.mps.normSq l r := by
    unfold MPS.normSq
    rw [d1, d2, ← sumCfg_mul, ← sumCfg_mul]
    refine sumCfg_congr fun s hs => ?_
    rw [mul_sum, mul_sum]
    refine sum_congr rfl fun i hi => ?_
    rw [mul_sum, mul_sum]
    refine sum_congr rfl fun j _ => ?_
    have := congrArg Complex.normSq (e1 s hs i (mem_range.mp hi) j)
    rw [map_mul, map_mul, Complex.normSq_ofReal, Complex.normSq_ofReal] at this
    rw [pow_two, pow_two]; exact this
  rw [n1, n2, mul_one, mul_one] at e2
  have e3 : x = y := by nlinarith
  subst e3
  intro s hs i hi j _
  exact mul_left_cancel₀ (by exact_mod_cast hx.ne') (e1 s hs i hi j)

/-! ## C69 -/

/-- **C69.** From a canonical state, with invertible gates, `tr_thresh=0` and `Dmax ≥ 1`, a run never raises and never
divides by zero, and ends in a canonical state. -/
theorem C69_progress (hO : O.Spec) (hG : GateGroup gates ds G) {l r D : ℕ} (hD : 1 ≤ D) (dt : ℂ) (ns v : ℤ)
    {cp : Option ℤ} (hcp : cp ≠ some 0) (keep : Bool) {w : World} (hm : Good ds l r w.evo.eng.mps) :
    ∃ w', doTEBD O gates dt ns (some D) 0 v cp keep w = .ok w' ∧ w'.evo.eng.mps.WF l r ∧ w'.evo.eng.mps.ds = ds ∧
      w'.evo.eng.mps.Canonical := by
  obtain ⟨e, h1, g1⟩ := applyEven_progress hO hG (dt / 2) hD hm
  obtain ⟨c, w', h2, g2⟩ := tebdLoop_progress hO hG hD (dt := dt) (ns := ns) (v := v) hcp (keep := keep) ns.toNat 0 "None"
    ⟨e, w.disk⟩ g1
  refine ⟨w', ?_, g2.wf, g2.ds_eq, g2.can⟩
  unfold doTEBD
  simp only [h1, h2]

/-- **C69.** If `Dmax` is at least the dimension of the full space, the run is exact: no weight is discarded and the
final state is the one of `numsteps` symmetric Trotter steps. -/
theorem C69_exact (hO : O.Spec) (hG : GateGroup gates ds G) {l r D : ℕ} (hl : 1 ≤ D) (hD : l * ds.prod ≤ D) (dt : ℂ) (n : ℕ)
    (v : ℤ) {cp : Option ℤ} (hcp : cp ≠ some 0) (keep : Bool) {w : World} (hm : Good ds l r w.evo.eng.mps) :
    ∃ w', doTEBD O gates dt ((n : ℤ) + 1) (some D) 0 v cp keep w = .ok w' ∧ w'.evo.tw = w.evo.tw ∧
      w'.evo.eng.mps.normSq l r = 1 ∧ ∃ c : ℂ, c ≠ 0 ∧ ∀ s, Conf ds s → ∀ i < l, ∀ j,
        opEvs G (layersEvs ds.length (symSteps dt (n + 1))) (fun s => w.evo.eng.mps.amp s i j) s
          = c * w'.evo.eng.mps.amp s i j := by
  obtain ⟨w', h, h1, h2, h3⟩ := C69_progress hO hG hl dt ((n : ℤ) + 1) v hcp keep hm
  have h4 := (C36_schedule h).2
  rw [hm.N] at h4
  have htw : w'.evo.tw = w.evo.tw := replay_full hO hG hD _ _ _ _ _ hm (layers_inRange _) h4
  obtain ⟨-, -, c, hc, -, ha⟩ := C36_state hO hG hm.toFit h htw
  refine ⟨w', h, htw, ?_, c, hc, ha⟩
  rw [canonical_normSq h1 h3, doTEBD_Z h]; simp

/-- Concrete runs (three qubits, entangled state): with and without checkpoints. -/
theorem tebd_runs (hO : O.Spec) (dt : ℂ) (n : ℕ) (cp : Option ℤ) (hcp : cp ≠ some 0) (keep : Bool) (v : ℤ) (d : Disk)
    {m : MPS} (hg : Good [2, 2, 2] 1 1 m) :
    ∃ w, doTEBD O phaseFn dt ((n : ℤ) + 1) (some 8) 0 v cp keep ⟨evoOf m "run", d⟩ = .ok w ∧ w.evo.tw = 0 := by
  obtain ⟨w, h1, h2, -⟩ := C69_exact hO phase_group (D := 8) (by norm_num) (by simp) dt n v hcp keep
    (w := ⟨evoOf m "run", d⟩) hg
  exact ⟨w, h1, h2⟩

example : ∃ (O : LinAlg) (m : MPS) (w w' : World), O.Spec ∧ Good [2, 2, 2] 1 1 m ∧ PosC m.Z ∧
    doTEBD O phaseFn Complex.I 5 (some 8) 0 1 (some 2) false ⟨evoOf m "run", fun _ => none⟩ = .ok w ∧ w.evo.tw = 0 ∧
    doTEBD O phaseFn Complex.I 5 (some 8) 0 0 none true ⟨evoOf m "run", fun _ => none⟩ = .ok w' ∧ w'.evo.tw = 0 := by
  obtain ⟨O, hO⟩ := exists_linAlg
  obtain ⟨m, -, hg, hp, -⟩ := ghz_good hO
  obtain ⟨w, h1, h2⟩ := tebd_runs hO Complex.I 4 (some 2) (by simp) false 1 (fun _ => none) hg
  obtain ⟨w', h3, h4⟩ := tebd_runs hO Complex.I 4 none (by simp) true 0 (fun _ => none) hg
  exact ⟨O, m, w, w', hO, hg, hp, h1, h2, h3, h4⟩

/-! ## C36: no steps -/

/-- **C36 is violated** for `numsteps ≤ 0`: the opening half layer is applied all the same. -/
theorem C36_zero_steps {dt : ℂ} {ns : ℤ} {D : Option ℕ} {th : ℝ} {v : ℤ} {cp : Option ℤ} {keep : Bool} {w w' : World}
    (hns : ns ≤ 0) (h : doTEBD O gates dt ns D th v cp keep w = .ok w') :
    w'.evo.log = w.evo.log ++ (bonds w.evo.eng.mps.N 0).map (TEv.gate · (dt / 2)) ∧
    replay O gates D th ((bonds w.evo.eng.mps.N 0).map (TEv.gate · (dt / 2))) w.evo.st = .ok w'.evo.st ∧
    w'.evo.it = w.evo.it := by
  obtain ⟨h1, h2⟩ := C36_schedule h
  rw [show ns.toNat = 0 by omega] at h1 h2
  simp only [allLayers, layersEvs, List.flatMap_cons, List.flatMap_nil, List.append_nil, Layer.evs] at h1 h2
  refine ⟨h1, h2, ?_⟩
  unfold doTEBD at h
  split at h
  · cases h
  rename_i e he
  rw [show ns.toNat = 0 by omega] at h
  simp only [tebdLoop, Except.ok.injEq] at h
  subst h
  exact (applyEven_spec he).1.it

/-- **C36 is violated**: on `|000>+|111>` a call with `numsteps=0` and `dt=2πi` flips the relative sign. -/
theorem C36_zero_violated : ∃ (O : LinAlg) (m : MPS) (w : World), O.Spec ∧ Good [2, 2, 2] 1 1 m ∧
    m.amp [0, 0, 0] 0 0 = m.amp [1, 1, 1] 0 0 ∧
    doTEBD O phaseFn (2 * Real.pi * Complex.I) 0 (some 8) 0 1 none false ⟨evoOf m "run", fun _ => none⟩ = .ok w ∧
    w.evo.eng.mps.amp [0, 0, 0] 0 0 = - w.evo.eng.mps.amp [1, 1, 1] 0 0 ∧ w.evo.eng.mps.amp [1, 1, 1] 0 0 ≠ 0 := by
  obtain ⟨O, hO⟩ := exists_linAlg
  obtain ⟨m, -, hg, hp, ha⟩ := ghz_good hO
  have c0 : Conf [2, 2, 2] [0, 0, 0] := .cons (by norm_num) (.cons (by norm_num) (.cons (by norm_num) .nil))
  have c1 : Conf [2, 2, 2] [1, 1, 1] := .cons (by norm_num) (.cons (by norm_num) (.cons (by norm_num) .nil))
  have a0 : m.amp [0, 0, 0] 0 0 = 1 := by
    rw [ha _ c0, ghz_amp _ _ _ (by norm_num) (by norm_num) (by norm_num)]; simp
  have a1 : m.amp [1, 1, 1] 0 0 = 1 := by
    rw [ha _ c1, ghz_amp _ _ _ (by norm_num) (by norm_num) (by norm_num)]; simp
  obtain ⟨w, h, -⟩ := C69_progress hO phase_group (D := 8) (by norm_num) (2 * Real.pi * Complex.I) 0 1 (cp := none) (by simp)
    false (w := ⟨evoOf m "run", fun _ => none⟩) hg
  obtain ⟨-, h2, -⟩ := C36_zero_steps le_rfl h
  have htw : w.evo.tw = 0 := replay_full hO phase_group (D := 8) (by simp) _ _ _ _ _ hg (by
    have := layer_inRange (N := 3) (.E (2 * Real.pi * Complex.I / 2))
    rw [Layer.evs] at this
    rw [show (evoOf m "run").eng.mps.N = 3 from hg.N]; exact this) h2
  rw [show (evoOf m "run").eng.mps.N = 3 from hg.N] at h2
  have hb : bonds 3 0 = [0] := by decide
  rw [hb] at h2
  unfold Evo.st at h2
  rw [htw] at h2
  obtain ⟨-, -, c, hc, -, hamp⟩ := replay_exact hO phase_group _ _ _ _ hg.toFit (by
    intro e he; simp at he; subst he; exact ⟨le_rfl, by norm_num⟩) h2
  have b0 := hamp _ c0 0 (by norm_num) 0
  have b1 := hamp _ c1 0 (by norm_num) 0
  have hexp : Complex.exp (2 * Real.pi * Complex.I / 2) = -1 := by
    rw [show 2 * (Real.pi : ℂ) * Complex.I / 2 = Real.pi * Complex.I by ring, Complex.exp_pi_mul_I]
  have ev : ∀ s, Conf [2, 2, 2] s → opEvs phaseG (List.map (TEv.gate · (2 * Real.pi * Complex.I / 2)) [0]) (fun s => m.amp s 0 0) s
      = m.amp s 0 0 * Complex.exp (2 * Real.pi * Complex.I / 2 * (s.getD 0 0 : ℕ)) := by
    intro s hs
    have hx := hs.get (n := 0) (by norm_num)
    have hy := hs.get (n := 1) (by norm_num)
    have hl := hs.length
    simp only [List.map_cons, List.map_nil, opEvs, List.foldl_cons, List.foldl_nil, opEv, phaseG, act2, Int.toNat_zero]
    rw [sum_eq_single_of_mem (s.getD 0 0) (mem_range.mpr hx), sum_eq_single_of_mem (s.getD 1 0) (mem_range.mpr hy)]
    · simp only [and_self, if_true]
      congr 2
      simp only [List.length_cons, List.length_nil] at hl
      rw [List.getD_eq_getElem _ _ (by omega), List.getD_eq_getElem _ _ (by omega), List.set_getElem_self,
        List.set_getElem_self]
    · intro b _ hb; rw [if_neg (by tauto), mul_zero]
    · intro b _ hb; refine sum_eq_zero fun c _ => ?_; rw [if_neg (by tauto), mul_zero]
  have e0 : opEvs phaseG (List.map (TEv.gate · (2 * Real.pi * Complex.I / 2)) [0]) (fun s => m.amp s 0 0) [0, 0, 0] = 1 := by
    rw [ev _ c0, a0]; simp
  have e1 : opEvs phaseG (List.map (TEv.gate · (2 * Real.pi * Complex.I / 2)) [0]) (fun s => m.amp s 0 0) [1, 1, 1] = -1 := by
    rw [ev _ c1, a1]; simp only [List.getD_cons_zero, Nat.cast_one, mul_one, one_mul]; exact hexp
  have f0 : 1 = c * w.evo.eng.mps.amp [0, 0, 0] 0 0 := e0.symm.trans b0
  have f1 : -1 = c * w.evo.eng.mps.amp [1, 1, 1] 0 0 := e1.symm.trans b1
  refine ⟨O, m, w, hO, hg, by rw [a0, a1], h, ?_, ?_⟩
  · apply mul_left_cancel₀ hc
    rw [mul_neg, ← f0, ← f1]; norm_num
  · intro h0
    rw [h0, mul_zero] at f1
    norm_num at f1

/-! ## C37 -/

/-- Everything about a run with `numsteps ≥ 0` that is needed below. -/
theorem doTEBD_spec {dt : ℂ} {n : ℕ} {D : Option ℕ} {th : ℝ} {v : ℤ} {cp : Option ℤ} {keep : Bool} {w w' : World}
    (h : doTEBD O gates dt n D th v cp keep w = .ok w') :
    ∃ e, w.evo.applyEven O gates (dt / 2) D th = .ok e ∧ w.evo.Kept e ∧ w.evo.Kept' w'.evo ∧ w'.evo.it = w.evo.it + n ∧
    w'.evo.t0 = w.evo.t0 + n * tickBy v dt ∧
    ∃ xs zs : List Evo, (∀ s ∈ xs ++ zs, Snap O gates dt D th v cp e s) ∧
      xs.map Evo.it = (List.range' w.evo.it (n - 1)).filter (cpAt cp) ∧
      zs.map Evo.it = (List.range' (w.evo.it + (n - 1)) (min 1 n)).filter (cpAt cp) ∧
      w'.disk = zs.foldl (fun d s => d.save (cpName w.evo.filename "_tebd_cp" s.it) s)
        (retain keep (xs.map fun s => (cpName w.evo.filename "_tebd_cp" s.it, s)) "None" w.disk) := by
  unfold doTEBD at h
  split at h
  · cases h
  rename_i e he
  split at h
  · cases h
  rename_i c w1 hw
  simp only [Except.ok.injEq] at h
  subst h
  obtain ⟨a1, a2, a3⟩ := applyEven_spec he
  rw [Int.toNat_natCast] at hw
  obtain ⟨b1, b2, b3, b4, b5, xs, zs, b6, b7, b8, b9⟩ := tebdLoop_spec _ _ _ _ _ _ (by simp) hw
  simp only at b1 b2 b3 b6 b7 b8 b9
  rw [a1.it] at b2 b7 b8
  rw [a1.t0] at b3
  rw [a1.filename] at b9
  exact ⟨e, he, a1, a1.kept'.trans b1, b2, b3, xs, zs, b6, b7, b8, b9⟩

/-- **C37** (partial: only for `verbose ≥ 1`, and see `C37_verbose_violated`).  A TEBD run of `n` steps advances the
iteration counter by `n` and the time by `n*|Im dt|`. -/
theorem C37_tebd_time_partial {dt : ℂ} {n : ℕ} {D : Option ℕ} {th : ℝ} {v : ℤ} {cp : Option ℤ} {keep : Bool} {w w' : World}
    (hv : 1 ≤ v) (h : doTEBD O gates dt n D th v cp keep w = .ok w') :
    w'.evo.it = w.evo.it + n ∧ w'.evo.t0 = w.evo.t0 + n * |dt.im| := by
  obtain ⟨e, -, -, -, h1, h2, -⟩ := doTEBD_spec h
  rw [tickBy, if_pos hv] at h2
  exact ⟨h1, h2⟩

/-- **C37 is violated** for `verbose ≤ 0`: the state is evolved and the iterations are counted, the time stands still. -/
theorem C37_tebd_silent {dt : ℂ} {n : ℕ} {D : Option ℕ} {th : ℝ} {v : ℤ} {cp : Option ℤ} {keep : Bool} {w w' : World}
    (hv : v ≤ 0) (h : doTEBD O gates dt n D th v cp keep w = .ok w') :
    w'.evo.it = w.evo.it + n ∧ w'.evo.t0 = w.evo.t0 := by
  obtain ⟨e, -, -, -, h1, h2, -⟩ := doTEBD_spec h
  rw [tickBy, if_neg (by omega), mul_zero, add_zero] at h2
  exact ⟨h1, h2⟩

/-- **C37 is violated**: two runs that differ in `verbose` only end in the same state but at different times. -/
theorem C37_tebd_verbose_violated : ∃ (O : LinAlg) (m : MPS) (w w' : World), O.Spec ∧ Good [2, 2, 2] 1 1 m ∧
    doTEBD O phaseFn Complex.I 5 (some 8) 0 1 none false ⟨evoOf m "run", fun _ => none⟩ = .ok w ∧
    doTEBD O phaseFn Complex.I 5 (some 8) 0 0 none false ⟨evoOf m "run", fun _ => none⟩ = .ok w' ∧
    w.evo.eng.mps = w'.evo.eng.mps ∧ w.evo.it = 5 ∧ w'.evo.it = 5 ∧ w.evo.t0 = 5 ∧ w'.evo.t0 = 0 := by
  obtain ⟨O, hO⟩ := exists_linAlg
  obtain ⟨m, -, hg, hp, -⟩ := ghz_good hO
  obtain ⟨w, h1, h2⟩ := tebd_runs hO Complex.I 4 none (by simp) false 1 (fun _ => none) hg
  obtain ⟨w', h3, h4⟩ := tebd_runs hO Complex.I 4 none (by simp) false 0 (fun _ => none) hg
  have a := C37_tebd_time_partial (n := 5) le_rfl h1
  have b := C37_tebd_silent (n := 5) le_rfl h3
  refine ⟨O, m, w, w', hO, hg, h1, h3, (C36_keep_verbose_independent h1 h3).1, ?_, ?_, ?_, ?_⟩
  · rw [a.1]; rfl
  · rw [b.1]; rfl
  · rw [a.2]; simp [evoOf]
  · rw [b.2]; rfl

/-! ## C38 -/

/-- Spec: a checkpoint file of a run: name for iteration `i`. -/
def cpFile (file kind : String) (i : ℕ) : String := file ++ kind ++ toString i ++ ".pickle"

theorem cpFile_inj {file kind : String} {i j : ℕ} (h : cpFile file kind i = cpFile file kind j) : i = j :=
  cpName_inj (pickle_inj.mp h)

theorem foldl_save_other {f : String} (file kind : String) : ∀ (zs : List Evo) (d : Disk), (∀ s ∈ zs, f ≠ cpFile file kind s.it) →
    zs.foldl (fun d s => d.save (cpName file kind s.it) s) d f = d f := by
  intro zs
  induction zs with
  | nil => intros; rfl
  | cons z zs ih =>
    intro d h
    rw [List.foldl_cons, ih _ fun s hs => h s (by simp [hs]), save_apply]
    exact if_neg (h z (by simp))

/-- At most one checkpoint at the end. -/
theorem zs_cases {cp : Option ℤ} {it n : ℕ} {zs : List Evo}
    (h : zs.map Evo.it = (List.range' (it + (n - 1)) (min 1 n)).filter (cpAt cp)) :
    (zs = [] ∧ (n = 0 ∨ cpAt cp (it + (n - 1)) = false)) ∨
    (∃ z, zs = [z] ∧ z.it = it + (n - 1) ∧ n ≠ 0 ∧ cpAt cp (it + (n - 1)) = true) := by
  rcases Nat.eq_zero_or_pos n with h0 | h0
  · subst h0; left; simpa using h
  · rw [show min 1 n = 1 by omega] at h
    simp only [List.range'_one, List.filter_cons, List.filter_nil] at h
    by_cases hc : cpAt cp (it + (n - 1)) = true
    · rw [if_pos hc] at h
      right
      cases zs with
      | nil => simp at h
      | cons z zs =>
        simp only [List.map_cons, List.cons.injEq, List.map_eq_nil_iff] at h
        exact ⟨z, by rw [h.2], h.1, by omega, hc⟩
    · rw [if_neg hc] at h
      left
      exact ⟨by simpa using h, Or.inr (by simpa using hc)⟩

theorem mem_its {cp : Option ℤ} {it k i : ℕ} {xs : List Evo} (h : xs.map Evo.it = (List.range' it k).filter (cpAt cp)) :
    (∃ s ∈ xs, s.it = i) ↔ it ≤ i ∧ i < it + k ∧ cpAt cp i = true := by
  have : (∃ s ∈ xs, s.it = i) ↔ i ∈ xs.map Evo.it := by simp
  rw [this, h, List.mem_filter, List.mem_range'_1, and_assoc]

theorem its_nodup {cp : Option ℤ} {it k : ℕ} {xs : List Evo} {file kind : String} (hk : 4 < kind.length)
    (h : xs.map Evo.it = (List.range' it k).filter (cpAt cp)) :
    (("None" : String) :: ((xs.map fun s => (cpName file kind s.it, s)).map Prod.fst)).Nodup := by
  rw [List.map_map, List.nodup_cons]
  constructor
  · simp only [List.mem_map, Function.comp]
    rintro ⟨s, -, hs⟩
    exact cpName_none hk _ hs
  · have e : xs.map (Prod.fst ∘ fun s => (cpName file kind s.it, s)) = (xs.map Evo.it).map (cpName file kind) := by
      simp
    rw [e, h]
    exact ((List.nodup_range').filter _).map fun a b hab => cpName_inj hab

/-- **C38** for `keep_cp=True`: every checkpoint written stays, its content is the engine at that moment (`Snap`), every
other file is left alone. -/
theorem C38_tebd_keep {dt : ℂ} {n : ℕ} {D : Option ℕ} {th : ℝ} {v : ℤ} {cp : Option ℤ} {w w' : World}
    (h : doTEBD O gates dt n D th v cp true w = .ok w') :
    (∀ i, w.evo.it ≤ i → i < w.evo.it + n → cpAt cp i = true → ∃ s, s.it = i ∧
      w'.disk (cpFile w.evo.filename "_tebd_cp" i) = some (.pickle s)) ∧
    ∀ f, (∀ i, w.evo.it ≤ i → i < w.evo.it + n → cpAt cp i = true → f ≠ cpFile w.evo.filename "_tebd_cp" i) →
      w'.disk f = w.disk f := by
  obtain ⟨e, he, a1, a2, a3, a4, xs, zs, h1, h2, h3, h4⟩ := doTEBD_spec h
  have hnd := (List.nodup_cons.mp (its_nodup (file := w.evo.filename) (kind := "_tebd_cp") (by decide) h2)).2
  constructor
  · intro i hi hi' hc
    by_cases hlast : i = w.evo.it + (n - 1)
    · rcases zs_cases h3 with ⟨-, h5 | h5⟩ | ⟨z, rfl, hz, -, -⟩
      · omega
      · rw [← hlast, hc] at h5; cases h5
      · refine ⟨z, by omega, ?_⟩
        rw [h4, List.foldl_cons, List.foldl_nil, save_apply, if_pos]
        rw [hz, ← hlast]; rfl
    · obtain ⟨s, hs, rfl⟩ := (mem_its (i := i) h2).mpr ⟨hi, by omega, hc⟩
      refine ⟨s, rfl, ?_⟩
      rw [h4, foldl_save_other]
      · exact retain_keep _ _ _ hnd _ (List.mem_map.mpr ⟨s, hs, rfl⟩)
      · intro z hz h5
        have h6 := cpFile_inj h5
        rcases zs_cases h3 with ⟨rfl, -⟩ | ⟨y, rfl, hy, -, -⟩
        · simp at hz
        · rw [List.mem_singleton] at hz; subst hz; omega
  · intro f hf
    rw [h4, foldl_save_other, retain_other]
    · intro x hx
      obtain ⟨s, hs, rfl⟩ := List.mem_map.mp hx
      have h5 := (mem_its (i := s.it) h2).mp ⟨s, hs, rfl⟩
      exact hf _ h5.1 (by omega) h5.2.2
    · intro h; simp at h
    · intro z hz
      rcases zs_cases h3 with ⟨rfl, -⟩ | ⟨y, rfl, hy, hn, hc⟩
      · simp at hz
      · rw [List.mem_singleton] at hz; subst hz
        exact hf _ (by omega) (by omega) (by rw [hy]; exact hc)

/-- **C38** for `keep_cp=False` (partial: the last step must not be a checkpoint, and a file `None.pickle` of the user is not
protected, see `C38_tebd_violated`).  Only the latest checkpoint remains; other files are left alone. -/
theorem C38_tebd_latest_partial {dt : ℂ} {n : ℕ} {D : Option ℕ} {th : ℝ} {v : ℤ} {cp : Option ℤ} {w w' : World}
    (h : doTEBD O gates dt n D th v cp false w = .ok w') (hlast : n = 0 ∨ cpAt cp (w.evo.it + (n - 1)) = false) :
    (∀ i, w.evo.it ≤ i → i < w.evo.it + n → cpAt cp i = true →
      (∀ j, i < j → j < w.evo.it + n → cpAt cp j = false) →
      ∃ s, s.it = i ∧ w'.disk (cpFile w.evo.filename "_tebd_cp" i) = some (.pickle s)) ∧
    (∀ i j, w.evo.it ≤ i → i < j → j < w.evo.it + n → cpAt cp i = true → cpAt cp j = true →
      w'.disk (cpFile w.evo.filename "_tebd_cp" i) = none) ∧
    ∀ f, f ≠ "None.pickle" → (∀ i, w.evo.it ≤ i → i < w.evo.it + n → cpAt cp i = true →
      f ≠ cpFile w.evo.filename "_tebd_cp" i) → w'.disk f = w.disk f := by
  obtain ⟨e, he, a1, a2, a3, a4, xs, zs, h1, h2, h3, h4⟩ := doTEBD_spec h
  have hnd := its_nodup (file := w.evo.filename) (kind := "_tebd_cp") (by decide) h2
  have hz : zs = [] := by
    rcases zs_cases h3 with ⟨hz, -⟩ | ⟨z, rfl, hz, hn, hc⟩
    · exact hz
    · rcases hlast with hlast | hlast
      · exact absurd hlast hn
      · rw [hc] at hlast; cases hlast
  subst hz
  rw [List.foldl_nil] at h4
  have hlt : ∀ i, w.evo.it ≤ i → i < w.evo.it + n → cpAt cp i = true → i < w.evo.it + (n - 1) := by
    intro i hi hi' hc
    rcases hlast with h0 | h0
    · omega
    · by_contra h5
      rw [show w.evo.it + (n - 1) = i by omega, hc] at h0; cases h0
  have hsort : (xs.map Evo.it).Pairwise (· < ·) := by rw [h2]; exact (List.pairwise_lt_range').filter _
  refine ⟨?_, ?_, ?_⟩
  · intro i hi hi' hc hmax
    obtain ⟨s, hs, rfl⟩ := (mem_its (i := i) h2).mpr ⟨hi, hlt i hi hi' hc, hc⟩
    obtain ⟨ys, y, rfl⟩ : ∃ ys y, xs = ys ++ [y] := by
      rcases List.eq_nil_or_concat xs with h5 | ⟨ys, y, h5⟩
      · subst h5; simp at hs
      · exact ⟨ys, y, by rw [h5, List.concat_eq_append]⟩
    have hy : y = s := by
      rcases List.mem_append.mp hs with h5 | h5
      · exfalso
        rw [List.map_append, List.pairwise_append] at hsort
        have h6 := hsort.2.2 s.it (List.mem_map.mpr ⟨s, h5, rfl⟩) y.it (by simp)
        have h7 := (mem_its (i := y.it) h2).mp ⟨y, by simp, rfl⟩
        have h8 := hmax y.it h6 (by omega)
        rw [h7.2.2] at h8; cases h8
      · exact (List.mem_singleton.mp h5).symm
    subst hy
    refine ⟨y, rfl, ?_⟩
    rw [h4, List.map_append]
    exact retain_last _ _ _
  · intro i j hi hij hj hci hcj
    obtain ⟨s, hs, rfl⟩ := (mem_its (i := i) h2).mpr ⟨hi, by have := hlt j (by omega) hj hcj; omega, hci⟩
    obtain ⟨t, ht, rfl⟩ := (mem_its (i := j) h2).mpr ⟨by omega, hlt j (by omega) hj hcj, hcj⟩
    obtain ⟨ys, y, rfl⟩ : ∃ ys y, xs = ys ++ [y] := by
      rcases List.eq_nil_or_concat xs with h5 | ⟨ys, y, h5⟩
      · subst h5; simp at hs
      · exact ⟨ys, y, by rw [h5, List.concat_eq_append]⟩
    have hsy : s ∈ ys := by
      rcases List.mem_append.mp hs with h5 | h5
      · exact h5
      · exfalso
        rw [List.mem_singleton] at h5; subst h5
        rw [List.map_append, List.pairwise_append] at hsort
        rcases List.mem_append.mp ht with h6 | h6
        · have := hsort.2.2 t.it (List.mem_map.mpr ⟨t, h6, rfl⟩) s.it (by simp)
          omega
        · rw [List.mem_singleton] at h6; subst h6; omega
    rw [h4]
    rw [List.map_append] at hnd ⊢
    exact retain_old _ _ _ hnd (by
      refine List.mem_cons_of_mem _ ?_
      rw [List.map_map]
      exact List.mem_map.mpr ⟨s, hsy, rfl⟩)
  · intro f hf0 hf
    rw [h4, retain_other]
    · intro x hx
      obtain ⟨s, hs, rfl⟩ := List.mem_map.mp hx
      have h5 := (mem_its (i := s.it) h2).mp ⟨s, hs, rfl⟩
      exact hf _ h5.1 (by omega) h5.2.2
    · intro _ _; exact hf0

example : ∃ (O : LinAlg) (m : MPS) (w : World), O.Spec ∧ Good [2, 2, 2] 1 1 m ∧
    doTEBD O phaseFn Complex.I ((6 : ℕ) : ℤ) (some 8) 0 1 (some 2) false ⟨evoOf m "run", fun _ => none⟩ = .ok w ∧
    (∃ s, s.it = 4 ∧ w.disk (cpFile "run" "_tebd_cp" 4) = some (.pickle s)) ∧
    w.disk (cpFile "run" "_tebd_cp" 2) = none := by
  obtain ⟨O, hO⟩ := exists_linAlg
  obtain ⟨m, -, hg, -, -⟩ := ghz_good hO
  obtain ⟨w, h1, -⟩ := tebd_runs hO Complex.I 5 (some 2) (by simp) false 1 (fun _ => none) hg
  have h1' : doTEBD O phaseFn Complex.I ((6 : ℕ) : ℤ) (some 8) 0 1 (some 2) false ⟨evoOf m "run", fun _ => none⟩ = .ok w := h1
  have hit : (⟨evoOf m "run", fun _ => none⟩ : World).evo.it = 0 := rfl
  obtain ⟨a, b, -⟩ := C38_tebd_latest_partial h1' (Or.inr (by rw [hit]; decide))
  rw [hit] at a b
  refine ⟨O, m, w, hO, hg, h1', a 4 (by omega) (by omega) (by decide) ?_, b 2 4 (by omega) (by omega) (by omega) (by decide) (by decide)⟩
  intro j hj hj'
  obtain rfl : j = 5 := by omega
  decide

/-- **C38 is violated** for `keep_cp=False`: if the last step is a checkpoint step, the checkpoint before it is not
removed, and a file `None.pickle` that the user had before the run is deleted.  Fresh engine, three steps, `cp=1`. -/
theorem C38_tebd_violated : ∃ (O : LinAlg) (m : MPS) (d : Disk) (w : World), O.Spec ∧ Good [2, 2, 2] 1 1 m ∧
    d "None.pickle" = some (.other 7) ∧
    doTEBD O phaseFn Complex.I 3 (some 8) 0 1 (some 1) false ⟨evoOf m "run", d⟩ = .ok w ∧
    (w.disk (cpFile "run" "_tebd_cp" 1)).isSome ∧ (w.disk (cpFile "run" "_tebd_cp" 2)).isSome ∧
    w.disk "None.pickle" = none := by
  obtain ⟨O, hO⟩ := exists_linAlg
  obtain ⟨m, -, hg, hp, -⟩ := ghz_good hO
  let d : Disk := fun f => if f = "None.pickle" then some (.other 7) else none
  obtain ⟨w, h1, -⟩ := tebd_runs hO Complex.I 2 (some 1) (by simp) false 1 d hg
  have h1' : doTEBD O phaseFn Complex.I ((3 : ℕ) : ℤ) (some 8) 0 1 (some 1) false ⟨evoOf m "run", d⟩ = .ok w := h1
  obtain ⟨e, he, a1, a2, a3, a4, xs, zs, b1, b2, b3, b4⟩ := doTEBD_spec h1'
  have e1 : xs.map Evo.it = [1] := by rw [b2, show (⟨evoOf m "run", d⟩ : World).evo.it = 0 from rfl]; decide
  have e2 : zs.map Evo.it = [2] := by rw [b3, show (⟨evoOf m "run", d⟩ : World).evo.it = 0 from rfl]; decide
  obtain ⟨x, rfl⟩ : ∃ x, xs = [x] := List.length_eq_one_iff.mp (by rw [← List.length_map (f := Evo.it), e1]; rfl)
  obtain ⟨z, rfl⟩ : ∃ x, zs = [x] := List.length_eq_one_iff.mp (by rw [← List.length_map (f := Evo.it), e2]; rfl)
  simp only [List.map_cons, List.map_nil, List.cons.injEq, and_true] at e1 e2
  simp only [List.map_cons, List.map_nil, retain, List.foldl_cons, List.foldl_nil, e1, e2,
    show (evoOf m "run").filename = "run" from rfl] at b4
  refine ⟨O, m, d, w, hO, hg, by simp [d], h1, ?_, ?_, ?_⟩
  · rw [b4, save_apply, save_apply, if_pos (show cpFile "run" "_tebd_cp" 1 = cpName "run" "_tebd_cp" 1 ++ ".pickle" from rfl)]
    by_cases h : cpFile "run" "_tebd_cp" 1 = cpName "run" "_tebd_cp" 2 ++ ".pickle"
    · rw [if_pos h]; rfl
    · rw [if_neg h]; rfl
  · rw [b4, save_apply, if_pos (show cpFile "run" "_tebd_cp" 2 = cpName "run" "_tebd_cp" 2 ++ ".pickle" from rfl)]; rfl
  · have n1 : "None.pickle" ≠ cpName "run" "_tebd_cp" 1 ++ ".pickle" := by decide
    have n2 : "None.pickle" ≠ cpName "run" "_tebd_cp" 2 ++ ".pickle" := by decide
    rw [b4, save_apply, save_apply, if_neg n2, if_neg n1]
    simp [removeIf_apply]

/-! ## C68 -/

theorem mem_retain {keep : Bool} {f : String} {x : File} : ∀ (xs : List (String × Evo)) (cur : String) (d : Disk),
    retain keep xs cur d f = some x → d f = some x ∨ ∃ p ∈ xs, f = p.1 ++ ".pickle" ∧ x = .pickle p.2 := by
  intro xs
  induction xs with
  | nil => intro cur d h; exact Or.inl h
  | cons y xs ih =>
    intro cur d h
    rcases ih _ _ h with h1 | ⟨p, hp, h1⟩
    · rw [save_apply] at h1
      split_ifs at h1 with h2 h3
      · exact Or.inr ⟨y, by simp, h2, by simpa using h1.symm⟩
      · rw [removeIf_apply] at h1
        split_ifs at h1
        exact Or.inl h1
      · exact Or.inl h1
    · exact Or.inr ⟨p, by simp [hp], h1⟩

theorem mem_foldl_save {f : String} {x : File} (file kind : String) : ∀ (zs : List Evo) (d : Disk),
    zs.foldl (fun d s => d.save (cpName file kind s.it) s) d f = some x →
    d f = some x ∨ ∃ s ∈ zs, f = cpFile file kind s.it ∧ x = .pickle s := by
  intro zs
  induction zs with
  | nil => intro d h; exact Or.inl h
  | cons z zs ih =>
    intro d h
    rcases ih _ h with h1 | ⟨p, hp, h1⟩
    · simp only at h1
      rw [save_apply] at h1
      split_ifs at h1 with h2
      · exact Or.inr ⟨z, by simp, h2, by simpa using h1.symm⟩
      · exact Or.inl h1
    · exact Or.inr ⟨p, by simp [hp], h1⟩

theorem mergeE_R : ∀ ls : List Layer, mergeE (ls ++ [.R]) = mergeE ls := by
  intro ls
  induction ls with
  | nil => rfl
  | cons x ls ih =>
    cases x <;> simp only [List.cons_append, mergeE, ih]

/-- **C68.** Whatever new engine a run leaves on disk is the engine on a step boundary: its file name carries its
iteration `i`, it has made `k=i-it+1` complete steps (opening half layer to closing half layer), its simulated time says so,
and carrying out these layers gives its state. -/
theorem C68_checkpoint_content {dt : ℂ} {n : ℕ} {D : Option ℕ} {th : ℝ} {v : ℤ} {cp : Option ℤ} {keep : Bool} {w w' : World}
    (h : doTEBD O gates dt n D th v cp keep w = .ok w') {f : String} {s : Evo} (hs : w'.disk f = some (.pickle s))
    (hnew : w.disk f ≠ some (.pickle s)) :
    ∃ k : ℕ, s.it = w.evo.it + k ∧ k < n ∧ cpAt cp s.it = true ∧ f = cpFile w.evo.filename "_tebd_cp" s.it ∧
      s.t0 = w.evo.t0 + (k + 1 : ℕ) * tickBy v dt ∧
      ∃ ls : List Layer, mergeE ls = trotter dt k ∧ s.log = w.evo.log ++ layersEvs w.evo.eng.mps.N ls ∧
        replay O gates D th (layersEvs w.evo.eng.mps.N ls) w.evo.st = .ok s.st := by
  obtain ⟨e, he, a1, a2, a3, a4, xs, zs, h1, h2, h3, h4⟩ := doTEBD_spec h
  obtain ⟨c1, c2, c3⟩ := applyEven_spec he
  have key : s ∈ xs ++ zs ∧ f = cpFile w.evo.filename "_tebd_cp" s.it ∧ w.evo.it ≤ s.it ∧ s.it < w.evo.it + n ∧
      cpAt cp s.it = true := by
    rw [h4] at hs
    rcases mem_foldl_save _ _ _ _ hs with h5 | ⟨z, hz, h5, h6⟩
    · rcases mem_retain _ _ _ h5 with h6 | ⟨p, hp, h6, h7⟩
      · exact absurd h6 hnew
      · obtain ⟨t, ht, rfl⟩ := List.mem_map.mp hp
        simp only [File.pickle.injEq] at h7
        subst h7
        have h8 := (mem_its (i := s.it) h2).mp ⟨s, ht, rfl⟩
        exact ⟨List.mem_append_left _ ht, h6, h8.1, by omega, h8.2.2⟩
    · simp only [File.pickle.injEq] at h6
      subst h6
      rcases zs_cases h3 with ⟨rfl, -⟩ | ⟨y, rfl, hy, hn, hc⟩
      · simp at hz
      · rw [List.mem_singleton] at hz; subst hz
        exact ⟨by simp, h5, by omega, by omega, by rw [hy]; exact hc⟩
  obtain ⟨k1, k2, k3, k4, k5⟩ := key
  have hsn := h1 s k1
  have hit : e.it = w.evo.it := a1.it
  refine ⟨s.it - w.evo.it, by omega, by omega, k5, k2, ?_, .E (dt / 2) :: (preLayers dt cp w.evo.it (s.it - w.evo.it) ++
    [.O dt, .E (dt / 2)]), ?_, ?_, ?_⟩
  · rw [hsn.t0, a1.t0, hit]
  · have := mergeE_all dt cp (s.it - w.evo.it) w.evo.it (dt / 2)
    rw [← mergeE_R]
    simpa [allLayers, stepLayers, closing, trotter] using this
  · rw [hsn.log, c2, a1.N, hit, List.append_assoc]; rfl
  · have := hsn.run
    rw [a1.N, hit] at this
    exact replay_append _ _ _ _ _ c3 this

/-- **C68 is violated** for the counters: a checkpoint stores the iteration counter before it is increased, so that the
counter of a checkpoint of a fresh engine is one less than the number of steps behind its state and its time. -/
theorem C68_counter_violated : ∃ (O : LinAlg) (m : MPS) (w : World) (s : Evo), O.Spec ∧ Good [2, 2, 2] 1 1 m ∧
    doTEBD O phaseFn Complex.I 3 (some 8) 0 1 (some 2) true ⟨evoOf m "run", fun _ => none⟩ = .ok w ∧
    w.disk (cpFile "run" "_tebd_cp" 2) = some (.pickle s) ∧ s.t0 = 3 ∧ s.it = 2 ∧ w.evo.t0 = 3 ∧ w.evo.it = 3 := by
  obtain ⟨O, hO⟩ := exists_linAlg
  obtain ⟨m, -, hg, hp, -⟩ := ghz_good hO
  obtain ⟨w, h1, -⟩ := tebd_runs hO Complex.I 2 (some 2) (by simp) true 1 (fun _ => none) hg
  have h1' : doTEBD O phaseFn Complex.I ((3 : ℕ) : ℤ) (some 8) 0 1 (some 2) true ⟨evoOf m "run", fun _ => none⟩ = .ok w := h1
  obtain ⟨s, hs, hd⟩ := (C38_tebd_keep h1').1 2 (by simp [evoOf]) (by simp [evoOf]) (by decide)
  obtain ⟨k, b1, -, -, -, b5, -⟩ := C68_checkpoint_content h1' hd (by simp)
  obtain ⟨t1, t2⟩ := C37_tebd_time_partial le_rfl h1'
  have hk : k = 2 := by rw [hs] at b1; simpa [evoOf] using b1.symm
  subst hk
  refine ⟨O, m, w, s, hO, hg, h1, hd, ?_, hs, ?_, ?_⟩
  · rw [b5]; simp [evoOf, tickBy]
  · rw [t2]; simp [evoOf]
  · rw [t1]; rfl

end

end PyTeN
