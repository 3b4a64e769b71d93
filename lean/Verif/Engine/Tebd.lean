import Verif.Engine.Evolve
import Mathlib.Data.List.Sort
import Std.Data.String.ToNat

/-! # Lemmas on the TEBD loop: schedule, counters -/

namespace PyTeN

noncomputable section

/-! ## Bonds of a layer -/

/-- Spec: the bonds `n`, `n+1` of a chain of `N` sites with `n ≡ p` modulo 2, in increasing order. -/
def bonds (N p : ℕ) : List ℤ := ((List.range (N - 1)).filter fun n => n % 2 = p).map Int.ofNat

theorem mem_bonds {N p : ℕ} {n : ℤ} : n ∈ bonds N p ↔ 0 ≤ n ∧ n < (N : ℤ) - 1 ∧ n % 2 = p := by
  simp only [bonds, List.mem_map, List.mem_filter, List.mem_range, decide_eq_true_eq, Int.ofNat_eq_natCast]
  constructor
  · rintro ⟨k, ⟨h1, h2⟩, rfl⟩; omega
  · rintro ⟨h1, h2, h3⟩; exact ⟨n.toNat, by omega, by omega⟩

theorem bonds_lt (N p : ℕ) : (bonds N p).Pairwise (· < ·) := by
  unfold bonds
  rw [List.pairwise_map]
  apply List.Pairwise.filter
  exact (List.pairwise_lt_range).imp (by intro a b h; simpa using h)

theorem mem_pyRange_pos {a b s n : ℤ} (hs : 0 < s) : n ∈ pyRange a b s ↔ a ≤ n ∧ n < b ∧ (n - a) % s = 0 := by
  unfold pyRange
  rw [if_pos hs]
  simp only [List.mem_map, List.mem_range]
  constructor
  · rintro ⟨i, hi, rfl⟩
    have h1 : (i : ℤ) < (b - a + s - 1) / s := by omega
    have h2 : ((i : ℤ) + 1) * s ≤ b - a + s - 1 := by
      rw [← Int.le_ediv_iff_mul_le hs]; omega
    refine ⟨by nlinarith, by nlinarith, by rw [add_sub_cancel_left, Int.mul_emod_right]⟩
  · rintro ⟨h1, h2, h3⟩
    obtain ⟨q, hq⟩ := Int.dvd_of_emod_eq_zero h3
    have hq0 : 0 ≤ q := by
      by_contra h; have : s * q < 0 := mul_neg_of_pos_of_neg hs (by omega); omega
    refine ⟨q.toNat, ?_, by rw [Int.toNat_of_nonneg hq0]; omega⟩
    have : q + 1 ≤ (b - a + s - 1) / s := by
      rw [Int.le_ediv_iff_mul_le hs]; nlinarith
    omega

theorem mem_pyRange_neg {a b s n : ℤ} (hs : s < 0) : n ∈ pyRange a b s ↔ n ≤ a ∧ b < n ∧ (a - n) % (-s) = 0 := by
  have h0 : pyRange a b s = (pyRange (-a) (-b) (-s)).map Neg.neg := by
    unfold pyRange
    rw [if_neg (by omega), if_pos (by omega), List.map_map]
    rw [show (a - b - s - 1) / -s = (-b - -a + -s - 1) / -s by congr 1; ring]
    apply List.map_congr_left
    intro i _
    simp only [Function.comp]
    ring
  rw [h0, List.mem_map]
  constructor
  · rintro ⟨k, hk, rfl⟩
    rw [mem_pyRange_pos (by omega)] at hk
    refine ⟨by omega, by omega, ?_⟩
    rw [← hk.2.2]; congr 1; ring
  · rintro ⟨h1, h2, h3⟩
    refine ⟨-n, ?_, by ring⟩
    rw [mem_pyRange_pos (by omega)]
    refine ⟨by omega, by omega, ?_⟩
    rw [← h3]; congr 1; ring

theorem pyRange_pairwise_pos {a b s : ℤ} (hs : 0 < s) : (pyRange a b s).Pairwise (· < ·) := by
  unfold pyRange
  rw [if_pos hs, List.pairwise_map]
  refine (List.pairwise_lt_range).imp ?_
  intro i j h
  have : (i : ℤ) < j := by omega
  nlinarith

theorem pyRange_pairwise_neg {a b s : ℤ} (hs : s < 0) : (pyRange a b s).Pairwise (· > ·) := by
  unfold pyRange
  rw [if_neg (by omega), List.pairwise_map]
  refine (List.pairwise_lt_range).imp ?_
  intro i j h
  have : (i : ℤ) < j := by omega
  simp only [gt_iff_lt]
  nlinarith

theorem pyRange_even (N : ℕ) : pyRange 0 ((N : ℤ) - 1) 2 = bonds N 0 := by
  apply List.Pairwise.eq_of_mem_iff (pyRange_pairwise_pos (by norm_num)) (bonds_lt N 0)
  intro n
  rw [mem_pyRange_pos (by norm_num), mem_bonds]
  omega

theorem pyRange_odd (N : ℕ) :
    pyRange (if N % 2 = 0 then (N : ℤ) - 3 else (N : ℤ) - 2) (-1) (-2) = (bonds N 1).reverse := by
  apply List.Pairwise.eq_of_mem_iff (pyRange_pairwise_neg (by norm_num))
    (List.pairwise_reverse.mpr ((bonds_lt N 1).imp (fun h => h)))
  intro n
  rw [mem_pyRange_neg (by norm_num), List.mem_reverse, mem_bonds, neg_neg]
  split_ifs with h <;> omega

/-! ## What the layers leave alone -/

theorem position_keeps {O : LinAlg} {m m' : MPS} {b : ℤ} (h : m.position O b = .ok m') :
    m'.N = m.N ∧ m'.sth = m.sth := by
  unfold MPS.position at h
  split_ifs at h with h1
  simp only at h
  split_ifs at h with h2 h3
  · simp only [Except.ok.injEq] at h; subst h; exact ⟨rfl, rfl⟩
  · split at h
    · cases h
    split at h
    · cases h
    split at h
    · cases h
    simp only [Except.ok.injEq] at h
    subst h; exact ⟨rfl, rfl⟩
  · split at h
    · cases h
    split at h
    · cases h
    split at h
    · cases h
    simp only [Except.ok.injEq] at h
    subst h; exact ⟨rfl, rfl⟩

theorem tensor_keeps {m m' : MPS} {n : ℤ} {c : Bool} {T : Ten ℂ} (h : m.tensor n c = .ok (T, m')) :
    m'.N = m.N ∧ m'.sth = m.sth := by
  unfold MPS.tensor at h
  split_ifs at h
  all_goals
    split at h
    · cases h
    split at h
    · cases h
    simp only [Except.ok.injEq, Prod.mk.injEq] at h
    obtain ⟨-, rfl⟩ := h
    exact ⟨rfl, rfl⟩

theorem applyTwoSiteGate_keeps {O : LinAlg} {m p : MPS} {g : Gate2} {n : ℤ} {D : Option ℕ} {th tw : ℝ} {k : ℕ}
    (h : m.applyTwoSiteGate O g n D th = .ok (tw, k, p)) : p.N = m.N ∧ p.sth = m.sth := by
  unfold MPS.applyTwoSiteGate at h
  split_ifs at h
  split at h
  · cases h
  rename_i m1 h1
  split at h
  · cases h
  rename_i T m2 h2
  split at h
  · cases h
  split_ifs at h
  simp only at h
  split at h
  · cases h
  split at h
  · cases h
  split at h
  · cases h
  split at h
  · cases h
  simp only [Except.ok.injEq, Prod.mk.injEq] at h
  obtain ⟨-, -, rfl⟩ := h
  have a := position_keeps h1
  have b := tensor_keeps h2
  exact ⟨b.1.trans a.1, b.2.trans a.2⟩

/-- Attributes that gates do not touch. -/
structure Evo.Kept (e e' : Evo) : Prop where
  N : e'.eng.mps.N = e.eng.mps.N
  sth : e'.eng.mps.sth = e.eng.mps.sth
  it : e'.it = e.it
  t0 : e'.t0 = e.t0
  filename : e'.filename = e.filename
  mpo : e'.eng.mpo = e.eng.mpo
  lb : e'.eng.lb = e.eng.lb
  rb : e'.eng.rb = e.eng.rb

theorem Evo.Kept.refl (e : Evo) : e.Kept e := ⟨rfl, rfl, rfl, rfl, rfl, rfl, rfl, rfl⟩

theorem Evo.Kept.trans {e e1 e2 : Evo} (h : e.Kept e1) (h' : e1.Kept e2) : e.Kept e2 :=
  ⟨h'.N.trans h.N, h'.sth.trans h.sth, h'.it.trans h.it, h'.t0.trans h.t0, h'.filename.trans h.filename,
    h'.mpo.trans h.mpo, h'.lb.trans h.lb, h'.rb.trans h.rb⟩

variable {O : LinAlg} {gates : GateFn}

/-- Spec: carrying out a record of actions on an MPS object, adding up the discarded weights. -/
def replay (O : LinAlg) (gates : GateFn) (Dmax : Option ℕ) (th : ℝ) : List TEv → MPS × ℝ → Res (MPS × ℝ)
  | [], m => .ok m
  | .gate n tau :: es, m =>
    match gates n (n + 1) tau with
    | .error x => .error x
    | .ok g =>
      match m.1.applyTwoSiteGate O g n Dmax th with
      | .error x => .error x
      | .ok (tw, _, p) => replay O gates Dmax th es (p, m.2 + tw)
  | .reset :: es, m => replay O gates Dmax th es (m.1.resetZ, m.2)

/-- The part of an engine that gates act on. -/
def Evo.st (e : Evo) : MPS × ℝ := (e.eng.mps, e.tw)

theorem replay_append {Dmax : Option ℕ} {th : ℝ} : ∀ (es fs : List TEv) (m p q : MPS × ℝ),
    replay O gates Dmax th es m = .ok p → replay O gates Dmax th fs p = .ok q →
    replay O gates Dmax th (es ++ fs) m = .ok q := by
  intro es
  induction es with
  | nil => intro fs m p q h h'; simp only [replay, Except.ok.injEq] at h; subst h; exact h'
  | cons a es ih =>
    intro fs m p q h h'
    cases a with
    | reset => simp only [replay, List.cons_append] at h ⊢; exact ih fs _ p q h h'
    | gate n tau =>
      simp only [replay, List.cons_append] at h ⊢
      split at h
      · cases h
      rename_i g hg
      split at h
      · cases h
      rename_i x y z hz
      exact ih fs _ p q h h'

theorem gate_spec {tau : ℂ} {Dmax : Option ℕ} {th : ℝ} {e e' : Evo} {n : ℤ}
    (h : e.gate O gates tau Dmax th n = .ok e') :
    e.Kept e' ∧ e'.log = e.log ++ [.gate n tau] ∧
      replay O gates Dmax th [.gate n tau] e.st = .ok e'.st := by
  unfold Evo.gate at h
  split at h
  · cases h
  rename_i g hg
  split at h
  · cases h
  rename_i tw D m hm
  simp only [Except.ok.injEq] at h
  subst h
  have := applyTwoSiteGate_keeps hm
  exact ⟨⟨this.1, this.2, rfl, rfl, rfl, rfl, rfl, rfl⟩, rfl, by simp only [replay, Evo.st, hg, hm]⟩

theorem layer_spec {tau : ℂ} {Dmax : Option ℕ} {th : ℝ} : ∀ (ns : List ℤ) (e e' : Evo),
    e.layer O gates tau Dmax th ns = .ok e' →
    e.Kept e' ∧ e'.log = e.log ++ ns.map (TEv.gate · tau) ∧
      replay O gates Dmax th (ns.map (TEv.gate · tau)) e.st = .ok e'.st := by
  intro ns
  induction ns with
  | nil =>
    intro e e' h
    simp only [Evo.layer, Except.ok.injEq] at h
    subst h
    exact ⟨Evo.Kept.refl _, by simp, rfl⟩
  | cons n ns ih =>
    intro e e' h
    simp only [Evo.layer] at h
    split at h
    · cases h
    rename_i e1 h1
    obtain ⟨a1, a2, a3⟩ := gate_spec h1
    obtain ⟨b1, b2, b3⟩ := ih e1 e' h
    refine ⟨a1.trans b1, by rw [b2, a2]; simp, ?_⟩
    exact replay_append [TEv.gate n tau] _ _ _ _ a3 b3

/-- Spec: a layer of a TEBD run. -/
inductive Layer
  | E (tau : ℂ)
  | O (tau : ℂ)
  | R

/-- Spec: the actions of a layer: the gates of all even bonds from left to right, of all odd bonds from right
to left, or resetting the norm. -/
def Layer.evs (N : ℕ) : Layer → List TEv
  | .E tau => (bonds N 0).map (TEv.gate · tau)
  | .O tau => ((bonds N 1).reverse).map (TEv.gate · tau)
  | .R => [.reset]

/-- Actions of a sequence of layers. -/
def layersEvs (N : ℕ) (ls : List Layer) : List TEv := ls.flatMap (Layer.evs N)

theorem applyEven_spec {tau : ℂ} {Dmax : Option ℕ} {th : ℝ} {e e' : Evo}
    (h : e.applyEven O gates tau Dmax th = .ok e') :
    e.Kept e' ∧ e'.log = e.log ++ (Layer.E tau).evs e.eng.mps.N ∧
      replay O gates Dmax th ((Layer.E tau).evs e.eng.mps.N) e.st = .ok e'.st := by
  unfold Evo.applyEven at h
  rw [pyRange_even] at h
  exact layer_spec _ _ _ h

theorem applyOdd_spec {tau : ℂ} {Dmax : Option ℕ} {th : ℝ} {e e' : Evo}
    (h : e.applyOdd O gates tau Dmax th = .ok e') :
    e.Kept e' ∧ e'.log = e.log ++ (Layer.O tau).evs e.eng.mps.N ∧
      replay O gates Dmax th ((Layer.O tau).evs e.eng.mps.N) e.st = .ok e'.st := by
  unfold Evo.applyOdd at h
  simp only at h
  rw [pyRange_odd] at h
  exact layer_spec _ _ _ h

/-! ## The loop -/

/-- Spec: iteration `i` writes a checkpoint. -/
def cpAt (cp : Option ℤ) (i : ℕ) : Bool := decide (0 < i) && (match cp with | none => false | some c => decide (c ∣ (i : ℤ)))

theorem cpDue_cpAt {cp : Option ℤ} {i : ℕ} {b : Bool} (h : cpDue cp i = .ok b) : b = cpAt cp i := by
  unfold cpDue at h
  cases cp with
  | none => simp at h; subst h; simp [cpAt]
  | some c =>
    simp only at h
    split_ifs at h with h1 h2
    · simp only [Except.ok.injEq] at h
      subst h
      simp only [cpAt, h1, decide_true, Bool.true_and, Int.dvd_iff_emod_eq_zero]
    · simp only [Except.ok.injEq] at h
      subst h
      simp [cpAt, h1]

/-- Spec: the even layers closing a step. -/
def closing (dt : ℂ) (last due : Bool) : List Layer :=
  if last then [.E (dt / 2)] else if due then [.E (dt / 2), .E (dt / 2)] else [.E dt]

/-- Spec: the layers of one step. -/
def stepLayers (dt : ℂ) (last due : Bool) : List Layer := .O dt :: closing dt last due ++ [.R]

/-- Spec: the layers of `k` steps, none of them the last one, the first one in iteration `it`. -/
def preLayers (dt : ℂ) (cp : Option ℤ) : ℕ → ℕ → List Layer
  | _, 0 => []
  | it, k + 1 => stepLayers dt false (cpAt cp it) ++ preLayers dt cp (it + 1) k

/-- Spec: the layers of all `n` steps of a call, the first one in iteration `it`. -/
def allLayers (dt : ℂ) (cp : Option ℤ) : ℕ → ℕ → List Layer
  | _, 0 => []
  | it, n + 1 => preLayers dt cp it n ++ stepLayers dt true (cpAt cp (it + n))

/-- Spec: simulated time after one more step. -/
def tickBy (verbose : ℤ) (dt : ℂ) : ℝ := if 1 ≤ verbose then |dt.im| else 0

/-- Attributes that steps do not touch. -/
structure Evo.Kept' (e e' : Evo) : Prop where
  N : e'.eng.mps.N = e.eng.mps.N
  sth : e'.eng.mps.sth = e.eng.mps.sth
  filename : e'.filename = e.filename
  mpo : e'.eng.mpo = e.eng.mpo
  lb : e'.eng.lb = e.eng.lb
  rb : e'.eng.rb = e.eng.rb

theorem Evo.Kept'.trans {e e1 e2 : Evo} (h : e.Kept' e1) (h' : e1.Kept' e2) : e.Kept' e2 :=
  ⟨h'.N.trans h.N, h'.sth.trans h.sth, h'.filename.trans h.filename,
    h'.mpo.trans h.mpo, h'.lb.trans h.lb, h'.rb.trans h.rb⟩

theorem Evo.Kept.kept' {e e' : Evo} (h : e.Kept e') : e.Kept' e' := ⟨h.N, h.sth, h.filename, h.mpo, h.lb, h.rb⟩

/-- Effect of one step. `snap` is the engine as it is written to a checkpoint, if there is one. -/
theorem tebdStep_spec {dt : ℂ} {ns : ℤ} {Dmax : Option ℕ} {th : ℝ} {v : ℤ} {cp : Option ℤ} {keep : Bool} {step : ℤ}
    {cur cur' : String} {w w' : World} (h : tebdStep O gates dt ns Dmax th v cp keep step cur w = .ok (cur', w')) :
    w.evo.Kept' w'.evo ∧ w'.evo.it = w.evo.it + 1 ∧ w'.evo.t0 = w.evo.t0 + tickBy v dt ∧
    w'.evo.log = w.evo.log ++ layersEvs w.evo.eng.mps.N
      (stepLayers dt (decide (¬ step < ns - 1)) (cpAt cp w.evo.it)) ∧
    replay O gates Dmax th (layersEvs w.evo.eng.mps.N
      (stepLayers dt (decide (¬ step < ns - 1)) (cpAt cp w.evo.it))) w.evo.st = .ok w'.evo.st ∧
    (cpAt cp w.evo.it = false → cur' = cur ∧ w'.disk = w.disk) ∧
    (cpAt cp w.evo.it = true → ∃ snap : Evo, w.evo.Kept' snap ∧ snap.it = w.evo.it ∧
      snap.t0 = w.evo.t0 + tickBy v dt ∧ snap.log = w.evo.log ++ layersEvs w.evo.eng.mps.N [.O dt, .E (dt / 2)] ∧
      replay O gates Dmax th (layersEvs w.evo.eng.mps.N [.O dt, .E (dt / 2)]) w.evo.st = .ok snap.st ∧
      (step < ns - 1 → cur' = w.evo.filename ++ "_tebd_cp" ++ toString w.evo.it ∧
        w'.disk = (if !keep then w.disk.removeIf cur else w.disk).save cur' snap) ∧
      (¬ step < ns - 1 → cur' = cur ∧
        w'.disk = w.disk.save (w.evo.filename ++ "_tebd_cp" ++ toString w.evo.it) snap)) := by
  unfold tebdStep at h
  split at h
  · cases h
  rename_i e1 h1
  obtain ⟨a1, a2, a3⟩ := applyOdd_spec h1
  simp only at h
  have tk : ∃ e2 : Evo, e2 = e1.tick v dt ∧ w.evo.Kept' e2 ∧ e2.it = w.evo.it ∧ e2.t0 = w.evo.t0 + tickBy v dt ∧
      e2.log = e1.log ∧ e2.eng = e1.eng ∧ e2.st = e1.st := by
    refine ⟨_, rfl, ?_⟩
    unfold Evo.tick tickBy
    split_ifs with hv
    · exact ⟨⟨a1.N, a1.sth, a1.filename, a1.mpo, a1.lb, a1.rb⟩, a1.it, by simp [a1.t0], rfl, rfl, rfl⟩
    · exact ⟨a1.kept', a1.it, by simp [a1.t0], rfl, rfl, rfl⟩
  obtain ⟨e2, he2, t1, t2, t3, t4, t5, t6⟩ := tk
  rw [← he2] at h
  have half : ∀ {tau : ℂ} {e3 : Evo}, e2.applyEven O gates tau Dmax th = .ok e3 →
      w.evo.Kept' e3 ∧ e3.it = w.evo.it ∧ e3.t0 = w.evo.t0 + tickBy v dt ∧
      e3.log = w.evo.log ++ layersEvs w.evo.eng.mps.N [.O dt, .E tau] ∧
      replay O gates Dmax th (layersEvs w.evo.eng.mps.N [.O dt, .E tau]) w.evo.st = .ok e3.st := by
    intro tau e3 h3
    obtain ⟨b1, b2, b3⟩ := applyEven_spec h3
    refine ⟨t1.trans b1.kept', b1.it.trans t2, b1.t0.trans t3, ?_, ?_⟩
    · rw [b2, t4, a2, t1.N]; simp [layersEvs]
    · rw [t6, t5] at b3
      rw [show e1.eng.mps.N = w.evo.eng.mps.N from a1.N] at b3
      have := replay_append _ _ _ _ _ a3 b3
      simpa [layersEvs] using this
  have reset : ∀ {es : List TEv} {e3 : Evo}, replay O gates Dmax th es w.evo.st = .ok e3.st →
      replay O gates Dmax th (es ++ [.reset]) w.evo.st = .ok e3.endStep.st := by
    intro es e3 h3
    exact replay_append _ _ _ _ _ h3 rfl
  split at h
  · cases h
  · rename_i hdue
    have hcp : cpAt cp w.evo.it = true := by rw [← t2]; exact (cpDue_cpAt hdue).symm
    rw [hcp]
    by_cases hlast : step < ns - 1
    · rw [if_pos hlast] at h
      split at h
      · cases h
      rename_i e3 h3
      split at h
      · cases h
      rename_i e4 h4
      simp only [Except.ok.injEq, Prod.mk.injEq] at h
      obtain ⟨rfl, rfl⟩ := h
      obtain ⟨c1, c2, c3, c4, c5⟩ := half h3
      obtain ⟨d1, d2, d3⟩ := applyEven_spec h4
      have hl : e4.log ++ [TEv.reset] = w.evo.log ++ layersEvs w.evo.eng.mps.N (stepLayers dt false true) := by
        rw [d2, c4, c1.N]
        simp [layersEvs, stepLayers, closing, Layer.evs]
      have hlast' : decide (¬ step < ns - 1) = false := decide_eq_false (not_not.mpr hlast)
      rw [hlast']
      have hk := c1.trans d1.kept'
      refine ⟨⟨hk.N, hk.sth, hk.filename, hk.mpo, hk.lb, hk.rb⟩, ?_, ?_, hl, ?_,
        fun h => absurd h (by simp), fun _ => ⟨e3, c1, c2, c3, c4, c5, ?_, fun h => absurd hlast h⟩⟩
      · simp only [Evo.endStep, d1.it, c2]
      · simp only [Evo.endStep, d1.t0, c3]
      · rw [c1.N] at d3
        have := reset (replay_append _ _ _ _ _ c5 d3)
        simpa [layersEvs, stepLayers, closing, Layer.evs] using this
      · intro _
        rw [c1.filename, c2]
        exact ⟨rfl, rfl⟩
    · rw [if_neg hlast] at h
      split at h
      · cases h
      rename_i e3 h3
      simp only [Except.ok.injEq, Prod.mk.injEq] at h
      obtain ⟨rfl, rfl⟩ := h
      obtain ⟨c1, c2, c3, c4, c5⟩ := half h3
      have hlast' : decide (¬ step < ns - 1) = true := decide_eq_true hlast
      rw [hlast']
      refine ⟨⟨c1.N, c1.sth, c1.filename, c1.mpo, c1.lb, c1.rb⟩, ?_, ?_, ?_, ?_,
        fun h => absurd h (by simp), fun _ => ⟨e3, c1, c2, c3, c4, c5, fun h => absurd h hlast, fun _ => ⟨rfl, ?_⟩⟩⟩
      · simp only [Evo.endStep, c2]
      · simp only [Evo.endStep, c3]
      · simp [Evo.endStep, c4, layersEvs, stepLayers, closing, Layer.evs]
      · have := reset c5
        simpa [layersEvs, stepLayers, closing, Layer.evs] using this
      · rw [c1.filename, c2]
  · rename_i hdue
    have hcp : cpAt cp w.evo.it = false := by rw [← t2]; exact (cpDue_cpAt hdue).symm
    rw [hcp]
    split_ifs at h with hlast
    · split at h
      · cases h
      rename_i e3 h3
      simp only [Except.ok.injEq, Prod.mk.injEq] at h
      obtain ⟨rfl, rfl⟩ := h
      obtain ⟨c1, c2, c3, c4, c5⟩ := half h3
      have hlast' : decide (¬ step < ns - 1) = false := decide_eq_false (not_not.mpr hlast)
      rw [hlast']
      refine ⟨⟨c1.N, c1.sth, c1.filename, c1.mpo, c1.lb, c1.rb⟩, ?_, ?_, ?_, ?_,
        fun _ => ⟨rfl, rfl⟩, fun h => absurd h (by simp)⟩
      · simp only [Evo.endStep, c2]
      · simp only [Evo.endStep, c3]
      · simp [Evo.endStep, c4, layersEvs, stepLayers, closing, Layer.evs]
      · have := reset c5
        simpa [layersEvs, stepLayers, closing, Layer.evs] using this
    · split at h
      · cases h
      rename_i e3 h3
      simp only [Except.ok.injEq, Prod.mk.injEq] at h
      obtain ⟨rfl, rfl⟩ := h
      obtain ⟨c1, c2, c3, c4, c5⟩ := half h3
      have hlast' : decide (¬ step < ns - 1) = true := decide_eq_true hlast
      rw [hlast']
      refine ⟨⟨c1.N, c1.sth, c1.filename, c1.mpo, c1.lb, c1.rb⟩, ?_, ?_, ?_, ?_,
        fun _ => ⟨rfl, rfl⟩, fun h => absurd h (by simp)⟩
      · simp only [Evo.endStep, c2]
      · simp only [Evo.endStep, c3]
      · simp [Evo.endStep, c4, layersEvs, stepLayers, closing, Layer.evs]
      · have := reset c5
        simpa [layersEvs, stepLayers, closing, Layer.evs] using this

/-! ## Files -/

/-- Checkpoints `xs` (names and contents) written one after the other, `cur` being the name of the previous one:
description of the working directory for the proofs below. -/
def retain (keep : Bool) : List (String × Evo) → String → Disk → Disk
  | [], _, d => d
  | x :: xs, cur, d => retain keep xs x.1 ((if !keep then d.removeIf cur else d).save x.1 x.2)

theorem removeIf_apply (d : Disk) (nm f : String) :
    d.removeIf nm f = if f = nm ++ ".pickle" then none else d f := by
  unfold Disk.removeIf
  split_ifs with h1 h2 h2
  · subst h2; simp
  · simp [h2]
  · subst h2; simpa using h1
  · rfl

theorem save_apply (d : Disk) (nm f : String) (e : Evo) :
    d.save nm e f = if f = nm ++ ".pickle" then some (.pickle e) else d f := by
  unfold Disk.save
  rw [Function.update_apply]

theorem pickle_inj {a b : String} : a ++ ".pickle" = b ++ ".pickle" ↔ a = b := String.append_left_inj _

/-- Files that no checkpoint uses. -/
theorem retain_other {keep : Bool} {f : String} : ∀ (xs : List (String × Evo)) (cur : String) (d : Disk),
    (∀ x ∈ xs, f ≠ x.1 ++ ".pickle") → (keep = false → xs ≠ [] → f ≠ cur ++ ".pickle") → retain keep xs cur d f = d f := by
  intro xs
  induction xs with
  | nil => intros; rfl
  | cons x xs ih =>
    intro cur d h1 h2
    have hx := h1 x (by simp)
    rw [retain, ih x.1 _ (fun y hy => h1 y (by simp [hy])) (fun _ _ => hx), save_apply, if_neg hx]
    cases keep with
    | true => simp
    | false => simp [removeIf_apply, h2 rfl (by simp)]

/-- With `keep_cp` every checkpoint stays. -/
theorem retain_keep : ∀ (xs : List (String × Evo)) (cur : String) (d : Disk), (xs.map Prod.fst).Nodup →
    ∀ x ∈ xs, retain true xs cur d (x.1 ++ ".pickle") = some (.pickle x.2) := by
  intro xs
  induction xs with
  | nil => intro _ _ _ x hx; simp at hx
  | cons y xs ih =>
    intro cur d hn x hx
    rw [List.map_cons, List.nodup_cons] at hn
    rcases List.mem_cons.mp hx with rfl | hx
    · rw [retain, retain_other _ _ _ (fun z hz h => hn.1 (by rw [pickle_inj.mp h]; exact List.mem_map.mpr ⟨z, hz, rfl⟩))
        (fun h => absurd h (by simp)), save_apply, if_pos rfl]
    · exact ih _ _ hn.2 x hx

/-- The last checkpoint stays. -/
theorem retain_last {keep : Bool} {x : String × Evo} : ∀ (xs : List (String × Evo)) (cur : String) (d : Disk),
    retain keep (xs ++ [x]) cur d (x.1 ++ ".pickle") = some (.pickle x.2) := by
  intro xs
  induction xs with
  | nil => intro cur d; simp only [List.nil_append, retain]; rw [save_apply, if_pos rfl]
  | cons y xs ih => intro cur d; rw [List.cons_append, retain]; exact ih _ _

/-- Without `keep_cp` the earlier ones, and the file named by the initial `current`, are deleted. -/
theorem retain_old {x : String × Evo} {nm : String} : ∀ (xs : List (String × Evo)) (cur : String) (d : Disk),
    (cur :: (xs ++ [x]).map Prod.fst).Nodup → nm ∈ cur :: xs.map Prod.fst →
    retain false (xs ++ [x]) cur d (nm ++ ".pickle") = none := by
  intro xs
  induction xs with
  | nil =>
    intro cur d hn hm
    simp only [List.map_nil, List.mem_singleton] at hm
    subst hm
    have : nm ≠ x.1 := by simpa using hn
    simp only [List.nil_append, retain]
    rw [save_apply, if_neg (by rw [pickle_inj]; exact this)]
    simp [removeIf_apply]
  | cons y xs ih =>
    intro cur d hn hm
    rw [List.cons_append, List.map_cons] at hn
    rw [List.cons_append, retain]
    rw [List.nodup_cons] at hn
    rcases List.mem_cons.mp hm with rfl | hm
    · have h1 : ∀ z ∈ y :: (xs ++ [x]), nm ≠ z.1 := by
        intro z hz h
        apply hn.1
        rw [h, ← List.map_cons]
        exact List.mem_map.mpr ⟨z, hz, rfl⟩
      rw [retain_other _ _ _ (fun z hz h => h1 z (by simp [hz]) (pickle_inj.mp h))
        (fun _ _ h => h1 y (by simp) (pickle_inj.mp h)), save_apply,
        if_neg (fun h => h1 y (by simp) (pickle_inj.mp h))]
      simp [removeIf_apply]
    · rw [List.map_cons] at hm
      exact ih y.1 _ hn.2 hm

/-- Spec: name of the checkpoint of iteration `i`. -/
def cpName (file kind : String) (i : ℕ) : String := file ++ kind ++ toString i

theorem cpName_inj {file kind : String} {i j : ℕ} (h : cpName file kind i = cpName file kind j) : i = j := by
  unfold cpName at h
  rw [String.append_right_inj] at h
  exact Nat.repr_injective h

theorem cpName_none {file kind : String} (hk : 4 < kind.length) (i : ℕ) : cpName file kind i ≠ "None" := by
  intro h
  have := congrArg String.length h
  simp only [cpName, String.length_append] at this
  have h2 : "None".length = 4 := by decide
  omega

/-- Spec of a TEBD checkpoint written by a run that started from engine `e`: the state after `s.it-e.it+1`
complete steps. -/
structure Snap (O : LinAlg) (gates : GateFn) (dt : ℂ) (Dmax : Option ℕ) (th : ℝ) (v : ℤ) (cp : Option ℤ) (e s : Evo) :
    Prop where
  le : e.it ≤ s.it
  kept : e.Kept' s
  t0 : s.t0 = e.t0 + ((s.it - e.it + 1 : ℕ) : ℝ) * tickBy v dt
  log : s.log = e.log ++ layersEvs e.eng.mps.N (preLayers dt cp e.it (s.it - e.it) ++ [.O dt, .E (dt / 2)])
  run : replay O gates Dmax th (layersEvs e.eng.mps.N (preLayers dt cp e.it (s.it - e.it) ++ [.O dt, .E (dt / 2)]))
    e.st = .ok s.st

theorem layersEvs_append (N : ℕ) (a b : List Layer) : layersEvs N (a ++ b) = layersEvs N a ++ layersEvs N b :=
  List.flatMap_append ..

theorem tebdLoop_spec {dt : ℂ} {ns : ℤ} {Dmax : Option ℕ} {th : ℝ} {v : ℤ} {cp : Option ℤ} {keep : Bool} :
    ∀ (k step : ℕ) (cur cur' : String) (w w' : World), ((step + k : ℕ) : ℤ) = ns →
    tebdLoop O gates dt ns Dmax th v cp keep k step cur w = .ok (cur', w') →
    w.evo.Kept' w'.evo ∧ w'.evo.it = w.evo.it + k ∧ w'.evo.t0 = w.evo.t0 + k * tickBy v dt ∧
    w'.evo.log = w.evo.log ++ layersEvs w.evo.eng.mps.N (allLayers dt cp w.evo.it k) ∧
    replay O gates Dmax th (layersEvs w.evo.eng.mps.N (allLayers dt cp w.evo.it k)) w.evo.st = .ok w'.evo.st ∧
    ∃ xs zs : List Evo, (∀ s ∈ xs ++ zs, Snap O gates dt Dmax th v cp w.evo s) ∧
      xs.map Evo.it = (List.range' w.evo.it (k - 1)).filter (cpAt cp) ∧
      zs.map Evo.it = (List.range' (w.evo.it + (k - 1)) (min 1 k)).filter (cpAt cp) ∧
      w'.disk = zs.foldl (fun d s => d.save (cpName w.evo.filename "_tebd_cp" s.it) s)
        (retain keep (xs.map fun s => (cpName w.evo.filename "_tebd_cp" s.it, s)) cur w.disk) := by
  intro k
  induction k with
  | zero =>
    intro step cur cur' w w' hk h
    simp only [tebdLoop, Except.ok.injEq, Prod.mk.injEq] at h
    obtain ⟨rfl, rfl⟩ := h
    exact ⟨⟨rfl, rfl, rfl, rfl, rfl, rfl⟩, rfl, by simp, by simp [allLayers, layersEvs], by simp [allLayers, layersEvs, replay],
      [], [], by simp, by simp, by simp, rfl⟩
  | succ k ih =>
    intro step cur cur' w w' hk h
    simp only [tebdLoop] at h
    split at h
    · cases h
    rename_i c1 w1 h1
    obtain ⟨a1, a2, a3, a4, a5, a6, a7⟩ := tebdStep_spec h1
    obtain ⟨b1, b2, b3, b4, b5, xs, zs, b6, b7, b8, b9⟩ := ih (step + 1) c1 cur' w1 w' (by rw [← hk]; congr 1; omega) h
    have hlast : decide (¬ (step : ℤ) < ns - 1) = decide (k = 0) := by
      rw [← hk]; congr 1; rw [eq_iff_iff]; omega
    rw [hlast] at a4 a5
    have hN : w1.evo.eng.mps.N = w.evo.eng.mps.N := a1.N
    have hall : allLayers dt cp w.evo.it (k + 1)
        = stepLayers dt (decide (k = 0)) (cpAt cp w.evo.it) ++ allLayers dt cp w1.evo.it k := by
      cases k with
      | zero => simp [allLayers, preLayers]
      | succ k =>
        simp only [allLayers, preLayers, a2, List.append_assoc]
        rw [show w.evo.it + 1 + k = w.evo.it + (k + 1) by omega]
        rfl
    refine ⟨a1.trans b1, by rw [b2, a2]; omega, by rw [b3, a3]; push_cast; ring, ?_, ?_, ?_⟩
    · rw [b4, a4, hall, layersEvs_append, hN, List.append_assoc]
    · rw [hall, layersEvs_append]
      rw [hN] at b5
      exact replay_append _ _ _ _ _ a5 b5
    have hfile : w1.evo.filename = w.evo.filename := a1.filename
    -- snapshots of the later steps
    have later : ∀ s, k ≠ 0 → Snap O gates dt Dmax th v cp w1.evo s → Snap O gates dt Dmax th v cp w.evo s := by
      intro s hk0 hs
      have hle := hs.le
      have hpre : preLayers dt cp w.evo.it (s.it - w.evo.it) = stepLayers dt (decide (k = 0)) (cpAt cp w.evo.it) ++
          preLayers dt cp w1.evo.it (s.it - w1.evo.it) := by
        rw [show s.it - w.evo.it = (s.it - w1.evo.it) + 1 by omega, preLayers, a2, decide_eq_false hk0]
      refine ⟨by omega, a1.trans hs.kept, ?_, ?_, ?_⟩
      · rw [hs.t0, a3, show s.it - w.evo.it + 1 = (s.it - w1.evo.it + 1) + 1 by omega]; push_cast; ring
      · rw [hs.log, a4, hpre, hN, List.append_assoc, ← layersEvs_append, List.append_assoc]
      · rw [hpre, List.append_assoc, layersEvs_append]
        have := hs.run
        rw [hN] at this
        exact replay_append _ _ _ _ _ a5 this
    have first : ∀ s : Evo, w.evo.Kept' s → s.it = w.evo.it → s.t0 = w.evo.t0 + tickBy v dt →
        s.log = w.evo.log ++ layersEvs w.evo.eng.mps.N [.O dt, .E (dt / 2)] →
        replay O gates Dmax th (layersEvs w.evo.eng.mps.N [.O dt, .E (dt / 2)]) w.evo.st = .ok s.st →
        Snap O gates dt Dmax th v cp w.evo s := by
      intro s s1 s2 s3 s4 s5
      refine ⟨by omega, s1, by rw [s3, s2]; simp, ?_, ?_⟩
      · rw [s2, Nat.sub_self]; exact s4
      · rw [s2, Nat.sub_self]; exact s5
    rcases Nat.eq_zero_or_pos k with hk0 | hk0
    · -- the last step
      subst hk0
      have hx : xs = [] := by simpa using b7
      have hz : zs = [] := by simpa using b8
      subst hx; subst hz
      simp only [List.map_nil, retain, List.foldl_nil] at b9
      have hns : ¬ (step : ℤ) < ns - 1 := by omega
      by_cases hc : cpAt cp w.evo.it = true
      · obtain ⟨s, s1, s2, s3, s4, s5, s6, s7⟩ := a7 hc
        refine ⟨[], [s], by simpa using first s s1 s2 s3 s4 s5, by simp, by simp [s2, hc], ?_⟩
        simp only [List.map_nil, retain, List.foldl_cons, List.foldl_nil]
        rw [b9, (s7 hns).2, s2]; rfl
      · rw [Bool.not_eq_true] at hc
        refine ⟨[], [], by simp, by simp, by simp [hc], ?_⟩
        simp only [List.map_nil, retain, List.foldl_nil]
        rw [b9, (a6 hc).2]
    · have hns : (step : ℤ) < ns - 1 := by omega
      have hz' : zs.map Evo.it = (List.range' (w.evo.it + (k + 1 - 1)) (min 1 (k + 1))).filter (cpAt cp) := by
        rw [b8, a2]; congr 2
        · omega
        · omega
      have hr : List.range' w.evo.it (k + 1 - 1) = w.evo.it :: List.range' w1.evo.it (k - 1) := by
        rw [show k + 1 - 1 = (k - 1) + 1 by omega, List.range'_succ, a2]
      by_cases hc : cpAt cp w.evo.it = true
      · obtain ⟨s, s1, s2, s3, s4, s5, s6, s7⟩ := a7 hc
        refine ⟨s :: xs, zs, ?_, ?_, hz', ?_⟩
        · intro x hx
          rw [List.cons_append] at hx
          rcases List.mem_cons.mp hx with rfl | hx
          · exact first _ s1 s2 s3 s4 s5
          · exact later _ (by omega) (b6 x hx)
        · rw [hr, List.filter_cons, if_pos hc, List.map_cons, b7, s2]
        · rw [b9, hfile, (s6 hns).2, List.map_cons, retain, s2, (s6 hns).1]
          rfl
      · rw [Bool.not_eq_true] at hc
        refine ⟨xs, zs, fun x hx => later _ (by omega) (b6 x hx), ?_, hz', ?_⟩
        · rw [hr, List.filter_cons, if_neg (by simp [hc]), b7]
        · rw [b9, hfile, (a6 hc).2, (a6 hc).1]

end

end PyTeN
