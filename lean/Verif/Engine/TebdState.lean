import Verif.Engine.Tebd
import Verif.Props.Gates
import Verif.Engine.Progress

/-! # The state evolved by TEBD: the product of the layers, and progress -/

namespace PyTeN
open Finset

noncomputable section

/-- Spec: configurations of a chain with local dimensions `ds`. -/
def Conf (ds s : List ℕ) : Prop := List.Forall₂ (fun d x => x < d) ds s

theorem Conf.length {ds s : List ℕ} (h : Conf ds s) : s.length = ds.length := (List.Forall₂.length_eq h).symm

theorem Conf.set : ∀ {ds s : List ℕ} {n x : ℕ}, Conf ds s → x < ds.getD n 0 → Conf ds (s.set n x) := by
  intro ds
  induction ds with
  | nil => intro s n x h hx; cases h; simp at hx
  | cons d ds ih =>
    intro s n x h hx
    cases h with
    | cons h1 h2 =>
      cases n with
      | zero => exact List.Forall₂.cons (by simpa using hx) h2
      | succ n => exact List.Forall₂.cons h1 (ih h2 (by simpa using hx))

theorem Conf.get : ∀ {ds s : List ℕ} {n : ℕ}, Conf ds s → n < ds.length → s.getD n 0 < ds.getD n 0 := by
  intro ds
  induction ds with
  | nil => intro s n h hn; simp at hn
  | cons d ds ih =>
    intro s n h hn
    cases h with
    | cons h1 h2 =>
      cases n with
      | zero => simpa using h1
      | succ n => simpa using ih h2 (by simpa using hn)

/-- Contract of `twoSiteGate`: for every bond the gates are exponentials of one generator, `G(τ)G(τ')=G(τ+τ')`,
`G(0)=1`, and act on the local dimensions `ds`. -/
structure GateGroup (gates : GateFn) (ds : List ℕ) (G : ℕ → ℂ → Gate2) : Prop where
  val : ∀ n tau, n + 1 < ds.length → gates n (n + 1) tau = .ok (G n tau)
  a : ∀ n tau, (G n tau).a = ds.getD n 0
  a' : ∀ n tau, (G n tau).a' = ds.getD n 0
  b : ∀ n tau, (G n tau).b = ds.getD (n + 1) 0
  b' : ∀ n tau, (G n tau).b' = ds.getD (n + 1) 0
  add : ∀ n tau tau', n + 1 < ds.length → ∀ x < ds.getD n 0, ∀ y < ds.getD (n + 1) 0, ∀ x' < ds.getD n 0,
    ∀ y' < ds.getD (n + 1) 0,
    ∑ u ∈ range (ds.getD n 0), ∑ w ∈ range (ds.getD (n + 1) 0), (G n tau).v x y u w * (G n tau').v u w x' y'
      = (G n (tau + tau')).v x y x' y'
  zero : ∀ n, n + 1 < ds.length → ∀ x < ds.getD n 0, ∀ y < ds.getD (n + 1) 0, ∀ x' < ds.getD n 0,
    ∀ y' < ds.getD (n + 1) 0, (G n 0).v x y x' y' = if x = x' ∧ y = y' then 1 else 0

/-- Spec: action of an entry of a record on a wave function. -/
def opEv (G : ℕ → ℂ → Gate2) : TEv → (List ℕ → ℂ) → List ℕ → ℂ
  | .gate n tau, ψ => act2 n.toNat (G n.toNat tau).a (G n.toNat tau).b (G n.toNat tau).v ψ
  | .reset, ψ => ψ

/-- Spec: action of a record. -/
def opEvs (G : ℕ → ℂ → Gate2) (es : List TEv) (ψ : List ℕ → ℂ) : List ℕ → ℂ := es.foldl (fun φ e => opEv G e φ) ψ

theorem opEvs_cons (G : ℕ → ℂ → Gate2) (e : TEv) (es : List TEv) (ψ : List ℕ → ℂ) :
    opEvs G (e :: es) ψ = opEvs G es (opEv G e ψ) := rfl

theorem opEvs_append (G : ℕ → ℂ → Gate2) (es fs : List TEv) (ψ : List ℕ → ℂ) :
    opEvs G (es ++ fs) ψ = opEvs G fs (opEvs G es ψ) := List.foldl_append ..

variable {gates : GateFn} {ds : List ℕ} {G : ℕ → ℂ → Gate2} {O : LinAlg}

theorem act2_congr {n : ℕ} {g : ℕ → ℕ → ℕ → ℕ → ℂ} {ψ φ : List ℕ → ℂ} (h : ∀ s, Conf ds s → ψ s = φ s) {s : List ℕ}
    (hs : Conf ds s) : act2 n (ds.getD n 0) (ds.getD (n + 1) 0) g ψ s = act2 n (ds.getD n 0) (ds.getD (n + 1) 0) g φ s := by
  unfold act2
  refine sum_congr rfl fun x hx => sum_congr rfl fun y hy => ?_
  rw [h _ ((hs.set (mem_range.mp hx)).set (mem_range.mp hy))]

theorem act2_smul {n d d' : ℕ} {g : ℕ → ℕ → ℕ → ℕ → ℂ} {ψ : List ℕ → ℂ} (c : ℂ) (s : List ℕ) :
    act2 n d d' g (fun s => c * ψ s) s = c * act2 n d d' g ψ s := by
  unfold act2
  simp only [mul_sum, mul_assoc]

theorem getD_set_ne {s : List ℕ} {n m x : ℕ} (h : n ≠ m) : (s.set n x).getD m 0 = s.getD m 0 := by
  simp only [List.getD_eq_getElem?_getD, List.getElem?_set_ne h]

theorem getD_set_eq {s : List ℕ} {n x : ℕ} (h : n < s.length) : (s.set n x).getD n 0 = x := by
  simp only [List.getD_eq_getElem?_getD, List.getElem?_set_self h, Option.getD_some]

/-- Gates on disjoint bonds commute. -/
theorem act2_comm {n m d d' e e' : ℕ} {g g' : ℕ → ℕ → ℕ → ℕ → ℂ} (ψ : List ℕ → ℂ) (h : n + 2 ≤ m ∨ m + 2 ≤ n) :
    act2 n d d' g (act2 m e e' g' ψ) = act2 m e e' g' (act2 n d d' g ψ) := by
  funext s
  unfold act2
  simp only [sum_mul]
  have e1 : ∀ x y, ((s.set n x).set (n + 1) y).getD m 0 = s.getD m 0 := fun x y => by
    rw [getD_set_ne (by omega), getD_set_ne (by omega)]
  have e2 : ∀ x y, ((s.set n x).set (n + 1) y).getD (m + 1) 0 = s.getD (m + 1) 0 := fun x y => by
    rw [getD_set_ne (by omega), getD_set_ne (by omega)]
  have e3 : ∀ x y, ((s.set m x).set (m + 1) y).getD n 0 = s.getD n 0 := fun x y => by
    rw [getD_set_ne (by omega), getD_set_ne (by omega)]
  have e4 : ∀ x y, ((s.set m x).set (m + 1) y).getD (n + 1) 0 = s.getD (n + 1) 0 := fun x y => by
    rw [getD_set_ne (by omega), getD_set_ne (by omega)]
  simp only [e1, e2, e3, e4]
  calc _ = ∑ x ∈ range d, ∑ u ∈ range e, ∑ y ∈ range d', ∑ w ∈ range e',
        ψ ((((s.set n x).set (n + 1) y).set m u).set (m + 1) w) * g' u w (s.getD m 0) (s.getD (m + 1) 0)
          * g x y (s.getD n 0) (s.getD (n + 1) 0) := by
        refine sum_congr rfl fun x _ => ?_
        rw [sum_comm]
    _ = ∑ u ∈ range e, ∑ x ∈ range d, ∑ w ∈ range e', ∑ y ∈ range d',
        ψ ((((s.set n x).set (n + 1) y).set m u).set (m + 1) w) * g' u w (s.getD m 0) (s.getD (m + 1) 0)
          * g x y (s.getD n 0) (s.getD (n + 1) 0) := by
        rw [sum_comm]
        exact sum_congr rfl fun u _ => sum_congr rfl fun x _ => sum_comm
    _ = _ := by
        refine sum_congr rfl fun u _ => ?_
        rw [sum_comm]
        refine sum_congr rfl fun w _ => sum_congr rfl fun x _ => sum_congr rfl fun y _ => ?_
        rw [List.set_comm (i := n + 1) (j := m) _ _ (by omega), List.set_comm (i := n) (j := m) _ _ (by omega),
          List.set_comm (i := n + 1) (j := m + 1) _ _ (by omega), List.set_comm (i := n) (j := m + 1) _ _ (by omega)]
        ring

/-- Two gates on the same bond. -/
theorem act2_add (hG : GateGroup gates ds G) {n : ℕ} (hn : n + 1 < ds.length) (tau tau' : ℂ) (ψ : List ℕ → ℂ)
    {s : List ℕ} (hs : Conf ds s) :
    act2 n (ds.getD n 0) (ds.getD (n + 1) 0) (G n tau').v (act2 n (ds.getD n 0) (ds.getD (n + 1) 0) (G n tau).v ψ) s
      = act2 n (ds.getD n 0) (ds.getD (n + 1) 0) (G n (tau + tau')).v ψ s := by
  have hl := hs.length
  unfold act2
  have e1 : ∀ u w, ((s.set n u).set (n + 1) w).getD n 0 = u := fun u w => by
    rw [getD_set_ne (by omega), getD_set_eq (by omega)]
  have e2 : ∀ u w, ((s.set n u).set (n + 1) w).getD (n + 1) 0 = w := fun u w => by
    rw [getD_set_eq (by rw [List.length_set]; omega)]
  have e3 : ∀ u w x y, (((s.set n u).set (n + 1) w).set n x).set (n + 1) y = (s.set n x).set (n + 1) y := by
    intro u w x y
    rw [List.set_comm (i := n + 1) (j := n) _ _ (by omega), List.set_set, List.set_set]
  simp only [e1, e2, e3]
  calc _ = ∑ u ∈ range (ds.getD n 0), ∑ x ∈ range (ds.getD n 0), ∑ w ∈ range (ds.getD (n + 1) 0),
        ∑ y ∈ range (ds.getD (n + 1) 0), ψ ((s.set n x).set (n + 1) y) *
          ((G n tau).v x y u w * (G n tau').v u w (s.getD n 0) (s.getD (n + 1) 0)) := by
        refine sum_congr rfl fun u _ => ?_
        rw [sum_comm]
        refine sum_congr rfl fun w _ => ?_
        rw [sum_mul]
        refine sum_congr rfl fun x _ => ?_
        rw [sum_mul]
        exact sum_congr rfl fun y _ => by ring
    _ = ∑ x ∈ range (ds.getD n 0), ∑ y ∈ range (ds.getD (n + 1) 0), ∑ u ∈ range (ds.getD n 0),
        ∑ w ∈ range (ds.getD (n + 1) 0), ψ ((s.set n x).set (n + 1) y) *
          ((G n tau).v x y u w * (G n tau').v u w (s.getD n 0) (s.getD (n + 1) 0)) := by
        rw [sum_comm]
        refine sum_congr rfl fun x _ => ?_
        rw [sum_comm (s := range (ds.getD (n + 1) 0))]
        exact sum_congr rfl fun u _ => sum_comm
    _ = _ := by
        refine sum_congr rfl fun x hx => sum_congr rfl fun y hy => ?_
        rw [← hG.add n tau tau' hn x (mem_range.mp hx) y (mem_range.mp hy) _ (hs.get (by omega)) _ (hs.get hn), mul_sum]
        refine sum_congr rfl fun u _ => ?_
        rw [mul_sum]

theorem act2_zero (hG : GateGroup gates ds G) {n : ℕ} (hn : n + 1 < ds.length) (ψ : List ℕ → ℂ)
    {s : List ℕ} (hs : Conf ds s) :
    act2 n (ds.getD n 0) (ds.getD (n + 1) 0) (G n 0).v ψ s = ψ s := by
  have hl := hs.length
  have hx := hs.get (n := n) (by omega)
  have hy := hs.get (n := n + 1) hn
  unfold act2
  rw [sum_eq_single_of_mem (s.getD n 0) (mem_range.mpr hx), sum_eq_single_of_mem (s.getD (n + 1) 0) (mem_range.mpr hy)]
  · rw [hG.zero n hn _ hx _ hy _ hx _ hy, if_pos ⟨rfl, rfl⟩, mul_one]
    congr 1
    rw [List.getD_eq_getElem _ _ (by omega), List.getD_eq_getElem _ _ (by omega), List.set_getElem_self,
      List.set_getElem_self]
  · intro b hb hne
    rw [hG.zero n hn _ hx _ (mem_range.mp hb) _ hx _ hy, if_neg (by tauto), mul_zero]
  · intro b hb hne
    refine sum_eq_zero fun c hc => ?_
    rw [hG.zero n hn _ (mem_range.mp hb) _ (mem_range.mp hc) _ hx _ hy, if_neg (by tauto), mul_zero]

theorem opEv_gate (hG : GateGroup gates ds G) (n : ℤ) (tau : ℂ) (ψ : List ℕ → ℂ) :
    opEv G (.gate n tau) ψ = act2 n.toNat (ds.getD n.toNat 0) (ds.getD (n.toNat + 1) 0) (G n.toNat tau).v ψ := by
  simp only [opEv, hG.a, hG.b]

theorem opEvs_congr (hG : GateGroup gates ds G) : ∀ (es : List TEv) {ψ φ : List ℕ → ℂ}, (∀ s, Conf ds s → ψ s = φ s) →
    ∀ s, Conf ds s → opEvs G es ψ s = opEvs G es φ s := by
  intro es
  induction es with
  | nil => intro ψ φ h s hs; exact h s hs
  | cons e es ih =>
    intro ψ φ h s hs
    rw [opEvs_cons, opEvs_cons]
    refine ih (fun t ht => ?_) s hs
    cases e with
    | reset => exact h t ht
    | gate n tau => rw [opEv_gate hG, opEv_gate hG]; exact act2_congr h ht

theorem opEvs_smul (c : ℂ) : ∀ (es : List TEv) (ψ : List ℕ → ℂ) (s : List ℕ),
    opEvs G es (fun s => c * ψ s) s = c * opEvs G es ψ s := by
  intro es
  induction es with
  | nil => intros; rfl
  | cons e es ih =>
    intro ψ s
    rw [opEvs_cons, opEvs_cons, ← ih]
    cases e with
    | reset => rfl
    | gate n tau =>
      simp only [opEv]
      congr 1
      funext t
      exact act2_smul c t

/-- Spec: the entry acts on a bond of the chain. -/
def TEv.InRange (N : ℕ) : TEv → Prop
  | .gate n _ => 0 ≤ n ∧ n + 1 < N
  | .reset => True

theorem layer_inRange {N : ℕ} (x : Layer) : ∀ e ∈ x.evs N, e.InRange N := by
  intro e he
  cases x with
  | R => simp only [Layer.evs, List.mem_singleton] at he; subst he; trivial
  | E tau =>
    obtain ⟨n, hn, rfl⟩ := List.mem_map.mp he
    have := mem_bonds.mp hn
    exact ⟨this.1, by omega⟩
  | O tau =>
    obtain ⟨n, hn, rfl⟩ := List.mem_map.mp he
    have := mem_bonds.mp (List.mem_reverse.mp hn)
    exact ⟨this.1, by omega⟩

theorem layers_inRange {N : ℕ} (ls : List Layer) : ∀ e ∈ layersEvs N ls, e.InRange N := by
  intro e he
  obtain ⟨x, -, hx⟩ := List.mem_flatMap.mp he
  exact layer_inRange x e hx

/-- A gate commutes with a list of gates on other, disjoint bonds. -/
theorem opEvs_comm {n : ℤ} {tau tau' : ℂ} : ∀ (ns : List ℤ) (ψ : List ℕ → ℂ), 0 ≤ n →
    (∀ m ∈ ns, 0 ≤ m ∧ (n + 2 ≤ m ∨ m + 2 ≤ n)) →
    opEv G (.gate n tau) (opEvs G (ns.map (TEv.gate · tau')) ψ) = opEvs G (ns.map (TEv.gate · tau')) (opEv G (.gate n tau) ψ) := by
  intro ns
  induction ns with
  | nil => intros; rfl
  | cons m ns ih =>
    intro ψ h0 h
    obtain ⟨hm0, hm⟩ := h m (by simp)
    rw [List.map_cons, opEvs_cons, opEvs_cons, ih _ h0 fun k hk => h k (by simp [hk])]
    congr 1
    simp only [opEv]
    rw [act2_comm _ (by omega)]

/-- Two layers of gates on disjoint bonds merge. -/
theorem opEvs_merge (hG : GateGroup gates ds G) (tau tau' : ℂ) : ∀ (ns : List ℤ) (ψ : List ℕ → ℂ),
    ns.Pairwise (fun n m => n + 2 ≤ m ∨ m + 2 ≤ n) → (∀ n ∈ ns, 0 ≤ n ∧ n + 1 < ds.length) →
    ∀ s, Conf ds s → opEvs G (ns.map (TEv.gate · tau) ++ ns.map (TEv.gate · tau')) ψ s
      = opEvs G (ns.map (TEv.gate · (tau + tau'))) ψ s := by
  intro ns
  induction ns with
  | nil => intros; rfl
  | cons n ns ih =>
    intro ψ hp hr s hs
    rw [List.pairwise_cons] at hp
    obtain ⟨hn0, hn1⟩ := hr n (by simp)
    simp only [List.map_cons, List.cons_append, opEvs_cons]
    rw [opEvs_append, opEvs_cons, opEvs_comm ns _ hn0 fun m hm => ⟨(hr m (by simp [hm])).1, hp.1 m hm⟩,
      ← opEvs_append, ih _ hp.2 (fun m hm => hr m (by simp [hm])) s hs]
    refine opEvs_congr hG _ (fun t ht => ?_) s hs
    rw [opEv_gate hG, opEv_gate hG, opEv_gate hG]
    exact act2_add hG (by omega) tau tau' ψ ht

theorem bonds_apart (N p : ℕ) : (bonds N p).Pairwise (fun n m => n + 2 ≤ m ∨ m + 2 ≤ n) := by
  refine (bonds_lt N p).imp_of_mem ?_
  intro a b ha hb h
  have := mem_bonds.mp ha
  have := mem_bonds.mp hb
  omega

/-- Consecutive even layers merge. -/
theorem even_merge (hG : GateGroup gates ds G) (tau tau' : ℂ) (ψ : List ℕ → ℂ) {s : List ℕ} (hs : Conf ds s) :
    opEvs G (layersEvs ds.length [.E tau, .E tau']) ψ s = opEvs G (layersEvs ds.length [.E (tau + tau')]) ψ s := by
  simp only [layersEvs, List.flatMap_cons, List.flatMap_nil, List.append_nil, Layer.evs]
  refine opEvs_merge hG tau tau' _ ψ (bonds_apart _ _) (fun n hn => ?_) s hs
  have := mem_bonds.mp hn
  omega

/-! ## Exact runs -/

/-- Spec: a positive real number. -/
def PosC (z : ℂ) : Prop := ∃ x : ℝ, 0 < x ∧ z = x

theorem PosC.mul {a b : ℂ} (ha : PosC a) (hb : PosC b) : PosC (a * b) := by
  obtain ⟨x, hx, rfl⟩ := ha
  obtain ⟨y, hy, rfl⟩ := hb
  exact ⟨x * y, mul_pos hx hy, by push_cast; rfl⟩

theorem PosC.ne {a : ℂ} (ha : PosC a) : a ≠ 0 := by
  obtain ⟨x, hx, rfl⟩ := ha
  exact_mod_cast hx.ne'

theorem tensor_Z {m m' : MPS} {n : ℤ} {c : Bool} {T : Ten ℂ} (h : m.tensor n c = .ok (T, m')) : m'.Z = m.Z := by
  unfold MPS.tensor at h
  split_ifs at h
  all_goals
    split at h
    · cases h
    split at h
    · cases h
    simp only [Except.ok.injEq, Prod.mk.injEq] at h
    obtain ⟨-, rfl⟩ := h
    rfl

theorem applyTwoSiteGate_Z (hO : O.Spec) {m p : MPS} {g : Gate2} {n : ℤ} {D : Option ℕ} {th tw : ℝ} {k : ℕ}
    (hs : m.sth < 1e-15) (h : m.applyTwoSiteGate O g n D th = .ok (tw, k, p)) :
    (∃ z : ℝ, 0 < z ∧ p.Z = m.Z * z) ∧ ∃ D', D = some D' := by
  unfold MPS.applyTwoSiteGate at h
  split_ifs at h
  split at h
  · cases h
  rename_i m1 h1
  split at h
  · cases h
  rename_i T m2 h2
  split at h
  · cases h
  split_ifs at h
  simp only at h
  split at h
  · cases h
  split at h
  · cases h
  split at h
  · cases h
  split at h
  · cases h
  simp only [Except.ok.injEq, Prod.mk.injEq] at h
  obtain ⟨-, -, rfl⟩ := h
  obtain ⟨z, hz, hZ⟩ := position_Z hO (effSth_default hs) h1
  exact ⟨⟨z, hz, by simp only [tensor_Z h2, hZ]⟩, _, rfl⟩

/-- What the proofs below need to know about the MPS object. -/
structure Fit (ds : List ℕ) (l r : ℕ) (m : MPS) : Prop where
  wf : m.WF l r
  ds_eq : m.ds = ds
  sth : m.sth < 1e-15
  Z : m.Z ≠ 0

theorem Fit.N {l r : ℕ} {m : MPS} (h : Fit ds l r m) : m.N = ds.length := by
  rw [← h.ds_eq, ← h.wf.len, MPS.ds, List.length_map]

theorem ds_set_self {n : ℕ} (hn : n + 1 < ds.length) : (ds.set n (ds.getD n 0)).set (n + 1) (ds.getD (n + 1) 0) = ds := by
  rw [List.getD_eq_getElem _ _ (by omega), List.getD_eq_getElem _ _ (by omega), List.set_getElem_self,
    List.set_getElem_self]

theorem gate_exact (hO : O.Spec) (hG : GateGroup gates ds G) {l r : ℕ} {m p : MPS} {n : ℕ} {tau : ℂ} {D : Option ℕ}
    {th : ℝ} {k : ℕ} (hm : Fit ds l r m) (hn : n + 1 < ds.length)
    (h : m.applyTwoSiteGate O (G n tau) n D th = .ok (0, k, p)) :
    Fit ds l r p ∧ (PosC m.Z → PosC p.Z) ∧ ∃ z : ℝ, 0 < z ∧ ∀ s, Conf ds s → ∀ i < l, ∀ j,
      opEv G (.gate n tau) (fun s => m.amp s i j) s = (z : ℂ) * p.amp s i j := by
  obtain ⟨⟨z, hz, hZ⟩, D', rfl⟩ := applyTwoSiteGate_Z hO hm.sth h
  obtain ⟨a1, -, a3, a4, y, hy, a5⟩ := C22_applyTwoSiteGate hO hm.wf hm.sth (by rw [hm.N]; exact hn) h
  rw [hm.ds_eq, hG.a', hG.b', ds_set_self hn] at a4
  refine ⟨⟨a1, a4, by rw [(applyTwoSiteGate_keeps h).2]; exact hm.sth, ?_⟩, ?_, y, hy, ?_⟩
  · rw [hZ]; exact mul_ne_zero hm.Z (by exact_mod_cast hz.ne')
  · intro hp; rw [hZ]; exact hp.mul ⟨z, hz, rfl⟩
  · intro s hs i hi j
    exact a5 s (cfg_iff_map.mpr (by show List.Forall₂ _ p.ds s; rw [a4]; exact hs)) i hi j

theorem tw_nonneg (hO : O.Spec) {l r : ℕ} {m p : MPS} {n : ℕ} {g : Gate2} {D : Option ℕ} {th tw : ℝ} {k : ℕ}
    (hm : Fit ds l r m) (hn : n + 1 < ds.length) (h : m.applyTwoSiteGate O g n D th = .ok (tw, k, p)) : 0 ≤ tw := by
  obtain ⟨-, D', rfl⟩ := applyTwoSiteGate_Z hO hm.sth h
  obtain ⟨-, -, -, -, -, S, z, -, -, -, -, -, -, h7, -⟩ :=
    C23_applyTwoSiteGate_truncation hO hm.wf hm.sth (by rw [hm.N]; exact hn) h
  rw [h7, sum_sq_list]
  exact sum_nonneg fun _ _ => by positivity

theorem Fit.resetZ {l r : ℕ} {m : MPS} (hm : Fit ds l r m) : Fit ds l r m.resetZ :=
  ⟨⟨hm.wf.len, hm.wf.pos_le, hm.wf.left, hm.wf.right⟩, hm.ds_eq, hm.sth, by simp [MPS.resetZ]⟩

theorem resetZ_amp (m : MPS) (s : List ℕ) (i j : ℕ) : m.amp s i j = m.Z * m.resetZ.amp s i j := by
  simp [MPS.amp, MPS.resetZ]

/-- Also truncating gates keep the shape. -/
theorem gate_fit (hO : O.Spec) (hG : GateGroup gates ds G) {l r : ℕ} {m p : MPS} {n : ℕ} {tau : ℂ} {D : Option ℕ}
    {th tw : ℝ} {k : ℕ} (hm : Fit ds l r m) (hn : n + 1 < ds.length)
    (h : m.applyTwoSiteGate O (G n tau) n D th = .ok (tw, k, p)) : Fit ds l r p := by
  obtain ⟨⟨z, hz, hZ⟩, D', rfl⟩ := applyTwoSiteGate_Z hO hm.sth h
  have hn' : n + 1 < m.N := by rw [hm.N]; exact hn
  have hg := applyTwoSiteGate_ok hO hm.wf hm.sth hn' h
  refine ⟨hg.wf hm.wf hn', ?_, by rw [(applyTwoSiteGate_keeps h).2]; exact hm.sth, ?_⟩
  · obtain ⟨m1, A, B, L, R, M, U, S, V, z, hM, hcan, hA, hLA, hRB, hMr, hMc, hsv, hk, htw, hz, hzp,
      ⟨t, w, hpt, htd, hwd, htl, htr, hwl, hwr, htO, hwO⟩, ⟨dA, dB, hds, hdA, hdB⟩, -⟩ := hg.blocks
    rw [hG.a, hG.b, hm.ds_eq] at hds
    unfold MPS.ds
    rw [hpt, List.map_append, List.map_cons, List.map_cons, hdA, hdB, htd, hwd, hG.a', hG.b', ← hds]
  · rw [hZ]; exact mul_ne_zero hm.Z (by exact_mod_cast hz.ne')

theorem replay_mono (hO : O.Spec) (hG : GateGroup gates ds G) {l r : ℕ} {D : Option ℕ} {th : ℝ} :
    ∀ (es : List TEv) (m p : MPS) (tw tw' : ℝ), Fit ds l r m → (∀ e ∈ es, e.InRange ds.length) →
    replay O gates D th es (m, tw) = .ok (p, tw') → tw ≤ tw' := by
  intro es
  induction es with
  | nil => intro m p tw tw' _ _ h; simp only [replay, Except.ok.injEq, Prod.mk.injEq] at h; exact h.2.le
  | cons e es ih =>
    intro m p tw tw' hm hr h
    have hr' : ∀ e ∈ es, e.InRange ds.length := fun x hx => hr x (by simp [hx])
    cases e with
    | reset => simp only [replay] at h; exact ih _ _ _ _ hm.resetZ hr' h
    | gate n tau =>
      obtain ⟨h0, h1⟩ : 0 ≤ n ∧ n + 1 < ds.length := hr (.gate n tau) (by simp)
      obtain ⟨n, rfl⟩ := Int.eq_ofNat_of_zero_le h0
      have h1 : n + 1 < ds.length := by omega
      simp only [replay, hG.val n tau h1] at h
      split at h
      · cases h
      rename_i t k q hq
      have := ih _ _ _ _ (gate_fit hO hG hm h1 hq) hr' h
      linarith [tw_nonneg hO hm h1 hq]

/-- A run without truncation carries out the product of its gates, up to a constant. -/
theorem replay_exact (hO : O.Spec) (hG : GateGroup gates ds G) {l r : ℕ} {D : Option ℕ} {th : ℝ} :
    ∀ (es : List TEv) (m p : MPS) (tw : ℝ), Fit ds l r m → (∀ e ∈ es, e.InRange ds.length) →
    replay O gates D th es (m, tw) = .ok (p, tw) →
    Fit ds l r p ∧ (PosC m.Z → PosC p.Z) ∧ ∃ c : ℂ, c ≠ 0 ∧ (PosC m.Z → PosC c) ∧ ∀ s, Conf ds s → ∀ i < l, ∀ j,
      opEvs G es (fun s => m.amp s i j) s = c * p.amp s i j := by
  intro es
  induction es with
  | nil =>
    intro m p tw hm _ h
    simp only [replay, Except.ok.injEq, Prod.mk.injEq] at h
    obtain ⟨rfl, -⟩ := h
    exact ⟨hm, id, 1, one_ne_zero, fun _ => ⟨1, one_pos, by simp⟩, fun s _ i _ j => by rw [one_mul]; rfl⟩
  | cons e es ih =>
    intro m p tw hm hr h
    have hr' : ∀ e ∈ es, e.InRange ds.length := fun x hx => hr x (by simp [hx])
    cases e with
    | reset =>
      simp only [replay] at h
      obtain ⟨a1, a2, c, a3, a4, a5⟩ := ih _ _ _ hm.resetZ hr' h
      have h1 : PosC m.resetZ.Z := ⟨1, one_pos, by simp [MPS.resetZ]⟩
      refine ⟨a1, fun _ => a2 h1, m.Z * c, mul_ne_zero hm.Z a3, fun hp => hp.mul (a4 h1), ?_⟩
      intro s hs i hi j
      rw [opEvs_cons, mul_assoc, ← a5 s hs i hi j, ← opEvs_smul]
      simp only [opEv, resetZ_amp m]
    | gate n tau =>
      obtain ⟨h0, h1⟩ : 0 ≤ n ∧ n + 1 < ds.length := hr (.gate n tau) (by simp)
      obtain ⟨n, rfl⟩ := Int.eq_ofNat_of_zero_le h0
      have h1 : n + 1 < ds.length := by omega
      simp only [replay, hG.val n tau h1] at h
      split at h
      · cases h
      rename_i t k q hq
      have b1 := replay_mono hO hG _ _ _ _ _ (gate_fit hO hG hm h1 hq) hr' h
      have b2 := tw_nonneg hO hm h1 hq
      have ht : t = 0 := by linarith
      subst ht
      rw [add_zero] at h
      obtain ⟨d1, d2, z, hz, d3⟩ := gate_exact hO hG hm h1 hq
      obtain ⟨a1, a2, c, a3, a4, a5⟩ := ih _ _ _ d1 hr' h
      refine ⟨a1, fun hp => a2 (d2 hp), z * c, mul_ne_zero (by exact_mod_cast hz.ne') a3,
        fun hp => PosC.mul ⟨z, hz, rfl⟩ (a4 (d2 hp)), ?_⟩
      intro s hs i hi j
      rw [opEvs_cons, mul_assoc, ← a5 s hs i hi j, ← opEvs_smul]
      exact opEvs_congr hG es (fun t ht => d3 t ht i hi j) s hs

/-! ## Progress -/

theorem sumCfg_eq_zero : ∀ (ds : List ℕ) (f : List ℕ → ℝ), (∀ s, 0 ≤ f s) → sumCfg ds f = 0 →
    ∀ s, Conf ds s → f s = 0 := by
  have nn : ∀ (ds : List ℕ) (f : List ℕ → ℝ), (∀ s, 0 ≤ f s) → 0 ≤ sumCfg ds f := by
    intro ds
    induction ds with
    | nil => intro f h; exact h []
    | cons d ds ih => intro f h; exact sum_nonneg fun x _ => ih _ fun s => h _
  intro ds
  induction ds with
  | nil => intro f _ h s hs; cases hs; exact h
  | cons d ds ih =>
    intro f hf h s hs
    cases hs with
    | cons h1 h2 =>
      simp only [sumCfg] at h
      rw [sum_eq_zero_iff_of_nonneg (fun x _ => nn _ _ fun s => hf _)] at h
      exact ih _ (fun s => hf _) (h _ (mem_range.mpr h1)) _ h2

/-- A canonical state does not vanish. -/
theorem canonical_amp {l r : ℕ} {m : MPS} (hm : Fit ds l r m) (hc : m.Canonical) :
    ∃ s i j, Conf ds s ∧ i < l ∧ j < r ∧ m.amp s i j ≠ 0 := by
  by_contra hcon
  push Not at hcon
  have h1 := canonical_normSq hm.wf hc
  have h2 : m.normSq l r = 0 := by
    unfold MPS.normSq
    rw [sumCfg_congr (g := fun _ => 0) ?_, sumCfg_zero]
    intro s hs
    rw [hm.ds_eq] at hs
    exact sum_eq_zero fun i hi => sum_eq_zero fun j hj => by
      rw [hcon s i j hs (mem_range.mp hi) (mem_range.mp hj), map_zero]
  rw [h2, eq_comm, Complex.normSq_eq_zero] at h1
  exact hm.Z h1

/-- Invertible gates never discard a canonical state altogether. -/
theorem gate_alive (hO : O.Spec) (hG : GateGroup gates ds G) {l r : ℕ} {m p : MPS} {n : ℕ} {tau : ℂ} {D : ℕ}
    {th tw : ℝ} {k : ℕ} (hm : Fit ds l r m) (hc : m.Canonical) (hn : n + 1 < ds.length)
    (h : m.applyTwoSiteGate O (G n tau) n (some D) th = .ok (tw, k, p)) (hD : tw = 0 ∨ (1 ≤ D ∧ th = 0)) :
    k ≠ 0 ∧ p.Canonical := by
  have hn' : n + 1 < m.N := by rw [hm.N]; exact hn
  obtain ⟨-, -, -, -, -, S, z, h1, h2, h3, -, -, h6, h7, h8⟩ :=
    C23_applyTwoSiteGate_truncation hO hm.wf hm.sth hn' h
  obtain ⟨h9, h10, -⟩ := h8 hc
  suffices hk : k ≠ 0 from ⟨hk, (h9 hk).1⟩
  rintro rfl
  have hS : (S.map (fun x => x ^ 2)).sum = 0 := by
    rcases hD with rfl | ⟨hD, rfl⟩
    · rw [h7]; rfl
    · rw [sum_sq_list]
      refine sum_eq_zero fun q hq => ?_
      have hq' := mem_range.mp hq
      have h11 : 0 ≤ S.getD q 0 := by
        rw [List.getD_eq_getElem _ _ hq']; exact h2 _ (List.getElem_mem _)
      rcases h6 with h6 | h6
      · omega
      rw [le_antisymm (h6 q (Nat.zero_le _) hq') h11]; norm_num
  rw [hS, mul_zero, (gate_fit hO hG hm hn h).ds_eq] at h10
  unfold distSq at h10
  have h12 := sumCfg_eq_zero _ _ (fun s => sum_nonneg fun i _ => sum_nonneg fun j _ => Complex.normSq_nonneg _) h10
  have h13 : ∀ s, Conf ds s → ∀ i < l, ∀ j < r, act2 n (ds.getD n 0) (ds.getD (n + 1) 0) (G n tau).v
      (fun s => m.amp s i j) s = 0 := by
    intro s hs i hi j hj
    have := h12 s hs
    rw [sum_eq_zero_iff_of_nonneg (fun i _ => sum_nonneg fun j _ => Complex.normSq_nonneg _)] at this
    have := this i (mem_range.mpr hi)
    rw [sum_eq_zero_iff_of_nonneg (fun j _ => Complex.normSq_nonneg _)] at this
    have := this j (mem_range.mpr hj)
    rw [sub_zero, Complex.normSq_eq_zero, hG.a, hG.b] at this
    exact this
  obtain ⟨s, i, j, hs, hi, hj, hne⟩ := canonical_amp hm hc
  apply hne
  have e := act2_add hG hn tau (-tau) (fun s => m.amp s i j) hs
  rw [add_neg_cancel, act2_zero hG hn _ hs] at e
  rw [← e, act2_congr (φ := fun _ => 0) (fun t ht => h13 t ht i hi j hj) hs]
  unfold act2
  simp

/-- Spec: state from which TEBD makes progress. -/
structure Good (ds : List ℕ) (l r : ℕ) (m : MPS) : Prop extends Fit ds l r m where
  can : m.Canonical

theorem Good.resetZ {l r : ℕ} {m : MPS} (h : Good ds l r m) : Good ds l r m.resetZ :=
  ⟨h.toFit.resetZ, h.can.left, h.can.right, h.can.norm⟩

theorem gate_progress (hO : O.Spec) (hG : GateGroup gates ds G) {l r : ℕ} {tau : ℂ} {D : ℕ} (hD : 1 ≤ D) {e : Evo}
    {n : ℤ} (hm : Good ds l r e.eng.mps) (h0 : 0 ≤ n) (hn : n + 1 < ds.length) :
    ∃ e', e.gate O gates tau (some D) 0 n = .ok e' ∧ Good ds l r e'.eng.mps := by
  obtain ⟨n, rfl⟩ := Int.eq_ofNat_of_zero_le h0
  have hn : n + 1 < ds.length := by omega
  obtain ⟨s, i, j, hs, hi, hj, hne⟩ := canonical_amp hm.toFit hm.can
  have ha : e.eng.mps.ds[n]? = some (G n tau).a := by
    rw [hm.ds_eq, hG.a, List.getD_eq_getElem _ _ (by omega), List.getElem?_eq_getElem]
  have hb : e.eng.mps.ds[n + 1]? = some (G n tau).b := by
    rw [hm.ds_eq, hG.b, List.getD_eq_getElem _ _ (by omega), List.getElem?_eq_getElem]
  obtain ⟨tw, k, p, hp⟩ := C22_applyTwoSiteGate_succeeds hO (g := G n tau) D hm.wf hm.sth (by rw [hm.N]; exact hn)
    ha hb le_rfl (cfg_iff_map.mpr (by show List.Forall₂ _ e.eng.mps.ds s; rw [hm.ds_eq]; exact hs)) hi hne
  have hal := gate_alive hO hG hm.toFit hm.can hn hp (Or.inr ⟨hD, rfl⟩)
  unfold Evo.gate
  rw [hG.val n tau hn]
  simp only [hp]
  exact ⟨_, rfl, gate_fit hO hG hm.toFit hn hp, hal.2⟩

theorem layer_progress (hO : O.Spec) (hG : GateGroup gates ds G) {l r : ℕ} {tau : ℂ} {D : ℕ} (hD : 1 ≤ D) :
    ∀ (ns : List ℤ) (e : Evo), Good ds l r e.eng.mps → (∀ n ∈ ns, 0 ≤ n ∧ n + 1 < ds.length) →
    ∃ e', e.layer O gates tau (some D) 0 ns = .ok e' ∧ Good ds l r e'.eng.mps := by
  intro ns
  induction ns with
  | nil => intro e h _; exact ⟨e, rfl, h⟩
  | cons n ns ih =>
    intro e h hr
    obtain ⟨e1, h1, h2⟩ := gate_progress hO hG (tau := tau) hD h (hr n (by simp)).1 (hr n (by simp)).2
    obtain ⟨e2, h3, h4⟩ := ih e1 h2 fun m hm => hr m (by simp [hm])
    exact ⟨e2, by simp only [Evo.layer, h1, h3], h4⟩

theorem applyEven_progress (hO : O.Spec) (hG : GateGroup gates ds G) {l r : ℕ} (tau : ℂ) {D : ℕ} (hD : 1 ≤ D) {e : Evo}
    (hm : Good ds l r e.eng.mps) :
    ∃ e', e.applyEven O gates tau (some D) 0 = .ok e' ∧ Good ds l r e'.eng.mps := by
  unfold Evo.applyEven
  rw [pyRange_even, hm.N]
  refine layer_progress hO hG hD _ _ hm fun n hn => ?_
  have := mem_bonds.mp hn
  omega

theorem applyOdd_progress (hO : O.Spec) (hG : GateGroup gates ds G) {l r : ℕ} (tau : ℂ) {D : ℕ} (hD : 1 ≤ D) {e : Evo}
    (hm : Good ds l r e.eng.mps) :
    ∃ e', e.applyOdd O gates tau (some D) 0 = .ok e' ∧ Good ds l r e'.eng.mps := by
  unfold Evo.applyOdd
  simp only
  rw [pyRange_odd, hm.N]
  refine layer_progress hO hG hD _ _ hm fun n hn => ?_
  have := mem_bonds.mp (List.mem_reverse.mp hn)
  omega

theorem tebdStep_progress (hO : O.Spec) (hG : GateGroup gates ds G) {l r : ℕ} {D : ℕ} (hD : 1 ≤ D) {dt : ℂ} {ns : ℤ}
    {v : ℤ} {cp : Option ℤ} (hcp : cp ≠ some 0) {keep : Bool} {step : ℤ} {cur : String} {w : World}
    (hm : Good ds l r w.evo.eng.mps) :
    ∃ cur' w', tebdStep O gates dt ns (some D) 0 v cp keep step cur w = .ok (cur', w') ∧ Good ds l r w'.evo.eng.mps := by
  obtain ⟨e1, h1, g1⟩ := applyOdd_progress hO hG dt hD hm
  unfold tebdStep
  simp only [h1]
  have ht : (e1.tick v dt).eng = e1.eng := by unfold Evo.tick; split_ifs <;> rfl
  have g2 : Good ds l r (e1.tick v dt).eng.mps := by rw [ht]; exact g1
  obtain ⟨e3, h3, g3⟩ := applyEven_progress hO hG (dt / 2) hD g2
  obtain ⟨e4, h4, g4⟩ := applyEven_progress hO hG (dt / 2) hD g3
  obtain ⟨e5, h5, g5⟩ := applyEven_progress hO hG dt hD g2
  have hdue : ∃ b, cpDue cp (e1.tick v dt).it = .ok b := by
    unfold cpDue
    cases cp with
    | none => exact ⟨_, rfl⟩
    | some c =>
      simp only
      split_ifs with a b
      · exact absurd (by rw [b]) hcp
      · exact ⟨_, rfl⟩
      · exact ⟨_, rfl⟩
  obtain ⟨b, hb⟩ := hdue
  rw [hb]
  cases b
  · simp only
    by_cases hs : step < ns - 1
    · rw [if_pos hs]; simp only [h5]; exact ⟨_, _, rfl, g5.resetZ⟩
    · rw [if_neg hs]; simp only [h3]; exact ⟨_, _, rfl, g3.resetZ⟩
  · simp only
    by_cases hs : step < ns - 1
    · rw [if_pos hs]; simp only [h3, h4]; exact ⟨_, _, rfl, g4.resetZ⟩
    · rw [if_neg hs]; simp only [h3]; exact ⟨_, _, rfl, g3.resetZ⟩

theorem tebdLoop_progress (hO : O.Spec) (hG : GateGroup gates ds G) {l r : ℕ} {D : ℕ} (hD : 1 ≤ D) {dt : ℂ} {ns : ℤ}
    {v : ℤ} {cp : Option ℤ} (hcp : cp ≠ some 0) {keep : Bool} : ∀ (k step : ℕ) (cur : String) (w : World),
    Good ds l r w.evo.eng.mps →
    ∃ cur' w', tebdLoop O gates dt ns (some D) 0 v cp keep k step cur w = .ok (cur', w') ∧ Good ds l r w'.evo.eng.mps := by
  intro k
  induction k with
  | zero => intro step cur w h; exact ⟨cur, w, rfl, h⟩
  | succ k ih =>
    intro step cur w h
    obtain ⟨c1, w1, h1, g1⟩ := tebdStep_progress hO hG hD (dt := dt) (ns := ns) (v := v) hcp (keep := keep) (step := step)
      (cur := cur) h
    obtain ⟨c2, w2, h2, g2⟩ := ih (step + 1) c1 w1 g1
    exact ⟨c2, w2, by simp only [tebdLoop, h1, h2], g2⟩

/-- Canonical form along an exact run. -/
theorem replay_canonical (hO : O.Spec) (hG : GateGroup gates ds G) {l r : ℕ} {D : Option ℕ} {th : ℝ} :
    ∀ (es : List TEv) (m p : MPS) (tw : ℝ), Good ds l r m → (∀ e ∈ es, e.InRange ds.length) →
    replay O gates D th es (m, tw) = .ok (p, tw) → Good ds l r p := by
  intro es
  induction es with
  | nil =>
    intro m p tw hm _ h
    simp only [replay, Except.ok.injEq, Prod.mk.injEq] at h
    obtain ⟨rfl, -⟩ := h
    exact hm
  | cons e es ih =>
    intro m p tw hm hr h
    have hr' : ∀ e ∈ es, e.InRange ds.length := fun x hx => hr x (by simp [hx])
    cases e with
    | reset => simp only [replay] at h; exact ih _ _ _ hm.resetZ hr' h
    | gate n tau =>
      obtain ⟨h0, h1⟩ : 0 ≤ n ∧ n + 1 < ds.length := hr (.gate n tau) (by simp)
      obtain ⟨n, rfl⟩ := Int.eq_ofNat_of_zero_le h0
      have h1 : n + 1 < ds.length := by omega
      simp only [replay, hG.val n tau h1] at h
      split at h
      · cases h
      rename_i t k q hq
      have b1 := replay_mono hO hG _ _ _ _ _ (gate_fit hO hG hm.toFit h1 hq) hr' h
      have b2 := tw_nonneg hO hm.toFit h1 hq
      have ht : t = 0 := by linarith
      subst ht
      rw [add_zero] at h
      obtain ⟨-, D', rfl⟩ := applyTwoSiteGate_Z hO hm.sth hq
      exact ih _ _ _ ⟨gate_fit hO hG hm.toFit h1 hq, (gate_alive hO hG hm.toFit hm.can h1 hq (Or.inl rfl)).2⟩ hr' h

end

end PyTeN
