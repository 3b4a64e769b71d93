import Verif.Engine.TebdState

/-! # Propagation of truncation errors through a TEBD run -/

namespace PyTeN
open Finset

noncomputable section

/-- Spec: squared norm of a wave function on `ds` with outer dimensions `l,r`. -/
def nrm2 (ds : List ℕ) (l r : ℕ) (f : List ℕ → ℕ → ℕ → ℂ) : ℝ :=
  sumCfg ds (fun s => ∑ i ∈ range l, ∑ j ∈ range r, Complex.normSq (f s i j))

/-- Spec: real part of the inner product. -/
def re2 (ds : List ℕ) (l r : ℕ) (f g : List ℕ → ℕ → ℕ → ℂ) : ℝ :=
  sumCfg ds (fun s => ∑ i ∈ range l, ∑ j ∈ range r, (f s i j * star (g s i j)).re)

variable {ds : List ℕ} {l r : ℕ}

theorem sumCfg_nonneg : ∀ (ds : List ℕ) (f : List ℕ → ℝ), (∀ s, 0 ≤ f s) → 0 ≤ sumCfg ds f := by
  intro ds
  induction ds with
  | nil => intro f h; exact h []
  | cons d ds ih => intro f h; exact sum_nonneg fun x _ => ih _ fun s => h _

theorem nrm2_nonneg (f : List ℕ → ℕ → ℕ → ℂ) : 0 ≤ nrm2 ds l r f :=
  sumCfg_nonneg _ _ fun _ => sum_nonneg fun _ _ => sum_nonneg fun _ _ => Complex.normSq_nonneg _

theorem nrm2_congr {f g : List ℕ → ℕ → ℕ → ℂ} (h : ∀ s, Conf ds s → ∀ i < l, ∀ j, f s i j = g s i j) :
    nrm2 ds l r f = nrm2 ds l r g :=
  sumCfg_congr fun s hs => sum_congr rfl fun i hi => sum_congr rfl fun j _ => by rw [h s hs i (mem_range.mp hi) j]

theorem nrm2_lin (f g : List ℕ → ℕ → ℕ → ℂ) (t : ℝ) :
    nrm2 ds l r (fun s i j => f s i j + (t : ℂ) * g s i j) = nrm2 ds l r f + 2 * t * re2 ds l r f g + t ^ 2 * nrm2 ds l r g := by
  unfold nrm2 re2
  rw [← sumCfg_mul, ← sumCfg_mul, ← sumCfg_add, ← sumCfg_add]
  refine sumCfg_congr fun s _ => ?_
  simp only [mul_sum, ← sum_add_distrib]
  refine sum_congr rfl fun i _ => sum_congr rfl fun j _ => ?_
  simp only [Complex.normSq_apply, Complex.add_re, Complex.add_im, Complex.mul_re, Complex.mul_im, Complex.ofReal_re,
    Complex.ofReal_im, Complex.star_def, Complex.conj_re, Complex.conj_im]
  ring

theorem nrm2_smul (f : List ℕ → ℕ → ℕ → ℂ) (c : ℂ) :
    nrm2 ds l r (fun s i j => c * f s i j) = Complex.normSq c * nrm2 ds l r f := by
  unfold nrm2
  rw [← sumCfg_mul]
  refine sumCfg_congr fun s _ => ?_
  simp only [mul_sum, map_mul]

theorem nrm2_sub (f g : List ℕ → ℕ → ℕ → ℂ) :
    nrm2 ds l r (fun s i j => f s i j - g s i j) = nrm2 ds l r f - 2 * re2 ds l r f g + nrm2 ds l r g := by
  have := nrm2_lin (ds := ds) (l := l) (r := r) f g (-1)
  simp only [Complex.ofReal_neg, Complex.ofReal_one, neg_one_mul, ← sub_eq_add_neg] at this
  rw [this]; ring

/-- The inequality of Cauchy and Schwarz. -/
theorem re2_sq_le (f g : List ℕ → ℕ → ℕ → ℂ) : re2 ds l r f g ^ 2 ≤ nrm2 ds l r f * nrm2 ds l r g := by
  have h : ∀ t : ℝ, 0 ≤ nrm2 ds l r g * (t * t) + 2 * re2 ds l r f g * t + nrm2 ds l r f := by
    intro t
    have := nrm2_lin (ds := ds) (l := l) (r := r) f g t
    have h0 := nrm2_nonneg (ds := ds) (l := l) (r := r) (fun s i j => f s i j + (t : ℂ) * g s i j)
    nlinarith
  have := discrim_le_zero h
  unfold discrim at this
  nlinarith

/-- The triangle inequality. -/
theorem nrm2_triangle (f g h : List ℕ → ℕ → ℕ → ℂ) {a b : ℝ} (ha : 0 ≤ a) (hb : 0 ≤ b)
    (h1 : nrm2 ds l r (fun s i j => f s i j - g s i j) ≤ a ^ 2) (h2 : nrm2 ds l r (fun s i j => g s i j - h s i j) ≤ b ^ 2) :
    nrm2 ds l r (fun s i j => f s i j - h s i j) ≤ (a + b) ^ 2 := by
  have e := nrm2_lin (ds := ds) (l := l) (r := r) (fun s i j => f s i j - g s i j) (fun s i j => g s i j - h s i j) 1
  simp only [Complex.ofReal_one, one_mul, sub_add_sub_cancel] at e
  have c := re2_sq_le (ds := ds) (l := l) (r := r) (fun s i j => f s i j - g s i j) (fun s i j => g s i j - h s i j)
  set R := re2 ds l r (fun s i j => f s i j - g s i j) (fun s i j => g s i j - h s i j)
  have hR : R ≤ a * b := by
    have : R ^ 2 ≤ (a * b) ^ 2 := by
      refine c.trans ?_
      rw [mul_pow]
      exact mul_le_mul h1 h2 (nrm2_nonneg _) (sq_nonneg _)
    exact le_of_sq_le_sq this (mul_nonneg ha hb) |> fun h => h
  rw [e]; nlinarith

/-- Spec: the gate keeps norms. -/
def Gate2.Unit (g : Gate2) : Prop := ∀ x < g.a, ∀ y < g.b, ∀ x' < g.a, ∀ y' < g.b,
  ∑ u ∈ range g.a', ∑ w ∈ range g.b', g.v x y u w * star (g.v x' y' u w) = if x = x' ∧ y = y' then 1 else 0

theorem unit_block {g : Gate2} (hg : g.Unit) (f : ℕ → ℕ → ℂ) :
    ∑ u ∈ range g.a', ∑ w ∈ range g.b', Complex.normSq (∑ x ∈ range g.a, ∑ y ∈ range g.b, f x y * g.v x y u w)
      = ∑ x ∈ range g.a, ∑ y ∈ range g.b, Complex.normSq (f x y) := by
  apply Complex.ofReal_injective
  push_cast
  have e : ∀ u w, ((Complex.normSq (∑ x ∈ range g.a, ∑ y ∈ range g.b, f x y * g.v x y u w) : ℝ) : ℂ)
      = ∑ x ∈ range g.a, ∑ y ∈ range g.b, ∑ x' ∈ range g.a, ∑ y' ∈ range g.b,
        f x y * star (f x' y') * (g.v x y u w * star (g.v x' y' u w)) := by
    intro u w
    rw [← Complex.mul_conj, map_sum, sum_mul]
    refine sum_congr rfl fun x _ => ?_
    rw [sum_mul]
    refine sum_congr rfl fun y _ => ?_
    rw [mul_sum]
    refine sum_congr rfl fun x' _ => ?_
    rw [map_sum, mul_sum]
    refine sum_congr rfl fun y' _ => ?_
    rw [map_mul]
    simp only [Complex.star_def]
    ring
  simp only [e]
  have sw : ∀ F : ℕ → ℕ → ℕ → ℕ → ℂ, ∑ u ∈ range g.a', ∑ w ∈ range g.b', ∑ x ∈ range g.a, ∑ y ∈ range g.b, F u w x y
      = ∑ x ∈ range g.a, ∑ y ∈ range g.b, ∑ u ∈ range g.a', ∑ w ∈ range g.b', F u w x y := by
    intro F
    rw [show (∑ u ∈ range g.a', ∑ w ∈ range g.b', ∑ x ∈ range g.a, ∑ y ∈ range g.b, F u w x y)
      = ∑ u ∈ range g.a', ∑ x ∈ range g.a, ∑ w ∈ range g.b', ∑ y ∈ range g.b, F u w x y from
      sum_congr rfl fun u _ => sum_comm, sum_comm]
    refine sum_congr rfl fun x _ => ?_
    rw [show (∑ u ∈ range g.a', ∑ w ∈ range g.b', ∑ y ∈ range g.b, F u w x y)
      = ∑ u ∈ range g.a', ∑ y ∈ range g.b, ∑ w ∈ range g.b', F u w x y from
      sum_congr rfl fun u _ => sum_comm, sum_comm]
  rw [sw]
  refine sum_congr rfl fun x hx => sum_congr rfl fun y hy => ?_
  rw [sw]
  rw [sum_eq_single_of_mem x hx, sum_eq_single_of_mem y hy]
  · simp only [← mul_sum]
    rw [hg x (mem_range.mp hx) y (mem_range.mp hy) x (mem_range.mp hx) y (mem_range.mp hy), ← Complex.mul_conj]
    simp
  · intro y' hy' hne
    simp only [← mul_sum]
    rw [hg x (mem_range.mp hx) y (mem_range.mp hy) x (mem_range.mp hx) y' (mem_range.mp hy'), if_neg (fun h => hne h.2.symm), mul_zero]
  · intro x' hx' hne
    refine sum_eq_zero fun y' hy' => ?_
    simp only [← mul_sum]
    rw [hg x (mem_range.mp hx) y (mem_range.mp hy) x' (mem_range.mp hx') y' (mem_range.mp hy'), if_neg (fun h => hne h.1.symm), mul_zero]

/-- A gate that keeps norms keeps the norm of the wave function. -/
theorem act2_nrm2 {n : ℕ} {g : Gate2} (hg : g.Unit) (hn : n + 1 < ds.length) (ha : g.a = ds.getD n 0) (ha' : g.a' = ds.getD n 0)
    (hb : g.b = ds.getD (n + 1) 0) (hb' : g.b' = ds.getD (n + 1) 0) (f : List ℕ → ℕ → ℕ → ℂ) :
    nrm2 ds l r (fun s i j => act2 n g.a g.b g.v (fun s => f s i j) s) = nrm2 ds l r f := by
  have hds : ds = ds.take n ++ g.a' :: g.b' :: ds.drop (n + 2) := by
    rw [ha', hb', List.getD_eq_getElem _ _ (by omega), List.getD_eq_getElem _ _ hn]
    rw [List.getElem_cons_drop hn, List.getElem_cons_drop (by omega), List.take_append_drop]
  have hl : (ds.take n).length = n := by rw [List.length_take]; omega
  have haa : g.a = g.a' := ha.trans ha'.symm
  have hbb : g.b = g.b' := hb.trans hb'.symm
  unfold nrm2
  rw [hds, sumCfg_append, sumCfg_append]
  refine sumCfg_congr fun sA hsA => ?_
  have hlA : sA.length = n := by rw [← hl]; exact (List.Forall₂.length_eq hsA).symm
  simp only [sumCfg]
  have pull : ∀ F : ℕ → ℕ → List ℕ → ℝ, ∑ u ∈ range g.a', ∑ w ∈ range g.b', sumCfg (ds.drop (n + 2)) (F u w)
      = sumCfg (ds.drop (n + 2)) (fun ss => ∑ u ∈ range g.a', ∑ w ∈ range g.b', F u w ss) := by
    intro F
    rw [sumCfg_sum]
    exact sum_congr rfl fun u _ => (sumCfg_sum _ _ _).symm
  rw [pull, pull]
  refine sumCfg_congr fun sB _ => ?_
  have sw : ∀ F : ℕ → ℕ → ℕ → ℕ → ℝ, ∑ u ∈ range g.a', ∑ w ∈ range g.b', ∑ i ∈ range l, ∑ j ∈ range r, F u w i j
      = ∑ i ∈ range l, ∑ j ∈ range r, ∑ u ∈ range g.a', ∑ w ∈ range g.b', F u w i j := by
    intro F
    rw [show (∑ u ∈ range g.a', ∑ w ∈ range g.b', ∑ x ∈ range l, ∑ y ∈ range r, F u w x y)
      = ∑ u ∈ range g.a', ∑ x ∈ range l, ∑ w ∈ range g.b', ∑ y ∈ range r, F u w x y from
      sum_congr rfl fun u _ => sum_comm, sum_comm]
    refine sum_congr rfl fun x _ => ?_
    rw [show (∑ u ∈ range g.a', ∑ w ∈ range g.b', ∑ y ∈ range r, F u w x y)
      = ∑ u ∈ range g.a', ∑ y ∈ range r, ∑ w ∈ range g.b', F u w x y from
      sum_congr rfl fun u _ => sum_comm, sum_comm]
  rw [sw, sw]
  refine sum_congr rfl fun i _ => sum_congr rfl fun j _ => ?_
  have := unit_block hg (fun x y => f (sA ++ x :: y :: sB) i j)
  rw [haa, hbb] at this
  rw [← this]
  refine sum_congr rfl fun u _ => sum_congr rfl fun w _ => ?_
  rw [act2_append hlA, haa, hbb]

theorem act2_sub {n d d' : ℕ} {g : ℕ → ℕ → ℕ → ℕ → ℂ} (ψ φ : List ℕ → ℂ) (s : List ℕ) :
    act2 n d d' g (fun s => ψ s - φ s) s = act2 n d d' g ψ s - act2 n d d' g φ s := by
  unfold act2
  simp only [sub_mul, sum_sub_distrib]

theorem opEvs_sub (G : ℕ → ℂ → Gate2) : ∀ (es : List TEv) (ψ φ : List ℕ → ℂ) (s : List ℕ),
    opEvs G es (fun s => ψ s - φ s) s = opEvs G es ψ s - opEvs G es φ s := by
  intro es
  induction es with
  | nil => intro ψ φ s; rfl
  | cons e es ih =>
    intro ψ φ s
    rw [opEvs_cons, opEvs_cons, opEvs_cons, ← ih]
    congr 1
    funext t
    cases e with
    | reset => rfl
    | gate n tau => exact act2_sub ψ φ t

/-- Spec: the gates of a record are taken at imaginary times. -/
def TEv.Imag : TEv → Prop
  | .gate _ tau => star tau = -tau
  | .reset => True

/-- Spec: number of gates in a record. -/
def numGates (es : List TEv) : ℕ := (es.filter fun e => match e with | .gate _ _ => true | .reset => false).length

variable {gates : GateFn} {G : ℕ → ℂ → Gate2} {O : LinAlg}

/-- Records of norm-keeping gates keep the norm. -/
theorem opEvs_nrm2 (hG : GateGroup gates ds G) (hU : ∀ n, n + 1 < ds.length → ∀ tau : ℂ, star tau = -tau → (G n tau).Unit) :
    ∀ (es : List TEv), (∀ e ∈ es, e.InRange ds.length) → (∀ e ∈ es, e.Imag) → ∀ f : List ℕ → ℕ → ℕ → ℂ,
    nrm2 ds l r (fun s i j => opEvs G es (fun s => f s i j) s) = nrm2 ds l r f := by
  intro es
  induction es with
  | nil => intro _ _ f; rfl
  | cons e es ih =>
    intro hr hi f
    have := ih (fun x hx => hr x (by simp [hx])) (fun x hx => hi x (by simp [hx])) (fun s i j => opEv G e (fun s => f s i j) s)
    simp only [opEvs_cons]
    refine this.trans ?_
    cases e with
    | reset => rfl
    | gate n tau =>
      obtain ⟨h0, h1⟩ : 0 ≤ n ∧ n + 1 < ds.length := hr (.gate n tau) (by simp)
      obtain ⟨n, rfl⟩ := Int.eq_ofNat_of_zero_le h0
      have h1 : n + 1 < ds.length := by omega
      exact act2_nrm2 (hU n h1 tau (hi (.gate n tau) (by simp))) h1 (hG.a _ _) (hG.a' _ _) (hG.b _ _) (hG.b' _ _) f

/-- Normalising the kept part: `2 tw` instead of `tw`. -/
theorem renormalised_le {u p : List ℕ → ℕ → ℕ → ℂ} {ν z tw : ℝ} (hν : 0 < ν) (hz : 0 < z) (h0 : 0 ≤ tw) (h1 : tw ≤ 1)
    (hu : nrm2 ds l r u = ν) (hp : nrm2 ds l r p = ν) (h : nrm2 ds l r (fun s i j => u s i j - (z : ℂ) * p s i j) = ν * tw) :
    nrm2 ds l r (fun s i j => u s i j - p s i j) ≤ ν * (2 * tw) := by
  have e1 := nrm2_lin (ds := ds) (l := l) (r := r) u p (-z)
  simp only [Complex.ofReal_neg, neg_mul, ← sub_eq_add_neg] at e1
  rw [h, hu, hp] at e1
  rw [nrm2_sub, hu, hp]
  set R := re2 ds l r u p
  have e2 : 2 * z * R = ν * (1 - tw + z ^ 2) := by linarith
  have e3 : ν * (1 - tw) ≤ R := by
    have h2 : 2 * z * (1 - tw) ≤ 1 - tw + z ^ 2 := by nlinarith [sq_nonneg (z - (1 - tw)), sq_nonneg (1 - tw - z)]
    have h3 : 2 * z * (ν * (1 - tw)) ≤ 2 * z * R := by rw [e2]; nlinarith
    exact le_of_mul_le_mul_left h3 (by positivity)
  linarith

/-- One gate: the relative squared error is at most twice the discarded weight. -/
theorem gate_error (hO : O.Spec) (hG : GateGroup gates ds G)
    (hU : ∀ n, n + 1 < ds.length → ∀ tau : ℂ, star tau = -tau → (G n tau).Unit) {m p : MPS} {n : ℕ} {tau : ℂ} (ht : star tau = -tau)
    {D : Option ℕ} {th tw : ℝ} {k : ℕ} (hm : Good ds l r m) (hn : n + 1 < ds.length)
    (h : m.applyTwoSiteGate O (G n tau) n D th = .ok (tw, k, p)) (htw : tw < 1) :
    Good ds l r p ∧ p.normSq l r = m.normSq l r ∧ (PosC m.Z → PosC p.Z) ∧
    nrm2 ds l r (fun s i j => opEv G (.gate n tau) (fun s => m.amp s i j) s - p.amp s i j) ≤ m.normSq l r * (2 * tw) := by
  obtain ⟨⟨z0, hz0, hZ⟩, D', rfl⟩ := applyTwoSiteGate_Z hO hm.sth h
  have hf := gate_fit hO hG hm.toFit hn h
  have h0 := tw_nonneg hO hm.toFit hn h
  obtain ⟨-, -, -, -, -, S, z, -, -, -, hz, -, -, h7, h8⟩ :=
    C23_applyTwoSiteGate_truncation hO hm.wf hm.sth (by rw [hm.N]; exact hn) h
  obtain ⟨h9, h10, h11⟩ := h8 hm.can
  rw [hf.ds_eq] at h10 h11
  have hν : 0 < m.normSq l r := by
    rw [canonical_normSq hm.wf hm.can]; exact Complex.normSq_pos.mpr hm.Z
  have hu : nrm2 ds l r (fun s i j => act2 n (G n tau).a (G n tau).b (G n tau).v (fun s => m.amp s i j) s) = m.normSq l r := by
    rw [act2_nrm2 (hU n hn tau ht) hn (hG.a _ _) (hG.a' _ _) (hG.b _ _) (hG.b' _ _)]
    unfold nrm2 MPS.normSq
    rw [hm.ds_eq]
  have hS : (S.map (fun x => x ^ 2)).sum = 1 := by
    have : m.normSq l r = m.normSq l r * (S.map (fun x => x ^ 2)).sum := by
      rw [← h10, ← hu]; unfold nrm2 distSq; simp only [sub_zero]
    have h2 : m.normSq l r * ((S.map (fun x => x ^ 2)).sum - 1) = 0 := by linarith
    rcases mul_eq_zero.mp h2 with h3 | h3
    · exact absurd h3 hν.ne'
    · linarith
  have hk : k ≠ 0 := by
    rintro rfl
    rw [List.drop_zero, hS] at h7
    linarith
  obtain ⟨hc, hpn⟩ := h9 hk
  refine ⟨⟨hf, hc⟩, hpn, fun hp => by rw [hZ]; exact hp.mul ⟨z0, hz0, rfl⟩, ?_⟩
  refine renormalised_le hν (hz hk) h0 htw.le hu ?_ h11
  rw [← hpn]
  unfold nrm2 MPS.normSq
  rw [hf.ds_eq]

theorem sqrt_step {K T t : ℝ} (hK : 0 ≤ K) (hT : 0 ≤ T) (ht : 0 ≤ t) :
    (√(2 * t) + √(2 * K * T)) ^ 2 ≤ 2 * (K + 1) * (T + t) := by
  have a := Real.sq_sqrt (show 0 ≤ 2 * t by positivity)
  have b := Real.sq_sqrt (show 0 ≤ 2 * K * T by positivity)
  have c : √(2 * t) * √(2 * K * T) ≤ K * t + T := by
    rw [← Real.sqrt_mul (by positivity)]
    rw [Real.sqrt_le_left (by positivity)]
    nlinarith [sq_nonneg (K * t - T)]
  nlinarith

/-- **Error of a record**: the exact result of a record of `K` norm-keeping gates and the state kept after discarding the weight `T` altogether have a relative
squared distance of at most `2KT`. -/
theorem replay_error (hO : O.Spec) (hG : GateGroup gates ds G)
    (hU : ∀ n, n + 1 < ds.length → ∀ tau : ℂ, star tau = -tau → (G n tau).Unit) {D : Option ℕ} {th : ℝ} :
    ∀ (es : List TEv) (m p : MPS) (tw tw' : ℝ), Good ds l r m → PosC m.Z → (∀ e ∈ es, e.InRange ds.length) → (∀ e ∈ es, e.Imag) →
    replay O gates D th es (m, tw) = .ok (p, tw') → tw' - tw < 1 →
    Good ds l r p ∧ PosC p.Z ∧ ∃ c : ℝ, 0 < c ∧ c ^ 2 * p.normSq l r = m.normSq l r ∧
      nrm2 ds l r (fun s i j => opEvs G es (fun s => m.amp s i j) s - (c : ℂ) * p.amp s i j)
        ≤ m.normSq l r * (2 * numGates es * (tw' - tw)) := by
  intro es
  induction es with
  | nil =>
    intro m p tw tw' hm hp _ _ h _
    simp only [replay, Except.ok.injEq, Prod.mk.injEq] at h
    obtain ⟨rfl, rfl⟩ := h
    refine ⟨hm, hp, 1, one_pos, by ring, ?_⟩
    simp only [opEvs, List.foldl_nil, Complex.ofReal_one, one_mul, sub_self, mul_zero]
    unfold nrm2
    simp [sumCfg_zero]
  | cons e es ih =>
    intro m p tw tw' hm hp hr hi h hlt
    have hr' : ∀ e ∈ es, e.InRange ds.length := fun x hx => hr x (by simp [hx])
    have hi' : ∀ e ∈ es, e.Imag := fun x hx => hi x (by simp [hx])
    cases e with
    | reset =>
      simp only [replay] at h
      obtain ⟨a1, a2, c, a3, a4, a5⟩ := ih _ _ _ _ hm.resetZ ⟨1, one_pos, by simp [MPS.resetZ]⟩ hr' hi' h hlt
      obtain ⟨x, hx, hxZ⟩ := hp
      have hn : m.normSq l r = x ^ 2 * m.resetZ.normSq l r := by
        rw [canonical_normSq hm.wf hm.can, canonical_normSq hm.resetZ.wf hm.resetZ.can, hxZ, Complex.normSq_ofReal]
        simp [MPS.resetZ]; ring
      refine ⟨a1, a2, x * c, by positivity, by rw [hn, ← a4]; ring, ?_⟩
      have e1 : nrm2 ds l r (fun s i j => opEvs G (.reset :: es) (fun s => m.amp s i j) s - ((x * c : ℝ) : ℂ) * p.amp s i j)
          = x ^ 2 * nrm2 ds l r (fun s i j => opEvs G es (fun s => m.resetZ.amp s i j) s - (c : ℂ) * p.amp s i j) := by
        have := nrm2_smul (ds := ds) (l := l) (r := r)
          (fun s i j => opEvs G es (fun s => m.resetZ.amp s i j) s - (c : ℂ) * p.amp s i j) (x : ℂ)
        rw [Complex.normSq_ofReal, ← pow_two] at this
        rw [← this]
        refine nrm2_congr fun s _ i _ j => ?_
        rw [opEvs_cons, mul_sub, ← opEvs_smul]
        simp only [opEv, resetZ_amp m, hxZ]
        push_cast; ring
      rw [e1, hn, mul_assoc]
      exact mul_le_mul_of_nonneg_left a5 (by positivity)
    | gate n tau =>
      obtain ⟨h0, h1⟩ : 0 ≤ n ∧ n + 1 < ds.length := hr (.gate n tau) (by simp)
      have ht : star tau = -tau := hi (.gate n tau) (by simp)
      obtain ⟨n, rfl⟩ := Int.eq_ofNat_of_zero_le h0
      have h1 : n + 1 < ds.length := by omega
      simp only [replay, hG.val n tau h1] at h
      split at h
      · cases h
      rename_i t k q hq
      have b1 := replay_mono hO hG _ _ _ _ _ (gate_fit hO hG hm.toFit h1 hq) hr' h
      have b2 := tw_nonneg hO hm.toFit h1 hq
      obtain ⟨d1, d2, d3, d4⟩ := gate_error hO hG hU ht hm h1 hq (by linarith)
      obtain ⟨a1, a2, c, a3, a4, a5⟩ := ih _ _ _ _ d1 (d3 hp) hr' hi' h (by linarith)
      refine ⟨a1, a2, c, a3, by rw [a4, d2], ?_⟩
      rw [d2] at a5
      set ν := m.normSq l r with hν
      have hν0 : 0 ≤ ν := by rw [hν, canonical_normSq hm.wf hm.can]; exact Complex.normSq_nonneg _
      have e1 : nrm2 ds l r (fun s i j => opEvs G (.gate n tau :: es) (fun s => m.amp s i j) s - opEvs G es (fun s => q.amp s i j) s)
          ≤ (√ν * √(2 * t)) ^ 2 := by
        rw [mul_pow, Real.sq_sqrt hν0, Real.sq_sqrt (by positivity)]
        refine le_trans (le_of_eq ?_) d4
        refine Eq.trans ?_ (opEvs_nrm2 hG hU es hr' hi'
          (fun s i j => opEv G (.gate n tau) (fun s => m.amp s i j) s - q.amp s i j))
        refine nrm2_congr fun s _ i _ j => ?_
        rw [opEvs_cons, opEvs_sub]
      have hT : 0 ≤ tw' - (tw + t) := by linarith
      have e2 : nrm2 ds l r (fun s i j => opEvs G es (fun s => q.amp s i j) s - (c : ℂ) * p.amp s i j)
          ≤ (√ν * √(2 * numGates es * (tw' - (tw + t)))) ^ 2 := by
        rw [mul_pow, Real.sq_sqrt hν0, Real.sq_sqrt (by positivity)]
        exact a5
      refine (nrm2_triangle _ _ _ (by positivity) (by positivity) e1 e2).trans ?_
      rw [← mul_add, mul_pow, Real.sq_sqrt hν0]
      refine mul_le_mul_of_nonneg_left ?_ hν0
      have e3 : (numGates (.gate n tau :: es) : ℝ) = numGates es + 1 := by simp [numGates]
      rw [e3]
      have := sqrt_step (K := numGates es) (by positivity) hT b2
      calc _ ≤ _ := this
        _ = _ := by ring

end

end PyTeN
