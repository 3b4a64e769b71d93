import Verif.Utils.Step
import Mathlib.Tactic.Linarith
import Mathlib.Tactic.Positivity
import Mathlib.Tactic.NormNum

/-! # C50, C51: step-size control of the gradient engine, restarts of conjugate gradients -/

namespace PyTeN
open Step

set_option linter.unusedSectionVars false

variable {K : Type*} [Field K] [LinearOrder K] [IsStrictOrderedRing K] {S P : Type*}

/-! ## C50 -/

/-- Admissible parameters: non-zero factor, a reset period, and a step size for every threshold. -/
structure ParOK (p : Par K) : Prop where
  factor : p.factor ≠ 0
  itreset : 0 < p.itreset
  nx : ∀ l, p.nxdots = some l → l ≠ [] ∧ l.length ≤ p.alphas.length

/-- The step size is the initial one (or one of the list) divided by the factor to the power of the depth. -/
structure StepForm (p : Par K) (c : Ctl K) : Prop where
  form : ∃ base, (base = p.alpha ∨ base ∈ p.alphas) ∧ c.cur = base / p.factor ^ c.depth ∧ (c.warmup = true → base = p.alpha)
  cold : c.warmup = false → p.nxdots ≠ none

theorem pick_ok (opt : K) (alphas : List K) (ind : ℕ) (l : List K) (hl : l ≠ []) (hlen : ind + l.length ≤ alphas.length) :
    ∃ a ∈ alphas, pick opt alphas ind l = .ok a := by
  induction l generalizing ind with
  | nil => exact absurd rfl hl
  | cons b l ih =>
    match l with
    | [] =>
      have hne : alphas ≠ [] := by rintro rfl; simp at hlen
      refine ⟨alphas.getLast hne, List.getLast_mem hne, ?_⟩
      simp [pick, List.getLast?_eq_some_getLast hne]
    | c :: l =>
      by_cases h : c ≤ opt
      · have hi : ind < alphas.length := by simp at hlen; omega
        refine ⟨alphas[ind], List.getElem_mem hi, ?_⟩
        simp [pick, h, getE, hi]
      · obtain ⟨a, ha, h2⟩ := ih (ind + 1) (by simp) (by simp at hlen ⊢; omega)
        exact ⟨a, ha, by simp only [pick]; rw [if_neg h]; exact h2⟩

theorem divE_ok {a b : K} (h : b ≠ 0) : divE a b = .ok (a / b) := by simp [divE, h]

theorem plateau_ok {p : Par K} (hp : ParOK p) (opt cur : K) (depth : ℕ) (hnx : p.nxdots ≠ none) :
    ∃ base, (base = p.alpha ∨ base ∈ p.alphas) ∧ plateau p opt cur depth = .ok (base / p.factor ^ depth) := by
  have hf : p.factor ^ depth ≠ 0 := pow_ne_zero _ hp.factor
  unfold plateau
  match hn : p.nxdots with
  | none => exact absurd hn hnx
  | some [] => exact absurd rfl (hp.nx _ hn).1
  | some (n0 :: ns) =>
    simp only
    by_cases h : n0 ≤ opt
    · exact ⟨p.alpha, Or.inl rfl, by rw [if_pos h, divE_ok hf]⟩
    · obtain ⟨a, ha, h2⟩ := pick_ok opt p.alphas 0 (n0 :: ns) (by simp) (by have := (hp.nx _ hn).2; omega)
      exact ⟨a, Or.inr ha, by rw [if_neg h, h2]; simp only [divE_ok hf]⟩

theorem onReset_ok {p : Par K} (hp : ParOK p) {s : Ctl K} (hs : StepForm p s) (opt : K) :
    ∃ s1, onReset p s opt = .ok s1 ∧ StepForm p s1 ∧ s1.depth = s.depth - 1 := by
  have hf : p.factor ^ (s.depth - 1) ≠ 0 := pow_ne_zero _ hp.factor
  unfold onReset
  simp only
  by_cases hw : s.warmup = true
  · rw [if_pos hw, divE_ok hf]
    simp only
    match hn : p.nxdots with
    | none => exact ⟨_, rfl, ⟨⟨p.alpha, Or.inl rfl, rfl, fun _ => rfl⟩, by simp⟩, rfl⟩
    | some [] => exact absurd rfl (hp.nx _ hn).1
    | some (n0 :: ns) =>
      simp only
      by_cases h : opt < n0
      · obtain ⟨base, hb, h2⟩ := plateau_ok hp opt (p.alpha / p.factor ^ (s.depth - 1)) (s.depth - 1) (by rw [hn]; simp)
        rw [if_pos h, h2]
        exact ⟨_, rfl, ⟨⟨base, hb, rfl, by simp⟩, fun _ => by rw [hn]; simp⟩, rfl⟩
      · rw [if_neg h]
        exact ⟨_, rfl, ⟨⟨p.alpha, Or.inl rfl, rfl, fun _ => rfl⟩, by simp⟩, rfl⟩
  · rw [if_neg hw]
    have hnx := hs.cold (by simpa using hw)
    obtain ⟨base, hb, h2⟩ := plateau_ok hp opt s.cur (s.depth - 1) hnx
    rw [h2]
    exact ⟨_, rfl, ⟨⟨base, hb, rfl, by simp⟩, fun _ => hnx⟩, rfl⟩

theorem count_ok {p : Par K} (hp : ParOK p) {s : Ctl K} (hs : StepForm p s) :
    ∃ s1, count p s = .ok s1 ∧ StepForm p s1 ∧ s1.depth = s.depth ∧ s1.cur = s.cur := by
  unfold count
  by_cases hr : s.reset = true
  · rw [if_pos hr]; exact ⟨s, rfl, hs, rfl, rfl⟩
  · rw [if_neg hr, if_neg (by have := hp.itreset; omega)]
    exact ⟨_, rfl, ⟨hs.form, hs.cold⟩, rfl, rfl⟩

/-- **C50 (one call).**  A call rejects exactly if the norm has grown by more than the tolerance (after the first iteration);
then the step size is divided by the factor and the depth increased.  Otherwise the depth does not increase; without a pending
reset the step size is kept.  The form of the step size is preserved. -/
theorem C50_call {p : Par K} (hp : ParOK p) {s : Ctl K} (hs : StepForm p s) {opt old : K} (it : ℤ)
    (hdef : it = 1 ∨ 1 < it ∧ (relGt opt old p.normtol ∨ relLe opt old p.normtol)) :
    ∃ s' rej, determineNewStepsize p s opt old it = .ok (s', rej) ∧ StepForm p s' ∧
      (rej = true ↔ relGt opt old p.normtol ∧ 1 < it) ∧
      (rej = true → s'.cur = s.cur / p.factor ∧ s'.depth = s.depth + 1 ∧ s'.warmup = s.warmup) ∧
      (rej = false → s'.depth ≤ s.depth ∧ (s.reset = false → s'.cur = s.cur ∧ s'.depth = s.depth)) := by
  unfold determineNewStepsize
  by_cases h : relGt opt old p.normtol ∧ 1 < it
  · rw [if_pos h, divE_ok hp.factor]
    obtain ⟨base, hb, hc, hw⟩ := hs.form
    exact ⟨_, _, rfl, ⟨⟨base, hb, by simp only; rw [hc, pow_succ, div_div], hw⟩, hs.cold⟩, by simp [h], by simp, by simp⟩
  · rw [if_neg h]
    have h2 : relLe opt old p.normtol ∨ it = 1 := by
      rcases hdef with h1 | ⟨h1, h3 | h3⟩
      · exact Or.inr h1
      · exact absurd ⟨h3, h1⟩ h
      · exact Or.inl h3
    rw [if_pos h2]
    by_cases hr : s.reset = true
    · obtain ⟨s1, a1, a2, a3⟩ := onReset_ok hp hs opt
      obtain ⟨s2, b1, b2, b3, b4⟩ := count_ok hp a2
      rw [if_pos hr, a1]
      simp only [b1]
      exact ⟨s2, false, rfl, b2, by simp [h], by simp, fun _ => ⟨by omega, fun hh => by rw [hr] at hh; simp at hh⟩⟩
    · obtain ⟨s2, b1, b2, b3, b4⟩ := count_ok hp hs
      rw [if_neg hr]
      simp only [b1]
      exact ⟨s2, false, rfl, b2, by simp [h], by simp, fun _ => ⟨by omega, fun _ => ⟨b4, b3⟩⟩⟩

/-- Backtracking descent, as a specification of the records: `best` is the last accepted point with its norm and the step size in
force.  A record evaluates the current state.  It is rejected exactly if there is an accepted point and the norm has grown by more
than the tolerance; then the next state starts again from the accepted point with the step size divided by the factor. -/
def Follows (G : Grad S P K) (p : Par K) : S → Option (P × K × K) → List (Entry P K) → Prop
  | _, _, [] => True
  | s, best, r :: rs =>
    G.eval s = (r.point, r.norm) ∧
    (r.rejected = true ↔ ∃ b g a, best = some (b, g, a) ∧ relGt r.norm g p.normtol) ∧
    (r.rejected = true → ∀ b g a, best = some (b, g, a) →
      r.step = a / p.factor ∧ Follows G p (G.move b r.step) (some (b, g, r.step)) rs) ∧
    (r.rejected = false → Follows G p (G.move r.point r.step) (some (r.point, r.norm, r.step)) rs)

/-- For a positive old norm one of the two comparisons holds. -/
theorem rel_total {opt old tol : K} (ho : 0 < old) : relGt opt old tol ∨ relLe opt old tol := by
  unfold relGt relLe
  by_cases h : opt = 0
  · rw [if_pos h, if_pos h]; right; rw [h]; linarith
  · rw [if_neg h, if_neg h]; exact lt_or_ge _ _

/-- A rejected norm is larger than the old one. -/
theorem relGt_lt {opt old tol : K} (ht : 0 ≤ tol) (h0 : 0 ≤ opt) (ho : 0 < old) (h : relGt opt old tol) : old < opt := by
  unfold relGt at h
  by_cases hz : opt = 0
  · rw [if_pos hz] at h; linarith
  · rw [if_neg hz] at h
    have hp : 0 < opt := lt_of_le_of_ne h0 (Ne.symm hz)
    have h1 : 0 < (opt - old) / opt := lt_of_le_of_lt ht h
    have h2 := (div_pos_iff_of_pos_right hp).1 h1
    linarith

/-- Loop invariant of the engine. -/
structure LoopInv (p : Par K) (eps : K) (e : Step.Eng S P K) : Prop where
  ctl : StepForm p e.ctl
  start : (e.it = 1 ∧ e.backup = none) ∨ (1 < e.it ∧ (∃ b, e.backup = some b) ∧ eps ≤ e.old)

/-- The accepted point of an engine. -/
def bestOf (e : Step.Eng S P K) : Option (P × K × K) := e.backup.map fun b => (b, e.old, e.ctl.cur)

theorem simulate_ok (G : Grad S P K) {p : Par K} (hp : ParOK p) {eps : K} (he : 0 < eps) (ht : 0 ≤ p.normtol)
    (hG : ∀ s, 0 ≤ (G.eval s).2) (Nmax : ℤ) (fuel : ℕ) (e : Step.Eng S P K) (log : List (Entry P K)) (hi : LoopInv p eps e)
    (hf : (Nmax - e.it).toNat < fuel) :
    ∃ e' rs conv, Step.simulate G p eps Nmax fuel e log = .ok (e', log ++ rs, conv) ∧ Follows G p e.mps (bestOf e) rs ∧
      (rs.length : ℤ) ≤ max 1 (Nmax - e.it + 1) ∧
      (∀ r ∈ rs, ∃ base k, (base = p.alpha ∨ base ∈ p.alphas) ∧ r.step = base / p.factor ^ k) ∧
      (∃ init last, rs = init ++ [last] ∧ (∀ r ∈ init, eps ≤ r.norm) ∧ (conv = true ↔ last.norm < eps) ∧
        (conv = true → last.rejected = false)) := by
  induction fuel generalizing e log with
  | zero => omega
  | succ fuel ih =>
    obtain ⟨pt, g, hev⟩ : ∃ pt g, G.eval e.mps = (pt, g) := ⟨_, _, rfl⟩
    have hg : 0 ≤ g := by have := hG e.mps; rwa [hev] at this
    have hdef : e.it = 1 ∨ 1 < e.it ∧ (relGt g e.old p.normtol ∨ relLe g e.old p.normtol) := by
      rcases hi.start with h | ⟨h1, _, h2⟩
      · exact Or.inl h.1
      · exact Or.inr ⟨h1, rel_total (lt_of_lt_of_le he h2)⟩
    obtain ⟨c, rej, hd, hc, hrej, hr1, hr0⟩ := C50_call hp hi.ctl e.it hdef
    obtain ⟨base, hb, hcur, -⟩ := hc.form
    -- the step
    obtain ⟨e1, hstep, hit, hctl, hS, hback⟩ : ∃ e1 : Step.Eng S P K,
        doGradStep G p eps e = .ok (e1, ⟨pt, g, rej, c.cur⟩, decide (g < eps)) ∧ e1.it = e.it ∧ e1.ctl = c ∧
        (∀ rs, Follows G p e1.mps (bestOf e1) rs → Follows G p e.mps (bestOf e) (⟨pt, g, rej, c.cur⟩ :: rs)) ∧
        ((∃ b, e1.backup = some b) ∧ (eps ≤ g → eps ≤ e1.old) ∧ (rej = true → eps ≤ e.old)) := by
      cases rej with
      | true =>
        have hgt := hrej.1 rfl
        rcases hi.start with h | ⟨h1, ⟨b, hbk⟩, h2⟩
        · have := hgt.2; omega
        · refine ⟨{ e with mps := G.move b c.cur, ctl := c }, ?_, rfl, rfl, ?_, ⟨b, hbk⟩, fun _ => h2, fun _ => h2⟩
          · unfold doGradStep; simp only [hev, hd, hbk]
          · intro rs hrs
            refine ⟨hev, ?_, ?_, by simp⟩
            · simp only [true_iff]; exact ⟨b, e.old, e.ctl.cur, by simp [bestOf, hbk], hgt.1⟩
            · intro _ b' g' a' hb'
              simp only [bestOf, hbk, Option.map_some, Option.some.injEq, Prod.mk.injEq] at hb'
              obtain ⟨rfl, rfl, rfl⟩ := hb'
              refine ⟨(hr1 rfl).1, ?_⟩
              simpa [bestOf, hbk] using hrs
      | false =>
        refine ⟨{ e with mps := G.move pt c.cur, ctl := c, backup := some pt, old := g }, ?_, rfl, rfl, ?_, ⟨pt, rfl⟩, fun h => h, by simp⟩
        · unfold doGradStep; simp only [hev, hd]
        · intro rs hrs
          refine ⟨hev, ?_, by simp, fun _ => by simpa [bestOf] using hrs⟩
          simp only [Bool.false_eq_true, false_iff]
          rintro ⟨b, g', a, hb', hgt⟩
          rcases hi.start with h | ⟨h1, ⟨b2, hbk⟩, h2⟩
          · simp [bestOf, h.2] at hb'
          · simp only [bestOf, hbk, Option.map_some, Option.some.injEq, Prod.mk.injEq] at hb'
            obtain ⟨-, rfl, -⟩ := hb'
            exact absurd (hrej.2 ⟨hgt, h1⟩) (by simp)
    have hacc : decide (g < eps) = true → rej = false := by
      intro hlt
      have hlt : g < eps := by simpa using hlt
      cases hrj : rej with
      | false => rfl
      | true =>
        have h2 := hback.2.2 hrj
        have := relGt_lt ht hg (lt_of_lt_of_le he h2) (hrej.1 hrj).1
        linarith
    have hone : ∀ r ∈ [(⟨pt, g, rej, c.cur⟩ : Entry P K)], ∃ base k, (base = p.alpha ∨ base ∈ p.alphas) ∧ r.step = base / p.factor ^ k := by
      intro r hr
      rw [List.mem_singleton] at hr
      subst hr
      exact ⟨base, c.depth, hb, hcur⟩
    have hlast : ∃ init last, [(⟨pt, g, rej, c.cur⟩ : Entry P K)] = init ++ [last] ∧ (∀ r ∈ init, eps ≤ r.norm) ∧
        (decide (g < eps) = true ↔ last.norm < eps) ∧ (decide (g < eps) = true → last.rejected = false) :=
      ⟨[], _, rfl, by simp, by simp, hacc⟩
    unfold Step.simulate
    simp only [hstep]
    by_cases hN : Nmax ≤ e1.it
    · rw [if_pos hN]
      exact ⟨e1, _, _, rfl, hS [] trivial, by simp, hone, hlast⟩
    · rw [if_neg hN]
      by_cases hcv : decide (g < eps) = true
      · rw [if_pos hcv]
        refine ⟨_, [⟨pt, g, rej, c.cur⟩], true, rfl, hS [] trivial, by simp, hone, ?_⟩
        rw [hcv] at hlast; exact hlast
      · rw [if_neg hcv]
        have hge : eps ≤ g := by simpa using hcv
        have hit1 : 1 ≤ e.it := by rcases hi.start with h | h <;> omega
        obtain ⟨e', rs, conv, a1, a2, a3, a4, init, last, a5, a6, a7, a8⟩ :=
          ih { e1 with it := e1.it + 1 } (log ++ [⟨pt, g, rej, c.cur⟩])
            ⟨by simp only [hctl]; exact hc, Or.inr ⟨by simp only; omega, hback.1, hback.2.1 hge⟩⟩ (by simp only; omega)
        refine ⟨e', ⟨pt, g, rej, c.cur⟩ :: rs, conv, by rw [a1]; simp, hS rs a2, ?_, ?_, ⟨pt, g, rej, c.cur⟩ :: init, last, by rw [a5]; rfl, ?_, a7, a8⟩
        · simp only [List.length_cons, Nat.cast_add, Nat.cast_one] at a3 ⊢
          omega
        · intro r hr
          rcases List.mem_cons.1 hr with h | h
          · exact hone r (by simp [h])
          · exact a4 r h
        · intro r hr
          rcases List.mem_cons.1 hr with h | h
          · rw [h]; exact hge
          · exact a6 r h

/-- **C50.**  From a fresh engine the gradient loop never fails, makes at least one and at most `max 1 Nmax` steps, and performs
backtracking descent (`Follows`).  Every step size is the initial one or one of the list, divided by a power of the factor.  Only the
last norm may be below the tolerance; the loop reports convergence exactly then, and at an accepted point. -/
theorem C50_backtracking (G : Grad S P K) {p : Par K} (hp : ParOK p) {eps : K} (he : 0 < eps) (ht : 0 ≤ p.normtol)
    (hG : ∀ s, 0 ≤ (G.eval s).2) (Nmax : ℤ) (fuel : ℕ) (hf : Nmax.toNat < fuel) (mps : S) :
    ∃ e' rs conv, Step.simulate G p eps Nmax fuel (Step.init p mps) [] = .ok (e', rs, conv) ∧ Follows G p mps none rs ∧
      (rs.length : ℤ) ≤ max 1 Nmax ∧
      (∀ r ∈ rs, ∃ base k, (base = p.alpha ∨ base ∈ p.alphas) ∧ r.step = base / p.factor ^ k) ∧
      (∃ init last, rs = init ++ [last] ∧ (∀ r ∈ init, eps ≤ r.norm) ∧ (conv = true ↔ last.norm < eps) ∧
        (conv = true → last.rejected = false)) := by
  have hi : LoopInv p eps (Step.init p mps : Step.Eng S P K) :=
    ⟨⟨⟨p.alpha, Or.inl rfl, by simp [Step.init], fun _ => rfl⟩, by simp [Step.init]⟩, Or.inl ⟨rfl, rfl⟩⟩
  obtain ⟨e', rs, conv, a1, a2, a3, a4⟩ := simulate_ok G hp he ht hG Nmax fuel (Step.init p mps) [] hi (by simp only [Step.init]; omega)
  exact ⟨e', rs, conv, by simpa using a1, a2, by simpa [Step.init] using a3, a4⟩

/-- With positive parameters every step size is positive. -/
theorem C50_positive (G : Grad S P K) {p : Par K} (hp : ParOK p) {eps : K} (he : 0 < eps) (ht : 0 ≤ p.normtol)
    (hG : ∀ s, 0 ≤ (G.eval s).2) (Nmax : ℤ) (fuel : ℕ) (hf : Nmax.toNat < fuel) (mps : S)
    (h1 : 0 < p.alpha) (h2 : ∀ a ∈ p.alphas, 0 < a) (h3 : 0 < p.factor) {e' : Step.Eng S P K} {rs : List (Entry P K)} {conv : Bool}
    (h : Step.simulate G p eps Nmax fuel (Step.init p mps) [] = .ok (e', rs, conv)) : ∀ r ∈ rs, 0 < r.step := by
  obtain ⟨e2, rs2, c2, a1, -, -, a4, -⟩ := C50_backtracking G hp he ht hG Nmax fuel hf mps
  rw [h] at a1
  simp only [Except.ok.injEq, Prod.mk.injEq] at a1
  obtain ⟨-, rfl, -⟩ := a1
  intro r hr
  obtain ⟨base, k, hb, hs⟩ := a4 r hr
  rw [hs]
  have : 0 < base := by rcases hb with rfl | hb; exacts [h1, h2 _ hb]
  positivity

/-- Parameters meeting the hypotheses. -/
example : ParOK (⟨1, [1 / 2, 1 / 4], some [1 / 10, 1 / 100], 1 / 10, 2, 10⟩ : Par ℚ) :=
  ⟨by norm_num, by norm_num, by intro l h; simp only [Option.some.injEq] at h; subst h; simp⟩

/-- **C50, the case excluded.**  If two successive norms vanish, after the first iteration, `reject` is never assigned. -/
theorem C50_violated_zero (p : Par K) (s : Ctl K) (it : ℤ) (h : 1 < it) : determineNewStepsize p s 0 0 it = .error .unbound := by
  unfold determineNewStepsize
  rw [if_neg (by simp [relGt]), if_neg (by simp [relLe]; omega)]

/-- **C50, the list of step sizes.**  Entered below the first threshold, the search takes the step size of the first threshold whose
successor is not above the norm, and the last step size of the list if there is none. -/
theorem C50_pick (opt : K) (alphas l : List K) (i : ℕ) (hi : i < l.length) (hlen : l.length = alphas.length)
    (hbelow : ∀ j, j ≤ i → ∀ x, l[j]? = some x → opt < x) (hnext : ∀ x, l[i + 1]? = some x → x ≤ opt) :
    pick opt alphas 0 l = getE alphas i := by
  have key : ∀ (l : List K) (ind i : ℕ), i < l.length → ind + l.length = alphas.length →
      (∀ j, j ≤ i → ∀ x, l[j]? = some x → opt < x) → (∀ x, l[i + 1]? = some x → x ≤ opt) →
      pick opt alphas ind l = getE alphas (ind + i) := by
    intro l
    induction l with
    | nil => intro ind i h; simp at h
    | cons b l ih =>
      intro ind i h1 h2 h3 h4
      match l with
      | [] =>
        have hi0 : i = 0 := by simpa using h1
        subst hi0
        have hl : alphas.length - 1 = ind := by simp at h2; omega
        have hlt : ind < alphas.length := by simp at h2; omega
        simp [pick, getE, List.getLast?_eq_getElem?, hl, hlt]
      | c :: l =>
        simp only [pick]
        match i with
        | 0 => rw [if_pos (h4 c (by simp))]; rfl
        | i + 1 =>
          rw [if_neg (not_le.2 (h3 1 (by omega) c (by simp)))]
          rw [ih (ind + 1) i (by simpa using h1) (by simp at h2 ⊢; omega)
            (fun j hj x hx => h3 (j + 1) (by omega) x (by simpa using hx)) (fun x hx => h4 x (by simpa using hx))]
          congr 1; omega
  simpa using key l 0 i hi (by omega) hbelow hnext

example : pick (1 / 20 : ℚ) [3, 2, 1] 0 [1, 1 / 10, 1 / 100] = .ok 2 := by
  rw [C50_pick _ _ _ 1 (by simp) (by simp)]
  · rfl
  · intro j hj x hx
    obtain rfl | rfl : j = 0 ∨ j = 1 := by omega
    all_goals (simp at hx; subst hx; norm_num)
  · intro x hx; simp at hx; subst hx; norm_num

/-! ## C51 -/

/-- The situations in which the conjugate direction is used: the norm lies in the window, it is not the first iteration, the norm has
not grown beyond the tolerance, the quotient is at most one, no phase of steepest descent is running, and the direction has not
been used `nlcgreset` times in a row. -/
def UsesCG (upper : Option K) (lower normtol : K) (nlcgreset stdereset : ℤ) (opt old : K) (it : ℤ) (c : Cg K) : Prop :=
  (∃ u, upper = some u ∧ opt < u ∧ lower < opt) ∧ 1 < it ∧ relLe opt old normtol ∧ opt ^ 2 / old ^ 2 ≤ 1 ∧
    ¬ (c.dostde = true ∧ c.itstde < stdereset) ∧ c.itbeta ≠ nlcgreset

/-- Invariant of the counters. -/
structure CgInv (nlcgreset stdereset : ℤ) (c : Cg K) : Prop where
  stde : c.dostde = false → c.itstde < stdereset
  beta : 0 ≤ c.itbeta ∧ c.itbeta ≤ nlcgreset

theorem inWindow_iff (upper : Option K) (lower opt : K) :
    inWindow upper lower opt = true ↔ ∃ u, upper = some u ∧ opt < u ∧ lower < opt := by
  cases upper <;> simp [inWindow]

theorem rawBeta_ok {normtol opt old : K} {it : ℤ} (hit : 1 ≤ it) (ho : 0 < old) :
    (1 < it ∧ relLe opt old normtol ∧ opt ^ 2 / old ^ 2 ≤ 1 ∧ rawBeta normtol opt old it = .ok (opt ^ 2 / old ^ 2)) ∨
    (¬ (1 < it ∧ relLe opt old normtol ∧ opt ^ 2 / old ^ 2 ≤ 1) ∧ rawBeta normtol opt old it = .ok 0) := by
  unfold rawBeta
  by_cases h1 : 1 < it
  · rw [if_pos h1]
    by_cases h2 : relLe opt old normtol
    · rw [if_pos h2, if_neg ho.ne']
      by_cases h3 : 1 < opt ^ 2 / old ^ 2
      · right; rw [if_pos h3]; exact ⟨fun h => absurd h.2.2 (not_le.2 h3), rfl⟩
      · left; rw [if_neg h3]; exact ⟨h1, h2, not_lt.1 h3, rfl⟩
    · right
      rw [if_neg h2, if_pos ((rel_total ho).resolve_right h2)]
      exact ⟨fun h => h2 h.2.1, rfl⟩
  · right
    rw [if_neg h1, if_pos (by omega)]
    exact ⟨fun h => h1 h.1, rfl⟩

/-- **C51.**  With positive `stdereset` and `nlcgreset`, a positive old norm, and counters satisfying the invariant, the function does
not fail.  It returns the Fletcher-Reeves quotient exactly in the situations `UsesCG` and zero otherwise.  The invariant is kept. -/
theorem C51_restart (upper : Option K) (lower normtol : K) {nlcgreset stdereset : ℤ} (hs : 0 < stdereset) (hn : 0 < nlcgreset)
    {opt old : K} (hopt : 0 < opt) (ho : 0 < old) {it : ℤ} (hit : 1 ≤ it) {c : Cg K} (hc : CgInv nlcgreset stdereset c) :
    ∃ c', determineBeta upper lower normtol nlcgreset stdereset opt old it c = .ok c' ∧ CgInv nlcgreset stdereset c' ∧
      (UsesCG upper lower normtol nlcgreset stdereset opt old it c → c'.beta = opt ^ 2 / old ^ 2 ∧ c'.itbeta = c.itbeta + 1) ∧
      (¬ UsesCG upper lower normtol nlcgreset stdereset opt old it c → c'.beta = 0) := by
  have hq : opt ^ 2 / old ^ 2 ≠ 0 := by positivity
  have h0 := hc.stde
  have hb := hc.beta
  unfold determineBeta UsesCG
  rw [← inWindow_iff]
  by_cases hw : inWindow upper lower opt = true
  · rw [if_pos hw]
    rcases rawBeta_ok (normtol := normtol) (opt := opt) hit ho with ⟨a1, a2, a3, a4⟩ | ⟨a1, a2⟩
    · simp only [a4, if_neg hq]
      cases hd : c.dostde with
      | true =>
        by_cases h1 : c.itstde < stdereset
        · by_cases h2 : c.itbeta = nlcgreset
          · simp [h1, h2, hw]; exact ⟨by simp, by simp; omega⟩
          · simp [h1, h2, hw]; exact ⟨by simp, by simp; omega⟩
        · have h3 : stdereset ≤ c.itstde := not_lt.1 h1
          by_cases h2 : c.itbeta = nlcgreset
          · simp [h1, h2, h3, hw]; exact ⟨by simp, by simp; omega⟩
          · simp [h1, h2, h3, hw, a1, a2, a3, hopt.ne', ho.ne']; exact ⟨by simpa using hs, by simp; omega⟩
      | false =>
        have h1 := h0 hd
        by_cases h2 : c.itbeta = nlcgreset
        · simp [h1, h2, hw]; exact ⟨by simp, by simp; omega⟩
        · simp [h1, h2, hw, a1, a2, a3, hopt.ne', ho.ne']; exact ⟨by simpa using h1, by simp; omega⟩
    · simp only [a2]
      have hno : ¬ (1 < it ∧ relLe opt old normtol ∧ opt ^ 2 / old ^ 2 ≤ 1 ∧ ¬ (c.dostde = true ∧ c.itstde < stdereset) ∧ c.itbeta ≠ nlcgreset) :=
        fun h => a1 ⟨h.1, h.2.1, h.2.2.1⟩
      by_cases h2 : c.itbeta = nlcgreset
      · refine ⟨⟨0, 0, 0, true⟩, by simp [h2], ⟨by simp, by simp; omega⟩, fun h => absurd h.2 hno, fun _ => rfl⟩
      · refine ⟨⟨0, c.itstde + 1, 0, true⟩, by simp [h2], ⟨by simp, by simp; omega⟩, fun h => absurd h.2 hno, fun _ => rfl⟩
  · rw [if_neg hw]
    exact ⟨_, rfl, ⟨h0, hb⟩, fun h => absurd h.1 hw, fun _ => rfl⟩

/-- A history of calls, each with its own norms and iteration number. -/
def cgRun (upper : Option K) (lower normtol : K) (nlcgreset stdereset : ℤ) : List (K × K × ℤ) → Cg K → Res (Cg K)
  | [], c => .ok c
  | (opt, old, it) :: l, c =>
    match determineBeta upper lower normtol nlcgreset stdereset opt old it c with
    | .error e => .error e
    | .ok c' => cgRun upper lower normtol nlcgreset stdereset l c'

/-- **C51 (histories).**  No history fails, and the counter of conjugate steps never exceeds `nlcgreset`. -/
theorem C51_history (upper : Option K) (lower normtol : K) {nlcgreset stdereset : ℤ} (hs : 0 < stdereset) (hn : 0 < nlcgreset)
    (l : List (K × K × ℤ)) (hl : ∀ x ∈ l, 0 < x.1 ∧ 0 < x.2.1 ∧ 1 ≤ x.2.2) (c : Cg K) (hc : CgInv nlcgreset stdereset c) :
    ∃ c', cgRun upper lower normtol nlcgreset stdereset l c = .ok c' ∧ c'.itbeta ≤ nlcgreset := by
  induction l generalizing c with
  | nil => exact ⟨c, rfl, hc.beta.2⟩
  | cons x l ih =>
    obtain ⟨opt, old, it⟩ := x
    obtain ⟨h1, h2, h3⟩ := hl _ (List.mem_cons_self ..)
    obtain ⟨c', a1, a2, -⟩ := C51_restart upper lower normtol hs hn h1 h2 h3 hc
    obtain ⟨c2, b1, b2⟩ := ih (fun y hy => hl y (List.mem_cons_of_mem _ hy)) c' a2
    exact ⟨c2, by simp only [cgRun, a1]; exact b1, b2⟩

/-- A situation in which the quotient is used. -/
example : UsesCG (some 1 : Option ℚ) 0 (1 / 10) 5 2 (1 / 4) (1 / 2) 2 ⟨0, 0, 0, false⟩ ∧ CgInv 5 2 (⟨0, 0, 0, false⟩ : Cg ℚ) := by
  refine ⟨⟨⟨1, rfl, by norm_num, by norm_num⟩, by norm_num, ?_, by norm_num, by simp, by norm_num⟩, ⟨by simp, by simp⟩⟩
  simp only [relLe]; norm_num

/-- **C51, the case excluded.**  With `stdereset=0`, a running conjugate phase (`dostde=False`) leaves `betanew` unassigned. -/
theorem C51_violated_stdereset : determineBeta (some 1 : Option ℚ) 0 (1 / 10) 5 0 (1 / 4) (1 / 2) 2 ⟨0, 0, 0, false⟩ = .error .unbound := by
  have h : relLe (1 / 4 : ℚ) (1 / 2) (1 / 10) := by simp only [relLe]; norm_num
  have hr : rawBeta (1 / 10 : ℚ) (1 / 4) (1 / 2) 2 = .ok (1 / 4) := by
    unfold rawBeta; rw [if_pos (by norm_num), if_pos h]; norm_num
  unfold determineBeta
  rw [if_pos (by rw [inWindow_iff]; exact ⟨1, rfl, by norm_num, by norm_num⟩), hr]
  norm_num

end PyTeN
