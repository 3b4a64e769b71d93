import Verif.Krylov.Expokit
import Verif.Props.LanczosTime

/-! # C54: `gexpmv` -/

namespace PyTeN
open Finset Expokit

noncomputable section

/-! ## Step sizes -/

theorem pyRound_le (x : ℝ) : (pyRound x : ℝ) ≤ x + 1 / 2 := by
  have h := Int.floor_add_fract x
  have h' := Int.fract_nonneg x
  unfold pyRound
  split_ifs <;> push_cast <;> linarith

theorem pow_bound {x : ℝ} (hx : 0 < x) :
    0 < (10 : ℝ) ^ (pyRound (Real.logb 10 x - Real.sqrt 0.1) - 1) ∧
      5 * (10 : ℝ) ^ (pyRound (Real.logb 10 x - Real.sqrt 0.1) - 1) ≤ x := by
  refine ⟨by positivity, ?_⟩
  have h1 := pyRound_le (Real.logb 10 x - Real.sqrt 0.1)
  have h2 : (0.3 : ℝ) ≤ Real.sqrt 0.1 := Real.le_sqrt_of_sq_le (by norm_num)
  have h3 : (10 : ℝ) ^ (pyRound (Real.logb 10 x - Real.sqrt 0.1) - 1)
      ≤ (10 : ℝ) ^ (Real.logb 10 x - 0.8) := by
    rw [← Real.rpow_intCast]
    apply Real.rpow_le_rpow_of_exponent_le (by norm_num)
    push_cast
    linarith
  have h4 : (10 : ℝ) ^ (Real.logb 10 x - 0.8) = x * (10 : ℝ) ^ (-0.8 : ℝ) := by
    rw [sub_eq_add_neg, Real.rpow_add (by norm_num), Real.rpow_logb (by norm_num) (by norm_num) hx]
  have h5 : 5 * (10 : ℝ) ^ (-0.8 : ℝ) ≤ 1 := by
    have h6 : ((10 : ℝ) ^ (-0.8 : ℝ)) ^ 5 ≤ (1 / 5) ^ 5 := by
      rw [← Real.rpow_natCast, ← Real.rpow_mul (by norm_num)]
      norm_num
    have h7 := le_of_pow_le_pow_left₀ (by norm_num) (by norm_num) h6
    linarith
  have h8 : 0 < x * (10 : ℝ) ^ (-0.8 : ℝ) := by positivity
  nlinarith

/-- Rounding a step size keeps it positive and increases it by at most eleven percent. -/
theorem roundStep_bound {x : ℝ} (hx : 0 < x) : 0 < roundStep x ∧ roundStep x ≤ 1.11 * x := by
  obtain ⟨hp, hpx⟩ := pow_bound hx
  unfold roundStep
  generalize (10 : ℝ) ^ (pyRound (Real.logb 10 x - Real.sqrt 0.1) - 1) = p at hp hpx
  have hq : 5 ≤ x / p := by rwa [le_div_iff₀ hp]
  unfold trunc
  rw [if_pos (by linarith)]
  have h1 := Int.floor_le (x / p + 0.55)
  have h2 := Int.lt_floor_add_one (x / p + 0.55)
  refine ⟨mul_pos (by linarith) hp, ?_⟩
  calc (⌊x / p + 0.55⌋ : ℝ) * p ≤ (x / p + 0.55) * p := by gcongr
    _ = x + 0.55 * p := by field_simp
    _ ≤ _ := by linarith

/-- A rejected step shrinks by at least a thousandth. -/
theorem shrink {t tol err xm : ℝ} (ht : 0 < t) (htol : 0 < tol) (herr : 1.2 * t * tol < err) (hxm : 0 < xm) :
    0 < roundStep (0.9 * t * (t * tol / err) ^ xm) ∧ roundStep (0.9 * t * (t * tol / err) ^ xm) ≤ 0.999 * t := by
  have htt : 0 < t * tol := mul_pos ht htol
  have he : 0 < err := by linarith
  have h1 : 0 < (t * tol / err) ^ xm := Real.rpow_pos_of_pos (by positivity) _
  have h2 : (t * tol / err) ^ xm ≤ 1 := Real.rpow_le_one (by positivity) (by rw [div_le_one he]; linarith) hxm.le
  obtain ⟨h3, h4⟩ := roundStep_bound (x := 0.9 * t * (t * tol / err) ^ xm) (by positivity)
  refine ⟨h3, h4.trans ?_⟩
  nlinarith

theorem nextStep_pos {t tol err xm : ℝ} (ht : 0 < t) (htol : 0 < tol) (herr : 0 < err) :
    0 < roundStep (0.9 * t * (t * tol / err) ^ xm) := by
  have h1 : 0 < (t * tol / err) ^ xm := Real.rpow_pos_of_pos (by positivity) _
  exact (roundStep_bound (by positivity)).1

theorem tolOf_pos {eps tol : ℝ} (he : 0 < eps) : 0 < tolOf eps tol := by
  unfold tolOf
  split_ifs with h
  · exact Real.sqrt_pos.mpr he
  · linarith

theorem firstStep_pos {m : ℕ} {tol anorm beta t1 : ℝ} (htol : 0 < tol) (ha : 0 < anorm) (hb : 0 ≤ beta)
    (h : firstStep m tol anorm beta = .ok t1) : 0 < t1 ∧ 0 < beta := by
  unfold firstStep at h
  rw [if_neg ha.ne'] at h
  split_ifs at h with h0
  injection h with h
  have hb' : 0 < beta := lt_of_le_of_ne hb (Ne.symm h0)
  rw [← h]
  refine ⟨(roundStep_bound ?_).1, hb'⟩
  have : 0 < tol * (((m : ℝ) + 1) / Real.exp 1) ^ (m + 1) * Real.sqrt (2 * Real.pi * (m + 1)) / (4 * beta * anorm) := by
    have := Real.pi_pos
    positivity
  positivity

/-! ## The inner loop -/

theorem errLoc_spec {m k1 : ℕ} (hm : 0 < m) {tol p1 p2 xm err xm' : ℝ} (h1 : 0 ≤ p1) (h2 : 0 ≤ p2) (hx : 0 < xm) (ht : 0 < tol)
    (h : errLoc m k1 tol p1 p2 xm = .ok (err, xm')) : 0 ≤ err ∧ 0 < xm' ∧ (k1 = 0 → err = tol ∧ xm' = xm) := by
  have hm' : (0 : ℝ) < m := by exact_mod_cast hm
  unfold errLoc at h
  split_ifs at h with c1 c2 c3 c4 <;> simp only [Except.ok.injEq, Prod.mk.injEq] at h <;> obtain ⟨rfl, rfl⟩ := h
  · exact ⟨ht.le, hx, fun _ => ⟨rfl, rfl⟩⟩
  · exact ⟨h2, by positivity, fun h => absurd h c1⟩
  · exact ⟨div_nonneg (mul_nonneg h1 h2) (by linarith), by positivity, fun h => absurd h c1⟩
  · have : (2 : ℝ) ≤ m := by exact_mod_cast (show 2 ≤ m by omega)
    exact ⟨h1, by apply one_div_pos.mpr; linarith, fun h => absurd h c1⟩

theorem errLoc_err {m k1 : ℕ} {tol p1 p2 xm : ℝ} {e : PyErr} (h : errLoc m k1 tol p1 p2 xm = .error e) :
    e = .zerodiv ∧ m = 1 ∧ k1 ≠ 0 := by
  unfold errLoc at h
  split_ifs at h with c1 c2 c3 c4
  injection h with h
  exact ⟨h.symm, c4, c1⟩

theorem accept_spec {expm : Mat ℂ → Mat ℂ} {m k1 mb : ℕ} {H : ℕ → ℕ → ℂ} {sgn beta avnorm tol : ℝ} (hm : 0 < m) (hb : 0 ≤ beta)
    (ha : 0 ≤ avnorm) (htol : 0 < tol) : ∀ (fuel : ℕ) (t xm : ℝ), 0 < t → 0 < xm → ∀ r, accept expm m k1 mb H sgn beta avnorm tol fuel t xm = some r →
      (∀ t' E err xm', r = .ok (t', E, err, xm') → 0 < t' ∧ t' ≤ t ∧ E = expH expm (mb + k1) H (sgn * t') ∧ 0 ≤ err ∧ 0 < xm' ∧
        (k1 = 0 → t' = t ∧ err = tol) ∧ (k1 ≠ 0 → err ≤ 1.2 * t' * tol)) ∧
      (∀ e, r = .error e → e = .zerodiv ∧ m = 1 ∧ k1 ≠ 0) := by
  intro fuel
  induction fuel with
  | zero => intro t xm ht hx r h; simp [accept] at h
  | succ f ih =>
    intro t xm ht hx r h
    rw [accept] at h
    generalize hE : expH expm (mb + k1) H (sgn * t) = E at h
    cases he : errLoc m k1 tol (‖E.v m 0‖ * beta) (‖E.v (m + 1) 0‖ * beta * avnorm) xm with
    | error e =>
      rw [he] at h
      simp only [Option.some.injEq] at h
      subst h
      exact ⟨fun _ _ _ _ h => by simp at h, fun e' h => by injection h with h; rw [← h]; exact errLoc_err he⟩
    | ok p =>
      obtain ⟨err, xm'⟩ := p
      rw [he] at h
      simp only at h
      obtain ⟨h1, h2, h3⟩ := errLoc_spec hm (by positivity) (by positivity) hx htol he
      split_ifs at h with hc
      · obtain ⟨h4, h5⟩ := shrink ht htol hc.2 h2
        obtain ⟨i1, i2⟩ := ih _ _ h4 h2 r h
        refine ⟨fun t' E' err' xm'' hr => ?_, i2⟩
        obtain ⟨j1, j2, j3, j4, j5, j6, j7⟩ := i1 t' E' err' xm'' hr
        exact ⟨j1, by linarith, j3, j4, j5, fun h0 => absurd h0 hc.1, j7⟩
      · simp only [Option.some.injEq] at h
        subst h
        refine ⟨fun t' E' err' xm'' hr => ?_, fun e h => by simp at h⟩
        simp only [Except.ok.injEq, Prod.mk.injEq] at hr
        obtain ⟨rfl, rfl, rfl, rfl⟩ := hr
        exact ⟨ht, le_rfl, hE.symm, h1, h2, fun h0 => ⟨rfl, (h3 h0).1⟩, fun h0 => by
          by_contra hn; exact hc ⟨h0, lt_of_not_ge hn⟩⟩

theorem accept_mono {expm : Mat ℂ → Mat ℂ} {m k1 mb : ℕ} {H : ℕ → ℕ → ℂ} {sgn beta avnorm tol : ℝ} :
    ∀ (fuel : ℕ) (t xm : ℝ) r, accept expm m k1 mb H sgn beta avnorm tol fuel t xm = some r → ∀ f ≥ fuel,
      accept expm m k1 mb H sgn beta avnorm tol f t xm = some r := by
  intro fuel
  induction fuel with
  | zero => intro t xm r h; simp [accept] at h
  | succ n ih =>
    intro t xm r h f hf
    obtain ⟨f, rfl⟩ : ∃ g, f = g + 1 := ⟨f - 1, by omega⟩
    rw [accept] at h ⊢
    cases he : errLoc m k1 tol (‖(expH expm (mb + k1) H (sgn * t)).v m 0‖ * beta) (‖(expH expm (mb + k1) H (sgn * t)).v (m + 1) 0‖ * beta * avnorm) xm with
    | error e => rw [he] at h; exact h
    | ok p =>
      rw [he] at h
      simp only at h ⊢
      split_ifs at h ⊢
      · exact ih _ _ _ h f (by omega)
      · exact h

/-! ## The outer loop -/

variable {V : Type} [NormedAddCommGroup V] [InnerProductSpace ℂ V]

/-- What a pass preserves. -/
structure ExpInv (a : Args V) (st : St V) : Prop where
  sum : st.times.sum = st.tNow
  pos : ∀ t ∈ st.times, 0 < t
  len : st.times.length = st.nstep
  now : st.tNow ≤ a.tOut
  new : 0 < st.tNew
  xm : 0 < st.xm
  av : 0 ≤ st.avnorm

/-- The state with which the step size is sought. -/
def passEntry (a : Args V) (st : St V) (vs : List V) : Option ℕ → St V
  | none => if st.ibrk then { st with nstep := st.nstep + 1 } else { st with nstep := st.nstep + 1, avnorm := ‖a.matvec (vs.getD a.m 0)‖ }
  | some j => { st with nstep := st.nstep + 1, k1 := 0, ibrk := true, mb := j }

def tryStep (a : Args V) (st : St V) : Option ℕ → ℝ
  | none => min (a.tOut - st.tNow) st.tNew
  | some _ => a.tOut - st.tNow

theorem pass_eq (a : Args V) (fuel : ℕ) (st : St V) : pass a fuel st =
    if ‖st.w‖ = 0 then some (.error .nan)
    else match arnoldi a.matvec a.btol a.m 1 [((1 / ‖st.w‖ : ℝ) : ℂ) • st.w] (fun _ _ => 0) with
      | .error e => some (.error e)
      | .ok (vs, H, brk) =>
        match accept a.expm a.m (passEntry a st vs brk).k1 (passEntry a st vs brk).mb (setEntry H (a.m + 1) a.m 1) a.sgn ‖st.w‖ (passEntry a st vs brk).avnorm a.tol fuel
            (tryStep a st brk) st.xm with
        | none => none
        | some (.error e) => some (.error e)
        | some (.ok (t, E, err, xm)) => some (finish a (passEntry a st vs brk) vs t E err xm) := by
  unfold pass
  split_ifs with h0
  · rfl
  · cases arnoldi a.matvec a.btol a.m 1 [((1 / ‖st.w‖ : ℝ) : ℂ) • st.w] (fun _ _ => 0) with
    | error e => rfl
    | ok p =>
      obtain ⟨vs, H, brk⟩ := p
      cases brk with
      | some j => rfl
      | none =>
        obtain ⟨w, tNow, tNew, xm, nstep, k1, ibrk, mb, avnorm, times⟩ := st
        cases ibrk <;> rfl

theorem arnoldi_err {matvec : V → V} {btol : ℝ} : ∀ (rem j : ℕ) (vs : List V) (H : ℕ → ℕ → ℂ) (e : PyErr),
    arnoldi matvec btol rem j vs H = .error e → e = .nan := by
  intro rem
  induction rem with
  | zero => intro j vs H e h; simp [arnoldi] at h
  | succ n ih =>
    intro j vs H e h
    rw [arnoldi] at h
    split_ifs at h
    · injection h with h; exact h.symm
    · exact ih _ _ _ _ h

theorem pass_spec {a : Args V} (hm : 0 < a.m) (htol : 0 < a.tol) {fuel : ℕ} {st : St V} (g : ExpInv a st) (hlt : st.tNow < a.tOut)
    {r : Res (St V)} (h : pass a fuel st = some r) :
    (∀ st', r = .ok st' → ExpInv a st' ∧ st'.nstep = st.nstep + 1 ∧ (∃ t, 0 < t ∧ st'.times = st.times ++ [t]) ∧
      (st'.ibrk = true → st.ibrk = false → st'.tNow = a.tOut)) ∧
    (∀ e, r = .error e → e = .nan ∨ (e = .zerodiv ∧ a.m = 1)) := by
  rw [pass_eq] at h
  split_ifs at h with h0
  · injection h with h; subst h
    exact ⟨fun _ h => by simp at h, fun e h => by injection h with h; exact Or.inl h.symm⟩
  · cases hA : arnoldi a.matvec a.btol a.m 1 [((1 / ‖st.w‖ : ℝ) : ℂ) • st.w] (fun _ _ => 0) with
    | error e =>
      rw [hA] at h
      simp only [Option.some.injEq] at h
      subst h
      exact ⟨fun _ h => by simp at h, fun e' h => by injection h with h; subst h; exact Or.inl (arnoldi_err _ _ _ _ _ hA)⟩
    | ok p =>
      obtain ⟨vs, H, brk⟩ := p
      rw [hA] at h
      simp only at h
      have ht : 0 < tryStep a st brk := by
        cases brk with
        | none => exact lt_min (by linarith) g.new
        | some j => exact sub_pos.mpr hlt
      have hle : tryStep a st brk ≤ a.tOut - st.tNow := by
        cases brk with
        | none => exact min_le_left _ _
        | some j => exact le_rfl
      have hav : 0 ≤ (passEntry a st vs brk).avnorm := by
        have := g.av
        cases brk with
        | none => unfold passEntry; split_ifs <;> simp only <;> positivity
        | some j => exact this
      have hnow : (passEntry a st vs brk).tNow = st.tNow := by
        cases brk <;> simp only [passEntry]
        split_ifs <;> rfl
      have htimes : (passEntry a st vs brk).times = st.times := by
        cases brk <;> simp only [passEntry]
        split_ifs <;> rfl
      have hstep : (passEntry a st vs brk).nstep = st.nstep + 1 := by
        cases brk <;> simp only [passEntry]
        split_ifs <;> rfl
      cases hacc : accept a.expm a.m (passEntry a st vs brk).k1 (passEntry a st vs brk).mb (setEntry H (a.m + 1) a.m 1) a.sgn ‖st.w‖
          (passEntry a st vs brk).avnorm a.tol fuel (tryStep a st brk) st.xm with
      | none => rw [hacc] at h; simp at h
      | some q =>
        obtain ⟨s1, s2⟩ := accept_spec hm (norm_nonneg _) hav htol fuel _ _ ht g.xm q hacc
        rw [hacc] at h
        cases q with
        | error e =>
          simp only [Option.some.injEq] at h
          subst h
          exact ⟨fun _ h => by simp at h, fun e' h => by injection h with h; subst h; exact Or.inr ⟨(s2 e rfl).1, (s2 e rfl).2.1⟩⟩
        | ok q =>
          obtain ⟨t, E, err, xm⟩ := q
          simp only [Option.some.injEq] at h
          subst h
          obtain ⟨t1, t2, t3, t4, t5, t6, t7⟩ := s1 t E err xm rfl
          refine ⟨fun st' h => ?_, fun e h => ?_⟩
          · unfold finish at h
            split_ifs at h with hz
            injection h with h
            subst h
            refine ⟨⟨?_, ?_, ?_, ?_, ?_, t5, hav⟩, hstep, ⟨t, t1, by simp only [htimes]⟩, ?_⟩
            · simp only [htimes, hnow, List.sum_append, g.sum, List.sum_cons, List.sum_nil, add_zero]
            · intro x hx
              simp only [htimes, List.mem_append, List.mem_singleton] at hx
              rcases hx with hx | rfl
              · exact g.pos x hx
              · exact t1
            · simp only [htimes, hstep, List.length_append, List.length_singleton, g.len]
            · simp only [hnow]; linarith
            · exact nextStep_pos t1 htol (lt_of_le_of_ne t4 (Ne.symm hz))
            · intro hb hb0
              cases brk with
              | none =>
                exfalso
                simp only [passEntry, hb0] at hb
                simp at hb
              | some j =>
                have := (t6 rfl).1
                simp only [hnow, this, tryStep]
                ring
          · unfold finish at h
            split_ifs at h
            injection h with h
            exact Or.inl h.symm

theorem outer_spec {a : Args V} (hm : 0 < a.m) (htol : 0 < a.tol) {mxstep : ℕ} : ∀ (fuel : ℕ) (st : St V), ExpInv a st →
    (st.tNow < a.tOut → mxstep = 0 ∨ st.nstep < mxstep) → ∀ r, outer a mxstep fuel st = some r →
    (∀ st', r = .ok st' → ExpInv a st' ∧ st.nstep ≤ st'.nstep ∧ (st'.tNow = a.tOut ∨ (mxstep ≠ 0 ∧ st'.nstep = mxstep)) ∧
      (mxstep = 0 ∨ st'.nstep ≤ max st.nstep mxstep)) ∧
    (∀ e, r = .error e → e = .nan ∨ (e = .zerodiv ∧ a.m = 1)) := by
  intro fuel
  induction fuel with
  | zero => intro st _ _ r h; simp [outer] at h
  | succ f ih =>
    intro st g hst r h
    rw [outer] at h
    split_ifs at h with hlt
    · cases hp : pass a f st with
      | none => rw [hp] at h; simp at h
      | some q =>
        obtain ⟨p1, p2⟩ := pass_spec hm htol g hlt hp
        rw [hp] at h
        cases q with
        | error e =>
          simp only [Option.some.injEq] at h
          subst h
          exact ⟨fun _ h => by simp at h, p2⟩
        | ok st1 =>
          obtain ⟨g1, n1, -, -⟩ := p1 st1 rfl
          simp only at h
          have h3 := hst hlt
          split_ifs at h with hc
          · obtain ⟨i1, i2⟩ := ih st1 g1 (fun _ => hc) r h
            refine ⟨fun st' hr => ?_, i2⟩
            obtain ⟨j1, j2, j3, j4⟩ := i1 st' hr
            refine ⟨j1, by omega, j3, ?_⟩
            rcases hc with hc | hc
            · exact Or.inl hc
            · rcases j4 with j4 | j4
              · exact Or.inl j4
              · exact Or.inr (by omega)
          · simp only [Option.some.injEq] at h
            subst h
            refine ⟨fun st' hr => ?_, fun e h => by simp at h⟩
            injection hr with hr
            subst hr
            push Not at hc
            exact ⟨g1, by omega, Or.inr ⟨hc.1, by omega⟩, Or.inr (by omega)⟩
    · simp only [Option.some.injEq] at h
      subst h
      refine ⟨fun st' hr => ?_, fun e h => by simp at h⟩
      injection hr with hr
      subst hr
      exact ⟨g, le_rfl, Or.inl (le_antisymm g.now (not_lt.mp hlt)), Or.inr (le_max_left _ _)⟩

/-! ## C54 -/

/-- The Krylov dimension that is used: the argument, or the smaller of 20 and `n-1`. -/
def krylovDim (n : ℕ) (m : Option ℤ) : ℤ := m.getD (min 20 (n - 1))

theorem checkArgs_ok {n : ℕ} {m : Option ℤ} (h1 : 1 ≤ krylovDim n m) (h2 : krylovDim n m < n) :
    checkArgs [n, n] m = .ok (krylovDim n m).toNat := by
  simp only [checkArgs, ne_eq, not_true, if_false]
  unfold krylovDim at *
  rw [if_neg (by omega)]

/-- The arguments of the loop. -/
abbrev theArgs (matvec : V → V) (expm : Mat ℂ → Mat ℂ) (m : ℕ) (eps tol anorm t : ℝ) (btol : Option ℝ) : Args V :=
  ⟨matvec, expm, m, tolOf eps tol, btol.getD (anorm * tol), if 0 ≤ t then 1 else -1, |t|⟩

abbrev theStart (v : V) (t1 : ℝ) (m : ℕ) : St V := ⟨v, 0, t1, 1 / (m : ℝ), 0, 2, false, m, 0, []⟩

omit [NormedAddCommGroup V] [InnerProductSpace ℂ V] in
theorem good_start {a : Args V} {v : V} {t1 : ℝ} {m : ℕ} (hm : 0 < m) (ht : 0 ≤ a.tOut) (h1 : 0 < t1) : ExpInv a (theStart v t1 m) where
  sum := rfl
  pos := by intro t h; simp at h
  len := rfl
  now := ht
  new := h1
  xm := by have : (0 : ℝ) < m := by exact_mod_cast hm
           exact one_div_pos.mpr this
  av := le_rfl

/-- **C54 (arguments).**  Apart from scalars (no dimension at all) every operator that is not square and every `m` outside
`1<=m<n` is rejected with a ValueError; no accepted input raises a ValueError. -/
theorem C54_args (expm : Mat ℂ → Mat ℂ) {eps : ℝ} (he : 0 < eps) {shape : List ℕ} (hs : shape ≠ []) (matvec : V → V) (v : V)
    (t : ℝ) {anorm : ℝ} (ha : 0 < anorm) (m : Option ℤ) (tol : ℝ) (mxstep : ℕ) (btol : Option ℝ) (fuel : ℕ) :
    ((∃ n, shape = [n, n] ∧ 1 ≤ krylovDim n m ∧ krylovDim n m < n) →
      gexpmv expm eps shape matvec v t anorm m tol mxstep btol fuel ≠ some (.error .value)) ∧
    ((¬ ∃ n, shape = [n, n] ∧ 1 ≤ krylovDim n m ∧ krylovDim n m < n) →
      gexpmv expm eps shape matvec v t anorm m tol mxstep btol fuel = some (.error .value)) := by
  constructor
  · rintro ⟨n, rfl, h1, h2⟩ h
    unfold gexpmv at h
    rw [checkArgs_ok h1 h2] at h
    simp only at h
    have hm : 0 < (krylovDim n m).toNat := by omega
    generalize (krylovDim n m).toNat = k at h hm
    cases h3 : firstStep k (tolOf eps tol) anorm ‖v‖ with
    | error e =>
      rw [h3] at h
      simp only [Option.some.injEq, Except.error.injEq] at h
      subst h
      unfold firstStep at h3
      split_ifs at h3 <;> simp at h3
    | ok t1 =>
      rw [h3] at h
      simp only at h
      obtain ⟨h4, -⟩ := firstStep_pos (tolOf_pos he) ha (norm_nonneg _) h3
      cases h5 : outer (theArgs matvec expm k eps tol anorm t btol) mxstep fuel (theStart v t1 k) with
      | none => rw [h5] at h; simp at h
      | some r =>
        rw [h5] at h
        cases r with
        | ok st => simp at h
        | error e =>
          simp only [Option.some.injEq, Except.error.injEq] at h
          subst h
          have h6 := (outer_spec (mxstep := mxstep) hm (tolOf_pos he) fuel _ (good_start hm (abs_nonneg t) h4)
            (fun _ => by simp only; omega) _ h5).2 _ rfl
          simp at h6
  · intro hn
    obtain ⟨n, rest, rfl⟩ := List.exists_cons_of_ne_nil hs
    have : checkArgs (n :: rest) m = .error .value := by
      unfold checkArgs
      simp only
      split_ifs with h1 h2
      · rfl
      · rfl
      · exfalso
        push Not at h1 h2
        refine hn ⟨n, by rw [h1], ?_, ?_⟩ <;> unfold krylovDim <;> omega
    unfold gexpmv
    rw [this]

/-- **C54 (time).**  The accepted steps are positive and add up to at most `|t|`; they add up to `|t|` unless the number of
steps reached `mxstep`, which is never exceeded (zero means no limit).  The flag is set only if the full time was covered. -/
theorem C54_time_partial (expm : Mat ℂ → Mat ℂ) {eps : ℝ} (he : 0 < eps) {shape : List ℕ} (matvec : V → V) (v : V) (t : ℝ) {anorm : ℝ}
    (ha : 0 < anorm) (m : Option ℤ) (tol : ℝ) (mxstep : ℕ) (btol : Option ℝ) (fuel : ℕ) {o : Out V}
    (h : gexpmv expm eps shape matvec v t anorm m tol mxstep btol fuel = some (.ok o)) :
    (∀ s ∈ o.times, 0 < s) ∧ o.times.length = o.nstep ∧ o.times.sum ≤ |t| ∧ (mxstep = 0 ∨ o.nstep ≤ mxstep) ∧
      (o.times.sum = |t| ∨ (mxstep ≠ 0 ∧ o.nstep = mxstep)) ∧ (o.flag = true ↔ o.nstep < mxstep) ∧
      (o.flag = true → o.times.sum = |t|) := by
  unfold gexpmv at h
  cases hc : checkArgs shape m with
  | error e => rw [hc] at h; simp at h
  | ok k =>
    rw [hc] at h
    simp only at h
    have hm : 0 < k := by
      unfold checkArgs at hc
      cases shape with
      | nil => simp at hc
      | cons n rest =>
        simp only at hc
        split_ifs at hc with h1 h2
        injection hc with hc
        push Not at h2
        omega
    cases h3 : firstStep k (tolOf eps tol) anorm ‖v‖ with
    | error e => rw [h3] at h; simp at h
    | ok t1 =>
      rw [h3] at h
      simp only at h
      obtain ⟨h4, -⟩ := firstStep_pos (tolOf_pos he) ha (norm_nonneg _) h3
      cases h5 : outer (theArgs matvec expm k eps tol anorm t btol) mxstep fuel (theStart v t1 k) with
      | none => rw [h5] at h; simp at h
      | some r =>
        rw [h5] at h
        cases r with
        | error e => simp at h
        | ok st =>
          simp only [Option.some.injEq, Except.ok.injEq] at h
          subst h
          obtain ⟨g, -, h6, h7⟩ := (outer_spec (mxstep := mxstep) hm (tolOf_pos he) fuel _ (good_start hm (abs_nonneg t) h4)
            (fun _ => by simp only; omega) _ h5).1 _ rfl
          simp only [Nat.zero_max] at h7
          have h8 : st.times.sum = st.tNow := g.sum
          refine ⟨g.pos, g.len, h8.trans_le g.now, h7, ?_, decide_eq_true_iff, fun hfl => ?_⟩
          · rw [h8]; exact h6
          · have := decide_eq_true_iff.mp hfl
            rcases h6 with h6 | h6
            · rw [h8]; exact h6
            · omega

/-! ## The Arnoldi process -/

theorem project_snoc (vs : List V) (v x : V) : project (vs ++ [v]) x
    = ((project vs x).1 ++ [inner ℂ v (project vs x).2], (project vs x).2 - (inner ℂ v (project vs x).2) • v) := by
  simp [project, List.foldl_append]

/-- With orthonormal vectors the loop returns all overlaps and subtracts the projection. -/
theorem project_eq : ∀ (vs : List V), (∀ i < vs.length, ∀ k < vs.length, inner ℂ (vs.getD i 0) (vs.getD k 0) = delta ℂ i k) →
    ∀ x, (project vs x).1 = vs.map (fun v => inner ℂ v x) ∧
      (project vs x).2 = x - ∑ a ∈ range vs.length, (inner ℂ (vs.getD a 0) x) • vs.getD a 0 := by
  intro vs
  induction vs using List.reverseRecOn with
  | nil => intro _ x; simp [project]
  | append_singleton vs v ih =>
    intro h x
    have hlt : ∀ i < vs.length, (vs ++ [v]).getD i 0 = vs.getD i 0 := fun i hi => getD_snoc_lt v 0 hi
    have hlast : (vs ++ [v]).getD vs.length 0 = v := getD_snoc_eq v 0 rfl
    have hlen : (vs ++ [v]).length = vs.length + 1 := by simp
    obtain ⟨h1, h2⟩ := ih (fun i hi k hk => by
      have := h i (by omega) k (by omega)
      rwa [hlt i hi, hlt k hk] at this) x
    have h3 : inner ℂ v (project vs x).2 = inner ℂ v x := by
      rw [h2, inner_sub_right, inner_sum, sum_eq_zero, sub_zero]
      intro a ha
      have := h vs.length (by omega) a (by have := mem_range.mp ha; omega)
      rw [hlast, hlt a (mem_range.mp ha)] at this
      rw [inner_smul_right, this, delta_ne (by have := mem_range.mp ha; omega), mul_zero]
    rw [project_snoc, h3, h1, h2, hlen, sum_range_succ, hlast]
    refine ⟨by simp, ?_⟩
    have e : ∑ a ∈ range vs.length, (inner ℂ ((vs ++ [v]).getD a 0) x) • (vs ++ [v]).getD a 0
        = ∑ a ∈ range vs.length, (inner ℂ (vs.getD a 0) x) • vs.getD a 0 :=
      sum_congr rfl fun a ha => by rw [hlt a (mem_range.mp ha)]
    rw [e]
    exact sub_sub _ _ _

/-- The Arnoldi relation after `j-1` passes. -/
structure Arn (A : V →ₗ[ℂ] V) (vs : List V) (H : ℕ → ℕ → ℂ) (j : ℕ) : Prop where
  len : vs.length = j
  orth : ∀ i < vs.length, ∀ k < vs.length, inner ℂ (vs.getD i 0) (vs.getD k 0) = delta ℂ i k
  recur : ∀ b, b + 1 < j → A (vs.getD b 0) = ∑ a ∈ range j, H a b • vs.getD a 0
  hess : ∀ a b, b + 1 < a → H a b = 0
  zero : ∀ a b, j ≤ b + 1 → H a b = 0
  sub : ∀ b, b + 1 < j → ∃ h : ℝ, 0 < h ∧ H (b + 1) b = h

/-- One pass of the Arnoldi loop: the column of the small matrix, and the remaining vector. -/
theorem arn_col {A : V →ₗ[ℂ] V} {vs : List V} {H : ℕ → ℕ → ℂ} {j : ℕ} (h : Arn A vs H j) (hj : 1 ≤ j) :
    A (vs.getD (j - 1) 0) = ∑ a ∈ range j, setCol H (j - 1) (project vs (A (vs.getD (j - 1) 0))).1 a (j - 1) • vs.getD a 0
      + (project vs (A (vs.getD (j - 1) 0))).2 ∧
    (∀ i < j, inner ℂ (vs.getD i 0) (project vs (A (vs.getD (j - 1) 0))).2 = 0) ∧
    (∀ a b, b ≠ j - 1 → setCol H (j - 1) (project vs (A (vs.getD (j - 1) 0))).1 a b = H a b) ∧
    (∀ a, j ≤ a → setCol H (j - 1) (project vs (A (vs.getD (j - 1) 0))).1 a (j - 1) = 0) := by
  obtain ⟨h1, h2⟩ := project_eq vs h.orth (A (vs.getD (j - 1) 0))
  generalize A (vs.getD (j - 1) 0) = x at h1 h2
  have hl : (project vs x).1.length = j := by rw [h1, List.length_map, h.len]
  refine ⟨?_, ?_, ?_, ?_⟩
  · rw [h2, h.len]
    have : ∀ a ∈ range j, setCol H (j - 1) (project vs x).1 a (j - 1) • vs.getD a 0 = (inner ℂ (vs.getD a 0) x) • vs.getD a 0 := by
      intro a ha
      have ha' := mem_range.mp ha
      unfold setCol
      rw [if_pos ⟨rfl, by omega⟩, h1]
      congr 1
      simp [List.getD_eq_getElem?_getD, List.getElem?_map, List.getElem?_eq_getElem (show a < vs.length by rw [h.len]; exact ha')]
    rw [sum_congr rfl this]
    abel
  · intro i hi
    rw [h2, h.len, inner_sub_right, inner_sum]
    have : ∀ a ∈ range j, inner ℂ (vs.getD i 0) ((inner ℂ (vs.getD a 0) x) • vs.getD a 0) = delta ℂ i a * inner ℂ (vs.getD a 0) x := by
      intro a ha
      rw [inner_smul_right, h.orth i (by rw [h.len]; exact hi) a (by rw [h.len]; exact mem_range.mp ha), mul_comm]
    rw [sum_congr rfl this, sum_delta_left hi (fun a => inner ℂ (vs.getD a 0) x), sub_self]
  · intro a b hb
    unfold setCol
    rw [if_neg (fun hc => hb hc.1)]
  · intro a ha
    unfold setCol
    rw [if_neg (by omega)]
    exact h.zero a (j - 1) (by omega)

theorem arn_next {A : V →ₗ[ℂ] V} {vs : List V} {H : ℕ → ℕ → ℂ} {j : ℕ} (h : Arn A vs H j) (hj : 1 ≤ j)
    (hy : ‖(project vs (A (vs.getD (j - 1) 0))).2‖ ≠ 0) :
    Arn A (vs ++ [((1 / ‖(project vs (A (vs.getD (j - 1) 0))).2‖ : ℝ) : ℂ) • (project vs (A (vs.getD (j - 1) 0))).2])
      (setEntry (setCol H (j - 1) (project vs (A (vs.getD (j - 1) 0))).1) j (j - 1)
        ((‖(project vs (A (vs.getD (j - 1) 0))).2‖ : ℝ) : ℂ)) (j + 1) := by
  obtain ⟨c1, c2, c3, c4⟩ := arn_col h hj
  generalize setCol H (j - 1) (project vs (A (vs.getD (j - 1) 0))).1 = G at *
  generalize (project vs (A (vs.getD (j - 1) 0))).2 = y at *
  have hlt : ∀ i < j, (vs ++ [((1 / ‖y‖ : ℝ) : ℂ) • y]).getD i 0 = vs.getD i 0 := fun i hi => getD_snoc_lt _ 0 (by rw [h.len]; exact hi)
  have hlast : (vs ++ [((1 / ‖y‖ : ℝ) : ℂ) • y]).getD j 0 = ((1 / ‖y‖ : ℝ) : ℂ) • y := getD_snoc_eq _ 0 h.len.symm
  generalize hws : vs ++ [((1 / ‖y‖ : ℝ) : ℂ) • y] = ws at *
  have hlen : ws.length = j + 1 := by rw [← hws]; simp [h.len]
  have hself : inner ℂ (((1 / ‖y‖ : ℝ) : ℂ) • y) (((1 / ‖y‖ : ℝ) : ℂ) • y) = (1 : ℂ) := by
    rw [inner_self_eq_norm_sq_to_K, norm_smul, Complex.norm_real, Real.norm_of_nonneg (by positivity), one_div_mul_cancel hy]
    simp
  refine ⟨hlen, ?_, ?_, ?_, ?_, ?_⟩
  · intro i hi k hk
    rw [hlen] at hi hk
    rcases Nat.lt_or_ge i j with h1 | h1 <;> rcases Nat.lt_or_ge k j with h2 | h2
    · rw [hlt i h1, hlt k h2]; exact h.orth i (by rw [h.len]; exact h1) k (by rw [h.len]; exact h2)
    · obtain rfl : k = j := by omega
      rw [hlt i h1, hlast, inner_smul_right, c2 i h1, mul_zero, delta_ne (by omega)]
    · obtain rfl : i = j := by omega
      rw [hlt k h2, hlast, inner_smul_left, ← inner_conj_symm, c2 k h2, map_zero, mul_zero, delta_ne (by omega)]
    · obtain rfl : i = j := by omega
      obtain rfl : k = i := by omega
      rw [hlast, hself]; simp [delta]
  · intro b hb
    rw [sum_range_succ]
    rcases Nat.lt_or_ge (b + 1) j with h1 | h1
    · rw [hlt b (by omega), h.recur b h1]
      have e1 : setEntry G j (j - 1) ((‖y‖ : ℝ) : ℂ) j b = 0 := by
        unfold setEntry; rw [if_neg (by omega), c3 j b (by omega)]; exact h.hess j b (by omega)
      rw [e1, zero_smul, add_zero]
      refine sum_congr rfl fun a ha => ?_
      unfold setEntry
      rw [if_neg (by omega), c3 a b (by omega), hlt a (mem_range.mp ha)]
    · obtain rfl : b = j - 1 := by omega
      rw [hlt (j - 1) (by omega), c1]
      congr 1
      · refine sum_congr rfl fun a ha => ?_
        have := mem_range.mp ha
        unfold setEntry
        rw [if_neg (by omega), hlt a this]
      · unfold setEntry
        rw [if_pos ⟨rfl, rfl⟩, hlast, smul_smul, ← Complex.ofReal_mul, mul_one_div_cancel hy, Complex.ofReal_one, one_smul]
  · intro a b hab
    unfold setEntry
    rw [if_neg (by omega)]
    by_cases hb : b = j - 1
    · subst hb; exact c4 a (by omega)
    · rw [c3 a b hb]; exact h.hess a b hab
  · intro a b hb
    unfold setEntry
    rw [if_neg (by omega), c3 a b (by omega)]
    exact h.zero a b (by omega)
  · intro b hb
    rcases Nat.lt_or_ge (b + 1) j with h1 | h1
    · obtain ⟨r, hr, hr2⟩ := h.sub b h1
      refine ⟨r, hr, ?_⟩
      unfold setEntry
      rw [if_neg (by omega), c3 (b + 1) b (by omega), hr2]
    · refine ⟨‖y‖, lt_of_le_of_ne (norm_nonneg _) (Ne.symm hy), ?_⟩
      unfold setEntry
      rw [if_pos (by omega)]

/-- The result of the Arnoldi loop. -/
theorem arnoldi_spec {A : V →ₗ[ℂ] V} {btol : ℝ} : ∀ (rem j : ℕ) (vs : List V) (H : ℕ → ℕ → ℂ), 1 ≤ j → Arn A vs H j →
    ∀ us G brk, arnoldi A btol rem j vs H = .ok (us, G, brk) →
    (brk = none → Arn A us G (j + rem)) ∧
    (∀ k, brk = some k → j ≤ k ∧ k < j + rem ∧ us.length = k ∧ (∀ i < us.length, ∀ l < us.length, inner ℂ (us.getD i 0) (us.getD l 0) = delta ℂ i l) ∧
      us.getD 0 0 = vs.getD 0 0 ∧
      ∃ y : V, ‖y‖ ≤ btol ∧ ∀ b < k, A (us.getD b 0) = ∑ a ∈ range k, G a b • us.getD a 0 + if b + 1 = k then y else 0) ∧
    us.getD 0 0 = vs.getD 0 0 := by
  intro rem
  induction rem with
  | zero =>
    intro j vs H hj h us G brk he
    simp only [arnoldi, Except.ok.injEq, Prod.mk.injEq] at he
    obtain ⟨rfl, rfl, rfl⟩ := he
    exact ⟨fun _ => h, fun k hk => by simp at hk, rfl⟩
  | succ n ih =>
    intro j vs H hj h us G brk he
    rw [arnoldi] at he
    obtain ⟨c1, c2, c3, c4⟩ := arn_col h hj
    split_ifs at he with h1 h2
    · simp only [Except.ok.injEq, Prod.mk.injEq] at he
      obtain ⟨rfl, rfl, rfl⟩ := he
      refine ⟨fun hb => by simp at hb, fun k hk => ?_, rfl⟩
      injection hk with hk
      subst hk
      refine ⟨le_rfl, by omega, h.len, h.orth, rfl, _, h1, fun b hb => ?_⟩
      rcases Nat.lt_or_ge (b + 1) j with h3 | h3
      · rw [if_neg (by omega), add_zero, h.recur b h3]
        exact sum_congr rfl fun a _ => by rw [c3 a b (by omega)]
      · obtain rfl : b = j - 1 := by omega
        rw [if_pos (by omega)]
        exact c1
    · obtain ⟨i1, i2, i3⟩ := ih (j + 1) _ _ (by omega) (arn_next h hj h2) us G brk he
      have h0 : (vs ++ [((1 / ‖(project vs (A (vs.getD (j - 1) 0))).2‖ : ℝ) : ℂ) • (project vs (A (vs.getD (j - 1) 0))).2]).getD 0 0
          = vs.getD 0 0 := getD_snoc_lt _ 0 (by rw [h.len]; omega)
      rw [h0] at i3
      refine ⟨fun hb => by rw [show j + (n + 1) = j + 1 + n by omega]; exact i1 hb, fun k hk => ?_, i3⟩
      obtain ⟨k1, k2, k3, k4, k5, k6⟩ := i2 k hk
      exact ⟨by omega, by omega, k3, k4, i3, k6⟩

/-! ## The exponential of the small matrix -/

/-- The block of a matrix with infinitely many rows and columns. -/
def blockOf (k : ℕ) (G : ℕ → ℕ → ℂ) : Matrix (Fin k) (Fin k) ℂ := fun i j => G i j

theorem expH_hasSum {expm : Mat ℂ → Mat ℂ} (hX : ExpmSpec expm) (k : ℕ) (G : ℕ → ℕ → ℂ) (s : ℝ) (i j : Fin k) :
    HasSum (fun n : ℕ => (s : ℂ) ^ n * (((n.factorial : ℂ)⁻¹) * (blockOf k G ^ n) i j)) ((expH expm k G s).v i j) := by
  have h := hX ⟨k, k, fun i j => (s : ℂ) * G i j⟩ rfl i j
  have e : (Mat.sq ⟨k, k, fun i j => (s : ℂ) * G i j⟩ : Matrix (Fin k) (Fin k) ℂ) = (s : ℂ) • blockOf k G := by ext a b; rfl
  have e2 : (fun n : ℕ => (s : ℂ) ^ n * (((n.factorial : ℂ)⁻¹) * (blockOf k G ^ n) i j))
      = fun n : ℕ => ((n.factorial : ℂ)⁻¹) * (((s : ℂ) • blockOf k G) ^ n) i j := by
    funext n
    rw [smul_pow, Matrix.smul_apply, smul_eq_mul]
    ring
  rw [e2]
  exact e ▸ h

/-- Powers of the operator on an invariant space. -/
theorem pow_arn {A : V →ₗ[ℂ] V} {us : List V} {G : ℕ → ℕ → ℂ} {k : ℕ} (hk : 0 < k)
    (h : ∀ b < k, A (us.getD b 0) = ∑ a ∈ range k, G a b • us.getD a 0) (n : ℕ) :
    (A ^ n) (us.getD 0 0) = ∑ i : Fin k, (blockOf k G ^ n) i ⟨0, hk⟩ • us.getD i 0 := by
  induction n with
  | zero =>
    rw [pow_zero, pow_zero, sum_eq_single ⟨0, hk⟩]
    · simp
    · intro b _ hb; rw [Matrix.one_apply_ne hb, zero_smul]
    · intro hn; exact absurd (mem_univ _) hn
  | succ m ih =>
    rw [pow_succ', Module.End.mul_apply, ih, map_sum]
    have : ∀ j ∈ (univ : Finset (Fin k)), A ((blockOf k G ^ m) j ⟨0, hk⟩ • us.getD j 0)
        = ∑ i : Fin k, (blockOf k G i j * (blockOf k G ^ m) j ⟨0, hk⟩) • us.getD i 0 := by
      intro j _
      rw [map_smul, h j j.2, Finset.sum_range, smul_sum]
      exact sum_congr rfl fun i _ => by rw [smul_smul, mul_comm]; rfl
    rw [sum_congr rfl this, sum_comm]
    refine sum_congr rfl fun i _ => ?_
    rw [← sum_smul, pow_succ', Matrix.mul_apply]

theorem exp_arn {expm : Mat ℂ → Mat ℂ} (hX : ExpmSpec expm) {A : V →ₗ[ℂ] V} {us : List V} {G : ℕ → ℕ → ℂ} {k : ℕ} (hk : 0 < k)
    (h : ∀ b < k, A (us.getD b 0) = ∑ a ∈ range k, G a b • us.getD a 0) (s : ℝ) :
    HasSum (fun n : ℕ => ((s : ℂ) ^ n * (n.factorial : ℂ)⁻¹) • (A ^ n) (us.getD 0 0))
      (∑ i ∈ range k, (expH expm k G s).v i 0 • us.getD i 0) := by
  rw [Finset.sum_range]
  have h1 : HasSum (fun n : ℕ => ∑ i : Fin k, ((s : ℂ) ^ n * (((n.factorial : ℂ)⁻¹) * (blockOf k G ^ n) i ⟨0, hk⟩)) • us.getD i 0)
      (∑ i : Fin k, (expH expm k G s).v i 0 • us.getD i 0) :=
    hasSum_sum fun i _ => (expH_hasSum hX k G s i ⟨0, hk⟩).smul_const (us.getD i 0)
  have h2 : (fun n : ℕ => ((s : ℂ) ^ n * (n.factorial : ℂ)⁻¹) • (A ^ n) (us.getD 0 0))
      = fun n : ℕ => ∑ i : Fin k, ((s : ℂ) ^ n * (((n.factorial : ℂ)⁻¹) * (blockOf k G ^ n) i ⟨0, hk⟩)) • us.getD i 0 := by
    funext n
    rw [pow_arn hk h n, smul_sum]
    exact sum_congr rfl fun i _ => by rw [smul_smul]; congr 1; ring
  rw [h2]
  exact h1

/-- The passEntry of the exponential of an upper Hessenberg matrix in the first column. -/
theorem hess_pow {k : ℕ} {G : ℕ → ℕ → ℂ} (hG : ∀ a b, b + 1 < a → G a b = 0) (hk : 0 < k) (n : ℕ) (i : Fin k) :
    (n < i → (blockOf k G ^ n) i ⟨0, hk⟩ = 0) ∧ (n = i → (blockOf k G ^ n) i ⟨0, hk⟩ = ∏ b ∈ range n, G (b + 1) b) := by
  induction n generalizing i with
  | zero =>
    refine ⟨fun h => ?_, fun h => ?_⟩
    · rw [pow_zero, Matrix.one_apply_ne (by intro h'; rw [h'] at h; simp at h)]
    · have : i = ⟨0, hk⟩ := Fin.ext h.symm
      rw [this, pow_zero, Matrix.one_apply_eq, range_zero, prod_empty]
  | succ n ih =>
    have e : (blockOf k G ^ (n + 1)) i ⟨0, hk⟩ = ∑ j : Fin k, G i j * (blockOf k G ^ n) j ⟨0, hk⟩ := by
      rw [pow_succ', Matrix.mul_apply]; rfl
    refine ⟨fun h => ?_, fun h => ?_⟩
    · rw [e]
      refine sum_eq_zero fun j _ => ?_
      rcases Nat.lt_or_ge n j with h1 | h1
      · rw [(ih j).1 h1, mul_zero]
      · rw [hG i j (by omega), zero_mul]
    · rw [e, sum_eq_single ⟨n, by omega⟩]
      · rw [(ih ⟨n, by omega⟩).2 rfl, prod_range_succ, ← h, mul_comm]
      · intro j _ hj
        have hj' : (j : ℕ) ≠ n := fun h' => hj (Fin.ext h')
        rcases Nat.lt_or_ge n j with h1 | h1
        · rw [(ih j).1 h1, mul_zero]
        · rw [hG i j (by omega), zero_mul]
      · intro hn; exact absurd (mem_univ _) hn

/-- The leading term of that passEntry for small times. -/
theorem expH_leading {expm : Mat ℂ → Mat ℂ} (hX : ExpmSpec expm) {k : ℕ} {G : ℕ → ℕ → ℂ} (hG : ∀ a b, b + 1 < a → G a b = 0) {i : ℕ} (hi : i < k) :
    ∃ C : ℝ, 0 ≤ C ∧ ∀ s : ℝ, |s| ≤ 1 →
      ‖(expH expm k G s).v i 0 - (s : ℂ) ^ i * (((i.factorial : ℂ)⁻¹) * ∏ b ∈ range i, G (b + 1) b)‖ ≤ C * |s| ^ (i + 1) := by
  have hk : 0 < k := by omega
  let c : ℕ → ℂ := fun n => ((n.factorial : ℂ)⁻¹) * (blockOf k G ^ n) ⟨i, hi⟩ ⟨0, hk⟩
  have h1 : Summable c := by
    have := (expH_hasSum hX k G 1 ⟨i, hi⟩ ⟨0, hk⟩).summable
    simpa using this
  have hn : Summable fun n => ‖c n‖ := h1.norm
  refine ⟨∑' n, ‖c (n + (i + 1))‖, tsum_nonneg fun _ => norm_nonneg _, fun s hs => ?_⟩
  have h2 := expH_hasSum hX k G s ⟨i, hi⟩ ⟨0, hk⟩
  have h3 := (hasSum_nat_add_iff' (i + 1)).mpr h2
  have h4 : ∑ n ∈ range (i + 1), (s : ℂ) ^ n * c n = (s : ℂ) ^ i * (((i.factorial : ℂ)⁻¹) * ∏ b ∈ range i, G (b + 1) b) := by
    rw [sum_range_succ, sum_eq_zero, zero_add]
    · simp only [c]; rw [(hess_pow hG hk i ⟨i, hi⟩).2 rfl]
    · intro n hn
      simp only [c]; rw [(hess_pow hG hk n ⟨i, hi⟩).1 (mem_range.mp hn), mul_zero, mul_zero]
  change HasSum (fun n => (s : ℂ) ^ (n + (i + 1)) * c (n + (i + 1))) ((expH expm k G s).v i 0 - ∑ n ∈ range (i + 1), (s : ℂ) ^ n * c n) at h3
  rw [h4] at h3
  rw [← h3.tsum_eq, ← tsum_mul_right]
  have hsum : Summable fun n => ‖c (n + (i + 1))‖ * |s| ^ (i + 1) := ((summable_nat_add_iff (i + 1)).mpr hn).mul_right _
  refine tsum_of_norm_bounded hsum.hasSum fun n => ?_
  rw [norm_mul, norm_pow, Complex.norm_real, Real.norm_eq_abs, mul_comm, pow_add]
  have : |s| ^ n ≤ 1 := pow_le_one₀ (abs_nonneg s) hs
  have h5 : 0 ≤ |s| ^ (i + 1) := by positivity
  have h6 : |s| ^ n * |s| ^ (i + 1) ≤ |s| ^ (i + 1) := by nlinarith
  gcongr

/-! ## Termination -/

/-- For small steps the error estimate is below the tolerance. -/
theorem accept_small {expm : Mat ℂ → Mat ℂ} (hX : ExpmSpec expm) {m : ℕ} (hm : 0 < m) {H : ℕ → ℕ → ℂ} (hH : ∀ a b, b + 1 < a → H a b = 0)
    (hs : ∀ b ≤ m, H (b + 1) b ≠ 0) {sgn beta avnorm tol : ℝ} (hsgn : |sgn| = 1) (hb : 0 < beta) (ha : 0 ≤ avnorm) (htol : 0 < tol) :
    ∃ d > 0, ∀ t, 0 < t → t < d →
      10 * (‖(expH expm (m + 2) H (sgn * t)).v (m + 1) 0‖ * beta * avnorm) < ‖(expH expm (m + 2) H (sgn * t)).v m 0‖ * beta ∧
      ‖(expH expm (m + 2) H (sgn * t)).v (m + 1) 0‖ * beta * avnorm ≤ 1.2 * t * tol := by
  obtain ⟨C, hC, h1⟩ := expH_leading hX hH (k := m + 2) (i := m) (by omega)
  obtain ⟨D, hD, h2⟩ := expH_leading hX hH (k := m + 2) (i := m + 1) (by omega)
  set c : ℝ := ‖((m.factorial : ℂ)⁻¹) * ∏ b ∈ range m, H (b + 1) b‖ with hc
  set e : ℝ := ‖(((m + 1).factorial : ℂ)⁻¹) * ∏ b ∈ range (m + 1), H (b + 1) b‖ with he
  have hc0 : 0 < c := by
    rw [hc, norm_pos_iff]
    refine mul_ne_zero (inv_ne_zero (by exact_mod_cast m.factorial_ne_zero)) ?_
    exact prod_ne_zero_iff.mpr fun b hb => hs b (by have := mem_range.mp hb; omega)
  have he0 : 0 ≤ e := norm_nonneg _
  -- the thresholds
  refine ⟨min 1 (min (c / (C + 10 * (e + D) * avnorm + 1)) (1.2 * tol / ((e + D) * beta * avnorm + 1))), ?_, fun t ht htd => ?_⟩
  · positivity
  have t1 : t < 1 := htd.trans_le (min_le_left _ _)
  have t2 : t < c / (C + 10 * (e + D) * avnorm + 1) := htd.trans_le ((min_le_right _ _).trans (min_le_left _ _))
  have t3 : t < 1.2 * tol / ((e + D) * beta * avnorm + 1) := htd.trans_le ((min_le_right _ _).trans (min_le_right _ _))
  rw [lt_div_iff₀ (by positivity)] at t2 t3
  have habs : |sgn * t| = t := by rw [abs_mul, hsgn, one_mul, abs_of_pos ht]
  have k1 := h1 (sgn * t) (by rw [habs]; exact t1.le)
  have k2 := h2 (sgn * t) (by rw [habs]; exact t1.le)
  rw [habs] at k1 k2
  have n1 : ‖((sgn * t : ℝ) : ℂ) ^ m * (((m.factorial : ℂ)⁻¹) * ∏ b ∈ range m, H (b + 1) b)‖ = t ^ m * c := by
    rw [norm_mul, norm_pow, Complex.norm_real, Real.norm_eq_abs, habs]
  have n2 : ‖((sgn * t : ℝ) : ℂ) ^ (m + 1) * ((((m + 1).factorial : ℂ)⁻¹) * ∏ b ∈ range (m + 1), H (b + 1) b)‖ = t ^ (m + 1) * e := by
    rw [norm_mul, norm_pow, Complex.norm_real, Real.norm_eq_abs, habs]
  have b1 : t ^ m * c - C * t ^ (m + 1) ≤ ‖(expH expm (m + 2) H (sgn * t)).v m 0‖ := by
    have := norm_sub_norm_le (((sgn * t : ℝ) : ℂ) ^ m * (((m.factorial : ℂ)⁻¹) * ∏ b ∈ range m, H (b + 1) b)) ((expH expm (m + 2) H (sgn * t)).v m 0)
    rw [n1, norm_sub_rev] at this
    linarith
  have b2 : ‖(expH expm (m + 2) H (sgn * t)).v (m + 1) 0‖ ≤ t ^ (m + 1) * (e + D) := by
    have := norm_sub_norm_le ((expH expm (m + 2) H (sgn * t)).v (m + 1) 0) (((sgn * t : ℝ) : ℂ) ^ (m + 1) * ((((m + 1).factorial : ℂ)⁻¹) * ∏ b ∈ range (m + 1), H (b + 1) b))
    rw [n2] at this
    have h5 : t ^ (m + 1 + 1) ≤ t ^ (m + 1) := pow_le_pow_of_le_one ht.le t1.le (by omega)
    nlinarith
  have htm : 0 < t ^ m := by positivity
  have hp : t ^ (m + 1) = t ^ m * t := pow_succ t m
  generalize ‖(expH expm (m + 2) H (sgn * t)).v m 0‖ = x at b1 ⊢
  generalize ‖(expH expm (m + 2) H (sgn * t)).v (m + 1) 0‖ = y at b2 ⊢
  rw [hp] at b1 b2
  constructor
  · have q1 : 10 * (y * avnorm) ≤ t ^ m * (t * (10 * (e + D) * avnorm)) := by
      have := mul_le_mul_of_nonneg_right b2 ha
      linarith [this]
    have q2 : t ^ m * (t * (10 * (e + D) * avnorm)) < t ^ m * (c - C * t) := by
      apply mul_lt_mul_of_pos_left _ htm
      linarith
    have q3 : 10 * (y * avnorm) < x := by
      refine (q1.trans_lt q2).trans_le (le_trans (le_of_eq ?_) b1)
      ring
    calc 10 * (y * beta * avnorm) = 10 * (y * avnorm) * beta := by ring
      _ < x * beta := mul_lt_mul_of_pos_right q3 hb
  · have hK : 0 ≤ (e + D) * beta * avnorm := by positivity
    have q1 : y * beta * avnorm ≤ t ^ m * t * (e + D) * beta * avnorm := by gcongr
    have q6 : t ^ m ≤ t := by
      calc t ^ m ≤ t ^ 1 := pow_le_pow_of_le_one ht.le t1.le hm
        _ = t := pow_one t
    have q7 : t ^ m * t * (e + D) * beta * avnorm ≤ t * t * ((e + D) * beta * avnorm) := by
      calc t ^ m * t * (e + D) * beta * avnorm = t ^ m * t * ((e + D) * beta * avnorm) := by ring
        _ ≤ t * t * ((e + D) * beta * avnorm) := by gcongr
    have q8 : t * ((e + D) * beta * avnorm) ≤ 1.2 * tol := by linarith
    have q9 : t * (t * ((e + D) * beta * avnorm)) ≤ t * (1.2 * tol) := mul_le_mul_of_nonneg_left q8 ht.le
    calc y * beta * avnorm ≤ t * (t * ((e + D) * beta * avnorm)) := by
            refine q1.trans (q7.trans (le_of_eq ?_)); ring
      _ ≤ t * (1.2 * tol) := q9
      _ = 1.2 * t * tol := by ring

theorem accept_term {expm : Mat ℂ → Mat ℂ} (hX : ExpmSpec expm) {m : ℕ} (hm : 0 < m) {H : ℕ → ℕ → ℂ} (hH : ∀ a b, b + 1 < a → H a b = 0)
    (hs : ∀ b ≤ m, H (b + 1) b ≠ 0) {sgn beta avnorm tol : ℝ} (hsgn : |sgn| = 1) (hb : 0 < beta) (ha : 0 ≤ avnorm) (htol : 0 < tol)
    {t xm : ℝ} (ht : 0 < t) (hxm : 0 < xm) : ∃ fuel r, accept expm m 2 m H sgn beta avnorm tol fuel t xm = some r := by
  obtain ⟨d, hd, hsmall⟩ := accept_small hX hm hH hs hsgn hb ha htol
  obtain ⟨N, hN⟩ := exists_pow_lt_of_lt_one (div_pos hd ht) (show (0.999 : ℝ) < 1 by norm_num)
  rw [lt_div_iff₀ ht] at hN
  induction N generalizing t xm with
  | zero =>
    rw [pow_zero, one_mul] at hN
    obtain ⟨s1, s2⟩ := hsmall t ht hN
    refine ⟨1, ?_⟩
    rw [accept]
    have : errLoc m 2 tol (‖(expH expm (m + 2) H (sgn * t)).v m 0‖ * beta) (‖(expH expm (m + 2) H (sgn * t)).v (m + 1) 0‖ * beta * avnorm) xm
        = .ok (‖(expH expm (m + 2) H (sgn * t)).v (m + 1) 0‖ * beta * avnorm, 1 / (m : ℝ)) := by
      unfold errLoc
      rw [if_neg (by norm_num), if_pos s1]
    rw [this]
    simp only
    rw [if_neg (fun h => absurd h.2 (not_lt.mpr s2))]
    exact ⟨_, rfl⟩
  | succ N ih =>
    cases he : errLoc m 2 tol (‖(expH expm (m + 2) H (sgn * t)).v m 0‖ * beta) (‖(expH expm (m + 2) H (sgn * t)).v (m + 1) 0‖ * beta * avnorm) xm with
    | error e =>
      refine ⟨1, ?_⟩
      rw [accept, he]
      exact ⟨_, rfl⟩
    | ok p =>
      obtain ⟨err, xm'⟩ := p
      obtain ⟨-, h2, -⟩ := errLoc_spec hm (by positivity) (by positivity) hxm htol he
      by_cases hc : (2 : ℕ) ≠ 0 ∧ err > 1.2 * t * tol
      · obtain ⟨h3, h4⟩ := shrink ht htol hc.2 h2
        obtain ⟨fuel, r, hr⟩ := ih h3 h2 (by
          have : (0 : ℝ) ≤ 0.999 ^ N := by positivity
          rw [pow_succ] at hN
          nlinarith)
        refine ⟨fuel + 1, r, ?_⟩
        rw [accept, he]
        simp only
        rw [if_pos hc, hr]
      · refine ⟨1, ?_⟩
        rw [accept, he]
        simp only
        rw [if_neg hc]
        exact ⟨_, rfl⟩

theorem accept_zero {expm : Mat ℂ → Mat ℂ} {m mb : ℕ} {H : ℕ → ℕ → ℂ} {sgn beta avnorm tol t xm : ℝ} (fuel : ℕ) :
    accept expm m 0 mb H sgn beta avnorm tol (fuel + 1) t xm = some (.ok (t, expH expm mb H (sgn * t), tol, xm)) := by
  rw [accept]
  simp [errLoc]

/-- What else a pass preserves. -/
def Flags (a : Args V) (st : St V) : Prop := st.k1 = 0 ∨ (st.k1 = 2 ∧ st.mb = a.m ∧ st.ibrk = false)

theorem arn_start {A : V →ₗ[ℂ] V} {w : V} (hw : ‖w‖ ≠ 0) : Arn A [((1 / ‖w‖ : ℝ) : ℂ) • w] (fun _ _ => 0) 1 where
  len := rfl
  orth := by
    intro i hi k hk
    simp only [List.length_singleton] at hi hk
    obtain rfl : i = 0 := by omega
    obtain rfl : k = 0 := by omega
    simp only [List.getD_cons_zero]
    rw [inner_self_eq_norm_sq_to_K, norm_smul, Complex.norm_real, Real.norm_of_nonneg (by positivity), one_div_mul_cancel hw]
    simp [delta]
  recur := by intro b hb; omega
  hess := fun _ _ _ => rfl
  zero := fun _ _ _ => rfl
  sub := by intro b hb; omega

theorem pass_term {a : Args V} {A : V →ₗ[ℂ] V} (hA : a.matvec = A) (hX : ExpmSpec a.expm) (hm : 0 < a.m) (htol : 0 < a.tol) (hsgn : |a.sgn| = 1)
    {st : St V} (g : ExpInv a st) (hlt : st.tNow < a.tOut) (fl : Flags a st) :
    ∃ fuel r, (∀ f ≥ fuel, pass a f st = some r) ∧ ∀ st', r = .ok st' → Flags a st' := by
  by_cases h0 : ‖st.w‖ = 0
  · exact ⟨0, .error .nan, fun f _ => by rw [pass_eq, if_pos h0], fun st' h => by simp at h⟩
  cases hAr : arnoldi a.matvec a.btol a.m 1 [((1 / ‖st.w‖ : ℝ) : ℂ) • st.w] (fun _ _ => 0) with
  | error e => exact ⟨0, .error e, fun f _ => by rw [pass_eq, if_neg h0, hAr], fun st' h => by simp at h⟩
  | ok p =>
    obtain ⟨vs, H, brk⟩ := p
    have hspec := arnoldi_spec a.m 1 _ _ le_rfl (arn_start (A := A) h0) vs H brk (by rw [← hA]; exact hAr)
    have ht : 0 < tryStep a st brk := by
      cases brk with
      | none => exact lt_min (by linarith) g.new
      | some j => exact sub_pos.mpr hlt
    have hfl : Flags a (passEntry a st vs brk) := by
      cases brk with
      | some j => exact Or.inl rfl
      | none =>
        rcases fl with h | h
        · left; simp only [passEntry]; split_ifs <;> exact h
        · right; simp only [passEntry]; split_ifs <;> exact h
    have hav : 0 ≤ (passEntry a st vs brk).avnorm := by
      have := g.av
      cases brk with
      | none => unfold passEntry; split_ifs <;> simp only <;> positivity
      | some j => exact this
    have hacc : ∃ fuel r, accept a.expm a.m (passEntry a st vs brk).k1 (passEntry a st vs brk).mb (setEntry H (a.m + 1) a.m 1) a.sgn ‖st.w‖
          (passEntry a st vs brk).avnorm a.tol fuel (tryStep a st brk) st.xm = some r := by
      rcases hfl with h | ⟨h1, h2, h3⟩
      · rw [h]; exact ⟨1, _, accept_zero 0⟩
      · have hb : brk = none := by
          cases brk with
          | none => rfl
          | some j => simp [passEntry] at h1
        have arn := hspec.1 hb
        rw [h1, h2]
        refine accept_term hX hm ?_ ?_ hsgn (lt_of_le_of_ne (norm_nonneg _) (Ne.symm h0)) hav htol ht g.xm
        · intro x y hxy
          unfold setEntry
          rw [if_neg (by omega)]
          exact arn.hess x y hxy
        · intro b hb
          unfold setEntry
          split_ifs with hc
          · exact one_ne_zero
          · obtain ⟨h, hp, he⟩ := arn.sub b (by omega)
            rw [he]
            exact_mod_cast hp.ne'
    obtain ⟨fuel, r, hr⟩ := hacc
    cases r with
    | error e =>
      refine ⟨fuel, .error e, fun f hf => ?_, fun st' h => by simp at h⟩
      rw [pass_eq, if_neg h0, hAr]
      simp only [accept_mono _ _ _ _ hr f hf]
    | ok q =>
      obtain ⟨t, E, err, xm⟩ := q
      refine ⟨fuel, finish a (passEntry a st vs brk) vs t E err xm, fun f hf => ?_, fun st' h => ?_⟩
      · rw [pass_eq, if_neg h0, hAr]
        simp only [accept_mono _ _ _ _ hr f hf]
      · unfold finish at h
        split_ifs at h
        injection h with h
        subst h
        exact hfl

theorem outer_term {a : Args V} {A : V →ₗ[ℂ] V} (hA : a.matvec = A) (hX : ExpmSpec a.expm) (hm : 0 < a.m) (htol : 0 < a.tol) (hsgn : |a.sgn| = 1)
    {mxstep : ℕ} (hmx : 0 < mxstep) {st : St V} (g : ExpInv a st) (fl : Flags a st) :
    ∃ fuel r, ∀ f ≥ fuel, outer a mxstep f st = some r := by
  induction h : mxstep - st.nstep using Nat.strong_induction_on generalizing st with
  | _ n ih =>
    by_cases hlt : st.tNow < a.tOut
    · obtain ⟨f1, r1, p1, p2⟩ := pass_term hA hX hm htol hsgn g hlt fl
      cases r1 with
      | error e =>
        refine ⟨f1 + 1, .error e, fun f hf => ?_⟩
        obtain ⟨f, rfl⟩ : ∃ x, f = x + 1 := ⟨f - 1, by omega⟩
        rw [outer, if_pos hlt, p1 f (by omega)]
      | ok st1 =>
        obtain ⟨g1, n1, -, -⟩ := (pass_spec hm htol g hlt (p1 f1 le_rfl)).1 st1 rfl
        by_cases hc : mxstep = 0 ∨ st1.nstep < mxstep
        · obtain ⟨f2, r2, q⟩ := ih (mxstep - st1.nstep) (by omega) g1 (p2 st1 rfl) rfl
          refine ⟨max f1 f2 + 1, r2, fun f hf => ?_⟩
          obtain ⟨f, rfl⟩ : ∃ x, f = x + 1 := ⟨f - 1, by omega⟩
          rw [outer, if_pos hlt, p1 f (by omega)]
          simp only
          rw [if_pos hc, q f (by omega)]
        · refine ⟨f1 + 1, .ok st1, fun f hf => ?_⟩
          obtain ⟨f, rfl⟩ : ∃ x, f = x + 1 := ⟨f - 1, by omega⟩
          rw [outer, if_pos hlt, p1 f (by omega)]
          simp only
          rw [if_neg hc]
    · refine ⟨1, .ok st, fun f hf => ?_⟩
      obtain ⟨f, rfl⟩ : ∃ x, f = x + 1 := ⟨f - 1, by omega⟩
      rw [outer, if_neg hlt]

/-- **C54 (termination).**  With a step limit the call ends, for every linear operator, vector, time and tolerance; the only
exceptions for accepted arguments are those of a vanishing error estimate and, for `m=1`, a division by zero. -/
theorem C54_total {expm : Mat ℂ → Mat ℂ} (hX : ExpmSpec expm) {eps : ℝ} (he : 0 < eps) {n : ℕ} (A : V →ₗ[ℂ] V) (v : V) (t : ℝ) {anorm : ℝ}
    (ha : 0 < anorm) {m : Option ℤ} (h1 : 1 ≤ krylovDim n m) (h2 : krylovDim n m < n) (tol : ℝ) {mxstep : ℕ} (hmx : 0 < mxstep) (btol : Option ℝ) :
    ∃ fuel r, (∀ f ≥ fuel, gexpmv expm eps [n, n] A v t anorm m tol mxstep btol f = some r) ∧
      ∀ e, r = .error e → e = .nan ∨ (e = .zerodiv ∧ krylovDim n m = 1) := by
  have hm : 0 < (krylovDim n m).toNat := by omega
  have hm1 : (krylovDim n m).toNat = 1 ↔ krylovDim n m = 1 := by omega
  generalize hk : (krylovDim n m).toNat = k at hm hm1
  have hc : checkArgs [n, n] m = .ok k := by rw [checkArgs_ok h1 h2, hk]
  cases h3 : firstStep k (tolOf eps tol) anorm ‖v‖ with
  | error e =>
    refine ⟨0, .error e, fun f _ => by unfold gexpmv; rw [hc]; simp only [h3], fun e' h => ?_⟩
    injection h with h
    subst h
    unfold firstStep at h3
    rw [if_neg ha.ne'] at h3
    split_ifs at h3
    injection h3 with h3
    exact Or.inl h3.symm
  | ok t1 =>
    obtain ⟨h4, -⟩ := firstStep_pos (tolOf_pos he) ha (norm_nonneg _) h3
    have g := good_start (a := theArgs A expm k eps tol anorm t btol) (v := v) hm (abs_nonneg t) h4
    obtain ⟨fuel, r, hr⟩ := outer_term (a := theArgs A expm k eps tol anorm t btol) (A := A) rfl hX hm (tolOf_pos he)
      (by simp only; split_ifs <;> norm_num) hmx g (Or.inr ⟨rfl, rfl, rfl⟩)
    have herr := (outer_spec (mxstep := mxstep) hm (tolOf_pos he) fuel _ g (fun _ => by simp only; omega) _ (hr fuel le_rfl)).2
    cases r with
    | error e =>
      refine ⟨fuel, .error e, fun f hf => ?_, fun e' h => ?_⟩
      · unfold gexpmv; rw [hc]; simp only [h3, hr f hf]
      · injection h with h
        subst h
        rw [← hm1]
        exact herr e rfl
    | ok st =>
      refine ⟨fuel, _, fun f hf => by unfold gexpmv; rw [hc]; simp only [h3, hr f hf]; rfl, fun e' h => by simp at h⟩

/-! ## Exactness on invariant subspaces -/

theorem arnoldi_mem {A : V →ₗ[ℂ] V} {W : Submodule ℂ V} (hW : ∀ w ∈ W, A w ∈ W) {btol : ℝ} (hb : 0 ≤ btol) :
    ∀ (rem j : ℕ) (vs : List V) (H : ℕ → ℕ → ℂ), (∀ v ∈ vs, v ∈ W) → ∃ us G brk, arnoldi A btol rem j vs H = .ok (us, G, brk) ∧ ∀ u ∈ us, u ∈ W := by
  have hproj : ∀ (vs : List V) (x : V), (∀ v ∈ vs, v ∈ W) → x ∈ W → (project vs x).2 ∈ W := by
    intro vs
    induction vs using List.reverseRecOn with
    | nil => intro x _ hx; exact hx
    | append_singleton vs v ih =>
      intro x hv hx
      rw [project_snoc]
      exact W.sub_mem (ih x (fun u hu => hv u (by simp [hu])) hx) (W.smul_mem _ (hv v (by simp)))
  have hget : ∀ (vs : List V) (i : ℕ), (∀ v ∈ vs, v ∈ W) → vs.getD i 0 ∈ W := by
    intro vs i hv
    rcases Nat.lt_or_ge i vs.length with h | h
    · rw [List.getD_eq_getElem?_getD, List.getElem?_eq_getElem h]; exact hv _ (List.getElem_mem h)
    · rw [List.getD_eq_getElem?_getD, List.getElem?_eq_none h]; exact W.zero_mem
  intro rem
  induction rem with
  | zero => intro j vs H hv; exact ⟨vs, H, none, rfl, hv⟩
  | succ n ih =>
    intro j vs H hv
    rw [arnoldi]
    split_ifs with h1 h2
    · exact ⟨_, _, _, rfl, hv⟩
    · exact absurd (h2.le.trans hb) h1
    · refine ih _ _ _ fun u hu => ?_
      simp only [List.mem_append, List.mem_singleton] at hu
      rcases hu with hu | rfl
      · exact hv u hu
      · exact W.smul_mem _ (hproj vs _ hv (hW _ (hget vs _ hv)))

/-- A pass that ends in a breakdown. -/
theorem pass_break {a : Args V} {st : St V} (h0 : ‖st.w‖ ≠ 0) (htol : a.tol ≠ 0) {vs : List V} {H : ℕ → ℕ → ℂ} {k : ℕ}
    (hAr : arnoldi a.matvec a.btol a.m 1 [((1 / ‖st.w‖ : ℝ) : ℂ) • st.w] (fun _ _ => 0) = .ok (vs, H, some k)) (f : ℕ) :
    ∃ st', pass a (f + 1) st = some (.ok st') ∧
      st'.w = (‖st.w‖ : ℂ) • ∑ i ∈ range k, (expH a.expm k (setEntry H (a.m + 1) a.m 1) (a.sgn * (a.tOut - st.tNow))).v i 0 • vs.getD i 0 ∧
      st'.tNow = a.tOut ∧ st'.nstep = st.nstep + 1 ∧ st'.ibrk = true ∧ st'.mb = k ∧ st'.times = st.times ++ [a.tOut - st.tNow] := by
  rw [pass_eq, if_neg h0, hAr]
  simp only [passEntry, tryStep, accept_zero, finish, if_neg htol]
  exact ⟨_, rfl, rfl, by simp only; ring, rfl, rfl, rfl, rfl⟩

/-- **C78 (exactness).**  If the vector lies in an invariant subspace of dimension at most `m` and only exact breakdowns are
accepted (`break_tol=0`, the default for `tol=0`), the result is `exp(t·A)v`, reached in one step. -/
theorem C78_exact {expm : Mat ℂ → Mat ℂ} (hX : ExpmSpec expm) {eps : ℝ} (he : 0 < eps) {n : ℕ} {A : V →ₗ[ℂ] V} {v : V} (hv : v ≠ 0) {t : ℝ}
    (ht : t ≠ 0) {anorm : ℝ} (ha : 0 < anorm) {m : Option ℤ} (h1 : 1 ≤ krylovDim n m) (h2 : krylovDim n m < n) {tol : ℝ} {mxstep : ℕ}
    {btol : Option ℝ} (hb : btol.getD (anorm * tol) = 0) {W : Submodule ℂ V} [FiniteDimensional ℂ W] (hvW : v ∈ W) (hW : ∀ w ∈ W, A w ∈ W)
    (hdim : (Module.finrank ℂ W : ℤ) ≤ krylovDim n m) :
    ∃ o, (∀ f ≥ 3, gexpmv expm eps [n, n] A v t anorm m tol mxstep btol f = some (.ok o)) ∧
      HasSum (fun i : ℕ => ((t : ℂ) ^ i * (i.factorial : ℂ)⁻¹) • (A ^ i) v) o.w ∧
      o.nstep = 1 ∧ o.brk = true ∧ o.times = [|t|] ∧ o.mb ≤ Module.finrank ℂ W ∧ (o.flag = true ↔ 1 < mxstep) := by
  have hm : 0 < (krylovDim n m).toNat := by omega
  have hdim' : Module.finrank ℂ W ≤ (krylovDim n m).toNat := by omega
  generalize hk : (krylovDim n m).toNat = k at hm hdim'
  have hc : checkArgs [n, n] m = .ok k := by rw [checkArgs_ok h1 h2, hk]
  have hv0 : ‖v‖ ≠ 0 := norm_ne_zero_iff.mpr hv
  obtain ⟨t1, h3⟩ : ∃ t1, firstStep k (tolOf eps tol) anorm ‖v‖ = .ok t1 := by
    unfold firstStep; rw [if_neg ha.ne', if_neg hv0]; exact ⟨_, rfl⟩
  obtain ⟨us, G, brk, hAr, hmem⟩ := arnoldi_mem hW (btol := 0) le_rfl k 1 [((1 / ‖v‖ : ℝ) : ℂ) • v] (fun _ _ => 0) (by
    intro u hu
    rw [List.mem_singleton] at hu
    rw [hu]; exact W.smul_mem _ hvW)
  obtain ⟨s1, s2, -⟩ := arnoldi_spec k 1 _ _ le_rfl (arn_start (A := A) hv0) us G brk hAr
  have hcard : ∀ us : List V, (∀ u ∈ us, u ∈ W) → (∀ i < us.length, ∀ l < us.length, inner ℂ (us.getD i 0) (us.getD l 0) = delta ℂ i l) →
      us.length ≤ Module.finrank ℂ W := by
    intro us hmem horth
    have hget : ∀ i : Fin us.length, us.getD i 0 ∈ W := by
      intro i
      rw [List.getD_eq_getElem?_getD, List.getElem?_eq_getElem i.2]; exact hmem _ (List.getElem_mem i.2)
    have on : Orthonormal ℂ fun i : Fin us.length => (⟨us.getD i 0, hget i⟩ : W) := by
      rw [orthonormal_iff_ite]
      intro i j
      have := horth i i.2 j j.2
      rw [Submodule.coe_inner]
      rw [this]
      simp [delta, Fin.ext_iff]
    have := on.linearIndependent.fintype_card_le_finrank
    rwa [Fintype.card_fin] at this
  cases brk with
  | none =>
    exfalso
    have arn := s1 rfl
    have := hcard us hmem arn.orth
    rw [arn.len] at this
    omega
  | some j =>
    obtain ⟨j1, j2, j3, j4, j5, y, hy, hrec⟩ := s2 j rfl
    have hy0 : y = 0 := norm_eq_zero.mp (le_antisymm hy (norm_nonneg _))
    have hAr' : arnoldi A (btol.getD (anorm * tol)) k 1 [((1 / ‖v‖ : ℝ) : ℂ) • v] (fun _ _ => 0) = .ok (us, G, some j) := by rw [hb]; exact hAr
    have htp : 0 < |t| := abs_pos.mpr ht
    have key : ∀ f, ∃ st', pass (theArgs A expm k eps tol anorm t btol) (f + 1) (theStart v t1 k) = some (.ok st') ∧ _ :=
      fun f => pass_break (a := theArgs A expm k eps tol anorm t btol) (st := theStart v t1 k) hv0 (tolOf_pos he).ne' hAr' f
    obtain ⟨st', p1, p2, p3, p4, p5, p6, p7⟩ := key 0
    have hpass : ∀ f ≥ 1, pass (theArgs A expm k eps tol anorm t btol) f (theStart v t1 k) = some (.ok st') := by
      intro f hf
      obtain ⟨f, rfl⟩ : ∃ x, f = x + 1 := ⟨f - 1, by omega⟩
      rw [← p1, pass_eq, pass_eq, if_neg hv0, if_neg hv0]
      have e1 : (theArgs A expm k eps tol anorm t btol).btol = btol.getD (anorm * tol) := rfl
      rw [show arnoldi (theArgs A expm k eps tol anorm t btol).matvec (theArgs A expm k eps tol anorm t btol).btol (theArgs A expm k eps tol anorm t btol).m 1
        [((1 / ‖(theStart v t1 k).w‖ : ℝ) : ℂ) • (theStart v t1 k).w] (fun _ _ => 0) = .ok (us, G, some j) from hAr']
      simp only [passEntry, accept_zero]
    have houter : ∀ f ≥ 3, outer (theArgs A expm k eps tol anorm t btol) mxstep f (theStart v t1 k) = some (.ok st') := by
      intro f hf
      obtain ⟨f, rfl⟩ : ∃ x, f = x + 1 := ⟨f - 1, by omega⟩
      rw [outer, if_pos htp, hpass f (by omega)]
      simp only
      split_ifs
      · obtain ⟨f, rfl⟩ : ∃ x, f = x + 1 := ⟨f - 1, by omega⟩
        rw [outer, if_neg (by rw [p3]; exact lt_irrefl _)]
      · rfl
    have hn1 : st'.nstep = 1 := p4
    refine ⟨⟨st'.w, decide (st'.nstep < mxstep), st'.nstep, st'.ibrk, st'.mb, st'.times⟩, fun f hf => ?_, ?_, hn1, p5, ?_, ?_, ?_⟩
    · unfold gexpmv
      rw [hc]
      simp only [h3, houter f hf]
    · have hw : st'.w = (‖v‖ : ℂ) • ∑ i ∈ range j, (expH expm j (setEntry G (k + 1) k 1) t).v i 0 • us.getD i 0 := by
        rw [p2]
        have : (if 0 ≤ t then (1 : ℝ) else -1) * (|t| - 0) = t := by
          split_ifs with hpos
          · rw [abs_of_nonneg hpos]; ring
          · rw [abs_of_neg (not_le.mp hpos)]; ring
        simp only [this]
      have h8 := exp_arn hX (A := A) (us := us) (G := setEntry G (k + 1) k 1) (k := j) (by omega) (by
        intro b hb
        rw [hrec b hb, hy0, ite_self, add_zero]
        refine sum_congr rfl fun a ha => ?_
        unfold setEntry
        have := mem_range.mp ha
        rw [if_neg (by omega)]) t
      simp only
      rw [hw]
      have h9 := h8.const_smul (‖v‖ : ℂ)
      have h10 : (fun i : ℕ => ((t : ℂ) ^ i * (i.factorial : ℂ)⁻¹) • (A ^ i) v)
          = fun i : ℕ => (‖v‖ : ℂ) • ((t : ℂ) ^ i * (i.factorial : ℂ)⁻¹) • (A ^ i) (us.getD 0 0) := by
        funext i
        have h11 : v = (‖v‖ : ℂ) • us.getD 0 0 := by
          rw [j5, List.getD_cons_zero, smul_smul, ← Complex.ofReal_mul, mul_one_div_cancel hv0, Complex.ofReal_one, one_smul]
        conv_lhs => rw [h11, map_smul, smul_comm]
      rw [h10]
      exact h9
    · simp only [p7]
      rw [sub_zero]; rfl
    · simp only [p6, ← j3]
      exact hcard us hmem j4
    · simp only [hn1]
      exact decide_eq_true_iff

/-- The hypotheses are met by an eigenvector of `σ^z` on two levels. -/
def sigmaZ2 : EuclideanSpace ℂ (Fin 2) →ₗ[ℂ] EuclideanSpace ℂ (Fin 2) := Matrix.toEuclideanLin !![1, 0; 0, -1]

theorem sigmaZ2_e0 : sigmaZ2 (EuclideanSpace.single 0 1) = EuclideanSpace.single 0 1 := by
  ext i; fin_cases i <;> simp [sigmaZ2, Matrix.toLpLin_apply]

theorem exact_example {expm : Mat ℂ → Mat ℂ} (hX : ExpmSpec expm) {eps : ℝ} (he : 0 < eps) (mxstep : ℕ) :
    ∃ o, (∀ f ≥ 3, gexpmv expm eps [2, 2] sigmaZ2 (EuclideanSpace.single 0 1) 3 1 none 0 mxstep none f = some (.ok o)) ∧
      o.nstep = 1 ∧ o.times = [3] ∧ (o.flag = true ↔ 1 < mxstep) := by
  have hx : (EuclideanSpace.single 0 1 : EuclideanSpace ℂ (Fin 2)) ≠ 0 := by
    intro h; simpa using congrArg (fun v : EuclideanSpace ℂ (Fin 2) => v 0) h
  obtain ⟨o, h1, -, h3, -, h5, -, h7⟩ := C78_exact hX he (n := 2) (A := sigmaZ2) hx (t := 3) (by norm_num) (anorm := 1) (by norm_num) (m := none)
    (by norm_num [krylovDim]) (by norm_num [krylovDim]) (tol := 0) (mxstep := mxstep) (btol := none) (by simp)
    (W := Submodule.span ℂ {EuclideanSpace.single 0 1}) (Submodule.mem_span_singleton_self _) (by
      intro w hw
      obtain ⟨c, rfl⟩ := Submodule.mem_span_singleton.mp hw
      rw [map_smul, sigmaZ2_e0]
      exact hw) (by rw [finrank_span_singleton hx]; norm_num [krylovDim])
  exact ⟨o, h1, h3, by rw [h5]; norm_num, h7⟩

example : ∃ expm eps, ∃ o, gexpmv expm eps [2, 2] sigmaZ2 (EuclideanSpace.single 0 1) 3 1 none 0 500 none 3 = some (.ok o) ∧ o.flag = true := by
  obtain ⟨expm, hX⟩ := exists_expm
  obtain ⟨o, h1, -, -, h2⟩ := exact_example hX one_pos 500
  exact ⟨expm, 1, o, h1 3 le_rfl, h2.mpr (by norm_num)⟩

/-! ## Disagreements -/

/-- **The flag may deny that the time was covered.**  With `mxstep=1` a call that covers the whole time in its single step
reports failure, and with `mxstep=0` (no limit) every call does. -/
theorem C54_violated_flag {expm : Mat ℂ → Mat ℂ} (hX : ExpmSpec expm) {eps : ℝ} (he : 0 < eps) : ∀ mxstep ≤ 1,
    ∃ o, (∀ f ≥ 3, gexpmv expm eps [2, 2] sigmaZ2 (EuclideanSpace.single 0 1) 3 1 none 0 mxstep none f = some (.ok o)) ∧
      o.times.sum = 3 ∧ o.flag = false := by
  intro mxstep hmx
  obtain ⟨o, h1, -, h3, h4⟩ := exact_example hX he mxstep
  refine ⟨o, h1, by rw [h3]; norm_num, ?_⟩
  cases hf : o.flag with
  | false => rfl
  | true => have := h4.mp hf; omega

/-- **One-dimensional operators are rejected.**  The effective bond Hamiltonian of a product state is such an operator. -/
theorem C54_violated_one (expm : Mat ℂ → Mat ℂ) (eps : ℝ) (A : V → V) (v : V) (t anorm : ℝ) (tol : ℝ) (mxstep : ℕ) (btol : Option ℝ) (fuel : ℕ) :
    gexpmv expm eps [1, 1] A v t anorm none tol mxstep btol fuel = some (.error .value) := by
  unfold gexpmv
  simp [checkArgs]

/-- The operator `|0> -> c|1>`, `|1> -> b|0>`. -/
def hop (c b : ℝ) : EuclideanSpace ℂ (Fin 2) →ₗ[ℂ] EuclideanSpace ℂ (Fin 2) := Matrix.toEuclideanLin !![0, (b : ℂ); (c : ℂ), 0]

/-- The small matrix for `hop`. -/
def hopG (c : ℝ) : ℕ → ℕ → ℂ := setEntry (setEntry (setCol (fun _ _ => 0) 0 [0]) 1 0 (c : ℂ)) 2 1 1

theorem arnoldi_hop {c : ℝ} (hc : 0 < c) (b : ℝ) : arnoldi (hop c b) 0 1 1 [EuclideanSpace.single 0 1] (fun _ _ => 0)
    = .ok ([EuclideanSpace.single 0 1, EuclideanSpace.single 1 1], setEntry (setCol (fun _ _ => 0) 0 [0]) 1 0 (c : ℂ), none) := by
  have h1 : hop c b (EuclideanSpace.single 0 1) = (c : ℂ) • EuclideanSpace.single 1 1 := by
    ext i; fin_cases i <;> simp [hop, Matrix.toLpLin_apply]
  have h2 : project [(EuclideanSpace.single 0 1 : EuclideanSpace ℂ (Fin 2))] ((c : ℂ) • EuclideanSpace.single 1 1)
      = ([0], (c : ℂ) • EuclideanSpace.single 1 1) := by
    simp [project, PiLp.inner_apply]
  have h3 : ‖((c : ℂ) • EuclideanSpace.single 1 1 : EuclideanSpace ℂ (Fin 2))‖ = c := by
    rw [norm_smul, PiLp.norm_single, norm_one, mul_one, Complex.norm_real, Real.norm_of_nonneg hc.le]
  rw [arnoldi]
  simp only [Nat.sub_self, List.getD_cons_zero, h1, h2, h3]
  rw [if_neg (not_le.mpr hc), if_neg hc.ne', arnoldi, smul_smul, ← Complex.ofReal_mul, one_div_mul_cancel hc.ne', Complex.ofReal_one, one_smul]
  rfl

theorem hop_exp {expm : Mat ℂ → Mat ℂ} (hX : ExpmSpec expm) (c s : ℝ) :
    (expH expm 3 (hopG c) s).v 1 0 = (s : ℂ) * c ∧ (expH expm 3 (hopG c) s).v 2 0 = (s : ℂ) ^ 2 * c / 2 := by
  have hM : blockOf 3 (hopG c) = !![0, 0, 0; (c : ℂ), 0, 0; 0, 1, 0] := by
    ext i j
    fin_cases i <;> fin_cases j <;> simp [blockOf, hopG, setEntry, setCol]
  have hM2 : (!![0, 0, 0; (c : ℂ), 0, 0; 0, 1, 0] : Matrix (Fin 3) (Fin 3) ℂ) ^ 2 = !![0, 0, 0; 0, 0, 0; (c : ℂ), 0, 0] := by
    rw [pow_two]
    ext i j
    fin_cases i <;> fin_cases j <;> simp [Matrix.mul_apply, Fin.sum_univ_three]
  have hM3 : (!![0, 0, 0; (c : ℂ), 0, 0; 0, 1, 0] : Matrix (Fin 3) (Fin 3) ℂ) ^ 3 = 0 := by
    rw [pow_succ, hM2]
    ext i j
    fin_cases i <;> fin_cases j <;> simp [Matrix.mul_apply, Fin.sum_univ_three]
  have hz : ∀ (i j : Fin 3) (n : ℕ), n ∉ range 3 → (s : ℂ) ^ n * (((n.factorial : ℂ)⁻¹) * (blockOf 3 (hopG c) ^ n) i j) = 0 := by
    intro i j n hn
    have h3 : 3 ≤ n := by simpa using hn
    obtain ⟨k, rfl⟩ : ∃ k, n = 3 + k := ⟨n - 3, by omega⟩
    have hpow : blockOf 3 (hopG c) ^ (3 + k) = 0 := by rw [hM, pow_add, hM3, zero_mul]
    rw [hpow, Matrix.zero_apply, mul_zero, mul_zero]
  constructor
  · refine ((expH_hasSum hX 3 (hopG c) s 1 0).unique (hasSum_sum_of_ne_finset_zero (hz 1 0))).trans ?_
    rw [sum_range_succ, sum_range_succ, sum_range_succ, sum_range_zero, hM, hM2]
    simp
  · refine ((expH_hasSum hX 3 (hopG c) s 2 0).unique (hasSum_sum_of_ne_finset_zero (hz 2 0))).trans ?_
    rw [sum_range_succ, sum_range_succ, sum_range_succ, sum_range_zero, hM, hM2]
    simp
    ring

/-- The first pass of `gexpmv` for `hop`. -/
theorem hop_run {expm : Mat ℂ → Mat ℂ} (hX : ExpmSpec expm) {eps : ℝ} (he : 0 < eps) {c b t : ℝ} (hc : 0 < c) (hb : 0 ≤ b) (ht : 0 < t) {t1 : ℝ}
    (h1 : firstStep 1 (tolOf eps 0) 1 1 = .ok t1) {e : PyErr}
    (herr : (p2 : ℝ) → p2 = (min t t1) ^ 2 * c / 2 * b → (errLoc 1 2 (tolOf eps 0) (min t t1 * c) p2 1 = .error e ∨
      (∃ xm, errLoc 1 2 (tolOf eps 0) (min t t1 * c) p2 1 = .ok (0, xm)) ∧ e = .nan)) (mxstep f : ℕ) :
    gexpmv expm eps [2, 2] (hop c b) (EuclideanSpace.single 0 1) t 1 none 0 mxstep none (f + 2) = some (.error e) := by
  have hn : ‖(EuclideanSpace.single 0 1 : EuclideanSpace ℂ (Fin 2))‖ = 1 := by rw [PiLp.norm_single, norm_one]
  have h0 : 0 < t1 := (firstStep_pos (tolOf_pos he) one_pos zero_le_one h1).1
  have hs : 0 < min t t1 := lt_min ht h0
  have hcA : checkArgs [2, 2] none = .ok 1 := by simp [checkArgs]
  have hav : ‖hop c b (EuclideanSpace.single 1 1)‖ = b := by
    have : hop c b (EuclideanSpace.single 1 1) = (b : ℂ) • EuclideanSpace.single 0 1 := by
      ext i; fin_cases i <;> simp [hop, Matrix.toLpLin_apply]
    rw [this, norm_smul, PiLp.norm_single, norm_one, mul_one, Complex.norm_real, Real.norm_of_nonneg hb]
  obtain ⟨e1, e2⟩ := hop_exp hX c (1 * min t t1)
  have hp : pass (theArgs (hop c b) expm 1 eps 0 1 t none) (f + 1) (theStart (EuclideanSpace.single 0 1) t1 1) = some (.error e) := by
    rw [pass_eq]
    simp only [hn, one_div_one, Complex.ofReal_one, one_smul, one_ne_zero, if_false, Option.getD_none, mul_zero, arnoldi_hop hc, passEntry, tryStep,
      Bool.false_eq_true, sub_zero, abs_of_pos ht, if_pos ht.le]
    have hn1 : ‖(expH expm (1 + 2) (setEntry (setEntry (setCol (fun _ _ => 0) 0 [0]) 1 0 (c : ℂ)) (1 + 1) 1 1) (1 * min t t1)).v 1 0‖ * 1 = min t t1 * c := by
      change ‖(expH expm 3 (hopG c) (1 * min t t1)).v 1 0‖ * 1 = _
      rw [e1, one_mul, mul_one, ← Complex.ofReal_mul, Complex.norm_real, Real.norm_of_nonneg (by positivity)]
    have hn2 : ‖(expH expm (1 + 2) (setEntry (setEntry (setCol (fun _ _ => 0) 0 [0]) 1 0 (c : ℂ)) (1 + 1) 1 1) (1 * min t t1)).v (1 + 1) 0‖ * 1 * b
        = (min t t1) ^ 2 * c / 2 * b := by
      change ‖(expH expm 3 (hopG c) (1 * min t t1)).v 2 0‖ * 1 * b = _
      rw [e2, one_mul, mul_one, norm_div, norm_mul, norm_pow, Complex.norm_real, Complex.norm_real, Real.norm_of_nonneg hs.le, Real.norm_of_nonneg hc.le]
      simp
    have hav' : ‖hop c b ([EuclideanSpace.single 0 1, EuclideanSpace.single 1 1].getD 1 0)‖ = b := hav
    rw [accept]
    simp only [hav', hn1, hn2, Nat.cast_one, one_div_one]
    rcases herr _ rfl with h | ⟨⟨xm, h⟩, rfl⟩
    · simp only [h]
    · simp only [h]
      rw [if_neg (fun hc => absurd hc.2 (not_lt.mpr (by have := tolOf_pos (tol := 0) he; positivity)))]
      simp [finish]
  have ho : outer (theArgs (hop c b) expm 1 eps 0 1 t none) mxstep (f + 2) (theStart (EuclideanSpace.single 0 1) t1 1) = some (.error e) := by
    rw [outer, if_pos (by simp only; exact abs_pos.mpr ht.ne'), hp]
  unfold gexpmv
  rw [hcA]
  simp only [hn, h1]
  rw [show outer _ mxstep (f + 2) _ = some (.error e) from ho]

/-- **A vanishing error estimate raises an exception.**  For the lowering operator on two levels the estimate is zero, the
next step size is infinite, and rounding it raises an OverflowError. -/
theorem C54_violated_nilpotent {expm : Mat ℂ → Mat ℂ} (hX : ExpmSpec expm) {eps : ℝ} (he : 0 < eps) {t : ℝ} (ht : 0 < t) (mxstep f : ℕ) :
    gexpmv expm eps [2, 2] (hop 1 0) (EuclideanSpace.single 0 1) t 1 none 0 mxstep none (f + 2) = some (.error .nan) := by
  obtain ⟨t1, h1⟩ : ∃ t1, firstStep 1 (tolOf eps 0) 1 1 = .ok t1 := by
    unfold firstStep; rw [if_neg one_ne_zero, if_neg one_ne_zero]; exact ⟨_, rfl⟩
  have h0 : 0 < t1 := (firstStep_pos (tolOf_pos he) one_pos zero_le_one h1).1
  refine hop_run hX he one_pos le_rfl ht h1 ?_ mxstep f
  rintro p2 rfl
  refine Or.inr ⟨⟨1, ?_⟩, rfl⟩
  unfold errLoc
  rw [if_neg two_ne_zero, if_pos (by rw [mul_zero, mul_zero, mul_one]; exact lt_min ht h0), mul_zero]
  norm_num

/-- **`m=1` may divide by zero.**  For every time there is a Hermitian 2x2 operator (with `anorm` given as one, as all
callers do) for which the default `m=1` raises a ZeroDivisionError. -/
theorem C54_violated_m1 {expm : Mat ℂ → Mat ℂ} (hX : ExpmSpec expm) {eps : ℝ} (he : 0 < eps) {t : ℝ} (ht : 0 < t) (mxstep f : ℕ) :
    ∃ c, (hop c c).IsSymmetric ∧
      gexpmv expm eps [2, 2] (hop c c) (EuclideanSpace.single 0 1) t 1 none 0 mxstep none (f + 2) = some (.error .zerodiv) := by
  obtain ⟨t1, h1⟩ : ∃ t1, firstStep 1 (tolOf eps 0) 1 1 = .ok t1 := by
    unfold firstStep; rw [if_neg one_ne_zero, if_neg one_ne_zero]; exact ⟨_, rfl⟩
  have h0 : 0 < t1 := (firstStep_pos (tolOf_pos he) one_pos zero_le_one h1).1
  have hs : 0 < min t t1 := lt_min ht h0
  have hc : 0 < 4 / min t t1 := by positivity
  refine ⟨4 / min t t1, ?_, hop_run hX he hc hc.le ht h1 ?_ mxstep f⟩
  · unfold hop
    rw [Matrix.isSymmetric_toEuclideanLin_iff]
    ext i j
    fin_cases i <;> fin_cases j <;> simp [Matrix.conjTranspose_apply, Complex.conj_ofReal]
  · rintro p2 rfl
    left
    unfold errLoc
    have e1 : min t t1 * (4 / min t t1) = 4 := by field_simp
    have e2 : min t t1 ^ 2 * (4 / min t t1) / 2 * (4 / min t t1) = 8 := by field_simp; norm_num
    rw [e1, e2]
    norm_num

end

end PyTeN
