import Verif.Engine.Tdvp

/-! # The outer loop of TDVP: sweeps, counters and files -/

namespace PyTeN
open Finset

noncomputable section

variable {O : LinAlg} {evT : EvolveTen} {evM : EvolveMat} {sv : TSolver} {flag : Prop}

/-- Helper for the proofs: both sweeps of one step. -/
def tdvpSweeps (O : LinAlg) (evT : EvolveTen) (evM : EvolveMat) (sv : TSolver) (dt : ℂ) (e : Eng) : Res (Eng × List TCall) :=
  match Eng.tdvpRight O evT evM sv dt e.mps.N 0 e [] with
  | .error x => .error x
  | .ok (e1, c1) => Eng.tdvpLeft O evT evM sv dt (e1.mps.N - 1) e1 c1

/-- Helper for the proofs: the sweeps of `k` steps. -/
def tdvpIter (O : LinAlg) (evT : EvolveTen) (evM : EvolveMat) (sv : TSolver) (dt : ℂ) : ℕ → Eng → Res (Eng × List (List TCall))
  | 0, e => .ok (e, [])
  | k + 1, e =>
    match tdvpSweeps O evT evM sv dt e with
    | .error x => .error x
    | .ok (e1, c) =>
      match tdvpIter O evT evM sv dt k e1 with
      | .error x => .error x
      | .ok (e2, cs) => .ok (e2, c :: cs)

theorem tdvpIter_add {dt : ℂ} : ∀ (a b : ℕ) {e e1 e2 : Eng} {c1 c2 : List (List TCall)},
    tdvpIter O evT evM sv dt a e = .ok (e1, c1) → tdvpIter O evT evM sv dt b e1 = .ok (e2, c2) →
    tdvpIter O evT evM sv dt (a + b) e = .ok (e2, c1 ++ c2) := by
  intro a
  induction a with
  | zero =>
    intro b e e1 e2 c1 c2 h1 h2
    simp only [tdvpIter, Except.ok.injEq, Prod.mk.injEq] at h1
    obtain ⟨rfl, rfl⟩ := h1
    simpa using h2
  | succ a ih =>
    intro b e e1 e2 c1 c2 h1 h2
    rw [show a + 1 + b = (a + b) + 1 by omega]
    simp only [tdvpIter] at h1 ⊢
    split at h1
    · cases h1
    rename_i e3 c hc
    split at h1
    · cases h1
    rename_i e4 cs hcs
    simp only [Except.ok.injEq, Prod.mk.injEq] at h1
    obtain ⟨rfl, rfl⟩ := h1
    simp only [ih b hcs h2, List.cons_append]

/-- The part of an evolution engine that a TDVP run leaves alone. -/
structure Evo.TKept (e e' : Evo) : Prop where
  tw : e'.tw = e.tw
  maxD : e'.maxD = e.maxD
  filename : e'.filename = e.filename
  log : e'.log = e.log

theorem Evo.TKept.trans {a b c : Evo} (h : a.TKept b) (h' : b.TKept c) : a.TKept c :=
  ⟨h'.tw.trans h.tw, h'.maxD.trans h.maxD, h'.filename.trans h.filename, h'.log.trans h.log⟩

/-- A checkpoint of a TDVP run that started from `e`: the engine after `s.it-e.it+1` complete steps; the counter is one
behind. -/
structure TSnap (O : LinAlg) (evT : EvolveTen) (evM : EvolveMat) (sv : TSolver) (dt : ℂ) (v : ℤ) (cp : Option ℤ) (e s : Evo) :
    Prop where
  kept : e.TKept s
  le : e.it ≤ s.it
  due : cpAt cp s.it = true
  t0 : s.t0 = e.t0 + (s.it - e.it + 1 : ℕ) * tickBy v dt
  run : ∃ cs, tdvpIter O evT evM sv dt (s.it - e.it + 1) e.eng = .ok (s.eng, cs)

theorem tdvpStep_spec {dt : ℂ} {v : ℤ} {cp : Option ℤ} {keep : Bool} {cur cur' : String} {w w' : World} {c : List TCall}
    (h : tdvpStep O evT evM sv dt v cp keep cur w = .ok (cur', w', c)) :
    tdvpSweeps O evT evM sv dt w.evo.eng = .ok (w'.evo.eng, c) ∧ w'.evo.it = w.evo.it + 1 ∧
    w'.evo.t0 = w.evo.t0 + tickBy v dt ∧ w.evo.TKept w'.evo ∧
    (cpAt cp w.evo.it = false → cur' = cur ∧ w'.disk = w.disk) ∧
    (cpAt cp w.evo.it = true → cur' = cpName w.evo.filename "_tdvp_cp" w.evo.it ∧
      w'.disk = ((if !keep then w.disk.removeIf cur else w.disk).save cur' { w'.evo with it := w.evo.it })) := by
  unfold tdvpStep at h
  split at h
  · cases h
  rename_i e1 c1 h1
  split at h
  · cases h
  rename_i e2 c2 h2
  have ht : ∀ e : Evo, e.tick v dt = { e with t0 := e.t0 + tickBy v dt } := by
    intro e; unfold Evo.tick tickBy; split_ifs
    · rfl
    · simp
  simp only [ht] at h
  have hsw : tdvpSweeps O evT evM sv dt w.evo.eng = .ok (e2, c2) := by
    unfold tdvpSweeps; rw [h1]; exact h2
  split at h
  · cases h
  · rename_i hdue
    simp only [Except.ok.injEq, Prod.mk.injEq] at h
    obtain ⟨rfl, rfl, rfl⟩ := h
    refine ⟨hsw, rfl, rfl, ⟨rfl, rfl, rfl, rfl⟩, fun hc => ?_, fun _ => ⟨rfl, rfl⟩⟩
    rw [← cpDue_cpAt hdue] at hc; cases hc
  · rename_i hdue
    simp only [Except.ok.injEq, Prod.mk.injEq] at h
    obtain ⟨rfl, rfl, rfl⟩ := h
    refine ⟨hsw, rfl, rfl, ⟨rfl, rfl, rfl, rfl⟩, fun _ => ⟨rfl, rfl⟩, fun hc => ?_⟩
    rw [← cpDue_cpAt hdue] at hc; cases hc

theorem tdvpLoop_spec {dt : ℂ} {v : ℤ} {cp : Option ℤ} {keep : Bool} :
    ∀ (k : ℕ) (cur : String) (w w' : World) (acc css : List (List TCall)),
    tdvpLoop O evT evM sv dt v cp keep k cur w acc = .ok (w', css) →
    ∃ cs, css = acc ++ cs ∧ tdvpIter O evT evM sv dt k w.evo.eng = .ok (w'.evo.eng, cs) ∧ w'.evo.it = w.evo.it + k ∧
      w'.evo.t0 = w.evo.t0 + k * tickBy v dt ∧ w.evo.TKept w'.evo ∧
      ∃ xs : List Evo, (∀ s ∈ xs, TSnap O evT evM sv dt v cp w.evo s) ∧
        xs.map Evo.it = (List.range' w.evo.it k).filter (cpAt cp) ∧
        w'.disk = retain keep (xs.map fun s => (cpName w.evo.filename "_tdvp_cp" s.it, s)) cur w.disk := by
  intro k
  induction k with
  | zero =>
    intro cur w w' acc css h
    simp only [tdvpLoop, Except.ok.injEq, Prod.mk.injEq] at h
    obtain ⟨rfl, rfl⟩ := h
    exact ⟨[], by simp, rfl, rfl, by simp, ⟨rfl, rfl, rfl, rfl⟩, [], by simp, by simp, rfl⟩
  | succ k ih =>
    intro cur w w' acc css h
    rw [tdvpLoop] at h
    split at h
    · cases h
    rename_i cur1 w1 c h1
    obtain ⟨a1, a2, a3, a4, a5, a6⟩ := tdvpStep_spec h1
    obtain ⟨cs, rfl, b1, b2, b3, b4, xs, b5, b6, b7⟩ := ih _ _ _ _ _ h
    have hsnap : ∀ s ∈ xs, TSnap O evT evM sv dt v cp w.evo s := by
      intro s hs
      have hx := b5 s hs
      have hle := hx.le
      refine ⟨a4.trans hx.kept, by omega, hx.due, ?_, ?_⟩
      · rw [hx.t0, a3, show s.it - w.evo.it + 1 = (s.it - w1.evo.it + 1) + 1 by omega]
        push_cast; ring
      · obtain ⟨ds, hd⟩ := hx.run
        rw [show s.it - w.evo.it + 1 = (s.it - w1.evo.it + 1) + 1 by omega, tdvpIter, a1]
        simp only [hd]
        exact ⟨_, rfl⟩
    refine ⟨c :: cs, by simp, ?_, by omega, ?_, a4.trans b4, ?_⟩
    · rw [tdvpIter, a1]; simp only [b1]
    · rw [b3, a3]; push_cast; ring
    rw [a4.filename] at b7
    rw [List.range'_succ, List.filter_cons]
    by_cases hc : cpAt cp w.evo.it = true
    · rw [if_pos hc]
      obtain ⟨c1, c2⟩ := a6 hc
      refine ⟨{ w1.evo with it := w.evo.it } :: xs, ?_, ?_, ?_⟩
      · intro s hs
        rcases List.mem_cons.mp hs with rfl | hs
        · refine ⟨⟨a4.tw, a4.maxD, a4.filename, a4.log⟩, le_rfl, hc, ?_, [c], ?_⟩
          · simp only [Nat.sub_self, Nat.zero_add, Nat.cast_one, one_mul]; exact a3
          · simp only [Nat.sub_self, tdvpIter, a1]
        · exact hsnap s hs
      · rw [List.map_cons, b6, a2]
      · rw [b7, List.map_cons, retain, c2, c1]
    · rw [if_neg hc]
      rw [Bool.not_eq_true] at hc
      obtain ⟨c1, c2⟩ := a5 hc
      exact ⟨xs, hsnap, by rw [b6, a2], by rw [b7, c1, c2]⟩

/-- Everything needed to start a sequence of TDVP steps. -/
def Eng.TReady (e : Eng) (flag : Prop) : Prop := ∃ a b, b ≤ 1 ∧ e.TI flag 0 a b

theorem tdvpIter_spec (hO : O.Spec) (hT : evT.Shape) (hM : evM.Shape) {dt : ℂ} : ∀ (k : ℕ) {e e' : Eng} {css : List (List TCall)},
    e.TReady flag → 2 ≤ e.mps.N → tdvpIter O evT evM sv dt k e = .ok (e', css) →
    e'.TReady flag ∧ (k = 0 ∨ normF e'.mps.mat = 1) ∧ e.TSame e' ∧ css.length = k ∧
    (∀ cs ∈ css, cs.map TCall.evt = stepEvts dt e.mps.N ∧ ∀ c ∈ cs, c.Good e flag) ∧
    Flow e.mps.ds e.lb.u evT evM sv css.flatten e.mps.amp e'.mps.amp := by
  intro k
  induction k with
  | zero =>
    intro e e' css hr hN h
    simp only [tdvpIter, Except.ok.injEq, Prod.mk.injEq] at h
    obtain ⟨rfl, rfl⟩ := h
    exact ⟨hr, Or.inl rfl, .refl e, rfl, by simp, Ray.refl _ _ _⟩
  | succ k ih =>
    intro e e' css hr hN h
    rw [tdvpIter] at h
    split at h
    · cases h
    rename_i e1 c hc
    split at h
    · cases h
    rename_i e2 cs hcs
    simp only [Except.ok.injEq, Prod.mk.injEq] at h
    obtain ⟨rfl, rfl⟩ := h
    unfold tdvpSweeps at hc
    split at hc
    · cases hc
    rename_i e3 c3 h3
    obtain ⟨a, b, hb, hi⟩ := hr
    obtain ⟨⟨b', hb', s1⟩, s2, s3, s4, s5, s6⟩ := tdvpSweep_spec hO hT hM hi hb hN h3 hc
    obtain ⟨t1, t2, t3, t4, t5, t6⟩ := ih ⟨0, b', hb', s1⟩ (by rw [s3.same.N]; exact hN) hcs
    rw [s3.ds, s3.same.lb] at t6
    refine ⟨t1, Or.inr ?_, s3.trans t3, by simp [t4], ?_, ?_⟩
    · rcases t2 with rfl | t2
      · simp only [tdvpIter, Except.ok.injEq, Prod.mk.injEq] at hcs
        rw [← hcs.1]; exact s2
      · exact t2
    · intro x hx
      rcases List.mem_cons.mp hx with rfl | hx
      · exact ⟨s6, s4⟩
      · obtain ⟨u1, u2⟩ := t5 x hx
        rw [s3.same.N] at u1
        exact ⟨u1, fun y hy => (u2 y hy).same s3⟩
    · rw [List.flatten_cons]
      exact s5.append t6

/-- Outcome of `doTDVP`, without any assumption. -/
theorem doTDVP_spec {dt : ℂ} {n : ℕ} {cp : Option ℤ} {keep : Bool} {v : ℤ} {w w' : World} {css : List (List TCall)}
    (h : doTDVP O evT evM sv dt n cp keep v w = .ok (w', css)) :
    sv ≠ .other ∧ ∃ m0 e1 m1, w.evo.eng.mps.position O 0 = .ok m0 ∧
      tdvpIter O evT evM sv dt n { w.evo.eng with mps := m0 } = .ok (e1, css) ∧ e1.mps.position O 0 = .ok m1 ∧
      w'.evo.eng = { e1 with mps := m1.resetZ } ∧ w'.evo.it = w.evo.it + n ∧ w'.evo.t0 = w.evo.t0 + n * tickBy v dt ∧
      w.evo.TKept w'.evo ∧
      ∃ xs : List Evo, (∀ s ∈ xs, TSnap O evT evM sv dt v cp { w.evo with eng := { w.evo.eng with mps := m0 } } s) ∧
        xs.map Evo.it = (List.range' w.evo.it n).filter (cpAt cp) ∧
        w'.disk = retain keep (xs.map fun s => (cpName w.evo.filename "_tdvp_cp" s.it, s)) "None" w.disk := by
  unfold doTDVP at h
  split_ifs at h with hsv
  split at h
  · cases h
  rename_i m0 hm0
  split at h
  · cases h
  rename_i w1 cs hw1
  split at h
  · cases h
  rename_i m1 hm1
  simp only [Except.ok.injEq, Prod.mk.injEq] at h
  obtain ⟨rfl, rfl⟩ := h
  rw [Int.toNat_natCast] at hw1
  obtain ⟨cs', h0, b1, b2, b3, b4, xs, b5, b6, b7⟩ := tdvpLoop_spec _ _ _ _ _ _ hw1
  rw [List.nil_append] at h0; subst h0
  exact ⟨hsv, m0, w1.evo.eng, m1, hm0, b1, hm1, rfl, b2, b3, ⟨b4.tw, b4.maxD, b4.filename, b4.log⟩, xs, b5, b6, b7⟩

end

end PyTeN
