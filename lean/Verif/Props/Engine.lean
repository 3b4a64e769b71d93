import Verif.Engine.Init
import Verif.Mps.Ghz
import Verif.Props.Truncate

/-! # Properties of the DMRG engine (C31–C34, C66, C67) -/

namespace PyTeN
open Finset

noncomputable section

variable {O : LinAlg} {solve : Solve} {sv : Solver}

/-! ## C31 -/

/-- Successive calls of `position` on an engine. -/
def Eng.positions (O : LinAlg) : List ℤ → Eng → Res Eng
  | [], e => .ok e
  | n :: ns, e => match e.position O n with
    | .error x => .error x
    | .ok e' => Eng.positions O ns e'

/-- **C31**, moves.  After the constructor and any history of moves, the left environments up to the current
position and the right environments from it on are the contractions of the current tensors. -/
theorem C31_moves (hO : O.Spec) {m : MPS} {mpo : List (Mpo ℂ)} {lb rb : Option (Env ℂ)} {e e' : Eng} {l r : ℕ}
    (hi : Eng.init O m mpo lb rb = .ok e) (hW : mpo.length = m.N) (hw : m.WF l r) (hsq : m.mat.r = m.mat.c)
    (hs : m.sth < 1e-15) (ns : List ℤ) (h : e.positions O ns = .ok e') :
    e'.mps.WF e.lb.u e.rb.u ∧ e'.lb = e.lb ∧ e'.rb = e.rb ∧ e'.mpo = mpo ∧
      (∀ k ≤ e'.mps.pos, ∃ E, e'.L[k]? = some E ∧
        IsL e.lb (e'.mps.tensors.take k) (mpo.take k) (e'.mps.tensors.take k) E) ∧
      (∀ k, e'.mps.pos ≤ k → k ≤ e'.mps.N → ∃ E, e'.R[e'.mps.N - k]? = some E ∧
        IsR e.rb (e'.mps.tensors.drop k) (mpo.drop k) (e'.mps.tensors.drop k) E) := by
  obtain ⟨-, M, i1, rfl, rfl, V, -⟩ := init_spec hO hi hW hw hsq hs
  have key : ∀ (ns : List ℤ) (e1 : Eng), e1.mps.WF e.lb.u e.rb.u → e1.mps.sth < 1e-15 → e1.lb = e.lb → e1.rb = e.rb →
      e1.mpo = mpo → (e1.Val e1.mps.pos e1.mps.pos) → e1.positions O ns = .ok e' →
      e'.mps.WF e.lb.u e.rb.u ∧ e'.lb = e.lb ∧ e'.rb = e.rb ∧ e'.mpo = mpo ∧ e'.Val e'.mps.pos e'.mps.pos := by
    intro ns
    induction ns with
    | nil =>
      intro e1 a1 a2 a3 a4 a5 a6 hp
      simp only [Eng.positions, Except.ok.injEq] at hp
      subst hp; exact ⟨a1, a3, a4, a5, a6⟩
    | cons n ns ih =>
      intro e1 a1 a2 a3 a4 a5 a6 hp
      simp only [Eng.positions] at hp
      split at hp
      · cases hp
      rename_i e2 h2
      obtain ⟨p, rfl⟩ : ∃ p : ℕ, n = p := by
        unfold Eng.position at h2
        split_ifs at h2 with b1 b2 b3
        · exact ⟨n.toNat, by omega⟩
        · exact ⟨n.toNat, by omega⟩
      rcases lt_trichotomy p e1.mps.pos with hc | hc | hc
      · obtain ⟨-, M, g1, g2, g3, g4⟩ := eng_left hO a1 a2 a6 h2 hc le_rfl
        refine ih e2 M.wf (by rw [M.sth]; exact a2) (g2.trans a3) (g3.trans a4) (g1.trans a5) ?_ hp
        rw [M.pos]; exact g4.mono (by omega) le_rfl
      · obtain rfl := eng_stay h2 hc
        exact ih e2 a1 a2 a3 a4 a5 a6 hp
      · obtain ⟨-, -, M, g1, g2, g3, g4⟩ := eng_right hO a1 a2 a6 h2 hc le_rfl
        refine ih e2 M.wf (by rw [M.sth]; exact a2) (g2.trans a3) (g3.trans a4) (g1.trans a5) ?_ hp
        rw [M.pos]; exact g4.mono le_rfl (by omega)
  obtain ⟨k1, k2, k3, k4, k5⟩ := key ns e M.wf (by rw [M.sth]; exact hs) rfl rfl i1
    (V.mono (by rw [M.pos]; omega) (by omega)) h
  refine ⟨k1, k2, k3, k4, fun k hk => ?_, fun k hk hkN => ?_⟩
  · obtain ⟨E, hE⟩ := getElem?_of_lt (l := e'.L) (n := k) (by rw [k5.lenL]; have := k1.pos_le; omega)
    have := k5.left k hk E hE
    rw [k2, k4] at this
    exact ⟨E, hE, this⟩
  · obtain ⟨E, hE⟩ := getElem?_of_lt (l := e'.R) (n := e'.mps.N - k) (by rw [k5.lenR]; omega)
    have := k5.right k hk hkN E hE
    rw [k3, k4] at this
    exact ⟨E, hE, this⟩

/-- **C31**, DMRG.  Every eigensolver call of a simulation, in every sweep, gets the environments of the tensors
at that moment (`CallOK`), and these tensors are orthonormal if the chain was canonical. -/
theorem C31_dmrg (hO : O.Spec) (hsv : solve.Shape) {m : MPS} {mpo : List (Mpo ℂ)} {lb rb : Option (Env ℂ)} {e : Eng}
    {l r : ℕ} (hi : Eng.init O m mpo lb rb = .ok e) (hW : mpo.length = m.N) (hw : m.WF l r) (hsq : m.mat.r = m.mat.c)
    (hs : m.sth < 1e-15) (hlb : e.lb.u = e.lb.w) (hrb : e.rb.u = e.rb.w) (hN : 2 ≤ m.N)
    {Nmax : ℤ} {Econv : ℝ} {cp : Option ℤ} {res : SimRes} (h : e.simulate O solve sv Nmax Econv cp = .ok res) :
    ∀ cs ∈ res.sweeps, ∀ c ∈ cs, CallOK e.lb e.rb mpo c ∧ (m.Canonical → CallOrth c) ∧
      solve sv c.L c.W c.R c.T = .ok (c.energy, c.opt) := by
  obtain ⟨i0, M, i1, rfl, rfl, V, -⟩ := init_spec hO hi hW hw hsq hs
  unfold Eng.simulate at h
  split_ifs at h with hso
  have hr : e.Ready m.Canonical 0 0 :=
    ⟨0, 0, Or.inl M.wf, V.mono (by omega) le_rfl, fun h => by omega, fun h => by rw [M.pos] at h; omega,
      fun _ => by omega, fun hc => ⟨fun x t _ h => by omega, fun x t hx _ =>
        (canonical_position hO hw hs hc i0).right x t hx (by rw [M.pos]; omega)⟩⟩
  obtain ⟨new, saved, h1, -, S, -⟩ := simLoop_spec (flag := m.Canonical) hO hsv _ _ _ _ _ _ _ h (by omega) hlb hrb
    (by rw [M.sth]; exact hs) hr (by rw [M.N]; exact hN)
  intro cs hcs c hc
  rw [h1, List.nil_append] at hcs
  obtain ⟨g1, g2, -, g4⟩ := S.good cs hcs c hc
  rw [i1] at g1
  exact ⟨g1, g2, g4⟩

/-- **C31**, meaning of `CallOK`: the effective Hamiltonian built from the arguments of an eigensolver call has
the matrix elements of the MPO between the chains in which tensor `n` is replaced. -/
theorem C31_effective {lb rb : Env ℂ} {mpo : List (Mpo ℂ)} {c : Call} (h : CallOK lb rb mpo c)
    {X Y T : Ten ℂ} (hYl : Y.l = c.L.w) (hYr : Y.r = c.R.w) (hYd : Y.d = c.W.dout)
    (hT : contractionH c.L X c.W c.R = .ok T) :
    ∑ i ∈ range T.l, ∑ j ∈ range T.r, ∑ s ∈ range T.d, T.v i j s * star (Y.v i j s)
      = fullContr lb (c.mps.tensors.set c.n X) mpo (c.mps.tensors.set c.n Y) rb := by
  have hlt : c.n < c.mps.tensors.length := by rw [h.wf.len]; exact h.lt
  rw [C30_contractionH h.left h.right hYl hYr hYd hT, set_take_drop hlt, set_take_drop hlt, ← drop_getElem? h.op,
    List.take_append_drop]

/-! ## C66: histories of moves and site updates -/

/-- `optimize(n)` followed by `mps[n]=opt`, lib/mpslib/engines.py:274-275. -/
def Eng.optSet (solve : Solve) (sv : Solver) (e : Eng) (n : ℕ) : Res (Eng × Call) :=
  match e.optimize solve sv n with
  | .error x => .error x
  | .ok (e2, c) =>
    match e2.mps.setItem n c.opt with
    | .error x => .error x
    | .ok m => .ok ({ e2 with mps := m }, c)

/-- User operations. -/
inductive EngOp
  | move (p : ℕ)
  | opt (n : ℕ)

/-- A history of operations; the eigensolver calls are recorded. -/
def Eng.run (O : LinAlg) (solve : Solve) (sv : Solver) : List EngOp → Eng → List Call → Res (Eng × List Call)
  | [], e, acc => .ok (e, acc)
  | .move p :: ops, e, acc => match e.position O p with
    | .error x => .error x
    | .ok e' => Eng.run O solve sv ops e' acc
  | .opt n :: ops, e, acc => match e.optSet solve sv n with
    | .error x => .error x
    | .ok (e', c) => Eng.run O solve sv ops e' (acc ++ [c])

/-- Spec: the order in which DMRG-like algorithms work.  An updated site must be left through the move that
puts it into an environment: to the right if it is right of the centre, to the left if it is left of it. -/
def Disciplined : ℕ → Option ℕ → List EngOp → Prop
  | _, _, [] => True
  | _, none, .move p :: ops => Disciplined p none ops
  | q, some n, .move p :: ops => (q = n ∧ n < p ∨ q = n + 1 ∧ p ≤ n) ∧ Disciplined p none ops
  | q, none, .opt n :: ops => Disciplined q (some n) ops
  | _, some _, .opt _ :: _ => False

theorem position_here {e : Eng} {l r : ℕ} (hw : e.mps.WF l r) : e.position O (e.mps.pos : ℤ) = .ok e := by
  have h := hw.pos_le
  have hm : e.mps.position O (e.mps.pos : ℤ) = .ok e.mps := by
    unfold MPS.position
    rw [if_neg (by simp; omega), if_neg (by simp)]
    simp
  unfold Eng.position
  rw [if_neg (by omega), if_neg (by omega), if_pos (by omega), hm]
  simp [growL]

theorem step_here {e : Eng} {l r n : ℕ} (hw : e.mps.WF l r) :
    e.step O solve sv e.mps.pos n = e.optSet solve sv n := by
  unfold Eng.step Eng.optSet
  rw [position_here hw]
  rfl

/-- **C66_partial**.  In every disciplined history of moves and site updates all eigensolver calls get the
environments of the current tensors, and afterwards the caches on both sides of the centre (of the updated site)
are the contractions of the current tensors.  Missing: other histories, for which it is false (`C66_violated`). -/
theorem C66_partial (hO : O.Spec) (hsv : solve.Shape) (ops : List EngOp) : ∀ (e e' : Eng) (acc acc' : List Call)
    (d : Option ℕ), e.lb.u = e.lb.w → e.rb.u = e.rb.w → e.mps.sth < 1e-15 →
    (match (generalizing := false) d with
      | none => e.mps.WF e.lb.u e.rb.u ∧ e.Val e.mps.pos e.mps.pos
      | some n => e.mps.Loose e.lb.u e.rb.u ∧ e.Val n (n + 1) ∧ n < e.mps.N) →
    Disciplined e.mps.pos d ops → Eng.run O solve sv ops e acc = .ok (e', acc') →
    ∃ cs, acc' = acc ++ cs ∧ (∀ c ∈ cs, CallOK e.lb e.rb e.mpo c) ∧ e'.lb = e.lb ∧ e'.rb = e.rb ∧ e'.mpo = e.mpo ∧
      ((e'.mps.WF e.lb.u e.rb.u ∧ e'.Val e'.mps.pos e'.mps.pos) ∨
        ∃ n, n < e.mps.N ∧ e'.mps.Loose e.lb.u e.rb.u ∧ e'.Val n (n + 1)) := by
  induction ops with
  | nil =>
    intro e e' acc acc' d _ _ _ hd _ h
    simp only [Eng.run, Except.ok.injEq, Prod.mk.injEq] at h
    obtain ⟨rfl, rfl⟩ := h
    refine ⟨[], by simp, by simp, rfl, rfl, rfl, ?_⟩
    cases d with
    | none => exact Or.inl hd
    | some n => exact Or.inr ⟨n, hd.2.2, hd.1, hd.2.1⟩
  | cons op ops ih =>
    intro e e' acc acc' d hlb hrb hs hd hdis h
    cases op with
    | move p =>
      simp only [Eng.run] at h
      split at h
      · cases h
      rename_i e1 h1
      have key : e1.mps.WF e.lb.u e.rb.u ∧ e1.Val e1.mps.pos e1.mps.pos ∧ e1.lb = e.lb ∧ e1.rb = e.rb ∧ e1.mpo = e.mpo ∧
          e1.mps.pos = p ∧ e1.mps.sth = e.mps.sth ∧ e1.mps.N = e.mps.N ∧ Disciplined p none ops := by
        have hst : ∃ a b, e.mps.WF e.lb.u e.rb.u ∧ e.Val a b ∧ (e.mps.pos < p → e.mps.pos ≤ a ∧ b ≤ p) ∧
            (p < e.mps.pos → b ≤ e.mps.pos ∧ p ≤ a) ∧ (p = e.mps.pos → p ≤ a ∧ b ≤ p) ∧ Disciplined p none ops := by
          cases d with
          | none =>
            exact ⟨_, _, hd.1, hd.2, fun h => by omega, fun h => by omega, fun h => by omega, hdis⟩
          | some n =>
            obtain ⟨c1, c2⟩ := hdis
            exact ⟨n, n + 1, loose_wf hd.1 (eng_mps_position h1) (by omega), hd.2.1, fun h => by omega, fun h => by omega,
              fun h => by omega, c2⟩
        obtain ⟨a, b, hw, hv, s1, s2, s3, s4⟩ := hst
        rcases lt_trichotomy p e.mps.pos with hc | hc | hc
        · obtain ⟨-, M, g1, g2, g3, g4⟩ := eng_left hO hw hs hv h1 hc (s2 hc).1
          exact ⟨M.wf, by rw [M.pos]; exact g4.mono (by have := (s2 hc).2; omega) le_rfl, g2, g3, g1, M.pos, M.sth, M.N, s4⟩
        · obtain rfl := eng_stay h1 hc
          refine ⟨hw, by rw [← hc]; exact hv.mono (s3 hc).1 (s3 hc).2, rfl, rfl, rfl, hc.symm, rfl, rfl, s4⟩
        · obtain ⟨-, -, M, g1, g2, g3, g4⟩ := eng_right hO hw hs hv h1 hc (s1 hc).1
          exact ⟨M.wf, by rw [M.pos]; exact g4.mono le_rfl (by have := (s1 hc).2; omega), g2, g3, g1, M.pos, M.sth, M.N, s4⟩
      obtain ⟨k1, k2, k3, k4, k5, k6, k7, k8, k9⟩ := key
      have := ih e1 e' acc acc' none (by rw [k3]; exact hlb) (by rw [k4]; exact hrb) (by rw [k7]; exact hs)
        ⟨by rw [k3, k4]; exact k1, k2⟩ (by rw [k6]; exact k9) h
      rw [k3, k4, k5, k8] at this
      exact this
    | opt n =>
      simp only [Eng.run] at h
      split at h
      · cases h
      rename_i e1 c h1
      cases d with
      | some n' => exact absurd hdis (by simp [Disciplined])
      | none =>
        have hw := hd.1
        rw [← step_here (O := O) hw] at h1
        have hpn : (e.mps.pos = n ∨ e.mps.pos = n + 1) ∧ n < e.mps.N := by
          rw [step_here hw] at h1
          unfold Eng.optSet Eng.optimize at h1
          split at h1
          · cases h1
          rename_i e2 c2 hopt
          split_ifs at hopt with hso
          split at hopt
          · cases hopt
          split at hopt
          · cases hopt
          split at hopt
          · cases hopt
          split at hopt
          · cases hopt
          rename_i T m1 hT
          obtain ⟨t1, -, ⟨t, t2, -⟩, -⟩ := tensor_clear hw hT
          exact ⟨t1, by rw [← hw.len]; exact (List.getElem?_eq_some_iff.mp t2).1⟩
        obtain ⟨s1, s2, s3, s4, s5, s6, s7, s8, s9, s10, -, s12, s13, -⟩ :=
          step_spec hO hsv hlb hrb (Or.inl hw) hs hd.2 h1 hpn.1 hpn.2 (fun h => by omega) (fun h => by omega)
            (fun _ => by omega)
        have := ih e1 e' (acc ++ [c]) acc' (some n) (by rw [s7]; exact hlb) (by rw [s8]; exact hrb) (by rw [s10]; exact hs)
          ⟨s3, s5, by rw [s9]; exact hpn.2⟩ (by rw [s4]; exact hdis) h
        rw [s6, s7, s8, s9] at this
        obtain ⟨cs, j1, j2, j3⟩ := this
        refine ⟨c :: cs, by rw [j1]; simp, ?_, j3⟩
        intro c' hc'
        rcases List.mem_cons.mp hc' with rfl | hc'
        · exact s2
        · exact j2 c' hc'

/-! ### A history outside the discipline -/

/-- Scalar 1×1 site tensor. -/
def sT (x : ℂ) : Ten ℂ := ⟨1, 1, 1, fun _ _ _ => x⟩

/-- Two-site chain of numbers `1`, centre in the middle. -/
def sMps : MPS :=
  { N := 2, Dmax := 1, obc := true, sth := 1e-16, rth := 1e-14, tensors := [sT 1, sT 1]
    mat := ⟨1, 1, fun _ _ => 1⟩, conn := ⟨1, 1, fun _ _ => 1⟩, pos := 1, Z := 1 }

/-- Trivial MPO tensor. -/
def sW : Mpo ℂ := ⟨1, 1, 1, 1, fun _ _ _ _ => 1⟩

/-- The engine with this chain and up-to-date caches. -/
def sEng : Eng := ⟨sMps, [sW, sW], oneEnv, oneEnv, [oneEnv, oneEnv, oneEnv], [oneEnv, oneEnv, oneEnv]⟩

/-- An eigensolver that always returns the number `2` as tensor. -/
def sSolve : Solve := fun _ L W R _ => .ok (0, ⟨L.w, R.w, W.dout, fun _ _ _ => 2⟩)

theorem sMps_wf : sMps.WF 1 1 := by
  refine ⟨rfl, by decide, ?_, ?_⟩ <;> simp [sMps, sT, Linked]

theorem sEng_val : sEng.Val 2 0 := by
  have l1 : IsL (oneEnv : Env ℂ) [sT 1] [sW] [sT 1] oneEnv := by
    refine ⟨by simp [Linked, sT, oneEnv], by simp [MLinked, sW, oneEnv], by simp [Linked, sT, oneEnv], by simp [Fits, sT, sW], ?_⟩
    intro j hj j' hj' b hb
    simp [contrL, oneEnv, sT, sW, sumCfg, chain, mchain, delta] at *
    simp [hj, hj', hb]
  have r1 : IsR (oneEnv : Env ℂ) [sT 1] [sW] [sT 1] oneEnv := by
    refine ⟨by simp [Linked, sT, oneEnv], by simp [MLinked, sW, oneEnv], by simp [Linked, sT, oneEnv], by simp [Fits, sT, sW], ?_⟩
    intro j hj j' hj' b hb
    simp [contrR, oneEnv, sT, sW, sumCfg, chain, mchain, delta] at *
  have l2 : IsL (oneEnv : Env ℂ) [sT 1, sT 1] [sW, sW] [sT 1, sT 1] oneEnv := by
    refine ⟨by simp [Linked, sT, oneEnv], by simp [MLinked, sW, oneEnv], by simp [Linked, sT, oneEnv], by simp [Fits, sT, sW], ?_⟩
    intro j hj j' hj' b hb
    simp [contrL, oneEnv, sT, sW, sumCfg, chain, mchain, delta] at *
    simp [hj, hj', hb]
  have r2 : IsR (oneEnv : Env ℂ) [sT 1, sT 1] [sW, sW] [sT 1, sT 1] oneEnv := by
    refine ⟨by simp [Linked, sT, oneEnv], by simp [MLinked, sW, oneEnv], by simp [Linked, sT, oneEnv], by simp [Fits, sT, sW], ?_⟩
    intro j hj j' hj' b hb
    simp [contrR, oneEnv, sT, sW, sumCfg, chain, mchain, delta] at *
  refine ⟨rfl, rfl, rfl, fun k hk E hE => ?_, fun k _ hk E hE => ?_⟩
  · interval_cases k <;> simp [sEng] at hE <;> subst hE
    · exact isL_nil _
    · exact l1
    · exact l2
  · have hk : k ≤ 2 := hk
    interval_cases k <;> simp [sEng, sMps] at hE <;> subst hE
    · exact r2
    · exact r1
    · exact isR_nil _

/-- The engine of the witness after `optimize(1)` and `mps[1]=opt`. -/
theorem sEng_opt : ∃ e c, sEng.optSet sSolve .LAN 1 = .ok (e, c) ∧
    e = { sEng with mps := { sMps with tensors := [sT 1, sT 2], mat := eyeNormed 1 } } := by
  refine ⟨_, _, rfl, ?_⟩
  rfl

/-- **C66** is false for other histories: with up-to-date caches and the centre in the middle, updating the right
site and moving left leaves a right environment that still contains the old tensor. -/
theorem C66_violated (hO : O.Spec) : sEng.mps.WF sEng.lb.u sEng.rb.u ∧ sEng.Val sEng.mps.pos sEng.mps.pos ∧
    ∃ e' cs E, sEng.run O sSolve .LAN [.opt 1, .move 0] [] = .ok (e', cs) ∧ e'.R[2]? = some E ∧
      ¬ IsR e'.rb e'.mps.tensors e'.mpo e'.mps.tensors E := by
  refine ⟨sMps_wf, sEng_val.mono (by decide) (by decide), ?_⟩
  obtain ⟨e1, c, h1, rfl⟩ := sEng_opt
  set m1 : MPS := { sMps with tensors := [sT 1, sT 2], mat := eyeNormed 1 } with hm1
  have hw : m1.WF 1 1 := by refine ⟨rfl, by decide, ?_, ?_⟩ <;> simp [m1, sMps, sT, Linked, eyeNormed]
  have hs : m1.sth < 1e-15 := by simp only [m1, sMps]; norm_num
  have hsq : m1.mat.r = m1.mat.c := rfl
  have had : ∀ t ∈ m1.tensors, t.Adm := by simp [m1, Ten.Adm, sT]
  obtain ⟨m, hm⟩ := position_ok (b := 0) hO hw hs ⟨[0, 0], 0, 0, by simp [Cfg, m1, sT], by simp, by
    simp [MPS.amp, m1, sMps, sT, chain, eyeNormed, delta]⟩ (by simp)
  obtain ⟨-, -, M⟩ := position_moved hO (effSth_default hs) hw hm
  obtain ⟨sh, sq1⟩ := position_shape hO hs hm had hsq
  have hmN : m.N = 2 := M.N
  obtain ⟨t0, t1, ht⟩ : ∃ t0 t1, m.tensors = [t0, t1] := by
    have hl : m.tensors.length = 2 := M.wf.len.trans hmN
    match h : m.tensors, hl with
    | [a, b], _ => exact ⟨a, b, rfl⟩
  have e1 : t1 = sT 2 := by
    have := M.same 1 (Or.inr ⟨by decide, by decide⟩)
    rw [ht] at this
    simpa [m1] using this
  subst e1
  have s0 : t0.l = 1 ∧ t0.r = 1 ∧ t0.d = 1 := by
    rw [ht] at sh
    simpa [m1, Ten.shape, sT] using sh
  obtain ⟨s1, s2, s3⟩ := s0
  have hr : t0.v 0 0 0 * star (t0.v 0 0 0) = 1 := by
    have := M.right 0 t0 (by rw [ht]; rfl) (by decide) (by decide) 0 (by omega) 0 (by omega)
    rw [s2, s3] at this
    simpa [sum_range_succ, delta] using this
  obtain ⟨E, hE⟩ : ∃ E, addLayerL oneEnv t0 sW t0 = .ok E := by
    unfold addLayerL
    rw [if_pos ⟨s2.symm, rfl, s3, s2.symm, s3.symm⟩]
    exact ⟨_, rfl⟩
  obtain ⟨v1, v2, v3, -, -, -, -, -, v9⟩ := addLayerL_v hE
  have hEv : E.v 0 0 0 = 1 := by
    rw [v9]
    simp only [contrR, List.map_cons, List.map_nil, sumCfg, chain, mchain, s2, s3, oneEnv, sW, sum_range_succ, range_zero,
      sum_empty, zero_add, delta, if_true, mul_one, one_mul]
    exact hr
  have hm' : m1.position O (0 : ℤ) = .ok m := hm
  have hg : m.getItem (0 : ℤ) = .ok t0 := getItem_ok (n := 0) (by rw [ht]; rfl)
  have hgrow : growR m [sW, sW] 1 1 [oneEnv, oneEnv, oneEnv] = .ok [oneEnv, oneEnv, E] := by
    simp [growR, hmN, getE, hg, hE, setE]
  refine ⟨⟨m, [sW, sW], oneEnv, oneEnv, [oneEnv, oneEnv, oneEnv], [oneEnv, oneEnv, E]⟩, [c], E, ?_, rfl, ?_⟩
  · simp only [Eng.run, h1]
    unfold Eng.position
    simp only [sEng]
    rw [if_neg (by simp), if_neg (by simp), if_neg (by simp [m1, sMps])]
    simp only [Nat.cast_zero, hm']
    rw [show m1.pos - Int.toNat 0 = 1 from rfl, show m1.pos = 1 from rfl, hgrow]
    simp
  · intro h
    have hv := h.v 0 (by omega) 0 (by omega) 0 (by rw [v3]; simp [sW])
    rw [hEv] at hv
    simp only [ht, contrR, List.map_cons, List.map_nil, sumCfg, chain, mchain, s2, s3, oneEnv, sW, sT, sum_range_succ, range_zero,
      sum_empty, zero_add, delta, if_true, mul_one, one_mul, star_mul'] at hv
    rw [show t0.v 0 0 0 * 2 * (star (t0.v 0 0 0) * star 2) = (t0.v 0 0 0 * star (t0.v 0 0 0)) * (2 * star 2) by ring, hr] at hv
    simp at hv
    norm_num at hv

/-! ## C32 -/

/-- **C32**, out of range: IndexError, before anything is changed. -/
theorem C32_range (O : LinAlg) (e : Eng) (n : ℤ) (h : n < 0 ∨ (e.mps.N : ℤ) < n) : e.position O n = .error .index := by
  unfold Eng.position
  by_cases h1 : n > e.mps.N
  · rw [if_pos h1]
  · rw [if_neg h1, if_pos (by omega)]

/-- **C32**, success: only in range, and the position becomes `n`; the represented state is unchanged. -/
theorem C32_success (hO : O.Spec) {e e' : Eng} {n : ℤ} {l r : ℕ} (hw : e.mps.WF l r) (hs : e.mps.sth < 1e-15)
    (h : e.position O n = .ok e') : 0 ≤ n ∧ n ≤ e.mps.N ∧ (e'.mps.pos : ℤ) = n ∧ e'.mps.WF l r ∧ e'.mps.ds = e.mps.ds ∧
      ∀ s, Cfg e.mps.tensors s → ∀ i < l, ∀ j, e'.mps.amp s i j = e.mps.amp s i j := by
  obtain ⟨h1, h2, M⟩ := position_moved hO (effSth_default hs) hw (eng_mps_position h)
  exact ⟨h1, h2, by rw [M.pos]; omega, M.wf, M.ds, M.amp⟩

/-- **C32_partial**.  On an engine with valid caches around the centre whose state does not vanish, `position(n)`
raises IndexError exactly for `n<0` or `n>N` and succeeds otherwise.  Missing: engines after `update()`, for which
it is false (`C33_violated`). -/
theorem C32_partial (hO : O.Spec) {e : Eng} (hw : e.mps.WF e.lb.u e.rb.u) (hs : e.mps.sth < 1e-15) (hf : e.Fit)
    (hv : e.Val e.mps.pos e.mps.pos) (hne : ∃ s i j, Cfg e.mps.tensors s ∧ i < e.lb.u ∧ e.mps.amp s i j ≠ 0) (n : ℤ) :
    (e.position O n = .error .index ↔ n < 0 ∨ (e.mps.N : ℤ) < n) ∧
      ((∃ e', e.position O n = .ok e') ↔ 0 ≤ n ∧ n ≤ e.mps.N) := by
  by_cases h : n < 0 ∨ (e.mps.N : ℤ) < n
  · have := C32_range O e n h
    refine ⟨⟨fun _ => h, fun _ => this⟩, ⟨?_, fun h2 => by omega⟩⟩
    rintro ⟨e', he'⟩
    rw [this] at he'; cases he'
  · obtain ⟨p, rfl⟩ : ∃ p : ℕ, n = p := ⟨n.toNat, by omega⟩
    obtain ⟨e', he'⟩ := eng_position_ok (p := p) hO hw hs hf hv (by omega) (fun _ => le_rfl) (fun _ => le_rfl) hne
    refine ⟨⟨fun h2 => ?_, fun h2 => absurd h2 h⟩, ⟨fun _ => by omega, fun _ => ⟨e', he'⟩⟩⟩
    rw [he'] at h2; cases h2

/-- Case: the scalar chain, all integers. -/
example (hO : O.Spec) (n : ℤ) : (∃ e', sEng.position O n = .ok e') ↔ 0 ≤ n ∧ n ≤ 2 :=
  (C32_partial hO (e := sEng) sMps_wf (by simp only [sEng, sMps]; norm_num)
    ⟨rfl, rfl, by simp [sEng, MLinked, sW, oneEnv], by simp [sEng, MPS.ds, sMps, sW, sT],
      by simp [sEng, MPS.ds, sMps, sW, sT]⟩ (sEng_val.mono (by decide) (by decide))
    ⟨[0, 0], 0, 0, by simp [Cfg, sEng, sMps, sT], by simp [sEng, oneEnv], by
      simp [MPS.amp, sEng, sMps, sT, chain, delta]⟩ n).2

/-! ## C33 -/

/-- With a one-element list of left environments the loop to the right cannot get through. -/
theorem growL_short {m : MPS} {mpo : List (Mpo ℂ)} {E : Env ℂ} {k : ℕ} (hk : 0 < k) (L' : List (Env ℂ)) :
    growL m mpo k 0 [E] ≠ .ok L' := by
  obtain ⟨k, rfl⟩ : ∃ j, k = j + 1 := ⟨k - 1, by omega⟩
  intro h
  simp only [growL] at h
  split at h
  · cases h
  split at h
  · cases h
  split at h
  · cases h
  split at h
  · cases h
  split at h
  · cases h
  rename_i h1
  simp [setE] at h1

theorem position_pos {m m' : MPS} {b : ℤ} (h : m.position O b = .ok m') : m'.pos = b.toNat := by
  unfold MPS.position at h
  split_ifs at h with h1
  simp only at h
  split_ifs at h with h2 h3
  · simp only [Except.ok.injEq] at h; subst h; exact h2.symm
  · split at h
    · cases h
    split at h
    · cases h
    split at h
    · cases h
    simp only [Except.ok.injEq] at h
    subst h; rfl
  · split at h
    · cases h
    split at h
    · cases h
    split at h
    · cases h
    simp only [Except.ok.injEq] at h
    subst h; rfl

/-- **C33** is false: after `update()` no `position(n)` with `n ≥ 1` succeeds, whatever the engine. -/
theorem C33_violated {e e' : Eng} (h : e.update O = .ok e') (n : ℕ) (hn : 1 ≤ n) (e'' : Eng) :
    e'.position O n ≠ .ok e'' := by
  unfold Eng.update at h
  split at h
  · cases h
  rename_i m hm
  split at h
  · cases h
  simp only [Except.ok.injEq] at h
  subst h
  have hp : m.pos = 0 := position_pos hm
  intro h2
  unfold Eng.position at h2
  split_ifs at h2 with h3 h4 h5
  · split at h2
    · cases h2
    rename_i m' hm'
    split at h2
    · cases h2
    rename_i L hL'
    simp only [hp] at hL'
    exact growL_short (by omega) _ hL'
  · simp only [hp] at h5; omega

/-- **C33**, the same after `truncateMPS`. -/
theorem C33_violated_truncate {inf : MPS → Res MPS} {e e' : Eng} {th : ℝ} {D : Option ℕ}
    (h : e.truncateMPS O inf th D = .ok e') (n : ℕ) (hn : 1 ≤ n) (e'' : Eng) : e'.position O n ≠ .ok e'' := by
  unfold Eng.truncateMPS at h
  split at h
  · cases h
  exact C33_violated h n hn e''

/-- **C33_partial**.  On a consistent engine `update()` succeeds, puts the centre to 0, leaves the state alone and
makes all right environments valid; `position(0)` works afterwards, and every other `position(n)` in range raises
IndexError.  Missing: success of the latter (false, `C33_violated`). -/
theorem C33_partial (hO : O.Spec) {e : Eng} (hw : e.mps.WF e.lb.u e.rb.u) (hsq : e.mps.mat.r = e.mps.mat.c)
    (hs : e.mps.sth < 1e-15) (hf : e.Fit) (hN : 0 < e.mps.N) (had : ∀ t ∈ e.mps.tensors, t.Adm)
    (hne : ∃ s i j, Cfg e.mps.tensors s ∧ i < e.lb.u ∧ e.mps.amp s i j ≠ 0) :
    ∃ e', e.update O = .ok e' ∧ e'.mps.pos = 0 ∧ e'.mps.N = e.mps.N ∧ e'.L = [e.lb] ∧
      (∀ s, Cfg e.mps.tensors s → ∀ i < e.lb.u, ∀ j, e'.mps.amp s i j = e.mps.amp s i j) ∧
      (∀ k ≤ e.mps.N, ∃ E, e'.R[e.mps.N - k]? = some E ∧
        IsR e.rb (e'.mps.tensors.drop k) (e.mpo.drop k) (e'.mps.tensors.drop k) E) ∧
      e'.position O 0 = .ok e' ∧ ∀ n : ℕ, 1 ≤ n → e'.position O n = .error .index := by
  obtain ⟨m, hm⟩ := position_ok (b := 0) hO hw hs hne (by omega)
  obtain ⟨-, -, M⟩ := position_moved hO (effSth_default hs) hw hm
  obtain ⟨sh, sq1⟩ := position_shape hO hs hm had hsq
  have hl1 := wf_link M.wf sq1
  have hlen : m.tensors.length = e.mps.N := by rw [M.wf.len, M.N]
  have hne1 : m.tensors ≠ [] := by intro h0; rw [h0] at hlen; simp at hlen; omega
  have hfit : Fits m.tensors e.mpo m.tensors :=
    fits_of_maps (by rw [hf.ins]; exact M.ds.symm) (by rw [hf.outs]; exact M.ds.symm)
  have hWl : e.mpo.length = e.mps.N := by
    have := congrArg List.length hf.ins
    rw [List.length_map, MPS.ds, List.length_map, hw.len] at this
    exact this
  obtain ⟨Rs, hRs⟩ := C30_getR_succeeds (rb := e.rb) hne1 hl1 (hf.rb ▸ hl1) hf.mlink hfit
  have hup : e.update O = .ok { e with mps := m, L := [e.lb], R := e.rb :: Rs } := by
    unfold Eng.update
    rw [show e.mps.position O 0 = .ok m from hm]
    simp only [hRs]
  obtain ⟨-, -, -, -, -, -, u1, u2⟩ := update_spec hO hup hWl hw hs
  refine ⟨_, hup, M.pos, M.N, rfl, M.amp, ?_, ?_, ?_⟩
  · intro k hk
    simp only [M.N] at u2
    obtain ⟨E, hE⟩ := getElem?_of_lt (l := e.rb :: Rs) (n := e.mps.N - k) (by rw [u1]; omega)
    exact ⟨E, hE, u2 k hk E hE⟩
  · have := position_here (O := O) (e := { e with mps := m, L := [e.lb], R := e.rb :: Rs }) M.wf
    simp only [M.pos] at this
    exact this
  · intro n hn
    by_cases hnN : (e.mps.N : ℤ) < n
    · exact C32_range O _ _ (Or.inr (by simp only [M.N]; exact hnN))
    have hne' : ∃ s i j, Cfg m.tensors s ∧ i < e.lb.u ∧ m.amp s i j ≠ 0 := by
      obtain ⟨s, i, j, c1, c2, c3⟩ := hne
      refine ⟨s, i, j, ?_, c2, by rw [M.amp s c1 i c2 j]; exact c3⟩
      rw [cfg_iff_map, show m.tensors.map Ten.d = e.mps.tensors.map Ten.d from M.ds]
      exact cfg_iff_map.mp c1
    have hs1 : m.sth < 1e-15 := by rw [M.sth]; exact hs
    obtain ⟨m2, hm2⟩ := position_ok (b := n) hO M.wf hs1 hne' (by rw [M.N]; omega)
    obtain ⟨-, -, M2⟩ := position_moved hO (effSth_default hs1) M.wf hm2
    rw [Int.toNat_natCast] at M2
    obtain ⟨-, sq2⟩ := position_shape hO hs1 hm2 (adm_shape sh had) sq1
    have hl2 := wf_link M2.wf sq2
    have hlen2 : m2.tensors.length = e.mps.N := by rw [M2.wf.len, M2.N, M.N]
    obtain ⟨A, hA⟩ := getElem?_of_lt (l := m2.tensors) (n := 0) (by omega)
    obtain ⟨W, hW⟩ := getElem?_of_lt (l := e.mpo) (n := 0) (by omega)
    obtain ⟨d1, d2⟩ := fit_site hf (M2.ds.trans M.ds) hA hW
    have hAl : A.l = e.lb.u := by
      rw [show m2.tensors = m2.tensors.drop 0 from rfl, drop_getElem? hA] at hl2
      exact hl2.1
    have hWm : W.l = e.lb.m := by
      have := hf.mlink
      rw [show e.mpo = e.mpo.drop 0 from rfl, drop_getElem? hW] at this
      exact this.1
    have hadd : ∃ E, addLayerR e.lb A W A = .ok E := by
      unfold addLayerR
      rw [if_pos ⟨hAl.symm, hWm.symm, d1, by rw [hAl, hf.lb], d2⟩]
      exact ⟨_, rfl⟩
    obtain ⟨E, hE⟩ := hadd
    have hgrow : growL m2 e.mpo (n - 0) 0 [e.lb] = .error .index := by
      obtain ⟨k, rfl⟩ : ∃ k, n = k + 1 := ⟨n - 1, by omega⟩
      have hg := getItem_ok hA
      simp only [Nat.sub_zero, growL, getE_some (show [e.lb][0]? = some e.lb from rfl), hg, getE_some hW, hE]
      simp [setE]
    unfold Eng.position
    simp only [M.N, M.pos]
    rw [if_neg (by omega), if_neg (by omega), if_pos (by omega), hm2]
    simp only [Int.toNat_natCast, hgrow]

/-- Case: the scalar chain. -/
example (hO : O.Spec) : ∃ e', sEng.update O = .ok e' ∧ e'.position O 1 = .error .index := by
  obtain ⟨e', h1, -, -, -, -, -, -, h8⟩ := C33_partial hO (e := sEng) sMps_wf rfl (by simp only [sEng, sMps]; norm_num)
    ⟨rfl, rfl, by simp [sEng, MLinked, sW, oneEnv], by simp [sEng, MPS.ds, sMps, sW, sT],
      by simp [sEng, MPS.ds, sMps, sW, sT]⟩ (by simp [sEng, sMps]) (by simp [sEng, sMps, Ten.Adm, sT])
    ⟨[0, 0], 0, 0, by simp [Cfg, sEng, sMps, sT], by simp [sEng, oneEnv], by
      simp [MPS.amp, sEng, sMps, sT, chain, delta]⟩
  exact ⟨e', h1, h8 1 le_rfl⟩

/-! ## C34 -/

/-- Spec: what `simulate` does, in terms of its arguments and of the recorded sweeps. -/
structure DmrgRun (N : ℕ) (Nmax : ℤ) (Econv : ℝ) (cp : Option ℤ) (res : SimRes) : Prop where
  /-- at least one sweep, at most `Nmax` (if that is positive) -/
  pos : 1 ≤ res.sweeps.length
  le : (res.sweeps.length : ℤ) ≤ max 1 Nmax
  /-- sites of every sweep -/
  sites : ∀ cs ∈ res.sweeps, cs.map Call.n = List.range (N - 1) ++ (List.range' 1 (N - 1)).reverse
  /-- the returned energy is that of the last call -/
  ret : ∀ cs c, res.sweeps.getLast? = some cs → cs.getLast? = some c → res.energy = c.energy
  /-- before the last sweep there is no sweep with converged energy -/
  go : ∀ i, i + 1 < res.sweeps.length → ∀ x y,
    ((100000 : ℂ) :: res.sweeps.map sweepEnergy)[i]? = some x →
    ((100000 : ℂ) :: res.sweeps.map sweepEnergy)[i + 1]? = some y → Econv ≤ ‖y - x‖
  /-- the loop ends because of the sweep number or of convergence in the last sweep -/
  stop : Nmax ≤ res.sweeps.length ∨ ∀ x,
    ((100000 : ℂ) :: res.sweeps.map sweepEnergy)[res.sweeps.length - 1]? = some x → ‖res.energy - x‖ < Econv
  /-- checkpoints exactly at the multiples of `cp` -/
  cps : res.saved.map Prod.fst = (List.range' 1 res.sweeps.length).filter (isCp cp)
  /-- with the state after that sweep -/
  cpst : ∀ i m, (i, m) ∈ res.saved → ∃ cs c, res.sweeps[i - 1]? = some cs ∧ cs.getLast? = some c ∧
    m.tensors = c.mps.tensors.set c.n c.opt
  /-- the final tensors are those after the last call -/
  last : ∃ cs c, res.sweeps.getLast? = some cs ∧ cs.getLast? = some c ∧
    res.eng.mps.tensors = c.mps.tensors.set c.n c.opt
  /-- the norm is reset -/
  Z : res.eng.mps.Z = 1

/-- **C34**.  Schedule, stopping rule, checkpoints and result of every successful simulation. -/
theorem C34_simulate (hO : O.Spec) (hsv : solve.Shape) {m : MPS} {mpo : List (Mpo ℂ)} {lb rb : Option (Env ℂ)} {e : Eng}
    {l r : ℕ} (hi : Eng.init O m mpo lb rb = .ok e) (hW : mpo.length = m.N) (hw : m.WF l r) (hsq : m.mat.r = m.mat.c)
    (hs : m.sth < 1e-15) (hlb : e.lb.u = e.lb.w) (hrb : e.rb.u = e.rb.w) (hN : 2 ≤ m.N)
    {Nmax : ℤ} {Econv : ℝ} {cp : Option ℤ} {res : SimRes} (h : e.simulate O solve sv Nmax Econv cp = .ok res) :
    DmrgRun m.N Nmax Econv cp res := by
  obtain ⟨i0, M, i1, rfl, rfl, V, -⟩ := init_spec hO hi hW hw hsq hs
  unfold Eng.simulate at h
  split_ifs at h with hso
  have hr : e.Ready False 0 0 :=
    ⟨0, 0, Or.inl M.wf, V.mono (by omega) le_rfl, fun h => by omega, fun h => by rw [M.pos] at h; omega,
      fun _ => by omega, fun hc => hc.elim⟩
  obtain ⟨new, saved, h1, h2, S, hZ, -⟩ := simLoop_spec (flag := False) hO hsv _ _ _ _ _ _ _ h (by omega) hlb hrb
    (by rw [M.sth]; exact hs) hr (by rw [M.N]; exact hN)
  rw [List.nil_append] at h1 h2
  have hpos : 1 ≤ new.length := List.length_pos_iff.mpr S.ne
  refine ⟨by rw [h1]; exact hpos, ?_, ?_, ?_, ?_, ?_, ?_, ?_, ?_, hZ⟩
  · rw [h1]
    rcases Nat.lt_or_ge 1 new.length with h3 | h3
    · have := S.le h3; rw [show 1 + new.length - 1 = new.length by omega] at this
      exact le_max_of_le_right this
    · exact le_max_of_le_left (by omega)
  · rw [h1]; intro cs hcs
    have := S.sites cs hcs
    rw [M.N] at this
    exact this
  · rw [h1]
    intro cs c a b
    rw [S.ret, List.getLastD_eq_getLast?, List.getLast?_map, a]
    simp [sweepEnergy, b]
  · rw [h1]; exact S.go
  · rw [h1]
    rcases S.stop with h3 | h3
    · left; omega
    · exact Or.inr h3
  · rw [h1, h2]; exact S.cp
  · rw [h1, h2]; exact S.cpst
  · rw [h1]; exact S.last

/-- **C34**: every site of the chain is visited in a sweep, the ends once and the others twice. -/
theorem C34_visits {N : ℕ} (hN : 2 ≤ N) (i : ℕ) :
    (List.range (N - 1) ++ (List.range' 1 (N - 1)).reverse).count i
      = if i = 0 ∨ i = N - 1 then 1 else if i < N then 2 else 0 := by
  have h1 : (List.range (N - 1)).count i = if i < N - 1 then 1 else 0 := by
    split_ifs with h
    · exact List.count_eq_one_of_mem List.nodup_range (List.mem_range.mpr h)
    · exact List.count_eq_zero_of_not_mem (fun h' => h (List.mem_range.mp h'))
  have h2 : (List.range' 1 (N - 1)).reverse.count i = if 1 ≤ i ∧ i < N then 1 else 0 := by
    rw [List.count_reverse]
    split_ifs with h
    · exact List.count_eq_one_of_mem List.nodup_range' (List.mem_range'_1.mpr (by omega))
    · exact List.count_eq_zero_of_not_mem (fun h' => h (by have := List.mem_range'_1.mp h'; omega))
  rw [List.count_append, h1, h2]
  split_ifs <;> omega

/-- **C34**: the bound on the number of loop iterations in the model of `simulate` is never reached; more
iterations would give the same outcome (result or exception). -/
theorem C34_fuel (e : Eng) (Nmax : ℤ) (Econv : ℝ) (cp : Option ℤ) (k : ℕ) (hso : sv ≠ .other) :
    e.simulate O solve sv Nmax Econv cp
      = Eng.simLoop O solve sv Nmax Econv cp (max 1 Nmax.toNat + k) 1 100000 e [] [] := by
  unfold Eng.simulate
  rw [if_neg hso, simLoop_fuel]
  · omega
  · push_cast; omega

/-- **C34**, exceptions: an unknown solver name raises a KeyError, not the intended ValueError: the message contains
the replacement field `{'AR','LAN','LOBPCG'}`. -/
theorem C34_unknown_solver (e : Eng) (Nmax : ℤ) (Econv : ℝ) (cp : Option ℤ) :
    e.simulate O solve .other Nmax Econv cp = .error .key := by
  unfold Eng.simulate; rw [if_pos rfl]

/-- **C34**, exceptions: for a one-site chain the energy variable is unbound. -/
theorem C34_one_site (e : Eng) (hN : e.mps.N ≤ 1) (hso : sv ≠ .other) (Nmax : ℤ) (Econv : ℝ) (cp : Option ℤ) :
    e.simulate O solve sv Nmax Econv cp = .error .unbound := by
  have h0 : e.mps.N - 1 = 0 := by omega
  unfold Eng.simulate
  rw [if_neg hso]
  obtain ⟨k, hk⟩ : ∃ k, max 1 Nmax.toNat = k + 1 := ⟨max 1 Nmax.toNat - 1, by omega⟩
  rw [hk]
  simp only [Eng.simLoop, h0, Eng.sweepRight, Eng.sweepLeft, List.getLast?_nil]

/-- **C34**, exceptions: `cp=0` never succeeds. -/
theorem C34_cp_zero (e : Eng) (Nmax : ℤ) (Econv : ℝ) (res : SimRes) :
    e.simulate O solve sv Nmax Econv (some 0) ≠ .ok res := by
  intro h
  unfold Eng.simulate at h
  split_ifs at h with hso
  obtain ⟨k, hk⟩ : ∃ k, max 1 Nmax.toNat = k + 1 := ⟨max 1 Nmax.toNat - 1, by omega⟩
  rw [hk] at h
  simp only [Eng.simLoop] at h
  split at h
  · cases h
  split at h
  · cases h
  split at h
  · cases h
  simp [cpDue] at h

/-! ## C67 -/

/-- The simulation with an eigensolver that returns non-zero tensors if the arguments meet `Q`. -/
theorem dmrg_total {Q : Env ℂ → Mpo ℂ → Env ℂ → Ten ℂ → Prop} (hO : O.Spec) (hsv : solve.Shape) (hlv : solve.Live sv Q)
    (hso : sv ≠ .other) {m : MPS}
    {mpo : List (Mpo ℂ)} (hw : m.WF 1 1) (hsq : m.mat.r = m.mat.c) (hs : m.sth < 1e-15) (hN : 2 ≤ m.N) (hc : m.Canonical)
    (hml : MLinked 1 mpo 1) (hin : mpo.map Mpo.din = m.ds) (hout : mpo.map Mpo.dout = m.ds) (hQ : Grants oneEnv oneEnv mpo Q)
    (had : ∀ t ∈ m.tensors, t.Adm) (hne : ∃ s i j, Cfg m.tensors s ∧ i < 1 ∧ m.amp s i j ≠ 0)
    (Nmax : ℤ) (Econv : ℝ) {cp : Option ℤ} (hcp : cp ≠ some 0) :
    ∃ e res, Eng.init O m mpo none none = .ok e ∧ e.simulate O solve sv Nmax Econv cp = .ok res ∧ res.eng.Live := by
  obtain ⟨e, he⟩ := eng_init_ok hO hw hsq hs (by omega) hml hin hout had hne
  have hWl : mpo.length = m.N := by
    have := congrArg List.length hin
    rw [List.length_map, MPS.ds, List.length_map, hw.len] at this
    exact this
  obtain ⟨i0, M, i1, i2, i3, V, -, i4⟩ := init_spec hO he hWl hw hsq hs
  obtain ⟨l1, l2⟩ := i4 (Or.inl rfl)
  obtain ⟨sh, sq1⟩ := position_shape hO hs i0 had hsq
  have hr : e.Ready True 0 0 :=
    ⟨0, 0, Or.inl (i2 ▸ i3 ▸ M.wf), V.mono (by omega) le_rfl, fun h => by omega, fun h => by rw [M.pos] at h; omega,
      fun _ => by omega, fun _ => ⟨fun x t _ h => by omega, fun x t hx _ =>
        (canonical_position hO hw hs hc i0).right x t hx (by rw [M.pos]; omega)⟩⟩
  have hL : e.Live := by
    refine ⟨i2 ▸ i3 ▸ M.wf, sq1, by rw [M.sth]; exact hs, ⟨by rw [l1]; rfl, by rw [l2]; rfl, ?_, ?_, ?_⟩, adm_shape sh had, ?_⟩
    · rw [l1, l2, i1]; exact hml
    · rw [i1, hin]; exact M.ds.symm
    · rw [i1, hout]; exact M.ds.symm
    · obtain ⟨s, i, j, c1, c2, c3⟩ := hne
      refine ⟨s, i, j, ?_, by rw [l1]; exact c2, by rw [M.amp s c1 i c2 j]; exact c3⟩
      rw [cfg_iff_map, show e.mps.tensors.map Ten.d = m.tensors.map Ten.d from M.ds]
      exact cfg_iff_map.mp c1
  obtain ⟨res, hres, hfin⟩ := simLoop_ok hO hsv hso hlv hcp (Nmax := Nmax) (Econv := Econv) (max 1 Nmax.toNat) 1 100000 e [] []
    (by omega) (by push_cast; omega) (by rw [l1, l2, i1]; exact hQ) hL hr (by rw [M.N]; exact hN)
  refine ⟨e, res, he, ?_, hfin⟩
  unfold Eng.simulate
  rw [if_neg hso]; exact hres

/-- **C67**.  On a canonical finite chain with admissible bond dimensions and a fitting MPO, the engine can be
built and a single-site DMRG simulation never raises, for every number of sweeps, threshold and non-zero checkpoint
period, and every eigensolver that returns non-zero tensors. -/
theorem C67_dmrg_total (hO : O.Spec) (hsv : solve.Shape) (hlv : solve.Live sv) (hso : sv ≠ .other) {m : MPS}
    {mpo : List (Mpo ℂ)} (hw : m.WF 1 1) (hsq : m.mat.r = m.mat.c) (hs : m.sth < 1e-15) (hN : 2 ≤ m.N) (hc : m.Canonical)
    (hml : MLinked 1 mpo 1) (hin : mpo.map Mpo.din = m.ds) (hout : mpo.map Mpo.dout = m.ds)
    (had : ∀ t ∈ m.tensors, t.Adm) (hne : ∃ s i j, Cfg m.tensors s ∧ i < 1 ∧ m.amp s i j ≠ 0)
    (Nmax : ℤ) (Econv : ℝ) {cp : Option ℤ} (hcp : cp ≠ some 0) :
    ∃ e res, Eng.init O m mpo none none = .ok e ∧ e.simulate O solve sv Nmax Econv cp = .ok res := by
  obtain ⟨e, res, h1, h2, -⟩ := dmrg_total hO hsv hlv hso hw hsq hs hN hc hml hin hout
    (fun _ _ _ _ _ _ _ _ _ _ _ _ => trivial) had hne Nmax Econv hcp
  exact ⟨e, res, h1, h2⟩

/-- An eigensolver meeting both contracts. -/
def onesSolve : Solve := fun _ L W R _ => .ok (0, ⟨L.w, R.w, W.dout, fun _ _ _ => 1⟩)

theorem onesSolve_shape : onesSolve.Shape := by
  intro sv L W R T en X h
  simp only [onesSolve, Except.ok.injEq, Prod.mk.injEq] at h
  rw [← h.2]; exact ⟨rfl, rfl, rfl⟩

theorem onesSolve_live (sv : Solver) : onesSolve.Live sv := by
  intro L W R T _ h2 _ _ h5 _ _ h8 ⟨i, hi, j, hj, s, hs, _⟩ _
  exact ⟨0, _, rfl, i, by simp only [h2]; exact hi, j, by simp only [h5]; exact hj, s, by simp only [h8]; exact hs, one_ne_zero⟩

/-- Two-level Pauli-z string as MPO. -/
def zW : Mpo ℂ := ⟨1, 1, 2, 2, fun _ _ s t => if s = t then (if s = 0 then 1 else -1) else 0⟩

/-- Case: the entangled three-site state; every theorem of this file applies to the simulation. -/
theorem C67_case : ∃ O : LinAlg, O.Spec ∧ ∃ m e res, m.WF 1 1 ∧ m.N = 3 ∧ m.Canonical ∧ m.mat.r = m.mat.c ∧ m.sth < 1e-15 ∧
    (∃ t ∈ m.tensors, 1 < t.l) ∧ Eng.init O m [zW, zW, zW] none none = .ok e ∧
    e.simulate O onesSolve .LAN 4 1e-6 (some 2) = .ok res := by
  obtain ⟨O, hO⟩ := exists_linAlg
  refine ⟨O, hO, ?_⟩
  have hs : ghz.sth < 1e-15 := by simp only [ghz]; norm_num
  have hne : ∃ s i j, Cfg ghz.tensors s ∧ i < 1 ∧ ghz.amp s i j ≠ 0 :=
    ⟨[0, 0, 0], 0, 0, ghz_cfg 0 0 0 (by omega) (by omega) (by omega), by omega, by
      rw [ghz_amp 0 0 0 (by omega) (by omega) (by omega)]; simp⟩
  have had : ∀ t ∈ ghz.tensors, t.Adm := by simp [ghz, ghzT, Ten.Adm]
  obtain ⟨m, hm⟩ := position_ok (b := 0) hO ghz_wf hs hne (by simp)
  obtain ⟨-, -, M⟩ := position_moved hO (effSth_default hs) ghz_wf hm
  have hcan : m.Canonical := C08_canonical_from_right_end hO ghz_wf hs (by decide) rfl [] (by
    simp only [MPS.positions]; rw [show ghz.position O 0 = .ok m from hm])
  obtain ⟨sh, sq1⟩ := position_shape hO hs hm had rfl
  have hds : m.ds = [2, 2, 2] := by rw [M.ds]; simp [MPS.ds, ghz, ghzT]
  obtain ⟨e, res, h1, h2⟩ := C67_dmrg_total hO onesSolve_shape (onesSolve_live .LAN) (by decide) (mpo := [zW, zW, zW]) M.wf sq1
    (by rw [M.sth]; exact hs) (by rw [M.N]; decide) hcan (by simp [MLinked, zW]) (by rw [hds]; rfl) (by rw [hds]; rfl)
    (adm_shape sh had) (by
      obtain ⟨s, i, j, c1, c2, c3⟩ := hne
      refine ⟨s, i, j, ?_, c2, by rw [M.amp s c1 i c2 j]; exact c3⟩
      rw [cfg_iff_map, show m.tensors.map Ten.d = ghz.tensors.map Ten.d from M.ds]
      exact cfg_iff_map.mp c1) 4 1e-6 (cp := some 2) (by simp)
  refine ⟨m, e, res, M.wf, M.N, hcan, sq1, by rw [M.sth]; exact hs, ?_, h1, h2⟩
  have h1 : (m.tensors.map Ten.shape)[1]? = some (2, 2, 2) := by rw [sh]; simp [ghz, ghzT, Ten.shape]
  rw [List.getElem?_map] at h1
  cases ht : m.tensors[1]? with
  | none => rw [ht] at h1; cases h1
  | some t =>
    rw [ht] at h1
    simp [Ten.shape] at h1
    exact ⟨t, List.mem_of_getElem? ht, by omega⟩

/-- Case of `C34_simulate` (and `C31_dmrg`): the same simulation. -/
example : ∃ res, DmrgRun 3 4 1e-6 (some 2) res ∧ ∀ cs ∈ res.sweeps, ∀ c ∈ cs, CallOK oneEnv oneEnv [zW, zW, zW] c := by
  obtain ⟨O, hO, m, e, res, hw, hN, -, hsq, hs, -, h1, h2⟩ := C67_case
  obtain ⟨-, -, -, -, -, -, -, i⟩ := init_spec hO h1 (by rw [hN]; rfl) hw hsq hs
  obtain ⟨l1, l2⟩ := i (Or.inl rfl)
  have a := C34_simulate hO onesSolve_shape h1 (by rw [hN]; rfl) hw hsq hs (by rw [l1]; rfl) (by rw [l2]; rfl) (by omega) h2
  have b := C31_dmrg hO onesSolve_shape h1 (by rw [hN]; rfl) hw hsq hs (by rw [l1]; rfl) (by rw [l2]; rfl) (by omega) h2
  rw [hN] at a
  rw [l1, l2] at b
  exact ⟨res, a, fun cs hcs c hc => (b cs hcs c hc).1⟩

/-- Case of `C66_partial`: a history with two updates and a change of direction. -/
example : Disciplined 0 none [.move 0, .opt 0, .move 2, .move 1, .opt 1, .move 3, .opt 2, .move 1, .move 2] := by
  simp [Disciplined]

end

end PyTeN
