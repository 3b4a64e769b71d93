import Verif.Props.IdmrgRegauge
import Verif.Props.IdmrgTotal

/-! # Infinite-system DMRG: simulations with regauging (C90) -/

namespace PyTeN.Idmrg
open Finset

noncomputable section

variable {O : LinAlg} {pinv : Mat ℂ → Mat ℂ} {solve : Solve} {sv : Solver} {trunc : ℝ}

/-- Contract of the regauging kernel: whatever it returns is a symmetric gauge of a cell with the same local dimensions. -/
def SymKernel (K : Kernels) : Prop :=
  ∀ ts A lam, K.sym ts = .ok (A, lam) → A.map Ten.d = ts.map Ten.d ∧ ∃ D, Symmetric D A lam

/-! ## A pass with regauging -/

/-- The common part of both updates needs a well-formed state, so there was one. -/
theorem ends_wf_shift {flag : Prop} {h : ℕ} {e e1 : Eng} (c : Cell O h e) (E : Ends flag h e e1) {m : MPS} {mpo : List (Mpo ℂ)} {lb rb : Env ℂ}
    {D : ℕ} (hu : shift O pinv e1 = .ok (m, mpo, lb, rb, D)) : e1.mps.WF e.lb.u e.rb.u := by
  rcases E.mps with hw | ⟨hl, hp⟩
  · exact hw
  have h2 := c.two
  have hN : e1.mps.N = 2 * h := by rw [E.same.N, c.N]
  obtain ⟨m1, m2, m3, mat, st⟩ := shift_cut hl.len hu [] []
  by_cases h1 : h = 1
  · have : m1 = e1.mps := position_same st.p1 (by rw [hN, hp, h1]; rfl)
    have p2 := st.p2
    rw [this] at p2
    exact loose_wf hl p2 (by rw [hN, hp]; omega)
  · exact loose_wf hl st.p1 (by rw [hN, hp]; omega)

/-- **C90 (a pass with regauging).**  From cell to cell: the new cell has the two halves exchanged; its state is the mixed canonical
form given by the symmetric gauge that the kernel found, and its boundaries are the steady-state Hamiltonians that the kernels
computed from that gauge; the boundaries grown before are discarded. -/
theorem C90_pass (hO : O.Spec) (hp : ∀ A, PinvSpec A (pinv A)) {K : Kernels} (hK : SymKernel K) {flag : Prop} {h D : ℕ} {e e1 e' : Eng}
    (c : Cell O h e) (E : Ends flag h e e1) (hu : updateR O pinv K true e1 = .ok (e', D)) :
    Cell O h e' ∧ e'.mpo = e.mpo.rotate h ∧ e'.mps.ds = e.mps.ds.rotate h ∧
    ∃ ts A lam n, K.sym ts = .ok (A, lam) ∧ Symmetric n A lam ∧
      (∀ s, CfgD (e.mps.ds.rotate h) s → ∀ i < n, ∀ j < n, lam.getD i 0 * chain e'.mps.tensors s i j = chain A s i j * lam.getD j 0) ∧
      (∀ i < n, ∀ j < n, e'.mps.mat.v i j = if i = j then lam.getD i 0 else 0) ∧
      (∃ A' x, List.Forall₂ Agree A' A ∧ K.left A' e'.mpo = .ok (e'.lb, x)) ∧ ∃ x, K.right e'.mps.tensors e'.mpo = .ok (e'.rb, x) := by
  have hl1 : e1.mps.tensors.length = e1.mps.N := by
    rcases E.mps with hw | ⟨hl, -⟩
    · exact hw.len
    · exact hl.len
  have hob1 : e1.mps.obc = false := by
    by_contra hc
    exact C86_violated_obc hl1 (by simpa using hc) _ hu
  have S := E.same
  unfold updateR at hu
  simp only [if_true] at hu
  split at hu
  · cases hu
  rename_i m mpo lb rb D' hsh
  split at hu
  · cases hu
  rename_i e2 hreb
  cases hu
  have hw := ends_wf_shift c E hsh
  obtain ⟨m1, m2, m3, mat, st⟩ := shift_cut hl1 hsh [] []
  have hN : e1.mps.N = 2 * h := by rw [S.N]; exact c.N
  have hh : e1.mps.N / 2 = h := by omega
  have hs : e1.mps.sth < 1e-15 := by rw [S.sth]; exact c.sth
  have hs0 := effSth_default hs
  obtain ⟨q1, q2, q3, hA, hB⟩ := steps_even hO hs0 hw hN st.p1 st.p2 st.p3
  have n1 := q1.wf.len
  have n3 := q3.wf.len
  rw [q1.N, hN] at n1
  rw [q3.N, q2.N, q1.N, hN] at n3
  have c3 : m3.conn = e1.mps.conn := by rw [q3.conn, q2.conn, q1.conn]
  have hcr : e1.mps.conn.r = e.rb.u := by
    have w := q1.wf.right
    rw [q1.pos, List.drop_eq_nil_of_le (by omega)] at w
    rw [← c3, ← st.d1]; exact w
  have hcl : e1.mps.conn.c = e.lb.u := by
    have w := q3.wf.left
    rw [q3.pos, List.take_zero] at w
    rw [← c3, st.d2]; exact w.symm
  obtain ⟨gwf, hgds, -⟩ := glue_spec hO hp hs0 hw hcr hcl hN st.p1 st.p2 st.p3
  have p4 := st.p4
  rw [hh, hN, show 2 * h - h = h by omega, List.take_of_length_le (show (m1.tensors.drop h).length ≤ h by simp; omega),
    List.take_of_length_le (show (m1.tensors.drop h ++ m3.tensors.take h).length ≤ 2 * h by simp; omega), st.hmat] at p4
  have sg : (glued pinv h m1 m2 m3).effSth 1e-16 < 1e-15 := by
    simpa [MPS.effSth, glued, q3.sth, q2.sth, q1.sth] using hs0
  obtain ⟨-, -, q4⟩ := position_moved hO sg gwf p4
  simp only [Int.toNat_natCast] at q4
  have h1 := c.two
  have N4 : m.N = 2 * h := by rw [q4.N]; simp [glued, q3.N, q2.N, q1.N, hN]
  have hZ4 : m.Z ≠ 0 := by
    have s1 : m1.effSth 1e-16 < 1e-15 := by simpa [MPS.effSth, q1.sth] using hs0
    have s2 : m2.effSth 1e-16 < 1e-15 := by simpa [MPS.effSth, q2.sth] using s1
    obtain ⟨z1, y1, hz1⟩ := position_Z hO hs0 st.p1
    obtain ⟨z2, y2, hz2⟩ := position_Z hO s1 st.p2
    obtain ⟨z3, y3, hz3⟩ := position_Z hO s2 st.p3
    obtain ⟨z4, y4, hz4⟩ := position_Z hO sg p4
    rw [hz4, show (glued pinv h m1 m2 m3).Z = m3.Z from rfl, hz3, hz2, hz1, E.Z, one_mul]
    refine mul_ne_zero (mul_ne_zero (mul_ne_zero ?_ ?_) ?_) ?_ <;> exact_mod_cast ne_of_gt (by assumption)
  have hsth : m.sth < 1e-15 := by rw [q4.sth]; simpa [glued, q3.sth, q2.sth, q1.sth] using hs
  have hob : m.obc = false := by
    rw [position_obc p4, position_obc st.p3, position_obc st.p2, position_obc st.p1, hob1]
  have hconn : m.conn = pinv m2.mat := by rw [q4.conn]; rfl
  have hmpo : mpo = e.mpo.rotate h := by
    have hm' := st.mpo
    rw [hh, S.mpo, C47_rotates e.mpo h (by rw [c.lenW, c.N]; omega)] at hm'
    exact (Except.ok.inj hm').symm
  have hds4 : m.ds = e1.mps.ds.rotate h := by rw [q4.ds, hgds]
  obtain ⟨ts, A, lam, n, n', a1, a2, -, -, -, a6, a7, a8, a9, -, -, ⟨-, -, a12⟩, -, a14, a15, ⟨x, a16⟩, a17, a18, -⟩ := C90_regauge hO hob q4.wf (by omega) hsth hZ4
    (by rw [hconn]; exact (hp _).r) (by rw [hconn]; exact (hp _).c) (by rw [hmpo, List.length_rotate, c.lenW, c.N, N4]) hK hreb
  have cell := a18 h N4
  have hds : e1.mps.ds = e.mps.ds := by
    have f := a17.ins
    rw [a7, a9, hmpo, hds4, List.map_rotate, c.fit.ins] at f
    exact (List.rotate_injective h f).symm
  rw [hds] at hds4
  refine ⟨cell, by rw [a7, hmpo], by rw [a9, hds4], ts, A, lam, n, a1, a2, ?_, a12, by rw [a7]; exact a15, x, by rw [a7]; exact a16⟩
  intro s hsc i hi j hj
  exact a14 s (cfgD_cfg.mp (by rw [show m.tensors.map Ten.d = m.ds from rfl, hds4]; exact hsc)) i hi j hj

/-! ## Simulations with regauging -/

/-- Every pass starts from a cell and ends with one, whether the state is regauged or not. -/
theorem cells (hO : O.Spec) (hp : ∀ A, PinvSpec A (pinv A)) {K : Kernels} (hK : SymKernel K) {τ : Type} {run : Eng → Res τ} {fin : τ → Eng}
    {flag : Prop} {h : ℕ} (hrun : ∀ e res, Cell O h e → run e = .ok res → Ends flag h e (fin res)) {rs : ℤ} :
    ∀ (ps : List (Pass τ)) (it : ℕ) (e e' : Eng), Passes run fin (updateR O pinv K) rs it e ps e' → Cell O h e →
      ∀ (k : ℕ) (p : Pass τ), ps[k]? = some p → Cell O h p.start ∧ Cell O h p.next ∧ run p.start = .ok p.out ∧
        Passes run fin (updateR O pinv K) rs (it + k) p.start (ps.drop k) e' := by
  intro ps
  induction ps with
  | nil => intro it e e' _ _ k p hk; simp at hk
  | cons q ps ih =>
    intro it e e' hP c k p hk
    obtain ⟨p1, p2, p3, p4, p5⟩ := hP
    have c' : Cell O h q.next := by
      cases hq : q.rg with
      | false =>
        rw [hq] at p4
        simp only [updateR, Bool.false_eq_true, if_false] at p4
        exact (pass_step hO hp c (hrun e _ c p2) p4).1
      | true =>
        rw [hq] at p4
        exact (C90_pass hO hp hK c (hrun e _ c p2) p4).1
    cases k with
    | zero =>
      simp only [List.getElem?_cons_zero, Option.some.injEq] at hk
      subst hk
      rw [p1]
      exact ⟨c, c', p2, p1, p2, p3, p4, p5⟩
    | succ k =>
      rw [List.getElem?_cons_succ] at hk
      have := ih (it + 1) q.next e' p5 c' k p hk
      rw [show it + (k + 1) = it + 1 + k by ring]
      exact this

/-- **C90 (growth with regauging, two-site).**  Every pass of a simulation with regauging starts from a cell; between two regaugings
the boundaries grow as in C87, counted from the last regauged engine. -/
theorem C90_growth_two (hO : O.Spec) (hp : ∀ A, PinvSpec A (pinv A)) {K : Kernels} (hK : SymKernel K) {h : ℕ} {e : Eng} (c : Cell O h e)
    {Nmax NUC : ℤ} {Econv : ℝ} {cp : Option ℤ} {rs : ℤ} {r : Run SimRes2}
    (hr : simulateTwoSite O pinv K solve sv e Nmax NUC Econv cp trunc rs = .ok r) :
    (∀ p ∈ r.passes, Cell O h p.start ∧ Cell O h p.next ∧ p.start.simulateTwoSite O solve sv NUC Econv cp trunc = .ok p.out) ∧
    ∀ (j k : ℕ) (q p : Pass SimRes2), r.passes[j]? = some q → r.passes[j + k]? = some p → (∀ x ∈ (r.passes.drop j).take k, x.rg = false) →
      ∃ A B, Extended h k q.start p.start A B ∧ ∀ t ∈ A, LeftOrth t := by
  obtain ⟨-, S⟩ := C87_course_two hr
  obtain ⟨last, S1, -⟩ := S.passes
  have hall := cells hO hp hK (flag := True) (fun e res c h => ends_two hO c h) _ 0 e last S1 c
  constructor
  · intro p hpm
    obtain ⟨k, hk⟩ := List.getElem?_of_mem hpm
    obtain ⟨c1, c2, c3, -⟩ := hall k p hk
    exact ⟨c1, c2, c3⟩
  · intro j k q p hj hk hno
    obtain ⟨c1, -, -, P⟩ := hall j q hj
    obtain ⟨cp', ⟨A, B, g⟩, -⟩ := grown_passes hO hp (flag := True) (fun e res c h => ends_two hO c h) c1 _ _ 0 _ last _ _ P c1
      (Grown.zero True h q.start) k p (by rw [List.getElem?_drop]; exact hk) hno
    rw [Nat.zero_add] at g
    exact ⟨A, B, extended_of g c1 cp', g.left trivial⟩

/-- **C90 (growth with regauging, single-site).**  The same for the single-site simulation; the tensors added on the left are known
to be left-orthonormal for cells of two sites. -/
theorem C90_growth_one (hO : O.Spec) (hp : ∀ A, PinvSpec A (pinv A)) (hsv : solve.Shape) {K : Kernels} (hK : SymKernel K) {h : ℕ} {e : Eng}
    (c : Cell O h e) {Nmax NUC : ℤ} {Econv : ℝ} {cp : Option ℤ} {rs : ℤ} {r : Run SimRes}
    (hr : simulate O pinv K solve sv e Nmax NUC Econv cp rs = .ok r) :
    (∀ p ∈ r.passes, Cell O h p.start ∧ Cell O h p.next ∧ p.start.simulate O solve sv NUC Econv cp = .ok p.out) ∧
    ∀ (j k : ℕ) (q p : Pass SimRes), r.passes[j]? = some q → r.passes[j + k]? = some p → (∀ x ∈ (r.passes.drop j).take k, x.rg = false) →
      ∃ A B, Extended h k q.start p.start A B ∧ (h = 1 → ∀ t ∈ A, LeftOrth t) := by
  obtain ⟨-, S⟩ := C87_course hr
  obtain ⟨last, S1, -⟩ := S.passes
  have hall := cells hO hp hK (flag := h = 1) (fun e res c h => ends_one hO hsv c h) _ 0 e last S1 c
  constructor
  · intro p hpm
    obtain ⟨k, hk⟩ := List.getElem?_of_mem hpm
    obtain ⟨c1, c2, c3, -⟩ := hall k p hk
    exact ⟨c1, c2, c3⟩
  · intro j k q p hj hk hno
    obtain ⟨c1, -, -, P⟩ := hall j q hj
    obtain ⟨cp', ⟨A, B, g⟩, -⟩ := grown_passes hO hp (flag := h = 1) (fun e res c h => ends_one hO hsv c h) c1 _ _ 0 _ last _ _ P c1
      (Grown.zero _ h q.start) k p (by rw [List.getElem?_drop]; exact hk) hno
    rw [Nat.zero_add] at g
    exact ⟨A, B, extended_of g c1 cp', g.left⟩

/-- **C90 (energies with regauging, two-site).**  With a Hermitian Hamiltonian of the open chain of any number of cells between the
boundaries of the last regauged engine, the energies of the following passes are expectation values of that Hamiltonian. -/
theorem C90_energy_two (hO : O.Spec) (hp : ∀ A, PinvSpec A (pinv A)) (hV : solve.Var sv) {K : Kernels} (hK : SymKernel K) {h : ℕ} {e : Eng}
    (c : Cell O h e) {Nmax NUC : ℤ} {Econv : ℝ} {cp : Option ℤ} {rs : ℤ} {r : Run SimRes2}
    (hr : simulateTwoSite O pinv K solve sv e Nmax NUC Econv cp trunc rs = .ok r) {j k : ℕ} {q p : Pass SimRes2}
    (hj : r.passes[j]? = some q) (hk : r.passes[j + k]? = some p) (hno : ∀ x ∈ (r.passes.drop j).take k, x.rg = false)
    (hH : ∀ n, HermH q.start.lb (rowW q.start n) q.start.rb (rowD q.start n)) (hkept : ∀ c ∈ p.out.sweeps.flatten, c.kept ≠ 0) :
    ∃ A B, Extended h k q.start p.start A B ∧
    (∀ c ∈ p.out.sweeps.flatten, c.energy.im = 0 ∧ ∃ f, f = padAmp A B p.start.lb.u p.start.rb.u
        (pairAmp c.mps.tensors c.n (p.start.mps.ds.getD (c.n + 1) 0) c.opt) ∧
      0 < nsq (rowD q.start (k + 1)) q.start.lb.u q.start.rb.u f ∧
      energy q.start.lb (rowW q.start (k + 1)) q.start.rb (rowD q.start (k + 1)) f = c.energy) ∧
    (∃ c, p.out.sweeps.flatten.getLast? = some c ∧ p.out.energy = c.energy) ∧
    (∀ lam : ℝ, (∀ f, lam * nsq (rowD q.start (k + 1)) q.start.lb.u q.start.rb.u f
        ≤ (hform q.start.lb (rowW q.start (k + 1)) q.start.rb (rowD q.start (k + 1)) f f).re) → lam ≤ p.out.energy.re) ∧
    nsq (rowD q.start (k + 1)) q.start.lb.u q.start.rb.u (padAmp A B p.start.lb.u p.start.rb.u p.out.eng.mps.amp) = 1 ∧
    ((∀ c ∈ p.out.sweeps.flatten, c.lost = 0) →
      energy q.start.lb (rowW q.start (k + 1)) q.start.rb (rowD q.start (k + 1))
        (padAmp A B p.start.lb.u p.start.rb.u p.out.eng.mps.amp) = p.out.energy ∧
      p.out.energy.re ≤ (energy q.start.lb (rowW q.start (k + 1)) q.start.rb (rowD q.start (k + 1))
        (padAmp A B p.start.lb.u p.start.rb.u p.start.mps.amp)).re) := by
  obtain ⟨hall, hgr⟩ := C90_growth_two hO hp hK c hr
  obtain ⟨c1, -, hrun⟩ := hall p (List.mem_of_getElem? hk)
  obtain ⟨A, B, x, ol⟩ := hgr j k q p hj hk hno
  obtain ⟨hHs, hpad⟩ := pad_energy x ol c1 (hH (k + 1))
  obtain ⟨t1, t2, t3, t4, t5, t6⟩ := C84_energy hO hV (c1.start2 hO) c1.sth (by have := c1.two; rw [c1.N]; omega) c1.fit hHs c1.canon c1.Z
    hrun hkept
  refine ⟨A, B, x, ?_, t2, ?_, ?_, ?_⟩
  · intro c hc
    obtain ⟨a1, a2, a3, a4, a5⟩ := t1 c hc
    exact ⟨a1, _, rfl, by rw [(hpad _).2.1]; exact a3, by rw [(hpad _).2.2]; exact a4⟩
  · intro lam hlam
    refine t3 lam fun f => ?_
    have := hlam (padAmp A B p.start.lb.u p.start.rb.u f)
    rwa [(hpad f).1, (hpad f).2.1] at this
  · rw [(hpad _).2.1]; exact t5
  · intro hl
    obtain ⟨u1, u2⟩ := t6 hl
    refine ⟨by rw [(hpad _).2.2]; exact u2, ?_⟩
    obtain ⟨c, hc1, hc2⟩ := t2
    rw [(hpad _).2.2, hc2]
    exact (List.pairwise_cons.mp u1).1 _ (List.mem_map.mpr ⟨c, List.mem_of_getLast? hc1, rfl⟩)

/-! ## Success -/

/-- The tensors handed to the kernel, independently of the kernel. -/
theorem regauge_input {m : MPS} {l r : ℕ} (hob : m.obc = false) (hw : m.WF l r) (hN : 0 < m.N) (hcr : m.conn.r = r) (hcc : m.conn.c = l) :
    ∃ m2 : MPS, ∀ K : Kernels, regauge K m = match K.sym m2.tensors with
      | .error x => .error x
      | .ok (ts, lam) => if (0 : ℂ) ∈ lam then .error .nan
        else .ok { m2 with tensors := ts, mat := diagL lam, conn := diagL (lam.map fun x => 1 / x), pos := m2.N } := by
  have hlen := hw.len
  by_cases hp : m.pos < m.N
  · obtain ⟨m1, h1⟩ : ∃ m1, m.absorbCenterMatrix 1 = .ok m1 := by
      unfold MPS.absorbCenterMatrix
      have hdir : (if m.pos = m.N ∧ (1 : ℤ) > 0 then false else if m.pos = 0 ∧ (1 : ℤ) < 0 then true else decide ((1 : ℤ) > 0)) = true := by
        simp [hp.ne]
      rw [if_neg (by norm_num)]
      simp only [hdir, if_true]
      have hr := hw.right
      rw [List.drop_eq_getElem_cons (by omega)] at hr
      rw [show getT m.tensors m.pos = .ok (m.tensors[m.pos]'(by omega)) by
        unfold getT; rw [List.getElem?_eq_getElem (by omega)]]
      simp only
      rw [absorbL_ok hr.1.symm]
      exact ⟨_, rfl⟩
    obtain ⟨T, e1, d1, l1, -⟩ := center_right hw hp h1
    have hT : T.length = m.N := by
      have := congrArg List.length d1
      rwa [List.length_map, MPS.ds, List.length_map, hw.len] at this
    obtain ⟨t, T', rfl⟩ := List.exists_cons_of_ne_nil (List.length_pos_iff.mp (by omega : 0 < T.length))
    have h2 : m1.absorbConnector "left" = .ok { m1 with
        tensors := (t :: T').set 0 ⟨m.conn.r, t.r, t.d, fun i j s => ∑ k ∈ range t.l, m.conn.v i k * t.v k j s⟩, conn := eye m.conn.r } := by
      unfold MPS.absorbConnector
      rw [if_neg (by decide), if_pos rfl, e1]
      simp only [getT, List.getElem?_cons_zero]
      rw [absorbL_ok (by rw [hcc]; exact l1.1.symm)]
    obtain ⟨m2, h3, e3⟩ : ∃ m2, m1.absorbConnector "left" = .ok m2 ∧ m2.pos = m.pos ∧ m2.N = m.N := ⟨_, h2, by rw [e1], by rw [e1]⟩
    refine ⟨m2, fun K => ?_⟩
    unfold regauge
    rw [if_neg (by simp [hob])]
    simp only
    rw [if_pos hp, h1]
    simp only
    rw [h3]
    simp only
    rw [if_neg (by omega)]
    simp only
    cases K.sym m2.tensors <;> rfl
  · have hpe : m.pos = m.N := le_antisymm hw.pos_le (by omega)
    obtain ⟨m1, h1⟩ : ∃ m1, m.absorbCenterMatrix (-1) = .ok m1 := by
      unfold MPS.absorbCenterMatrix
      have hdir : (if m.pos = m.N ∧ (-1 : ℤ) > 0 then false else if m.pos = 0 ∧ (-1 : ℤ) < 0 then true else decide ((-1 : ℤ) > 0)) = false := by
        rw [if_neg (by norm_num), if_neg (by omega)]; decide
      rw [if_neg (by norm_num)]
      simp only [hdir, Bool.false_eq_true, if_false]
      rw [show getT m.tensors (m.pos - 1) = .ok (m.tensors[m.pos - 1]'(by omega)) by
        unfold getT; rw [List.getElem?_eq_getElem (by omega)]]
      simp only
      have hl := hw.left
      rw [List.take_of_length_le (by omega)] at hl
      have hr : (m.tensors[m.pos - 1]'(by omega)).r = m.mat.r :=
        getLast_r hl (by rw [List.getLast?_eq_getElem?, ← List.getElem?_eq_getElem, hlen, hpe])
      rw [absorbR_ok hr]
      exact ⟨_, rfl⟩
    obtain ⟨T, e1, d1, l1, -⟩ := center_left hw hN hpe h1
    have hT : T.length = m.N := by
      have := congrArg List.length d1
      rwa [List.length_map, MPS.ds, List.length_map, hw.len] at this
    obtain ⟨t, ht⟩ : ∃ t, T[m.N - 1]? = some t := ⟨_, List.getElem?_eq_getElem (by omega)⟩
    have htr : t.r = r := getLast_r l1 (by rw [List.getLast?_eq_getElem?, hT]; exact ht)
    have h2 : m1.absorbConnector "right" = .ok { m1 with
        tensors := T.set (m.N - 1) ⟨t.l, m.conn.c, t.d, fun i j s => ∑ k ∈ range t.r, t.v i k s * m.conn.v k j⟩, conn := eye m.conn.c } := by
      unfold MPS.absorbConnector
      rw [if_pos rfl, e1]
      simp only [getT, ht]
      rw [absorbR_ok (by rw [htr, hcr])]
    obtain ⟨m2, h3⟩ : ∃ m2, m1.absorbConnector "right" = .ok m2 := ⟨_, h2⟩
    refine ⟨m2, fun K => ?_⟩
    unfold regauge
    rw [if_neg (by simp [hob])]
    simp only
    rw [if_neg hp]
    simp only
    rw [if_pos hpe, h1]
    simp only
    rw [h3]
    simp only
    cases K.sym m2.tensors <;> rfl

theorem phaseR_ok {m : MPS} {D : ℕ} {ts : List (Ten ℂ)} {lam : List ℂ} (hS : Symmetric D ts lam) (ht : m.tensors = ts) (hN : ts.length = m.N)
    (h0 : 0 < m.N) (hm : m.mat = diagL lam) (hc : m.conn = diagL (lam.map fun x => 1 / x)) : ∃ m', phaseR m = .ok m' := by
  obtain ⟨A, t, rfl⟩ : ∃ A t, ts = A ++ [t] := by
    rcases List.eq_nil_or_concat ts with rfl | ⟨A, t, rfl⟩
    · simp at hN; omega
    · exact ⟨A, t, by simp⟩
  rw [List.length_append, List.length_singleton] at hN
  obtain ⟨k, hA, hk⟩ := linked_append.mp hS.link
  have htr : t.r = D := hk.2
  unfold phaseR
  rw [npDot, hm, hc, if_pos (by simp [diagL])]
  simp only
  have hg : m.getItem (-1) = .ok t := by
    unfold MPS.getItem getZ pyIdx
    rw [if_pos (by simp [ht]), if_neg (by omega), if_pos (by simp [ht])]
    simp [ht, getT]
  rw [hg]
  simp only
  rw [absorbR_ok (by simp [Mat.dot, diagL, hS.len, htr])]
  simp only
  rw [show ∀ t', m.setItem (-1) t' = .ok { m with tensors := A ++ [t'] } by
    intro t'
    unfold MPS.setItem pyIdx
    rw [if_pos (by simp [ht]), if_neg (by omega), if_pos (by simp [ht])]
    simp [ht]]
  simp only [hm]
  rw [npDot, if_pos (by simp [Mat.herm, Mat.dot, diagL])]
  exact ⟨_, rfl⟩

theorem phaseL_ok {m : MPS} {t : Ten ℂ} {B : List (Ten ℂ)} (ht : m.tensors = t :: B) (h1 : m.conn.c = m.mat.r) (h2 : m.mat.c = t.l) :
    ∃ m', phaseL m = .ok m' := by
  unfold phaseL
  rw [npDot, if_pos h1]
  have hg : m.getItem 0 = .ok t := by
    unfold MPS.getItem getZ pyIdx
    rw [if_pos (by simp [ht]; omega), if_pos le_rfl, if_pos (by simp [ht])]
    simp [ht, getT]
  simp only
  rw [hg]
  simp only
  rw [absorbL_ok (m := m.conn.dot m.mat) h2]
  simp only
  rw [show ∀ t', m.setItem 0 t' = .ok { m with tensors := t' :: B } by
    intro t'
    unfold MPS.setItem pyIdx
    rw [if_pos (by simp [ht]; omega), if_pos le_rfl, if_pos (by simp [ht])]
    simp [ht]]
  simp only
  rw [npDot, if_pos (show m.mat.c = (m.conn.dot m.mat).herm.r from rfl)]
  exact ⟨_, rfl⟩

/-- The symmetric gauge is not the zero state. -/
theorem symmetric_nonzero {D : ℕ} {ts : List (Ten ℂ)} {lam : List ℂ} (hS : Symmetric D ts lam) :
    ∃ s i j, Cfg ts s ∧ i < D ∧ j < D ∧ chain ts s i j ≠ 0 := by
  have hD : 0 < D := by
    by_contra hc
    have := hS.norm
    rw [show D = 0 by omega] at this
    simp at this
  by_contra hc
  have hz : ∀ s, Cfg ts s → ∀ i < D, ∀ j < D, chain ts s i j = 0 := by
    intro s hs i hi j hj
    by_contra h
    exact hc ⟨s, i, j, hs, hi, hj, h⟩
  have h1 := hS.fix 0 hD 0 hD
  rw [sumCfg_congr (g := fun _ => 0) (fun s hs => sum_eq_zero fun j hj => by
    rw [hz s (cfg_iff_map.mpr hs) 0 hD j (mem_range.mp hj), zero_mul, zero_mul])] at h1
  obtain ⟨y, hy, e⟩ := hS.real hD
  rw [sumCfg_zero, delta, if_pos rfl, one_mul, e] at h1
  have : (y : ℂ) ≠ 0 := by exact_mod_cast hy.ne'
  exact pow_ne_zero 2 this h1.symm

/-- Spec: a kernel was called with a uniform cell of local dimensions `ds`, and raised `x`. -/
def KernelRaises (K : Kernels) (mpo : List (Mpo ℂ)) (ds : List ℕ) (x : PyErr) : Prop :=
  ∃ ts n, ts.map Ten.d = ds ∧ Linked n ts n ∧ (K.sym ts = .error x ∨ K.left ts mpo = .error x ∨ K.right ts mpo = .error x)

/-- Contract of the steady-state kernels for an MPO with bond dimension `y` at its ends and a cell of local dimensions `ds`: the
environments returned have the shape of the bond. -/
def ShapeKernel (K : Kernels) (mpo : List (Mpo ℂ)) (ds : List ℕ) (y : ℕ) : Prop :=
  ∀ ts n E x, ts.map Ten.d = ds → Linked n ts n → K.left ts mpo = .ok (E, x) ∨ K.right ts mpo = .ok (E, x) → E.u = n ∧ E.w = n ∧ E.m = y

/-- Spec: the cell `ts`, with bonds `n` at its ends, is the state `m` with its connector. -/
def CellOf (m : MPS) (l r : ℕ) (ts : List (Ten ℂ)) (n : ℕ) : Prop :=
  (m.pos < m.N → n = r ∧ ∀ s, Cfg m.tensors s → ∀ i < n, ∀ j < n, m.Z * chain ts s i j = ∑ k ∈ range l, m.conn.v i k * m.amp s k j) ∧
  (m.pos = m.N → n = l ∧ ∀ s, Cfg m.tensors s → ∀ i < n, ∀ j < n, m.Z * chain ts s i j = ∑ k ∈ range r, m.amp s i k * m.conn.v k j)

/-- The outcome of regauging: an engine, or the error of one of the kernels; the first kernel gets the cell of the state. -/
theorem rebuild_outcome (hO : O.Spec) {K : Kernels} {m : MPS} {mpo : List (Mpo ℂ)} {l r y : ℕ} (hob : m.obc = false) (hw : m.WF l r)
    (hN : 0 < m.N) (hs : m.sth < 1e-15) (hZ : m.Z ≠ 0) (hcr : m.conn.r = r) (hcc : m.conn.c = l) (hml : MLinked y mpo y)
    (hin : mpo.map Mpo.din = m.ds) (hout : mpo.map Mpo.dout = m.ds) (hK : SymKernel K) (hE : ShapeKernel K mpo m.ds y) :
    (∃ e, rebuild O K true m mpo = .ok e) ∨ ∃ x, rebuild O K true m mpo = .error x ∧
      ∃ ts n, ts.map Ten.d = m.ds ∧ Linked n ts n ∧
        (K.sym ts = .error x ∧ CellOf m l r ts n ∨ K.left ts mpo = .error x ∨ K.right ts mpo = .error x) := by
  obtain ⟨mi, hmi⟩ := regauge_input hob hw hN hcr hcc
  -- what the kernel receives
  have h0 := hmi ⟨fun ts => .ok (ts, []), fun _ _ => .error .value, fun _ _ => .error .value⟩
  simp only [List.not_mem_nil, if_false] at h0
  obtain ⟨ts, A, lam, n, a1, -, a3, a4, t0, -, -, -, N0, s0, Z0, b1, b2⟩ := regauge_spec hob hw hN hcr hcc h0
  cases a1
  simp only at t0 N0 s0 Z0
  rw [← t0] at a3 a4 b1 b2
  cases hsy : K.sym mi.tensors with
  | error x =>
    right
    have h0 := hmi K
    rw [hsy] at h0
    refine ⟨x, ?_, _, n, a3, a4, Or.inl ⟨hsy, b1, b2⟩⟩
    unfold rebuild getBoundaryHams
    simp only [if_true]
    rw [h0]
  | ok P =>
  obtain ⟨A, lam⟩ := P
  obtain ⟨hAd, D, hS⟩ := hK _ _ _ hsy
  have h0 := hmi K
  rw [hsy] at h0
  simp only at h0
  rw [if_neg (fun hc => by
    obtain ⟨y, hy, e⟩ := hS.pos 0 hc
    exact hy.ne' (by exact_mod_cast e.symm))] at h0
  have hAl : A.length = m.N := by
    have := congrArg List.length (hAd.trans a3)
    rwa [List.length_map, MPS.ds, List.length_map, hw.len] at this
  generalize hm0 : ({ mi with tensors := A, mat := diagL lam, conn := diagL (lam.map fun x => 1 / x), pos := mi.N } : MPS) = m0 at h0
  have t0 : m0.tensors = A := by rw [← hm0]
  have mat0 : m0.mat = diagL lam := by rw [← hm0]
  have c0 : m0.conn = diagL (lam.map fun x => 1 / x) := by rw [← hm0]
  have p0 : m0.pos = m.N := by rw [← hm0]; exact N0
  have n0 : m0.N = m.N := by rw [← hm0]; exact N0
  have s0 : m0.sth = m.sth := by rw [← hm0]; exact s0
  have z0 : m0.Z = m.Z := by rw [← hm0]; exact Z0
  obtain ⟨m1, h1⟩ := phaseR_ok hS t0 (by omega) (by omega) mat0 c0
  obtain ⟨w1, p1, N1, s1, c1, Z1, ag, mr, mc, mv⟩ := phaseR_spec hS t0 (by omega) (by omega) (by omega) mat0 c0 h1
  have d1 : m1.tensors.map Ten.d = m.ds := by rw [agree_dims ag, hAd, a3]
  have l1 : Linked D m1.tensors D := agree_linked ag hS.link
  cases hl : K.left m1.tensors mpo with
  | error x =>
    right
    refine ⟨x, ?_, _, D, d1, l1, Or.inr (Or.inl hl)⟩
    unfold rebuild getBoundaryHams
    simp only [if_true]
    rw [h0]
    simp only
    rw [if_neg (by omega), if_pos (by omega), h1]
    simp only
    rw [hl]
  | ok P =>
  obtain ⟨lb, xl⟩ := P
  obtain ⟨u1, u2, u3⟩ := hE m1.tensors D lb xl d1 l1 (Or.inl hl)
  have hs1 : m1.sth < 1e-15 := by rw [s1, s0]; exact hs
  obtain ⟨m2, h2⟩ : ∃ m2, m1.position O ((0 : ℕ) : ℤ) = .ok m2 := by
    refine position_ok hO w1 hs1 ?_ (by omega)
    obtain ⟨s, i, j, q1, q2, q3, q4⟩ := symmetric_nonzero hS
    have hs1 : Cfg m1.tensors s := by
      rw [cfg_iff_map] at q1 ⊢
      rw [agree_dims ag]; exact q1
    refine ⟨s, i, j, hs1, q2, ?_⟩
    have e : m1.amp s i j = m.Z * (chain A s i j * lam.getD j 0) := by
      unfold MPS.amp
      rw [Z1, z0]
      congr 1
      have hl1 : m1.tensors.length = m1.N := w1.len
      have hsl : s.length = m1.tensors.length := (List.Forall₂.length_eq hs1).symm
      rw [p1, List.take_of_length_le (by omega), List.take_of_length_le (by omega), List.drop_of_length_le (by omega),
        List.drop_of_length_le (by omega), mr, mc]
      rw [sum_eq_single j ?_ (fun h => absurd (mem_range.mpr q3) h), sum_eq_single j ?_ (fun h => absurd (mem_range.mpr q3) h)]
      · rw [agree_chain ag l1 hs1 q2, mv j q3 j q3]
        simp [chain, delta]
      · intro k' _ hk'
        simp [chain, delta, hk']
      · intro k hk hkj
        refine sum_eq_zero fun k' hk' => ?_
        rw [mv k (mem_range.mp hk) k' (mem_range.mp hk')]
        by_cases hkk : k = k'
        · subst hkk; simp [chain, delta, hkj]
        · rw [if_neg hkk]; ring
    obtain ⟨y, hy, ey⟩ := hS.real q3
    rw [e, ey]
    exact mul_ne_zero hZ (mul_ne_zero q4 (by exact_mod_cast hy.ne'))
  rw [Nat.cast_zero] at h2
  obtain ⟨-, -, M⟩ := position_moved hO (effSth_default hs1) w1 h2
  simp only [Int.toNat_zero] at M
  have hne2 : m2.tensors ≠ [] := List.length_pos_iff.mp (by rw [M.wf.len, M.N]; omega)
  obtain ⟨t, B, ht⟩ := List.exists_cons_of_ne_nil hne2
  have wl := M.wf.left
  have wr := M.wf.right
  rw [M.pos, List.take_zero] at wl
  rw [M.pos, List.drop_zero, ht] at wr
  have wl : D = m2.mat.r := wl
  have cr : m2.conn.r = D := by rw [M.conn, c1, c0]; simp [diagL, hS.len]
  have cc : m2.conn.c = D := by rw [M.conn, c1, c0]; simp [diagL, hS.len]
  obtain ⟨m3, h3⟩ := phaseL_ok ht (by rw [cc, wl]) wr.1.symm
  obtain ⟨-, -, e3⟩ := phaseL_steps ht h3
  have l3 : Linked D m3.tensors D := by rw [e3]; exact ⟨cr, wr.2⟩
  have d3 : m3.tensors.map Ten.d = m.ds := by
    rw [← d1, show m1.tensors.map Ten.d = m2.tensors.map Ten.d from M.ds.symm, e3, ht]
    rfl
  cases hr : K.right m3.tensors mpo with
  | error x =>
    right
    refine ⟨x, ?_, _, D, d3, l3, Or.inr (Or.inr hr)⟩
    unfold rebuild getBoundaryHams
    simp only [if_true]
    rw [h0]
    simp only
    rw [if_neg (by omega), if_pos (by omega), h1]
    simp only
    rw [hl]
    simp only
    rw [h2]
    simp only
    rw [h3]
    simp only
    rw [hr]
  | ok P =>
  obtain ⟨rb, xr⟩ := P
  obtain ⟨v1, v2, v3⟩ := hE m3.tensors D rb xr d3 l3 (Or.inr hr)
  have N3 : m3.N = m.N := by rw [e3]; simp only; rw [M.N, N1, n0]
  have len3 : m3.tensors.length = m3.N := by
    have := congrArg List.length d3
    rwa [List.length_map, MPS.ds, List.length_map, hw.len, ← N3] at this
  have hne3 : m3.tensors ≠ [] := List.length_pos_iff.mp (by omega)
  have fit : Fits m3.tensors mpo m3.tensors := fits_of_maps (by rw [hin, d3]) (by rw [hout, d3])
  obtain ⟨L, hL⟩ := C30_getL_succeeds (lb := lb) hne3 (by rw [u1]; exact l3) (by rw [u2]; exact l3) (by rw [u3]; exact hml) fit
  obtain ⟨R, hR⟩ := C30_getR_succeeds (rb := rb) hne3 (by rw [v1]; exact l3) (by rw [v2]; exact l3) (by rw [v3]; exact hml) fit
  have hW : mpo.length = m3.N := by
    have := congrArg List.length hin
    rw [List.length_map, MPS.ds, List.length_map, hw.len] at this
    rw [this, N3]
  left
  refine ⟨⟨m3, mpo, lb, rb, lb :: L, rb :: R⟩, ?_⟩
  unfold rebuild getBoundaryHams
  simp only [if_true]
  rw [h0]
  simp only
  rw [if_neg (by omega), if_pos (by omega), h1]
  simp only
  rw [hl]
  simp only
  rw [h2]
  simp only
  rw [h3]
  simp only
  rw [hr]
  simp only
  exact fresh_of_get (by rw [e3]; exact M.pos) len3 (by omega) hW (by rw [u1, v1]; exact l3) (by rw [u3, v3]; exact hml) hL hR

/-- **C90 (regauging, success).**  For a well-formed cell that is not an open chain, with a connector that fits, the regauging and the
construction of the new engine succeed unless one of the numerical kernels raises. -/
theorem C90_total (hO : O.Spec) {K : Kernels} {m : MPS} {mpo : List (Mpo ℂ)} {l r y : ℕ} (hob : m.obc = false) (hw : m.WF l r)
    (hN : 0 < m.N) (hs : m.sth < 1e-15) (hZ : m.Z ≠ 0) (hcr : m.conn.r = r) (hcc : m.conn.c = l) (hml : MLinked y mpo y)
    (hin : mpo.map Mpo.din = m.ds) (hout : mpo.map Mpo.dout = m.ds) (hK : SymKernel K) (hE : ShapeKernel K mpo m.ds y) :
    (∃ e, rebuild O K true m mpo = .ok e) ∨ ∃ x, rebuild O K true m mpo = .error x ∧ KernelRaises K mpo m.ds x := by
  rcases rebuild_outcome hO hob hw hN hs hZ hcr hcc hml hin hout hK hE with h0 | ⟨x, h0, ts, n, h1, h2, h3⟩
  · exact Or.inl h0
  · exact Or.inr ⟨x, h0, ts, n, h1, h2, h3.imp_left And.left⟩

end

end PyTeN.Idmrg
