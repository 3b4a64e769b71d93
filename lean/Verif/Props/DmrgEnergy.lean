import Verif.Props.Engine
import Verif.Props.TdvpEnergy
import Verif.Props.Sparse
import Verif.Engine.Solvers

/-! # The energies of single-site DMRG (C81) -/

namespace PyTeN
open Finset

noncomputable section

variable {O : LinAlg} {solve : Solve} {sv : Solver}

/-- Contract of an eigensolver: for a Hermitian effective Hamiltonian and a non-zero initial tensor the result is not zero,
the returned energy is the energy expectation value of the result, and it is not above that of the initial tensor. -/
def Solve.Var (solve : Solve) (sv : Solver) : Prop :=
  ∀ L W R T en X, SiteHerm L W R T.l T.r T.d → 0 < T.nsq → solve sv L W R T = .ok (en, X) →
    0 < X.nsq ∧ en * X.nsq = siteForm L W R X X ∧ en.re * T.nsq ≤ (siteForm L W R T T).re

/-- Spec: amplitudes of the chain after a call, up to a factor. -/
def Call.after (c : Call) : Amp := chain (c.mps.tensors.set c.n c.opt)

/-- What a step does to the MPS object. -/
theorem step_state {e e' : Eng} {p n : ℕ} {c : Call} (h : e.step O solve sv p n = .ok (e', c)) :
    ∃ e1 m1, e.position O p = .ok e1 ∧ c.mps = e1.mps ∧ c.n = n ∧ c.mps.tensor n true = .ok (c.T, m1) ∧
      e'.mps.mat = m1.mat ∧ e'.mps.Z = m1.Z ∧ e'.mps.pos = m1.pos := by
  unfold Eng.step at h
  split at h
  · cases h
  rename_i e1 he1
  split at h
  · cases h
  rename_i e2 c' hopt
  split at h
  · cases h
  rename_i m hm
  simp only [Except.ok.injEq, Prod.mk.injEq] at h
  obtain ⟨rfl, rfl⟩ := h
  unfold Eng.optimize at hopt
  split_ifs at hopt with hso
  split at hopt
  · cases hopt
  split at hopt
  · cases hopt
  split at hopt
  · cases hopt
  split at hopt
  · cases hopt
  rename_i T m1 hT
  split at hopt
  · cases hopt
  simp only [Except.ok.injEq, Prod.mk.injEq] at hopt
  obtain ⟨rfl, rfl⟩ := hopt
  refine ⟨e1, m1, he1, rfl, rfl, hT, ?_⟩
  unfold MPS.setItem at hm
  repeat' split at hm
  all_goals first
    | (cases hm; done)
    | (cases hm; exact ⟨rfl, rfl, rfl⟩)

/-- Spec: if the MPS object is well-formed, its state is not zero and has energy `E`. -/
def Eng.Low (e : Eng) (ds : List ℕ) (E : ℂ) : Prop :=
  e.mps.WF e.lb.u e.rb.u → 0 < nsq ds e.lb.u e.rb.u e.mps.amp ∧ energy e.lb e.mpo e.rb ds e.mps.amp = E

/-- One step does not raise the energy. -/
theorem step_low (hO : O.Spec) (hsv : solve.Shape) (hV : solve.Var sv) {e e' : Eng} {p n : ℕ} {c : Call} (hf : e.Fit)
    (hs : e.mps.sth < 1e-15) (hH : HermH e.lb e.mpo e.rb e.mps.ds) (hr : e.Ready True p n)
    (h : e.step O solve sv p n = .ok (e', c)) (hpn : p = n ∨ p = n + 1) (hn : n < e.mps.N) {E : ℂ} (hE : e.Low e.mps.ds E) :
    e'.Fit ∧ e'.mps.ds = e.mps.ds ∧ e'.Low e.mps.ds c.energy ∧ c.energy.re ≤ E.re ∧ c.energy.im = 0 ∧
      0 < nsq e.mps.ds e.lb.u e.rb.u c.after ∧ energy e.lb e.mpo e.rb e.mps.ds c.after = c.energy := by
  obtain ⟨e1, m1, p1, p2, p3, p4, p5, p6, p7⟩ := step_state h
  obtain ⟨a, b, hst, hv, c1, c2, c3, ho⟩ := hr
  obtain ⟨hw, M, -, -, -, -, -⟩ := eng_move hO hst hs hv p1 hpn c1 c2 c3
  obtain ⟨s1, s2, s3, s4, s5, s6, s7, s8, s9, s10, s11, s12, s13, -, s15⟩ := step_spec hO hsv hf.lb hf.rb hst hs hv h hpn hn c1 c2 c3
  obtain ⟨o1, -⟩ := s11 (ho trivial)
  obtain ⟨E1, E2⟩ := hE hw
  obtain ⟨q1, ⟨D, q2⟩, ⟨t, q3, q4⟩, q5, q6⟩ := tensor_clear s2.wf p4
  have hlt : n < c.mps.tensors.length := (List.getElem?_eq_some_iff.mp q3).1
  have hds : c.mps.ds = e.mps.ds := by rw [p2]; exact M.ds
  have hset : ∀ X : Ten ℂ, X.d = t.d → (c.mps.tensors.set n X).map Ten.d = c.mps.ds := by
    intro X hX
    rw [List.map_set, hX, MPS.ds, ← (List.getElem?_eq_some_iff.mp q3).2, ← List.map_set, List.set_getElem_self]
  have C : SiteCtx e.lb e.rb e.mpo e.mps.ds c.mps.tensors n c.L c.W c.R c.T.l c.T.r c.T.d :=
    siteCtx_of_ok (n := n) (m := c.mps) (dt := 0) hf ⟨by rw [s13]; exact hn, s2.wf.len, s1 ▸ s2.op, s1 ▸ s2.left, s1 ▸ s2.right,
      q5, hset _ q4⟩ hds
  obtain ⟨x1, x2, x3⟩ := hsv _ _ _ _ _ _ _ s15
  have xs : c.opt.l = c.T.l ∧ c.opt.r = c.T.r ∧ c.opt.d = c.T.d := ⟨x1.trans C.Lw, x2.trans C.Rw, x3.trans C.Wo⟩
  have oL : ∀ x t, c.mps.tensors[x]? = some t → x < n → LeftOrth t := fun x t hx hl => o1.left x t hx (by rw [s1]; exact hl)
  have oR : ∀ x t, c.mps.tensors[x]? = some t → n < x → RightOrth t := fun x t hx hl => o1.right x t hx (by rw [s1]; exact hl)
  have n1 := C.nsq (T := c.T) ⟨rfl, rfl, rfl⟩ oL oR
  have n2 := C.nsq (T := c.opt) xs oL oR
  have f1 := C.form (T := c.T) (X := c.T) ⟨rfl, rfl, rfl⟩ ⟨rfl, rfl, rfl⟩
  have f2 := C.form (T := c.opt) (X := c.opt) xs xs
  -- the state before the call
  have hamp : ∀ s, Conf e.mps.ds s → ∀ i < e.lb.u, ∀ j, e.mps.amp s i j = c.mps.Z * chain (c.mps.tensors.set n c.T) s i j := by
    intro s hs' i hi j
    rw [← M.amp s (conf_cfg hs') i hi j, ← p2]
    refine q6 s ?_ i hi j
    rw [← hs'.length_eq, MPS.ds, List.length_map, hw.len, s13]
  have hnb : nsq e.mps.ds e.lb.u e.rb.u e.mps.amp = Complex.normSq c.mps.Z * c.T.nsq := by
    rw [nsq_congr fun s hs i hi j _ => hamp s hs i hi j, nsq_smul, n1]
  rw [hnb] at E1
  have hz : c.mps.Z ≠ 0 := by rintro hz; rw [hz, map_zero, zero_mul] at E1; exact lt_irrefl _ E1
  have ht : 0 < c.T.nsq := (mul_pos_iff_of_pos_left (Complex.normSq_pos.mpr hz)).mp E1
  have heb : energy e.lb e.mpo e.rb e.mps.ds e.mps.amp = siteForm c.L c.W c.R c.T c.T / c.T.nsq := by
    rw [energy_congr hf.lb.symm hamp, energy_smul hz]
    unfold energy
    rw [n1, f1]
  obtain ⟨v1, v2, v3⟩ := hV _ _ _ _ _ _ (C.herm hH) ht s15
  have hx' : (c.opt.nsq : ℂ) ≠ 0 := by exact_mod_cast v1.ne'
  have hna : nsq e.mps.ds e.lb.u e.rb.u c.after = c.opt.nsq := by unfold Call.after; rw [s1]; exact n2
  have hea : energy e.lb e.mpo e.rb e.mps.ds c.after = c.energy := by
    unfold energy
    rw [hna]
    unfold Call.after
    rw [s1, f2, ← v2, mul_div_cancel_right₀ _ hx']
  have hds' : e'.mps.ds = e.mps.ds := by
    rw [← hds, MPS.ds, s12]
    exact hset _ (xs.2.2.trans q4)
  refine ⟨⟨by rw [s7]; exact hf.lb, by rw [s8]; exact hf.rb, by rw [s6, s7, s8]; exact hf.mlink, by rw [s6, hds']; exact hf.ins,
    by rw [s6, hds']; exact hf.outs⟩, hds', ?_, ?_, ?_, by rw [hna]; exact v1, hea⟩
  · intro hw'
    rw [s7, s8] at hw'
    subst q2
    have hm' : e'.mps.mat = eyeNormed D := p5
    have hl := hw'.left
    have hlr := hw'.right
    rw [hm'] at hl hlr
    have hD : 0 < D := by
      obtain ⟨i0, hi0, j0, hj0, -⟩ := Ten.nsq_pos.mp v1
      have hfull : e'.mps.tensors[n]? = some c.opt := by rw [s12]; exact List.getElem?_set_self hlt
      rcases q1 with q1 | q1
      · rw [p7, q1, drop_getElem? hfull] at hlr
        have : c.opt.l = D := hlr.1
        omega
      · rw [p7, q1, take_succ_getElem? hfull, linked_append] at hl
        obtain ⟨-, -, -, q⟩ := hl
        have : c.opt.r = D := q
        omega
    have hkey : ∀ s, Conf e.mps.ds s → ∀ i < e.lb.u, ∀ j,
        e'.mps.amp s i j = (c.mps.Z * ((Real.sqrt D : ℂ))⁻¹) * c.after s i j := by
      intro s hs' i hi j
      have hlen : (s.take e'.mps.pos).length = (e'.mps.tensors.take e'.mps.pos).length := by
        rw [List.length_take, List.length_take, ← hs'.length_eq, ← hds', MPS.ds, List.length_map]
      rw [amp_eq_split, hm', split_eyeNormed (D := D) hl _ hlen _ hi, List.take_append_drop, List.take_append_drop, p6, s12]
      unfold Call.after
      rw [s1, mul_assoc]
    have hc : c.mps.Z * ((Real.sqrt D : ℂ))⁻¹ ≠ 0 := mul_ne_zero hz (inv_ne_zero (by
      rw [Complex.ofReal_ne_zero]; exact Real.sqrt_ne_zero'.mpr (by exact_mod_cast hD)))
    rw [s6, s7, s8]
    refine ⟨?_, ?_⟩
    · rw [nsq_congr fun s hs i hi j _ => hkey s hs i hi j, nsq_smul, hna]
      exact mul_pos (Complex.normSq_pos.mpr hc) v1
    · rw [energy_congr hf.lb.symm hkey, energy_smul hc, hea]
  · rw [← E2, heb, Complex.div_ofReal_re, le_div_iff₀ ht]
    exact v3
  · rw [← hea]
    unfold energy
    rw [Complex.div_ofReal_im, ← hform_real hH, Complex.ofReal_im, zero_div]

/-- Spec: the energies of the calls descend from `E`, every one being that of the state after the call. -/
def Descends (lb : Env ℂ) (mpo : List (Mpo ℂ)) (rb : Env ℂ) (ds : List ℕ) : ℂ → List Call → Prop
  | _, [] => True
  | E, c :: cs => (c.energy.re ≤ E.re ∧ c.energy.im = 0 ∧ 0 < nsq ds lb.u rb.u c.after ∧ energy lb mpo rb ds c.after = c.energy) ∧
      Descends lb mpo rb ds c.energy cs

/-- Spec: the energy after the calls. -/
def finalE : ℂ → List Call → ℂ
  | E, [] => E
  | _, c :: cs => finalE c.energy cs

theorem descends_append {lb rb : Env ℂ} {mpo : List (Mpo ℂ)} {ds : List ℕ} : ∀ {E : ℂ} {cs cs' : List Call},
    Descends lb mpo rb ds E cs → Descends lb mpo rb ds (finalE E cs) cs' → Descends lb mpo rb ds E (cs ++ cs')
  | _, [], _, _, h => h
  | _, _ :: _, _, h, h' => ⟨h.1, descends_append h.2 h'⟩

theorem finalE_append : ∀ (E : ℂ) (cs cs' : List Call), finalE E (cs ++ cs') = finalE (finalE E cs) cs'
  | _, [], _ => rfl
  | _, _ :: cs, cs' => finalE_append _ cs cs'

theorem finalE_getLast : ∀ {E : ℂ} {cs : List Call} {c : Call}, cs.getLast? = some c → finalE E cs = c.energy
  | _, [], _, h => by simp at h
  | _, [a], _, h => by simp at h; subst h; rfl
  | E, a :: b :: cs, c, h => by
    rw [List.getLast?_cons_cons] at h
    exact finalE_getLast (E := a.energy) (cs := b :: cs) h

theorem sweepRight_low (hO : O.Spec) (hsv : solve.Shape) (hV : solve.Var sv) {ds : List ℕ} :
    ∀ (k n : ℕ) (e e' : Eng) (acc acc' : List Call) (E : ℂ),
    Eng.sweepRight O solve sv k n e acc = .ok (e', acc') → e.Fit → e.mps.sth < 1e-15 → HermH e.lb e.mpo e.rb ds → e.mps.ds = ds →
    (0 < k → e.Ready True n n) → n + k ≤ e.mps.N → e.Low ds E →
    ∃ cs, acc' = acc ++ cs ∧ Descends e.lb e.mpo e.rb ds E cs ∧ e'.Low ds (finalE E cs) ∧ e'.Fit ∧ e'.mps.ds = ds := by
  intro k
  induction k with
  | zero =>
    intro n e e' acc acc' E h hf _ _ hd _ _ hE
    simp only [Eng.sweepRight, Except.ok.injEq, Prod.mk.injEq] at h
    obtain ⟨rfl, rfl⟩ := h
    exact ⟨[], by simp, trivial, hE, hf, hd⟩
  | succ k ih =>
    intro n e e' acc acc' E h hf hs hH hd hr hN hE
    simp only [Eng.sweepRight] at h
    split at h
    · cases h
    rename_i e1 c hstep
    subst hd
    obtain ⟨s1, s2, s3, s4, -⟩ := step_ready hO hsv hf.lb hf.rb hs (hr (by omega)) hstep (Or.inl rfl) (by omega)
    obtain ⟨t1, t2, t3, t4⟩ := step_low hO hsv hV hf hs hH (hr (by omega)) hstep (Or.inl rfl) (by omega) hE
    obtain ⟨cs, i1, i2, i3, i4, i5⟩ := ih (n + 1) e1 e' _ acc' c.energy h t1 (by rw [s4.sth]; exact hs)
      (by rw [s4.lb, s4.rb, s4.mpo]; exact hH) t2
      (fun _ => s3.ready (by omega) (fun _ => by omega) (fun h => by omega)) (by rw [s4.N]; omega) t3
    rw [s4.lb, s4.rb, s4.mpo] at i2
    exact ⟨c :: cs, by rw [i1]; simp, ⟨t4, i2⟩, i3, i4, i5⟩

theorem sweepLeft_low (hO : O.Spec) (hsv : solve.Shape) (hV : solve.Var sv) {ds : List ℕ} :
    ∀ (n : ℕ) (e e' : Eng) (acc acc' : List Call) (E : ℂ),
    Eng.sweepLeft O solve sv n e acc = .ok (e', acc') → e.Fit → e.mps.sth < 1e-15 → HermH e.lb e.mpo e.rb ds → e.mps.ds = ds →
    (0 < n → e.Ready True (n + 1) n) → n < e.mps.N → e.Low ds E →
    ∃ cs, acc' = acc ++ cs ∧ Descends e.lb e.mpo e.rb ds E cs ∧ e'.Low ds (finalE E cs) ∧ e'.Fit ∧ e'.mps.ds = ds := by
  intro n
  induction n with
  | zero =>
    intro e e' acc acc' E h hf _ _ hd _ _ hE
    simp only [Eng.sweepLeft, Except.ok.injEq, Prod.mk.injEq] at h
    obtain ⟨rfl, rfl⟩ := h
    exact ⟨[], by simp, trivial, hE, hf, hd⟩
  | succ n ih =>
    intro e e' acc acc' E h hf hs hH hd hr hN hE
    simp only [Eng.sweepLeft] at h
    split at h
    · cases h
    rename_i e1 c hstep
    subst hd
    obtain ⟨s1, s2, s3, s4, -⟩ := step_ready hO hsv hf.lb hf.rb hs (hr (by omega)) hstep (Or.inr rfl) (by omega)
    obtain ⟨t1, t2, t3, t4⟩ := step_low hO hsv hV hf hs hH (hr (by omega)) hstep (Or.inr rfl) (by omega) hE
    obtain ⟨cs, i1, i2, i3, i4, i5⟩ := ih e1 e' _ acc' c.energy h t1 (by rw [s4.sth]; exact hs)
      (by rw [s4.lb, s4.rb, s4.mpo]; exact hH) t2
      (fun _ => s3.ready (by omega) (fun _ => by omega) (fun h => by omega)) (by rw [s4.N]; omega) t3
    rw [s4.lb, s4.rb, s4.mpo] at i2
    exact ⟨c :: cs, by rw [i1]; simp, ⟨t4, i2⟩, i3, i4, i5⟩

theorem simLoop_low (hO : O.Spec) (hsv : solve.Shape) (hV : solve.Var sv) {Nmax : ℤ} {Econv : ℝ} {cp : Option ℤ} {ds : List ℕ} :
    ∀ (fuel it : ℕ) (energy : ℂ) (e : Eng) (sw : List (List Call)) (sd : List (ℕ × MPS)) (res : SimRes) (E : ℂ),
    Eng.simLoop O solve sv Nmax Econv cp fuel it energy e sw sd = .ok res → e.Fit → e.mps.sth < 1e-15 →
    HermH e.lb e.mpo e.rb ds → e.mps.ds = ds → e.Ready True 0 0 → 2 ≤ e.mps.N → e.Low ds E →
    ∃ new, res.sweeps = sw ++ new ∧ Descends e.lb e.mpo e.rb ds E new.flatten ∧ res.energy = finalE E new.flatten ∧
      res.eng.Low ds res.energy := by
  intro fuel
  induction fuel with
  | zero => intro it energy e sw sd res E h; simp [Eng.simLoop] at h
  | succ fuel ih =>
    intro it energy e sw sd res E h hf hs hH hd hr hN hE
    simp only [Eng.simLoop] at h
    split at h
    · cases h
    rename_i e1 c1 h1
    split at h
    · cases h
    rename_i e2 c2 h2
    split at h
    · cases h
    rename_i c hc
    split at h
    · cases h
    rename_i due hdue
    obtain ⟨_, -, -, -, a4, -, a6⟩ := sweepRight_spec (flag := True) hO hsv _ _ _ _ _ _ h1 hf.lb hf.rb hs (fun _ => hr) (by omega)
    have P1 := a6 (by omega)
    have hrl : 0 < e1.mps.N - 1 → e1.Ready True (e1.mps.N - 1 + 1) (e1.mps.N - 1) := fun _ =>
      P1.ready (by rw [a4.N]; omega) (fun _ => by rw [a4.N]; omega) (fun h => by rw [a4.N] at h; omega)
    obtain ⟨_, -, -, -, b4, -, b6⟩ := sweepLeft_spec (flag := True) hO hsv _ _ _ _ _ h2 (by rw [a4.lb, hf.lb])
      (by rw [a4.rb, hf.rb]) (by rw [a4.sth]; exact hs) hrl (by rw [a4.N]; omega)
    obtain ⟨P2, -⟩ := b6 (by rw [a4.N]; omega)
    have S : e.Same e2 := a4.trans b4
    obtain ⟨cs1, u1, u2, u3, u4, u5⟩ := sweepRight_low hO hsv hV _ _ _ _ _ _ E h1 hf hs hH hd (fun _ => hr) (by omega) hE
    obtain ⟨cs2, w1, w2, w3, w4, w5⟩ := sweepLeft_low hO hsv hV _ _ _ _ _ _ h2 u4 (by rw [a4.sth]; exact hs)
      (by rw [a4.lb, a4.rb, a4.mpo]; exact hH) u5 hrl (by rw [a4.N]; omega) u3
    rw [a4.lb, a4.rb, a4.mpo] at w2
    have hc2 : c2 = cs1 ++ cs2 := by rw [w1, u1, List.nil_append]
    have D2 : Descends e.lb e.mpo e.rb ds E c2 := by rw [hc2]; exact descends_append u2 w2
    have hl2 : finalE E c2 = c.energy := finalE_getLast hc
    have L2 : e2.Low ds c.energy := by rw [← hl2, hc2, finalE_append]; exact w3
    by_cases hstop : ((it + 1 : ℕ) : ℤ) > Nmax ∨ ‖c.energy - energy‖ < Econv
    · rw [if_pos hstop] at h
      simp only [Except.ok.injEq] at h
      subst h
      refine ⟨[c2], rfl, by simpa using D2, by simpa using hl2.symm, ?_⟩
      intro hw
      have hw2 : e2.mps.WF e2.lb.u e2.rb.u := ⟨hw.len, hw.pos_le, hw.left, hw.right⟩
      obtain ⟨k1, k2⟩ := L2 hw2
      have hz : e2.mps.Z ≠ 0 := by
        intro hz
        rw [nsq_congr (g := fun s i j => 0 * e2.mps.amp s i j) (fun s _ i _ j _ => by rw [amp_eq_split, hz, zero_mul, zero_mul]),
          nsq_smul, map_zero, zero_mul] at k1
        exact lt_irrefl _ k1
      have hamp : e2.mps.amp = fun s i j => e2.mps.Z * MPS.amp { e2.mps with Z := 1 } s i j := by
        funext s i j
        rw [amp_eq_split, amp_eq_split, one_mul]
      rw [hamp, nsq_smul] at k1
      rw [hamp, energy_smul hz] at k2
      exact ⟨(mul_pos_iff_of_pos_left (Complex.normSq_pos.mpr hz)).mp k1, k2⟩
    · rw [if_neg hstop] at h
      obtain ⟨new, i1, i2, i3, i4⟩ := ih (it + 1) c.energy e2 _ _ res c.energy h w4 (by rw [S.sth]; exact hs)
        (by rw [S.lb, S.rb, S.mpo]; exact hH) w5 (P2.ready (by omega) (fun h => by omega) (fun _ => by omega))
        (by rw [S.N]; exact hN) L2
      rw [S.lb, S.rb, S.mpo] at i2
      refine ⟨c2 :: new, by rw [i1]; simp, ?_, ?_, i4⟩
      · rw [List.flatten_cons]; exact descends_append D2 (hl2 ▸ i2)
      · rw [List.flatten_cons, finalE_append, hl2]; exact i3

theorem descends_pairwise {lb rb : Env ℂ} {mpo : List (Mpo ℂ)} {ds : List ℕ} : ∀ {E : ℂ} {cs : List Call},
    Descends lb mpo rb ds E cs → (E.re :: cs.map fun c => c.energy.re).Pairwise (· ≥ ·) ∧
      ∀ c ∈ cs, c.energy.im = 0 ∧ 0 < nsq ds lb.u rb.u c.after ∧ energy lb mpo rb ds c.after = c.energy
  | E, [], _ => ⟨by simp, by simp⟩
  | E, c :: cs, h => by
    obtain ⟨i1, i2⟩ := descends_pairwise h.2
    obtain ⟨⟨h1, h2⟩, -⟩ := h
    refine ⟨?_, ?_⟩
    · rw [List.map_cons, List.pairwise_cons]
      refine ⟨?_, i1⟩
      intro x hx
      rcases List.mem_cons.mp hx with rfl | hx
      · exact h1
      · exact ((List.pairwise_cons.mp i1).1 x hx).le.trans h1
    · intro x hx
      rcases List.mem_cons.mp hx with rfl | hx
      · exact h2
      · exact i2 x hx

/-- **C81 (descent).**  For a Hermitian MPO and a canonical initial state, in exact arithmetic and with an eigensolver that does not
raise the energy of its local problem: the energies found one after the other by a single-site DMRG simulation never rise, starting
from the energy of the initial state; each of them is real and is the expectation value of the MPO in the normalised state after the
step; so is the returned energy for the final state; none is below a lower bound of the operator. -/
theorem C81_descent (hO : O.Spec) (hsv : solve.Shape) (hV : solve.Var sv) {m : MPS} {mpo : List (Mpo ℂ)} {lb rb : Option (Env ℂ)}
    {e : Eng} {l r : ℕ} (hi : Eng.init O m mpo lb rb = .ok e) (hw : m.WF l r) (hsq : m.mat.r = m.mat.c) (hs : m.sth < 1e-15)
    (hN : 2 ≤ m.N) (hc : m.Canonical) (hZ : m.Z ≠ 0) (hlb : e.lb.u = e.lb.w) (hrb : e.rb.u = e.rb.w)
    (hml : MLinked e.lb.m mpo e.rb.m) (hin : mpo.map Mpo.din = m.ds) (hout : mpo.map Mpo.dout = m.ds)
    (hH : HermH e.lb mpo e.rb m.ds) {Nmax : ℤ} {Econv : ℝ} {cp : Option ℤ} {res : SimRes}
    (h : e.simulate O solve sv Nmax Econv cp = .ok res) :
    ((energy e.lb mpo e.rb m.ds m.amp).re :: res.sweeps.flatten.map fun c => c.energy.re).Pairwise (· ≥ ·) ∧
    (∀ c ∈ res.sweeps.flatten, c.energy.im = 0 ∧ 0 < nsq m.ds l r c.after ∧ energy e.lb mpo e.rb m.ds c.after = c.energy) ∧
    (∃ c, res.sweeps.flatten.getLast? = some c ∧ res.energy = c.energy) ∧
    (∀ lam : ℝ, (∀ f, lam * nsq m.ds l r f ≤ (hform e.lb mpo e.rb m.ds f f).re) → lam ≤ res.energy.re) ∧
    (res.eng.mps.WF l r → 0 < nsq m.ds l r res.eng.mps.amp ∧ energy e.lb mpo e.rb m.ds res.eng.mps.amp = res.energy) := by
  have hW : mpo.length = m.N := by
    have := congrArg List.length hin
    rwa [List.length_map, MPS.ds, List.length_map, hw.len] at this
  obtain ⟨i0, M, i1, rfl, rfl, V, -⟩ := init_spec hO hi hW hw hsq hs
  unfold Eng.simulate at h
  split_ifs at h with hso
  have hr : e.Ready True 0 0 :=
    ⟨0, 0, Or.inl M.wf, V.mono (by omega) le_rfl, fun h => by omega, fun h => by rw [M.pos] at h; omega,
      fun _ => by omega, fun _ => ⟨fun x t _ h => by omega, fun x t hx _ =>
        (canonical_position hO hw hs hc i0).right x t hx (by rw [M.pos]; omega)⟩⟩
  have hf : e.Fit := ⟨hlb, hrb, by rw [i1]; exact hml, by rw [i1, M.ds]; exact hin, by rw [i1, M.ds]; exact hout⟩
  have hlow : e.Low m.ds (energy e.lb mpo e.rb m.ds m.amp) := by
    intro _
    have hamp : ∀ s, Conf m.ds s → ∀ i < e.lb.u, ∀ j, e.mps.amp s i j = m.amp s i j := fun s hs i hi j => M.amp s (conf_cfg hs) i hi j
    refine ⟨?_, by rw [i1]; exact energy_congr hlb.symm hamp⟩
    rw [nsq_congr fun s hs i hi j _ => hamp s hs i hi j, canonical_nsq hw hc]
    exact Complex.normSq_pos.mpr hZ
  obtain ⟨new, h1, h2, h3, h4⟩ := simLoop_low hO hsv hV (ds := m.ds) _ _ _ _ _ _ _ _ h hf (by rw [M.sth]; exact hs)
    (by rw [i1]; exact hH) M.ds hr (by rw [M.N]; exact hN) hlow
  obtain ⟨new', saved, g1, g2, S, -⟩ := simLoop_spec (flag := True) hO hsv _ _ _ _ _ _ _ h (by omega) hlb hrb
    (by rw [M.sth]; exact hs) hr (by rw [M.N]; exact hN)
  rw [List.nil_append] at h1 g1
  rw [i1] at h2
  obtain ⟨d1, d2⟩ := descends_pairwise h2
  rw [← h1] at d1 d2
  have hlast : ∃ c, res.sweeps.flatten.getLast? = some c ∧ res.energy = c.energy := by
    obtain ⟨cs, c, l1, l2, -⟩ := S.last
    have : res.sweeps.flatten.getLast? = some c := by
      rw [g1, ← List.dropLast_append_getLast? cs l1, List.flatten_append, List.flatten_singleton, List.getLast?_append, l2]
      rfl
    refine ⟨c, this, ?_⟩
    rw [h3, ← h1]
    exact finalE_getLast this
  refine ⟨d1, d2, hlast, ?_, ?_⟩
  · intro lam hlam
    obtain ⟨c, c1, c2⟩ := hlast
    obtain ⟨-, n1, n2⟩ := d2 c (List.mem_of_getLast? c1)
    rw [c2, ← n2, energy, Complex.div_ofReal_re, le_div_iff₀ n1]
    exact hlam _
  · intro hwf
    have := h4 (by rw [S.same.lb, S.same.rb]; exact hwf)
    rwa [S.same.lb, S.same.rb, S.same.mpo, i1] at this

/-! ## The solvers of the library -/

open Lanczos Sparse

variable {eigh : Eigh} {p : Params} {arp : Arpack} {nv : ℕ} {lob : Lobpcg}

theorem solvers_shape : (solvers eigh p arp nv lob).Shape := by
  have key : ∀ {L : Env ℂ} {W : Mpo ℂ} {R : Env ℂ} {T X : Ten ℂ}, SiteFits L W R T.l T.r T.d → X.l = T.l ∧ X.r = T.r ∧ X.d = T.d →
      X.l = L.w ∧ X.r = R.w ∧ X.d = W.dout := by
    rintro L W R T X ⟨-, h2, -, h4, -, h6, -, -⟩ ⟨x1, x2, x3⟩
    exact ⟨x1.trans h2.symm, x2.trans h4.symm, x3.trans h6.symm⟩
  intro sv L W R T en X h
  cases sv with
  | AR =>
    simp only [solvers, eigshSite] at h
    split_ifs at h with hf
    split at h
    · cases h
    · simp only [Except.ok.injEq, Prod.mk.injEq] at h
      obtain ⟨-, rfl⟩ := h
      exact key hf ⟨rfl, rfl, rfl⟩
    · cases h
  | LAN =>
    simp only [solvers, lanczosSite] at h
    split_ifs at h with hf
    split at h
    · cases h
    · cases h
    · simp only [Except.ok.injEq, Prod.mk.injEq] at h
      obtain ⟨-, rfl⟩ := h
      exact key hf ⟨rfl, rfl, rfl⟩
  | LOBPCG =>
    simp only [solvers, lobpcgSite] at h
    split_ifs at h with hf
    split at h
    · cases h
    · cases h
    · simp only [Except.ok.injEq, Prod.mk.injEq] at h
      obtain ⟨-, rfl⟩ := h
      exact key hf ⟨rfl, rfl, rfl⟩
  | other => cases h

/-- A Ritz pair of the effective Hamiltonian meets the contract. -/
theorem ritz_var {L : Env ℂ} {W : Mpo ℂ} {R : Env ℂ} {T : Ten ℂ} {w : ℝ} {v : TVec T.l T.r T.d} (h1 : ‖v‖ = 1)
    (h2 : inner ℂ v (siteOp L W R T.l T.r T.d v) = (w : ℂ))
    (h3 : w * ‖T.vec T.l T.r T.d‖ ^ 2 ≤ (inner ℂ (T.vec T.l T.r T.d) (siteOp L W R T.l T.r T.d (T.vec T.l T.r T.d))).re) :
    0 < (TVec.ten v).nsq ∧ (w : ℂ) * (TVec.ten v).nsq = siteForm L W R (TVec.ten v) (TVec.ten v) ∧
      w * T.nsq ≤ (siteForm L W R T T).re := by
  have e1 : (TVec.ten v).nsq = 1 := by
    rw [nsq_vec (X := TVec.ten v) (l := T.l) (r := T.r) (d := T.d) rfl rfl rfl, ten_vec, h1, one_pow]
  refine ⟨by rw [e1]; exact one_pos, ?_, ?_⟩
  · have := siteOp_form L W R (TVec.ten v) (TVec.ten v) ⟨rfl, rfl, rfl⟩
    rw [e1, ← this, Complex.ofReal_one, mul_one]
    exact (h2.symm.trans (by rw [show (TVec.ten v).vec (TVec.ten v).l (TVec.ten v).r (TVec.ten v).d = v from ten_vec v]; rfl))
  · rw [← vec_norm, ← siteOp_form L W R T T ⟨rfl, rfl, rfl⟩]
    exact h3

/-- Lanczos: for a Hermitian problem and a non-zero tensor the call succeeds and meets the contract. -/
theorem lanczosSite_spec (hE : EighSpec eigh) (hd : 0 < p.delta) (hd1 : p.delta ≤ 1) (hN : 0 < p.Ndiag) (hn : 1 ≤ p.ncv) {L : Env ℂ}
    {W : Mpo ℂ} {R : Env ℂ} {T : Ten ℂ} (hH : SiteHerm L W R T.l T.r T.d) (hT : 0 < T.nsq) :
    ∃ (w : ℝ) (v : TVec T.l T.r T.d), lanczosSite eigh p L W R T = .ok (w, TVec.ten v) ∧ ‖v‖ = 1 ∧
      inner ℂ v (siteOp L W R T.l T.r T.d v) = (w : ℂ) ∧
      w * ‖T.vec T.l T.r T.d‖ ^ 2 ≤ (inner ℂ (T.vec T.l T.r T.d) (siteOp L W R T.l T.r T.d (T.vec T.l T.r T.d))).re := by
  have hx := vec_ne hT
  have hS := siteOp_symm hH
  obtain ⟨o, ho, -, h2⟩ := (C52_lanczos (p := { p with numeig := 1 }) hS hE hd hd1 hx).2 hn hN
  have hl : 1 ≤ o.st.vecs.length := run_pos (p := { p with numeig := 1 }) hd1 (C52_run (p := { p with numeig := 1 }) hS hE hN hx ho)
  obtain ⟨h2, h3⟩ := h2 hl
  obtain ⟨l1, l2, -, s4, s5, -⟩ := C52_pairs (p := { p with numeig := 1 }) hS hE hN hx ho
  have e1 : o.eta.length = 1 := by rw [l1]; exact min_eq_left hl
  obtain ⟨w, hw⟩ := List.length_eq_one_iff.mp e1
  obtain ⟨v, hv⟩ := List.length_eq_one_iff.mp (l2.trans e1)
  have g := C52_variational (p := { p with numeig := 1 }) hS hE hN hx ho (w := w) (by rw [hw]; rfl)
  have t4 := s4 0 (by rw [l2, e1]; exact one_pos) 0 (by rw [l2, e1]; exact one_pos)
  have t5 := s5 0 (by rw [l2, e1]; exact one_pos) 0 (by rw [l2, e1]; exact one_pos)
  rw [hv] at t4 t5
  rw [hw] at t5
  simp only [List.getD_cons_zero, delta, if_true, mul_one] at t4 t5
  refine ⟨w, v, ?_, ?_, t5, g.2⟩
  · unfold lanczosSite
    rw [if_pos hH.fits, haSite_eq hH.fits, h2, hw, hv]
    rfl
  · rw [inner_self_eq_norm_sq_to_K] at t4
    have : ‖v‖ ^ 2 = 1 := Complex.ofReal_injective (by rw [Complex.ofReal_pow]; exact t4)
    exact (pow_eq_one_iff_of_nonneg (norm_nonneg v) two_ne_zero).mp this

/-- ARPACK. -/
theorem eigshSite_spec (hA : ArpackSpec arp) (hk : 1 ≤ nv) {L : Env ℂ} {W : Mpo ℂ} {R : Env ℂ} {T : Ten ℂ}
    (hH : SiteHerm L W R T.l T.r T.d) (hT : 0 < T.nsq) : (nv < T.l * T.r * T.d → ∃ r, eigshSite arp nv L W R T = .ok r) ∧
    ∀ r, eigshSite arp nv L W R T = .ok r → ∃ (w : ℝ) (v : TVec T.l T.r T.d), r = (↑w, TVec.ten v) ∧ ‖v‖ = 1 ∧
      inner ℂ v (siteOp L W R T.l T.r T.d v) = (w : ℂ) ∧
      ∀ x : TVec T.l T.r T.d, w * ‖x‖ ^ 2 ≤ (inner ℂ x (siteOp L W R T.l T.r T.d x)).re := by
  obtain ⟨h1, h2⟩ := C82_ground hA (siteOp_symm hH) hk (vec_ne hT)
  have e : eigshSite arp nv L W R T = match Sparse.eigsh arp (siteOp L W R T.l T.r T.d) nv 1 (T.vec T.l T.r T.d) with
      | .error e => .error e
      | .ok (some (q :: _)) => .ok (q.1, TVec.ten q.2)
      | .ok _ => .error .type := by
    unfold eigshSite
    rw [if_pos hH.fits, haSite_eq hH.fits]
    generalize Sparse.eigsh arp (siteOp L W R T.l T.r T.d) nv 1 (T.vec T.l T.r T.d) = r
    rcases r with _ | (_ | (_ | _)) <;> rfl
  rw [e]
  constructor
  · intro hn
    obtain ⟨r, hr⟩ := h1 (by simpa [mul_assoc] using hn)
    obtain ⟨w, v, rfl, -⟩ := h2 r hr
    rw [hr]
    exact ⟨_, rfl⟩
  · intro r hr
    split at hr
    · cases hr
    · rename_i q l hq
      obtain ⟨w, v, hv, a1, a2, a3⟩ := h2 _ hq
      simp only [Option.some.injEq, List.cons.injEq] at hv
      obtain ⟨rfl, rfl⟩ := hv
      simp only [Except.ok.injEq] at hr
      exact ⟨w, v, hr.symm, a1, by rw [a2, inner_smul_right, inner_self_eq_norm_sq_to_K, a1]; simp, a3⟩
    · cases hr

theorem lobpcgSite_spec (hB : LobpcgSpec lob) {L : Env ℂ} {W : Mpo ℂ} {R : Env ℂ} {T : Ten ℂ} (hH : SiteHerm L W R T.l T.r T.d)
    (hT : 0 < T.nsq) : ∃ (w : ℝ) (v : TVec T.l T.r T.d), lobpcgSite lob L W R T = .ok (w, TVec.ten v) ∧ ‖v‖ = 1 ∧
      inner ℂ v (siteOp L W R T.l T.r T.d v) = (w : ℂ) ∧
      w * ‖T.vec T.l T.r T.d‖ ^ 2 ≤ (inner ℂ (T.vec T.l T.r T.d) (siteOp L W R T.l T.r T.d (T.vec T.l T.r T.d))).re := by
  obtain ⟨w, v, h1, h2, h3, h4⟩ := C82_lobpcg hB (siteOp_symm hH) (vec_ne hT) none
  refine ⟨w, v, ?_, h2, h3, h4⟩
  unfold lobpcgSite
  rw [if_pos hH.fits, haSite_eq hH.fits, h1]

/-- Spec: the problems on which the solvers are known to succeed. -/
def LocalOK (nv : ℕ) (sv : Solver) (L : Env ℂ) (W : Mpo ℂ) (R : Env ℂ) (T : Ten ℂ) : Prop :=
  SiteHerm L W R T.l T.r T.d ∧ (sv = .AR → nv < T.l * T.r * T.d ∨ ¬ T.NonZero)

theorem solvers_var (hE : EighSpec eigh) (hd : 0 < p.delta) (hd1 : p.delta ≤ 1) (hN : 0 < p.Ndiag) (hn : 1 ≤ p.ncv) (hA : ArpackSpec arp)
    (hk : 1 ≤ nv) (hB : LobpcgSpec lob) (sv : Solver) : (solvers eigh p arp nv lob).Var sv := by
  intro L W R T en X hH hT h
  cases sv with
  | AR =>
    obtain ⟨w, v, hr, a1, a2, a3⟩ := (eigshSite_spec hA hk hH hT).2 _ h
    simp only [Prod.mk.injEq] at hr
    obtain ⟨rfl, rfl⟩ := hr
    exact ritz_var a1 a2 (a3 _)
  | LAN =>
    obtain ⟨w, v, hr, a1, a2, a3⟩ := lanczosSite_spec hE hd hd1 hN hn hH hT
    simp only [solvers, hr, Except.ok.injEq, Prod.mk.injEq] at h
    obtain ⟨rfl, rfl⟩ := h
    exact ritz_var a1 a2 a3
  | LOBPCG =>
    obtain ⟨w, v, hr, a1, a2, a3⟩ := lobpcgSite_spec hB hH hT
    simp only [solvers, hr, Except.ok.injEq, Prod.mk.injEq] at h
    obtain ⟨rfl, rfl⟩ := h
    exact ritz_var a1 a2 a3
  | other => cases h

theorem solvers_live (hE : EighSpec eigh) (hd : 0 < p.delta) (hd1 : p.delta ≤ 1) (hN : 0 < p.Ndiag) (hn : 1 ≤ p.ncv) (hA : ArpackSpec arp)
    (hk : 1 ≤ nv) (hB : LobpcgSpec lob) {sv : Solver} (hso : sv ≠ .other) : (solvers eigh p arp nv lob).Live sv (LocalOK nv sv) := by
  intro L W R T _ _ _ _ _ _ _ _ hT ⟨hH, hQ⟩
  have hT' := Ten.nsq_pos.mpr hT
  have key : ∃ en X, solvers eigh p arp nv lob sv L W R T = .ok (en, X) := by
    cases sv with
    | AR =>
      obtain ⟨⟨en, X⟩, hr⟩ := (eigshSite_spec hA hk hH hT').1 ((hQ rfl).resolve_right (not_not.mpr hT))
      exact ⟨en, X, hr⟩
    | LAN =>
      obtain ⟨w, v, hr, -⟩ := lanczosSite_spec hE hd hd1 hN hn hH hT'
      exact ⟨_, _, hr⟩
    | LOBPCG =>
      obtain ⟨w, v, hr, -⟩ := lobpcgSite_spec hB hH hT'
      exact ⟨_, _, hr⟩
    | other => exact absurd rfl hso
  obtain ⟨en, X, hX⟩ := key
  exact ⟨en, X, hX, Ten.nsq_pos.mp (solvers_var hE hd hd1 hN hn hA hk hB sv L W R T en X hH hT' hX).1⟩

/-- For a Hermitian MPO all effective Hamiltonians are Hermitian. -/
theorem grants_of_herm {lb rb : Env ℂ} {mpo : List (Mpo ℂ)} {ds : List ℕ} (hlb : lb.u = lb.w) (hrb : rb.u = rb.w)
    (hml : MLinked lb.m mpo rb.m) (hin : mpo.map Mpo.din = ds) (hout : mpo.map Mpo.dout = ds) (hH : HermH lb mpo rb ds)
    (hAR : sv = .AR → nv = 1 ∧ ∀ d ∈ ds, 2 ≤ d) : Grants lb rb mpo (LocalOK nv sv) := by
  intro ts n L W R T hn hW hL hR hl hd
  let m : MPS := ⟨ts.length, 0, true, 0, 0, ts.set n T, ⟨0, 0, fun _ _ => 0⟩, ⟨0, 0, fun _ _ => 0⟩, 0, 1⟩
  let e : Eng := ⟨m, mpo, lb, rb, [], []⟩
  have hds : m.ds = ds := hd.trans hin
  have hf : e.Fit := ⟨hlb, hrb, hml, hin.trans hds.symm, hout.trans hds.symm⟩
  have C : SiteCtx lb rb mpo ds (ts.set n T) n L W R T.l T.r T.d := by
    rw [← hds]
    refine siteCtx_of_ok (e := e) (m := m) (dt := 0) hf ⟨hn, by simp [m], hW, ?_, ?_, ?_, ?_⟩ rfl
    · simpa [m, List.take_set_of_le] using hL
    · simpa [m, List.drop_set] using hR
    · simpa [m] using hl
    · simp [m, MPS.ds]
  refine ⟨C.herm hH, fun h => ?_⟩
  obtain ⟨rfl, h2⟩ := hAR h
  by_cases hT : T.NonZero
  · left
    obtain ⟨i, hi, j, hj, -⟩ := hT
    have h2 := h2 T.d (List.mem_of_getElem? C.dsn)
    have h3 : 1 ≤ T.l * T.r := Nat.mul_pos (by omega) (by omega)
    nlinarith
  · exact Or.inr hT

/-- **C81 (the simulation).**  For a Hermitian MPO and a canonical initial state with admissible bond dimensions, a single-site DMRG
simulation with any of the three solvers never raises, its energies never rise, and the returned energy is the expectation value of
the MPO in the normalised final state.  (`AR`: one vector, and local dimensions of at least two.) -/
theorem C81_simulation (hO : O.Spec) (hE : EighSpec eigh) (hd : 0 < p.delta) (hd1 : p.delta ≤ 1) (hNd : 0 < p.Ndiag) (hncv : 1 ≤ p.ncv)
    (hA : ArpackSpec arp) (hk : 1 ≤ nv) (hB : LobpcgSpec lob) (hso : sv ≠ .other) {m : MPS}
    {mpo : List (Mpo ℂ)} (hw : m.WF 1 1) (hsq : m.mat.r = m.mat.c) (hs : m.sth < 1e-15) (hN : 2 ≤ m.N) (hc : m.Canonical) (hZ : m.Z ≠ 0)
    (hml : MLinked 1 mpo 1) (hin : mpo.map Mpo.din = m.ds) (hout : mpo.map Mpo.dout = m.ds) (hH : HermH oneEnv mpo oneEnv m.ds)
    (had : ∀ t ∈ m.tensors, t.Adm) (hAR : sv = .AR → nv = 1 ∧ ∀ d ∈ m.ds, 2 ≤ d)
    (Nmax : ℤ) (Econv : ℝ) {cp : Option ℤ} (hcp : cp ≠ some 0) :
    ∃ e res, Eng.init O m mpo none none = .ok e ∧ e.simulate O (solvers eigh p arp nv lob) sv Nmax Econv cp = .ok res ∧
      ((energy oneEnv mpo oneEnv m.ds m.amp).re :: res.sweeps.flatten.map fun c => c.energy.re).Pairwise (· ≥ ·) ∧
      res.energy.re ≤ (energy oneEnv mpo oneEnv m.ds m.amp).re ∧ res.energy.im = 0 ∧
      0 < nsq m.ds 1 1 res.eng.mps.amp ∧ energy oneEnv mpo oneEnv m.ds res.eng.mps.amp = res.energy := by
  have hne : ∃ s i j, Cfg m.tensors s ∧ i < 1 ∧ m.amp s i j ≠ 0 := by
    by_contra hcon
    push Not at hcon
    have := canonical_nsq hw hc
    rw [nsq_congr (g := fun s i j => 0 * m.amp s i j) (fun s hs i hi j _ => by rw [hcon s i j (conf_cfg hs) hi, zero_mul]),
      nsq_smul, map_zero, zero_mul] at this
    exact (Complex.normSq_pos.mpr hZ).ne this
  obtain ⟨e, res, h1, h2, hL⟩ := dmrg_total hO solvers_shape (solvers_live hE hd hd1 hNd hncv hA hk hB hso) hso hw hsq hs hN hc hml hin hout
    (grants_of_herm rfl rfl hml hin hout hH hAR) had hne Nmax Econv hcp
  have hW : mpo.length = m.N := by
    have := congrArg List.length hin
    rwa [List.length_map, MPS.ds, List.length_map, hw.len] at this
  obtain ⟨i0, M, i1, i2, i3, V, -, i4⟩ := init_spec hO h1 hW hw hsq hs
  obtain ⟨l1, l2⟩ := i4 (Or.inl rfl)
  obtain ⟨d1, d2, ⟨c, c1, c2⟩, -, d5⟩ := C81_descent hO solvers_shape (solvers_var hE hd hd1 hNd hncv hA hk hB sv) h1 hw hsq hs hN hc hZ
    (by rw [l1]; rfl) (by rw [l2]; rfl) (by rw [l1, l2]; exact hml) hin hout (by rw [l1, l2]; exact hH) h2
  rw [l1, l2] at d1 d2 d5
  have hlu : res.eng.lb = oneEnv ∧ res.eng.rb = oneEnv := by
    unfold Eng.simulate at h2
    rw [if_neg hso] at h2
    have hr : e.Ready True 0 0 :=
      ⟨0, 0, Or.inl (by rw [← i2, ← i3]; exact M.wf), V.mono (by omega) le_rfl, fun h => by omega, fun h => by rw [M.pos] at h; omega,
        fun _ => by omega, fun _ => ⟨fun x t _ h => by omega, fun x t hx _ =>
          (canonical_position hO hw hs hc i0).right x t hx (by rw [M.pos]; omega)⟩⟩
    obtain ⟨_, _, -, -, S, -⟩ := simLoop_spec (flag := True) hO solvers_shape _ _ _ _ _ _ _ h2 (by omega) (by rw [l1]; rfl) (by rw [l2]; rfl)
      (by rw [M.sth]; exact hs) hr (by rw [M.N]; exact hN)
    exact ⟨S.same.lb.trans l1, S.same.rb.trans l2⟩
  obtain ⟨f1, f2⟩ := d5 (by have := hL.wf; rwa [hlu.1, hlu.2] at this)
  refine ⟨e, res, h1, h2, d1, ?_, ?_, f1, f2⟩
  · rw [c2]
    exact (List.pairwise_cons.mp d1).1 _ (List.mem_map_of_mem (List.mem_of_getLast? c1))
  · rw [c2]; exact (d2 c (List.mem_of_getLast? c1)).1

/-- The hypotheses are met: three spins in the GHZ state, the operator that flips all of them. -/
example : ∃ (O : LinAlg) (eigh : Eigh) (arp : Arpack) (lob : Lobpcg), O.Spec ∧ EighSpec eigh ∧ ArpackSpec arp ∧ LobpcgSpec lob ∧
    ∃ m : MPS, m.ds = [2, 2, 2] ∧ (∀ s, Conf [2, 2, 2] s → m.amp s 0 0 = ghz.amp s 0 0) ∧ ∀ sv, sv ≠ .other →
    ∃ e res, Eng.init O m [flipW, flipW, flipW] none none = .ok e ∧
      e.simulate O (solvers eigh ⟨10, 500, 1, 1 / 10 ^ 8, 1 / 10 ^ 5⟩ arp 1 lob) sv 4 1e-6 (some 2) = .ok res ∧
      energy oneEnv [flipW, flipW, flipW] oneEnv m.ds res.eng.mps.amp = res.energy := by
  obtain ⟨O, hO⟩ := exists_linAlg
  obtain ⟨eigh, hE⟩ := exists_eigh
  obtain ⟨arp, hA⟩ := exists_arpack
  obtain ⟨lob, hB⟩ := exists_lobpcg
  refine ⟨O, eigh, arp, lob, hO, hE, hA, hB, ?_⟩
  obtain ⟨m, hm, hg, hp, ha⟩ := ghz_good hO
  have hadm : ∀ t ∈ ghz.tensors, t.Adm := by simp [ghz, ghzT, Ten.Adm]
  obtain ⟨sh, sq⟩ := position_shape hO (by norm_num [ghz]) hm hadm rfl
  have hds : m.ds = [2, 2, 2] := hg.ds_eq
  have hN : m.N = 3 := hg.N
  refine ⟨m, hds, ha, fun sv hso => ?_⟩
  obtain ⟨e, res, h1, h2, -, -, -, -, h3⟩ := C81_simulation (sv := sv) (p := ⟨10, 500, 1, 1 / 10 ^ 8, 1 / 10 ^ 5⟩) hO hE (by norm_num) (by norm_num)
    (by norm_num) (by norm_num) hA (nv := 1) le_rfl hB hso (m := m) (mpo := [flipW, flipW, flipW]) hg.wf sq hg.sth (by omega) hg.can
    (by obtain ⟨x, hx, h⟩ := hp; rw [h]; exact_mod_cast hx.ne') (by simp [MLinked, flipW]) (by rw [hds]; rfl) (by rw [hds]; rfl)
    (by rw [hds]; exact flip_herm) (adm_shape sh hadm) (fun _ => ⟨rfl, by rw [hds]; simp⟩) 4 1e-6 (cp := some 2) (by simp)
  exact ⟨e, res, h1, h2, h3⟩

end

end PyTeN
