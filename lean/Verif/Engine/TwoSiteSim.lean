import Verif.Engine.TwoSiteRun

/-! # Sweeps and the outer loop of two-site DMRG -/

namespace PyTeN
open Finset

noncomputable section

variable {O : LinAlg} {solve : Solve} {sv : Solver} {trunc : ℝ}

/-- Spec: two MPS objects describe the same state (`l` is the dimension of the left end). -/
structure SameState (l : ℕ) (m m' : MPS) : Prop where
  ds : m'.ds = m.ds
  can : m.Canonical → m'.Canonical
  amp : ∀ s, Conf m.ds s → ∀ i < l, ∀ j, m'.amp s i j = m.amp s i j

theorem SameState.refl (l : ℕ) (m : MPS) : SameState l m m := ⟨rfl, id, fun _ _ _ _ _ => rfl⟩

theorem SameState.trans {l : ℕ} {m m1 m2 : MPS} (h : SameState l m m1) (h' : SameState l m1 m2) : SameState l m m2 :=
  ⟨h'.ds.trans h.ds, fun hc => h'.can (h.can hc), fun s hs i hi j => by
    rw [h'.amp s (by rw [h.ds]; exact hs) i hi j, h.amp s hs i hi j]⟩

/-- Spec: the state changes only by the listed calls: the state at every call is the one left by the call before. -/
def Chained (l : ℕ) : MPS → List Call2 → MPS → Prop
  | m, [], m' => SameState l m m'
  | m, c :: cs, m' => SameState l m c.mps ∧ Chained l c.after cs m'

theorem Chained.same {l : ℕ} : ∀ {cs : List Call2} {m m1 m2 : MPS}, Chained l m cs m1 → SameState l m1 m2 → Chained l m cs m2
  | [], _, _, _, h, h' => SameState.trans h h'
  | _ :: _, _, _, _, h, h' => ⟨h.1, Chained.same h.2 h'⟩

theorem Chained.pre {l : ℕ} : ∀ {cs : List Call2} {m m1 m2 : MPS}, SameState l m m1 → Chained l m1 cs m2 → Chained l m cs m2
  | [], _, _, _, h, h' => SameState.trans h h'
  | _ :: _, _, _, _, h, h' => ⟨h.trans h'.1, h'.2⟩

theorem Chained.append {l : ℕ} : ∀ {cs cs' : List Call2} {m m1 m2 : MPS}, Chained l m cs m1 → Chained l m1 cs' m2 →
    Chained l m (cs ++ cs') m2
  | [], _, _, _, _, h, h' => Chained.pre h h'
  | _ :: _, _, _, _, _, h, h' => ⟨h.1, Chained.append h.2 h'⟩

theorem Moved.sameState {m m' : MPS} {l r b : ℕ} (h : Moved m m' l r b) (hc : m.Canonical → m'.Canonical) : SameState l m m' :=
  ⟨h.ds, hc, fun s hs i hi j => h.amp s (conf_cfg hs) i hi j⟩

/-- Spec of a trace entry of two-site DMRG. -/
structure Call2.Good (e : Eng) (solve : Solve) (sv : Solver) (trunc : ℝ) (c : Call2) : Prop where
  ok : c.OK e.lb e.rb e.mpo e.mps.ds
  done : c.Done e.lb e.rb trunc
  N : c.mps.N = e.mps.N
  Dmax : c.mps.Dmax = e.mps.Dmax
  sol : solve sv c.L c.W c.R c.T = .ok (c.energy, c.opt)

/-- Attributes that a two-site simulation does not change. -/
structure Eng.Same2 (e e' : Eng) : Prop extends Eng.Same e e' where
  Dmax : e'.mps.Dmax = e.mps.Dmax
  ds : e'.mps.ds = e.mps.ds

theorem Eng.Same2.refl (e : Eng) : e.Same2 e := ⟨Eng.Same.refl e, rfl, rfl⟩

theorem Eng.Same2.trans {e e1 e2 : Eng} (h : e.Same2 e1) (h' : e1.Same2 e2) : e.Same2 e2 :=
  ⟨h.toSame.trans h'.toSame, h'.Dmax.trans h.Dmax, h'.ds.trans h.ds⟩

theorem Call2.Good.same {e e' : Eng} {c : Call2} (hs : e.Same2 e') (h : c.Good e' solve sv trunc) : c.Good e solve sv trunc := by
  obtain ⟨h1, h2, h3, h4, h5⟩ := h
  rw [hs.lb, hs.rb] at h1 h2
  rw [hs.mpo, hs.ds] at h1
  exact ⟨h1, h2, h3.trans hs.N, h4.trans hs.Dmax, h5⟩

/-- What `opt2` leaves. -/
theorem opt2_step (hO : O.Spec) {e e1 : Eng} {n : ℕ} {W W' : Mpo ℂ} {c : Call2} (hw : e.mps.WF e.lb.u e.rb.u)
    (hs : e.mps.sth < 1e-15) (hv : e.Val n (n + 2)) (hp : n ≤ e.mps.pos ∧ e.mps.pos ≤ n + 2) (hn : n + 1 < e.mps.N)
    (h : e.opt2 O solve sv trunc n = .ok (e1, W, W', c)) :
    c.n = n ∧ c.Good e solve sv trunc ∧ SameState e.lb.u e.mps c.mps ∧ e1 = { e with mps := c.after } ∧ e.Same2 e1 ∧
      e1.Val n (n + 2) ∧ IsL e.lb (c.after.tensors.take n) (e.mpo.take n) (c.after.tensors.take n) c.L ∧
      e.mpo[n]? = some W ∧ e.mpo[n + 1]? = some W' := by
  obtain ⟨A, B, t, w, T0, U, V, s, H⟩ := opt2_spec hO hw hs hn h
  obtain ⟨g1, g2, g3, g4, g5, g6, g7, g8, g9⟩ := H.afterWF
  have D : c.Done e.lb e.rb trunc := H.done
  have hC := H.callOK hn rfl rfl hv hp
  have he := H.eng
  have hsame : ∀ x, x ≠ n → x ≠ n + 1 → c.after.tensors[x]? = e.mps.tensors[x]? := by
    intro x h1 h2
    have := D.same x (by rw [H.site]; exact h1) (by rw [H.site]; exact h2)
    rw [this, H.moved.same x (by omega)]
  have htake : ∀ k ≤ n, c.after.tensors.take k = e.mps.tensors.take k := fun k hk =>
    take_congr_getElem? fun x hx => hsame x (by omega) (by omega)
  have hdrop : ∀ k, n + 2 ≤ k → c.after.tensors.drop k = e.mps.tensors.drop k := fun k hk =>
    drop_congr_getElem? fun x hx => hsame x (by omega) (by omega)
  refine ⟨H.site, ⟨hC, D, H.moved.N, H.moved.Dmax, H.sol⟩, H.moved.sameState H.can, he, ?_, ?_, ?_, H.op, H.op'⟩
  · subst he; exact ⟨⟨rfl, rfl, rfl, g3, g5⟩, g6, g4⟩
  · subst he
    refine ⟨by simp only [g3]; exact hv.lenL, by simp only [g3]; exact hv.lenR, by simp only [g3]; exact hv.lenW, ?_, ?_⟩
    · intro k hk E hE
      simp only [htake k hk]
      exact hv.left k hk E hE
    · intro k hk hkN E hE
      simp only [g3] at hkN hE
      simp only [hdrop k hk]
      exact hv.right k hk hkN E hE
  · rw [htake n le_rfl]
    exact hv.left n le_rfl _ H.envL

theorem stepR2_spec (hO : O.Spec) {e e' : Eng} {n : ℕ} {c : Call2} (hw : e.mps.WF e.lb.u e.rb.u)
    (hs : e.mps.sth < 1e-15) (hv : e.Val n (n + 2)) (hp : n ≤ e.mps.pos ∧ e.mps.pos ≤ n + 2) (hn : n + 1 < e.mps.N)
    (h : e.stepR2 O solve sv trunc n = .ok (e', c)) :
    c.n = n ∧ c.Good e solve sv trunc ∧ SameState e.lb.u e.mps c.mps ∧ e'.mps = c.after ∧ e.Same2 e' ∧ e'.Val (n + 1) (n + 2) := by
  unfold Eng.stepR2 at h
  split at h
  · cases h
  rename_i e1 W W' c' h1
  split at h
  · cases h
  rename_i A hA
  split at h
  · cases h
  rename_i E hE
  split at h
  · cases h
  rename_i L hL
  simp only [Except.ok.injEq, Prod.mk.injEq] at h
  obtain ⟨rfl, rfl⟩ := h
  obtain ⟨s1, s2, s3, s4, s5, s6, s7, s8, s9⟩ := opt2_step hO hw hs hv hp hn h1
  obtain ⟨q1, rfl⟩ := setE_ok hL
  have hA' := getItem_nat hA
  have hE' := isL_snoc s7 hE
  subst s4
  rw [← take_succ_getElem? hA', ← take_succ_getElem? s8] at hE'
  refine ⟨s1, s2, s3, rfl, ⟨⟨s5.mpo, s5.lb, s5.rb, s5.N, s5.sth⟩, s5.Dmax, s5.ds⟩, ⟨?_, s6.lenR, s6.lenW, ?_, s6.right⟩⟩
  · simp only [List.length_set]; exact s6.lenL
  · intro k hk E0 h0
    simp only [List.getElem?_set] at h0
    split_ifs at h0 with h3
    · simp only [Option.some.injEq] at h0; subst h0; subst h3; exact hE'
    · exact s6.left k (by omega) E0 h0

theorem refreshR_spec {e e' : Eng} {a b n : ℕ} (hv : e.Val a b) (hb : b ≤ n + 2) (hn : n + 1 < e.mps.N)
    (h : e.refreshR n = .ok e') : e'.mps = e.mps ∧ e.Same2 e' ∧ e'.Val a (n + 1) := by
  unfold Eng.refreshR at h
  split at h
  · cases h
  rename_i R hR
  split at h
  · cases h
  rename_i B hB
  split at h
  · cases h
  rename_i W hW
  split at h
  · cases h
  rename_i E hE
  split at h
  · cases h
  rename_i R' hR'
  simp only [Except.ok.injEq] at h
  subst h
  obtain ⟨q1, rfl⟩ := setE_ok hR'
  have hi := hv.right (n + 2) hb (by omega) R (by
    rw [show e.mps.N - (n + 2) = e.mps.N - 2 - n by omega]; exact getE_ok hR)
  have hE' := isR_cons hi hE
  rw [← drop_getElem? (getItem_nat hB), ← drop_getElem? (getE_ok hW)] at hE'
  refine ⟨rfl, ⟨⟨rfl, rfl, rfl, rfl, rfl⟩, rfl, rfl⟩, ⟨hv.lenL, ?_, hv.lenW, hv.left, ?_⟩⟩
  · simp only [List.length_set]; exact hv.lenR
  · intro k hk hkN E0 h0
    simp only [List.getElem?_set] at h0 hkN
    split_ifs at h0 with h3
    · simp only [Option.some.injEq] at h0; subst h0
      have : k = n + 1 := by omega
      subst this; exact hE'
    · exact hv.right k (by omega) hkN E0 h0

theorem stepL2_spec (hO : O.Spec) {e e' : Eng} {n : ℕ} {c : Call2} (hw : e.mps.WF e.lb.u e.rb.u)
    (hs : e.mps.sth < 1e-15) (hv : e.Val n (n + 2)) (hp : n ≤ e.mps.pos ∧ e.mps.pos ≤ n + 2) (hn : n + 1 < e.mps.N)
    (h : e.stepL2 O solve sv trunc n = .ok (e', c)) :
    c.n = n ∧ c.Good e solve sv trunc ∧ SameState e.lb.u e.mps c.mps ∧ e'.mps = c.after ∧ e.Same2 e' ∧ e'.Val n (n + 1) := by
  unfold Eng.stepL2 at h
  split at h
  · cases h
  rename_i e1 W W' c' h1
  split at h
  · cases h
  rename_i e2 h2
  simp only [Except.ok.injEq, Prod.mk.injEq] at h
  obtain ⟨rfl, rfl⟩ := h
  obtain ⟨s1, s2, s3, s4, s5, s6, -⟩ := opt2_step hO hw hs hv hp hn h1
  obtain ⟨r1, r2, r3⟩ := refreshR_spec s6 le_rfl (by rw [s5.N]; exact hn) h2
  exact ⟨s1, s2, s3, by rw [r1, s4], s5.trans r2, r3⟩

/-- The right-moving half of a sweep. -/
theorem sweepR2_spec (hO : O.Spec) : ∀ (k n : ℕ) (e e' : Eng) (acc acc' : List Call2),
    Eng.sweepR2 O solve sv trunc k n e acc = .ok (e', acc') → e.mps.WF e.lb.u e.rb.u → e.mps.sth < 1e-15 → e.Val n (n + 2) →
    e.mps.pos = n → n + k + 1 < e.mps.N →
    ∃ cs, acc' = acc ++ cs ∧ cs.map Call2.n = List.range' n k ∧ (∀ c ∈ cs, c.Good e solve sv trunc) ∧
      Chained e.lb.u e.mps cs e'.mps ∧ e.Same2 e' ∧ e'.mps.WF e.lb.u e.rb.u ∧ e'.Val (n + k) (n + k + 2) ∧
      e'.mps.pos = n + k := by
  intro k
  induction k with
  | zero =>
    intro n e e' acc acc' h hw hs hv hp hN
    simp only [Eng.sweepR2, Except.ok.injEq, Prod.mk.injEq] at h
    obtain ⟨rfl, rfl⟩ := h
    exact ⟨[], by simp, rfl, by simp, SameState.refl _ _, Eng.Same2.refl _, hw, hv, hp⟩
  | succ k ih =>
    intro n e e' acc acc' h hw hs hv hp hN
    simp only [Eng.sweepR2] at h
    split at h
    · cases h
    rename_i e1 c hstep
    obtain ⟨s1, s2, s3, s4, s5, s6⟩ := stepR2_spec hO hw hs hv (by omega) (by omega) hstep
    have hD := s2.done
    obtain ⟨cs, i1, i2, i3, i4, i5, i6, i7, i8⟩ := ih (n + 1) e1 e' _ acc' h (by rw [s4, s5.lb, s5.rb]; exact hD.wf)
      (by rw [s5.sth]; exact hs) (s6.mono le_rfl (by omega)) (by rw [s4, hD.pos, s1]) (by rw [s5.N]; omega)
    refine ⟨c :: cs, by rw [i1]; simp, by rw [List.map_cons, i2, s1, List.range'_succ], ?_, ⟨s3, ?_⟩, s5.trans i5, ?_, ?_, ?_⟩
    · intro c' hc'
      rcases List.mem_cons.mp hc' with rfl | hc'
      · exact s2
      · exact (i3 c' hc').same s5
    · rw [← s4, ← s5.lb]; exact i4
    · rw [← s5.lb, ← s5.rb]; exact i6
    · rw [show n + (k + 1) = n + 1 + k by omega]; exact i7
    · rw [i8]; omega

/-- The left-moving half of a sweep. -/
theorem sweepL2_spec (hO : O.Spec) : ∀ (n : ℕ) (e e' : Eng) (acc acc' : List Call2),
    Eng.sweepL2 O solve sv trunc n e acc = .ok (e', acc') → e.mps.WF e.lb.u e.rb.u → e.mps.sth < 1e-15 →
    (0 < n → e.Val (n - 1) (n + 1)) → (0 < n → n - 1 ≤ e.mps.pos ∧ e.mps.pos ≤ n + 1) → n < e.mps.N →
    ∃ cs, acc' = acc ++ cs ∧ cs.map Call2.n = (List.range n).reverse ∧ (∀ c ∈ cs, c.Good e solve sv trunc) ∧
      Chained e.lb.u e.mps cs e'.mps ∧ e.Same2 e' ∧ e'.mps.WF e.lb.u e.rb.u ∧
      (0 < n → e'.Val 0 1 ∧ e'.mps.pos = 1 ∧ ∃ c, cs.getLast? = some c ∧ c.n = 0 ∧ e'.mps = c.after) := by
  intro n
  induction n with
  | zero =>
    intro e e' acc acc' h hw hs hv hp hN
    simp only [Eng.sweepL2, Except.ok.injEq, Prod.mk.injEq] at h
    obtain ⟨rfl, rfl⟩ := h
    exact ⟨[], by simp, rfl, by simp, SameState.refl _ _, Eng.Same2.refl _, hw, fun h => absurd h (by omega)⟩
  | succ n ih =>
    intro e e' acc acc' h hw hs hv hp hN
    simp only [Eng.sweepL2] at h
    split at h
    · cases h
    rename_i e1 c hstep
    have hv := hv (by omega)
    have hp := hp (by omega)
    rw [show n + 1 - 1 = n by omega] at hv hp
    obtain ⟨s1, s2, s3, s4, s5, s6⟩ := stepL2_spec hO hw hs hv (by omega) (by omega) hstep
    have hD := s2.done
    obtain ⟨cs, i1, i2, i3, i4, i5, i6, i7⟩ := ih e1 e' _ acc' h (by rw [s4, s5.lb, s5.rb]; exact hD.wf)
      (by rw [s5.sth]; exact hs) (fun _ => s6.mono (by omega) (by omega)) (fun _ => by rw [s4, hD.pos, s1]; omega)
      (by rw [s5.N]; omega)
    refine ⟨c :: cs, by rw [i1]; simp, ?_, ?_, ⟨s3, ?_⟩, s5.trans i5, ?_, fun _ => ?_⟩
    · rw [List.map_cons, i2, s1, List.range_succ, List.reverse_append]; simp
    · intro c' hc'
      rcases List.mem_cons.mp hc' with rfl | hc'
      · exact s2
      · exact (i3 c' hc').same s5
    · rw [← s4, ← s5.lb]; exact i4
    · rw [← s5.lb, ← s5.rb]; exact i6
    · rcases Nat.eq_zero_or_pos n with h0 | h0
      · subst h0
        have hcs : cs = [] := by simpa using i2
        subst hcs
        simp only [Eng.sweepL2, Except.ok.injEq, Prod.mk.injEq] at h
        obtain ⟨rfl, -⟩ := h
        exact ⟨s6, by rw [s4, hD.pos, s1], c, rfl, s1, s4⟩
      · obtain ⟨j1, j2, c', j3, j4, j5⟩ := i7 h0
        refine ⟨j1, j2, c', ?_, j4, j5⟩
        rw [List.getLast?_cons, j3]; rfl

/-- Spec: order of the left sites of the pairs visited in one sweep. -/
def dmrgPairs (N : ℕ) : List ℕ := List.range (N - 2) ++ (List.range (N - 1)).reverse

/-- One sweep. -/
theorem sweep2_spec (hO : O.Spec) {e e3 : Eng} {cs : List Call2} {c : Call2} (h : e.sweep2 O solve sv trunc = .ok (e3, cs, c))
    (hw : e.mps.WF e.lb.u e.rb.u) (hs : e.mps.sth < 1e-15) (hv : e.Val 0 2) (hp : e.mps.pos = 0) (hN : 2 ≤ e.mps.N) :
    cs.map Call2.n = dmrgPairs e.mps.N ∧ (∀ c ∈ cs, c.Good e solve sv trunc) ∧ Chained e.lb.u e.mps cs e3.mps ∧ e.Same2 e3 ∧
      e3.mps.WF e.lb.u e.rb.u ∧ e3.Val 0 1 ∧ e3.mps.pos = 0 ∧ cs.getLast? = some c ∧ c.n = 0 ∧
      SameState e.lb.u c.after e3.mps ∧ normF e3.mps.mat = 1 := by
  unfold Eng.sweep2 at h
  split at h
  · cases h
  rename_i e1 c1 h1
  split at h
  · cases h
  rename_i e2 c2 h2
  split at h
  · cases h
  rename_i m hm
  split at h
  · cases h
  rename_i c' hc'
  split at h
  · cases h
  rename_i e3' h3
  simp only [Except.ok.injEq, Prod.mk.injEq] at h
  obtain ⟨rfl, rfl, rfl⟩ := h
  obtain ⟨cs1, a1, a2, a3, a4, a5, a6, a7, a8⟩ := sweepR2_spec hO _ _ _ _ _ _ h1 hw hs hv hp (by omega)
  obtain ⟨cs2, b1, b2, b3, b4, b5, b6, b7⟩ := sweepL2_spec hO _ _ _ _ _ h2 (by rw [a5.lb, a5.rb]; exact a6)
    (by rw [a5.sth]; exact hs)
    (fun _ => a7.mono (by rw [a5.N]; omega) (by rw [a5.N]; omega)) (fun _ => by rw [a8, a5.N]; omega) (by rw [a5.N]; omega)
  obtain ⟨d1, d2, c0, d3, d4, d5⟩ := b7 (by rw [a5.N]; omega)
  have S := a5.trans b5
  have hcs : c2 = cs1 ++ cs2 := by rw [b1, a1]; simp
  have hlast : c2.getLast? = some c0 := by rw [hcs, List.getLast?_append, d3]; rfl
  have hcc : c0 = c' := by rw [hlast] at hc'; simpa using hc'
  subst hcc
  rw [a5.lb] at b4 b6
  rw [a5.rb] at b6
  obtain ⟨-, -, M, hcan⟩ := position_one hO (by rw [S.sth]; exact hs) b6 hm
  simp only [Int.toNat_zero] at M
  have V2 : Eng.Val { e2 with mps := m } 0 1 := by
    refine ⟨by simp only [M.N]; exact d1.lenL, by simp only [M.N]; exact d1.lenR, by simp only [M.N]; exact d1.lenW, ?_, ?_⟩
    · intro k hk E hE
      obtain rfl : k = 0 := by omega
      simpa using d1.left 0 le_rfl E hE
    · intro k hk hkN E hE
      simp only [M.N] at hkN hE
      simp only
      rw [drop_congr_getElem? (l' := m.tensors) (l := e2.mps.tensors) fun x hx => M.same x (by omega)]
      exact d1.right k hk hkN E hE
  obtain ⟨r1, r2, r3⟩ := refreshR_spec V2 (by omega) (by simp only [M.N, S.N]; omega) h3
  simp only at r1
  refine ⟨?_, ?_, ?_, ?_, by rw [r1]; exact M.wf, by rw [d4] at r3; exact r3, by rw [r1]; exact M.pos, hlast, d4, ?_, ?_⟩
  · rw [hcs, List.map_append, a2, b2, dmrgPairs, ← List.range_eq_range', a5.N]
  · intro c hc
    rw [hcs] at hc
    rcases List.mem_append.mp hc with hc | hc
    · exact a3 c hc
    · exact (b3 c hc).same a5
  · rw [hcs, r1]
    exact (a4.append b4).same (M.sameState hcan)
  · exact S.trans ⟨⟨r2.mpo, r2.lb, r2.rb, r2.N.trans M.N, r2.sth.trans M.sth⟩, r2.Dmax.trans M.Dmax, r2.ds.trans M.ds⟩
  · rw [r1, ← d5]; exact M.sameState hcan
  · rw [r1]; exact M.norm (by omega)

/-- Spec: energy of a sweep, i.e. of its last eigensolver call. -/
def sweepEnergy2 (cs : List Call2) : ℂ := (cs.getLast?.map Call2.energy).getD 0

/-- Spec of the part of a two-site simulation from iteration `it` on, with `energy` the energy of the sweep before and `fin` the
final engine before its factor `Z` is set to one. -/
structure SimSpec2 (solve : Solve) (sv : Solver) (trunc : ℝ) (Nmax : ℤ) (Econv : ℝ) (cp : Option ℤ) (it : ℕ) (energy : ℂ)
    (e : Eng) (new : List (List Call2)) (saved : List (ℕ × MPS)) (res : ℂ) (fin : Eng) : Prop where
  ne : new ≠ []
  sites : ∀ cs ∈ new, cs.map Call2.n = dmrgPairs e.mps.N
  good : ∀ cs ∈ new, ∀ c ∈ cs, c.Good e solve sv trunc
  chain : Chained e.lb.u e.mps new.flatten fin.mps
  le : 1 < new.length → ((it + new.length - 1 : ℕ) : ℤ) ≤ Nmax
  ret : res = (new.map sweepEnergy2).getLastD 0
  go : ∀ i, i + 1 < new.length → ∀ x y, (energy :: new.map sweepEnergy2)[i]? = some x →
    (energy :: new.map sweepEnergy2)[i + 1]? = some y → Econv ≤ ‖y - x‖
  stop : Nmax < ((it + new.length : ℕ) : ℤ) ∨ ∀ x, (energy :: new.map sweepEnergy2)[new.length - 1]? = some x →
    ‖res - x‖ < Econv
  cp : saved.map Prod.fst = (List.range' it new.length).filter (isCp cp)
  cpst : ∀ i m, (i, m) ∈ saved → ∃ cs c, new[i - it]? = some cs ∧ cs.getLast? = some c ∧ SameState e.lb.u c.after m
  last : ∃ cs c, new.getLast? = some cs ∧ cs.getLast? = some c ∧ c.n = 0 ∧ SameState e.lb.u c.after fin.mps ∧ res = c.energy
  same : e.Same2 fin
  wf : fin.mps.WF e.lb.u e.rb.u
  val : fin.Val 0 1
  pos : fin.mps.pos = 0
  norm : normF fin.mps.mat = 1

theorem simLoop2_spec (hO : O.Spec) {Nmax : ℤ} {Econv : ℝ} {cp : Option ℤ} :
    ∀ (fuel it : ℕ) (energy : ℂ) (e : Eng) (sw : List (List Call2)) (sd : List (ℕ × MPS)) (res : SimRes2),
    Eng.simLoop2 O solve sv trunc Nmax Econv cp fuel it energy e sw sd = .ok res → 0 < it →
    e.mps.WF e.lb.u e.rb.u → e.mps.sth < 1e-15 → e.Val 0 2 → e.mps.pos = 0 → 2 ≤ e.mps.N →
    ∃ new saved fin, res.sweeps = sw ++ new ∧ res.saved = sd ++ saved ∧
      res.eng = { fin with mps := { fin.mps with Z := 1 } } ∧
      SimSpec2 solve sv trunc Nmax Econv cp it energy e new saved res.energy fin := by
  intro fuel
  induction fuel with
  | zero => intro it energy e sw sd res h; simp [Eng.simLoop2] at h
  | succ fuel ih =>
    intro it energy e sw sd res h hit hw hs hv hp hN
    simp only [Eng.simLoop2] at h
    split at h
    · cases h
    rename_i e2 c2 c' h1
    split at h
    · cases h
    rename_i due hdue
    obtain ⟨a1, a2, a3, S, a5, a6, a7, hlast, d4, d5, d6⟩ := sweep2_spec hO h1 hw hs hv hp hN
    have hE : sweepEnergy2 c2 = c'.energy := by simp [sweepEnergy2, hlast]
    have hdue := cpDue_ok hit hdue
    set sv1 : List (ℕ × MPS) := if due then [(it, e2.mps)] else [] with hsv1
    have hsd : (if due = true then sd ++ [(it, e2.mps)] else sd) = sd ++ sv1 := by
      rw [hsv1]; split_ifs <;> simp
    rw [hsd] at h
    have hcp1 : sv1.map Prod.fst = [it].filter (isCp cp) := by
      rw [hsv1, hdue, List.filter_cons, List.filter_nil]; split_ifs <;> rfl
    have hcpm : ∀ i m, (i, m) ∈ sv1 → i = it ∧ m = e2.mps := by
      intro i m h
      rw [hsv1] at h
      split_ifs at h
      · simpa using h
      · simp at h
    split_ifs at h with hstop
    · simp only [Except.ok.injEq] at h
      subst h
      refine ⟨[c2], sv1, e2, rfl, rfl, rfl, ⟨by simp, by simpa using a1, by simpa using a2, by simpa using a3, by simp, ?_, by simp,
        ?_, ?_, ?_, ⟨c2, c', rfl, hlast, d4, d5, rfl⟩, S, a5, a6, a7, d6⟩⟩
      · simp [hE]
      · rcases hstop with h | h
        · exact Or.inl h
        · right
          intro x hx
          simp only [List.length_singleton, Nat.sub_self, List.getElem?_cons_zero, Option.some.injEq] at hx
          subst hx; exact h
      · simpa using hcp1
      · intro i m h
        obtain ⟨rfl, rfl⟩ := hcpm i m h
        exact ⟨c2, c', by simp, hlast, d5⟩
    · push Not at hstop
      obtain ⟨new, saved, fin, i1, i2, i3, I⟩ := ih (it + 1) c'.energy e2 _ _ res h (by omega)
        (by rw [S.lb, S.rb]; exact a5) (by rw [S.sth]; exact hs) (a6.mono le_rfl (by omega)) a7 (by rw [S.N]; exact hN)
      have hpos : 0 < new.length := List.length_pos_iff.mpr I.ne
      refine ⟨c2 :: new, sv1 ++ saved, fin, by rw [i1]; simp, by rw [i2]; simp, i3, ⟨by simp, ?_, ?_, ?_, ?_, ?_, ?_, ?_, ?_, ?_, ?_,
        S.trans I.same, ?_, I.val, I.pos, I.norm⟩⟩
      · intro cs h
        rcases List.mem_cons.mp h with rfl | h
        · exact a1
        · rw [I.sites cs h, S.N]
      · intro cs h c0 hc0
        rcases List.mem_cons.mp h with rfl | h
        · exact a2 c0 hc0
        · exact (I.good cs h c0 hc0).same S
      · rw [List.flatten_cons]
        exact a3.append (by rw [← S.lb]; exact I.chain)
      · intro _
        rcases Nat.lt_or_ge 1 new.length with h1 | h1
        · have := I.le h1
          simp only [List.length_cons]; omega
        · simp only [List.length_cons]; omega
      · rw [I.ret, List.map_cons]
        obtain ⟨x, xs, hx⟩ := List.exists_cons_of_ne_nil I.ne
        rw [hx]; simp
      · intro i hi x y hx hy
        rw [List.map_cons, hE] at hx hy
        cases i with
        | zero =>
          simp only [List.getElem?_cons_zero, List.getElem?_cons_succ, Option.some.injEq] at hx hy
          subst hx; subst hy; exact hstop.2
        | succ i =>
          rw [List.getElem?_cons_succ] at hx hy
          exact I.go i (by simp at hi; omega) x y hx hy
      · rcases I.stop with h | h
        · left; simp only [List.length_cons]; omega
        · right
          intro x hx
          rw [List.map_cons, hE, List.length_cons, show new.length + 1 - 1 = (new.length - 1) + 1 by omega,
            List.getElem?_cons_succ] at hx
          exact h x hx
      · rw [List.map_append, hcp1, I.cp, List.length_cons, List.range'_succ, ← List.filter_append]; rfl
      · intro i m h
        rcases List.mem_append.mp h with h | h
        · obtain ⟨rfl, rfl⟩ := hcpm i m h
          exact ⟨c2, c', by simp, hlast, d5⟩
        · obtain ⟨cs, c, j1, j2, j3⟩ := I.cpst i m h
          have : it + 1 ≤ i := by
            have hm : i ∈ saved.map Prod.fst := List.mem_map.mpr ⟨_, h, rfl⟩
            rw [I.cp] at hm
            have := (List.mem_filter.mp hm).1
            rw [List.mem_range'_1] at this
            exact this.1
          refine ⟨cs, c, ?_, j2, by rw [← S.lb]; exact j3⟩
          rw [show i - it = (i - (it + 1)) + 1 by omega, List.getElem?_cons_succ]; exact j1
      · obtain ⟨cs, c, j1, j2, j3, j4, j5⟩ := I.last
        refine ⟨cs, c, ?_, j2, j3, by rw [← S.lb]; exact j4, j5⟩
        rw [List.getLast?_cons, j1]; rfl
      · rw [← S.lb, ← S.rb]; exact I.wf

/-- Extra fuel does not change the outcome of the outer loop. -/
theorem simLoop2_fuel {Nmax : ℤ} {Econv : ℝ} {cp : Option ℤ} :
    ∀ (fuel it : ℕ) (energy : ℂ) (e : Eng) (sw : List (List Call2)) (sd : List (ℕ × MPS)) (k : ℕ),
    0 < fuel → Nmax < it + fuel →
    Eng.simLoop2 O solve sv trunc Nmax Econv cp (fuel + k) it energy e sw sd
      = Eng.simLoop2 O solve sv trunc Nmax Econv cp fuel it energy e sw sd := by
  intro fuel
  induction fuel with
  | zero => intro it energy e sw sd k h; exact absurd h (by omega)
  | succ fuel ih =>
    intro it energy e sw sd k _ hN
    rw [show fuel + 1 + k = (fuel + k) + 1 by omega]
    simp only [Eng.simLoop2]
    split
    · rfl
    split
    · rfl
    rename_i e3 cs c _ _ due _
    by_cases hstop : ((it + 1 : ℕ) : ℤ) > Nmax ∨ ‖c.energy - energy‖ < Econv
    · rw [if_pos hstop, if_pos hstop]
    · rw [if_neg hstop, if_neg hstop]
      rcases Nat.eq_zero_or_pos fuel with h0 | h0
      · subst h0
        push Not at hstop
        have := hstop.1
        push_cast at hN this
        omega
      · exact ih _ _ _ _ _ k h0 (by push_cast at hN ⊢; omega)

end

end PyTeN
