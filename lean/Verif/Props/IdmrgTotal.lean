import Verif.Engine.IdmrgDims
import Verif.Props.IdmrgSim
import Verif.Props.TwoSiteTotal

/-! # Infinite-system DMRG: the two-site simulation runs to its end (C89) -/

namespace PyTeN
open Finset

noncomputable section

variable {O : LinAlg} {solve : Solve} {sv : Solver} {trunc : ℝ}

/-! ## The two-site simulation does not touch the connector -/

theorem setItem_conn {m m' : MPS} {n : ℤ} {t : Ten ℂ} (h : m.setItem n t = .ok m') : m'.conn = m.conn := by
  unfold MPS.setItem at h
  split_ifs at h
  split at h
  · cases h; rfl
  · cases h

theorem opt2_conn {e e1 : Eng} {n : ℕ} {W W' : Mpo ℂ} {c : Call2} (h : e.opt2 O solve sv trunc n = .ok (e1, W, W', c)) :
    e1.mps.conn = e.mps.conn := by
  unfold Eng.opt2 at h
  split at h
  · cases h
  rename_i m hm
  split at h
  · cases h
  split at h
  · cases h
  split at h
  · cases h
  split at h
  · cases h
  split at h
  · cases h
  split at h
  · cases h
  split at h
  · cases h
  split at h
  · cases h
  split at h
  · cases h
  split_ifs at h
  simp only at h
  split at h
  · cases h
  split at h
  · cases h
  rename_i m1 h1
  split at h
  · cases h
  rename_i m2 h2
  simp only [Except.ok.injEq, Prod.mk.injEq] at h
  rw [← h.1]
  simp only
  rw [setItem_conn h2, setItem_conn h1, position_conn hm]

theorem refreshR_mps {e e1 : Eng} {n : ℕ} (h : e.refreshR n = .ok e1) : e1.mps = e.mps := by
  unfold Eng.refreshR at h
  split at h
  · cases h
  split at h
  · cases h
  split at h
  · cases h
  split at h
  · cases h
  split at h
  · cases h
  cases h
  rfl

theorem sweepR2_conn : ∀ (k n : ℕ) (e e1 : Eng) (acc acc1 : List Call2), Eng.sweepR2 O solve sv trunc k n e acc = .ok (e1, acc1) →
    e1.mps.conn = e.mps.conn := by
  intro k
  induction k with
  | zero => intro n e e1 acc acc1 h; cases h; rfl
  | succ k ih =>
    intro n e e1 acc acc1 h
    simp only [Eng.sweepR2] at h
    split at h
    · cases h
    rename_i e' c hc
    rw [ih _ _ _ _ _ h]
    unfold Eng.stepR2 at hc
    split at hc
    · cases hc
    rename_i e2 W W' c' ho
    split at hc
    · cases hc
    split at hc
    · cases hc
    split at hc
    · cases hc
    cases hc
    exact (opt2_conn ho :)

theorem sweepL2_conn : ∀ (n : ℕ) (e e1 : Eng) (acc acc1 : List Call2), Eng.sweepL2 O solve sv trunc n e acc = .ok (e1, acc1) →
    e1.mps.conn = e.mps.conn := by
  intro n
  induction n with
  | zero => intro e e1 acc acc1 h; cases h; rfl
  | succ n ih =>
    intro e e1 acc acc1 h
    simp only [Eng.sweepL2] at h
    split at h
    · cases h
    rename_i e' c hc
    rw [ih _ _ _ _ h]
    unfold Eng.stepL2 at hc
    split at hc
    · cases hc
    rename_i e2 W W' c' ho
    split at hc
    · cases hc
    rename_i e3 hr
    cases hc
    rw [refreshR_mps hr]
    exact opt2_conn ho

theorem sweep2_conn {e e1 : Eng} {cs : List Call2} {c : Call2} (h : e.sweep2 O solve sv trunc = .ok (e1, cs, c)) :
    e1.mps.conn = e.mps.conn := by
  unfold Eng.sweep2 at h
  split at h
  · cases h
  rename_i e2 c1 h1
  split at h
  · cases h
  rename_i e3 c2 h2
  split at h
  · cases h
  rename_i m hm
  split at h
  · cases h
  split at h
  · cases h
  rename_i e4 h4
  cases h
  rw [refreshR_mps h4]
  simp only
  rw [position_conn hm, sweepL2_conn _ _ _ _ _ h2, sweepR2_conn _ _ _ _ _ _ h1]

theorem simLoop2_conn {Nmax : ℤ} {Econv : ℝ} {cp : Option ℤ} : ∀ (fuel it : ℕ) (energy : ℂ) (e : Eng) (sw : List (List Call2))
    (sd : List (ℕ × MPS)) (res : SimRes2), Eng.simLoop2 O solve sv trunc Nmax Econv cp fuel it energy e sw sd = .ok res →
    res.eng.mps.conn = e.mps.conn := by
  intro fuel
  induction fuel with
  | zero => intro it energy e sw sd res h; cases h
  | succ fuel ih =>
    intro it energy e sw sd res h
    simp only [Eng.simLoop2] at h
    split at h
    · cases h
    rename_i e3 cs c hs
    split at h
    · cases h
    split at h
    · cases h
      exact (sweep2_conn hs :)
    · rw [ih _ _ _ _ _ _ h]
      exact sweep2_conn hs

/-- A two-site simulation leaves the connector alone. -/
theorem simulateTwoSite_conn {e : Eng} {Nmax : ℤ} {Econv : ℝ} {cp : Option ℤ} {res : SimRes2}
    (h : e.simulateTwoSite O solve sv Nmax Econv cp trunc = .ok res) : res.eng.mps.conn = e.mps.conn := by
  unfold Eng.simulateTwoSite at h
  split_ifs at h
  split at h
  · cases h
  rename_i m hm
  rw [simLoop2_conn _ _ _ _ _ _ _ h]
  exact position_conn hm

end

end PyTeN

namespace PyTeN.Idmrg
open Finset

noncomputable section

variable {O : LinAlg} {pinv : Mat ℂ → Mat ℂ} {solve : Solve} {sv : Solver} {trunc : ℝ}

/-- **C89 (the update).**  For a right-orthonormal state with the centre matrix at the left end, a matching connector and an MPO that
can be repeated, the update of a cell whose halves have local spaces of equal total dimension succeeds -- whatever the bond dimensions --
unless two neighbouring cells of the infinite chain have amplitude zero in every configuration, in which case it ends with NaN. -/
theorem C89_update_total (hO : O.Spec) (hp : ∀ A, PinvSpec A (pinv A)) {e : Eng} {h : ℕ} (hs : e.mps.sth < 1e-15) (hf : e.Fit)
    (hw : e.mps.WF e.lb.u e.rb.u) (hcr : e.mps.conn.r = e.rb.u) (hcl : e.mps.conn.c = e.lb.u) (hlm : e.lb.m = e.rb.m)
    (hN : e.mps.N = 2 * h) (h1 : 1 ≤ h) (hpos : e.mps.pos = 0) (hR : ∀ t ∈ e.mps.tensors, RightOrth t)
    (hprod : (e.mps.ds.take h).prod = (e.mps.ds.drop h).prod) :
    (∃ x, update O pinv e = .ok x) ∨
      (update O pinv e = .error .nan ∧ ∀ s s', CfgD e.mps.ds s → CfgD e.mps.ds s' → ∀ i < e.lb.u, ∀ j < e.rb.u,
        cellRow e.mps.amp e.mps.conn [s] (e.mps.amp s') i j = 0) :=
  total_row hO hp hs hf hw rfl rfl hcr hcl hlm hN h1 fun _ _ _ _ p1 p2 p3 p4 =>
    (glued_square hO hp hs hw hcr hcl hN h1 hpos hR hprod p1 p2 p3 p4).2

/-- Spec: a cell with matching connector, periodic MPO, halves of equal total dimension, and bonds bounded by `B`. -/
structure Sound (O : LinAlg) (h B : ℕ) (e : Eng) : Prop where
  cell : Cell O h e
  connr : e.mps.conn.r = e.rb.u
  connc : e.mps.conn.c = e.lb.u
  lm : e.lb.m = e.rb.m
  prod : (e.mps.ds.take h).prod = (e.mps.ds.drop h).prod
  bond : ∀ x ≤ e.mps.N, e.mps.bondDim x ≤ B
  D : 0 < e.mps.Dmax ∧ e.mps.Dmax ≤ B

theorem Sound.live {h B : ℕ} {e : Eng} (s : Sound O h B e) (hH : HermH e.lb e.mpo e.rb e.mps.ds) : e.Live2 B :=
  ⟨s.cell.wf, s.cell.sth, s.cell.fit, hH, s.cell.canon, s.cell.Z, s.bond, s.D⟩

/-- What the update needs is what it provides. -/
theorem update_sound (hO : O.Spec) (hp : ∀ A, PinvSpec A (pinv A)) {e e' : Eng} {h B D : ℕ} (hs : e.mps.sth < 1e-15) (hf : e.Fit)
    (hw : e.mps.WF e.lb.u e.rb.u) (hcr : e.mps.conn.r = e.rb.u) (hcl : e.mps.conn.c = e.lb.u)
    (hN : e.mps.N = 2 * h) (h1 : 1 ≤ h) (hZ : e.mps.Z ≠ 0)
    (hprod : (e.mps.ds.take h).prod = (e.mps.ds.drop h).prod) (hb : ∀ x ≤ e.mps.N, e.mps.bondDim x ≤ B)
    (hD : 0 < e.mps.Dmax ∧ e.mps.Dmax ≤ B) (hu : update O pinv e = .ok (e', D)) : Sound O h B e' := by
  have hW : e.mpo.length = e.mps.N := by
    have := congrArg List.length hf.ins
    rwa [List.length_map, MPS.ds, List.length_map, hw.len] at this
  obtain ⟨c, x1, x2, A, Bs, a1, a2, a3, a4, a5, a6, a7, a8⟩ := cell_step hO hp hs hw hN h1 hW hf.lb hf.rb hf.mlink hZ hu
  obtain ⟨m1, m2, m3, m4, mat, st⟩ := update_steps hw.len hu
  have hs0 := effSth_default hs
  obtain ⟨q1, q2, q3, hA, hB⟩ := steps_even hO hs0 hw hN st.p1 st.p2 st.p3
  have hh : e.mps.N / 2 = h := by omega
  have n1 := q1.wf.len
  have n2 := q2.wf.len
  have n3 := q3.wf.len
  rw [q1.N, hN] at n1
  rw [q2.N, q1.N, hN] at n2
  rw [q3.N, q2.N, q1.N, hN] at n3
  obtain ⟨gwf, hgds, -⟩ := glue_spec hO hp hs0 hw hcr hcl hN st.p1 st.p2 st.p3
  have p4 := st.p4
  rw [hh, hN, show 2 * h - h = h by omega, List.take_of_length_le (show (m1.tensors.drop h).length ≤ h by simp; omega),
    List.take_of_length_le (show (m1.tensors.drop h ++ m3.tensors.take h).length ≤ 2 * h by simp; omega), st.hmat] at p4
  have sg : (glued pinv h m1 m2 m3).effSth 1e-16 < 1e-15 := by
    simpa [MPS.effSth, glued, q3.sth, q2.sth, q1.sth] using hs0
  obtain ⟨-, -, q4⟩ := position_moved hO sg gwf p4
  simp only [Int.toNat_natCast] at q4
  have N4 : m4.N = 2 * h := by rw [q4.N]; simp [glued, q3.N, q2.N, q1.N, hN]
  have P := hp m2.mat
  have hlb2 : e'.lb.u = m2.mat.r := by
    have w := c.wf.left
    rw [c.pos, List.take_zero] at w
    have w' := q4.wf.left
    rw [q4.pos, List.take_zero] at w'
    rw [st.mps] at w
    exact w.trans w'.symm
  have hrb2 : e'.rb.u = m2.mat.c := by
    have w := q2.wf.right
    have l2 := st.rb.u
    rw [hh, hN, show 2 * h - h = h by omega, List.take_of_length_le (show (m2.tensors.drop h).length ≤ h by simp; omega)] at l2
    rw [q2.pos] at w
    exact linked_unique_l l2 w rfl
  have hconn : e'.mps.conn = pinv m2.mat := by rw [st.mps, q4.conn]; rfl
  refine ⟨c, ?_, ?_, ?_, ?_, ?_, ?_⟩
  · rw [hconn, P.r, hrb2]
  · rw [hconn, P.c, hlb2]
  · -- the bond of the MPO between the halves
    have hml := hf.mlink
    rw [← List.take_append_drop h e.mpo, mlinked_append] at hml
    obtain ⟨x, y1, y2⟩ := hml
    have ex : x = e'.lb.m := mlinked_rdim y1 a7.m
    have ey : e'.rb.m = x := mlinked_unique_l a8.m y2 rfl
    rw [ey, ex]
  · have ld : e.mps.ds.length = 2 * h := by rw [MPS.ds, List.length_map, hw.len, hN]
    rw [x2, List.rotate_eq_drop_append_take (by omega), List.take_left' (by rw [List.length_drop]; omega),
      List.drop_left' (by rw [List.length_drop]; omega), hprod]
  · intro x hx
    rw [st.mps] at hx ⊢
    rw [N4] at hx
    have gN : (glued pinv h m1 m2 m3).N = 2 * h := by simp [glued, q3.N, q2.N, q1.N, hN]
    refine (q4.bond x (by rw [gN]; exact hx)).trans ?_
    have b1 : ∀ y ≤ 2 * h, m1.bondDim y ≤ B := fun y hy => (q1.bond y (by omega)).trans (hb y (by omega))
    have b3 : ∀ y ≤ 2 * h, m3.bondDim y ≤ B := fun y hy =>
      ((q3.bond y (by rw [q2.N, q1.N]; omega)).trans (q2.bond y (by rw [q1.N]; omega))).trans (b1 y hy)
    have p1' : m1.pos = 2 * h := q1.pos.trans (by omega)
    have p3' : m3.pos = 0 := q3.pos
    have ld : (m1.tensors.drop h).length = h := by rw [List.length_drop]; omega
    have gd : (glued pinv h m1 m2 m3).bondDim x = if x = h then max m1.mat.r m3.mat.c
        else if x < h then ((m1.tensors.drop h ++ m3.tensors.take h)[x]?.map Ten.l).getD 0
        else ((m1.tensors.drop h ++ m3.tensors.take h)[x - 1]?.map Ten.r).getD 0 := rfl
    rw [gd]
    by_cases g1 : x = h
    · have c1 := b1 (2 * h) le_rfl
      have c3 := b3 0 (by omega)
      unfold MPS.bondDim at c1 c3
      rw [if_pos p1'.symm] at c1
      rw [if_pos p3'.symm] at c3
      rw [if_pos g1]
      exact max_le ((le_max_left _ _).trans c1) ((le_max_right _ _).trans c3)
    rw [if_neg g1]
    by_cases g2 : x < h
    · have c1 := b1 (h + x) (by omega)
      unfold MPS.bondDim at c1
      rw [if_neg (by omega), if_pos (by omega)] at c1
      rw [if_pos g2, List.getElem?_append_left (by omega), List.getElem?_drop]
      exact c1
    · have c3 := b3 (x - h) (by omega)
      unfold MPS.bondDim at c3
      rw [if_neg (by omega), if_neg (by omega)] at c3
      rw [if_neg g2, List.getElem?_append_right (by omega), ld, List.getElem?_take_of_lt (by omega), show x - 1 - h = x - h - 1 by omega]
      exact c3
  · rw [st.mps, q4.Dmax]
    simp only [glued, q3.Dmax, q2.Dmax, q1.Dmax]
    exact hD

/-- Spec: the connector is the original one or the pseudo-inverse of a normalised matrix. -/
def Linked1 (e0 e : Eng) : Prop := e.mps.conn = e0.mps.conn ∨ ∃ c, normF c = 1 ∧ PinvSpec c e.mps.conn

theorem update_link (hO : O.Spec) (hp : ∀ A, PinvSpec A (pinv A)) {e e' : Eng} {h D : ℕ} (hs : e.mps.sth < 1e-15)
    (hw : e.mps.WF e.lb.u e.rb.u) (hN : e.mps.N = 2 * h) (h1 : 1 ≤ h) (hu : update O pinv e = .ok (e', D)) :
    ∃ c, normF c = 1 ∧ PinvSpec c e'.mps.conn := by
  obtain ⟨m1, m2, m3, m4, mat, st⟩ := update_steps hw.len hu
  obtain ⟨q1, q2, q3, -, -⟩ := steps_even hO (effSth_default hs) hw hN st.p1 st.p2 st.p3
  refine ⟨m2.mat, q2.norm (by rw [q1.pos]; omega), ?_⟩
  rw [st.mps, position_conn st.p4]
  exact hp _

theorem firm_infix {ds ds' : List ℕ} (h : ds <:+: ds') (hF : solve.Firm sv ds') : solve.Firm sv ds := by
  obtain ⟨a, b, rfl⟩ := h
  intro n d d' h1 h2
  refine hF (a.length + n) d d' ?_ ?_
  · rw [List.append_assoc, List.getElem?_append_right (by omega), Nat.add_sub_cancel_left,
      List.getElem?_append_left (by by_contra hc; rw [List.getElem?_eq_none (by omega)] at h1; cases h1)]
    exact h1
  · rw [List.append_assoc, List.getElem?_append_right (by omega), show a.length + n + 1 - a.length = n + 1 by omega,
      List.getElem?_append_left (by by_contra hc; rw [List.getElem?_eq_none (by omega)] at h2; cases h2)]
    exact h2

/-- Spec: an engine whose cell vanishes when it is repeated: the update ends with NaN. -/
structure Vanishes (pinv : Mat ℂ → Mat ℂ) (O : LinAlg) (e : Eng) : Prop where
  nan : update O pinv e = .error .nan
  zero : ∀ s s', CfgD e.mps.ds s → CfgD e.mps.ds s' → ∀ i < e.lb.u, ∀ j < e.rb.u,
    cellRow e.mps.amp e.mps.conn [s] (e.mps.amp s') i j = 0

theorem loop_total (hO : O.Spec) (hp : ∀ A, PinvSpec A (pinv A)) {K : Kernels} (hso : sv ≠ .other) {h B : ℕ} {e0 : Eng} (c0 : Cell O h e0)
    (hH : ∀ n, HermH e0.lb (rowW e0 n) e0.rb (rowD e0 n)) (hF : solve.Firm sv (rowD e0 2)) (ht : Small trunc B e0.mps.ds)
    {Nmax NUC : ℤ} {Econv : ℝ} {cp : Option ℤ} (hcp : cp ≠ some 0) {rs : ℤ} (hrs : rs ≤ 0 ∨ Nmax < rs) :
    ∀ (fuel it k : ℕ) (e : Eng) (ps : List (Pass SimRes2)) (sd : List (ℕ × MPS)), 0 < fuel → Nmax < it + fuel →
      (it = 0 ∨ (it : ℤ) ≤ Nmax) → Sound O h B e → (∃ A B, Grown True h e0 k e A B) → Linked1 e0 e →
      (e.mps.ds = e0.mps.ds ∨ e.mps.ds = e0.mps.ds.rotate h) → (∀ p ∈ ps, ∀ c ∈ p.out.sweeps.flatten, c.kept ≠ 0) →
      (∃ r, loop (fun e => e.simulateTwoSite O solve sv NUC Econv cp trunc) SimRes2.eng (updateR O pinv K) Nmax cp rs fuel it e ps sd = .ok r ∧
        ∀ p ∈ r.passes, ∀ c ∈ p.out.sweeps.flatten, c.kept ≠ 0) ∨
      (loop (fun e => e.simulateTwoSite O solve sv NUC Econv cp trunc) SimRes2.eng (updateR O pinv K) Nmax cp rs fuel it e ps sd = .error .nan ∧
        ∃ e1, e1.Live2 B ∧ e1.mps.pos = 0 ∧ e1.mps.N = 2 * h ∧ e1.mps.conn.r = e1.rb.u ∧ e1.mps.conn.c = e1.lb.u ∧ Linked1 e0 e1 ∧
          Vanishes pinv O e1) := by
  intro fuel
  induction fuel with
  | zero => intro it k e ps sd h0; omega
  | succ fuel ih =>
    intro it k e ps sd _ hfu hit hS hG hL hds hps
    obtain ⟨A, Bs, g⟩ := hG
    have c := hS.cell
    have hHe := (pad_energy (extended_of g c0 c) (g.left trivial) c (hH (k + 1))).1
    have ld0 : e0.mps.ds.length = 2 * h := by rw [MPS.ds, List.length_map, c0.wf.len, c0.N]
    have hFe : solve.Firm sv e.mps.ds := by
      refine firm_infix ?_ hF
      have h2 : rowD e0 2 = e0.mps.ds ++ e0.mps.ds := by simp [rowD]
      rw [h2]
      rcases hds with hd | hd
      · rw [hd]; exact ⟨[], e0.mps.ds, by simp⟩
      · rw [hd, List.rotate_eq_drop_append_take (by omega)]
        refine ⟨e0.mps.ds.take h, e0.mps.ds.drop h, ?_⟩
        simp only [← List.append_assoc]
        rw [List.take_append_drop, List.append_assoc, List.take_append_drop]
    have hte : Small trunc B e.mps.ds := by
      rcases ht with ht | ht
      · exact Or.inl ht
      · refine Or.inr fun d hd => ht d ?_
        rcases hds with h' | h'
        · rwa [h'] at hd
        · rw [h'] at hd; exact List.mem_rotate.mp hd
    obtain ⟨res, h1, hk1, hL1⟩ := C85_total hO hso hFe hte (hS.live hHe) (c.start2 hO) (by rw [c.N]; have := c.two; omega) NUC Econv hcp
    have E := ends_two hO c h1
    have S := E.same
    have hconn := simulateTwoSite_conn h1
    obtain ⟨-, e1', fin, S1, -, -, I, hfin, -, -⟩ := C83_two_site hO (c.start2 hO) c.sth (by have := c.two; rw [c.N]; omega) h1
    have hds1 : res.eng.mps.ds = e.mps.ds := by
      rw [hfin]
      show fin.mps.ds = _
      rw [I.same.ds, S1.ds]
    have hpos1 : res.eng.mps.pos = 0 := by rw [hfin]; exact I.pos
    have hrg : rgDue rs it = false := by
      unfold rgDue
      rw [decide_eq_false_iff_not]
      rintro ⟨r1, r2, r3⟩
      rcases hrs with h' | h'
      · omega
      · rcases hit with h'' | h''
        · omega
        · rw [Int.emod_eq_of_lt (by omega) (by omega)] at r2; omega
    have hcr : res.eng.mps.conn.r = res.eng.rb.u := by rw [hconn, S.rb]; exact hS.connr
    have hcl : res.eng.mps.conn.c = res.eng.lb.u := by rw [hconn, S.lb]; exact hS.connc
    have hN1 : res.eng.mps.N = 2 * h := by rw [S.N, c.N]
    have hpr : (res.eng.mps.ds.take h).prod = (res.eng.mps.ds.drop h).prod := by rw [hds1]; exact hS.prod
    obtain ⟨due, hdue⟩ : ∃ b, cpDue cp it = .ok b := by
      unfold cpDue
      split
      · exact ⟨_, rfl⟩
      · split_ifs with q1 q2
        · exact absurd (by rw [q2]) hcp
        · exact ⟨_, rfl⟩
        · exact ⟨_, rfl⟩
    simp only [loop, h1, hrg, updateR, Bool.false_eq_true, if_false]
    rcases C89_update_total hO hp hL1.sth hL1.fit hL1.wf hcr hcl (by rw [S.lb, S.rb]; exact hS.lm) hN1 c.two hpos1
      (fun t h' => by
        obtain ⟨x, hx⟩ := List.mem_iff_getElem?.mp h'
        exact hL1.can.right x t hx (by omega)) hpr with ⟨⟨e', D⟩, hu⟩ | ⟨hu, hz⟩
    · have hS' := update_sound hO hp hL1.sth hL1.fit hL1.wf hcr hcl hN1 c.two hL1.Z hpr hL1.bond hL1.D hu
      obtain ⟨c', x1, x2, A', B', a1, a2, a3, a4, a5, a6, a7, a8⟩ := pass_step hO hp c E hu
      have g' := g.succ (by rw [c0.lenW, c0.N]) x1 a1 a2 a5 a6 a7 a8
      have hps' : ∀ p ∈ ps ++ [⟨e, res, false, e', D⟩], ∀ c ∈ p.out.sweeps.flatten, c.kept ≠ 0 := by
        intro p hp'
        rcases List.mem_append.mp hp' with hp' | hp'
        · exact hps p hp'
        · rw [List.mem_singleton.mp hp']; exact hk1
      simp only [hu, hdue]
      by_cases hstop : ((it + 1 : ℕ) : ℤ) > Nmax
      · rw [if_pos hstop]
        exact Or.inl ⟨_, rfl, hps'⟩
      · rw [if_neg hstop]
        refine ih (it + 1) (k + 1) e' _ _ (by push_cast at hstop hfu; omega) (by push_cast at hfu ⊢; omega) (Or.inr (by omega)) hS'
          ⟨_, _, g'⟩ (Or.inr (update_link hO hp hL1.sth hL1.wf hN1 c.two hu)) ?_ hps'
        rw [x2]
        rcases hds with hd | hd
        · exact Or.inr (by rw [hd])
        · left
          rw [hd, List.rotate_rotate, show h + h = e0.mps.ds.length by omega, List.rotate_length]
    · right
      refine ⟨by simp only [hu], res.eng, hL1, hpos1, hN1, hcr, hcl, ?_, hu, hz⟩
      unfold Linked1
      rw [hconn]
      exact hL

/-- **C89 (two-site IDMRG runs to its end).**  For a Hamiltonian that is Hermitian on every row of cells, a sound cell, an
eigensolver that returns normalised tensors and a small enough threshold, a two-site simulation without regauging never raises,
with one exception: it ends with NaN if some optimised cell is such that two copies of it, glued together with the connector, have
amplitude zero in every configuration.  In a run that returns no truncation has discarded a whole state. -/
theorem C89_total (hO : O.Spec) (hp : ∀ A, PinvSpec A (pinv A)) {K : Kernels} (hso : sv ≠ .other) {h B : ℕ} {e : Eng} (s : Sound O h B e)
    (hH : ∀ n, HermH e.lb (rowW e n) e.rb (rowD e n)) (hF : solve.Firm sv (rowD e 2)) (ht : Small trunc B e.mps.ds)
    (Nmax NUC : ℤ) (Econv : ℝ) {cp : Option ℤ} (hcp : cp ≠ some 0) {rs : ℤ} (hrs : rs ≤ 0 ∨ Nmax < rs) (hr1 : rs ≠ 1) :
    (∃ r, simulateTwoSite O pinv K solve sv e Nmax NUC Econv cp trunc rs = .ok r ∧ ∀ p ∈ r.passes, ∀ c ∈ p.out.sweeps.flatten, c.kept ≠ 0) ∨
    (simulateTwoSite O pinv K solve sv e Nmax NUC Econv cp trunc rs = .error .nan ∧
      ∃ e1, e1.Live2 B ∧ e1.mps.pos = 0 ∧ e1.mps.N = 2 * h ∧ e1.mps.conn.r = e1.rb.u ∧ e1.mps.conn.c = e1.lb.u ∧ Linked1 e e1 ∧
        Vanishes pinv O e1) := by
  unfold simulateTwoSite
  rw [if_neg hr1]
  exact loop_total hO hp hso s.cell hH hF ht hcp hrs _ 0 0 e [] [] (by omega) (by push_cast; omega) (Or.inl rfl) s ⟨_, _, Grown.zero True h e⟩
    (Or.inl rfl) (Or.inl rfl) (by simp)

/-- With bond dimension one nothing vanishes. -/
theorem vanish_product {h : ℕ} {e e1 : Eng} (two : 1 ≤ h) (hc : e.mps.conn.v 0 0 ≠ 0) (L : e1.Live2 1) (h1 : e1.mps.pos = 0)
    (h2 : e1.mps.N = 2 * h) (h3 : e1.mps.conn.r = e1.rb.u) (h4 : e1.mps.conn.c = e1.lb.u) (h5 : Linked1 e e1) : ¬ Vanishes pinv O e1 := by
  intro h6
  have hl : e1.lb.u ≤ 1 := by
    have b := L.bond 0 (by omega)
    unfold MPS.bondDim at b
    rw [if_pos h1.symm] at b
    have w := L.wf.left
    rw [h1, List.take_zero] at w
    have w : e1.lb.u = e1.mps.mat.r := w
    rw [w]
    exact (le_max_left _ _).trans b
  have hr : e1.rb.u ≤ 1 := by
    have b := L.bond (2 * h) (by omega)
    unfold MPS.bondDim at b
    rw [if_neg (by omega), if_neg (by omega)] at b
    have w := L.wf.right
    rw [h1, List.drop_zero] at w
    obtain ⟨β, -, b1, b2⟩ := linked_seq w
    obtain ⟨t, ht'⟩ := get_lt (l := e1.mps.tensors) (x := 2 * h - 1) (by rw [L.wf.len]; omega)
    rw [ht'] at b
    have := (b2 _ t ht').2
    rw [show 2 * h - 1 + 1 = e1.mps.tensors.length by rw [L.wf.len, h2]; omega, b1] at this
    rw [← this]
    exact b
  have hcn : e1.mps.conn.v 0 0 ≠ 0 := by
    rcases h5 with h5 | ⟨c, c1, c2⟩
    · rw [h5]; exact hc
    · intro h0
      have hr0 : c.c ≤ 1 := by rw [← c2.r, h3]; exact hr
      have hc0 : c.r ≤ 1 := by rw [← c2.c, h4]; exact hl
      have : normF c = 0 := by
        unfold normF
        rw [Real.sqrt_eq_zero (sum_nonneg fun i _ => sum_nonneg fun j _ => Complex.normSq_nonneg _)]
        refine sum_eq_zero fun i hi => sum_eq_zero fun j hj => ?_
        have hi := mem_range.mp hi
        have hj := mem_range.mp hj
        rw [← c2.one i hi j hj]
        rw [sum_eq_zero, map_zero]
        intro k hk
        refine sum_eq_zero fun k' hk' => ?_
        have hk := mem_range.mp hk
        have hk' := mem_range.mp hk'
        obtain rfl : k = 0 := by omega
        obtain rfl : k' = 0 := by omega
        rw [h0, mul_zero, zero_mul]
      rw [this] at c1
      exact zero_ne_one c1
  -- a non-zero amplitude
  obtain ⟨s0, i, j, g1, g2, g3, g4⟩ : ∃ s i j, Conf e1.mps.ds s ∧ i < e1.lb.u ∧ j < e1.rb.u ∧ e1.mps.amp s i j ≠ 0 := by
    by_contra hcon
    push Not at hcon
    have := canonical_nsq L.wf L.can
    rw [nsq_congr (g := fun s i j => 0 * e1.mps.amp s i j) (fun s hs i hi j hj => by rw [hcon s i j hs hi hj, zero_mul]),
      nsq_smul, map_zero, zero_mul] at this
    exact (Complex.normSq_pos.mpr L.Z).ne this
  obtain rfl : i = 0 := by omega
  obtain rfl : j = 0 := by omega
  have hcf : CfgD e1.mps.ds s0 := cfgD_cfg.mpr (conf_cfg g1)
  have z := h6.zero s0 s0 hcf hcf 0 g2 0 g3
  simp only [cellRow, mmul] at z
  rw [h3, h4, show e1.rb.u = 1 by omega, show e1.lb.u = 1 by omega] at z
  simp only [range_one, sum_singleton] at z
  rcases mul_eq_zero.mp z with z | z
  · exact g4 z
  rcases mul_eq_zero.mp z with z | z
  · exact hcn z
  · exact g4 z

/-- **C89 (bond dimension one).**  With bond dimension one there is no exception. -/
theorem C89_total_product (hO : O.Spec) (hp : ∀ A, PinvSpec A (pinv A)) {K : Kernels} (hso : sv ≠ .other) {h : ℕ} {e : Eng}
    (s : Sound O h 1 e) (hc : e.mps.conn.v 0 0 ≠ 0)
    (hH : ∀ n, HermH e.lb (rowW e n) e.rb (rowD e n)) (hF : solve.Firm sv (rowD e 2)) (ht : Small trunc 1 e.mps.ds)
    (Nmax NUC : ℤ) (Econv : ℝ) {cp : Option ℤ} (hcp : cp ≠ some 0) {rs : ℤ} (hrs : rs ≤ 0 ∨ Nmax < rs) (hr1 : rs ≠ 1) :
    ∃ r, simulateTwoSite O pinv K solve sv e Nmax NUC Econv cp trunc rs = .ok r ∧ ∀ p ∈ r.passes, ∀ c ∈ p.out.sweeps.flatten, c.kept ≠ 0 := by
  rcases C89_total (K := K) hO hp hso s hH hF ht Nmax NUC Econv hcp hrs hr1 with h0 | ⟨-, e1, L, h1, h2, h3, h4, h5, h6⟩
  · exact h0
  exact absurd h6 (vanish_product s.cell.two hc L h1 h2 h3 h4 h5)

/-! ## Witness: two spins in a product state, the operator that flips all spins of the chain -/

/-- Two spins, both up. -/
def pMps : MPS :=
  { N := 2, Dmax := 1, obc := false, sth := 1e-16, rth := 1e-14
    tensors := [⟨1, 1, 2, fun _ _ s => delta ℂ 0 s⟩, ⟨1, 1, 2, fun _ _ s => delta ℂ 0 s⟩]
    mat := ⟨1, 1, delta ℂ⟩, conn := ⟨1, 1, delta ℂ⟩, pos := 2, Z := 1 }

/-- Kernels that return trivial environments. -/
def pKer : Kernels := ⟨fun ts => .ok (ts, [1]), fun _ _ => .ok (oneEnv, 0), fun _ _ => .ok (oneEnv, 0)⟩

theorem pMps_sound (hO : O.Spec) : ∃ e, init O pKer pMps [flipW, flipW] = .ok e ∧ e.mpo = [flipW, flipW] ∧ e.lb = oneEnv ∧ e.rb = oneEnv ∧
    e.mps.ds = [2, 2] ∧ e.mps.conn.v 0 0 ≠ 0 ∧ Sound O 1 1 e := by
  have hs : pMps.sth < 1e-15 := by norm_num [pMps]
  have had : ∀ t ∈ pMps.tensors, t.Adm := by simp [pMps, Ten.Adm]
  have hw : pMps.WF 1 1 := by refine ⟨rfl, by decide, ?_, ?_⟩ <;> simp [pMps, Linked]
  have hne : ∃ s i j, Cfg pMps.tensors s ∧ i < 1 ∧ pMps.amp s i j ≠ 0 :=
    ⟨[0, 0], 0, 0, by simp [pMps, Cfg], by norm_num, by simp [pMps, MPS.amp, chain, delta]⟩
  obtain ⟨e, he, sqe⟩ := C86_right_total (K := pKer) (mpo := [flipW, flipW]) (y := 1) hO (by decide) hw hs rfl had hne
    (by simp [flipW, MLinked]) rfl rfl (fun _ => ⟨_, _, rfl, rfl, rfl, rfl⟩) (fun _ => ⟨_, _, rfl, rfl, rfl, rfl⟩)
  obtain ⟨-, a1, -, a2, -, -, ⟨m1, x, M1, p0, a3⟩, ⟨y, a4⟩, -, -, a5⟩ := C86_right_partial hO (by decide) hw hs rfl he
  obtain ⟨-, -, M2⟩ := position_moved hO (effSth_default (by rw [M1.sth]; exact hs)) M1.wf p0
  have hc : e.mps.conn = pMps.conn := by rw [M2.conn, M1.conn]
  have hlb : e.lb = oneEnv := (Prod.mk.inj (Except.ok.inj a3)).1.symm
  have hrb : e.rb = oneEnv := (Prod.mk.inj (Except.ok.inj a4)).1.symm
  refine ⟨e, he, a1, hlb, hrb, a2, by rw [hc]; simp [pMps, delta],
    a5 sqe (by simp [pMps]) 1 rfl, by rw [hc, hrb]; rfl, by rw [hc, hlb]; rfl, by rw [hlb, hrb], by rw [a2]; rfl, ?_, ?_⟩
  · intro x hx
    rw [M2.N, M1.N] at hx
    refine (M2.bond x (by rw [M1.N]; exact hx)).trans ((M1.bond x hx).trans ?_)
    have hx : x ≤ 2 := hx
    rcases (show x = 0 ∨ x = 1 ∨ x = 2 by omega) with rfl | rfl | rfl <;> simp [MPS.bondDim, pMps]
  · rw [M2.Dmax, M1.Dmax]
    exact ⟨by decide, by decide⟩

theorem passes_norg {τ : Type} {run : Eng → Res τ} {fin : τ → Eng} {upd : Bool → Eng → Res (Eng × ℕ)} {ps : List (Pass τ)} {last : Eng} :
    ∀ {it : ℕ} {e : Eng}, Passes run fin upd 0 it e ps last → ∀ q ∈ ps, q.rg = false := by
  induction ps with
  | nil => simp
  | cons p ps ih =>
    rintro it e ⟨-, -, a, -, b⟩ q hq
    rcases List.mem_cons.mp hq with rfl | hq
    · by_contra hc
      have := (a.mp (by simpa using hc)).1
      omega
    · exact ih b q hq

open Lanczos Sparse in
/-- The hypotheses of C87–C89 are met: the constructor succeeds, a simulation of six passes with any of the three solvers returns, and
C88 applies to all of them. -/
example : ∃ (O : LinAlg) (pinv : Mat ℂ → Mat ℂ) (eigh : Eigh) (arp : Arpack) (lob : Lobpcg), O.Spec ∧ (∀ A, PinvSpec A (pinv A)) ∧
    EighSpec eigh ∧ ArpackSpec arp ∧ LobpcgSpec lob ∧ ∀ sv, sv ≠ .other → ∃ e r, init O pKer pMps [flipW, flipW] = .ok e ∧
      simulateTwoSite O pinv pKer (solvers eigh ⟨10, 500, 1, 1 / 10 ^ 8, 1 / 10 ^ 5⟩ arp 1 lob) sv e 5 3 1e-6 (some 2) 1e-10 0 = .ok r ∧
      r.passes.length = 6 ∧ ∀ k p, r.passes[k]? = some p → ∃ A B, Extended 1 k e p.start A B ∧
        nsq (rowD e (k + 1)) 1 1 (padAmp A B p.start.lb.u p.start.rb.u p.out.eng.mps.amp) = 1 := by
  obtain ⟨O, hO⟩ := exists_linAlg
  obtain ⟨pinv, hp⟩ := exists_pinv
  obtain ⟨eigh, hE⟩ := exists_eigh
  obtain ⟨arp, hA⟩ := exists_arpack
  obtain ⟨lob, hB⟩ := exists_lobpcg
  refine ⟨O, pinv, eigh, arp, lob, hO, hp, hE, hA, hB, fun sv hso => ?_⟩
  obtain ⟨e, he, h1, h2, h3, h4, h5, hS⟩ := pMps_sound hO
  have hH : ∀ n, HermH e.lb (rowW e n) e.rb (rowD e n) := fun n => by
    rw [h2, h3]; exact flip_herm_of (by unfold rowW; rw [h1]; simp) _
  obtain ⟨r, hr, hk⟩ := C89_total_product (K := pKer) (sv := sv) (trunc := 1e-10) hO hp hso hS h5
    (solve := solvers eigh ⟨10, 500, 1, 1 / 10 ^ 8, 1 / 10 ^ 5⟩ arp 1 lob) hH
    (solvers_firm hE (by norm_num) (by norm_num) (by norm_num) (by norm_num) hA le_rfl hB hso
      (fun _ => ⟨by norm_num, by unfold rowD; rw [h4]; simp⟩))
    (Or.inr (by rw [h4]; norm_num)) 5 3 1e-6 (cp := some 2) (by simp) (rs := 0) (Or.inl le_rfl) (by simp)
  refine ⟨e, r, he, hr, (C87_course_two hr).2.number, fun k p hkp => ?_⟩
  have hno : ∀ q ∈ r.passes, q.rg = false := by
    obtain ⟨last, S, -⟩ := (C87_course_two hr).2.passes
    exact passes_norg S
  obtain ⟨A, B, x, -, -, -, hn, -⟩ := C88_energy_two hO hp (solvers_var hE (by norm_num) (by norm_num) (by norm_num) (by norm_num) hA le_rfl hB sv)
    hS.cell hH hr hkp (fun q hq => hno q (List.mem_of_mem_take hq)) (hk p (List.mem_of_getElem? hkp))
  rw [h2, h3] at hn
  exact ⟨A, B, x, hn⟩

end

end PyTeN.Idmrg
