import Verif.Props.IdmrgRestart

/-! # Infinite-system DMRG with regauging runs to its end (C90) -/

namespace PyTeN
open Finset

noncomputable section

variable {O : LinAlg} {solve : Solve} {sv : Solver} {trunc : ℝ}

/-! ## The two-site simulation does not touch the kind of boundary -/

theorem setItem_obc {m m' : MPS} {n : ℤ} {t : Ten ℂ} (h : m.setItem n t = .ok m') : m'.obc = m.obc := by
  unfold MPS.setItem at h
  split_ifs at h
  split at h
  · cases h; rfl
  · cases h

theorem opt2_obc {e e1 : Eng} {n : ℕ} {W W' : Mpo ℂ} {c : Call2} (h : e.opt2 O solve sv trunc n = .ok (e1, W, W', c)) :
    e1.mps.obc = e.mps.obc := by
  unfold Eng.opt2 at h
  split at h
  · cases h
  rename_i m hm
  split at h
  · cases h
  split at h
  · cases h
  split at h
  · cases h
  split at h
  · cases h
  split at h
  · cases h
  split at h
  · cases h
  split at h
  · cases h
  split at h
  · cases h
  split at h
  · cases h
  split_ifs at h
  simp only at h
  split at h
  · cases h
  split at h
  · cases h
  rename_i m1 h1
  split at h
  · cases h
  rename_i m2 h2
  simp only [Except.ok.injEq, Prod.mk.injEq] at h
  rw [← h.1]
  simp only
  rw [setItem_obc h2, setItem_obc h1, Idmrg.position_obc hm]

theorem sweepR2_obc : ∀ (k n : ℕ) (e e1 : Eng) (acc acc1 : List Call2), Eng.sweepR2 O solve sv trunc k n e acc = .ok (e1, acc1) →
    e1.mps.obc = e.mps.obc := by
  intro k
  induction k with
  | zero => intro n e e1 acc acc1 h; cases h; rfl
  | succ k ih =>
    intro n e e1 acc acc1 h
    simp only [Eng.sweepR2] at h
    split at h
    · cases h
    rename_i e' c hc
    rw [ih _ _ _ _ _ h]
    unfold Eng.stepR2 at hc
    split at hc
    · cases hc
    rename_i e2 W W' c' ho
    split at hc
    · cases hc
    split at hc
    · cases hc
    split at hc
    · cases hc
    cases hc
    exact (opt2_obc ho :)

theorem sweepL2_obc : ∀ (n : ℕ) (e e1 : Eng) (acc acc1 : List Call2), Eng.sweepL2 O solve sv trunc n e acc = .ok (e1, acc1) →
    e1.mps.obc = e.mps.obc := by
  intro n
  induction n with
  | zero => intro e e1 acc acc1 h; cases h; rfl
  | succ n ih =>
    intro e e1 acc acc1 h
    simp only [Eng.sweepL2] at h
    split at h
    · cases h
    rename_i e' c hc
    rw [ih _ _ _ _ h]
    unfold Eng.stepL2 at hc
    split at hc
    · cases hc
    rename_i e2 W W' c' ho
    split at hc
    · cases hc
    rename_i e3 hr
    cases hc
    rw [refreshR_mps hr]
    exact opt2_obc ho

theorem sweep2_obc {e e1 : Eng} {cs : List Call2} {c : Call2} (h : e.sweep2 O solve sv trunc = .ok (e1, cs, c)) :
    e1.mps.obc = e.mps.obc := by
  unfold Eng.sweep2 at h
  split at h
  · cases h
  rename_i e2 c1 h1
  split at h
  · cases h
  rename_i e3 c2 h2
  split at h
  · cases h
  rename_i m hm
  split at h
  · cases h
  split at h
  · cases h
  rename_i e4 h4
  cases h
  rw [refreshR_mps h4]
  simp only
  rw [Idmrg.position_obc hm, sweepL2_obc _ _ _ _ _ h2, sweepR2_obc _ _ _ _ _ _ h1]

theorem simLoop2_obc {Nmax : ℤ} {Econv : ℝ} {cp : Option ℤ} : ∀ (fuel it : ℕ) (energy : ℂ) (e : Eng) (sw : List (List Call2))
    (sd : List (ℕ × MPS)) (res : SimRes2), Eng.simLoop2 O solve sv trunc Nmax Econv cp fuel it energy e sw sd = .ok res →
    res.eng.mps.obc = e.mps.obc := by
  intro fuel
  induction fuel with
  | zero => intro it energy e sw sd res h; cases h
  | succ fuel ih =>
    intro it energy e sw sd res h
    simp only [Eng.simLoop2] at h
    split at h
    · cases h
    rename_i e3 cs c hs
    split at h
    · cases h
    split at h
    · cases h
      exact (sweep2_obc hs :)
    · rw [ih _ _ _ _ _ _ h]
      exact sweep2_obc hs

/-- A two-site simulation leaves the kind of boundary alone. -/
theorem simulateTwoSite_obc {e : Eng} {Nmax : ℤ} {Econv : ℝ} {cp : Option ℤ} {res : SimRes2}
    (h : e.simulateTwoSite O solve sv Nmax Econv cp trunc = .ok res) : res.eng.mps.obc = e.mps.obc := by
  unfold Eng.simulateTwoSite at h
  split_ifs at h
  split at h
  · cases h
  rename_i m hm
  rw [simLoop2_obc _ _ _ _ _ _ _ h]
  exact Idmrg.position_obc hm

end

end PyTeN

namespace PyTeN.Idmrg
open Finset

noncomputable section

variable {O : LinAlg} {pinv : Mat ℂ → Mat ℂ} {solve : Solve} {sv : Solver} {trunc : ℝ}

/-- Contract of the three kernels for the cell of `e`, its MPO, and the bound `B` on the bonds: the regauging returns a symmetric
gauge with bonds of at most `B`; the steady-state environments have the shape of the bond, and the effective Hamiltonians of rows of
cells between two of them are Hermitian. -/
structure KernelSpec (K : Kernels) (e : Eng) (B : ℕ) : Prop where
  sym : SymKernel K
  dim : ∀ ts A lam, K.sym ts = .ok (A, lam) → ∀ t ∈ A, t.l ≤ B ∧ t.r ≤ B
  shape : ∀ n y, MLinked y (e.mpo.rotate n) y → ShapeKernel K (e.mpo.rotate n) (e.mps.ds.rotate n) y
  herm : ∀ n ts ts' lb rb x x', K.left ts (e.mpo.rotate n) = .ok (lb, x) → K.right ts' (e.mpo.rotate n) = .ok (rb, x') → ∀ k,
    HermH lb (List.replicate k (e.mpo.rotate n)).flatten rb (List.replicate k (e.mps.ds.rotate n)).flatten

theorem update_shift {e e' : Eng} {D : ℕ} (h : update O pinv e = .ok (e', D)) :
    shift O pinv e = .ok (e'.mps, e'.mpo, e'.lb, e'.rb, D) := by
  unfold update at h
  split at h
  · cases h
  rename_i heq
  split at h
  · cases h
  split at h
  · cases h
  cases h
  exact heq

theorem blocksR_nan : ∀ (a : List (Ten ℂ)) (L : Env ℂ) (w : List (Mpo ℂ)) (b : List (Ten ℂ)), blocksR L a w b ≠ .error .nan := by
  intro a
  induction a with
  | nil => intro L w b h; simp [blocksR] at h
  | cons t a ih =>
    intro L w b h
    cases w with
    | nil => simp [blocksR] at h
    | cons W w =>
      cases b with
      | nil => simp [blocksR] at h
      | cons u b =>
        simp only [blocksR] at h
        split at h
        · rename_i h1
          unfold addLayerR at h1
          split_ifs at h1
          cases h1
          cases h
        · split at h
          · rename_i h2
            cases h
            exact ih _ _ _ h2
          · cases h

theorem blocksL_nan : ∀ (a : List (Ten ℂ)) (L : Env ℂ) (w : List (Mpo ℂ)) (b : List (Ten ℂ)), blocksL L a w b ≠ .error .nan := by
  intro a
  induction a with
  | nil => intro L w b h; simp [blocksL] at h
  | cons t a ih =>
    intro L w b h
    cases w with
    | nil => simp [blocksL] at h
    | cons W w =>
      cases b with
      | nil => simp [blocksL] at h
      | cons u b =>
        simp only [blocksL] at h
        split at h
        · rename_i h1
          unfold addLayerL at h1
          split_ifs at h1
          cases h1
          cases h
        · split at h
          · rename_i h2
            cases h
            exact ih _ _ _ h2
          · cases h

/-- The NaN of an update arises before the environments are computed. -/
theorem update_nan {e : Eng} (h : update O pinv e = .error .nan) : shift O pinv e = .error .nan := by
  unfold update at h
  split at h
  · rename_i h1
    cases h
    exact h1
  · split at h
    · rename_i h2
      cases h
      unfold getL at h2
      split at h2
      · cases h2
      · exact absurd h2 (blocksR_nan _ _ _ _)
    · split at h
      · rename_i h2
        cases h
        unfold getR at h2
        split at h2
        · cases h2
        split at h2
        · cases h2
        split at h2
        · cases h2
        · exact absurd h2 (blocksL_nan _ _ _ _)
      · cases h

theorem update_obc {e e' : Eng} {D : ℕ} (hl : e.mps.tensors.length = e.mps.N) (h : update O pinv e = .ok (e', D)) : e'.mps.obc = e.mps.obc := by
  obtain ⟨m1, m2, m3, m4, mat, st⟩ := update_steps hl h
  rw [st.mps, position_obc st.p4]
  simp only
  rw [position_obc st.p3, position_obc st.p2, position_obc st.p1]

/-- The regauged cell is as sound as the cell it comes from. -/
theorem regauge_sound (hO : O.Spec) {K : Kernels} {h B : ℕ} {e e2 : Eng} (hS : Sound O h B e) (hob : e.mps.obc = false) (hK : SymKernel K)
    (hdim : ∀ ts A lam, K.sym ts = .ok (A, lam) → ∀ t ∈ A, t.l ≤ B ∧ t.r ≤ B)
    (hE : ∀ y, MLinked y e.mpo y → ShapeKernel K e.mpo e.mps.ds y) (hr : rebuild O K true e.mps e.mpo = .ok e2) :
    Sound O h B e2 ∧ e2.mps.obc = false ∧ e2.mpo = e.mpo ∧ e2.mps.ds = e.mps.ds ∧ (∃ c, normF c = 1 ∧ PinvSpec c e2.mps.conn) ∧
      ∃ ts ts' x x', K.left ts e.mpo = .ok (e2.lb, x) ∧ K.right ts' e.mpo = .ok (e2.rb, x') := by
  have c := hS.cell
  have h2 := c.two
  obtain ⟨ts, A, lam, n, n', a1, a2, -, -, -, a6, a7, a8, a9, -, -, ⟨r1, r2, r3⟩, ⟨d1, d2, d3⟩, a14, ⟨A', x, a15, a15'⟩, ⟨x', a16⟩, a17, a18, ad, a19, a20, a21⟩ :=
    C90_regauge hO hob c.wf (by rw [c.N]; omega) c.sth c.Z hS.connr hS.connc (by rw [c.lenW]) hK hr
  have hml : MLinked e.lb.m e.mpo e.lb.m := by
    have := c.fit.mlink
    rwa [← hS.lm] at this
  have lA : Linked n A' n := agree_linked a15 a2.link
  have dA : A'.map Ten.d = e.mps.ds := by rw [agree_dims a15, ad]
  obtain ⟨u1, -, u3⟩ := hE _ hml A' n e2.lb x dA lA (Or.inl a15')
  have l2 : Linked n e2.mps.tensors n := by
    have w := a8.right
    rwa [a6, List.drop_zero, r2] at w
  obtain ⟨v1, -, v3⟩ := hE _ hml e2.mps.tensors n e2.rb x' a9 l2 (Or.inr a16)
  have hN : e2.mps.N = e.mps.N := by rw [(a18 h c.N).N, c.N]
  refine ⟨⟨a18 h c.N, by rw [d1, v1], by rw [d2, u1], by rw [u3, v3], by rw [a9]; exact hS.prod, ?_, by rw [a20]; exact hS.D⟩, by rw [a19, hob], a7, a9,
    ⟨diagL lam, ?_, ?_⟩, _, _, _, _, a15', a16⟩
  · rw [hN]
    exact a21 B (hdim _ _ _ a1)
  · have h1 : ((∑ i ∈ range n, ∑ j ∈ range n, Complex.normSq ((diagL lam).v i j) : ℝ) : ℂ) = 1 := by
      rw [← a2.norm, Complex.ofReal_sum]
      refine sum_congr rfl fun i hi => ?_
      rw [Complex.ofReal_sum, sum_eq_single i (fun j _ hj => by simp [diagL, hj.symm]) (fun h => absurd hi h)]
      obtain ⟨y, hy, ey⟩ := a2.real (mem_range.mp hi)
      have : (diagL lam).v i i = lam.getD i 0 := by simp [diagL]
      rw [this, ey, Complex.normSq_ofReal]
      push_cast
      ring
    have h1 : (∑ i ∈ range n, ∑ j ∈ range n, Complex.normSq ((diagL lam).v i j) : ℝ) = 1 := by exact_mod_cast h1
    unfold normF
    rw [show (diagL lam).r = n from a2.len, show (diagL lam).c = n from a2.len, h1, Real.sqrt_one]
  · have hr' : (diagL lam).r = n := a2.len
    have hc' : (diagL lam).c = n := a2.len
    refine ⟨by rw [d1, hc'], by rw [d2, hr'], fun i hi j hj => ?_⟩
    rw [hr'] at hi ⊢
    rw [hc'] at hj ⊢
    rw [sum_eq_single i (fun k _ hk => sum_eq_zero fun k' _ => by simp [diagL, hk.symm]) (fun h => absurd (mem_range.mpr hi) h),
      sum_eq_single j (fun k _ hk => by simp [diagL, hk]) (fun h => absurd (mem_range.mpr hj) h), d3 i hi j hj]
    obtain ⟨y, hy, ey⟩ := a2.real hi
    by_cases hij : i = j
    · subst hij
      have : (diagL lam).v i i = lam.getD i 0 := by simp [diagL]
      rw [this, if_pos rfl, ey]
      have : (y : ℂ) ≠ 0 := by exact_mod_cast hy.ne'
      field_simp
    · rw [if_neg hij]
      simp [diagL, hij]

theorem loop_total_rg (hO : O.Spec) (hp : ∀ A, PinvSpec A (pinv A)) {K : Kernels} (hso : sv ≠ .other) {h B : ℕ} {o : Eng} (co : Cell O h o)
    (hK : KernelSpec K o B) (hF : solve.Firm sv (rowD o 2)) (ht : Small trunc B o.mps.ds)
    {Nmax NUC : ℤ} {Econv : ℝ} {cp : Option ℤ} (hcp : cp ≠ some 0) {rs : ℤ} :
    ∀ (fuel it k : ℕ) (e0 e : Eng) (ps : List (Pass SimRes2)) (sd : List (ℕ × MPS)), 0 < fuel → Nmax < it + fuel →
      Cell O h e0 → (∀ n, HermH e0.lb (rowW e0 n) e0.rb (rowD e0 n)) → Sound O h B e → (∃ A B, Grown True h e0 k e A B) → Linked1 o e →
      e.mps.obc = false → (∃ n, e.mps.ds = o.mps.ds.rotate (n * h) ∧ e.mpo = o.mpo.rotate (n * h)) →
      (∀ p ∈ ps, ∀ c ∈ p.out.sweeps.flatten, c.kept ≠ 0) →
      (∃ r, loop (fun e => e.simulateTwoSite O solve sv NUC Econv cp trunc) SimRes2.eng (updateR O pinv K) Nmax cp rs fuel it e ps sd = .ok r ∧
        ∀ p ∈ r.passes, ∀ c ∈ p.out.sweeps.flatten, c.kept ≠ 0) ∨
      (loop (fun e => e.simulateTwoSite O solve sv NUC Econv cp trunc) SimRes2.eng (updateR O pinv K) Nmax cp rs fuel it e ps sd = .error .nan ∧
        ∃ e1, e1.Live2 B ∧ e1.mps.pos = 0 ∧ e1.mps.N = 2 * h ∧ e1.mps.conn.r = e1.rb.u ∧ e1.mps.conn.c = e1.lb.u ∧ Linked1 o e1 ∧
          Vanishes pinv O e1) ∨
      (∃ x n, loop (fun e => e.simulateTwoSite O solve sv NUC Econv cp trunc) SimRes2.eng (updateR O pinv K) Nmax cp rs fuel it e ps sd = .error x ∧
        KernelRaises K (o.mpo.rotate n) (o.mps.ds.rotate n) x) := by
  intro fuel
  induction fuel with
  | zero => intro it k e0 e ps sd h0; omega
  | succ fuel ih =>
    intro it k e0 e ps sd _ hfu c0 hH hS hG hL hob hds hps
    obtain ⟨A, Bs, g⟩ := hG
    obtain ⟨n, hdn, hmn⟩ := hds
    have c := hS.cell
    have hHe := (pad_energy (extended_of g c0 c) (g.left trivial) c (hH (k + 1))).1
    have ld0 : o.mps.ds.length = 2 * h := by rw [MPS.ds, List.length_map, co.wf.len, co.N]
    have lm0 : o.mpo.length = 2 * h := by rw [co.lenW, co.N]
    have hds' : e.mps.ds = o.mps.ds ∨ e.mps.ds = o.mps.ds.rotate h := by
      rw [hdn]
      rcases Nat.even_or_odd' n with ⟨j, rfl | rfl⟩
      · left
        rw [show 2 * j * h = o.mps.ds.length * j by rw [ld0]; ring, List.rotate_length_mul]
      · right
        rw [show (2 * j + 1) * h = o.mps.ds.length * j + h by rw [ld0]; ring, ← List.rotate_rotate, List.rotate_length_mul]
    have hFe : solve.Firm sv e.mps.ds := by
      refine firm_infix ?_ hF
      have h2 : rowD o 2 = o.mps.ds ++ o.mps.ds := by simp [rowD]
      rw [h2]
      rcases hds' with hd | hd
      · rw [hd]; exact ⟨[], o.mps.ds, by simp⟩
      · rw [hd, List.rotate_eq_drop_append_take (by omega)]
        refine ⟨o.mps.ds.take h, o.mps.ds.drop h, ?_⟩
        simp only [← List.append_assoc]
        rw [List.take_append_drop, List.append_assoc, List.take_append_drop]
    have hte : Small trunc B e.mps.ds := by
      rcases ht with ht | ht
      · exact Or.inl ht
      · refine Or.inr fun d hd => ht d ?_
        rw [hdn] at hd; exact List.mem_rotate.mp hd
    obtain ⟨res, h1, hk1, hL1⟩ := C85_total hO hso hFe hte (hS.live hHe) (c.start2 hO) (by rw [c.N]; have := c.two; omega) NUC Econv hcp
    have E := ends_two hO c h1
    have S := E.same
    have hconn := simulateTwoSite_conn h1
    have hob1 : res.eng.mps.obc = false := by rw [simulateTwoSite_obc h1]; exact hob
    obtain ⟨-, e1', fin, S1, -, -, I, hfin, -, -⟩ := C83_two_site hO (c.start2 hO) c.sth (by have := c.two; rw [c.N]; omega) h1
    have hds1 : res.eng.mps.ds = e.mps.ds := by
      rw [hfin]
      show fin.mps.ds = _
      rw [I.same.ds, S1.ds]
    have hpos1 : res.eng.mps.pos = 0 := by rw [hfin]; exact I.pos
    have hcr : res.eng.mps.conn.r = res.eng.rb.u := by rw [hconn, S.rb]; exact hS.connr
    have hcl : res.eng.mps.conn.c = res.eng.lb.u := by rw [hconn, S.lb]; exact hS.connc
    have hN1 : res.eng.mps.N = 2 * h := by rw [S.N, c.N]
    have hpr : (res.eng.mps.ds.take h).prod = (res.eng.mps.ds.drop h).prod := by rw [hds1]; exact hS.prod
    obtain ⟨due, hdue⟩ : ∃ b, cpDue cp it = .ok b := by
      unfold cpDue
      split
      · exact ⟨_, rfl⟩
      · split_ifs with q1 q2
        · exact absurd (by rw [q2]) hcp
        · exact ⟨_, rfl⟩
        · exact ⟨_, rfl⟩
    simp only [loop, h1]
    rcases C89_update_total hO hp hL1.sth hL1.fit hL1.wf hcr hcl (by rw [S.lb, S.rb]; exact hS.lm) hN1 c.two hpos1
      (fun t h' => by
        obtain ⟨x, hx⟩ := List.mem_iff_getElem?.mp h'
        exact hL1.can.right x t hx (by omega)) hpr with ⟨⟨e', D⟩, hu⟩ | ⟨hu, hz⟩
    · have hS' := update_sound hO hp hL1.sth hL1.fit hL1.wf hcr hcl hN1 c.two hL1.Z hpr hL1.bond hL1.D hu
      obtain ⟨c', x1, x2, A', B', a1, a2, a3, a4, a5, a6, a7, a8⟩ := pass_step hO hp c E hu
      have g' := g.succ (by rw [c0.lenW, c0.N]) x1 a1 a2 a5 a6 a7 a8
      have hob' : e'.mps.obc = false := by rw [update_obc hL1.wf.len hu]; exact hob1
      have hd' : e'.mps.ds = o.mps.ds.rotate ((n + 1) * h) := by rw [x2, hdn, List.rotate_rotate]; ring_nf
      have hm' : e'.mpo = o.mpo.rotate ((n + 1) * h) := by rw [x1, hmn, List.rotate_rotate]; ring_nf
      cases hrg : rgDue rs it with
      | false =>
        have hps' : ∀ p ∈ ps ++ [⟨e, res, false, e', D⟩], ∀ c ∈ p.out.sweeps.flatten, c.kept ≠ 0 := by
          intro p hp'
          rcases List.mem_append.mp hp' with hp' | hp'
          · exact hps p hp'
          · rw [List.mem_singleton.mp hp']; exact hk1
        simp only [updateR, Bool.false_eq_true, if_false, hu, hdue]
        by_cases hstop : ((it + 1 : ℕ) : ℤ) > Nmax
        · rw [if_pos hstop]
          exact Or.inl ⟨_, rfl, hps'⟩
        · rw [if_neg hstop]
          exact ih (it + 1) (k + 1) e0 e' _ _ (by push_cast at hstop hfu; omega) (by push_cast at hfu ⊢; omega) c0 hH hS'
            ⟨_, _, g'⟩ (Or.inr (update_link hO hp hL1.sth hL1.wf hN1 c.two hu)) hob' ⟨n + 1, hd', hm'⟩ hps'
      | true =>
        have hE : ∀ y, MLinked y e'.mpo y → ShapeKernel K e'.mpo e'.mps.ds y := by rw [hm', hd']; exact hK.shape _
        simp only [updateR, if_true, update_shift hu, hdue]
        have hml : MLinked e'.lb.m e'.mpo e'.lb.m := by
          have := c'.fit.mlink
          rwa [← hS'.lm] at this
        rcases C90_total hO hob' c'.wf (by rw [c'.N]; have := c.two; omega) c'.sth c'.Z hS'.connr hS'.connc hml c'.fit.ins c'.fit.outs hK.sym (hE _ hml)
          with ⟨e2, h2⟩ | ⟨x, h2, hx⟩
        · obtain ⟨S2, o2, m2, d2, l2, ts, ts', x, x', kl, kr⟩ := regauge_sound hO hS' hob' hK.sym hK.dim hE h2
          have hps' : ∀ p ∈ ps ++ [⟨e, res, true, e2, D⟩], ∀ c ∈ p.out.sweeps.flatten, c.kept ≠ 0 := by
            intro p hp'
            rcases List.mem_append.mp hp' with hp' | hp'
            · exact hps p hp'
            · rw [List.mem_singleton.mp hp']; exact hk1
          have hH2 : ∀ n, HermH e2.lb (rowW e2 n) e2.rb (rowD e2 n) := by
            intro q
            unfold rowW rowD
            rw [m2, d2, hm', hd']
            exact hK.herm _ ts ts' _ _ x x' (by rw [← hm']; exact kl) (by rw [← hm']; exact kr) q
          simp only [h2]
          by_cases hstop : ((it + 1 : ℕ) : ℤ) > Nmax
          · rw [if_pos hstop]
            exact Or.inl ⟨_, rfl, hps'⟩
          · rw [if_neg hstop]
            exact ih (it + 1) 0 e2 e2 _ _ (by push_cast at hstop hfu; omega) (by push_cast at hfu ⊢; omega) S2.cell hH2 S2
              ⟨_, _, Grown.zero True h e2⟩ (Or.inr l2) o2 ⟨n + 1, by rw [d2, hd'], by rw [m2, hm']⟩ hps'
        · right; right
          simp only [h2]
          exact ⟨x, (n + 1) * h, rfl, by rw [← hm', ← hd']; exact hx⟩
    · right; left
      refine ⟨?_, res.eng, hL1, hpos1, hN1, hcr, hcl, ?_, hu, hz⟩
      · cases hrg : rgDue rs it with
        | false => simp only [updateR, Bool.false_eq_true, if_false, hu]
        | true => simp only [updateR, if_true, update_nan hu]
      · unfold Linked1
        rw [hconn]
        exact hL

/-- **C90 (two-site IDMRG with regauging runs to its end).**  Whatever the step at which the state is regauged: for a Hamiltonian that
is Hermitian on every row of cells, also between the steady-state environments, a sound cell of a chain that is not open, an
eigensolver that returns normalised tensors and a small enough threshold, a two-site simulation returns -- unless two copies of an
optimised cell, glued together with the connector, have amplitude zero in every configuration, or one of the kernels raises.  In a run
that returns no truncation has discarded a whole state. -/
theorem C90_run_total (hO : O.Spec) (hp : ∀ A, PinvSpec A (pinv A)) {K : Kernels} (hso : sv ≠ .other) {h B : ℕ} {e : Eng} (s : Sound O h B e)
    (hob : e.mps.obc = false) (hK : KernelSpec K e B)
    (hH : ∀ n, HermH e.lb (rowW e n) e.rb (rowD e n)) (hF : solve.Firm sv (rowD e 2)) (ht : Small trunc B e.mps.ds)
    (Nmax NUC : ℤ) (Econv : ℝ) {cp : Option ℤ} (hcp : cp ≠ some 0) {rs : ℤ} (hr1 : rs ≠ 1) :
    (∃ r, simulateTwoSite O pinv K solve sv e Nmax NUC Econv cp trunc rs = .ok r ∧ ∀ p ∈ r.passes, ∀ c ∈ p.out.sweeps.flatten, c.kept ≠ 0) ∨
    (simulateTwoSite O pinv K solve sv e Nmax NUC Econv cp trunc rs = .error .nan ∧
      ∃ e1, e1.Live2 B ∧ e1.mps.pos = 0 ∧ e1.mps.N = 2 * h ∧ e1.mps.conn.r = e1.rb.u ∧ e1.mps.conn.c = e1.lb.u ∧ Linked1 e e1 ∧
        Vanishes pinv O e1) ∨
    (∃ x n, simulateTwoSite O pinv K solve sv e Nmax NUC Econv cp trunc rs = .error x ∧
      KernelRaises K (e.mpo.rotate n) (e.mps.ds.rotate n) x) := by
  unfold simulateTwoSite
  rw [if_neg hr1]
  exact loop_total_rg hO hp hso s.cell hK hF ht hcp _ 0 0 e e [] [] (by omega) (by push_cast; omega) s.cell hH s ⟨_, _, Grown.zero True h e⟩
    (Or.inl rfl) hob ⟨0, by simp, by simp⟩ (by simp)

/-- **C90 (bond dimension one).**  With bond dimension one only the kernels can raise. -/
theorem C90_run_product (hO : O.Spec) (hp : ∀ A, PinvSpec A (pinv A)) {K : Kernels} (hso : sv ≠ .other) {h : ℕ} {e : Eng} (s : Sound O h 1 e)
    (hob : e.mps.obc = false) (hc : e.mps.conn.v 0 0 ≠ 0) (hK : KernelSpec K e 1)
    (hH : ∀ n, HermH e.lb (rowW e n) e.rb (rowD e n)) (hF : solve.Firm sv (rowD e 2)) (ht : Small trunc 1 e.mps.ds)
    (Nmax NUC : ℤ) (Econv : ℝ) {cp : Option ℤ} (hcp : cp ≠ some 0) {rs : ℤ} (hr1 : rs ≠ 1) :
    (∃ r, simulateTwoSite O pinv K solve sv e Nmax NUC Econv cp trunc rs = .ok r ∧ ∀ p ∈ r.passes, ∀ c ∈ p.out.sweeps.flatten, c.kept ≠ 0) ∨
    (∃ x n, simulateTwoSite O pinv K solve sv e Nmax NUC Econv cp trunc rs = .error x ∧
      KernelRaises K (e.mpo.rotate n) (e.mps.ds.rotate n) x) := by
  rcases C90_run_total hO hp hso s hob hK hH hF ht Nmax NUC Econv hcp hr1 with h0 | ⟨-, e1, L, h1, h2, h3, h4, h5, h6⟩ | h0
  · exact Or.inl h0
  · exact absurd h6 (vanish_product s.cell.two hc L h1 h2 h3 h4 h5)
  · exact Or.inr h0

/-! ## The infinite state -/

/-- Spec: the product of the matrices `M s`, of dimension `n`, along a row of cells. -/
def rowProd (n : ℕ) (M : List ℕ → ℕ → ℕ → ℂ) : List (List ℕ) → ℕ → ℕ → ℂ
  | [] => delta ℂ
  | s :: ss => mmul n (M s) (rowProd n M ss)

/-- Spec: `A` represents the same uniform infinite state as `ts`: its matrices are those of `ts` in another basis, up to a factor. -/
structure GaugeOf (ts A : List (Ten ℂ)) (n D : ℕ) (X Y : ℕ → ℕ → ℂ) (η : ℂ) : Prop where
  inv : ∀ i < n, ∀ j < n, mmul D Y X i j = delta ℂ i j
  eq : ∀ s, Cfg ts s → ∀ i < D, ∀ j < D, chain A s i j = η * mmul n X (mmul n (chain ts s) Y) i j

theorem rowProd_congr {n : ℕ} {M M' : List ℕ → ℕ → ℕ → ℂ} : ∀ {ss : List (List ℕ)}, (∀ s ∈ ss, ∀ i < n, ∀ j < n, M s i j = M' s i j) →
    ∀ i < n, ∀ j < n, rowProd n M ss i j = rowProd n M' ss i j
  | [], _, _, _, _, _ => rfl
  | s :: ss, h, i, hi, j, hj => mmul_congr (fun k hk => h s (by simp) i hi k hk)
      fun k hk => rowProd_congr (fun t ht => h t (by simp [ht])) k hk j hj

theorem rowProd_gauge {n D : ℕ} {M M' : List ℕ → ℕ → ℕ → ℂ} {X Y : ℕ → ℕ → ℂ} {η : ℂ} (inv : ∀ i < n, ∀ j < n, mmul D Y X i j = delta ℂ i j) :
    ∀ {ss : List (List ℕ)}, ss ≠ [] → (∀ s ∈ ss, ∀ i < D, ∀ j < D, M' s i j = η * mmul n X (mmul n (M s) Y) i j) →
      ∀ i < D, ∀ j < D, rowProd D M' ss i j = η ^ ss.length * mmul n X (mmul n (rowProd n M ss) Y) i j := by
  intro ss
  induction ss with
  | nil => intro h; exact absurd rfl h
  | cons s ss ih =>
    intro _ h i hi j hj
    cases ss with
    | nil =>
      rw [rowProd, rowProd, mmul_delta _ _ hj, h s (by simp) i hi j hj, List.length_singleton, pow_one]
      congr 1
      refine mmul_congr (fun _ _ => rfl) fun k hk => mmul_congr (fun l hl => ?_) fun _ _ => rfl
      rw [rowProd, rowProd, mmul_delta _ _ hl]
    | cons s' ss =>
      rw [rowProd, mmul_congr (A' := fun i j => η * mmul n X (mmul n (M s) Y) i j)
        (B' := fun i j => η ^ (s' :: ss).length * mmul n X (mmul n (rowProd n M (s' :: ss)) Y) i j)
        (fun k hk => h s (by simp) i hi k hk) (fun k hk => ih (by simp) (fun t ht => h t (by simp [ht])) k hk j hj)]
      rw [mmul_smul_left, mmul_smul_right, List.length_cons (a := s), pow_succ, ← mul_assoc, mul_comm η]
      congr 1
      rw [mmul_assoc]
      refine mmul_congr (fun _ _ => rfl) fun k hk => ?_
      rw [mmul_assoc, show rowProd n M (s :: s' :: ss) = mmul n (M s) (rowProd n M (s' :: ss)) from rfl, mmul_assoc]
      refine mmul_congr (fun _ _ => rfl) fun l hl => ?_
      rw [← mmul_assoc, mmul_congr (A' := delta ℂ) (B' := mmul n (rowProd n M (s' :: ss)) Y) (fun q hq => inv l hl q hq) (fun _ _ => rfl), delta_mmul _ _ hl]

/-- **C90 (regauging keeps the infinite state).**  If the kernel returns its cell in another basis, the matrix products of the new
engine along any row of cells are those of the old state and its connector, in another basis and up to one factor per cell: the
regauged cell and the old one describe the same infinite state. -/
theorem C90_same_state (hO : O.Spec) {K : Kernels} {m : MPS} {mpo : List (Mpo ℂ)} {e : Eng} {l r : ℕ} (hob : m.obc = false) (hw : m.WF l r)
    (hN : 0 < m.N) (hpos : m.pos < m.N) (hs : m.sth < 1e-15) (hZ : m.Z ≠ 0) (hcr : m.conn.r = r) (hcc : m.conn.c = l) (hW : mpo.length = m.N)
    (hK : SymKernel K) (hG : ∀ ts A lam n D, K.sym ts = .ok (A, lam) → Linked n ts n → Linked D A D → ∃ X Y η, η ≠ 0 ∧ GaugeOf ts A n D X Y η)
    (h : rebuild O K true m mpo = .ok e) :
    ∃ (X Y : ℕ → ℕ → ℂ) (η : ℂ), η ≠ 0 ∧ (∀ i < r, ∀ j < r, mmul e.mps.mat.r Y X i j = delta ℂ i j) ∧
      ∀ ss : List (List ℕ), ss ≠ [] → (∀ s ∈ ss, Cfg m.tensors s) → ∀ i < e.mps.mat.r, ∀ j < e.mps.mat.r,
        rowProd e.mps.mat.r (chain e.mps.tensors) ss i j
          = η ^ ss.length * mmul r X (mmul r (rowProd r (fun s => mmul l m.conn.v (m.amp s)) ss) Y) i j := by
  obtain ⟨ts, A, lam, D, n, a1, a2, a3, a4, -, a6, a7, a8, a9, -, -, ⟨r1, r2, r3⟩, -, a14, -, -, -, -, ad, -, -, -⟩ :=
    C90_regauge hO hob hw hN hs hZ hcr hcc hW hK h
  obtain ⟨rfl, b4⟩ := a4 hpos
  obtain ⟨X, Y, η, h0, g⟩ := hG ts A lam n D a1 a3 a2.link
  have hL : ∀ i < D, lam.getD i 0 ≠ 0 := fun i hi => by
    obtain ⟨y, hy, ey⟩ := a2.real hi
    rw [ey]; exact_mod_cast hy.ne'
  have hts : ∀ s, Cfg m.tensors s → Cfg ts s := by
    intro s
    rw [cfg_iff_map, cfg_iff_map, ← (hK ts A lam a1).1, ad]
    exact id
  rw [r1]
  refine ⟨fun i k => (lam.getD i 0)⁻¹ * X i k, fun k j => Y k j * lam.getD j 0, η * m.Z⁻¹, mul_ne_zero h0 (inv_ne_zero hZ), ?_, ?_⟩
  · intro i hi j hj
    rw [← g.inv i hi j hj]
    unfold mmul
    refine sum_congr rfl fun k hk => ?_
    have := hL k (mem_range.mp hk)
    field_simp
  · intro ss hss hcf
    refine rowProd_gauge ?_ hss ?_
    · intro i hi j hj
      rw [← g.inv i hi j hj]
      unfold mmul
      refine sum_congr rfl fun k hk => ?_
      have := hL k (mem_range.mp hk)
      field_simp
    · intro s hs' i hi j hj
      have hc := hcf s hs'
      have e1 := a14 s hc i hi j hj
      rw [g.eq s (hts s hc) i hi j hj] at e1
      have hne := hL i hi
      have e2 : chain e.mps.tensors s i j = (lam.getD i 0)⁻¹ * (η * mmul n X (mmul n (chain ts s) Y) i j * lam.getD j 0) := by
        rw [← e1]; field_simp
      rw [e2]
      unfold mmul
      rw [mul_sum, sum_mul, mul_sum, mul_sum]
      refine sum_congr rfl fun k hk => ?_
      rw [mul_sum, mul_sum, mul_sum, sum_mul, mul_sum, mul_sum]
      refine sum_congr rfl fun q hq => ?_
      rw [← b4 s hc k (mem_range.mp hk) q (mem_range.mp hq)]
      field_simp

/-! ## Witness: regauging in every second pass -/

/-- Environment with all entries equal to one. -/
def onesEnv (n : ℕ) : Env ℂ := ⟨n, n, 1, fun _ _ _ => 1⟩

/-- Kernels that return the product state of `pMps` and environments with all entries equal to one. -/
def rKer : Kernels :=
  ⟨fun ts => if ts.map Ten.d = [2, 2] then .ok (pMps.tensors, [1]) else .error .value,
    fun ts _ => .ok (onesEnv (((ts.map Ten.l).head?).getD 0), 0), fun ts _ => .ok (onesEnv (((ts.map Ten.l).head?).getD 0), 0)⟩

theorem flip_herm_ones {ws : List (Mpo ℂ)} (hws : ∀ w ∈ ws, w = flipW) (ds : List ℕ) (n n' : ℕ) : HermH (onesEnv n) ws (onesEnv n') ds := by
  refine ⟨rfl, rfl, fun s s' h1 h2 i _ i' _ j _ j' _ => ?_⟩
  exact (flip_herm_of hws ds).herm s s' h1 h2 0 (by decide) 0 (by decide) 0 (by decide) 0 (by decide)

theorem pMps_symmetric : Symmetric 1 pMps.tensors [1] := by
  refine ⟨by simp [pMps, Linked], rfl, ?_, by simp, ?_, ?_⟩
  · intro x hx
    rw [List.mem_singleton.mp hx]
    exact ⟨1, one_pos, by simp⟩
  · intro t ht
    have : t = ⟨1, 1, 2, fun _ _ s => delta ℂ 0 s⟩ := by simpa [pMps] using ht
    rw [this]
    intro i hi j hj
    simp at hi hj
    subst hi hj
    simp [delta]
  · intro i hi i' hi'
    obtain rfl : i = 0 := by omega
    obtain rfl : i' = 0 := by omega
    simp [pMps, sumCfg, chain, delta]

theorem rKer_sym : SymKernel rKer := by
  intro ts A lam h
  simp only [rKer] at h
  split_ifs at h with hd
  simp only [Except.ok.injEq, Prod.mk.injEq] at h
  obtain ⟨rfl, rfl⟩ := h
  exact ⟨by rw [hd]; rfl, 1, pMps_symmetric⟩

theorem rotate_flip (n : ℕ) : [flipW, flipW].rotate n = [flipW, flipW] := List.rotate_replicate flipW 2 n

theorem rotate_two (n : ℕ) : [2, 2].rotate n = [2, 2] := List.rotate_replicate 2 2 n

theorem rKer_spec {e : Eng} (hW : e.mpo = [flipW, flipW]) (hd : e.mps.ds = [2, 2]) : KernelSpec rKer e 1 := by
  have hh : ∀ {ts : List (Ten ℂ)} {n : ℕ}, ts.map Ten.d = [2, 2] → Linked n ts n → ((ts.map Ten.l).head?).getD 0 = n := by
    intro ts n h1 h2
    cases ts with
    | nil => simp at h1
    | cons t ts => exact h2.1
  refine ⟨rKer_sym, ?_, ?_, ?_⟩
  · intro ts A lam h t ht
    simp only [rKer] at h
    split_ifs at h
    simp only [Except.ok.injEq, Prod.mk.injEq] at h
    obtain ⟨rfl, rfl⟩ := h
    simp [pMps] at ht
    simp [ht]
  · intro n y hy ts k E x h1 h2 h3
    rw [hW, rotate_flip] at hy
    rw [hd, rotate_two] at h1
    have h4 : onesEnv (((ts.map Ten.l).head?).getD 0) = E := by
      rcases h3 with h3 | h3 <;> exact (Prod.mk.inj (Except.ok.inj h3)).1
    rw [← h4, hh h1 h2]
    exact ⟨rfl, rfl, hy.1⟩
  · intro n ts ts' lb rb x x' h1 h2 k
    rw [← (Prod.mk.inj (Except.ok.inj h1)).1, ← (Prod.mk.inj (Except.ok.inj h2)).1]
    exact flip_herm_ones (by rw [hW, rotate_flip]; simp) _ _ _

open Lanczos Sparse in
/-- The hypotheses of C90 are met: a simulation of six passes that regauges the state twice returns with any of the three solvers;
all its passes go from cell to cell. -/
example : ∃ (O : LinAlg) (pinv : Mat ℂ → Mat ℂ) (eigh : Eigh) (arp : Arpack) (lob : Lobpcg), O.Spec ∧ (∀ A, PinvSpec A (pinv A)) ∧
    EighSpec eigh ∧ ArpackSpec arp ∧ LobpcgSpec lob ∧ ∀ sv, sv ≠ .other → ∃ e r, init O pKer pMps [flipW, flipW] = .ok e ∧
      simulateTwoSite O pinv rKer (solvers eigh ⟨10, 500, 1, 1 / 10 ^ 8, 1 / 10 ^ 5⟩ arp 1 lob) sv e 5 3 1e-6 (some 2) 1e-10 2 = .ok r ∧
      r.passes.length = 6 ∧ ∀ k p, r.passes[k]? = some p → Cell O 1 p.start ∧ Cell O 1 p.next ∧ (p.rg = true ↔ k = 2 ∨ k = 4) := by
  obtain ⟨O, hO⟩ := exists_linAlg
  obtain ⟨pinv, hp⟩ := exists_pinv
  obtain ⟨eigh, hE⟩ := exists_eigh
  obtain ⟨arp, hA⟩ := exists_arpack
  obtain ⟨lob, hB⟩ := exists_lobpcg
  refine ⟨O, pinv, eigh, arp, lob, hO, hp, hE, hA, hB, fun sv hso => ?_⟩
  obtain ⟨e, he, h1, h2, h3, h4, h5, hS⟩ := pMps_sound hO
  have hob : e.mps.obc = false := by
    obtain ⟨-, -, -, -, -, -, ⟨m1, x, M1, p0, -⟩, -⟩ := C86_right_partial hO (by decide)
      (show pMps.WF 1 1 by refine ⟨rfl, by decide, ?_, ?_⟩ <;> simp [pMps, Linked]) (by norm_num [pMps]) rfl he
    rw [position_obc p0, M1.obc]
    rfl
  have hH : ∀ n, HermH e.lb (rowW e n) e.rb (rowD e n) := fun n => by
    rw [h2, h3]; exact flip_herm_of (by unfold rowW; rw [h1]; simp) _
  rcases C90_run_product (K := rKer) (sv := sv) (trunc := 1e-10) hO hp hso hS hob h5 (rKer_spec h1 h4)
    (solve := solvers eigh ⟨10, 500, 1, 1 / 10 ^ 8, 1 / 10 ^ 5⟩ arp 1 lob) hH
    (solvers_firm hE (by norm_num) (by norm_num) (by norm_num) (by norm_num) hA le_rfl hB hso
      (fun _ => ⟨by norm_num, by unfold rowD; rw [h4]; simp⟩))
    (Or.inr (by rw [h4]; norm_num)) 5 3 1e-6 (cp := some 2) (by simp) (rs := 2) (by simp) with ⟨r, hr, -⟩ | ⟨x, n, -, ts, q, k1, -, k2⟩
  · have hc := (C87_course_two hr).2
    obtain ⟨last, S, -⟩ := hc.passes
    refine ⟨e, r, he, hr, hc.number, fun k p hkp => ?_⟩
    have hlt : k < 6 := by
      rw [← show r.passes.length = 6 from hc.number]
      exact (List.getElem?_eq_some_iff.mp hkp).1
    obtain ⟨c1, c2, -, c4⟩ := cells hO hp rKer_sym (fun e res c h => ends_two hO c h) _ _ _ _ S hS.cell k p hkp
    refine ⟨c1, c2, ?_⟩
    rw [List.drop_eq_getElem_cons (List.getElem?_eq_some_iff.mp hkp).1, (List.getElem?_eq_some_iff.mp hkp).2] at c4
    obtain ⟨-, -, a, -, -⟩ := c4
    rw [a]
    omega
  · exfalso
    rw [h4, rotate_two] at k1
    rcases k2 with k2 | k2 | k2
    · simp [rKer, k1] at k2
    · cases k2
    · cases k2

/-- The cell has the matrix products of `pMps`. -/
def LikeP (ts : List (Ten ℂ)) : Prop :=
  Linked 1 ts 1 ∧ ts.map Ten.d = [2, 2] ∧ ∀ s, Cfg ts s → chain ts s 0 0 = chain pMps.tensors s 0 0

open Classical in
/-- A kernel that knows the symmetric gauge of one state only, and returns it in the same basis. -/
def sKer : Kernels := ⟨fun ts => if LikeP ts then .ok (pMps.tensors, [1]) else .error .value, rKer.left, rKer.right⟩

/-- The hypotheses of C90_same_state are met: regauging `pMps` succeeds, and keeps the infinite state. -/
example (hO : O.Spec) : ∃ e X Y η, rebuild O sKer true { pMps with pos := 0 } [flipW, flipW] = .ok e ∧ η ≠ 0 ∧
    (∀ i < 1, ∀ j < 1, mmul e.mps.mat.r Y X i j = delta ℂ i j) ∧
    ∀ ss : List (List ℕ), ss ≠ [] → (∀ s ∈ ss, Cfg pMps.tensors s) → ∀ i < e.mps.mat.r, ∀ j < e.mps.mat.r,
      rowProd e.mps.mat.r (chain e.mps.tensors) ss i j
        = η ^ ss.length * mmul 1 X (mmul 1 (rowProd 1 (fun s => mmul 1 (delta ℂ) (MPS.amp { pMps with pos := 0 } s)) ss) Y) i j := by
  have hw : MPS.WF { pMps with pos := 0 } 1 1 := by refine ⟨rfl, by decide, ?_, ?_⟩ <;> simp [pMps, Linked]
  have hs : ({ pMps with pos := 0 } : MPS).sth < 1e-15 := by norm_num [pMps]
  have hsym : SymKernel sKer := by
    intro ts A lam h
    simp only [sKer] at h
    split_ifs at h with hd
    simp only [Except.ok.injEq, Prod.mk.injEq] at h
    obtain ⟨rfl, rfl⟩ := h
    exact ⟨by rw [hd.2.1]; rfl, 1, pMps_symmetric⟩
  have hE : ShapeKernel sKer [flipW, flipW] ({ pMps with pos := 0 } : MPS).ds 1 := by
    intro ts k E x h1 h2 h3
    have h4 : onesEnv (((ts.map Ten.l).head?).getD 0) = E := by
      rcases h3 with h3 | h3 <;> exact (Prod.mk.inj (Except.ok.inj h3)).1
    rw [← h4]
    cases ts with
    | nil => simp [MPS.ds, pMps] at h1
    | cons t ts => exact ⟨h2.1, h2.1, rfl⟩
  have hG : ∀ ts A lam n D, sKer.sym ts = .ok (A, lam) → Linked n ts n → Linked D A D → ∃ X Y η, η ≠ 0 ∧ GaugeOf ts A n D X Y η := by
    intro ts A lam n D h h1 h2
    simp only [sKer] at h
    split_ifs at h with hd
    simp only [Except.ok.injEq, Prod.mk.injEq] at h
    obtain ⟨rfl, rfl⟩ := h
    obtain rfl : n = 1 := by
      cases ts with
      | nil => simp [LikeP] at hd
      | cons t ts => exact h1.1.symm.trans hd.1.1
    obtain rfl : D = 1 := h2.1.symm
    refine ⟨delta ℂ, delta ℂ, 1, one_ne_zero, fun i hi j hj => delta_mmul _ _ hi, fun s hs i hi j hj => ?_⟩
    rw [one_mul, delta_mmul _ _ hi, mmul_delta _ _ hj]
    obtain rfl : i = 0 := by omega
    obtain rfl : j = 0 := by omega
    exact (hd.2.2 s hs).symm
  rcases rebuild_outcome (y := 1) hO (m := { pMps with pos := 0 }) (l := 1) (r := 1) rfl hw (by decide) hs (by simp [pMps]) rfl rfl
    (by simp [flipW, MLinked]) rfl rfl hsym hE with ⟨e, he⟩ | ⟨x, -, ts, n, h1, h2, h3⟩
  · obtain ⟨X, Y, η, a, b, c⟩ := C90_same_state hO (m := { pMps with pos := 0 }) rfl hw (by decide) (by decide) hs (by simp [pMps]) rfl rfl rfl hsym hG he
    exact ⟨e, X, Y, η, he, a, b, c⟩
  · exfalso
    rcases h3 with ⟨h3, h4, -⟩ | h3 | h3
    · obtain ⟨rfl, h4⟩ := h4 (by decide)
      simp only [sKer] at h3
      rw [if_pos] at h3
      · cases h3
      refine ⟨h2, h1, fun s hs => ?_⟩
      have hc : Cfg ({ pMps with pos := 0 } : MPS).tensors s := by
        rw [cfg_iff_map] at hs ⊢
        rw [h1] at hs
        exact hs
      have := h4 s hc 0 (by decide) 0 (by decide)
      simpa [pMps, MPS.amp, delta, chain] using this
    · cases h3
    · cases h3

end

end PyTeN.Idmrg
