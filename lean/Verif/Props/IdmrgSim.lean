import Verif.Engine.IdmrgCell

/-! # Infinite-system DMRG: constructor, simulations, growth of the chain (C86–C89) -/

namespace PyTeN.Idmrg
open Finset

noncomputable section

variable {O : LinAlg} {pinv : Mat ℂ → Mat ℂ} {solve : Solve} {sv : Solver} {trunc : ℝ}

/-! ## C86: the constructor -/

theorem position_obc {m m' : MPS} {b : ℤ} (h : m.position O b = .ok m') : m'.obc = m.obc := by
  unfold MPS.position at h
  split at h
  · cases h
  split at h
  · cases h
  simp only at h
  split_ifs at h
  · cases h; rfl
  all_goals
    split at h
    · cases h
    split at h
    · cases h
    split at h
    · cases h
    cases h; rfl

/-- The branch `mps.pos==0` of `getBoundaryHams` cannot be unpacked. -/
theorem rebuild_left {K : Kernels} {rg : Bool} {m m0 : MPS} {mpo : List (Mpo ℂ)}
    (h0 : (if rg then regauge K m else if (m.N : ℤ) - m.pos < m.pos then m.position O m.N else m.position O 0) = .ok m0)
    (hp : m0.pos = 0) (e : Eng) : rebuild O K rg m mpo ≠ .ok e := by
  intro h
  unfold rebuild at h
  split at h
  · cases h
  · rename_i hb
    unfold getBoundaryHams at hb
    simp only at hb
    rw [h0] at hb
    simp only [hp, if_true] at hb
    split at hb
    · cases hb
    split at hb
    · cases hb
    split at hb
    · cases hb
    split at hb
    · cases hb
    split at hb
    · cases hb
    cases hb
  · cases h
  · cases h

/-- **C86 (violated): left half.**  If the centre matrix is not in the right half of the cell, the constructor never returns: in
the branch `mps.pos==0` only four of the six values are returned, and a ValueError is raised as soon as the kernels have done
their work. -/
theorem C86_violated_left {K : Kernels} {m : MPS} {mpo : List (Mpo ℂ)} (hp : 2 * m.pos ≤ m.N) :
    (∀ e, init O K m mpo ≠ .ok e) ∧
    ∀ m0 m1 E E', m.position O 0 = .ok m0 → K.right m0.tensors mpo = .ok E → m0.position O m0.N = .ok m1 →
      K.left m1.tensors mpo = .ok E' → init O K m mpo = .error .value := by
  have hb : ¬ ((m.N : ℤ) - m.pos < m.pos) := by omega
  constructor
  · intro e h
    cases hm0 : m.position O 0 with
    | error x =>
      unfold init rebuild getBoundaryHams at h
      simp only [Bool.false_eq_true, if_false] at h
      rw [if_neg hb, hm0] at h
      cases h
    | ok m0 =>
      refine rebuild_left (m := m) (m0 := m0) (rg := false) ?_ (position_pos hm0) e h
      simp only [Bool.false_eq_true, if_false]
      rw [if_neg hb, hm0]
  · intro m0 m1 E E' hm0 hr hm1 hl
    have h0 : m0.pos = 0 := position_pos hm0
    unfold init rebuild getBoundaryHams
    simp only [Bool.false_eq_true, if_false]
    rw [if_neg hb, hm0]
    simp only
    rw [if_pos h0, hr]
    simp only
    rw [hm1]
    simp only
    rw [hl]

/-- **C86 (violated): open boundary conditions.**  The regauging update never returns for an object with open boundary conditions,
whose state `__regauge__` leaves alone. -/
theorem C86_violated_obc {K : Kernels} {e : Eng} (hl : e.mps.tensors.length = e.mps.N) (hob : e.mps.obc = true) (r : Eng × ℕ) :
    updateR O pinv K true e ≠ .ok r := by
  intro h
  unfold updateR at h
  simp only [if_true] at h
  split at h
  · cases h
  rename_i m mpo lb rb D hsh
  split at h
  · cases h
  rename_i e' he'
  obtain ⟨m1, m2, m3, mat, C⟩ := shift_cut hl hsh [] []
  refine rebuild_left (m := m) (m0 := m) (rg := true) ?_ (position_pos C.p4) e' he'
  have ob : m.obc = true := by
    rw [position_obc C.p4]
    simp only
    rw [position_obc C.p3, position_obc C.p2, position_obc C.p1, hob]
  simp only [if_true]
  unfold regauge
  rw [if_pos ob]

/-- **C86 (right half).**  If the centre matrix is in the right half of the cell and the constructor returns, then: the state is the
given one, in canonical form with the centre matrix at the left end; the left boundary was computed by the kernel from the
same state with the centre matrix at the right end, the right boundary from the final tensors; the environments are those of the
constructor of the finite engine, and MPO and boundaries fit.  If moreover the centre matrix is square, the engine is ready for a
simulation. -/
theorem C86_right_partial (hO : O.Spec) {K : Kernels} {m : MPS} {mpo : List (Mpo ℂ)} {e : Eng} {l r : ℕ} (hp : m.N < 2 * m.pos)
    (hw : m.WF l r) (hs : m.sth < 1e-15) (hW : mpo.length = m.N) (h : init O K m mpo = .ok e) :
    e.mps.pos = 0 ∧ e.mpo = mpo ∧ e.mps.WF l r ∧ e.mps.ds = m.ds ∧ e.mps.Canonical ∧
    (∀ s, Cfg m.tensors s → ∀ i < l, ∀ j, e.mps.amp s i j = m.amp s i j) ∧
    (∃ m1 x, Moved m m1 l r m.N ∧ m1.position O 0 = .ok e.mps ∧ K.left m1.tensors mpo = .ok (e.lb, x)) ∧
    (∃ x, K.right e.mps.tensors mpo = .ok (e.rb, x)) ∧
    Eng.init O e.mps mpo (some e.lb) (some e.rb) = .ok e ∧ e.Fit ∧
    (e.mps.mat.r = e.mps.mat.c → m.Z ≠ 0 → ∀ k, m.N = 2 * k → Cell O k e) := by
  unfold init rebuild at h
  split at h
  · cases h
  · rename_i m' lb rb hl hr hb
    unfold getBoundaryHams at hb
    simp only [Bool.false_eq_true, if_false] at hb
    rw [if_pos (by omega)] at hb
    split at hb
    · cases hb
    rename_i m0 hm0
    obtain ⟨-, -, M0⟩ := position_moved hO (effSth_default hs) hw hm0
    simp only [Int.toNat_natCast] at M0
    rw [if_neg (by rw [M0.pos]; have := hw.pos_le; omega), if_pos (by rw [M0.pos, M0.N])] at hb
    split at hb
    · cases hb
    rename_i lb' hl' hlb
    split at hb
    · cases hb
    rename_i m2 hm2
    split at hb
    · cases hb
    rename_i rb' hr' hrb
    cases hb
    obtain ⟨-, -, M2⟩ := position_moved hO (effSth_default (by rw [M0.sth]; exact hs)) M0.wf hm2
    simp only [Int.toNat_zero] at M2
    -- the finite constructor
    have hh := h
    unfold Eng.init at h
    split at h
    · cases h
    split at h
    · cases h
    split at h
    · rename_i w v hw0 hv0
      simp only at h
      split at h
      · cases h
      rename_i l' r' hbd
      split_ifs at hbd with hc
      cases hbd
      have p0 : m'.position O 0 = .ok m' := by
        unfold MPS.position
        rw [if_neg (by simp), if_neg (by simp)]
        simp [M2.pos]
      rw [p0] at h
      simp only at h
      split at h
      · cases h
      rename_i L hL
      split at h
      · cases h
      rename_i R hR
      cases h
      have len : m'.tensors.length = m'.N := M2.wf.len
      have hN' : m'.N = m.N := by rw [M2.N, M0.N]
      have hN0 : 0 < m'.N := by have := hw.pos_le; omega
      have hne : m'.tensors ≠ [] := List.length_pos_iff.mp (by omega)
      have V := val_of_get len (by omega) hL hR
      obtain ⟨E, hE⟩ : ∃ E, (lb :: L)[m'.N]? = some E := ⟨_, List.getElem?_eq_getElem (by have := V.lenL; simp only at this; omega)⟩
      have isl := V.left m'.N le_rfl E hE
      obtain ⟨E', hE'⟩ : ∃ E', (rb :: R)[m'.N - 0]? = some E' :=
        ⟨_, List.getElem?_eq_getElem (by have := V.lenR; simp only at this; omega)⟩
      have isr := V.right 0 le_rfl (by omega) E' hE'
      simp only at isl isr
      rw [List.take_of_length_le (by omega), List.take_of_length_le (by omega)] at isl
      rw [List.drop_zero, List.drop_zero] at isr
      have u1 := (linked_unique isl.u isl.w hne).1
      have u2 := (linked_unique isr.u isr.w hne).2
      have u3 := (linked_unique isl.u isr.u hne)
      have ml : MLinked lb.m mpo rb.m := by
        have := mgetLast_r isl.m hv0
        rw [← hc.2.2.2, this]; exact isl.m
      have hf := fits_din isl.fits
      have hlink : Linked lb.u m'.tensors rb.u := by rw [← u3.2]; exact isl.u
      have can : m'.Canonical := ⟨fun x t _ hx => by rw [M2.pos] at hx; omega, fun x t hx _ => M2.right x t hx (by omega) (by
        rw [M0.pos]
        have := (List.getElem?_eq_some_iff.mp hx).1
        omega), M2.norm (by rw [M0.pos]; omega)⟩
      have F : Eng.Fit ⟨m', mpo, lb, rb, lb :: L, rb :: R⟩ := ⟨u1, u2, ml, hf.1, hf.2⟩
      have fresh := fresh_of_get (O := O) M2.pos len hN0 (by omega) hlink ml hL hR
      have ds' : m'.ds = m.ds := by rw [M2.ds, M0.ds]
      refine ⟨M2.pos, rfl, M2.wf, ds', can, ?_, ⟨m0, _, M0, hm2, hlb⟩, ⟨_, hrb⟩, fresh, F, ?_⟩
      · intro s hsc i hi j
        have hsc0 : Cfg m0.tensors s := by
          rw [cfg_iff_map] at hsc ⊢
          rw [show m0.tensors.map Ten.d = m.tensors.map Ten.d from M0.ds]; exact hsc
        simp only
        rw [M2.amp s hsc0 i hi j, M0.amp s hsc i hi j]
      · intro sq hZ k hk
        have w1 := M2.wf.left
        have w2 := M2.wf.right
        rw [M2.pos, List.take_zero] at w1
        rw [M2.pos, List.drop_zero] at w2
        have w1 : l = m'.mat.r := w1
        simp only at sq
        have w3 := linked_unique hlink w2 hne
        have wf' : m'.WF lb.u rb.u := by
          have := M2.wf
          rw [w1, sq, ← w3.1, ← w3.2] at this
          exact this
        obtain ⟨z1, y1, hz1⟩ := position_Z hO (effSth_default hs) hm0
        obtain ⟨z2, y2, hz2⟩ := position_Z hO (effSth_default (by rw [M0.sth]; exact hs)) hm2
        refine ⟨fresh, wf', sq, F, M2.pos, by simp only; omega, by omega, by simp only; rw [M2.sth, M0.sth]; exact hs, can, ?_⟩
        simp only
        rw [hz2, hz1]
        exact mul_ne_zero (mul_ne_zero hZ (by exact_mod_cast y1.ne')) (by exact_mod_cast y2.ne')
    · cases h
  · cases h
  · cases h

/-- **C86 (right half, success).**  If the centre matrix is in the right half of the cell, the constructor succeeds whenever the kernels
return environments of the right shape: for a non-zero state with admissible bonds and square centre matrix and a matching MPO; the
centre matrix stays square. -/
theorem C86_right_total (hO : O.Spec) {K : Kernels} {m : MPS} {mpo : List (Mpo ℂ)} {l r y : ℕ} (hp : m.N < 2 * m.pos)
    (hw : m.WF l r) (hs : m.sth < 1e-15) (hsq : m.mat.r = m.mat.c) (had : ∀ t ∈ m.tensors, t.Adm)
    (hne : ∃ s i j, Cfg m.tensors s ∧ i < l ∧ m.amp s i j ≠ 0) (hml : MLinked y mpo y)
    (hin : mpo.map Mpo.din = m.ds) (hout : mpo.map Mpo.dout = m.ds)
    (hKl : ∀ ts, ∃ E x, K.left ts mpo = .ok (E, x) ∧ E.u = l ∧ E.w = l ∧ E.m = y)
    (hKr : ∀ ts, ∃ E x, K.right ts mpo = .ok (E, x) ∧ E.u = r ∧ E.w = r ∧ E.m = y) : ∃ e, init O K m mpo = .ok e ∧ e.mps.mat.r = e.mps.mat.c := by
  obtain ⟨m1, hm1⟩ := position_ok (b := m.N) hO hw hs hne le_rfl
  obtain ⟨-, -, M1⟩ := position_moved hO (effSth_default hs) hw hm1
  rw [Int.toNat_natCast] at M1
  obtain ⟨sh1, sq1⟩ := position_shape hO hs hm1 had hsq
  have had1 := adm_shape sh1 had
  have hs1 : m1.sth < 1e-15 := by rw [M1.sth]; exact hs
  obtain ⟨s, i, j, hc, hi, ha⟩ := hne
  obtain ⟨m2, hm2⟩ := position_ok (b := 0) hO M1.wf hs1 ⟨s, i, j, by
    rw [cfg_iff_map] at hc ⊢
    rw [show m1.tensors.map Ten.d = m.tensors.map Ten.d from M1.ds]; exact hc, hi, by rw [M1.amp s hc i hi]; exact ha⟩ (by omega)
  rw [Nat.cast_zero] at hm2
  obtain ⟨-, -, M2⟩ := position_moved hO (effSth_default hs1) M1.wf hm2
  rw [Int.toNat_zero] at M2
  obtain ⟨-, sq2⟩ := position_shape hO hs1 hm2 had1 sq1
  obtain ⟨lb, xl, hl, l1, l2, l3⟩ := hKl m1.tensors
  obtain ⟨rb, xr, hr, r1, r2, r3⟩ := hKr m2.tensors
  have link := wf_link M2.wf sq2
  have hN : 0 < m2.N := by rw [M2.N, M1.N]; have := hw.pos_le; omega
  have hne2 : m2.tensors ≠ [] := List.length_pos_iff.mp (by rw [M2.wf.len]; exact hN)
  have ds2 : m2.ds = m.ds := by rw [M2.ds, M1.ds]
  have fit : Fits m2.tensors mpo m2.tensors := fits_of_maps (by rw [hin, ← ds2]; rfl) (by rw [hout, ← ds2]; rfl)
  obtain ⟨L, hL⟩ := C30_getL_succeeds (lb := lb) hne2 (by rw [l1]; exact link) (by rw [l2]; exact link) (by rw [l3]; exact hml) fit
  obtain ⟨R, hR⟩ := C30_getR_succeeds (rb := rb) hne2 (by rw [r1]; exact link) (by rw [r2]; exact link) (by rw [r3]; exact hml) fit
  have hW : mpo.length = m2.N := by
    have := congrArg List.length hin
    rw [List.length_map, MPS.ds, List.length_map, hw.len] at this
    rw [this, M2.N, M1.N]
  refine ⟨⟨m2, mpo, lb, rb, lb :: L, rb :: R⟩, ?_, sq2⟩
  unfold init rebuild getBoundaryHams
  simp only [Bool.false_eq_true, if_false]
  rw [if_pos (by omega), hm1]
  simp only
  rw [if_neg (by rw [M1.pos]; have := hw.pos_le; omega), if_pos (by rw [M1.pos, M1.N]), hl]
  simp only
  rw [hm2]
  simp only
  rw [hr]
  simp only
  exact fresh_of_get M2.pos M2.wf.len hN hW (by rw [l1, r1]; exact link) (by rw [l3, r3]; exact hml) hL hR

/-- Kernels that return identity environments of the GHZ cell. -/
def gKer : Kernels :=
  ⟨fun ts => .ok (ts, [1, 1]), fun _ _ => .ok (⟨2, 2, 1, fun i j _ => delta ℂ i j⟩, 0),
    fun _ _ => .ok (⟨2, 2, 1, fun i j _ => delta ℂ i j⟩, 0)⟩

theorem gMps_nonzero : ∃ s i j, Cfg gMps.tensors s ∧ i < 2 ∧ gMps.amp s i j ≠ 0 :=
  ⟨[0, 0], 0, 0, by simp [gMps, Cfg], by norm_num, by simp [gMps, MPS.amp, chain, delta]⟩

/-- Both cases occur: the GHZ cell with the centre matrix on its middle bond makes the constructor fail; with the centre matrix at the
right end the constructor succeeds and the engine is a cell. -/
theorem gMps_init (hO : O.Spec) : init O gKer gMps [gW, gW] = .error .value ∧
    ∃ m e, gMps.position O 2 = .ok m ∧ init O gKer m [gW, gW] = .ok e ∧ Cell O 1 e := by
  have hs : gMps.sth < 1e-15 := by norm_num [gMps]
  have had : ∀ t ∈ gMps.tensors, t.Adm := by simp [gMps, Ten.Adm]
  obtain ⟨s, i, j, hc, hi, ha⟩ := gMps_nonzero
  have nz : ∀ {m : MPS} {b : ℕ}, Moved gMps m 2 2 b → ∃ s i j, Cfg m.tensors s ∧ i < 2 ∧ m.amp s i j ≠ 0 := by
    intro m b M
    refine ⟨s, i, j, ?_, hi, by rw [M.amp s hc i hi]; exact ha⟩
    rw [cfg_iff_map] at hc ⊢
    rw [show m.tensors.map Ten.d = gMps.tensors.map Ten.d from M.ds]; exact hc
  constructor
  · obtain ⟨m0, hm0⟩ := position_ok (b := 0) hO gMps_wf hs gMps_nonzero (by omega)
    obtain ⟨-, -, M0⟩ := position_moved hO (effSth_default hs) gMps_wf hm0
    have hs0 : m0.sth < 1e-15 := by rw [M0.sth]; exact hs
    obtain ⟨m1, hm1⟩ := position_ok (b := m0.N) hO M0.wf hs0 (nz M0) le_rfl
    exact (C86_violated_left (by decide)).2 m0 m1 _ _ hm0 rfl hm1 rfl
  · obtain ⟨m, hm⟩ := position_ok (b := 2) hO gMps_wf hs gMps_nonzero (by decide)
    obtain ⟨-, -, M⟩ := position_moved hO (effSth_default hs) gMps_wf hm
    obtain ⟨sh, sq⟩ := position_shape hO hs hm had rfl
    have hsm : m.sth < 1e-15 := by rw [M.sth]; exact hs
    have hpos : m.N < 2 * m.pos := by rw [M.N, M.pos]; decide
    have hadm := adm_shape sh had
    obtain ⟨e, he, sqe⟩ := C86_right_total (K := gKer) (mpo := [gW, gW]) (y := 1) hO hpos M.wf hsm sq hadm (nz M) (by simp [gW, MLinked])
      (by rw [M.ds]; rfl) (by rw [M.ds]; rfl) (fun _ => ⟨_, _, rfl, rfl, rfl, rfl⟩) (fun _ => ⟨_, _, rfl, rfl, rfl, rfl⟩)
    refine ⟨m, e, hm, he, ?_⟩
    obtain ⟨-, -, -, -, -, -, -, -, -, -, a⟩ := C86_right_partial hO hpos M.wf hsm (by rw [M.N]; rfl) he
    refine a sqe ?_ 1 (by rw [M.N]; rfl)
    obtain ⟨z, hz, hZ⟩ := position_Z hO (effSth_default hs) hm
    rw [hZ]
    exact mul_ne_zero one_ne_zero (by exact_mod_cast hz.ne')

/-- A cell with open boundary conditions. -/
example : ∃ (O : LinAlg) (pinv : Mat ℂ → Mat ℂ), O.Spec ∧ (∀ A, PinvSpec A (pinv A)) ∧
    ∀ r, updateR O pinv gKer true { gEng with mps := { gMps with obc := true } } ≠ .ok r := by
  obtain ⟨O, hO⟩ := exists_linAlg
  obtain ⟨pinv, hp⟩ := exists_pinv
  exact ⟨O, pinv, hO, hp, C86_violated_obc rfl rfl⟩

/-! ## C87: the simulations -/

/-- Spec: a sequence of passes from the engine `e` to the engine `e'`; `it` is the number of the first one.  In each pass the inner
simulation is run and the engine updated, with regauging exactly in the passes whose positive number is a multiple of a positive
`rs`. -/
def Passes {τ : Type} (run : Eng → Res τ) (fin : τ → Eng) (upd : Bool → Eng → Res (Eng × ℕ)) (rs : ℤ) :
    ℕ → Eng → List (Pass τ) → Eng → Prop
  | _, e, [], e' => e' = e
  | it, e, p :: ps, e' => p.start = e ∧ run e = .ok p.out ∧ (p.rg = true ↔ 0 < rs ∧ rs ∣ it ∧ 0 < it) ∧
      upd p.rg (fin p.out) = .ok (p.next, p.D) ∧ Passes run fin upd rs (it + 1) p.next ps e'

/-- Spec of a complete run. -/
structure RunSpec {τ : Type} (run : Eng → Res τ) (fin : τ → Eng) (upd : Bool → Eng → Res (Eng × ℕ)) (Nmax : ℤ) (cp : Option ℤ)
    (rs : ℤ) (it : ℕ) (e : Eng) (new : List (Pass τ)) (saved : List (ℕ × MPS)) (res : Eng) : Prop where
  passes : ∃ last, Passes run fin upd rs it e new last ∧ res = { last with mps := { last.mps with Z := 1 } }
  number : new.length = max 1 (Nmax + 1 - it).toNat
  cp : saved.map Prod.fst = (List.range' it new.length).filter fun i => decide (0 < i) && isCp cp i
  state : ∀ i m, (i, m) ∈ saved → ∃ p, it ≤ i ∧ new[i - it]? = some p ∧ m = p.next.mps

theorem cpDue_out {cp : Option ℤ} {it : ℕ} {b : Bool} (h : cpDue cp it = .ok b) : b = (decide (0 < it) && isCp cp it) := by
  by_cases hit : 0 < it
  · rw [cpDue_ok hit h]; simp [hit]
  · unfold cpDue at h
    cases cp with
    | none => simp at h; subst h; simp [isCp]
    | some c => simp only [hit, if_false] at h; cases h; simp [hit]

theorem rgDue_iff (rs : ℤ) (it : ℕ) : rgDue rs it = true ↔ 0 < rs ∧ rs ∣ it ∧ 0 < it := by
  rw [rgDue, decide_eq_true_iff, Int.dvd_iff_emod_eq_zero]

theorem loop_spec {τ : Type} {run : Eng → Res τ} {fin : τ → Eng} {upd : Bool → Eng → Res (Eng × ℕ)} {Nmax : ℤ} {cp : Option ℤ} {rs : ℤ} :
    ∀ (fuel it : ℕ) (e : Eng) (ps : List (Pass τ)) (sd : List (ℕ × MPS)) (r : Run τ),
    loop run fin upd Nmax cp rs fuel it e ps sd = .ok r →
    ∃ new saved, r.passes = ps ++ new ∧ r.saved = sd ++ saved ∧ RunSpec run fin upd Nmax cp rs it e new saved r.eng := by
  intro fuel
  induction fuel with
  | zero => intro it e ps sd r h; simp [loop] at h
  | succ fuel ih =>
    intro it e ps sd r h
    simp only [loop] at h
    split at h
    · cases h
    rename_i o ho
    split at h
    · cases h
    rename_i e' D hu
    split at h
    · cases h
    rename_i due hdue
    have hdue := cpDue_out hdue
    by_cases hN : ((it + 1 : ℕ) : ℤ) > Nmax
    · rw [if_pos hN] at h
      cases h
      refine ⟨[⟨e, o, rgDue rs it, e', D⟩], if due then [(it, e'.mps)] else [], rfl, ?_, ?_⟩
      · by_cases hd : due = true <;> simp [hd]
      refine ⟨⟨e', ⟨rfl, ho, rgDue_iff rs it, hu, rfl⟩, rfl⟩, ?_, ?_, ?_⟩
      · simp only [List.length_singleton]; push_cast at hN; omega
      · simp only [List.length_singleton, List.range'_one, List.filter_singleton, ← hdue]
        cases due <;> simp
      · intro i m hm
        cases due with
        | false => simp at hm
        | true =>
          simp at hm
          obtain ⟨rfl, rfl⟩ := hm
          exact ⟨_, le_rfl, by simp; rfl, rfl⟩
    · rw [if_neg hN] at h
      obtain ⟨new, saved, i1, i2, I⟩ := ih _ _ _ _ _ h
      obtain ⟨last, I1, I2⟩ := I.passes
      refine ⟨⟨e, o, rgDue rs it, e', D⟩ :: new, (if due then [(it, e'.mps)] else []) ++ saved, ?_, ?_,
        ⟨last, ⟨rfl, ho, rgDue_iff rs it, hu, I1⟩, I2⟩, ?_, ?_, ?_⟩
      · rw [i1]; simp
      · rw [i2]; by_cases hd : due = true <;> simp [hd]
      · rw [List.length_cons, I.number]; push_cast at hN ⊢; omega
      · rw [List.map_append, I.cp, List.length_cons, List.range'_succ, List.filter_cons, ← hdue]
        cases due <;> simp
      · intro i m hm
        rcases List.mem_append.mp hm with hm | hm
        · cases due with
          | false => simp at hm
          | true =>
            simp at hm
            obtain ⟨rfl, rfl⟩ := hm
            exact ⟨_, le_rfl, by simp; rfl, rfl⟩
        · obtain ⟨p, p1, p2, p3⟩ := I.state i m hm
          refine ⟨p, by omega, ?_, p3⟩
          rw [show i - it = i - (it + 1) + 1 by omega, List.getElem?_cons_succ]; exact p2

/-- **C87 (course of the simulation, single-site).**  A run of `IDMRGengine.simulate` that returns consists of exactly
`max(1,Nmax+1)` passes, whatever the energies: the convergence parameter only acts on the inner simulations.  Each pass is a
complete finite simulation of at most `NUC` sweeps with the current boundaries, followed by an update; the state is regauged exactly
in the passes number `i>0` divisible by `regaugestep`, checkpoints are written exactly in the passes `i>0` divisible by `cp`, and
hold the state after the update; the normalisation factor of the final state is `1`. -/
theorem C87_course {K : Kernels} {e : Eng} {Nmax NUC : ℤ} {Econv : ℝ} {cp : Option ℤ} {rs : ℤ} {r : Run SimRes}
    (h : simulate O pinv K solve sv e Nmax NUC Econv cp rs = .ok r) :
    rs ≠ 1 ∧ RunSpec (fun e => e.simulate O solve sv NUC Econv cp) SimRes.eng (updateR O pinv K) Nmax cp rs 0 e r.passes r.saved r.eng := by
  unfold simulate at h
  split_ifs at h with hrs
  obtain ⟨new, saved, i1, i2, I⟩ := loop_spec _ _ _ _ _ _ h
  rw [List.nil_append] at i1 i2
  rw [i1, i2]
  exact ⟨hrs, I⟩

/-- **C87 (course of the simulation, two-site).**  The same for `simulateTwoSite`. -/
theorem C87_course_two {K : Kernels} {e : Eng} {Nmax NUC : ℤ} {Econv : ℝ} {cp : Option ℤ} {rs : ℤ} {r : Run SimRes2}
    (h : simulateTwoSite O pinv K solve sv e Nmax NUC Econv cp trunc rs = .ok r) :
    rs ≠ 1 ∧ RunSpec (fun e => e.simulateTwoSite O solve sv NUC Econv cp trunc) SimRes2.eng (updateR O pinv K) Nmax cp rs 0 e r.passes
      r.saved r.eng := by
  unfold simulateTwoSite at h
  split_ifs at h with hrs
  obtain ⟨new, saved, i1, i2, I⟩ := loop_spec _ _ _ _ _ _ h
  rw [List.nil_append] at i1 i2
  rw [i1, i2]
  exact ⟨hrs, I⟩

theorem loop_fuel {τ : Type} {run : Eng → Res τ} {fin : τ → Eng} {upd : Bool → Eng → Res (Eng × ℕ)} {Nmax : ℤ} {cp : Option ℤ} {rs : ℤ} :
    ∀ (fuel k it : ℕ) (e : Eng) (ps : List (Pass τ)) (sd : List (ℕ × MPS)), max 1 (Nmax + 1 - it).toNat ≤ fuel →
    loop run fin upd Nmax cp rs (fuel + k) it e ps sd = loop run fin upd Nmax cp rs fuel it e ps sd := by
  intro fuel
  induction fuel with
  | zero => intro k it e ps sd h; omega
  | succ fuel ih =>
    intro k it e ps sd h
    rw [show fuel + 1 + k = fuel + k + 1 by ring]
    simp only [loop]
    split
    · rfl
    split
    · rfl
    split
    · rfl
    by_cases hN : ((it + 1 : ℕ) : ℤ) > Nmax
    · rw [if_pos hN, if_pos hN]
    · rw [if_neg hN, if_neg hN]
      refine ih _ _ _ _ _ ?_
      push_cast at hN ⊢
      omega

/-- **C87 (termination).**  The bound on the number of passes in the model is never reached. -/
theorem C87_fuel {τ : Type} {run : Eng → Res τ} {fin : τ → Eng} {upd : Bool → Eng → Res (Eng × ℕ)} (Nmax : ℤ) (cp : Option ℤ) (rs : ℤ)
    (k : ℕ) (e : Eng) : loop run fin upd Nmax cp rs (max 1 (Nmax + 1).toNat + k) 0 e [] []
      = loop run fin upd Nmax cp rs (max 1 (Nmax + 1).toNat) 0 e [] [] :=
  loop_fuel _ _ _ _ _ _ (by simp)

/-- **C87 (regaugestep=1).**  `regaugestep=1` raises a ValueError before anything else happens. -/
theorem C87_regaugestep {K : Kernels} (e : Eng) (Nmax NUC : ℤ) (Econv : ℝ) (cp : Option ℤ) :
    simulate O pinv K solve sv e Nmax NUC Econv cp 1 = .error .value ∧
    simulateTwoSite O pinv K solve sv e Nmax NUC Econv cp trunc 1 = .error .value :=
  ⟨if_pos rfl, if_pos rfl⟩

/-- Spec: the boundaries of `e` are those of `e0` after `k` half cells have been added on either side, `A` on the left and `B` on the
right; with the cell of `e` in the middle they form an open chain of `k+1` cells of `e0`. -/
structure Extended (h k : ℕ) (e0 e : Eng) (A B : List (Ten ℂ)) : Prop where
  lenA : A.length = k * h
  lenB : B.length = k * h
  right : ∀ t ∈ B, RightOrth t
  ds : (List.replicate (k + 1) e0.mps.ds).flatten = A.map Ten.d ++ (e.mps.ds ++ B.map Ten.d)
  env : ∃ WA WB, IsL e0.lb A WA A e.lb ∧ IsR e0.rb B WB B e.rb ∧ (List.replicate (k + 1) e0.mpo).flatten = WA ++ (e.mpo ++ WB)

theorem extended_of {flag : Prop} {h k : ℕ} {e0 e : Eng} {A B : List (Ten ℂ)} (g : Grown flag h e0 k e A B) (c0 : Cell O h e0)
    (c : Cell O h e) : Extended h k e0 e A B := by
  obtain ⟨WA, WB, g1, g2, g3⟩ := g.row
  refine ⟨g.lenA, g.lenB, g.right, ?_, WA, WB, g1, g2, g3⟩
  have := congrArg (List.map Mpo.din) g3
  rw [List.map_flatten, List.map_replicate, c0.fit.ins, List.map_append, List.map_append, c.fit.ins, (fits_din g1.fits).1,
    (fits_din g2.fits).1] at this
  exact this

theorem grown_passes (hO : O.Spec) (hp : ∀ A, PinvSpec A (pinv A)) {K : Kernels} {τ : Type} {run : Eng → Res τ} {fin : τ → Eng} {flag : Prop}
    {h : ℕ} (hrun : ∀ e res, Cell O h e → run e = .ok res → Ends flag h e (fin res)) {rs : ℤ} {e0 : Eng} (c0 : Cell O h e0) :
    ∀ (ps : List (Pass τ)) (it j : ℕ) (e e' : Eng) (A B : List (Ten ℂ)), Passes run fin (updateR O pinv K) rs it e ps e' → Cell O h e →
      Grown flag h e0 j e A B → ∀ (k : ℕ) (p : Pass τ), ps[k]? = some p → (∀ q ∈ ps.take k, q.rg = false) →
      Cell O h p.start ∧ (∃ A B, Grown flag h e0 (j + k) p.start A B) ∧ run p.start = .ok p.out ∧
      (p.rg = false → Cell O h p.next ∧ ∃ A B, Grown flag h e0 (j + k + 1) p.next A B) := by
  intro ps
  induction ps with
  | nil => intro it j e e' A B _ _ _ k p hk; simp at hk
  | cons q ps ih =>
    intro it j e e' A B hP c g k p hk hno
    obtain ⟨p1, p2, p3, p4, p5⟩ := hP
    have step : q.rg = false → Cell O h q.next ∧ ∃ A B, Grown flag h e0 (j + 1) q.next A B := by
      intro hq
      rw [hq] at p4
      simp only [updateR, Bool.false_eq_true, if_false] at p4
      obtain ⟨c', x1, -, A', B', a1, a2, -, -, a5, a6, a7, a8⟩ := pass_step hO hp c (hrun e _ c p2) p4
      exact ⟨c', _, _, g.succ (by rw [c0.lenW, c0.N]) x1 a1 a2 a5 a6 a7 a8⟩
    cases k with
    | zero =>
      simp only [List.getElem?_cons_zero, Option.some.injEq] at hk
      subst hk
      rw [p1]
      exact ⟨c, ⟨A, B, g⟩, p2, step⟩
    | succ k =>
      rw [List.getElem?_cons_succ] at hk
      rw [List.take_succ_cons] at hno
      obtain ⟨c', A', B', g'⟩ := step (hno q (by simp))
      have := ih (it + 1) (j + 1) q.next e' A' B' p5 c' g' k p hk fun x hx => hno x (by simp [hx])
      rw [show j + (k + 1) = j + 1 + k by ring]
      exact this

/-- **C87 (growth, two-site).**  As long as the state is not regauged, every pass `k` starts from a canonical state of one cell
with boundaries that extend the original ones by `k` half cells on either side: left-orthonormal tensors on the left,
right-orthonormal tensors on the right, and the MPO of cell and added sites together is that of `k+1` cells in a row. -/
theorem C87_growth_two (hO : O.Spec) (hp : ∀ A, PinvSpec A (pinv A)) {K : Kernels} {h : ℕ} {e : Eng} (c : Cell O h e) {Nmax NUC : ℤ}
    {Econv : ℝ} {cp : Option ℤ} {rs : ℤ} {r : Run SimRes2} (hr : simulateTwoSite O pinv K solve sv e Nmax NUC Econv cp trunc rs = .ok r)
    {k : ℕ} {p : Pass SimRes2} (hk : r.passes[k]? = some p) (hno : ∀ q ∈ r.passes.take k, q.rg = false) :
    Cell O h p.start ∧ (∃ A B, Extended h k e p.start A B ∧ ∀ t ∈ A, LeftOrth t) ∧
    (p.rg = false → Cell O h p.next ∧ ∃ A B, Extended h (k + 1) e p.next A B ∧ ∀ t ∈ A, LeftOrth t) := by
  obtain ⟨-, S⟩ := C87_course_two hr
  obtain ⟨last, S1, -⟩ := S.passes
  obtain ⟨c1, ⟨A, B, g⟩, -, hn⟩ := grown_passes hO hp (flag := True) (fun e res c h => ends_two hO c h) c _ 0 0 e last _ _ S1 c
    (Grown.zero True h e) k p hk hno
  rw [Nat.zero_add] at g
  refine ⟨c1, ⟨A, B, extended_of g c c1, g.left trivial⟩, fun hrg => ?_⟩
  obtain ⟨c2, A', B', g'⟩ := hn hrg
  rw [Nat.zero_add] at g'
  exact ⟨c2, A', B', extended_of g' c c2, g'.left trivial⟩

/-- **C87 (growth, single-site).**  The same for the single-site simulation; there the added tensors on the left are left-orthonormal
for cells of two sites.  For larger cells nothing is claimed: the last tensor that the inner simulation optimises stays in the left half
of the cell and enters the boundary without being orthonormalised. -/
theorem C87_growth (hO : O.Spec) (hp : ∀ A, PinvSpec A (pinv A)) (hsv : solve.Shape) {K : Kernels} {h : ℕ} {e : Eng} (c : Cell O h e)
    {Nmax NUC : ℤ} {Econv : ℝ} {cp : Option ℤ} {rs : ℤ} {r : Run SimRes}
    (hr : simulate O pinv K solve sv e Nmax NUC Econv cp rs = .ok r) {k : ℕ} {p : Pass SimRes} (hk : r.passes[k]? = some p)
    (hno : ∀ q ∈ r.passes.take k, q.rg = false) :
    Cell O h p.start ∧ (∃ A B, Extended h k e p.start A B ∧ (h = 1 → ∀ t ∈ A, LeftOrth t)) ∧
    (p.rg = false → Cell O h p.next ∧ ∃ A B, Extended h (k + 1) e p.next A B ∧ (h = 1 → ∀ t ∈ A, LeftOrth t)) := by
  obtain ⟨-, S⟩ := C87_course hr
  obtain ⟨last, S1, -⟩ := S.passes
  obtain ⟨c1, ⟨A, B, g⟩, -, hn⟩ := grown_passes hO hp (flag := h = 1) (fun e res c h => ends_one hO hsv c h) c _ 0 0 e last _ _ S1 c
    (Grown.zero _ h e) k p hk hno
  rw [Nat.zero_add] at g
  refine ⟨c1, ⟨A, B, extended_of g c c1, g.left⟩, fun hrg => ?_⟩
  obtain ⟨c2, A', B', g'⟩ := hn hrg
  rw [Nat.zero_add] at g'
  exact ⟨c2, A', B', extended_of g' c c2, g'.left⟩

/-! ## C88: energies -/

/-- Spec: MPO and local dimensions of `n` cells in a row. -/
def rowW (e : Eng) (n : ℕ) : List (Mpo ℂ) := (List.replicate n e.mpo).flatten

/-- See `rowW`. -/
def rowD (e : Eng) (n : ℕ) : List ℕ := (List.replicate n e.mps.ds).flatten

/-- Energies and norms of the cell between its grown boundaries are those of the whole grown chain. -/
theorem pad_energy {h k : ℕ} {e0 e : Eng} {A B : List (Ten ℂ)} (x : Extended h k e0 e A B) (ol : ∀ t ∈ A, LeftOrth t) (c : Cell O h e)
    (hH : HermH e0.lb (rowW e0 (k + 1)) e0.rb (rowD e0 (k + 1))) :
    HermH e.lb e.mpo e.rb e.mps.ds ∧ ∀ f,
      hform e0.lb (rowW e0 (k + 1)) e0.rb (rowD e0 (k + 1)) (padAmp A B e.lb.u e.rb.u f) (padAmp A B e.lb.u e.rb.u f)
        = hform e.lb e.mpo e.rb e.mps.ds f f ∧
      nsq (rowD e0 (k + 1)) e0.lb.u e0.rb.u (padAmp A B e.lb.u e.rb.u f) = nsq e.mps.ds e.lb.u e.rb.u f ∧
      energy e0.lb (rowW e0 (k + 1)) e0.rb (rowD e0 (k + 1)) (padAmp A B e.lb.u e.rb.u f) = energy e.lb e.mpo e.rb e.mps.ds f := by
  obtain ⟨WA, WB, hA, hB, hrow⟩ := x.env
  have hlen : e.mpo.length = e.mps.ds.length := by rw [← c.fit.ins, List.length_map]
  rw [rowW, rowD, hrow, x.ds] at hH ⊢
  refine ⟨hermH_pad hA hB c.fit.mlink hlen hH, fun f => ?_⟩
  have e1 := hform_pad hA hB c.fit.mlink hlen f f
  rw [← c.fit.lb, ← c.fit.rb] at e1
  have e2 := nsq_pad (ds := e.mps.ds) hA.u hB.u ol x.right f
  exact ⟨e1, e2, by unfold energy; rw [e1, e2]⟩

/-- **C88 (energies, two-site).**  For a Hermitian Hamiltonian of the open chain of any number of cells between the original
boundaries, in exact arithmetic and with an eigensolver that does not raise the energy of its local problem, as long as the state is not
regauged and no truncation discards everything: every energy found in pass `k` is real and is the expectation value of the
Hamiltonian of `k+1` cells in the state that consists of the optimised cell and the tensors added before; so is the energy of
the pass, for the normalised state at its end, if nothing was truncated; it is never below a lower bound of that Hamiltonian. -/
theorem C88_energy_two (hO : O.Spec) (hp : ∀ A, PinvSpec A (pinv A)) (hV : solve.Var sv) {K : Kernels} {h : ℕ} {e : Eng} (c : Cell O h e)
    (hH : ∀ n, HermH e.lb (rowW e n) e.rb (rowD e n)) {Nmax NUC : ℤ} {Econv : ℝ} {cp : Option ℤ} {rs : ℤ} {r : Run SimRes2}
    (hr : simulateTwoSite O pinv K solve sv e Nmax NUC Econv cp trunc rs = .ok r) {k : ℕ} {p : Pass SimRes2}
    (hk : r.passes[k]? = some p) (hno : ∀ q ∈ r.passes.take k, q.rg = false) (hkept : ∀ c ∈ p.out.sweeps.flatten, c.kept ≠ 0) :
    ∃ A B, Extended h k e p.start A B ∧
    (∀ c ∈ p.out.sweeps.flatten, c.energy.im = 0 ∧ ∃ f, f = padAmp A B p.start.lb.u p.start.rb.u
        (pairAmp c.mps.tensors c.n (p.start.mps.ds.getD (c.n + 1) 0) c.opt) ∧
      0 < nsq (rowD e (k + 1)) e.lb.u e.rb.u f ∧ energy e.lb (rowW e (k + 1)) e.rb (rowD e (k + 1)) f = c.energy) ∧
    (∃ c, p.out.sweeps.flatten.getLast? = some c ∧ p.out.energy = c.energy) ∧
    (∀ lam : ℝ, (∀ f, lam * nsq (rowD e (k + 1)) e.lb.u e.rb.u f ≤ (hform e.lb (rowW e (k + 1)) e.rb (rowD e (k + 1)) f f).re) →
      lam ≤ p.out.energy.re) ∧
    nsq (rowD e (k + 1)) e.lb.u e.rb.u (padAmp A B p.start.lb.u p.start.rb.u p.out.eng.mps.amp) = 1 ∧
    ((∀ c ∈ p.out.sweeps.flatten, c.lost = 0) →
      energy e.lb (rowW e (k + 1)) e.rb (rowD e (k + 1)) (padAmp A B p.start.lb.u p.start.rb.u p.out.eng.mps.amp) = p.out.energy ∧
      p.out.energy.re ≤
        (energy e.lb (rowW e (k + 1)) e.rb (rowD e (k + 1)) (padAmp A B p.start.lb.u p.start.rb.u p.start.mps.amp)).re) := by
  obtain ⟨c1, ⟨A, B, x, ol⟩, -⟩ := C87_growth_two hO hp c hr hk hno
  have hrun : p.start.simulateTwoSite O solve sv NUC Econv cp trunc = .ok p.out := by
    obtain ⟨-, S⟩ := C87_course_two hr
    obtain ⟨last, S1, -⟩ := S.passes
    exact (grown_passes hO hp (flag := True) (fun e res c h => ends_two hO c h) c _ 0 0 e last _ _ S1 c
      (Grown.zero True h e) k p hk hno).2.2.1
  obtain ⟨hHs, hpad⟩ := pad_energy x ol c1 (hH (k + 1))
  obtain ⟨t1, t2, t3, t4, t5, t6⟩ := C84_energy hO hV (c1.start2 hO) c1.sth (by have := c1.two; rw [c1.N]; omega) c1.fit hHs c1.canon c1.Z
    hrun hkept
  refine ⟨A, B, x, ?_, t2, ?_, ?_, ?_⟩
  · intro c hc
    obtain ⟨a1, a2, a3, a4, a5⟩ := t1 c hc
    exact ⟨a1, _, rfl, by rw [(hpad _).2.1]; exact a3, by rw [(hpad _).2.2]; exact a4⟩
  · intro lam hlam
    refine t3 lam fun f => ?_
    have := hlam (padAmp A B p.start.lb.u p.start.rb.u f)
    rwa [(hpad f).1, (hpad f).2.1] at this
  · rw [(hpad _).2.1]; exact t5
  · intro hl
    obtain ⟨u1, u2⟩ := t6 hl
    refine ⟨by rw [(hpad _).2.2]; exact u2, ?_⟩
    obtain ⟨c, hc1, hc2⟩ := t2
    rw [(hpad _).2.2, hc2]
    exact (List.pairwise_cons.mp u1).1 _ (List.mem_map.mpr ⟨c, List.mem_of_getLast? hc1, rfl⟩)

/-- **C88 (energies, single-site, two-site cells).**  The same for the single-site simulation with a cell of two sites, where nothing
is truncated: within a pass the energies never rise. -/
theorem C88_energy_one (hO : O.Spec) (hp : ∀ A, PinvSpec A (pinv A)) (hsv : solve.Shape) (hV : solve.Var sv) {K : Kernels} {e : Eng}
    (c : Cell O 1 e) (hH : ∀ n, HermH e.lb (rowW e n) e.rb (rowD e n)) {Nmax NUC : ℤ} {Econv : ℝ} {cp : Option ℤ} {rs : ℤ}
    {r : Run SimRes} (hr : simulate O pinv K solve sv e Nmax NUC Econv cp rs = .ok r) {k : ℕ} {p : Pass SimRes}
    (hk : r.passes[k]? = some p) (hno : ∀ q ∈ r.passes.take k, q.rg = false) :
    ∃ A B, Extended 1 k e p.start A B ∧
    ((energy e.lb (rowW e (k + 1)) e.rb (rowD e (k + 1)) (padAmp A B p.start.lb.u p.start.rb.u p.start.mps.amp)).re ::
      p.out.sweeps.flatten.map fun c => c.energy.re).Pairwise (· ≥ ·) ∧
    (∀ c ∈ p.out.sweeps.flatten, c.energy.im = 0 ∧ ∃ f, f = padAmp A B p.start.lb.u p.start.rb.u c.after ∧
      0 < nsq (rowD e (k + 1)) e.lb.u e.rb.u f ∧ energy e.lb (rowW e (k + 1)) e.rb (rowD e (k + 1)) f = c.energy) ∧
    (∃ c, p.out.sweeps.flatten.getLast? = some c ∧ p.out.energy = c.energy) ∧
    (∀ lam : ℝ, (∀ f, lam * nsq (rowD e (k + 1)) e.lb.u e.rb.u f ≤ (hform e.lb (rowW e (k + 1)) e.rb (rowD e (k + 1)) f f).re) →
      lam ≤ p.out.energy.re) := by
  obtain ⟨c1, ⟨A, B, x, ol⟩, -⟩ := C87_growth hO hp hsv c hr hk hno
  have hrun : p.start.simulate O solve sv NUC Econv cp = .ok p.out := by
    obtain ⟨-, S⟩ := C87_course hr
    obtain ⟨last, S1, -⟩ := S.passes
    exact (grown_passes hO hp (flag := (1 : ℕ) = 1) (fun e res c h => ends_one hO hsv c h) c _ 0 0 e last _ _ S1 c
      (Grown.zero _ 1 e) k p hk hno).2.2.1
  obtain ⟨hHs, hpad⟩ := pad_energy x (ol rfl) c1 (hH (k + 1))
  obtain ⟨t1, t2, t3, t4, -⟩ := C81_descent hO hsv hV c1.fresh c1.wf c1.sq c1.sth (by rw [c1.N]) c1.canon c1.Z c1.fit.lb c1.fit.rb
    c1.fit.mlink c1.fit.ins c1.fit.outs hHs hrun
  refine ⟨A, B, x, by rw [(hpad _).2.2]; exact t1, ?_, t3, ?_⟩
  · intro c hc
    obtain ⟨a1, a2, a3⟩ := t2 c hc
    exact ⟨a1, _, rfl, by rw [(hpad _).2.1]; exact a2, by rw [(hpad _).2.2]; exact a3⟩
  · intro lam hlam
    refine t4 lam fun f => ?_
    have := hlam (padAmp A B p.start.lb.u p.start.rb.u f)
    rwa [(hpad f).1, (hpad f).2.1] at this

end

end PyTeN.Idmrg
