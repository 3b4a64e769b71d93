import Verif.Engine.TdvpLoop

/-! # Progress of TDVP: sweeps on a canonical state do not fail -/

namespace PyTeN
open Finset

noncomputable section

variable {O : LinAlg} {evT : EvolveTen} {evM : EvolveMat} {sv : TSolver} {Q : TCall → Prop}

/-- Contract of the site integrators needed for progress: fitting arguments, a call in `Q` and a nonzero tensor give a
nonzero tensor. -/
def EvolveTen.Live (evT : EvolveTen) (sv : TSolver) (Q : TCall → Prop) : Prop :=
  ∀ n m L W R T dt, L.u = T.l → L.w = T.l → L.m = W.l → R.u = T.r → R.w = T.r → R.m = W.r → T.d = W.din → W.dout = T.d →
    T.NonZero → Q (.ten n m L W R T dt) → ∃ X, evT sv L W R T (sv.time dt) = .ok X ∧ X.NonZero

/-- Contract of the bond integrators needed for progress, for square matrices only (`HAproductBond` reshapes to
`(chi,chi)`). -/
def EvolveMat.Live (evM : EvolveMat) (sv : TSolver) (Q : TCall → Prop) : Prop :=
  ∀ n m L R C dt, L.u = C.r → L.w = C.r → L.m = R.m → R.u = C.c → R.w = C.c → C.r = C.c → normF C ≠ 0 →
    Q (.mat n m L R C dt) → ∃ X, evM sv L R C (sv.time dt) = .ok X ∧ normF X ≠ 0

/-- Spec: the steps that occur in a run. -/
def TStep (dt x : ℂ) : Prop := x = dt ∨ x = dt / 2 ∨ x = -(dt / 2)

/-- Spec: the shape of the tensor or matrix of a call, for a chain of tensors with shapes `ss`. -/
def TCall.Shaped (ss : List (ℕ × ℕ × ℕ)) : TCall → Prop
  | .ten n _ _ _ _ T _ => ss[n]? = some T.shape
  | .mat n _ _ _ C _ => C.r = C.c ∧ ∃ a, ss[n]? = some a ∧ a.2.1 = C.c

/-- Spec: the step of a recorded call. -/
def TCall.dt : TCall → ℂ
  | .ten _ _ _ _ _ _ dt => dt
  | .mat _ _ _ _ _ dt => dt

/-- Spec: every call that belongs to the engine is in `Q`. -/
def Eng.Admits (e : Eng) (dt : ℂ) (Q : TCall → Prop) : Prop :=
  ∀ c, TCall.OK e.lb e.rb e.mpo c → c.mps.ds = e.mps.ds → c.Shaped (e.mps.tensors.map Ten.shape) → TStep dt c.dt → Q c

/-- Spec: an engine on which a TDVP sweep cannot fail (together with valid caches). -/
structure Eng.TLive (e : Eng) (dt : ℂ) (Q : TCall → Prop) : Prop where
  fit : e.Fit
  norm : normF e.mps.mat = 1
  Z : e.mps.Z ≠ 0
  adm : ∀ t ∈ e.mps.tensors, t.Adm
  sq : e.mps.mat.r = e.mps.mat.c
  calls : e.Admits dt Q

theorem Eng.Fit.same {e e' : Eng} (h : e.Fit) (hs : e.TSame e') : e'.Fit := by
  obtain ⟨⟨h1, h2, h3, -, -⟩, h4, -⟩ := hs
  exact ⟨by rw [h2]; exact h.lb, by rw [h3]; exact h.rb, by rw [h1, h2, h3]; exact h.mlink, by rw [h1, h4]; exact h.ins,
    by rw [h1, h4]; exact h.outs⟩

theorem Eng.Admits.same {dt : ℂ} {e e' : Eng} (h : e.Admits dt Q) (h1 : e'.lb = e.lb) (h2 : e'.rb = e.rb) (h3 : e'.mpo = e.mpo)
    (h4 : e'.mps.ds = e.mps.ds) (hsh : e'.mps.tensors.map Ten.shape = e.mps.tensors.map Ten.shape) : e'.Admits dt Q := by
  intro c c1 c2 c3 c4
  rw [h1, h2, h3] at c1
  exact h c c1 (c2.trans h4) (hsh ▸ c3) c4

theorem Eng.TLive.same {dt : ℂ} {e e' : Eng} (h : e.TLive dt Q) (hs : e.TSame e') (hn : normF e'.mps.mat = 1)
    (hsh : e'.mps.tensors.map Ten.shape = e.mps.tensors.map Ten.shape ∧ e'.mps.mat.r = e'.mps.mat.c) : e'.TLive dt Q := by
  refine ⟨h.fit.same hs, hn, ?_, adm_shape hsh.1 h.adm, hsh.2, h.calls.same hs.same.lb hs.same.rb hs.same.mpo hs.ds hsh.1⟩
  obtain ⟨z, hz, h1⟩ := hs.Z
  rw [h1]
  exact mul_ne_zero h.Z (by exact_mod_cast hz.ne')

theorem ti_amp {e : Eng} {p a b : ℕ} (hi : e.TI True p a b) (hn : normF e.mps.mat = 1) (hZ : e.mps.Z ≠ 0) :
    ∃ s i j, Cfg e.mps.tensors s ∧ i < e.lb.u ∧ e.mps.amp s i j ≠ 0 := by
  obtain ⟨s, i, j, h1, h2, -, h3⟩ := canonical_amp (ds := e.mps.ds) ⟨hi.wf, rfl, hi.sth, hZ⟩
    ⟨hi.pos ▸ (hi.orth trivial).left, hi.pos ▸ (hi.orth trivial).right, hn⟩
  exact ⟨s, i, j, conf_cfg h1, h2, h3⟩

theorem tensor_any {m m' : MPS} {n : ℕ} {T : Ten ℂ} (h : m.tensor n true = .ok (T, m')) (clear : Bool) :
    ∃ m2, m.tensor n clear = .ok (T, m2) := by
  cases clear with
  | true => exact ⟨m', h⟩
  | false =>
    unfold MPS.tensor at h ⊢
    simp only [Bool.false_eq_true, if_false, if_true] at h ⊢
    split_ifs at h ⊢ with h1 h2
    · split at h
      · cases h
      split at h
      · cases h
      simp only [Except.ok.injEq, Prod.mk.injEq] at h
      exact ⟨_, by rw [h.1]⟩
    · split at h
      · cases h
      split at h
      · cases h
      simp only [Except.ok.injEq, Prod.mk.injEq] at h
      exact ⟨_, by rw [h.1]⟩

theorem position_stay {m m' : MPS} {b : ℕ} (hb : m.pos = b) (h : m.position O b = .ok m') : m' = m := by
  unfold MPS.position at h
  split_ifs at h
  simp only at h
  split_ifs at h <;> first | omega | skip
  simp only [Except.ok.injEq] at h
  exact h.symm

theorem tensor_shape {m m' : MPS} {n : ℕ} {clear : Bool} {T t : Ten ℂ} (h : m.tensor n clear = .ok (T, m')) (ht : m.tensors[n]? = some t)
    (hsq : m.mat.r = m.mat.c) : T.shape = t.shape := by
  have hlt : n < m.tensors.length := (List.getElem?_eq_some_iff.mp ht).1
  have hz : getZ m.tensors (n : ℤ) = .ok t := by
    rw [getZ_nat hlt, (List.getElem?_eq_some_iff.mp ht).2]
  unfold MPS.tensor at h
  simp only [hz] at h
  by_cases h1 : (n : ℤ) = m.pos
  · rw [if_pos h1] at h
    split at h
    · cases h
    rename_i T' hT
    simp only [Except.ok.injEq, Prod.mk.injEq] at h
    rw [← h.1]; exact absorbL_shape hT hsq
  · rw [if_neg h1] at h
    by_cases h2 : (n : ℤ) = (m.pos : ℤ) - 1
    · rw [if_pos h2] at h
      split at h
      · cases h
      rename_i T' hT
      simp only [Except.ok.injEq, Prod.mk.injEq] at h
      rw [← h.1]; exact absorbR_shape hT hsq
    · rw [if_neg h2] at h; cases h

theorem prepareTensorR_shape (hO : O.Spec) {t a : Ten ℂ} {m : Mat ℂ} {z : ℝ} (h : prepareTensorR O .none t = .ok (a, m, z)) (ha : t.Adm) :
    a.shape = t.shape ∧ m.r = t.r ∧ m.c = t.r := by
  refine cutR_shape (sth := 0) (z := z) hO (by norm_num) ?_ ha
  unfold cutR
  rw [if_pos ⟨by norm_num, rfl⟩]
  unfold prepareTensor
  rw [if_neg (by norm_num), if_pos (by norm_num)]
  exact h

theorem prepareTensorL_shape (hO : O.Spec) {t a : Ten ℂ} {m : Mat ℂ} {z : ℝ} (h : prepareTensorL O .none t = .ok (a, m, z)) (ha : t.Adm) :
    a.shape = t.shape ∧ m.r = t.l ∧ m.c = t.l := by
  refine cutL_shape (sth := 0) (z := z) hO (by norm_num) ?_ ha
  unfold cutL
  rw [if_pos ⟨by norm_num, rfl⟩]
  unfold prepareTensor
  rw [if_neg (by norm_num), if_neg (by norm_num)]
  exact h

theorem evolveTen_shape (hev : evT.Shape) {dt : ℂ} {clear : Bool} {e e' : Eng} {n : ℕ} {X t : Ten ℂ} {c : TCall}
    (h : e.evolveTen evT sv clear n dt = .ok (e', X, c)) (ht : e.mps.tensors[n]? = some t) (hsq : e.mps.mat.r = e.mps.mat.c) :
    X.shape = t.shape ∧ c.Shaped (e.mps.tensors.map Ten.shape) := by
  unfold Eng.evolveTen at h
  split at h
  · cases h
  split at h
  · cases h
  split at h
  · cases h
  split at h
  · cases h
  rename_i T m hT
  split at h
  · cases h
  rename_i X' hX
  simp only [Except.ok.injEq, Prod.mk.injEq] at h
  obtain ⟨x1, x2, x3⟩ := hev _ _ _ _ _ _ _ hX
  have h0 := tensor_shape hT ht hsq
  refine ⟨?_, ?_⟩
  · rw [← h.2.1, ← h0]
    simp only [Ten.shape, x1, x2, x3]
  · rw [← h.2.2]
    simp only [TCall.Shaped, List.getElem?_map, ht, Option.map_some, h0]

theorem evolveMat_shape (hev : evM.Shape) {dt : ℂ} {e e' : Eng} {n : ℕ} {C : Mat ℂ} {c : TCall}
    (h : e.evolveMat evM sv n C dt = .ok (e', c)) (hsq : C.r = C.c) :
    e'.mps.tensors = e.mps.tensors ∧ e'.mps.mat.r = e'.mps.mat.c ∧
      ∀ t, e.mps.tensors[n]? = some t → t.r = C.c → c.Shaped (e.mps.tensors.map Ten.shape) := by
  unfold Eng.evolveMat at h
  split at h
  · cases h
  split at h
  · cases h
  split at h
  · cases h
  rename_i X hX
  split at h
  · cases h
  rename_i Y hY
  simp only [Except.ok.injEq, Prod.mk.injEq] at h
  obtain ⟨x1, x2⟩ := hev _ _ _ _ _ _ hX
  obtain ⟨-, rfl⟩ := unit_ok hY
  rw [← h.1, ← h.2]
  refine ⟨rfl, x1.trans (hsq.trans x2.symm), fun t ht hr => ⟨hsq, t.shape, ?_, hr⟩⟩
  simp only [List.getElem?_map, ht, Option.map_some]

/-- The right-moving step keeps all shapes. -/
theorem tdvpR_shape (hO : O.Spec) (hT : evT.Shape) (hM : evM.Shape) {dt : ℂ} {e e' : Eng} {n a b : ℕ} {cs : List TCall}
    (hi : e.TI True n a b) (hl : e.TLive dt Q) (ha : n ≤ a) (hb : b ≤ n + 1) (hn : n < e.mps.N)
    (h : e.tdvpR O evT evM sv dt n = .ok (e', cs)) :
    (e'.mps.tensors.map Ten.shape = e.mps.tensors.map Ten.shape ∧ e'.mps.mat.r = e'.mps.mat.c) ∧
      ∀ c ∈ cs, c.Shaped (e.mps.tensors.map Ten.shape) := by
  unfold Eng.tdvpR at h
  simp only at h
  split at h
  · cases h
  rename_i m0 hm0
  obtain ⟨-, -, M⟩ := position_moved hO (effSth_default hi.sth) hi.wf hm0
  obtain ⟨sh0, sq0⟩ := position_shape hO hi.sth hm0 hl.adm hl.sq
  rw [show ((n : ℤ) + 1).toNat = n + 1 by omega] at M
  split at h
  · cases h
  rename_i e1 X c hev
  have hpos := hi.pos
  have hv0 : ({ e with mps := m0 } : Eng).Val n (n + 1) :=
    val_moved hi.val M ha hb (Or.inl ⟨by omega, by omega⟩) (Or.inl ⟨le_rfl, by omega⟩)
  obtain ⟨-, -, ⟨C1, rfl⟩, -⟩ :=
    evolveTen_spec (evM := evM) (a := n) (b := n + 1) hT M.wf hv0 le_rfl le_rfl (by simp only [M.N]; exact hn) hev
  obtain ⟨t, ht⟩ := getElem?_of_lt (l := m0.tensors) (n := n) (by rw [M.wf.len, M.N]; exact hn)
  obtain ⟨hXs, hcs⟩ := evolveTen_shape hT hev ht sq0
  simp only [sh0] at hcs
  have hXa : X.Adm := adm_of_shape hXs (adm_shape sh0 hl.adm t (List.mem_of_getElem? ht))
  split at h
  · cases h
  rename_i A C z hp
  obtain ⟨a1, a2, a3⟩ := prepareTensorR_shape hO hp hXa
  split at h
  · cases h
  rename_i m1 hm1
  obtain ⟨hlt, rfl⟩ := setItem_ok hm1
  have hsh : (m0.tensors.set n A).map Ten.shape = e.mps.tensors.map Ten.shape := (map_shape_set ht (a1.trans hXs)).trans sh0
  split at h
  · cases h
  split at h
  · cases h
  split at h
  · cases h
  split at h
  · cases h
  by_cases hlast : n < e.mps.N - 1
  · rw [if_pos hlast] at h
    split at h
    · cases h
    rename_i e3 c' he3
    simp only [Except.ok.injEq, Prod.mk.injEq] at h
    obtain ⟨b1, b2, b3⟩ := evolveMat_shape hM he3 (a2.trans a3.symm)
    have b3' := b3 A (by simp only; rw [List.getElem?_set_self hlt]) (by
      simp only [Ten.shape, Prod.mk.injEq] at a1
      rw [a3, a1.2.1])
    simp only [hsh] at b3'
    rw [← h.1, b1, ← h.2]
    refine ⟨⟨hsh, b2⟩, fun c hc => ?_⟩
    simp only [List.mem_cons, List.not_mem_nil, or_false] at hc
    rcases hc with rfl | rfl
    · exact hcs
    · exact b3'
  · rw [if_neg hlast] at h
    simp only [Except.ok.injEq, Prod.mk.injEq] at h
    rw [← h.1, ← h.2]
    exact ⟨⟨hsh, a2.trans a3.symm⟩, by simpa using hcs⟩

/-- The left-moving step keeps all shapes. -/
theorem tdvpL_shape (hO : O.Spec) (hT : evT.Shape) (hM : evM.Shape) {dt : ℂ} {e e' : Eng} {n p a b : ℕ} {cs : List TCall}
    (hi : e.TI True p a b) (hl : e.TLive dt Q) (hn : n + 1 < e.mps.N)
    (h : e.tdvpL O evT evM sv dt n = .ok (e', cs)) :
    (e'.mps.tensors.map Ten.shape = e.mps.tensors.map Ten.shape ∧ e'.mps.mat.r = e'.mps.mat.c) ∧
      ∀ c ∈ cs, c.Shaped (e.mps.tensors.map Ten.shape) := by
  unfold Eng.tdvpL at h
  split at h
  · cases h
  rename_i m0 hm0
  obtain ⟨-, -, M⟩ := position_moved hO (effSth_default hi.sth) hi.wf hm0
  rw [show ((n : ℤ) + 1).toNat = n + 1 by omega] at M
  obtain ⟨sh0, sq0⟩ := position_shape hO hi.sth hm0 hl.adm hl.sq
  obtain ⟨t, ht⟩ := getElem?_of_lt (l := m0.tensors) (n := n) (by rw [M.wf.len, M.N]; omega)
  split at h
  · cases h
  split at h
  · cases h
  split at h
  · cases h
  split at h
  · cases h
  split at h
  · cases h
  split at h
  · cases h
  rename_i e1 c he1
  obtain ⟨b1, b2, b3⟩ := evolveMat_shape hM he1 sq0
  have b3' := b3 t ht (by
    have hwl := M.wf.left
    rw [M.pos, take_succ_getElem? ht, linked_append] at hwl
    obtain ⟨p, -, hwl⟩ := hwl
    exact hwl.2.trans sq0)
  simp only [sh0] at b1 b3'
  split at h
  · cases h
  rename_i e2 X c' he2
  obtain ⟨hXs, hcs⟩ := evolveTen_shape hT he2 (by rw [b1]; exact ht) b2
  rw [b1, sh0] at hcs
  have hXa : X.Adm := adm_of_shape hXs (adm_shape sh0 hl.adm t (List.mem_of_getElem? ht))
  have ht2 : e2.mps.tensors = m0.tensors := by
    rw [← b1]
    unfold Eng.evolveTen at he2
    split at he2
    · cases he2
    split at he2
    · cases he2
    split at he2
    · cases he2
    split at he2
    · cases he2
    rename_i T m hT
    split at he2
    · cases he2
    simp only [Except.ok.injEq, Prod.mk.injEq] at he2
    rw [← he2.1]
    simp only
    unfold MPS.tensor at hT
    split_ifs at hT
    all_goals
      split at hT
      · cases hT
      split at hT
      · cases hT
      simp only [Except.ok.injEq, Prod.mk.injEq] at hT
      rw [← hT.2]
  split at h
  · cases h
  rename_i A C z hp
  obtain ⟨a1, a2, a3⟩ := prepareTensorL_shape hO hp hXa
  split at h
  · cases h
  rename_i m1 hm1
  obtain ⟨hlt, rfl⟩ := setItem_ok hm1
  simp only [Except.ok.injEq, Prod.mk.injEq] at h
  rw [← h.1, ← h.2]
  simp only [ht2]
  refine ⟨⟨(map_shape_set ht (a1.trans hXs)).trans sh0, a2.trans a3.symm⟩, fun c hc => ?_⟩
  simp only [List.mem_cons, List.not_mem_nil, or_false] at hc
  rcases hc with rfl | rfl
  · exact b3'
  · exact hcs

/-- A site call succeeds. -/
theorem evolveTen_ok (hsh : evT.Shape) (hlv : evT.Live sv Q) {clear : Bool} {e : Eng} {n a b : ℕ} {dt0 dt : ℂ}
    (hw : e.mps.WF e.lb.u e.rb.u) (hf : e.Fit) (hq : e.Admits dt0 Q) (hst : TStep dt0 dt) (hsq : e.mps.mat.r = e.mps.mat.c)
    (hv : e.Val a b) (ha : n ≤ a) (hb : b ≤ n + 1) (hn : n < e.mps.N)
    (hp : e.mps.pos = n ∨ e.mps.pos = n + 1) (hne : ∃ s i j, Cfg e.mps.tensors s ∧ i < e.lb.u ∧ e.mps.amp s i j ≠ 0) :
    ∃ e' X c L W R, e.evolveTen evT sv clear n dt = .ok (e', X, c) ∧ X.NonZero ∧ e.L[n]? = some L ∧ e.mpo[n]? = some W ∧
      e.R[e.mps.N - 1 - n]? = some R ∧ L.u = X.l ∧ L.w = X.l ∧ L.m = W.l ∧ R.u = X.r ∧ R.w = X.r ∧ R.m = W.r ∧ X.d = W.din ∧
      W.dout = X.d := by
  have hlen := hw.len
  have hlt : n < e.mps.tensors.length := by omega
  obtain ⟨t, ht⟩ := getElem?_of_lt hlt
  obtain ⟨L, hL⟩ := getElem?_of_lt (l := e.L) (n := n) (by rw [hv.lenL]; omega)
  obtain ⟨R, hR⟩ := getElem?_of_lt (l := e.R) (n := e.mps.N - 1 - n) (by rw [hv.lenR]; omega)
  obtain ⟨W, hW⟩ := getElem?_of_lt (l := e.mpo) (n := n) (by rw [hv.lenW]; omega)
  have iL := hv.left n ha L hL
  have iR := hv.right (n + 1) hb (by omega) R (by rw [← hR]; congr 1; omega)
  obtain ⟨T, hT, -⟩ := tensor_ok hw hp ht
  obtain ⟨-, -, ⟨t', t2, t3⟩, t4, t5⟩ := tensor_clear hw hT
  rw [ht, Option.some.injEq] at t2; subst t2
  obtain ⟨m2, hT2⟩ := tensor_any hT clear
  obtain ⟨d1, d2⟩ := fit_site hf rfl ht hW
  have hlk := t4
  rw [set_take_drop hlt, linked_append] at hlk
  obtain ⟨q, q1, q2, q3⟩ := hlk
  have hLu : L.u = T.l := by rw [q2]; exact linked_rdim_unique iL.u q1
  have hLw : L.w = T.l := by rw [q2]; exact linked_rdim_unique iL.w (hf.lb ▸ q1)
  have hRu : R.u = T.r := linked_unique_l iR.u q3 rfl
  have hRw : R.w = T.r := linked_unique_l iR.w q3 hf.rb.symm
  obtain ⟨u, u1, u2⟩ := mlinked_take hf.mlink n
  rw [drop_getElem? hW] at u2
  have hLm : L.m = W.l := by rw [u2.1]; exact mlinked_rdim iL.m u1
  have hRm : R.m = W.r := mlinked_unique_l iR.m u2.2 rfl
  obtain ⟨s, i, j, hc, hi, hamp⟩ := hne
  have hch : e.mps.Z * chain (e.mps.tensors.set n T) s i j ≠ 0 := by
    rw [← t5 s (by rw [cfg_length hc, hlen]) i hi j]; exact hamp
  have hTn : T.NonZero := by
    by_contra h0
    simp only [Ten.NonZero] at h0
    push Not at h0
    apply right_ne_zero_of_mul hch
    have hc' : Cfg (e.mps.tensors.set n T) s := by
      rw [cfg_iff_map, map_d_set ht t3]; exact cfg_iff_map.mp hc
    rw [set_take_drop hlt] at t4 hc' ⊢
    exact chain_zero_of_site _ _ _ t4 (fun i hi j hj s hs => h0 i hi j hj s hs) s hc' i hi j
  obtain ⟨X, hX, hXn⟩ := hlv n e.mps L W R T dt hLu hLw hLm hRu hRw hRm (by rw [t3]; exact d1) (by rw [t3]; exact d2) hTn
    (hq _ ⟨hn, hlen, hW, iL, iR, t4, map_d_set ht t3⟩ rfl (by
      simp only [TCall.Shaped, List.getElem?_map, ht, Option.map_some, tensor_shape hT ht hsq]) hst)
  obtain ⟨x1, x2, x3⟩ := hsh _ _ _ _ _ _ _ hX
  refine ⟨{ e with mps := m2 }, X, .ten n e.mps L W R T dt, L, W, R, ?_, hXn, hL, hW, hR, ?_⟩
  · unfold Eng.evolveTen
    simp only [getE_some hL, getE_some hW, getE_some hR, hT2, hX]
  · rw [x1, x2, x3, t3]
    exact ⟨hLu, hLw, hLm, hRu, hRw, hRm, d1, d2⟩

theorem prepareTensorR_live (hO : O.Spec) {X : Ten ℂ} (h : X.NonZero) : ∃ A C z, prepareTensorR O .none X = .ok (A, C, z) := by
  cases hp : prepareTensorR O .none X with
  | ok v => exact ⟨v.1, v.2.1, v.2.2, rfl⟩
  | error x =>
    obtain ⟨i, hi, j, hj, s, hs, hne⟩ := h
    exact absurd ((prepareTensorR_err hO hp).2 i hi j hj s hs) hne

theorem prepareTensorL_live (hO : O.Spec) {X : Ten ℂ} (h : X.NonZero) : ∃ A C z, prepareTensorL O .none X = .ok (A, C, z) := by
  cases hp : prepareTensorL O .none X with
  | ok v => exact ⟨v.1, v.2.1, v.2.2, rfl⟩
  | error x =>
    obtain ⟨i, hi, j, hj, s, hs, hne⟩ := h
    exact absurd ((prepareTensorL_err hO hp).2 i hi j hj s hs) hne

theorem setItem_live {m : MPS} {n : ℕ} (hn : n < m.tensors.length) (X : Ten ℂ) :
    m.setItem n X = .ok { m with tensors := m.tensors.set n X } := by
  unfold MPS.setItem pyIdx
  rw [if_pos ⟨by omega, by rw [abs_of_nonneg (by omega)]; omega⟩, if_pos (by omega), if_pos (by omega)]
  simp

/-- A bond call succeeds. -/
theorem evolveMat_ok (hlv : evM.Live sv Q) {e : Eng} {n a b : ℕ} {C : Mat ℂ} {dt0 dt : ℂ} (hlen : e.mps.tensors.length = e.mps.N) (hf : e.Fit)
    (hq : e.Admits dt0 Q) (hst : TStep dt0 (-dt)) (hsq : C.r = C.c)
    (hC1 : Linked e.lb.u (e.mps.tensors.take (n + 1)) C.r)
    (hC2 : Linked C.c (e.mps.tensors.drop (n + 1)) e.rb.u)
    (hv : e.Val a b) (ha : n + 1 ≤ a) (hb : b ≤ n + 1) (hn : n + 1 < e.mps.N) (hC : normF C = 1) :
    ∃ e' c, e.evolveMat evM sv n C dt = .ok (e', c) := by
  obtain ⟨L, hL⟩ := getElem?_of_lt (l := e.L) (n := n + 1) (by rw [hv.lenL]; omega)
  obtain ⟨R, hR⟩ := getElem?_of_lt (l := e.R) (n := e.mps.N - 1 - n) (by rw [hv.lenR]; omega)
  have iL := hv.left (n + 1) ha L hL
  have iR := hv.right (n + 1) hb (by omega) R (by rw [← hR]; congr 1; omega)
  obtain ⟨u, u1, u2⟩ := mlinked_take hf.mlink (n + 1)
  have hLm : L.m = R.m := by
    rw [mlinked_rdim iL.m u1, mlinked_unique_l u2 iR.m rfl]
  obtain ⟨X, hX, hX0⟩ := hlv n e.mps L R C (-dt) (linked_rdim_unique iL.u hC1) (linked_rdim_unique iL.w (hf.lb ▸ hC1)) hLm
    (linked_unique_l iR.u hC2 rfl) (linked_unique_l iR.w hC2 hf.rb.symm) hsq (by rw [hC]; exact one_ne_zero)
    (hq _ ⟨hn, hlen, iL, iR, hC1, hC2⟩ rfl ⟨hsq, by
      obtain ⟨t, ht⟩ := getElem?_of_lt (l := e.mps.tensors) (n := n) (by omega)
      refine ⟨t.shape, by simp [ht], ?_⟩
      have h := hC1
      rw [take_succ_getElem? ht, linked_append] at h
      obtain ⟨p, -, h⟩ := h
      exact h.2.trans hsq⟩ hst)
  have hU : X.unit = .ok (X.divR (normF X)) := by unfold Mat.unit; rw [if_neg hX0]
  unfold Eng.evolveMat
  simp only [getE_some hL, getE_some hR, hX, hU]
  exact ⟨_, _, rfl⟩

theorem fit_moved {e : Eng} {m : MPS} (hf : e.Fit) (hd : m.ds = e.mps.ds) : ({ e with mps := m } : Eng).Fit :=
  ⟨hf.lb, hf.rb, hf.mlink, by simp only [hd]; exact hf.ins, by simp only [hd]; exact hf.outs⟩

/-- One iteration of the right-moving loop succeeds. -/
theorem tdvpR_ok (hO : O.Spec) (hT : evT.Shape) (hM : evM.Shape) (lT : evT.Live sv Q) (lM : evM.Live sv Q) {e : Eng} {n a b : ℕ} {dt : ℂ}
    (hi : e.TI True n a b) (hl : e.TLive dt Q) (ha : n ≤ a) (hb : b ≤ n + 1) (hn : n < e.mps.N) :
    ∃ e' cs, e.tdvpR O evT evM sv dt n = .ok (e', cs) ∧ e'.TLive dt Q ∧ e'.mps.tensors.map Ten.shape = e.mps.tensors.map Ten.shape ∧
      ∀ c ∈ cs, c.Shaped (e.mps.tensors.map Ten.shape) := by
  suffices h : ∃ e' cs, e.tdvpR O evT evM sv dt n = .ok (e', cs) by
    obtain ⟨e', cs, h⟩ := h
    obtain ⟨-, h2, h3, -⟩ := tdvpR_spec hO hT hM hi ha hb hn h
    have h4 := tdvpR_shape hO hT hM hi hl ha hb hn h
    exact ⟨e', cs, h, hl.same h3 h2 h4.1, h4.1.1, h4.2⟩
  have hlen := hi.wf.len
  obtain ⟨m0, hm0⟩ := position_ok (b := n + 1) hO hi.wf hi.sth (ti_amp hi hl.norm hl.Z) (by omega)
  obtain ⟨-, -, M⟩ := position_moved hO (effSth_default hi.sth) hi.wf hm0
  obtain ⟨z, hz, hZ⟩ := position_Z hO (effSth_default hi.sth) hm0
  obtain ⟨sh0, sq0⟩ := position_shape hO hi.sth hm0 hl.adm hl.sq
  have hpos := hi.pos
  rw [show (((n + 1 : ℕ) : ℤ)).toNat = n + 1 by omega] at M
  rw [show (((n + 1 : ℕ) : ℤ)) = (n : ℤ) + 1 by push_cast; rfl] at hm0
  have hv0 : ({ e with mps := m0 } : Eng).Val n (n + 1) :=
    val_moved hi.val M ha hb (Or.inl ⟨by omega, by omega⟩) (Or.inl ⟨le_rfl, by omega⟩)
  have hf0 : ({ e with mps := m0 } : Eng).Fit := fit_moved hl.fit M.ds
  have hi0 : ({ e with mps := m0 } : Eng).TI True (n + 1) n (n + 1) :=
    ⟨M.wf, M.pos, by simp only [M.sth]; exact hi.sth, hv0, fun hf => orth_moved (hpos ▸ hi.orth hf) M⟩
  have hz0 : m0.Z ≠ 0 := by simp only [hZ]; exact mul_ne_zero hl.Z (by exact_mod_cast hz.ne')
  have hq0 : ({ e with mps := m0 } : Eng).Admits dt Q := hl.calls.same rfl rfl rfl M.ds sh0
  have hst : TStep dt (if n = e.mps.N - 1 then dt else dt / 2) := by
    split_ifs
    · exact Or.inl rfl
    · exact Or.inr (Or.inl rfl)
  obtain ⟨e1, X, c, L, W, R, hev, hX, hL, hW, hR, s1, s2, s3, s4, s5, s6, s7, s8⟩ := evolveTen_ok (clear := true)
    (dt := if n = e.mps.N - 1 then dt else dt / 2) hT lT M.wf hf0 hq0 hst sq0 hv0 le_rfl le_rfl (by simp only [M.N]; exact hn)
    (Or.inr M.pos) (ti_amp hi0 (M.norm (by omega)) hz0)
  obtain ⟨-, -, ⟨C1, rfl⟩, -, -, q4, q5⟩ :=
    evolveTen_spec (evM := evM) (a := n) (b := n + 1) hT M.wf hv0 le_rfl le_rfl (by simp only [M.N]; exact hn) hev
  obtain ⟨A, C, y, hpr⟩ := prepareTensorR_live hO hX
  have X1 := prepareTensorR_spec hO hpr
  have hlt : n < m0.tensors.length := by rw [M.wf.len, M.N]; exact hn
  obtain ⟨t, ht⟩ := getElem?_of_lt hlt
  have hXs := (evolveTen_shape hT hev ht sq0).1
  obtain ⟨a1, a2, a3⟩ := prepareTensorR_shape hO hpr (adm_of_shape hXs (adm_shape sh0 hl.adm t (List.mem_of_getElem? ht)))
  have hadd : ∃ L', addLayerR L A W A = .ok L' := by
    unfold addLayerR
    rw [if_pos ⟨by rw [X1.l]; exact s1, s3, by rw [X1.d]; exact s7, by rw [X1.l]; exact s2, by rw [X1.d]; exact s8⟩]
    exact ⟨_, rfl⟩
  obtain ⟨L', hL'⟩ := hadd
  simp only at hL hW hR q4 q5
  have hset : setE e.L (n + 1) L' = .ok (e.L.set (n + 1) L') := by
    unfold setE; rw [if_pos (by rw [hi.val.lenL]; omega)]
  unfold Eng.tdvpR
  simp only [hm0, hev, hpr]
  rw [setItem_live (m := { m0 with mat := C1 }) hlt A]
  simp only [getE_some hL, getE_some hW, hL', hset]
  by_cases hlast : n < e.mps.N - 1
  · rw [if_pos hlast]
    have hne : n ≠ e.mps.N - 1 := by omega
    have hget : (m0.tensors.set n A)[n]? = some A := by rw [List.getElem?_set_self hlt]
    have q4' := q4
    rw [set_take_drop hlt, linked_append] at q4'
    obtain ⟨p, p1, p2, p3⟩ := q4'
    have hA1 : Linked e.lb.u ((m0.tensors.set n A).take (n + 1)) C.r := by
      rw [take_succ_getElem? hget, List.take_set_of_le le_rfl, linked_append]
      exact ⟨p, p1, X1.l.trans p2, X1.r⟩
    have hA2 : Linked C.c ((m0.tensors.set n A).drop (n + 1)) e.rb.u := by
      rw [List.drop_set_of_lt (by omega), X1.c]; exact p3
    have i2 := isL_snoc (hv0.left n le_rfl L hL) hL'
    have hds : (m0.tensors.set n A).map Ten.d = m0.ds := by
      rw [← q5]
      obtain ⟨t, ht⟩ := getElem?_of_lt hlt
      have e1 : X.d = t.d := by
        have h5 := congrArg (fun l => l[n]?) q5
        simp only [MPS.ds, List.getElem?_map, List.getElem?_set_self hlt, ht, Option.map_some, Option.some.injEq] at h5
        exact h5
      rw [map_d_set ht (X1.d.trans e1), map_d_set ht e1]
    have hv1 : ({ e with mps := { m0 with mat := C1, tensors := m0.tensors.set n A }, L := e.L.set (n + 1) L' } : Eng).Val
        (n + 1) (n + 1) := by
      refine ⟨by simp only [List.length_set]; exact hv0.lenL, hv0.lenR, hv0.lenW, fun k hk E hE => ?_, fun k hk hkN E hE => ?_⟩
      · simp only at hE ⊢
        rw [List.getElem?_set] at hE
        split_ifs at hE with h3
        · simp only [Option.some.injEq] at hE; subst hE; subst h3
          rw [take_succ_getElem? hget, List.take_set_of_le le_rfl, take_succ_getElem? hW]
          exact i2
        · rw [List.take_set_of_le (by omega)]
          exact hv0.left k (by omega) E hE
      · simp only at hE hkN ⊢
        rw [List.drop_set_of_lt (by omega)]
        exact hv0.right k hk hkN E hE
    have hf1 : ({ e with mps := { m0 with mat := C1, tensors := m0.tensors.set n A }, L := e.L.set (n + 1) L' } : Eng).Fit :=
      ⟨hl.fit.lb, hl.fit.rb, hl.fit.mlink, by
        rw [show MPS.ds { m0 with mat := C1, tensors := m0.tensors.set n A } = e.mps.ds from hds.trans M.ds]; exact hl.fit.ins, by
        rw [show MPS.ds { m0 with mat := C1, tensors := m0.tensors.set n A } = e.mps.ds from hds.trans M.ds]; exact hl.fit.outs⟩
    have hq1 : ({ e with mps := { m0 with mat := C1, tensors := m0.tensors.set n A }, L := e.L.set (n + 1) L' } : Eng).Admits dt Q :=
      hl.calls.same rfl rfl rfl (hds.trans M.ds) ((map_shape_set ht (a1.trans hXs)).trans sh0)
    obtain ⟨e', c', he'⟩ := evolveMat_ok lM (by simp only [List.length_set]; exact M.wf.len) hf1 hq1 (by
      rw [if_neg hne]; exact Or.inr (Or.inr rfl)) (a2.trans a3.symm) hA1 hA2 hv1 le_rfl le_rfl (by simp only [M.N]; omega) X1.norm
      (dt := if n = e.mps.N - 1 then dt else dt / 2)
    simp only [he']
    exact ⟨_, _, rfl⟩
  · rw [if_neg hlast]
    exact ⟨_, _, rfl⟩

/-- One iteration of the left-moving loop succeeds. -/
theorem tdvpL_ok (hO : O.Spec) (hT : evT.Shape) (hM : evM.Shape) (lT : evT.Live sv Q) (lM : evM.Live sv Q) {e : Eng} {n p a b : ℕ} {dt : ℂ}
    (hi : e.TI True p a b) (hl : e.TLive dt Q) (hp : p = n + 1 ∨ p = n + 2) (ha : n + 1 ≤ a) (hb : b ≤ n + 2) (hn : n + 1 < e.mps.N) :
    ∃ e' cs, e.tdvpL O evT evM sv dt n = .ok (e', cs) ∧ e'.TLive dt Q ∧ e'.mps.tensors.map Ten.shape = e.mps.tensors.map Ten.shape ∧
      ∀ c ∈ cs, c.Shaped (e.mps.tensors.map Ten.shape) := by
  suffices h : ∃ e' cs, e.tdvpL O evT evM sv dt n = .ok (e', cs) by
    obtain ⟨e', cs, h⟩ := h
    obtain ⟨-, h2, h3, -⟩ := tdvpL_spec hO hT hM hi hp ha hb hn h
    have h4 := tdvpL_shape hO hT hM hi hl hn h
    exact ⟨e', cs, h, hl.same h3 h2 h4.1, h4.1.1, h4.2⟩
  have hlen := hi.wf.len
  obtain ⟨m0, hm0⟩ := position_ok (b := n + 1) hO hi.wf hi.sth (ti_amp hi hl.norm hl.Z) (by omega)
  obtain ⟨-, -, M⟩ := position_moved hO (effSth_default hi.sth) hi.wf hm0
  obtain ⟨z, hz, hZ⟩ := position_Z hO (effSth_default hi.sth) hm0
  obtain ⟨sh0, sq0⟩ := position_shape hO hi.sth hm0 hl.adm hl.sq
  have hpos := hi.pos
  rw [show (((n + 1 : ℕ) : ℤ)).toNat = n + 1 by omega] at M
  have hnorm0 : normF m0.mat = 1 := by
    rcases hp with hp | hp
    · have : m0 = e.mps := position_stay (by rw [hpos, hp]) hm0
      rw [this]; exact hl.norm
    · exact M.norm (by omega)
  rw [show (((n + 1 : ℕ) : ℤ)) = (n : ℤ) + 1 by push_cast; rfl] at hm0
  have hN0 := M.N
  have hlen0 := M.wf.len
  have hv0 : ({ e with mps := m0 } : Eng).Val (n + 1) (n + 2) :=
    val_moved hi.val M ha hb (by omega) (by omega)
  have hf0 : ({ e with mps := m0 } : Eng).Fit := fit_moved hl.fit M.ds
  obtain ⟨R, hR⟩ := getElem?_of_lt (l := e.R) (n := m0.N - n - 2) (by rw [hi.val.lenR]; omega)
  obtain ⟨B, hB⟩ := getElem?_of_lt (l := m0.tensors) (n := n + 1) (by omega)
  obtain ⟨W, hW⟩ := getElem?_of_lt (l := e.mpo) (n := n + 1) (by rw [hi.val.lenW]; omega)
  have iR := hv0.right (n + 2) le_rfl (by simp only [M.N]; omega) R (by simp only; rw [← hR]; congr 1)
  obtain ⟨d1, d2⟩ := fit_site hl.fit M.ds hB hW
  have hr := M.wf.right
  rw [M.pos, drop_getElem? hB] at hr
  obtain ⟨u, u1, u2⟩ := mlinked_take hl.fit.mlink (n + 1)
  rw [drop_getElem? hW] at u2
  have hadd : ∃ R', addLayerL R B W B = .ok R' := by
    unfold addLayerL
    rw [if_pos ⟨linked_unique_l iR.u hr.2 rfl, mlinked_unique_l iR.m u2.2 rfl, d1, linked_unique_l iR.w hr.2 hl.fit.rb.symm, d2⟩]
    exact ⟨_, rfl⟩
  obtain ⟨R', hR'⟩ := hadd
  have hset : setE e.R (m0.N - n - 1) R' = .ok (e.R.set (m0.N - n - 1) R') := by
    unfold setE; rw [if_pos (by rw [hi.val.lenR]; omega)]
  have hB' : m0.getItem ((n : ℤ) + 1) = .ok B := by
    rw [show (n : ℤ) + 1 = ((n + 1 : ℕ) : ℤ) by push_cast; rfl]; exact getItem_ok hB
  have i2 := isR_cons iR hR'
  simp only at i2
  rw [← drop_getElem? hB, ← drop_getElem? hW] at i2
  have hv1 : ({ e with mps := m0, R := e.R.set (m0.N - n - 1) R' } : Eng).Val (n + 1) (n + 1) := by
    refine ⟨hv0.lenL, by simp only [List.length_set]; exact hv0.lenR, hv0.lenW, hv0.left, fun k hk hkN E hE => ?_⟩
    simp only at hE hkN ⊢
    rw [List.getElem?_set] at hE
    split_ifs at hE with h3
    · simp only [Option.some.injEq] at hE; subst hE
      obtain rfl : k = n + 1 := by omega
      exact i2
    · exact hv0.right k (by omega) hkN E hE
  have hf1 : ({ e with mps := m0, R := e.R.set (m0.N - n - 1) R' } : Eng).Fit := ⟨hf0.lb, hf0.rb, hf0.mlink, hf0.ins, hf0.outs⟩
  have hwl := M.wf.left
  have hwr := M.wf.right
  rw [M.pos] at hwl hwr
  obtain ⟨e1, c, hc⟩ := evolveMat_ok lM M.wf.len hf1 (hl.calls.same rfl rfl rfl M.ds sh0) (Or.inr (Or.inr rfl)) sq0
    hwl hwr hv1 le_rfl le_rfl (by simp only [M.N]; omega) hnorm0 (dt := dt / 2)
  obtain ⟨-, -, -, ⟨Y, rfl, r3⟩, r4, -⟩ := evolveMat_spec (evT := evT) (a := n + 1) (b := n + 1) hM
    M.wf.len hwl hwr hv1 le_rfl le_rfl (by simp only [M.N]; omega) M.pos hc
  simp only at r4
  have hv2 : ({ e with mps := { m0 with mat := Y }, R := e.R.set (m0.N - n - 1) R' } : Eng).Val (n + 1) (n + 1) :=
    ⟨hv1.lenL, hv1.lenR, hv1.lenW, hv1.left, hv1.right⟩
  have hf2 : ({ e with mps := { m0 with mat := Y }, R := e.R.set (m0.N - n - 1) R' } : Eng).Fit :=
    ⟨hf0.lb, hf0.rb, hf0.mlink, hf0.ins, hf0.outs⟩
  have ho0 := orth_moved (hpos ▸ hi.orth trivial) M
  have hi2 : ({ e with mps := { m0 with mat := Y }, R := e.R.set (m0.N - n - 1) R' } : Eng).TI True (n + 1) (n + 1) (n + 1) :=
    ⟨r4, M.pos, by simp only [M.sth]; exact hi.sth, hv2, fun _ => ⟨ho0.left, ho0.right⟩⟩
  have hz0 : m0.Z ≠ 0 := by simp only [hZ]; exact mul_ne_zero hl.Z (by exact_mod_cast hz.ne')
  obtain ⟨-, sqY, -⟩ := evolveMat_shape hM hc sq0
  obtain ⟨e2, X, c', L, W', R2, hev, hX, -⟩ := evolveTen_ok (clear := decide (sv ≠ .SEXPMV)) (dt := dt / 2) (n := n) hT lT r4 hf2
    (hl.calls.same rfl rfl rfl M.ds sh0) (Or.inr (Or.inl rfl)) sqY hv2
    (by omega) le_rfl (by simp only [M.N]; omega) (Or.inr M.pos) (ti_amp hi2 r3 hz0)
  obtain ⟨-, -, ⟨C1, rfl⟩, -⟩ :=
    evolveTen_spec (evM := evM) (a := n + 1) (b := n + 1) hT r4 hv2 (by omega) le_rfl (by simp only [M.N]; omega) hev
  obtain ⟨A, C, y, hpr⟩ := prepareTensorL_live hO hX
  unfold Eng.tdvpL
  simp only [hm0, getE_some hR, hB', getE_some hW, hR', hset, hc, hev, hpr]
  rw [setItem_live (m := { m0 with mat := C1 }) (by simp only; omega) A]
  exact ⟨_, _, rfl⟩

theorem tdvpRight_ok (hO : O.Spec) (hT : evT.Shape) (hM : evM.Shape) (lT : evT.Live sv Q) (lM : evM.Live sv Q) {dt : ℂ} :
    ∀ (k n : ℕ) (e : Eng) (acc : List TCall) (a b : ℕ), e.TI True n a b → e.TLive dt Q → n ≤ a → b ≤ n + 1 → n + k = e.mps.N →
    ∃ e' acc', Eng.tdvpRight O evT evM sv dt k n e acc = .ok (e', acc') ∧ e'.TLive dt Q ∧
      e'.mps.tensors.map Ten.shape = e.mps.tensors.map Ten.shape ∧ ∀ c ∈ acc', c ∈ acc ∨ c.Shaped (e.mps.tensors.map Ten.shape) := by
  intro k
  induction k with
  | zero => intro n e acc a b _ hl _ _ _; exact ⟨e, acc, rfl, hl, rfl, fun _ => Or.inl⟩
  | succ k ih =>
    intro n e acc a b hi hl ha hb hk
    obtain ⟨e1, cs, h1, hl1, hsh1, hcs1⟩ := tdvpR_ok (dt := dt) hO hT hM lT lM hi hl ha hb (by omega)
    obtain ⟨s1, -, s3, -⟩ := tdvpR_spec hO hT hM hi ha hb (by omega) h1
    rw [Eng.tdvpRight, h1]
    obtain ⟨e2, acc2, i1, i2, i3, i4⟩ := ih (n + 1) e1 (acc ++ cs) (n + 1) (n + 1) s1 hl1 le_rfl (by omega) (by rw [s3.same.N]; omega)
    refine ⟨e2, acc2, i1, i2, i3.trans hsh1, fun c hc => ?_⟩
    rcases i4 c hc with h | h
    · exact (List.mem_append.mp h).imp_right (hcs1 c)
    · rw [hsh1] at h; exact Or.inr h

theorem tdvpLeft_ok (hO : O.Spec) (hT : evT.Shape) (hM : evM.Shape) (lT : evT.Live sv Q) (lM : evM.Live sv Q) {dt : ℂ} :
    ∀ (n : ℕ) (e : Eng) (acc : List TCall) (p a b : ℕ), e.TI True p a b → e.TLive dt Q → (p = n ∨ p = n + 1) → n ≤ a → b ≤ n + 1 →
    n + 1 ≤ e.mps.N → ∃ e' acc', Eng.tdvpLeft O evT evM sv dt n e acc = .ok (e', acc') ∧ e'.TLive dt Q ∧
      e'.mps.tensors.map Ten.shape = e.mps.tensors.map Ten.shape ∧ ∀ c ∈ acc', c ∈ acc ∨ c.Shaped (e.mps.tensors.map Ten.shape) := by
  intro n
  induction n with
  | zero => intro e acc p a b _ hl _ _ _ _; exact ⟨e, acc, rfl, hl, rfl, fun _ => Or.inl⟩
  | succ n ih =>
    intro e acc p a b hi hl hp ha hb hN
    obtain ⟨e1, cs, h1, hl1, hsh1, hcs1⟩ := tdvpL_ok (dt := dt) hO hT hM lT lM hi hl hp ha hb (by omega)
    obtain ⟨s1, -, s3, -⟩ := tdvpL_spec hO hT hM hi hp ha hb (by omega) h1
    rw [Eng.tdvpLeft, h1]
    obtain ⟨e2, acc2, i1, i2, i3, i4⟩ := ih e1 (acc ++ cs) n n (n + 1) s1 hl1 (Or.inl rfl) le_rfl le_rfl (by rw [s3.same.N]; omega)
    refine ⟨e2, acc2, i1, i2, i3.trans hsh1, fun c hc => ?_⟩
    rcases i4 c hc with h | h
    · exact (List.mem_append.mp h).imp_right (hcs1 c)
    · rw [hsh1] at h; exact Or.inr h

/-- One step succeeds. -/
theorem tdvpSweeps_ok (hO : O.Spec) (hT : evT.Shape) (hM : evM.Shape) (lT : evT.Live sv Q) (lM : evM.Live sv Q) {dt : ℂ} {e : Eng}
    (hr : e.TReady True) (hl : e.TLive dt Q) (hN : 2 ≤ e.mps.N) :
    ∃ e' cs, tdvpSweeps O evT evM sv dt e = .ok (e', cs) ∧ e'.TReady True ∧ e'.TLive dt Q ∧ e.TSame e' ∧
      e'.mps.tensors.map Ten.shape = e.mps.tensors.map Ten.shape ∧ ∀ c ∈ cs, c.Shaped (e.mps.tensors.map Ten.shape) := by
  obtain ⟨a, b, hb, hi⟩ := hr
  obtain ⟨e1, c1, h1, hl1, sh1, k1⟩ := tdvpRight_ok (dt := dt) hO hT hM lT lM e.mps.N 0 e [] a b hi hl (by omega) (by omega) (by omega)
  have h1' := h1
  rw [show e.mps.N = e.mps.N - 1 + 1 by omega] at h1'
  obtain ⟨cs, r0, r1, r2, r3, -⟩ := tdvpRight_spec hO hT hM (e.mps.N - 1) 0 e e1 [] c1 a b hi (by omega) (by omega) (by omega) h1'
  have hN1 := r3.same.N
  obtain ⟨e2, c2, h2, hl2, sh2, k2⟩ := tdvpLeft_ok (dt := dt) hO hT hM lT lM (e1.mps.N - 1) e1 c1 _ _ _ r1 hl1 (by omega) (by omega) (by omega)
    (by omega)
  obtain ⟨⟨b', hb', t1⟩, t2, t3, -⟩ := tdvpSweep_spec hO hT hM hi hb hN h1 h2
  refine ⟨e2, c2, ?_, ⟨0, b', hb', t1⟩, hl2, t3, sh2.trans sh1, fun c hc => ?_⟩
  rotate_left
  · rcases k2 c hc with h | h
    · exact (k1 c h).resolve_left (by simp)
    · rwa [sh1] at h
  unfold tdvpSweeps
  rw [h1]; exact h2

/-- The loop succeeds. -/
theorem tdvpLoop_ok (hO : O.Spec) (hT : evT.Shape) (hM : evM.Shape) (lT : evT.Live sv Q) (lM : evM.Live sv Q) {dt : ℂ} {v : ℤ}
    {cp : Option ℤ} (hcp : cp ≠ some 0) {keep : Bool} : ∀ (k : ℕ) (cur : String) (w : World) (acc : List (List TCall)),
    w.evo.eng.TReady True → w.evo.eng.TLive dt Q → 2 ≤ w.evo.eng.mps.N →
    ∃ w' css, tdvpLoop O evT evM sv dt v cp keep k cur w acc = .ok (w', css) ∧ w'.evo.eng.TReady True ∧ w'.evo.eng.TLive dt Q ∧
      w'.evo.eng.mps.tensors.map Ten.shape = w.evo.eng.mps.tensors.map Ten.shape ∧
      ∀ cs ∈ css, cs ∈ acc ∨ ∀ c ∈ cs, c.Shaped (w.evo.eng.mps.tensors.map Ten.shape) := by
  intro k
  induction k with
  | zero => intro cur w acc h1 h2 _; exact ⟨w, acc, rfl, h1, h2, rfl, fun _ => Or.inl⟩
  | succ k ih =>
    intro cur w acc hr hl hN
    obtain ⟨e', cs, h1, h2, h3, h4, h5, h6⟩ := tdvpSweeps_ok (dt := dt) hO hT hM lT lM hr hl hN
    have hst : ∃ cur' w' c, tdvpStep O evT evM sv dt v cp keep cur w = .ok (cur', w', c) := by
      unfold tdvpSweeps at h1
      split at h1
      · cases h1
      rename_i e1 c1 g1
      unfold tdvpStep
      simp only [g1, h1]
      obtain ⟨b, hb⟩ := cpDue_isOk hcp (Evo.tick v dt { w.evo with eng := e' }).it
      rw [hb]
      cases b
      · exact ⟨_, _, _, rfl⟩
      · exact ⟨_, _, _, rfl⟩
    obtain ⟨cur', w', c, hw⟩ := hst
    obtain ⟨g1, -⟩ := tdvpStep_spec hw
    rw [h1] at g1
    simp only [Except.ok.injEq, Prod.mk.injEq] at g1
    rw [tdvpLoop, hw]
    obtain ⟨w2, css, i1, i2, i3, i4, i5⟩ := ih cur' w' _ (g1.1 ▸ h2) (g1.1 ▸ h3) (by rw [← g1.1, h4.same.N]; exact hN)
    have h5' : w'.evo.eng.mps.tensors.map Ten.shape = w.evo.eng.mps.tensors.map Ten.shape := by rw [← g1.1]; exact h5
    refine ⟨w2, css, i1, i2, i3, i4.trans h5', fun x hx => ?_⟩
    rcases i5 x hx with h | h
    · rcases List.mem_append.mp h with h | h
      · exact Or.inl h
      · obtain rfl := List.mem_singleton.mp h
        rw [← g1.2]; exact Or.inr h6
    · rw [h5'] at h; exact Or.inr h

end

end PyTeN
