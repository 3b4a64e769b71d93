import Verif.Engine.IdmrgSim
import Verif.Engine.Grow
import Verif.Props.Idmrg
import Verif.Props.DmrgEnergy
import Verif.Props.TwoSite

/-! # The state of an `IDMRGengine` between two passes -/

namespace PyTeN.Idmrg
open Finset

noncomputable section

variable {O : LinAlg} {pinv : Mat ℂ → Mat ℂ}

/-- Spec: an engine at the start of a pass, with a cell of `2h` sites: what the constructor of `DMRGengine` makes of its own state,
boundaries and MPO, in canonical form with the centre matrix at the left end, all shapes matching. -/
structure Cell (O : LinAlg) (h : ℕ) (e : Eng) : Prop where
  fresh : Eng.init O e.mps e.mpo (some e.lb) (some e.rb) = .ok e
  wf : e.mps.WF e.lb.u e.rb.u
  sq : e.mps.mat.r = e.mps.mat.c
  fit : e.Fit
  pos : e.mps.pos = 0
  N : e.mps.N = 2 * h
  two : 1 ≤ h
  sth : e.mps.sth < 1e-15
  canon : e.mps.Canonical
  Z : e.mps.Z ≠ 0

theorem fits_din {As : List (Ten ℂ)} {Ws : List (Mpo ℂ)} {Bs : List (Ten ℂ)} (h : Fits As Ws Bs) :
    Ws.map Mpo.din = As.map Ten.d ∧ Ws.map Mpo.dout = Bs.map Ten.d := by
  induction As generalizing Ws Bs with
  | nil =>
    cases Ws with
    | nil => cases Bs with
      | nil => exact ⟨rfl, rfl⟩
      | cons _ _ => exact h.elim
    | cons _ _ => cases Bs <;> exact h.elim
  | cons A As ih =>
    cases Ws with
    | nil => cases Bs <;> exact h.elim
    | cons W Ws =>
      cases Bs with
      | nil => exact h.elim
      | cons B Bs =>
        obtain ⟨h1, h2, h3⟩ := h
        obtain ⟨i1, i2⟩ := ih h3
        simp [h1, h2, i1, i2]

theorem getLast_r {l r : ℕ} {ts : List (Ten ℂ)} {t : Ten ℂ} (h : Linked l ts r) (ht : ts.getLast? = some t) : t.r = r := by
  obtain ⟨ys, hys⟩ := List.getLast?_eq_some_iff.mp ht
  rw [hys, linked_append] at h
  obtain ⟨q, -, -, q3⟩ := h
  exact q3

theorem mgetLast_r {l r : ℕ} {ts : List (Mpo ℂ)} {t : Mpo ℂ} (h : MLinked l ts r) (ht : ts.getLast? = some t) : t.r = r := by
  obtain ⟨ys, hys⟩ := List.getLast?_eq_some_iff.mp ht
  rw [hys, mlinked_append] at h
  obtain ⟨q, -, -, q3⟩ := h
  exact q3

/-- The constructor reproduces an engine with up-to-date environments. -/
theorem fresh_of_get {m : MPS} {mpo : List (Mpo ℂ)} {lb rb : Env ℂ} {L R : List (Env ℂ)} (hp : m.pos = 0)
    (hlen : m.tensors.length = m.N) (hN : 0 < m.N) (hW : mpo.length = m.N) (hl : Linked lb.u m.tensors rb.u) (hm : MLinked lb.m mpo rb.m)
    (hL : getL m.tensors mpo lb = .ok L) (hR : getR m.tensors mpo rb = .ok R) :
    Eng.init O m mpo (some lb) (some rb) = .ok ⟨m, mpo, lb, rb, lb :: L, rb :: R⟩ := by
  have h0 : 0 < m.tensors.length := by omega
  obtain ⟨a, ha⟩ : ∃ a, m.tensors[0]? = some a := ⟨_, List.getElem?_eq_getElem h0⟩
  obtain ⟨z, hz⟩ : ∃ z, m.tensors[m.tensors.length - 1]? = some z := ⟨_, List.getElem?_eq_getElem (by omega)⟩
  have ga : m.getItem 0 = .ok a := by
    unfold MPS.getItem getZ pyIdx
    rw [if_pos ⟨by simpa using h0, by simp⟩]
    have : m.tensors[0] = a := by simpa [List.getElem?_eq_getElem h0] using ha
    simp [h0, getT, this]
  have gz : m.getItem (-1) = .ok z := by
    unfold MPS.getItem getZ pyIdx
    rw [if_pos ⟨by omega, by simp; omega⟩]
    rw [if_neg (by omega), if_pos (by omega)]
    simp only
    rw [show ((m.tensors.length : ℤ) + -1).toNat = m.tensors.length - 1 by omega]
    simp [getT, hz]
  obtain ⟨w, hw⟩ : ∃ w, mpo.head? = some w := by
    cases mpo with
    | nil => simp at hW; omega
    | cons w _ => exact ⟨w, rfl⟩
  obtain ⟨v, hv⟩ : ∃ v, mpo.getLast? = some v := by
    rw [List.getLast?_eq_getElem?]
    exact ⟨_, List.getElem?_eq_getElem (by omega)⟩
  have e1 : a.l = lb.u := by
    rw [show m.tensors = m.tensors.drop 0 from rfl, drop_getElem? ha] at hl
    exact hl.1
  have e2 : z.r = rb.u := getLast_r hl (by rw [List.getLast?_eq_getElem?]; exact hz)
  have e3 : w.l = lb.m := by
    cases mpo with
    | nil => cases hw
    | cons x _ => cases hw; exact hm.1
  have e4 : v.r = rb.m := mgetLast_r hm hv
  have p0 : m.position O 0 = .ok m := by
    unfold MPS.position
    rw [if_neg (by simp), if_neg (by simp)]
    simp [hp]
  unfold Eng.init
  rw [ga, gz, hw, hv]
  simp only [e1, e2, e3, e4, and_self, if_true, p0, hL, hR]

/-- **One growth step.**  After an update the engine is ready for the next pass, whatever the inner simulation left, as long as that
is a well-formed state with the boundaries and the MPO it started with. -/
theorem cell_step (hO : O.Spec) (hp : ∀ A, PinvSpec A (pinv A)) {e e' : Eng} {D h : ℕ} (hs : e.mps.sth < 1e-15)
    (hw : e.mps.WF e.lb.u e.rb.u) (hN : e.mps.N = 2 * h) (h1 : 1 ≤ h) (hW : e.mpo.length = e.mps.N) (hlb : e.lb.u = e.lb.w)
    (hrb : e.rb.u = e.rb.w) (hml : MLinked e.lb.m e.mpo e.rb.m) (hZ : e.mps.Z ≠ 0) (hu : update O pinv e = .ok (e', D)) :
    Cell O h e' ∧ e'.mpo = e.mpo.rotate h ∧ e'.mps.ds = e.mps.ds.rotate h ∧
      ∃ A B : List (Ten ℂ), A.length = h ∧ B.length = h ∧ A.map Ten.d = e.mps.ds.take h ∧ B.map Ten.d = e.mps.ds.drop h ∧
        (∀ t ∈ B, RightOrth t) ∧
        ((∀ x t, e.mps.tensors[x]? = some t → x < e.mps.pos → x < h → LeftOrth t) → ∀ t ∈ A, LeftOrth t) ∧
        IsL e.lb A (e.mpo.take h) A e'.lb ∧ IsR e.rb B (e.mpo.drop h) B e'.rb := by
  obtain ⟨m1, m2, m3, m4, mat, st⟩ := update_steps hw.len hu
  have hs0 := effSth_default hs
  obtain ⟨q1, q2, q3, hA, hB⟩ := steps_even hO hs0 hw hN st.p1 st.p2 st.p3
  have hh : e.mps.N / 2 = h := by omega
  have n1 := q1.wf.len
  have n2 := q2.wf.len
  have n3 := q3.wf.len
  rw [q1.N, hN] at n1
  rw [q2.N, q1.N, hN] at n2
  rw [q3.N, q2.N, q1.N, hN] at n3
  have c3 : m3.conn = e.mps.conn := by rw [q3.conn, q2.conn, q1.conn]
  have hcr : e.mps.conn.r = e.rb.u := by
    have w := q1.wf.right
    rw [q1.pos, List.drop_eq_nil_of_le (by omega)] at w
    rw [← c3, ← st.d1]; exact w
  have hcl : e.mps.conn.c = e.lb.u := by
    have w := q3.wf.left
    rw [q3.pos, List.take_zero] at w
    rw [← c3, st.d2]; exact w.symm
  obtain ⟨gwf, hgds, -⟩ := glue_spec hO hp hs0 hw hcr hcl hN st.p1 st.p2 st.p3
  have p4 := st.p4
  rw [hh, hN, show 2 * h - h = h by omega, List.take_of_length_le (show (m1.tensors.drop h).length ≤ h by simp; omega),
    List.take_of_length_le (show (m1.tensors.drop h ++ m3.tensors.take h).length ≤ 2 * h by simp; omega), st.hmat] at p4
  have sg : (glued pinv h m1 m2 m3).effSth 1e-16 < 1e-15 := by
    simpa [MPS.effSth, glued, q3.sth, q2.sth, q1.sth] using hs0
  obtain ⟨-, -, q4⟩ := position_moved hO sg gwf p4
  simp only [Int.toNat_natCast] at q4
  have N4 : m4.N = 2 * h := by rw [q4.N]; simp [glued, q3.N, q2.N, q1.N, hN]
  obtain ⟨x1, x2, x3, x4, x5, X⟩ := C58_exchange hO hp hs0 hw hcr hcl hN hW hu
  obtain ⟨A, B, c, Z, a1, a2, a3, a4, a5, a6, -, a8, a9, a10, ⟨L, a11, a12⟩, ⟨R, a13, a14⟩⟩ :=
    C58_boundaries hO hs0 hw hN hW hu
  have lW : e'.mpo.length = 2 * h := by rw [x5, List.length_rotate, hW, hN]
  have len4 : e'.mps.tensors.length = 2 * h := by rw [st.mps, q4.wf.len, N4]
  -- shapes of the new boundaries
  have ulb : e'.lb.u = e'.lb.w := linked_rdim_unique a8.u (hlb ▸ a8.w)
  have urb : e'.rb.u = e'.rb.w := linked_unique_l a9.u a9.w hrb
  have hlb2 : e'.lb.u = m2.mat.r := by
    have w := q2.wf.left
    have l2 := st.lb.u
    rw [hh, hA] at l2
    rw [q2.pos] at w
    exact linked_rdim_unique l2 w
  have hrb2 : e'.rb.u = m2.mat.c := by
    have w := q2.wf.right
    have l2 := st.rb.u
    rw [hh, hN, show 2 * h - h = h by omega, List.take_of_length_le (show (m2.tensors.drop h).length ≤ h by simp; omega)] at l2
    rw [q2.pos] at w
    exact linked_unique_l l2 w rfl
  have wf4 : e'.mps.WF e'.lb.u e'.rb.u := by rw [st.mps, hlb2, hrb2]; exact q4.wf
  -- the environments exist, so the tensors fit
  obtain ⟨l1, l2⟩ := getL_isL a11
  obtain ⟨E, hE⟩ : ∃ E, (e'.lb :: L)[2 * h]? = some E := ⟨_, List.getElem?_eq_getElem (by simp; omega)⟩
  have isl := l2 _ _ hE
  rw [List.take_of_length_le (by omega), List.take_of_length_le (by omega)] at isl
  have sq : e'.mps.mat.r = e'.mps.mat.c := by
    have w1 := wf4.left
    have w2 := wf4.right
    rw [x2, List.take_zero] at w1
    rw [x2, List.drop_zero] at w2
    have w3 := isl.u
    cases hts : e'.mps.tensors with
    | nil => rw [hts] at len4; simp at len4; omega
    | cons t ts =>
      rw [hts] at w2 w3
      exact w1.symm.trans (w3.1.symm.trans w2.1)
  have hfit := fits_din isl.fits
  have hPQ : e'.mpo = e.mpo.drop h ++ e.mpo.take h := by rw [x5, List.rotate_eq_drop_append_take (by omega)]
  have ml : MLinked e'.lb.m e'.mpo e'.rb.m := by
    have k1 := isl.m
    rw [hPQ, mlinked_append] at k1 ⊢
    obtain ⟨y, k1, k2⟩ := k1
    rw [← List.take_append_drop h e.mpo, mlinked_append] at hml
    obtain ⟨x, m1, m2⟩ := hml
    have ex : x = e'.lb.m := mlinked_rdim m1 a8.m
    subst ex
    have ey : y = e.rb.m := mlinked_rdim k1 m2
    subst ey
    refine ⟨_, m2, ?_⟩
    have hQ : e'.rb.m = e'.lb.m := by
      have m3 := a9.m
      cases hd : e.mpo.drop h with
      | nil => have := congrArg List.length hd; simp at this; omega
      | cons w ws => rw [hd] at m3 m2; exact m3.1.symm.trans m2.1
    rw [hQ]
    have hl : e.lb.m = e.rb.m := by
      cases hd : e.mpo.take h with
      | nil => have := congrArg List.length hd; rw [List.length_take, List.length_nil] at this; omega
      | cons w ws => rw [hd] at m1 k2; exact m1.1.symm.trans k2.1
    rw [← hl]; exact m1
  have dsA : A.map Ten.d = e.mps.ds.take h ∧ B.map Ten.d = e.mps.ds.drop h := by
    have hd : e.mpo.map Mpo.din = e.mps.ds := by
      have := hfit.1
      rw [x5, List.map_rotate, show e'.mps.tensors.map Ten.d = e.mps.ds.rotate h from x4] at this
      exact List.rotate_injective h this
    rw [← hd, ← List.map_take, ← List.map_drop]
    exact ⟨(fits_din a8.fits).1.symm, (fits_din a9.fits).1.symm⟩
  have hcan : e'.mps.Canonical := by
    rw [st.mps]
    refine ⟨fun x t _ hx => by rw [q4.pos] at hx; omega, fun x t hx _ => ?_, q4.norm (by simp only [glued]; omega)⟩
    by_cases hxh : x < h
    · exact q4.right x t hx (by omega) hxh
    · rw [q4.same x (Or.inr ⟨by simp only [glued]; omega, by omega⟩)] at hx
      have ld : (m1.tensors.drop h).length = h := by simp; omega
      simp only [glued] at hx
      rw [List.getElem?_append_right (by omega), ld, List.getElem?_take] at hx
      split_ifs at hx with hx2
      exact q3.right _ t hx (by omega) (by rw [q2.pos]; exact hx2)
  have hZ4 : e'.mps.Z ≠ 0 := by
    have s1 : m1.effSth 1e-16 < 1e-15 := by simpa [MPS.effSth, q1.sth] using hs0
    have s2 : m2.effSth 1e-16 < 1e-15 := by simpa [MPS.effSth, q2.sth] using s1
    obtain ⟨z1, y1, hz1⟩ := position_Z hO hs0 st.p1
    obtain ⟨z2, y2, hz2⟩ := position_Z hO s1 st.p2
    obtain ⟨z3, y3, hz3⟩ := position_Z hO s2 st.p3
    obtain ⟨z4, y4, hz4⟩ := position_Z hO sg p4
    rw [st.mps, hz4, show (glued pinv h m1 m2 m3).Z = m3.Z from rfl, hz3, hz2, hz1]
    refine mul_ne_zero (mul_ne_zero (mul_ne_zero (mul_ne_zero hZ ?_) ?_) ?_) ?_ <;> exact_mod_cast ne_of_gt (by assumption)
  have hsth : e'.mps.sth < 1e-15 := by rw [st.mps, q4.sth]; simpa [glued, q3.sth, q2.sth, q1.sth] using hs
  have hN' : e'.mps.N = 2 * h := by rw [st.mps, N4]
  refine ⟨⟨?_, wf4, sq, ⟨ulb, urb, ml, hfit.1, hfit.2⟩, x2, hN', h1, hsth, hcan, hZ4⟩, x5, x4, A, B, a1, a2, dsA.1, dsA.2, a5, a6, a8, a9⟩
  have := fresh_of_get (O := O) x2 (by omega) (by omega) (by omega) (wf_link wf4 sq) ml a11 a13
  rw [this, ← a12, ← a14]

/-! ## Inner simulations -/

/-- What an inner simulation leaves: the same boundaries and MPO, a state on the same chain and a normalisation factor `1`; under
`flag` the tensors of the first half that are left of the centre matrix are left-orthonormal. -/
structure Ends (flag : Prop) (h : ℕ) (e e1 : Eng) : Prop where
  same : e.Same e1
  mps : e1.mps.WF e.lb.u e.rb.u ∨ (e1.mps.Loose e.lb.u e.rb.u ∧ e1.mps.pos = 2)
  Z : e1.mps.Z = 1
  orth : flag → ∀ x t, e1.mps.tensors[x]? = some t → x < e1.mps.pos → x < h → LeftOrth t

variable {solve : Solve} {sv : Solver} {trunc : ℝ}

theorem Cell.start2 (hO : O.Spec) {h : ℕ} {e : Eng} (c : Cell O h e) : e.Start2 := by
  have hW : e.mpo.length = e.mps.N := by
    have := congrArg List.length c.fit.ins
    rwa [List.length_map, MPS.ds, List.length_map, c.wf.len] at this
  exact C83_fresh hO c.fresh hW c.wf c.sq c.sth

theorem Cell.lenW {h : ℕ} {e : Eng} (c : Cell O h e) : e.mpo.length = e.mps.N := by
  have := congrArg List.length c.fit.ins
  rwa [List.length_map, MPS.ds, List.length_map, c.wf.len] at this

theorem ends_two (hO : O.Spec) {h : ℕ} {e : Eng} (c : Cell O h e) {Nmax : ℤ} {Econv : ℝ} {cp : Option ℤ} {res : SimRes2}
    (hr : e.simulateTwoSite O solve sv Nmax Econv cp trunc = .ok res) : Ends True h e res.eng := by
  obtain ⟨-, e0, fin, S, hp0, st0, I, hfin, -, -⟩ := C83_two_site hO (c.start2 hO) c.sth (by have := c.two; rw [c.N]; omega) hr
  have S' := S.toSame.trans I.same.toSame
  have hw := I.wf
  rw [S.lb, S.rb] at hw
  rw [hfin]
  exact ⟨⟨S'.mpo, S'.lb, S'.rb, S'.N, S'.sth⟩, Or.inl ⟨hw.len, hw.pos_le, hw.left, hw.right⟩, rfl,
    fun _ x t _ hx => by simp only [I.pos] at hx; omega⟩

theorem ends_one (hO : O.Spec) (hsv : solve.Shape) {h : ℕ} {e : Eng} (c : Cell O h e) {Nmax : ℤ} {Econv : ℝ} {cp : Option ℤ}
    {res : SimRes} (hr : e.simulate O solve sv Nmax Econv cp = .ok res) : Ends (h = 1) h e res.eng := by
  obtain ⟨i0, M, i1, -, -, V, -⟩ := init_spec hO c.fresh c.lenW c.wf c.sq c.sth
  unfold Eng.simulate at hr
  split_ifs at hr with hso
  have hr' : e.Ready True 0 0 :=
    ⟨0, 0, Or.inl c.wf, V.mono (by omega) le_rfl, fun h => by omega, fun h => by rw [c.pos] at h; omega,
      fun _ => by omega, fun _ => ⟨fun x t _ h => by omega, fun x t hx _ => c.canon.right x t hx (by rw [c.pos]; omega)⟩⟩
  obtain ⟨new', saved, g1, g2, S, hZ, P⟩ := simLoop_spec (flag := True) hO hsv _ _ _ _ _ _ _ hr (by omega) c.fit.lb c.fit.rb c.sth hr'
    (by have := c.two; rw [c.N]; omega)
  have hl := P.loose
  rw [S.same.lb, S.same.rb] at hl
  exact ⟨S.same, Or.inr ⟨hl, P.pos⟩, hZ, fun h1 x t ht _ hx => (P.orth trivial).left x t ht (by omega)⟩

/-- An update needs a well-formed state, so there was one. -/
theorem ends_wf {flag : Prop} {h D : ℕ} {e e1 e' : Eng} (c : Cell O h e) (E : Ends flag h e e1)
    (hu : update O pinv e1 = .ok (e', D)) : e1.mps.WF e.lb.u e.rb.u := by
  rcases E.mps with hw | ⟨hl, hp⟩
  · exact hw
  have h2 := c.two
  have hN : e1.mps.N = 2 * h := by rw [E.same.N, c.N]
  obtain ⟨m1, m2, m3, m4, mat, st⟩ := update_steps hl.len hu
  by_cases h1 : h = 1
  · have : m1 = e1.mps := by
      have := st.p1
      exact position_same this (by rw [hN, hp, h1]; rfl)
    have p2 := st.p2
    rw [this] at p2
    exact loose_wf hl p2 (by rw [hN, hp]; omega)
  · exact loose_wf hl st.p1 (by rw [hN, hp]; omega)

/-- A pass without regauging: from cell to cell. -/
theorem pass_step (hO : O.Spec) (hp : ∀ A, PinvSpec A (pinv A)) {flag : Prop} {h D : ℕ} {e e1 e' : Eng} (c : Cell O h e)
    (E : Ends flag h e e1) (hu : update O pinv e1 = .ok (e', D)) :
    Cell O h e' ∧ e'.mpo = e.mpo.rotate h ∧ e'.mps.ds = e.mps.ds.rotate h ∧
      ∃ A B : List (Ten ℂ), A.length = h ∧ B.length = h ∧ A.map Ten.d = e.mps.ds.take h ∧ B.map Ten.d = e.mps.ds.drop h ∧
        (∀ t ∈ B, RightOrth t) ∧ (flag → ∀ t ∈ A, LeftOrth t) ∧
        IsL e.lb A (e.mpo.take h) A e'.lb ∧ IsR e.rb B (e.mpo.drop h) B e'.rb := by
  have hw := ends_wf c E hu
  have S := E.same
  obtain ⟨c', x1, x2, A, B, a1, a2, a3, a4, a5, a6, a7, a8⟩ := cell_step hO hp (e := e1) (h := h) (by rw [S.sth]; exact c.sth)
    (by rw [S.lb, S.rb]; exact hw) (by rw [S.N]; exact c.N) c.two (by rw [S.mpo, S.N]; exact c.lenW) (by rw [S.lb]; exact c.fit.lb)
    (by rw [S.rb]; exact c.fit.rb) (by rw [S.lb, S.rb, S.mpo]; exact c.fit.mlink) (by rw [E.Z]; exact one_ne_zero) hu
  have hds : e1.mps.ds = e.mps.ds := by
    have h1 := c'.fit.ins
    rw [x1, x2, S.mpo, List.map_rotate, c.fit.ins] at h1
    exact (List.rotate_injective h h1).symm
  rw [S.mpo] at x1 a7 a8
  rw [S.lb] at a7
  rw [S.rb] at a8
  rw [hds] at x2 a3 a4
  exact ⟨c', x1, x2, A, B, a1, a2, a3, a4, a5, fun hf => a6 (E.orth hf), a7, a8⟩

/-! ## Growth -/

/-- `n` half cells, alternately `P` and `Q`. -/
def alt {α : Type*} (P Q : List α) : ℕ → List α
  | 0 => []
  | n + 1 => P ++ alt Q P n

theorem alt_two {α : Type*} (P Q : List α) (n : ℕ) : alt P Q (2 * n) = (List.replicate n (P ++ Q)).flatten := by
  induction n with
  | zero => rfl
  | succ n ih =>
    rw [show 2 * (n + 1) = 2 * n + 1 + 1 by ring]
    simp only [alt]
    rw [ih, List.replicate_succ, List.flatten_cons, List.append_assoc]

theorem alt_add {α : Type*} (P Q : List α) (k j : ℕ) :
    alt P Q (k + j) = alt P Q k ++ if k % 2 = 0 then alt P Q j else alt Q P j := by
  induction k generalizing P Q with
  | zero => simp [alt]
  | succ k ih =>
    rw [show k + 1 + j = k + j + 1 by ring]
    simp only [alt]
    rw [ih, List.append_assoc]
    congr 2
    by_cases h : k % 2 = 0
    · rw [if_pos h, if_neg (by omega)]
    · rw [if_neg h, if_pos (by omega)]

theorem alt_snoc {α : Type*} (P Q : List α) (k : ℕ) : alt P Q (k + 1) = alt P Q k ++ if k % 2 = 0 then P else Q := by
  rw [alt_add]
  congr 1
  split_ifs <;> simp [alt]

theorem alt_map {α β : Type*} (f : α → β) (P Q : List α) (k : ℕ) : (alt P Q k).map f = alt (P.map f) (Q.map f) k := by
  induction k generalizing P Q with
  | zero => rfl
  | succ k ih => simp [alt, ih]

/-- The boundaries of `e` are those of `e0`, grown by `k` half cells on either side. -/
structure Grown (flag : Prop) (h : ℕ) (e0 : Eng) (k : ℕ) (e : Eng) (A B : List (Ten ℂ)) : Prop where
  lenA : A.length = k * h
  lenB : B.length = k * h
  right : ∀ t ∈ B, RightOrth t
  left : flag → ∀ t ∈ A, LeftOrth t
  lb : IsL e0.lb A (alt (e0.mpo.take h) (e0.mpo.drop h) k) A e.lb
  rb : IsR e0.rb B (if k % 2 = 0 then alt (e0.mpo.take h) (e0.mpo.drop h) k else alt (e0.mpo.drop h) (e0.mpo.take h) k) B e.rb
  mpo : e.mpo = if k % 2 = 0 then e0.mpo.take h ++ e0.mpo.drop h else e0.mpo.drop h ++ e0.mpo.take h

theorem Grown.zero (flag : Prop) (h : ℕ) (e0 : Eng) : Grown flag h e0 0 e0 [] [] :=
  ⟨by simp, by simp, by simp, by simp, isL_nil _, isR_nil _, by simp⟩

theorem Grown.succ {flag : Prop} {h k : ℕ} {e0 e e' : Eng} {A B A' B' : List (Ten ℂ)} (g : Grown flag h e0 k e A B)
    (c0 : e0.mpo.length = 2 * h) (hm : e'.mpo = e.mpo.rotate h)
    (a1 : A'.length = h) (a2 : B'.length = h) (a5 : ∀ t ∈ B', RightOrth t) (a6 : flag → ∀ t ∈ A', LeftOrth t)
    (a7 : IsL e.lb A' (e.mpo.take h) A' e'.lb) (a8 : IsR e.rb B' (e.mpo.drop h) B' e'.rb) :
    Grown flag h e0 (k + 1) e' (A ++ A') (B' ++ B) := by
  set P := e0.mpo.take h with hP
  set Q := e0.mpo.drop h with hQ
  have lP : P.length = h := by rw [hP, List.length_take]; omega
  have lQ : Q.length = h := by rw [hQ, List.length_drop]; omega
  have t1 : (P ++ Q).take h = P := List.take_left' lP
  have t2 : (P ++ Q).drop h = Q := List.drop_left' lP
  have t3 : (Q ++ P).take h = Q := List.take_left' lQ
  have t4 : (Q ++ P).drop h = P := List.drop_left' lQ
  have r1 : (P ++ Q).rotate h = Q ++ P := by
    rw [List.rotate_eq_drop_append_take (by simp; omega), t1, t2]
  have r2 : (Q ++ P).rotate h = P ++ Q := by
    rw [List.rotate_eq_drop_append_take (by simp; omega), t3, t4]
  refine ⟨by simp [g.lenA, a1]; ring, by simp [g.lenB, a2]; ring, ?_, ?_, ?_, ?_, ?_⟩
  · intro t ht
    rcases List.mem_append.mp ht with ht | ht
    · exact a5 t ht
    · exact g.right t ht
  · intro hf t ht
    rcases List.mem_append.mp ht with ht | ht
    · exact g.left hf t ht
    · exact a6 hf t ht
  · rw [alt_snoc]
    refine isL_append g.lb ?_
    have := a7
    rw [g.mpo] at this
    by_cases hk : k % 2 = 0
    · rw [if_pos hk] at this ⊢; rwa [t1] at this
    · rw [if_neg hk] at this ⊢; rwa [t3] at this
  · have := isR_append g.rb a8
    rw [g.mpo] at this
    by_cases hk : k % 2 = 0
    · rw [if_pos hk, if_pos hk, t2] at this
      rw [if_neg (by omega)]; exact this
    · rw [if_neg hk, if_neg hk, t4] at this
      rw [if_pos (by omega)]; exact this
  · rw [hm, g.mpo]
    by_cases hk : k % 2 = 0
    · rw [if_pos hk, if_neg (by omega), r1]
    · rw [if_neg hk, if_pos (by omega), r2]

/-- The MPO of the grown chain: `k+1` cells. -/
theorem Grown.row {flag : Prop} {h k : ℕ} {e0 e : Eng} {A B : List (Ten ℂ)} (g : Grown flag h e0 k e A B) :
    ∃ WA WB, IsL e0.lb A WA A e.lb ∧ IsR e0.rb B WB B e.rb ∧ (List.replicate (k + 1) e0.mpo).flatten = WA ++ (e.mpo ++ WB) := by
  refine ⟨_, _, g.lb, g.rb, ?_⟩
  conv_lhs => rw [← List.take_append_drop h e0.mpo]
  rw [← alt_two, show 2 * (k + 1) = k + (2 + k) by ring, alt_add, g.mpo]
  congr 1
  by_cases hk : k % 2 = 0
  · rw [if_pos hk, if_pos hk, if_pos hk, alt_add, if_pos (by norm_num)]
    simp [alt]
  · rw [if_neg hk, if_neg hk, if_neg hk, alt_add, if_pos (by norm_num)]
    simp [alt]

end

end PyTeN.Idmrg
