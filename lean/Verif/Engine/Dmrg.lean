import Verif.Engine.Valid

/-! # Single-site DMRG: the arguments of every eigensolver call -/

namespace PyTeN
open Finset

noncomputable section

/-- Spec: tensors before `a` are left orthonormal, tensors from `b` on right orthonormal. -/
structure Eng.Orth (e : Eng) (a b : ℕ) : Prop where
  left : ∀ x t, e.mps.tensors[x]? = some t → x < a → LeftOrth t
  right : ∀ x t, e.mps.tensors[x]? = some t → b ≤ x → RightOrth t

/-- Spec: the arguments of an eigensolver call belong to the MPS object at that time: `L` and `R` are the full
contractions of the sites left and right of `n` with the MPO and the boundaries, and replacing tensor `n` by the
tensor `T` passed to the solver (and dropping the centre matrix) gives the represented state. -/
structure CallOK (lb rb : Env ℂ) (mpo : List (Mpo ℂ)) (c : Call) : Prop where
  wf : c.mps.WF lb.u rb.u
  lt : c.n < c.mps.N
  pos : c.mps.pos = c.n ∨ c.mps.pos = c.n + 1
  op : mpo[c.n]? = some c.W
  left : IsL lb (c.mps.tensors.take c.n) (mpo.take c.n) (c.mps.tensors.take c.n) c.L
  right : IsR rb (c.mps.tensors.drop (c.n + 1)) (mpo.drop (c.n + 1)) (c.mps.tensors.drop (c.n + 1)) c.R
  link : Linked lb.u (c.mps.tensors.set c.n c.T) rb.u
  centre : ∀ s, s.length = c.mps.N → ∀ i < lb.u, ∀ j, c.mps.amp s i j
    = c.mps.Z * chain (c.mps.tensors.set c.n c.T) s i j

/-- Spec: the tensors left and right of the site are orthonormal. -/
structure CallOrth (c : Call) : Prop where
  left : ∀ x t, c.mps.tensors[x]? = some t → x < c.n → LeftOrth t
  right : ∀ x t, c.mps.tensors[x]? = some t → c.n < x → RightOrth t

theorem eng_mps_position {O : LinAlg} {e e' : Eng} {n : ℤ} (h : e.position O n = .ok e') :
    e.mps.position O n = .ok e'.mps := by
  unfold Eng.position at h
  split_ifs at h with h1 h2 h3
  all_goals
    split at h
    · cases h
    rename_i m hm
    split at h
    · cases h
    simp only [Except.ok.injEq] at h
    subst h
    exact hm

theorem set_take_drop {α : Type*} {l : List α} {n : ℕ} (h : n < l.length) (x : α) :
    l.set n x = l.take n ++ x :: l.drop (n + 1) := List.set_eq_take_append_cons_drop .. |>.trans (if_pos h)

theorem getT_ok {ts : List (Ten ℂ)} {n : ℕ} {t : Ten ℂ} (h : getT ts n = .ok t) : ts[n]? = some t := by
  unfold getT at h; split at h
  · rename_i y hy; simp only [Except.ok.injEq] at h; rw [hy, h]
  · cases h

theorem getZ_natE {ts : List (Ten ℂ)} {n : ℕ} {t : Ten ℂ} (h : getZ ts n = .ok t) : ts[n]? = some t := by
  unfold getZ pyIdx at h
  rw [if_pos (by omega)] at h
  by_cases h1 : (n : ℤ) < ts.length
  · rw [if_pos h1] at h
    simp only [Int.toNat_natCast] at h
    exact getT_ok h
  · rw [if_neg h1] at h
    cases h

/-- `tensor(n,clear=True)` on a well-formed object. -/
theorem tensor_clear {m m' : MPS} {l r n : ℕ} {T : Ten ℂ} (hw : m.WF l r)
    (h : m.tensor n true = .ok (T, m')) :
    (m.pos = n ∨ m.pos = n + 1) ∧ (∃ D, m' = { m with mat := eyeNormed D }) ∧
      (∃ t, m.tensors[n]? = some t ∧ T.d = t.d) ∧ Linked l (m.tensors.set n T) r ∧
      ∀ s, s.length = m.N → ∀ i < l, ∀ j, m.amp s i j = m.Z * chain (m.tensors.set n T) s i j := by
  unfold MPS.tensor at h
  simp only [if_true] at h
  split_ifs at h with h1 h2
  · split at h
    · cases h
    rename_i t ht
    split at h
    · cases h
    rename_i T' hT
    simp only [Except.ok.injEq, Prod.mk.injEq] at h
    obtain ⟨rfl, rfl⟩ := h
    have hn : n = m.pos := by omega
    have ht := getZ_natE ht
    have hlt : n < m.tensors.length := (List.getElem?_eq_some_iff.mp ht).1
    have hr := hw.right
    rw [← hn, drop_getElem? ht] at hr
    have hl := hw.left
    rw [← hn] at hl
    obtain ⟨c1, c2⟩ := absorbL_eq hT
    refine ⟨Or.inl hn.symm, ⟨_, rfl⟩, ⟨t, ht, by rw [c2]⟩, ?_, ?_⟩
    · rw [set_take_drop hlt, linked_append]
      refine ⟨_, hl, ?_, ?_⟩
      · rw [c2]
      · rw [c2]; exact hr.2
    · intro s hs i hi j
      rw [amp_eq_split, set_take_drop hlt, ← hn]
      have hlen : (s.take n).length = (m.tensors.take n).length := by
        rw [List.length_take, List.length_take, hs, hw.len]
      have hs' : n < s.length := by rw [hs, ← hw.len]; exact hlt
      have h3 := split_absorbL hl hT (m.tensors.drop (n + 1)) (s.take n) hlen s[n] (s.drop (n + 1)) hi j
      rw [← List.drop_eq_getElem_cons hs', List.take_append_drop, ← drop_getElem? ht] at h3
      rw [h3]
  · split at h
    · cases h
    rename_i t ht
    split at h
    · cases h
    rename_i T' hT
    simp only [Except.ok.injEq, Prod.mk.injEq] at h
    obtain ⟨rfl, rfl⟩ := h
    have hn : n + 1 = m.pos := by omega
    have ht := getZ_natE ht
    have hlt : n < m.tensors.length := (List.getElem?_eq_some_iff.mp ht).1
    have hr := hw.right
    have hl := hw.left
    rw [← hn] at hl hr
    rw [take_succ_getElem? ht, linked_append] at hl
    obtain ⟨q, q1, q2, q3⟩ := hl
    have q3 : t.r = m.mat.r := q3
    obtain ⟨c1, c2⟩ := absorbR_eq hT
    refine ⟨Or.inr hn.symm, ⟨_, rfl⟩, ⟨t, ht, by rw [c2]⟩, ?_, ?_⟩
    · rw [set_take_drop hlt, linked_append]
      refine ⟨_, q1, ?_, ?_⟩
      · rw [c2]; exact q2
      · rw [c2]; exact hr
    · intro s hs i hi j
      rw [amp_eq_split, set_take_drop hlt, ← hn]
      have hlen : (s.take n).length = (m.tensors.take n).length := by
        rw [List.length_take, List.length_take, hs, hw.len]
      have hs' : n < s.length := by rw [hs, ← hw.len]; exact hlt
      have h3 := split_absorbR (q2 ▸ q1) hT (m.tensors.drop (n + 1)) (s.take n) hlen s[n] (s.drop (n + 1)) hi j
      rw [← List.drop_eq_getElem_cons hs', List.take_append_drop, ← take_succ_getElem? ht,
        ← List.take_succ_eq_append_getElem hs'] at h3
      rw [h3]

theorem Eng.Val.mono {e : Eng} {a b a' b' : ℕ} (h : e.Val a b) (ha : a' ≤ a) (hb : b ≤ b') : e.Val a' b' :=
  ⟨h.lenL, h.lenR, h.lenW, fun k hk => h.left k (hk.trans ha), fun k hk => h.right k (hb.trans hk)⟩

theorem Eng.Orth.mono {e : Eng} {a b a' b' : ℕ} (h : e.Orth a b) (ha : a' ≤ a) (hb : b ≤ b') : e.Orth a' b' :=
  ⟨fun x t hx hl => h.left x t hx (by omega), fun x t hx hl => h.right x t hx (by omega)⟩

/-- Contract of the eigensolvers: the result is reshaped to `(L.shape[1],R.shape[1],mpo.shape[3])`,
lib/mpslib/mpsfunctions.py:1167, 1224, 1264. -/
def Solve.Shape (solve : Solve) : Prop :=
  ∀ sv L W R T en X, solve sv L W R T = .ok (en, X) → X.l = L.w ∧ X.r = R.w ∧ X.d = W.dout

/-- `position(p)` followed by anything that needs `L[n]`, `R[N-1-n]` with `p = n` or `p = n+1`. -/
theorem eng_move {O : LinAlg} (hO : O.Spec) {e e' : Eng} {p n l r a b : ℕ}
    (hst : e.mps.WF l r ∨ (e.mps.Loose l r ∧ p ≠ e.mps.pos)) (hs : e.mps.sth < 1e-15) (hv : e.Val a b)
    (h : e.position O p = .ok e') (hpn : p = n ∨ p = n + 1)
    (c1 : e.mps.pos < p → e.mps.pos ≤ a ∧ b ≤ n + 1) (c2 : p < e.mps.pos → b ≤ e.mps.pos ∧ n ≤ a)
    (c3 : p = e.mps.pos → n ≤ a ∧ b ≤ n + 1) :
    e.mps.WF l r ∧ Moved e.mps e'.mps l r p ∧ e'.mpo = e.mpo ∧ e'.lb = e.lb ∧ e'.rb = e.rb ∧ e'.Val n (n + 1) ∧
      (e.Orth a b → e'.Orth n (n + 1)) := by
  have hw : e.mps.WF l r := by
    rcases hst with h1 | ⟨h1, h2⟩
    · exact h1
    · exact loose_wf h1 (eng_mps_position h) h2
  refine ⟨hw, ?_⟩
  rcases lt_trichotomy p e.mps.pos with hp | hp | hp
  · obtain ⟨d1, d2⟩ := c2 hp
    obtain ⟨g1, M, g3, g4, g5, g6⟩ := eng_left hO hw hs hv h hp d1
    refine ⟨M, g3, g4, g5, g6.mono (by omega) (by omega), fun ho => ⟨?_, ?_⟩⟩
    · intro x t hx hl
      rw [M.same x (by omega)] at hx
      exact ho.left x t hx (by omega)
    · intro x t hx hl
      by_cases hxp : x < e.mps.pos
      · exact M.right x t hx (by omega) hxp
      · rw [M.same x (by omega)] at hx
        exact ho.right x t hx (by omega)
  · obtain rfl := eng_stay h hp
    obtain ⟨d1, d2⟩ := c3 hp
    obtain ⟨-, -, M⟩ := position_moved hO (effSth_default hs) hw (eng_mps_position h)
    rw [Int.toNat_natCast] at M
    exact ⟨M, rfl, rfl, rfl, hv.mono d1 d2, fun ho => ho.mono d1 d2⟩
  · obtain ⟨d1, d2⟩ := c1 hp
    obtain ⟨g0, g1, M, g3, g4, g5, g6⟩ := eng_right hO hw hs hv h hp d1
    refine ⟨M, g3, g4, g5, g6.mono (by omega) (by omega), fun ho => ⟨?_, ?_⟩⟩
    · intro x t hx hl
      by_cases hxp : x < e.mps.pos
      · rw [M.same x (by omega)] at hx
        exact ho.left x t hx (by omega)
      · exact M.left x t hx (by omega) (by omega)
    · intro x t hx hl
      rw [M.same x (by omega)] at hx
      exact ho.right x t hx (by omega)

/-- One iteration of a sweep. -/
theorem step_spec {O : LinAlg} (hO : O.Spec) {solve : Solve} (hsv : solve.Shape) {sv : Solver} {e e' : Eng}
    {p n a b : ℕ} {c : Call} (hlb : e.lb.u = e.lb.w) (hrb : e.rb.u = e.rb.w)
    (hst : e.mps.WF e.lb.u e.rb.u ∨ (e.mps.Loose e.lb.u e.rb.u ∧ p ≠ e.mps.pos))
    (hs : e.mps.sth < 1e-15) (hv : e.Val a b)
    (h : e.step O solve sv p n = .ok (e', c)) (hpn : p = n ∨ p = n + 1) (hn : n < e.mps.N)
    (c1 : e.mps.pos < p → e.mps.pos ≤ a ∧ b ≤ n + 1) (c2 : p < e.mps.pos → b ≤ e.mps.pos ∧ n ≤ a)
    (c3 : p = e.mps.pos → n ≤ a ∧ b ≤ n + 1) :
    c.n = n ∧ CallOK e.lb e.rb e.mpo c ∧ e'.mps.Loose e'.lb.u e'.rb.u ∧ e'.mps.pos = p ∧ e'.Val n (n + 1) ∧
      e'.mpo = e.mpo ∧ e'.lb = e.lb ∧ e'.rb = e.rb ∧ e'.mps.N = e.mps.N ∧ e'.mps.sth = e.mps.sth ∧
      (e.Orth a b → CallOrth c ∧ e'.Orth n (n + 1)) ∧
      e'.mps.tensors = c.mps.tensors.set n c.opt ∧ c.mps.N = e.mps.N ∧
      (∃ e1, e.position O p = .ok e1 ∧ c.mps = e1.mps) ∧
      solve sv c.L c.W c.R c.T = .ok (c.energy, c.opt) := by
  unfold Eng.step at h
  split at h
  · cases h
  rename_i e1 he1
  split at h
  · cases h
  rename_i e2 c' hopt
  split at h
  · cases h
  rename_i m hm
  simp only [Except.ok.injEq, Prod.mk.injEq] at h
  obtain ⟨rfl, rfl⟩ := h
  obtain ⟨hw, M, g1, g2, g3, V, Or⟩ := eng_move hO hst hs hv he1 hpn c1 c2 c3
  unfold Eng.optimize at hopt
  split_ifs at hopt with hso
  split at hopt
  · cases hopt
  rename_i L hL
  split at hopt
  · cases hopt
  rename_i W hW
  split at hopt
  · cases hopt
  rename_i R hR
  split at hopt
  · cases hopt
  rename_i T m1 hT
  split at hopt
  · cases hopt
  rename_i en X hX
  simp only [Except.ok.injEq, Prod.mk.injEq] at hopt
  obtain ⟨rfl, rfl⟩ := hopt
  obtain ⟨t1, ⟨D, rfl⟩, ⟨t, t2, t3⟩, t4, t5⟩ := tensor_clear M.wf hT
  have hL := V.left n le_rfl L (getE_ok hL)
  have hlt : n < e1.mps.tensors.length := (List.getElem?_eq_some_iff.mp t2).1
  have hR := V.right (n + 1) le_rfl (by rw [M.N]; omega) R (by
    rw [← getE_ok hR]; congr 1; omega)
  rw [g1, g2] at hL
  rw [g1, g3] at hR
  obtain ⟨x1, x2, x3⟩ := hsv _ _ _ _ _ _ _ hX
  have hLu : L.u = L.w := by
    rw [← linked_rdim hL.u, ← linked_rdim hL.w, hlb]
  have hRu : R.u = R.w := by
    rcases hd : e1.mps.tensors.drop (n + 1) with _ | ⟨y, ys⟩
    · have u := hR.u; have w := hR.w
      rw [hd] at u w
      simp only [Linked] at u w
      rw [u, w, hrb]
    · have u := hR.u; have w := hR.w
      rw [hd] at u w
      rw [← u.1, ← w.1]
  -- the assignment
  have hset : m = { e1.mps with mat := eyeNormed D, tensors := e1.mps.tensors.set n X } := by
    unfold MPS.setItem pyIdx at hm
    simp only at hm
    rw [if_pos ⟨by omega, by rw [abs_of_nonneg (by omega)]; omega⟩, if_pos (by omega), if_pos (by omega)] at hm
    simp only [Except.ok.injEq, Int.toNat_natCast] at hm
    exact hm.symm
  subst hset
  refine ⟨rfl, ⟨M.wf, by simp only [M.N]; exact hn, t1, getE_ok (g1 ▸ hW), hL, hR, t4, t5⟩, ⟨?_, ?_, ?_, rfl⟩,
    M.pos, ⟨?_, ?_, ?_, ?_, ?_⟩, g1, g2, g3, M.N, M.sth, ?_, rfl, M.N, ⟨e1, he1, rfl⟩, hX⟩
  · simp only [List.length_set]; exact M.wf.len
  · exact M.wf.pos_le
  · simp only [set_take_drop hlt, linked_append]
    refine ⟨L.u, by rw [g2]; exact hL.u, ?_, ?_⟩
    · rw [x1, hLu]
    · rw [x2, ← hRu, g3]; exact hR.u
  · exact V.lenL
  · exact V.lenR
  · exact V.lenW
  · intro k hk E hE
    simp only at hE ⊢
    rw [List.take_set_of_le hk]
    exact V.left k hk E hE
  · intro k hk hkN E hE
    simp only at hE hkN ⊢
    rw [List.drop_set_of_lt (by omega)]
    exact V.right k hk hkN E hE
  · intro ho
    have ho := Or ho
    refine ⟨⟨fun x y hx hl => ho.left x y hx hl, fun x y hx hl => ho.right x y hx hl⟩,
      fun x y hx hl => ?_, fun x y hx hl => ?_⟩
    · simp only [List.getElem?_set] at hx
      rw [if_neg (by omega)] at hx
      exact ho.left x y hx hl
    · simp only [List.getElem?_set] at hx
      rw [if_neg (by omega)] at hx
      exact ho.right x y hx hl

end

end PyTeN
