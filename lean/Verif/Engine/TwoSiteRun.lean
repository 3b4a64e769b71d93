import Verif.Engine.TwoSiteSpec

/-! # The steps and sweeps of two-site DMRG -/

namespace PyTeN
open Finset

noncomputable section

variable {O : LinAlg} {solve : Solve} {sv : Solver} {trunc : ℝ}

/-- Spec: `V` is the operator of two neighbouring sites, the pairs `x,y` of local states being numbered `x*d+y`. -/
structure FusedOp (W w V : Mpo ℂ) : Prop where
  bond : W.r = w.l
  l : V.l = W.l
  r : V.r = w.r
  din : V.din = W.din * w.din
  dout : V.dout = W.dout * w.dout
  v : ∀ b b' x x' y y', y < w.din → y' < w.dout →
    V.v b b' (x * w.din + y) (x' * w.dout + y') = ∑ k ∈ range W.r, W.v b k x x' * w.v k b' y y'

theorem mergeW_fused {W w V : Mpo ℂ} (h : mergeW W w = .ok V) : FusedOp W w V := by
  unfold mergeW at h
  split_ifs at h with h1
  simp only [Except.ok.injEq] at h
  subst h
  refine ⟨h1, rfl, rfl, rfl, rfl, fun b b' x x' y y' hy hy' => ?_⟩
  simp only [idx_div hy, idx_div hy', idx_mod hy, idx_mod hy']

/-- Spec: the arguments of an eigensolver call belong to the MPS object at that time: `L` and `R` are the contractions of the sites
left and right of the pair, `W` is the operator of the pair, and `T` is its two-site tensor. -/
structure Call2.OK (lb rb : Env ℂ) (mpo : List (Mpo ℂ)) (ds : List ℕ) (c : Call2) : Prop where
  wf : c.mps.WF lb.u rb.u
  dims : c.mps.ds = ds
  lt : c.n + 1 < c.mps.N
  pos : c.mps.pos = c.n + 1
  left : IsL lb (c.mps.tensors.take c.n) (mpo.take c.n) (c.mps.tensors.take c.n) c.L
  right : IsR rb (c.mps.tensors.drop (c.n + 2)) (mpo.drop (c.n + 2)) (c.mps.tensors.drop (c.n + 2)) c.R
  op : ∃ W w, mpo[c.n]? = some W ∧ mpo[c.n + 1]? = some w ∧ FusedOp W w c.W
  dim : c.T.d = ds.getD c.n 0 * ds.getD (c.n + 1) 0
  link : Linked lb.u (c.mps.tensors.take c.n ++ c.T :: c.mps.tensors.drop (c.n + 2)) rb.u
  centre : ∀ s, Conf ds s → ∀ i < lb.u, ∀ j,
    c.mps.amp s i j = c.mps.Z * pairAmp c.mps.tensors c.n (ds.getD (c.n + 1) 0) c.T s i j

/-- Spec: squared distance of two tensors of the shape of the first. -/
def Ten.distSq (T X : Ten ℂ) : ℝ :=
  ∑ i ∈ range T.l, ∑ j ∈ range T.r, ∑ p ∈ range T.d, Complex.normSq (T.v i j p - X.v i j p)

/-- Spec: what is done with the result of a call: the two-site tensor is cut to the largest singular values above the threshold, at
most `D`, the state is the normalised one of the cut tensor, only the two tensors and the centre matrix change. -/
structure Call2.Done (lb rb : Env ℂ) (trunc : ℝ) (c : Call2) : Prop where
  wf : c.after.WF lb.u rb.u
  ds : c.after.ds = c.mps.ds
  N : c.after.N = c.mps.N
  pos : c.after.pos = c.n + 1
  Dmax : c.after.Dmax = c.mps.Dmax
  Z : c.after.Z = c.mps.Z
  same : ∀ x, x ≠ c.n → x ≠ c.n + 1 → c.after.tensors[x]? = c.mps.tensors[x]?
  orth : ∃ t w, c.after.tensors[c.n]? = some t ∧ c.after.tensors[c.n + 1]? = some w ∧ LeftOrth t ∧ RightOrth w ∧
    t.r = c.kept ∧ w.l = c.kept
  mat : c.after.mat.r = c.kept ∧ c.after.mat.c = c.kept
  shape : c.opt.l = c.T.l ∧ c.opt.r = c.T.r ∧ c.opt.d = c.T.d
  kept : c.kept = min (c.S.filter (fun x => decide (x > trunc))).length c.mps.Dmax
  svd : ∃ d d' U V, SVDSpec (pairMat c.opt d d') U c.S V ∧ c.mps.ds[c.n]? = some d ∧ c.mps.ds[c.n + 1]? = some d'
  total : ∑ q ∈ range c.S.length, c.S.getD q 0 ^ 2 = c.opt.nsq
  can : c.mps.Canonical → c.kept ≠ 0 → c.after.Canonical
  cut : ∃ X : Ten ℂ, X.l = c.opt.l ∧ X.r = c.opt.r ∧ X.d = c.opt.d ∧
    c.opt.distSq X = ∑ q ∈ Ico c.kept c.S.length, c.S.getD q 0 ^ 2 ∧
    X.nsq = ∑ q ∈ range c.kept, c.S.getD q 0 ^ 2 ∧ (c.kept ≠ 0 → 0 < X.nsq) ∧
    ∀ s, Conf c.mps.ds s → ∀ i < lb.u, ∀ j, (Real.sqrt X.nsq : ℂ) * c.after.amp s i j
      = c.mps.Z * pairAmp c.mps.tensors c.n (c.mps.ds.getD (c.n + 1) 0) X s i j

section
variable {e e1 : Eng} {n l r : ℕ} {W W' : Mpo ℂ} {c : Call2} {A B : List (Ten ℂ)} {t w T0 : Ten ℂ} {U V : Mat ℂ} {s : List ℝ}

theorem Opt2.dsn (h : Opt2 O solve sv trunc e e1 n l r W W' c A B t w T0 U V s) :
    c.mps.ds = A.map Ten.d ++ t.d :: w.d :: B.map Ten.d ∧ c.mps.ds[n]? = some t.d ∧ c.mps.ds[n + 1]? = some w.d ∧
      c.mps.ds.getD n 0 = t.d ∧ c.mps.ds.getD (n + 1) 0 = w.d ∧ c.T.l = t.l ∧ c.T.r = w.r ∧ c.T.d = t.d * w.d := by
  have hm := h.merge
  obtain ⟨-, hT0⟩ := absorbR_eq h.abs
  unfold mergeT at hm
  split_ifs at hm
  simp only [Except.ok.injEq] at hm
  have hds : c.mps.ds = A.map Ten.d ++ t.d :: w.d :: B.map Ten.d := by unfold MPS.ds; rw [h.ts]; simp
  have h1 : c.mps.ds[n + 1]? = some w.d := by
    rw [hds, List.getElem?_append_right (by simp [h.len])]; simp [h.len]
  have h0 : c.mps.ds[n]? = some t.d := by
    rw [hds, List.getElem?_append_right (by simp [h.len])]; simp [h.len]
  refine ⟨hds, h0, h1, by rw [List.getD_eq_getElem?_getD, h0]; rfl, by rw [List.getD_eq_getElem?_getD, h1]; rfl, ?_, ?_, ?_⟩
  · rw [← hm, hT0]
  · rw [← hm]
  · rw [← hm, hT0]

/-- Norms of two-site tensors through the matrix that is factorised. -/
theorem sum_pairs {R C d d' : ℕ} (F : ℕ → ℕ → ℕ → ℝ) :
    ∑ i ∈ range R, ∑ j ∈ range C, ∑ p ∈ range (d * d'), F i j p
      = ∑ a ∈ range (R * d), ∑ b ∈ range (d' * C), F (a / d) (b % C) (a % d * d' + b / C) := by
  rw [sum_range_mul]
  refine sum_congr rfl fun i _ => ?_
  rw [sum_congr rfl fun j _ => sum_range_mul d d' (F i j), sum_comm]
  refine sum_congr rfl fun x hx => ?_
  rw [sum_range_mul, sum_comm]
  refine sum_congr rfl fun y _ => sum_congr rfl fun j hj => ?_
  rw [idx_div (mem_range.mp hx), idx_mod (mem_range.mp hx), idx_div (mem_range.mp hj), idx_mod (mem_range.mp hj)]

theorem Opt2.cut_nsq (h : Opt2 O solve sv trunc e e1 n l r W W' c A B t w T0 U V s) :
    (cutT c t w U V).nsq = ∑ q ∈ range c.kept, c.S.getD q 0 ^ 2 ∧
    c.opt.distSq (cutT c t w U V) = ∑ q ∈ Ico c.kept c.S.length, c.S.getD q 0 ^ 2 ∧
    ∑ q ∈ range c.S.length, c.S.getD q 0 ^ 2 = c.opt.nsq := by
  have hk := h.kept_le.2.2
  obtain ⟨x1, x2, x3⟩ := h.shape
  have hr : (pairMat c.opt t.d w.d).r = t.l * t.d := by simp [pairMat, x1]
  have hc : (pairMat c.opt t.d w.d).c = w.d * w.r := by simp [pairMat, x2]
  have hl := h.svd.len
  have iU := h.svd.isoU
  have iV := h.svd.isoV
  have prod := h.svd.prod
  rw [hr, hc] at hl iU iV prod
  have hkS := h.kept_le.1
  have hsplit : ∀ a b, ∑ q ∈ range c.S.length, U.v a q * ((c.S.getD q 0 : ℝ) : ℂ) * V.v q b
      - ∑ q ∈ range c.kept, U.v a q * ((c.S.getD q 0 : ℝ) : ℂ) * V.v q b
      = ∑ q ∈ range c.S.length, U.v a q * (((if q < c.kept then 0 else c.S.getD q 0 : ℝ)) : ℂ) * V.v q b := by
    intro a b
    rw [range_eq_Ico, ← sum_Ico_consecutive _ (Nat.zero_le _) hkS, range_eq_Ico, add_sub_cancel_left,
      ← sum_Ico_consecutive _ (Nat.zero_le _) hkS]
    rw [sum_eq_zero (s := Ico 0 c.kept), zero_add]
    · refine sum_congr rfl fun q hq => ?_
      rw [if_neg (by have := (mem_Ico.mp hq).1; omega)]
    · intro q hq
      rw [if_pos (mem_Ico.mp hq).2]
      simp
  refine ⟨?_, ?_, ?_⟩
  · unfold Ten.nsq cutT
    simp only [x1, x2, x3]
    rw [sum_pairs]
    rw [← usv_normSq (R := t.l * t.d) (C := w.d * w.r) (n := c.kept) (u := U.v) (v := V.v)
      (fun k hk k' hk' => iU k (by omega) k' (by omega)) (fun k hk k' hk' => iV k (by omega) k' (by omega))]
    refine sum_congr rfl fun a ha => sum_congr rfl fun b hb => ?_
    have hw0 : b / w.r < w.d := Nat.div_lt_of_lt_mul (by rw [mul_comm]; exact mem_range.mp hb)
    rw [idx_div hw0, idx_mod hw0, Nat.div_add_mod', Nat.div_add_mod']
  · unfold Ten.distSq cutT
    simp only [x1, x2, x3]
    rw [sum_pairs (F := fun i j p => Complex.normSq (c.opt.v i j p -
      ∑ q ∈ range c.kept, U.v (i * t.d + p / w.d) q * ((c.S.getD q 0 : ℝ) : ℂ) * V.v q (p % w.d * w.r + j)))]
    have key := usv_normSq (R := t.l * t.d) (C := w.d * w.r) (n := c.S.length) (u := U.v) (v := V.v)
      (fun k hk k' hk' => iU k (by omega) k' (by omega)) (fun k hk k' hk' => iV k (by omega) k' (by omega))
      (fun q => if q < c.kept then 0 else c.S.getD q 0)
    rw [show ∑ q ∈ Ico c.kept c.S.length, c.S.getD q 0 ^ 2
        = ∑ q ∈ range c.S.length, (if q < c.kept then (0 : ℝ) else c.S.getD q 0) ^ 2 by
      rw [range_eq_Ico, ← sum_Ico_consecutive _ (Nat.zero_le _) hkS, sum_eq_zero (s := Ico 0 c.kept), zero_add]
      · refine sum_congr rfl fun q hq => ?_
        rw [if_neg (by have := (mem_Ico.mp hq).1; omega)]
      · intro q hq
        rw [if_pos (mem_Ico.mp hq).2]; simp, ← key]
    refine sum_congr rfl fun a ha => sum_congr rfl fun b hb => ?_
    have hw0 : b / w.r < w.d := Nat.div_lt_of_lt_mul (by rw [mul_comm]; exact mem_range.mp hb)
    rw [idx_div hw0, idx_mod hw0, Nat.div_add_mod', Nat.div_add_mod', ← hsplit]
    have hp := prod a (mem_range.mp ha) b (mem_range.mp hb)
    rw [← hl] at hp
    rw [hp]
    simp only [pairMat, x2]
  · unfold Ten.nsq
    rw [x1, x2, x3, sum_pairs]
    rw [← usv_normSq (R := t.l * t.d) (C := w.d * w.r) (n := c.S.length) (u := U.v) (v := V.v)
      (fun k hk k' hk' => iU k (by omega) k' (by omega)) (fun k hk k' hk' => iV k (by omega) k' (by omega))]
    refine sum_congr rfl fun a ha => sum_congr rfl fun b hb => ?_
    have hp := prod a (mem_range.mp ha) b (mem_range.mp hb)
    rw [← hl] at hp
    rw [hp]
    simp only [pairMat, x2]

theorem take_norm2 {S : List ℝ} {k : ℕ} (hk : k ≤ S.length) : norm2 (S.take k) = Real.sqrt (∑ q ∈ range k, S.getD q 0 ^ 2) := by
  rw [← Real.sqrt_sq (norm2_nonneg (S.take k)), norm2_sq, List.length_take, min_eq_left hk]
  congr 1
  refine sum_congr rfl fun q hq => ?_
  rw [List.getD_eq_getElem?_getD, List.getElem?_take, if_pos (mem_range.mp hq), ← List.getD_eq_getElem?_getD]

theorem Opt2.done {lb rb : Env ℂ} (h : Opt2 O solve sv trunc e e1 n lb.u rb.u W W' c A B t w T0 U V s) : c.Done lb rb trunc := by
  obtain ⟨g1, g2, g3, g4, g5, g6, g7, g8, g9⟩ := h.afterWF
  obtain ⟨c1, c2, c3⟩ := h.cut_nsq
  obtain ⟨d1, d2, d3, d0, d4, t1, t2, t3⟩ := h.dsn
  have hts : c.after.tensors = A ++ leftT t c.kept U :: rightT w c.kept V :: B := by rw [h.after]
  refine ⟨g1, by rw [g4, h.moved.ds], by rw [g3, h.moved.N], by rw [g2, h.site], by rw [g6, h.moved.Dmax], g7, ?_, ?_, ⟨g8, g9⟩,
    by rw [t1, t2, t3]; exact h.shape, by rw [h.kept, h.moved.Dmax], ⟨t.d, w.d, U, V, h.svd, by rw [h.site]; exact d2, by rw [h.site]; exact d3⟩, c3, ?_, ?_⟩
  · rw [h.site]
    intro x hx hx'
    rw [hts, h.ts]
    rcases lt_or_ge x n with hl | hl
    · rw [List.getElem?_append_left (by rw [h.len]; omega), List.getElem?_append_left (by rw [h.len]; omega)]
    · obtain ⟨y, rfl⟩ : ∃ y, x = n + 2 + y := ⟨x - (n + 2), by omega⟩
      rw [List.getElem?_append_right (by rw [h.len]; omega), List.getElem?_append_right (by rw [h.len]; omega), h.len,
        show n + 2 + y - n = y + 2 by omega]
      rfl
  · rw [h.site, hts]
    refine ⟨leftT t c.kept U, rightT w c.kept V, ?_, ?_, h.leftOrth, h.rightOrth, rfl, rfl⟩
    · rw [List.getElem?_append_right (by rw [h.len])]; simp [h.len]
    · rw [List.getElem?_append_right (by rw [h.len]; omega)]; simp [h.len]
  · intro hc hk
    have hp := h.moved.pos
    -- canonical form of the object at the call suffices
    refine ⟨?_, ?_, ?_⟩
    · rw [g2]
      intro x u hx hlt
      rw [hts] at hx
      by_cases hxn : x = n
      · subst hxn
        rw [List.getElem?_append_right (by rw [h.len]), h.len] at hx
        simp only [Nat.sub_self, List.getElem?_cons_zero, Option.some.injEq] at hx
        subst hx; exact h.leftOrth
      · refine hc.left x u ?_ (by omega)
        rw [h.ts]
        rw [List.getElem?_append_left (by rw [h.len]; omega)] at hx ⊢
        exact hx
    · rw [g2]
      intro x u hx hlt
      rw [hts, List.getElem?_append_right (by rw [h.len]; omega), h.len] at hx
      obtain ⟨y, rfl⟩ : ∃ y, x = n + 1 + y := ⟨x - (n + 1), by omega⟩
      rw [show n + 1 + y - n = y + 1 by omega, List.getElem?_cons_succ] at hx
      cases y with
      | zero =>
        simp only [List.getElem?_cons_zero, Option.some.injEq] at hx
        subst hx; exact h.rightOrth
      | succ y =>
        rw [List.getElem?_cons_succ] at hx
        refine hc.right (n + 1 + (y + 1)) u ?_ (by omega)
        rw [h.ts, List.getElem?_append_right (by rw [h.len]; omega), h.len, show n + 1 + (y + 1) - n = y + 2 by omega]
        exact hx
    · rw [h.after, normF_diagMat]; exact (h.zpos hk).1
  · have hn2 : norm2 (c.S.take c.kept) = Real.sqrt (cutT c t w U V).nsq := by rw [take_norm2 h.kept_le.1, c1]
    refine ⟨cutT c t w U V, rfl, rfl, rfl, c2, c1, fun hk => ?_, fun s' hs i hi j => ?_⟩
    · have := (h.zpos hk).2
      rw [hn2] at this
      exact Real.sqrt_pos.mp this
    · rw [h.site, d4, ← hn2]
      exact h.afterAmp (by rw [← h.moved.ds]; exact hs) hi j

theorem Opt2.callOK {lb rb : Env ℂ} (h : Opt2 O solve sv trunc e e1 n lb.u rb.u W W' c A B t w T0 U V s) (hn : n + 1 < e.mps.N)
    (hlb : e.lb = lb) (hrb : e.rb = rb) (hv : e.Val n (n + 2)) (hp : n ≤ e.mps.pos ∧ e.mps.pos ≤ n + 2) :
    c.OK lb rb e.mpo e.mps.ds := by
  subst hlb hrb
  obtain ⟨d1, d2, d3, d0, d4, t1, t2, t3⟩ := h.dsn
  obtain ⟨k1, k2⟩ := take_two A t w B h.len
  refine ⟨h.moved.wf, h.moved.ds, by rw [h.site, h.moved.N]; exact hn, by rw [h.moved.pos, h.site], ?_, ?_,
    by rw [h.site]; exact ⟨W, W', h.op, h.op', mergeW_fused h.mergeO⟩, by rw [h.site, ← h.moved.ds, d0, d4]; exact t3, ?_, ?_⟩
  · rw [h.site, take_congr_getElem? (l' := c.mps.tensors) (l := e.mps.tensors) fun x hx => h.moved.same x (by omega)]
    exact hv.left n le_rfl _ h.envL
  · rw [h.site, drop_congr_getElem? (l' := c.mps.tensors) (l := e.mps.tensors) fun x hx => h.moved.same x (by omega)]
    exact hv.right (n + 2) le_rfl (by omega) _ (by rw [show e.mps.N - (n + 2) = e.mps.N - 2 - n by omega]; exact h.envR)
  · rw [h.site, h.ts, k1, k2, linked_append]
    exact ⟨t.l, h.LA, t1, by rw [t2]; exact h.LB⟩
  · intro s' hs i hi j
    rw [h.site, ← h.moved.ds, d4]
    exact h.before hs hi j

end

end

end PyTeN
