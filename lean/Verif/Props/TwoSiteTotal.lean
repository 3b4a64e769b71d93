import Verif.Props.TwoSite
import Verif.Engine.TdvpProgress

/-! # Two-site DMRG does not fail on consistent input (C85) -/

namespace PyTeN
open Finset

noncomputable section

variable {O : LinAlg} {solve : Solve} {sv : Solver} {trunc : ℝ}

/-- Contract of the eigensolvers used for progress: for a Hermitian two-site problem of a chain with the local dimensions `ds` and a
non-zero initial tensor they return a normalised tensor of the same shape. -/
def Solve.Firm (solve : Solve) (sv : Solver) (ds : List ℕ) : Prop :=
  ∀ (n d d' : ℕ), ds[n]? = some d → ds[n + 1]? = some d' → ∀ L W R T, T.d = d * d' → SiteHerm L W R T.l T.r T.d → 0 < T.nsq →
    ∃ en X, solve sv L W R T = .ok (en, X) ∧ (X.l = T.l ∧ X.r = T.r ∧ X.d = T.d) ∧ X.nsq = 1

/-- Spec: an engine on which a two-site step cannot fail; `B` bounds the bond dimensions. -/
structure Eng.Live2 (B : ℕ) (e : Eng) : Prop where
  wf : e.mps.WF e.lb.u e.rb.u
  sth : e.mps.sth < 1e-15
  fit : e.Fit
  herm : HermH e.lb e.mpo e.rb e.mps.ds
  can : e.mps.Canonical
  Z : e.mps.Z ≠ 0
  bond : ∀ x ≤ e.mps.N, e.mps.bondDim x ≤ B
  D : 0 < e.mps.Dmax ∧ e.mps.Dmax ≤ B

/-- Spec: the threshold is small enough for a normalised tensor to have a singular value above it. -/
def Small (trunc : ℝ) (B : ℕ) (ds : List ℕ) : Prop := trunc < 0 ∨ ∀ d ∈ ds, trunc ^ 2 * (B * d) < 1

theorem can_nonzero {m : MPS} {l r : ℕ} (hw : m.WF l r) (hc : m.Canonical) (hZ : m.Z ≠ 0) :
    ∃ s i j, Conf m.ds s ∧ i < l ∧ m.amp s i j ≠ 0 := by
  by_contra hcon
  push Not at hcon
  have := canonical_nsq hw hc
  rw [nsq_congr (g := fun s i j => 0 * m.amp s i j) (fun s hs i hi j _ => by rw [hcon s i j hs hi, zero_mul]),
    nsq_smul, map_zero, zero_mul] at this
  exact (Complex.normSq_pos.mpr hZ).ne this

/-- A singular value is kept. -/
theorem svd_kept {M U V : Mat ℂ} {S : List ℝ} (h : SVDSpec M U S V) (hn : ∑ q ∈ range S.length, S.getD q 0 ^ 2 = 1) {D : ℕ} (hD : 0 < D)
    (ht : trunc < 0 ∨ trunc ^ 2 * S.length < 1) :
    min (S.filter (fun x => decide (x > trunc))).length D ≠ 0 ∧
      ∃ s, normalise ((S.filter (fun x => decide (x > trunc))).take (min (S.filter (fun x => decide (x > trunc))).length D)) = .ok s := by
  obtain ⟨a, S', rfl⟩ : ∃ a S', S = a :: S' := by
    cases S with
    | nil => simp at hn
    | cons a S' => exact ⟨a, S', rfl⟩
  have ha0 : 0 ≤ a := h.nonneg a (by simp)
  have hle : ∀ q ∈ range (a :: S').length, (a :: S').getD q 0 ^ 2 ≤ a ^ 2 := by
    intro q hq
    have hq := mem_range.mp hq
    rw [List.getD_eq_getElem _ _ hq]
    have hm := List.getElem_mem hq
    refine pow_le_pow_left₀ (h.nonneg _ hm) ?_ 2
    rcases List.mem_cons.mp hm with h1 | h1
    · exact h1.le
    · exact (List.pairwise_cons.mp h.sorted).1 _ h1
  have hsum := sum_le_sum hle
  rw [hn, sum_const, card_range, nsmul_eq_mul] at hsum
  have hat : trunc < a := by
    rcases ht with ht | ht
    · exact ht.trans_le ha0
    · by_contra hcon
      push Not at hcon
      have h1 : a ^ 2 ≤ trunc ^ 2 := pow_le_pow_left₀ ha0 hcon 2
      have h2 := mul_le_mul_of_nonneg_left h1 (Nat.cast_nonneg (α := ℝ) (a :: S').length)
      linarith
  have hapos : 0 < a := by
    rcases ha0.lt_or_eq with h1 | h1
    · exact h1
    · exfalso; rw [← h1] at hsum; norm_num at hsum
  have hf : (a :: S').filter (fun x => decide (x > trunc)) = a :: S'.filter (fun x => decide (x > trunc)) := by
    rw [List.filter_cons, if_pos (by simpa using hat)]
  rw [hf]
  obtain ⟨k, hk⟩ : ∃ k, min (a :: S'.filter (fun x => decide (x > trunc))).length D = k + 1 :=
    ⟨min (a :: S'.filter (fun x => decide (x > trunc))).length D - 1, by simp only [List.length_cons]; omega⟩
  rw [hk, List.take_succ_cons]
  refine ⟨by omega, ?_⟩
  unfold normalise
  rw [if_neg (by simp), if_neg]
  · exact ⟨_, rfl⟩
  · intro h0
    have := norm2_sq (a :: (S'.filter (fun x => decide (x > trunc))).take k)
    rw [h0, List.length_cons, sum_range_succ'] at this
    have h1 : 0 ≤ ∑ q ∈ range ((S'.filter (fun x => decide (x > trunc))).take k).length,
      (a :: (S'.filter (fun x => decide (x > trunc))).take k).getD (q + 1) 0 ^ 2 := sum_nonneg fun _ _ => sq_nonneg _
    simp only [List.getD_cons_zero] at this
    nlinarith

/-- Everything before the eigensolver call succeeds; and, whatever tensor of the right shape the solver returns, the facts on a
successful iteration apply (here to an iteration that keeps nothing). -/
theorem opt2_pre (hO : O.Spec) {e : Eng} {n B : ℕ} (hL : e.Live2 B) (hv : e.Val n (n + 2)) (hn : n + 1 < e.mps.N) :
    ∃ m T0 w T W W' W2 L R, e.mps.position O ((n + 1 : ℕ) : ℤ) = .ok m ∧ m.tensor n false = .ok (T0, m) ∧
      m.getItem ((n + 1 : ℕ) : ℤ) = .ok w ∧ mergeT T0 w = .ok T ∧ getE e.mpo n = .ok W ∧ getE e.mpo (n + 1) = .ok W' ∧
      mergeW W W' = .ok W2 ∧ getE e.L n = .ok L ∧ getE e.R (e.mps.N - 2 - n) = .ok R ∧
      m.tensors.length = e.mps.N ∧ m.Dmax = e.mps.Dmax ∧ T0.l ≤ B ∧ e.mps.ds[n]? = some T0.d ∧
      ∀ en X, (X.l = T0.l ∧ X.r = w.r ∧ X.d = T0.d * w.d) → ∃ solve' trunc' e1 U V af A Bs t s,
        Opt2 O solve' sv trunc' e e1 n e.lb.u e.rb.u W W' ⟨n, m, L, W2, R, T, en, X, (O.svd (pairMat X T0.d w.d)).2.1, 0, af⟩
          A Bs t w T0 U V s := by
  obtain ⟨s0, i0, j0, a1, a2, a3⟩ := can_nonzero hL.wf hL.can hL.Z
  obtain ⟨m, hm⟩ := position_ok (b := n + 1) hO hL.wf hL.sth ⟨s0, i0, j0, conf_cfg a1, a2, a3⟩ (by omega)
  obtain ⟨-, -, M, hcan⟩ := position_one hO hL.sth hL.wf hm
  rw [Int.toNat_natCast] at M
  have hlen1 : m.tensors.length = e.mps.N := by rw [M.wf.len, M.N]
  obtain ⟨A, t, B', hts, hA⟩ := split_at m.tensors (n := n) (by omega)
  obtain ⟨T0, hab, hten, hLA, hr, hRB⟩ := tensor_left M.wf M.pos hts hA false
  have hB' : B' ≠ [] := by
    rintro rfl
    rw [hts] at hlen1; simp at hlen1; omega
  obtain ⟨w, Bs, rfl⟩ := List.exists_cons_of_ne_nil hB'
  obtain ⟨-, hT0⟩ := absorbR_eq hab
  have d0 : T0.d = t.d := by rw [hT0]
  have l0 : T0.l = t.l := by rw [hT0]
  have r0 : T0.r = m.mat.c := by rw [hT0]
  obtain ⟨hwl, hLB⟩ := hRB
  have hgi : m.tensors[n + 1]? = some w := by
    rw [hts, List.getElem?_append_right (by omega)]; simp [hA]
  have hgt : m.tensors[n]? = some t := by
    rw [hts, List.getElem?_append_right (by omega)]; simp [hA]
  obtain ⟨W, hW⟩ := getElem?_of_lt (l := e.mpo) (n := n) (by rw [hv.lenW]; omega)
  obtain ⟨W', hW'⟩ := getElem?_of_lt (l := e.mpo) (n := n + 1) (by rw [hv.lenW]; omega)
  obtain ⟨L, hLn⟩ := getElem?_of_lt (l := e.L) (n := n) (by rw [hv.lenL]; omega)
  obtain ⟨R, hR⟩ := getElem?_of_lt (l := e.R) (n := e.mps.N - 2 - n) (by rw [hv.lenR]; omega)
  have hWW : W.r = W'.l := by
    obtain ⟨q, -, q2⟩ := mlinked_take hL.fit.mlink n
    rw [drop_getElem? hW, drop_getElem? hW'] at q2
    exact q2.2.1.symm
  obtain ⟨T, hT⟩ : ∃ T, mergeT T0 w = .ok T := by
    unfold mergeT; rw [if_pos (r0.trans hwl.symm)]; exact ⟨_, rfl⟩
  obtain ⟨W2, hW2⟩ : ∃ W2, mergeW W W' = .ok W2 := by
    unfold mergeW; rw [if_pos hWW]; exact ⟨_, rfl⟩
  refine ⟨m, T0, w, T, W, W', W2, L, R, hm, by rw [hten]; rfl, getItem_ok hgi, hT, getE_some hW, getE_some hW', hW2, getE_some hLn,
    getE_some hR, hlen1, M.Dmax, ?_, ?_, ?_⟩
  · have h1 := M.bond n (by omega)
    have h2 : m.bondDim n = t.l := by
      unfold MPS.bondDim
      rw [M.pos, if_neg (by omega), if_pos (by omega), hgt]; rfl
    rw [l0, ← h2]
    exact h1.trans (hL.bond n (by omega))
  · rw [← M.ds, d0]; simp [MPS.ds, hgt]
  · intro en X hX
    rw [d0, l0] at hX
    have hsv := hO.svd (pairMat X t.d w.d)
    have hkept : min ((O.svd (pairMat X t.d w.d)).2.1.filter
        (fun x => decide (x > (O.svd (pairMat X t.d w.d)).2.1.sum))).length e.mps.Dmax = 0 := by
      have : (O.svd (pairMat X t.d w.d)).2.1.filter (fun x => decide (x > (O.svd (pairMat X t.d w.d)).2.1.sum)) = [] := by
        rw [List.filter_eq_nil_iff]
        intro x hx
        have := List.single_le_sum hsv.nonneg x hx
        simpa using this
      rw [this]; simp
    rw [d0]
    exact ⟨fun _ _ _ _ _ => .ok (en, X), (O.svd (pairMat X t.d w.d)).2.1.sum,
      { e with mps := { m with tensors := A ++ leftT t 0 (O.svd (pairMat X t.d w.d)).1 :: rightT w 0 (O.svd (pairMat X t.d w.d)).2.2 :: Bs,
                               mat := diagMat [] } },
      (O.svd (pairMat X t.d w.d)).1, (O.svd (pairMat X t.d w.d)).2.2,
      { m with tensors := A ++ leftT t 0 (O.svd (pairMat X t.d w.d)).1 :: rightT w 0 (O.svd (pairMat X t.d w.d)).2.2 :: Bs,
               mat := diagMat [] }, A, Bs, t, [], ⟨hm, M, hcan, rfl, hts, hA, hab, hLA, hr, hwl, hLB, hT, hW, hW', hW2, hLn, hR, rfl,
      hX, hsv, hkept.symm, by simp [normalise], rfl, rfl, rfl⟩⟩

/-- The common part of a loop iteration succeeds. -/
theorem opt2_ok (hO : O.Spec) {e : Eng} {n B : ℕ} (hF : solve.Firm sv e.mps.ds) (ht : Small trunc B e.mps.ds) (hL : e.Live2 B)
    (hv : e.Val n (n + 2)) (hp : n ≤ e.mps.pos ∧ e.mps.pos ≤ n + 2) (hn : n + 1 < e.mps.N) :
    ∃ e1 W W' c, e.opt2 O solve sv trunc n = .ok (e1, W, W', c) ∧ c.kept ≠ 0 := by
  obtain ⟨m, T0, w, T, W, W', W2, L, R, h1, h2, h3, h4, h5, h6, h7, h8, h9, hlen, hD, hB, hd, H⟩ := opt2_pre (sv := sv) hO hL hv hn
  have hTs : T.l = T0.l ∧ T.r = w.r ∧ T.d = T0.d * w.d := by
    unfold mergeT at h4
    split_ifs at h4
    simp only [Except.ok.injEq] at h4
    rw [← h4]; exact ⟨rfl, rfl, rfl⟩
  obtain ⟨solve1, trunc1, e1, U, V, af, A, Bs, t, s, H1⟩ := H 0 T hTs
  have hOK := H1.callOK hn rfl rfl hv hp
  have hc := H1.can hL.can
  obtain ⟨d1, d2, d3, d4, d5, -⟩ := H1.dsn
  simp only at hc d1 d2 d3 d4 d5
  have hds : m.ds = e.mps.ds := H1.moved.ds
  obtain ⟨s0, i0, j0, a1, a2, a3⟩ := can_nonzero hL.wf hL.can hL.Z
  have hd' : 0 < e.mps.ds.getD (n + 1) 0 := by
    have hl : n + 1 < e.mps.ds.length := by
      rw [← hds]; exact (List.getElem?_eq_some_iff.mp d3).1
    have := List.forall₂_iff_get.mp a1
    have h2 := this.2 (n + 1) hl (by rw [← this.1]; exact hl)
    simp only [List.get_eq_getElem] at h2
    rw [List.getD_eq_getElem _ _ hl]
    omega
  obtain ⟨p1, p2, p3⟩ := pair_spec hL.fit.lb hL.fit.rb hL.fit.mlink hL.fit.ins hL.fit.outs hOK hd'
  have hH := p3 hL.herm
  simp only at p2 hH
  have hTn : 0 < T.nsq := by
    have e1 := canonical_nsq hL.wf hL.can
    rw [nsq_congr (g := m.amp) (fun s hs i hi j _ => (H1.moved.amp s (conf_cfg hs) i hi j).symm),
      nsq_congr (fun s hs i hi j _ => hOK.centre s hs i hi j), nsq_smul, p2 hc T ⟨rfl, rfl, rfl⟩] at e1
    have h0 := Complex.normSq_pos.mpr hL.Z
    rw [← e1] at h0
    exact pos_of_mul_pos_right h0 (Complex.normSq_nonneg _)
  obtain ⟨-, hT0⟩ := absorbR_eq H1.abs
  have d0 : T0.d = t.d := by rw [hT0]
  obtain ⟨en, X, x1, x2, x3⟩ := hF n T0.d w.d hd (by rw [← hds]; exact d3) L W2 R T hTs.2.2 hH hTn
  rw [hTs.1, hTs.2.1, hTs.2.2] at x2
  obtain ⟨solve2, trunc2, e2, U2, V2, af2, A2, Bs2, t2, s2, H2⟩ := H en X x2
  have htot : _ = X.nsq := H2.done.total
  simp only at htot
  rw [x3] at htot
  have hsv := hO.svd (pairMat X T0.d w.d)
  have hlenS : ((O.svd (pairMat X T0.d w.d)).2.1.length : ℝ) ≤ B * T0.d := by
    rw [hsv.len]
    have : min (pairMat X T0.d w.d).r (pairMat X T0.d w.d).c ≤ B * T0.d :=
      (min_le_left _ _).trans (by simp only [pairMat, x2.1]; exact Nat.mul_le_mul_right _ hB)
    exact_mod_cast this
  obtain ⟨k1, s', k2⟩ := svd_kept (trunc := trunc) hsv htot hL.D.1 (by
    rcases ht with ht | ht
    · exact Or.inl ht
    · exact Or.inr ((mul_le_mul_of_nonneg_left hlenS (sq_nonneg _)).trans_lt (ht T0.d (List.mem_of_getElem? hd))))
  rw [← hD] at k1 k2
  unfold Eng.opt2
  simp only [h1, h2, h3, h4, h5, h6, h7, h8, h9, x1]
  rw [if_neg (by simpa using x2), k2]
  simp only
  rw [setItem_live (by omega)]
  simp only
  rw [setItem_live (by simp only [List.length_set]; omega)]
  exact ⟨_, _, _, _, rfl, k1⟩

/-- Liveness after an iteration. -/
theorem opt2_live (hO : O.Spec) {e e1 : Eng} {n B : ℕ} {W W' : Mpo ℂ} {c : Call2} (hL : e.Live2 B) (hn : n + 1 < e.mps.N)
    (h : e.opt2 O solve sv trunc n = .ok (e1, W, W', c)) (hk : c.kept ≠ 0) :
    e1.Live2 B ∧ e1.mps = c.after ∧ e.L[n]? = some c.L ∧ e1.L = e.L ∧ e1.mps.pos = n + 1 := by
  obtain ⟨A, Bs, t, w, T0, U, V, s, H⟩ := opt2_spec hO hL.wf hL.sth hn h
  obtain ⟨g1, g2, g3, g4, g5, g6, g7, g8, g9⟩ := H.afterWF
  have he := H.eng
  subst he
  refine ⟨⟨g1, by simp only [g5]; exact hL.sth, ⟨hL.fit.lb, hL.fit.rb, hL.fit.mlink, by simp only [g4]; exact hL.fit.ins,
    by simp only [g4]; exact hL.fit.outs⟩, by simp only [g4]; exact hL.herm, H.afterCan hL.can hk, ?_, ?_,
    by simp only [g6]; exact hL.D⟩, rfl, H.envL, rfl, g2⟩
  · simp only [g7]
    have e1 := canonical_nsq hL.wf hL.can
    have e2 := canonical_nsq H.moved.wf (H.can hL.can)
    rw [H.moved.ds, nsq_congr (fun s hs i hi j _ => H.moved.amp s (conf_cfg hs) i hi j), e1] at e2
    intro h0
    rw [h0, map_zero] at e2
    exact hL.Z (Complex.normSq_eq_zero.mp e2)
  · intro x hx
    simp only [g3] at hx
    simp only
    by_cases hxp : x = n + 1
    · unfold MPS.bondDim
      rw [if_pos (by rw [g2]; exact hxp), g8, g9, max_self]
      exact H.kept_le.2.1.trans hL.D.2
    · refine le_trans (le_of_eq ?_) ((H.moved.bond x hx).trans (hL.bond x hx))
      unfold MPS.bondDim
      rw [g2, H.moved.pos, if_neg hxp, if_neg hxp]
      have D : ∀ y, y ≠ n → y ≠ n + 1 → c.after.tensors[y]? = c.mps.tensors[y]? := by
        intro y y1 y2
        have := (H.done (lb := e.lb) (rb := e.rb)).same y (by rw [H.site]; exact y1) (by rw [H.site]; exact y2)
        exact this
      have a0 : c.after.tensors[n]? = some (leftT t c.kept U) ∧ c.after.tensors[n + 1]? = some (rightT w c.kept V) := by
        rw [H.after]
        simp only
        constructor
        · rw [List.getElem?_append_right (by rw [H.len]), H.len]; simp
        · rw [List.getElem?_append_right (by rw [H.len]; omega), H.len]; simp
      have b0 : c.mps.tensors[n]? = some t ∧ c.mps.tensors[n + 1]? = some w := by
        rw [H.ts]
        constructor
        · rw [List.getElem?_append_right (by rw [H.len]), H.len]; simp
        · rw [List.getElem?_append_right (by rw [H.len]; omega), H.len]; simp
      by_cases hlt : x < n + 1
      · rw [if_pos hlt, if_pos hlt]
        by_cases hxn : x = n
        · rw [hxn, a0.1, b0.1]; rfl
        · rw [D x hxn (by omega)]
      · rw [if_neg hlt, if_neg hlt]
        by_cases hxn : x - 1 = n + 1
        · rw [hxn, a0.2, b0.2]; rfl
        · rw [D (x - 1) (by omega) hxn]

theorem stepR2_ok (hO : O.Spec) {e : Eng} {n B : ℕ} (hF : solve.Firm sv e.mps.ds) (ht : Small trunc B e.mps.ds) (hL : e.Live2 B)
    (hv : e.Val n (n + 2)) (hp : n ≤ e.mps.pos ∧ e.mps.pos ≤ n + 2) (hn : n + 1 < e.mps.N) :
    ∃ e' c, e.stepR2 O solve sv trunc n = .ok (e', c) ∧ c.kept ≠ 0 ∧ e'.Live2 B := by
  obtain ⟨e1, W, W', c, h1, hk⟩ := opt2_ok hO hF ht hL hv hp hn
  obtain ⟨hL1, l1, l2, l3, l4⟩ := opt2_live hO hL hn h1 hk
  obtain ⟨s1, s2, s3, s4, s5, s6, s7, s8, s9⟩ := opt2_step hO hL.wf hL.sth hv hp hn h1
  have hlen := hL1.wf.len
  have hW1 : e1.mpo[n]? = some W := by rw [s5.mpo]; exact s8
  obtain ⟨L', hg⟩ := growL_ok hL1.fit (m := e1.mps) rfl (by rw [s6.lenW, hlen]) 1 n e1.L (by rw [s6.lenL, hlen]) (by rw [hlen, s5.N]; omega)
    (fun E hE => s6.left n le_rfl E hE) ⟨e1.mps.mat.r, by have := hL1.wf.left; rwa [l4] at this⟩
  obtain ⟨A, hA⟩ := getElem?_of_lt (l := e1.mps.tensors) (n := n) (by rw [hlen, s5.N]; omega)
  simp only [growL, l3, getE_some l2, getItem_ok hA, getE_some hW1] at hg
  unfold Eng.stepR2
  simp only [h1, getItem_ok hA]
  split at hg
  · cases hg
  rename_i E hE
  simp only [hE, l3]
  split at hg
  · cases hg
  rename_i L1 hL1'
  simp only [hL1']
  exact ⟨_, _, rfl, hk, ⟨hL1.wf, hL1.sth, ⟨hL1.fit.lb, hL1.fit.rb, hL1.fit.mlink, hL1.fit.ins, hL1.fit.outs⟩, hL1.herm, hL1.can, hL1.Z,
    hL1.bond, hL1.D⟩⟩

theorem refreshR_ok {e : Eng} {a b n B : ℕ} (hL : e.Live2 B) (hv : e.Val a b) (hb : b ≤ n + 2) (hn : n + 1 < e.mps.N)
    (hp : e.mps.pos ≤ n + 1) : ∃ e', e.refreshR n = .ok e' ∧ e'.Live2 B := by
  have hlen := hL.wf.len
  obtain ⟨A, hA⟩ := getElem?_of_lt (l := e.mps.tensors) (n := n + 1) (by omega)
  obtain ⟨W, hW⟩ := getElem?_of_lt (l := e.mpo) (n := n + 1) (by rw [hv.lenW]; omega)
  obtain ⟨R, hR⟩ := getElem?_of_lt (l := e.R) (n := e.mps.N - 2 - n) (by rw [hv.lenR]; omega)
  obtain ⟨x, hx⟩ : ∃ x, Linked x (e.mps.tensors.drop (n + 1)) e.rb.u := by
    obtain ⟨q, -, q2⟩ := linked_take hL.wf.right (n + 1 - e.mps.pos)
    rw [List.drop_drop, show e.mps.pos + (n + 1 - e.mps.pos) = n + 1 by omega] at q2
    exact ⟨q, q2⟩
  obtain ⟨R', hg⟩ := growR_ok hL.fit (m := e.mps) hlen rfl (by rw [hv.lenW, hlen]) 1 (n + 2) e.R hv.lenR (by omega) (by omega)
    (fun E hE => hv.right (n + 2) hb (by omega) E hE) ⟨x, hx⟩
  simp only [growR, show e.mps.N - (n + 2) = e.mps.N - 2 - n by omega, getE_some hR,
    show ((n + 2 : ℕ) : ℤ) - 1 = ((n + 1 : ℕ) : ℤ) by omega, getItem_ok hA, show n + 2 - 1 = n + 1 by omega, getE_some hW,
    show e.mps.N - (n + 1) = e.mps.N - 1 - n by omega] at hg
  unfold Eng.refreshR
  simp only [getE_some hR, getItem_ok hA, getE_some hW]
  split at hg
  · cases hg
  rename_i E hE
  simp only [hE]
  split at hg
  · cases hg
  rename_i R1 hR1
  simp only [hR1]
  exact ⟨_, rfl, ⟨hL.wf, hL.sth, ⟨hL.fit.lb, hL.fit.rb, hL.fit.mlink, hL.fit.ins, hL.fit.outs⟩, hL.herm, hL.can, hL.Z, hL.bond, hL.D⟩⟩

theorem stepL2_ok (hO : O.Spec) {e : Eng} {n B : ℕ} (hF : solve.Firm sv e.mps.ds) (ht : Small trunc B e.mps.ds) (hL : e.Live2 B)
    (hv : e.Val n (n + 2)) (hp : n ≤ e.mps.pos ∧ e.mps.pos ≤ n + 2) (hn : n + 1 < e.mps.N) :
    ∃ e' c, e.stepL2 O solve sv trunc n = .ok (e', c) ∧ c.kept ≠ 0 ∧ e'.Live2 B := by
  obtain ⟨e1, W, W', c, h1, hk⟩ := opt2_ok hO hF ht hL hv hp hn
  obtain ⟨hL1, l1, l2, l3, l4⟩ := opt2_live hO hL hn h1 hk
  obtain ⟨s1, s2, s3, s4, s5, s6, s7, s8, s9⟩ := opt2_step hO hL.wf hL.sth hv hp hn h1
  obtain ⟨e2, h2, hL2⟩ := refreshR_ok hL1 s6 le_rfl (by rw [s5.N]; exact hn) (by rw [l4])
  unfold Eng.stepL2
  simp only [h1, h2]
  exact ⟨_, _, rfl, hk, hL2⟩

theorem sweepR2_ok (hO : O.Spec) {B : ℕ} : ∀ (k n : ℕ) (e : Eng) (acc : List Call2), solve.Firm sv e.mps.ds → Small trunc B e.mps.ds →
    e.Live2 B → e.Val n (n + 2) → e.mps.pos = n → n + k + 1 < e.mps.N → (∀ c ∈ acc, c.kept ≠ 0) →
    ∃ e' acc', Eng.sweepR2 O solve sv trunc k n e acc = .ok (e', acc') ∧ e'.Live2 B ∧ ∀ c ∈ acc', c.kept ≠ 0 := by
  intro k
  induction k with
  | zero => intro n e acc _ _ hL _ _ _ ha; exact ⟨e, acc, rfl, hL, ha⟩
  | succ k ih =>
    intro n e acc hF ht hL hv hp hn ha
    obtain ⟨e1, c, h1, hk, hL1⟩ := stepR2_ok hO hF ht hL hv (by omega) (by omega)
    obtain ⟨s1, s2, s3, s4, s5, s6⟩ := stepR2_spec hO hL.wf hL.sth hv (by omega) (by omega) h1
    simp only [Eng.sweepR2, h1]
    refine ih (n + 1) e1 _ (by rw [s5.ds]; exact hF) (by rw [s5.ds]; exact ht) hL1 (s6.mono le_rfl (by omega))
      (by rw [s4, s2.done.pos, s1]) (by rw [s5.N]; omega) ?_
    intro c' hc'
    rcases List.mem_append.mp hc' with h | h
    · exact ha c' h
    · rw [List.mem_singleton.mp h]; exact hk

theorem sweepL2_ok (hO : O.Spec) {B : ℕ} : ∀ (n : ℕ) (e : Eng) (acc : List Call2), solve.Firm sv e.mps.ds → Small trunc B e.mps.ds →
    e.Live2 B → (0 < n → e.Val (n - 1) (n + 1)) → (0 < n → n - 1 ≤ e.mps.pos ∧ e.mps.pos ≤ n + 1) → n < e.mps.N →
    (∀ c ∈ acc, c.kept ≠ 0) →
    ∃ e' acc', Eng.sweepL2 O solve sv trunc n e acc = .ok (e', acc') ∧ e'.Live2 B ∧ ∀ c ∈ acc', c.kept ≠ 0 := by
  intro n
  induction n with
  | zero => intro e acc _ _ hL _ _ _ ha; exact ⟨e, acc, rfl, hL, ha⟩
  | succ n ih =>
    intro e acc hF ht hL hv hp hn ha
    have hv := hv (by omega)
    have hp := hp (by omega)
    rw [show n + 1 - 1 = n by omega] at hv hp
    obtain ⟨e1, c, h1, hk, hL1⟩ := stepL2_ok hO hF ht hL hv (by omega) (by omega)
    obtain ⟨s1, s2, s3, s4, s5, s6⟩ := stepL2_spec hO hL.wf hL.sth hv (by omega) (by omega) h1
    simp only [Eng.sweepL2, h1]
    refine ih e1 _ (by rw [s5.ds]; exact hF) (by rw [s5.ds]; exact ht) hL1 (fun _ => s6.mono (by omega) (by omega))
      (fun _ => by rw [s4, s2.done.pos, s1]; omega) (by rw [s5.N]; omega) ?_
    intro c' hc'
    rcases List.mem_append.mp hc' with h | h
    · exact ha c' h
    · rw [List.mem_singleton.mp h]; exact hk

/-- Moving the centre keeps an engine alive. -/
theorem live2_position (hO : O.Spec) {e : Eng} {B b : ℕ} (hL : e.Live2 B) (hb : b ≤ e.mps.N) :
    ∃ m, e.mps.position O b = .ok m ∧ Eng.Live2 B { e with mps := m } ∧ Moved e.mps m e.lb.u e.rb.u b := by
  obtain ⟨s0, i0, j0, a1, a2, a3⟩ := can_nonzero hL.wf hL.can hL.Z
  obtain ⟨m, hm⟩ := position_ok (b := b) hO hL.wf hL.sth ⟨s0, i0, j0, conf_cfg a1, a2, a3⟩ hb
  obtain ⟨-, -, M, hcan⟩ := position_one hO hL.sth hL.wf hm
  rw [Int.toNat_natCast] at M
  refine ⟨m, hm, ⟨M.wf, by simp only [M.sth]; exact hL.sth, ⟨hL.fit.lb, hL.fit.rb, hL.fit.mlink, by simp only [M.ds]; exact hL.fit.ins,
    by simp only [M.ds]; exact hL.fit.outs⟩, by simp only [M.ds]; exact hL.herm, hcan hL.can, ?_, ?_, by simp only [M.Dmax]; exact hL.D⟩, M⟩
  · have e1 := canonical_nsq hL.wf hL.can
    have e2 := canonical_nsq M.wf (hcan hL.can)
    rw [M.ds, nsq_congr (fun s hs i hi j _ => M.amp s (conf_cfg hs) i hi j), e1] at e2
    intro h0
    simp only at h0
    rw [h0, map_zero] at e2
    exact hL.Z (Complex.normSq_eq_zero.mp e2)
  · intro x hx
    simp only [M.N] at hx
    exact (M.bond x hx).trans (hL.bond x hx)

theorem sweep2_ok (hO : O.Spec) {e : Eng} {B : ℕ} (hF : solve.Firm sv e.mps.ds) (ht : Small trunc B e.mps.ds) (hL : e.Live2 B)
    (hv : e.Val 0 2) (hp : e.mps.pos = 0) (hN : 2 ≤ e.mps.N) :
    ∃ e3 cs c, e.sweep2 O solve sv trunc = .ok (e3, cs, c) ∧ e3.Live2 B ∧ ∀ c ∈ cs, c.kept ≠ 0 := by
  obtain ⟨e1, c1, h1, L1, k1⟩ := sweepR2_ok hO (e.mps.N - 2) 0 e [] hF ht hL hv hp (by omega) (by simp)
  obtain ⟨cs1, a1, a2, a3, a4, a5, a6, a7, a8⟩ := sweepR2_spec hO _ _ _ _ _ _ h1 hL.wf hL.sth hv hp (by omega)
  obtain ⟨e2, c2, h2, L2, k2⟩ := sweepL2_ok hO (e1.mps.N - 1) e1 c1 (by rw [a5.ds]; exact hF) (by rw [a5.ds]; exact ht) L1
    (fun _ => a7.mono (by rw [a5.N]; omega) (by rw [a5.N]; omega)) (fun _ => by rw [a8, a5.N]; omega) (by rw [a5.N]; omega) k1
  obtain ⟨cs2, b1, b2, b3, b4, b5, b6, b7⟩ := sweepL2_spec hO _ _ _ _ _ h2 L1.wf L1.sth
    (fun _ => a7.mono (by rw [a5.N]; omega) (by rw [a5.N]; omega)) (fun _ => by rw [a8, a5.N]; omega) (by rw [a5.N]; omega)
  obtain ⟨d1, d2, c0, d3, d4, d5⟩ := b7 (by rw [a5.N]; omega)
  have hlast : c2.getLast? = some c0 := by rw [b1, List.getLast?_append, d3]; rfl
  obtain ⟨m, hm, L3, M⟩ := live2_position (b := 0) hO L2 (by omega)
  rw [Nat.cast_zero] at hm
  have hN2 : e2.mps.N = e.mps.N := b5.N.trans a5.N
  have V2 : Eng.Val { e2 with mps := m } 0 1 := by
    refine ⟨by simp only [M.N]; exact d1.lenL, by simp only [M.N]; exact d1.lenR, by simp only [M.N]; exact d1.lenW, ?_, ?_⟩
    · intro k hk E hE
      obtain rfl : k = 0 := by omega
      simpa using d1.left 0 le_rfl E hE
    · intro k hk hkN E hE
      simp only [M.N] at hkN hE
      simp only
      rw [drop_congr_getElem? (l' := m.tensors) (l := e2.mps.tensors) fun x hx => M.same x (by omega)]
      exact d1.right k hk hkN E hE
  obtain ⟨e3, h3, L4⟩ := refreshR_ok (n := c0.n) L3 V2 (by omega) (by simp only [M.N, hN2, d4]; omega) (by simp only [M.pos]; omega)
  unfold Eng.sweep2
  simp only [h1, h2, hm, hlast, h3]
  exact ⟨_, _, _, rfl, L4, k2⟩

theorem simLoop2_ok (hO : O.Spec) {B : ℕ} {Nmax : ℤ} {Econv : ℝ} {cp : Option ℤ} (hcp : cp ≠ some 0) :
    ∀ (fuel it : ℕ) (energy : ℂ) (e : Eng) (sw : List (List Call2)) (sd : List (ℕ × MPS)), 0 < fuel → Nmax < it + fuel →
    solve.Firm sv e.mps.ds → Small trunc B e.mps.ds → e.Live2 B → e.Val 0 2 → e.mps.pos = 0 → 2 ≤ e.mps.N →
    (∀ cs ∈ sw, ∀ c ∈ cs, c.kept ≠ 0) →
    ∃ res, Eng.simLoop2 O solve sv trunc Nmax Econv cp fuel it energy e sw sd = .ok res ∧
      (∀ cs ∈ res.sweeps, ∀ c ∈ cs, c.kept ≠ 0) ∧ res.eng.Live2 B := by
  intro fuel
  induction fuel with
  | zero => intro it energy e sw sd h; omega
  | succ fuel ih =>
    intro it energy e sw sd _ hfu hF ht hL hv hp hN hk
    obtain ⟨e3, cs, c, h1, L3, k3⟩ := sweep2_ok hO hF ht hL hv hp hN
    obtain ⟨a1, a2, a3, S, a5, a6, a7, -⟩ := sweep2_spec hO h1 hL.wf hL.sth hv hp hN
    obtain ⟨due, hdue⟩ : ∃ b, cpDue cp it = .ok b := by
      unfold cpDue
      split
      · exact ⟨_, rfl⟩
      · rename_i c' 
        split_ifs with q1 q2
        · exact absurd (by rw [q2]) hcp
        · exact ⟨_, rfl⟩
        · exact ⟨_, rfl⟩
    have hk' : ∀ cs' ∈ sw ++ [cs], ∀ c ∈ cs', c.kept ≠ 0 := by
      intro cs' h'
      rcases List.mem_append.mp h' with h' | h'
      · exact hk cs' h'
      · rw [List.mem_singleton.mp h']; exact k3
    simp only [Eng.simLoop2, h1, hdue]
    by_cases hstop : ((it + 1 : ℕ) : ℤ) > Nmax ∨ ‖c.energy - energy‖ < Econv
    · rw [if_pos hstop]
      exact ⟨_, rfl, hk', ⟨⟨L3.wf.len, L3.wf.pos_le, L3.wf.left, L3.wf.right⟩, L3.sth, ⟨L3.fit.lb, L3.fit.rb, L3.fit.mlink, L3.fit.ins,
        L3.fit.outs⟩, L3.herm, ⟨L3.can.left, L3.can.right, L3.can.norm⟩, one_ne_zero, L3.bond, L3.D⟩⟩
    · rw [if_neg hstop]
      push Not at hstop
      refine ih (it + 1) _ e3 _ _ ?_ ?_ (by rw [S.ds]; exact hF) (by rw [S.ds]; exact ht) L3 (a6.mono le_rfl (by omega)) a7
        (by rw [S.N]; exact hN) hk'
      · have := hstop.1; push_cast at this hfu; omega
      · have := hstop.1; push_cast at this hfu ⊢; omega

/-- **C85 (no exceptions).**  For a Hermitian MPO and a canonical, non-zero state, a two-site simulation never raises and never
truncates a tensor to nothing, if the eigensolver returns normalised tensors, the maximal bond dimension is positive and the threshold
is below `1/√(B·d)` (`B` a bound of the bond dimensions); the engine it leaves meets the same conditions, so that it can be used
again. -/
theorem C85_total (hO : O.Spec) (hso : sv ≠ .other) {e : Eng} {B : ℕ} (hF : solve.Firm sv e.mps.ds) (ht : Small trunc B e.mps.ds)
    (hL : e.Live2 B) (hst : e.Start2) (hN : 2 ≤ e.mps.N) (Nmax : ℤ) (Econv : ℝ) {cp : Option ℤ} (hcp : cp ≠ some 0) :
    ∃ res, e.simulateTwoSite O solve sv Nmax Econv cp trunc = .ok res ∧ (∀ c ∈ res.sweeps.flatten, c.kept ≠ 0) ∧ res.eng.Live2 B := by
  obtain ⟨m, hm, L3, M⟩ := live2_position (b := 0) hO hL (by omega)
  rw [Nat.cast_zero] at hm
  have hv := hst.val
  have hp := hst.pos
  have V : Eng.Val { e with mps := m } 0 2 := by
    refine ⟨by simp only [M.N]; exact hv.lenL, by simp only [M.N]; exact hv.lenR, by simp only [M.N]; exact hv.lenW, ?_, ?_⟩
    · intro k hk E hE
      obtain rfl : k = 0 := by omega
      simpa using hv.left 0 le_rfl E hE
    · intro k hk hkN E hE
      simp only [M.N] at hkN hE
      simp only
      rw [drop_congr_getElem? (l' := m.tensors) (l := e.mps.tensors) fun x hx => M.same x (by omega)]
      exact hv.right k hk hkN E hE
  obtain ⟨res, h1, h2, h3⟩ := simLoop2_ok hO (Nmax := Nmax) (Econv := Econv) hcp (max 1 Nmax.toNat) 1 100000 { e with mps := m } [] [] (by omega)
    (by push_cast; omega) (by simp only [M.ds]; exact hF) (by simp only [M.ds]; exact ht) L3 V M.pos (by simp only [M.N]; exact hN)
    (by simp)
  refine ⟨res, ?_, ?_, h3⟩
  · unfold Eng.simulateTwoSite
    rw [if_neg hso, hm]
    exact h1
  · intro c hc
    obtain ⟨cs, q1, q2⟩ := List.mem_flatten.mp hc
    exact h2 cs q1 c q2

open Lanczos Sparse

variable {eigh : Eigh} {p : Params} {arp : Arpack} {nv : ℕ} {lob : Lobpcg}

/-- The solvers of the library meet the contract; for `AR` the number of Arnoldi vectors must be below the dimension of a pair. -/
theorem solvers_firm (hE : EighSpec eigh) (hd : 0 < p.delta) (hd1 : p.delta ≤ 1) (hN : 0 < p.Ndiag) (hn : 1 ≤ p.ncv) (hA : ArpackSpec arp)
    (hk : 1 ≤ nv) (hB : LobpcgSpec lob) (hso : sv ≠ .other) {ds : List ℕ} (hAR : sv = .AR → nv < 4 ∧ ∀ d ∈ ds, 2 ≤ d) :
    (solvers eigh p arp nv lob).Firm sv ds := by
  intro n d d' h1 h2 L W R T hT hH hT'
  have unit : ∀ v : TVec T.l T.r T.d, ‖v‖ = 1 → (TVec.ten v).nsq = 1 := by
    intro v hv
    rw [nsq_vec (X := TVec.ten v) (l := T.l) (r := T.r) (d := T.d) rfl rfl rfl, ten_vec, hv, one_pow]
  cases sv with
  | AR =>
    have hlt : nv < T.l * T.r * T.d := by
      obtain ⟨a1, a2⟩ := hAR rfl
      obtain ⟨i, hi, j, hj, -⟩ := Ten.nsq_pos.mp hT'
      have b1 := a2 d (List.mem_of_getElem? h1)
      have b2 := a2 d' (List.mem_of_getElem? h2)
      have b3 : 1 ≤ T.l * T.r := Nat.mul_pos (by omega) (by omega)
      have b4 : 4 ≤ d * d' := Nat.mul_le_mul b1 b2
      rw [hT]
      calc nv < 4 := a1
        _ ≤ d * d' := b4
        _ = 1 * (d * d') := (one_mul _).symm
        _ ≤ T.l * T.r * (d * d') := Nat.mul_le_mul_right _ b3
    obtain ⟨r, hr⟩ := (eigshSite_spec hA hk hH hT').1 hlt
    obtain ⟨w, v, rfl, a1, -⟩ := (eigshSite_spec hA hk hH hT').2 _ hr
    exact ⟨_, _, hr, ⟨rfl, rfl, rfl⟩, unit v a1⟩
  | LAN =>
    obtain ⟨w, v, hr, a1, -⟩ := lanczosSite_spec hE hd hd1 hN hn hH hT'
    exact ⟨_, _, hr, ⟨rfl, rfl, rfl⟩, unit v a1⟩
  | LOBPCG =>
    obtain ⟨w, v, hr, a1, -⟩ := lobpcgSite_spec hB hH hT'
    exact ⟨_, _, hr, ⟨rfl, rfl, rfl⟩, unit v a1⟩
  | other => exact absurd rfl hso

/-- With a negative threshold and a sufficient bond dimension nothing is cut off. -/
theorem lost_zero {lb rb : Env ℂ} {c : Call2} (h : c.Done lb rb trunc) (ht : trunc < 0) (hD : c.S.length ≤ c.mps.Dmax) : c.lost = 0 := by
  obtain ⟨d, d', U, V, h1, -⟩ := h.svd
  have hf : c.S.filter (fun x => decide (x > trunc)) = c.S := by
    rw [List.filter_eq_self]
    intro x hx
    simpa using ht.trans_le (h1.nonneg x hx)
  have hk := h.kept
  rw [hf, min_eq_left hD] at hk
  unfold Call2.lost
  rw [hk, Ico_self, sum_empty]

/-- **C85 (the library's solvers).**  For a Hermitian MPO and a canonical initial state with admissible bond dimensions, building the
engine and running a two-site simulation with any of the three solvers never raises; every energy is the energy of the optimised state
and not above that before the step; the final state is canonical and normalised; and if nothing was truncated, the energies never rise
and the returned energy is that of the final state. -/
theorem C85_simulation (hO : O.Spec) (hE : EighSpec eigh) (hd : 0 < p.delta) (hd1 : p.delta ≤ 1) (hNd : 0 < p.Ndiag) (hncv : 1 ≤ p.ncv)
    (hA : ArpackSpec arp) (hk : 1 ≤ nv) (hB : LobpcgSpec lob) (hso : sv ≠ .other) {m : MPS}
    {mpo : List (Mpo ℂ)} (hw : m.WF 1 1) (hsq : m.mat.r = m.mat.c) (hs : m.sth < 1e-15) (hN : 2 ≤ m.N) (hc : m.Canonical) (hZ : m.Z ≠ 0)
    (hml : MLinked 1 mpo 1) (hin : mpo.map Mpo.din = m.ds) (hout : mpo.map Mpo.dout = m.ds) (hH : HermH oneEnv mpo oneEnv m.ds)
    (had : ∀ t ∈ m.tensors, t.Adm) (hAR : sv = .AR → nv < 4 ∧ ∀ d ∈ m.ds, 2 ≤ d) {B : ℕ} (hb : ∀ x ≤ m.N, m.bondDim x ≤ B)
    (hD : 0 < m.Dmax ∧ m.Dmax ≤ B) (ht : Small trunc B m.ds) (Nmax : ℤ) (Econv : ℝ) {cp : Option ℤ} (hcp : cp ≠ some 0) :
    ∃ e res, Eng.init O m mpo none none = .ok e ∧
      e.simulateTwoSite O (solvers eigh p arp nv lob) sv Nmax Econv cp trunc = .ok res ∧
      (∀ c ∈ res.sweeps.flatten, c.Good e (solvers eigh p arp nv lob) sv trunc ∧ c.kept ≠ 0 ∧ c.energy.im = 0 ∧
        c.energy.re ≤ (energy oneEnv mpo oneEnv m.ds c.mps.amp).re ∧
        energy oneEnv mpo oneEnv m.ds (pairAmp c.mps.tensors c.n (m.ds.getD (c.n + 1) 0) c.opt) = c.energy) ∧
      (∃ c, res.sweeps.flatten.getLast? = some c ∧ res.energy = c.energy) ∧
      res.eng.mps.Canonical ∧ nsq m.ds 1 1 res.eng.mps.amp = 1 ∧
      ((∀ c ∈ res.sweeps.flatten, c.lost = 0) →
        ((energy oneEnv mpo oneEnv m.ds m.amp).re :: res.sweeps.flatten.map fun c => c.energy.re).Pairwise (· ≥ ·) ∧
        energy oneEnv mpo oneEnv m.ds res.eng.mps.amp = res.energy) := by
  obtain ⟨s0, i0, j0, a1, a2, a3⟩ := can_nonzero hw hc hZ
  obtain ⟨e, he⟩ := eng_init_ok hO hw hsq hs (by omega) hml hin hout had ⟨s0, i0, j0, conf_cfg a1, a2, a3⟩
  have hW : mpo.length = m.N := by
    have := congrArg List.length hin
    rwa [List.length_map, MPS.ds, List.length_map, hw.len] at this
  obtain ⟨i0, M, i1, i2, i3, V, -, i4⟩ := init_spec hO he hW hw hsq hs
  obtain ⟨l1, l2⟩ := i4 (Or.inl rfl)
  have hc' := canonical_position hO hw hs hc i0
  have hamp : ∀ s, Conf m.ds s → ∀ i < 1, ∀ j, e.mps.amp s i j = m.amp s i j := fun s hs i hi j => M.amp s (conf_cfg hs) i hi j
  have hL : e.Live2 B := by
    refine ⟨by rw [← i2, ← i3]; exact M.wf, by rw [M.sth]; exact hs, ⟨by rw [l1]; rfl, by rw [l2]; rfl, by rw [l1, l2, i1]; exact hml,
      by rw [i1, hin, M.ds], by rw [i1, hout, M.ds]⟩, by rw [l1, l2, i1, M.ds]; exact hH, hc', ?_,
      fun x hx => (M.bond x (by rw [← M.N]; exact hx)).trans (hb x (by rw [← M.N]; exact hx)), by rw [M.Dmax]; exact hD⟩
    have e1 := canonical_nsq hw hc
    have e2 := canonical_nsq M.wf hc'
    rw [M.ds, nsq_congr (fun s hs i hi j _ => hamp s hs i hi j), e1] at e2
    intro h0
    rw [h0, map_zero] at e2
    exact hZ (Complex.normSq_eq_zero.mp e2)
  have hst := C83_fresh hO he hW hw hsq hs
  have hN' : 2 ≤ e.mps.N := by rw [M.N]; exact hN
  obtain ⟨res, h1, h2, -⟩ := C85_total hO hso (by rw [M.ds]; exact solvers_firm hE hd hd1 hNd hncv hA hk hB hso hAR) (by rw [M.ds]; exact ht) hL hst hN'
    Nmax Econv hcp
  obtain ⟨-, e0, fin, S, -, -, I, -⟩ := C83_two_site hO hst hL.sth hN' h1
  obtain ⟨b1, b2, b3, b4, b5, b6⟩ := C84_energy hO (solvers_var hE hd hd1 hNd hncv hA hk hB sv) hst hL.sth hN' hL.fit hL.herm hL.can hL.Z h1 h2
  rw [l1, l2, i1, M.ds] at b1 b6
  rw [l1, l2, M.ds] at b5
  refine ⟨e, res, he, h1, fun c hc => ?_, b2, b4, b5, fun hl => ?_⟩
  · obtain ⟨c1, c2, c3, c4, c5⟩ := b1 c hc
    obtain ⟨cs, q1, q2⟩ := List.mem_flatten.mp hc
    exact ⟨(I.good cs q1 c q2).same S, h2 c hc, c1, c2, c4⟩
  · obtain ⟨c1, c2⟩ := b6 hl
    rw [energy_congr (lb := oneEnv) (rb := oneEnv) rfl hamp] at c1
    exact ⟨c1, c2⟩

/-- The hypotheses are met: three spins in the GHZ state, the operator that flips all of them; with the default threshold, and without
any truncation. -/
example : ∃ (O : LinAlg) (eigh : Eigh) (arp : Arpack) (lob : Lobpcg), O.Spec ∧ EighSpec eigh ∧ ArpackSpec arp ∧ LobpcgSpec lob ∧
    ∃ m : MPS, m.ds = [2, 2, 2] ∧ (∀ s, Conf [2, 2, 2] s → m.amp s 0 0 = ghz.amp s 0 0) ∧ ∀ sv, sv ≠ .other →
    (∃ e res, Eng.init O m [flipW, flipW, flipW] none none = .ok e ∧
      e.simulateTwoSite O (solvers eigh ⟨10, 500, 1, 1 / 10 ^ 8, 1 / 10 ^ 5⟩ arp 1 lob) sv 4 1e-6 (some 2) 1e-10 = .ok res ∧
      res.eng.mps.Canonical ∧ nsq m.ds 1 1 res.eng.mps.amp = 1) ∧
    (∃ e res, Eng.init O m [flipW, flipW, flipW] none none = .ok e ∧
      e.simulateTwoSite O (solvers eigh ⟨10, 500, 1, 1 / 10 ^ 8, 1 / 10 ^ 5⟩ arp 1 lob) sv 4 1e-6 (some 2) (-1) = .ok res ∧
      energy oneEnv [flipW, flipW, flipW] oneEnv m.ds res.eng.mps.amp = res.energy) := by
  obtain ⟨O, hO⟩ := exists_linAlg
  obtain ⟨eigh, hE⟩ := exists_eigh
  obtain ⟨arp, hA⟩ := exists_arpack
  obtain ⟨lob, hB⟩ := exists_lobpcg
  refine ⟨O, eigh, arp, lob, hO, hE, hA, hB, ?_⟩
  obtain ⟨m, hm, hg, hp, ha⟩ := ghz_good hO
  have hadm : ∀ t ∈ ghz.tensors, t.Adm := by simp [ghz, ghzT, Ten.Adm]
  obtain ⟨sh, sq⟩ := position_shape hO (by norm_num [ghz]) hm hadm rfl
  obtain ⟨-, -, M, -⟩ := position_one hO (by norm_num [ghz]) ghz_wf hm
  have hds : m.ds = [2, 2, 2] := hg.ds_eq
  have hN : m.N = 3 := hg.N
  have hDm : m.Dmax = 2 := M.Dmax
  have hbond : ∀ x ≤ m.N, m.bondDim x ≤ 2 := by
    intro x hx
    rw [hN] at hx
    refine (M.bond x hx).trans ?_
    rcases (show x = 0 ∨ x = 1 ∨ x = 2 ∨ x = 3 by omega) with rfl | rfl | rfl | rfl <;> simp [MPS.bondDim, ghz, ghzT]
  refine ⟨m, hds, ha, fun sv hso => ⟨?_, ?_⟩⟩
  · obtain ⟨e, res, h1, h2, -, -, h3, h4, -⟩ := C85_simulation (sv := sv) (p := ⟨10, 500, 1, 1 / 10 ^ 8, 1 / 10 ^ 5⟩) (trunc := 1e-10) hO hE
      (by norm_num) (by norm_num) (by norm_num) (by norm_num) hA (nv := 1) le_rfl hB hso (m := m) (mpo := [flipW, flipW, flipW]) hg.wf sq
      hg.sth (by omega) hg.can (by obtain ⟨x, hx, h⟩ := hp; rw [h]; exact_mod_cast hx.ne') (by simp [MLinked, flipW]) (by rw [hds]; rfl)
      (by rw [hds]; rfl) (by rw [hds]; exact flip_herm) (adm_shape sh hadm) (fun _ => ⟨by norm_num, by rw [hds]; simp⟩) hbond
      (by rw [hDm]; norm_num) (Or.inr (by rw [hds]; norm_num)) 4 1e-6 (cp := some 2) (by simp)
    exact ⟨e, res, h1, h2, h3, h4⟩
  · obtain ⟨e, res, h1, h2, h3, -, -, -, h4⟩ := C85_simulation (sv := sv) (p := ⟨10, 500, 1, 1 / 10 ^ 8, 1 / 10 ^ 5⟩) (trunc := -1) hO hE
      (by norm_num) (by norm_num) (by norm_num) (by norm_num) hA (nv := 1) le_rfl hB hso (m := m) (mpo := [flipW, flipW, flipW]) hg.wf sq
      hg.sth (by omega) hg.can (by obtain ⟨x, hx, h⟩ := hp; rw [h]; exact_mod_cast hx.ne') (by simp [MLinked, flipW]) (by rw [hds]; rfl)
      (by rw [hds]; rfl) (by rw [hds]; exact flip_herm) (adm_shape sh hadm) (fun _ => ⟨by norm_num, by rw [hds]; simp⟩) hbond
      (by rw [hDm]; norm_num) (Or.inl (by norm_num)) 4 1e-6 (cp := some 2) (by simp)
    refine ⟨e, res, h1, h2, (h4 fun c hc => ?_).2⟩
    obtain ⟨G, -⟩ := h3 c hc
    obtain ⟨i0, M', i1, i2, i3, -⟩ := init_spec hO h1 (by rw [hN]; rfl) hg.wf sq hg.sth
    refine lost_zero G.done (by norm_num) ?_
    rw [G.Dmax, M'.Dmax, hDm]
    obtain ⟨d, d', U, V, k1, k2, k3⟩ := G.done.svd
    rw [G.ok.dims, M'.ds, hds] at k2 k3
    have hlt := G.ok.lt
    rw [G.N, M'.N, hN] at hlt
    have hlk := G.ok.link
    have hlen : c.mps.tensors.length = 3 := by rw [G.ok.wf.len, G.N, M'.N, hN]
    rw [k1.len]
    simp only [pairMat, G.done.shape.1, G.done.shape.2.1]
    rcases (show c.n = 0 ∨ c.n = 1 by omega) with h0 | h0
    · rw [h0] at k2 hlk
      simp only [List.take_zero, List.nil_append, Linked] at hlk
      simp only [List.getElem?_cons_zero, Option.some.injEq] at k2
      rw [hlk.1, ← i2, ← k2]; omega
    · rw [h0] at k3 hlk
      simp at k3
      rw [List.drop_of_length_le (by omega), linked_append] at hlk
      obtain ⟨q, -, -, q3⟩ := hlk
      have : c.T.r = e.rb.u := q3
      rw [this, ← i3, ← k3]; omega

end

end PyTeN
