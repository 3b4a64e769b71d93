import Verif.Engine.Merge
import Verif.Mps.Gates2
import Verif.Engine.Progress

/-! # Lemmas on two-site DMRG -/

namespace PyTeN
open Finset

noncomputable section

variable {O : LinAlg} {solve : Solve} {sv : Solver} {trunc : ℝ}

/-- The left tensor after a step. -/
def leftT (t : Ten ℂ) (k : ℕ) (U : Mat ℂ) : Ten ℂ := ⟨t.l, k, t.d, fun i a x => U.v (i * t.d + x) a⟩

/-- The right tensor after a step. -/
def rightT (w : Ten ℂ) (k : ℕ) (V : Mat ℂ) : Ten ℂ := ⟨k, w.r, w.d, fun a j y => V.v a (y * w.r + j)⟩

/-- What a successful loop iteration has done. -/
structure Opt2 (O : LinAlg) (solve : Solve) (sv : Solver) (trunc : ℝ) (e e1 : Eng) (n l r : ℕ) (W W' : Mpo ℂ) (c : Call2)
    (A B : List (Ten ℂ)) (t w T0 : Ten ℂ) (U V : Mat ℂ) (s : List ℝ) : Prop where
  pos : e.mps.position O ((n + 1 : ℕ) : ℤ) = .ok c.mps
  moved : Moved e.mps c.mps l r (n + 1)
  can : e.mps.Canonical → c.mps.Canonical
  site : c.n = n
  ts : c.mps.tensors = A ++ t :: w :: B
  len : A.length = n
  abs : absorbR t c.mps.mat = .ok T0
  LA : Linked l A t.l
  tr : t.r = c.mps.mat.r
  wl : w.l = c.mps.mat.c
  LB : Linked w.r B r
  merge : mergeT T0 w = .ok c.T
  op : e.mpo[n]? = some W
  op' : e.mpo[n + 1]? = some W'
  mergeO : mergeW W W' = .ok c.W
  envL : e.L[n]? = some c.L
  envR : e.R[e.mps.N - 2 - n]? = some c.R
  sol : solve sv c.L c.W c.R c.T = .ok (c.energy, c.opt)
  shape : c.opt.l = t.l ∧ c.opt.r = w.r ∧ c.opt.d = t.d * w.d
  svd : SVDSpec (pairMat c.opt t.d w.d) U c.S V
  kept : c.kept = min (c.S.filter (fun x => decide (x > trunc))).length e.mps.Dmax
  norm : normalise (c.S.take c.kept) = .ok s
  slen : s.length = c.kept
  after : c.after = { c.mps with tensors := A ++ leftT t c.kept U :: rightT w c.kept V :: B, mat := diagMat s }
  eng : e1 = { e with mps := c.after }

theorem opt2_spec (hO : O.Spec) {e e1 : Eng} {n l r : ℕ} {W W' : Mpo ℂ} {c : Call2} (hw : e.mps.WF l r) (hs : e.mps.sth < 1e-15)
    (hn : n + 1 < e.mps.N) (h : e.opt2 O solve sv trunc n = .ok (e1, W, W', c)) :
    ∃ A B t w T0 U V s, Opt2 O solve sv trunc e e1 n l r W W' c A B t w T0 U V s := by
  unfold Eng.opt2 at h
  split at h
  · cases h
  rename_i m hm
  obtain ⟨-, -, hM, hcan⟩ := position_one hO hs hw hm
  rw [Int.toNat_natCast] at hM
  have hlen1 : m.tensors.length = e.mps.N := by rw [hM.wf.len, hM.N]
  obtain ⟨A, t, B', hts, hA⟩ := split_at m.tensors (n := n) (by omega)
  obtain ⟨T0, hab, hten, hLA, hr, hRB⟩ := tensor_left hM.wf hM.pos hts hA false
  have hB' : B' ≠ [] := by
    rintro rfl
    rw [hts] at hlen1; simp at hlen1; omega
  obtain ⟨w, B, rfl⟩ := List.exists_cons_of_ne_nil hB'
  rw [hten] at h
  simp only at h
  split at h
  · cases h
  rename_i w' hgi
  have hgi' : w' = w := by
    have := getItem_nat hgi
    rw [hts, List.getElem?_append_right (by omega)] at this
    simp [hA] at this
    exact this.symm
  subst hgi'
  split at h
  · cases h
  rename_i T hT
  split at h
  · cases h
  rename_i V1 hW1
  split at h
  · cases h
  rename_i V2 hW2
  split at h
  · cases h
  rename_i W2 hW
  split at h
  · cases h
  rename_i L hL
  split at h
  · cases h
  rename_i R hR
  split at h
  · cases h
  rename_i en X hsol
  obtain ⟨-, hT0⟩ := absorbR_eq hab
  have d0 : T0.d = t.d := by rw [hT0]
  have l0 : T0.l = t.l := by rw [hT0]
  by_cases hsh : X.l = T0.l ∧ X.r = w'.r ∧ X.d = T0.d * w'.d
  swap
  · rw [if_pos hsh] at h; cases h
  rw [if_neg (by simpa using hsh)] at h
  rw [d0, l0] at hsh
  rw [d0, l0] at h
  have hsv := hO.svd (pairMat X t.d w'.d)
  set U := (O.svd (pairMat X t.d w'.d)).1
  set S := (O.svd (pairMat X t.d w'.d)).2.1
  set V := (O.svd (pairMat X t.d w'.d)).2.2
  set k := min (S.filter (fun x => decide (x > trunc))).length m.Dmax with hk
  have htk : (S.filter (fun x => decide (x > trunc))).take k = S.take k := by
    conv_lhs => rw [filter_gt_prefix hsv.sorted trunc]
    rw [List.take_take, min_eq_left (min_le_left _ _)]
  rw [htk] at h
  split at h
  · cases h
  rename_i s hnorm
  have hkS : k ≤ S.length := (min_le_left _ _).trans (List.length_filter_le _ _)
  have hku : min k U.c = k := by rw [hsv.u_c, ← hsv.len]; omega
  have hkv : min k V.r = k := by rw [hsv.v_r, ← hsv.len]; omega
  have hslen : s.length = k := by
    rw [(normalise_ok hnorm).1, List.length_take]; omega
  rw [hku, hkv] at h
  split at h
  · cases h
  rename_i m1 hm1
  split at h
  · cases h
  rename_i m2 hm2
  simp only [Except.ok.injEq, Prod.mk.injEq] at h
  obtain ⟨rfl, rfl, rfl, rfl⟩ := h
  obtain ⟨-, rfl⟩ := setItem_ok hm1
  obtain ⟨-, rfl⟩ := setItem_ok hm2
  obtain ⟨hm2wl, hLB⟩ := hRB
  refine ⟨A, B, t, w', T0, U, V, s, hm, hM, hcan, rfl, hts, hA, hab, hLA, hr, hm2wl, hLB, hT, getE_ok hW1, getE_ok hW2, hW, getE_ok hL,
    getE_ok hR, hsol, hsh, hsv, ?_, hnorm, hslen, ?_, rfl⟩
  · simp only [hk, hM.Dmax]
  · simp only [hts]
    rw [set_append' A t _ _ hA.symm, List.set_append_right _ _ (by omega)]
    simp [hA, leftT, rightT]

/-- Spec: fuse the digits `n`, `n+1` of a configuration. -/
def mergeIdx (d : ℕ) : ℕ → List ℕ → List ℕ
  | 0, x :: y :: s => (x * d + y) :: s
  | n + 1, x :: s => x :: mergeIdx d n s
  | _, s => s

/-- Spec: the state in which the tensors `n`, `n+1` of the chain are replaced by the two-site tensor `X`. -/
def pairAmp (ts : List (Ten ℂ)) (n d : ℕ) (X : Ten ℂ) : Amp := fun s i j =>
  chain (ts.take n ++ X :: ts.drop (n + 2)) (mergeIdx d n s) i j

theorem mergeIdx_append {d : ℕ} : ∀ {n : ℕ} (sA : List ℕ) (x y : ℕ) (sB : List ℕ), sA.length = n →
    mergeIdx d n (sA ++ x :: y :: sB) = sA ++ (x * d + y) :: sB
  | 0, [], _, _, _, _ => rfl
  | n + 1, a :: sA, x, y, sB, h => by
    simp only [List.cons_append, mergeIdx]
    rw [mergeIdx_append sA x y sB (by simpa using h)]

theorem mergeIdx_unmerge {d : ℕ} : ∀ {n : ℕ} {s : List ℕ}, n < s.length → mergeIdx d n (unmerge d n s) = s
  | 0, x :: s, _ => by simp only [unmerge, mergeIdx]; rw [Nat.div_add_mod']
  | n + 1, x :: s, h => by
    simp only [unmerge, mergeIdx]
    rw [mergeIdx_unmerge (by simpa using h)]

theorem unmerge_mergeIdx {d d' : ℕ} {dB : List ℕ} : ∀ {dA s : List ℕ}, Conf (dA ++ d :: d' :: dB) s →
    unmerge d' dA.length (mergeIdx d' dA.length s) = s ∧ (mergeIdx d' dA.length s).length + 1 = s.length
  | [], _, .cons h1 (.cons h2 h3) => by
    simp only [List.length_nil, mergeIdx, unmerge]
    rw [idx_div h2, idx_mod h2]
    simp
  | _ :: dA, _, .cons h1 h2 => by
    obtain ⟨i1, i2⟩ := unmerge_mergeIdx h2
    simp only [List.length_cons, mergeIdx, unmerge, i1, i2, and_self]

theorem take_two {α : Type*} (A : List α) (t w : α) (B : List α) {n : ℕ} (h : A.length = n) :
    (A ++ t :: w :: B).take n = A ∧ (A ++ t :: w :: B).drop (n + 2) = B := by
  subst h
  simp

/-- The amplitudes of an object with the centre between two sites, through the two-site tensor. -/
theorem amp_pair {m : MPS} {l n : ℕ} (hp : m.pos = n + 1) {A B : List (Ten ℂ)} {t w T0 T : Ten ℂ}
    (hts : m.tensors = A ++ t :: w :: B) (hA : A.length = n) (hab : absorbR t m.mat = .ok T0) (hT : mergeT T0 w = .ok T)
    (hLA : Linked l A t.l) {s : List ℕ} (hs : Conf m.ds s) {i : ℕ} (hi : i < l) (j : ℕ) :
    m.amp s i j = m.Z * pairAmp m.tensors n w.d T s i j := by
  have hds : m.ds = A.map Ten.d ++ t.d :: w.d :: B.map Ten.d := by unfold MPS.ds; rw [hts]; simp
  rw [hds] at hs
  obtain ⟨u1, u2⟩ := unmerge_mergeIdx hs
  rw [List.length_map, hA] at u1 u2
  have hl : s.length = n + 2 + B.length := by rw [hs.length]; simp; omega
  obtain ⟨k1, k2⟩ := take_two A t w B hA
  unfold pairAmp
  rw [hts, k1, k2, chain_unmerge hT B A _ (by omega), hA, u1, amp_eq_split, hp, hts, take_mid A t _ hA, drop_mid A t _ hA]
  have hs' : n < s.length := by omega
  have h3 := split_absorbR hLA hab (w :: B) (s.take n) (by rw [List.length_take]; omega) s[n] (s.drop (n + 1)) hi j
  rw [← List.drop_eq_getElem_cons hs', List.take_append_drop, ← List.take_succ_eq_append_getElem hs'] at h3
  rw [h3]

/-- The part of the result that is kept. -/
def cutT (c : Call2) (t w : Ten ℂ) (U V : Mat ℂ) : Ten ℂ :=
  ⟨c.opt.l, c.opt.r, c.opt.d, fun i j p =>
    ∑ q ∈ range c.kept, U.v (i * t.d + p / w.d) q * ((c.S.getD q 0 : ℝ) : ℂ) * V.v q (p % w.d * w.r + j)⟩

section
variable {e e1 : Eng} {n l r : ℕ} {W W' : Mpo ℂ} {c : Call2} {A B : List (Ten ℂ)} {t w T0 : Ten ℂ} {U V : Mat ℂ} {s : List ℝ}

theorem Opt2.kept_le (h : Opt2 O solve sv trunc e e1 n l r W W' c A B t w T0 U V s) :
    c.kept ≤ c.S.length ∧ c.kept ≤ e.mps.Dmax ∧ c.kept ≤ min (t.l * t.d) (w.d * w.r) := by
  have h1 : c.kept ≤ c.S.length := by rw [h.kept]; exact (min_le_left _ _).trans (List.length_filter_le _ _)
  refine ⟨h1, by rw [h.kept]; exact min_le_right _ _, ?_⟩
  have := h.svd.len
  simp only [pairMat, h.shape.1, h.shape.2.1] at this
  omega

theorem Opt2.leftOrth (h : Opt2 O solve sv trunc e e1 n l r W W' c A B t w T0 U V s) : LeftOrth (leftT t c.kept U) := by
  have hk := h.kept_le.2.2
  have hr : (pairMat c.opt t.d w.d).r = t.l * t.d := by simp [pairMat, h.shape.1]
  have hc : (pairMat c.opt t.d w.d).c = w.d * w.r := by simp [pairMat, h.shape.2.1]
  intro q hq q' hq'
  simp only [leftT] at hq hq' ⊢
  rw [← h.svd.isoU q (by rw [hr, hc]; omega) q' (by rw [hr, hc]; omega), hr, sum_range_mul']

theorem Opt2.rightOrth (h : Opt2 O solve sv trunc e e1 n l r W W' c A B t w T0 U V s) : RightOrth (rightT w c.kept V) := by
  have hk := h.kept_le.2.2
  have hr : (pairMat c.opt t.d w.d).r = t.l * t.d := by simp [pairMat, h.shape.1]
  have hc : (pairMat c.opt t.d w.d).c = w.d * w.r := by simp [pairMat, h.shape.2.1]
  intro q hq q' hq'
  simp only [rightT] at hq hq' ⊢
  rw [← h.svd.isoV q (by rw [hr, hc]; omega) q' (by rw [hr, hc]; omega), hc, sum_range_mul]

theorem Opt2.afterWF (h : Opt2 O solve sv trunc e e1 n l r W W' c A B t w T0 U V s) :
    c.after.WF l r ∧ c.after.pos = n + 1 ∧ c.after.N = e.mps.N ∧ c.after.ds = e.mps.ds ∧ c.after.sth = e.mps.sth ∧
      c.after.Dmax = e.mps.Dmax ∧ c.after.Z = c.mps.Z ∧ c.after.mat.r = c.kept ∧ c.after.mat.c = c.kept := by
  have hwf := h.moved.wf
  rw [h.after]
  refine ⟨⟨?_, hwf.pos_le, ?_, ?_⟩, h.moved.pos, h.moved.N, ?_, h.moved.sth, h.moved.Dmax, rfl, by simp [diagMat, h.slen],
    by simp [diagMat, h.slen]⟩
  · have := hwf.len
    rw [h.ts] at this
    simpa using this
  · simp only [h.moved.pos]
    rw [take_mid A _ _ h.len, linked_append]
    exact ⟨t.l, h.LA, rfl, by simp [leftT, diagMat, h.slen, Linked]⟩
  · simp only [h.moved.pos]
    rw [drop_mid A _ _ h.len]
    exact ⟨by simp [rightT, diagMat, h.slen], h.LB⟩
  · rw [← h.moved.ds]
    unfold MPS.ds
    rw [h.ts]
    simp [leftT, rightT]

theorem Opt2.zpos (h : Opt2 O solve sv trunc e e1 n l r W W' c A B t w T0 U V s) (hk : c.kept ≠ 0) :
    norm2 s = 1 ∧ 0 < norm2 (c.S.take c.kept) := by
  refine (normalise_ok h.norm).2.1 ?_
  intro h0
  have := congrArg List.length h0
  rw [List.length_take, List.length_nil] at this
  have := h.kept_le.1
  omega

theorem Opt2.afterCan (h : Opt2 O solve sv trunc e e1 n l r W W' c A B t w T0 U V s) (hc : e.mps.Canonical) (hk : c.kept ≠ 0) :
    c.after.Canonical := by
  have hc1 := h.can hc
  have hp := h.moved.pos
  refine ⟨?_, ?_, ?_⟩
  · rw [h.afterWF.2.1]
    intro x u hx hlt
    rw [h.after] at hx
    simp only at hx
    by_cases hxn : x = n
    · subst hxn
      rw [List.getElem?_append_right (by rw [h.len]), h.len] at hx
      simp only [Nat.sub_self, List.getElem?_cons_zero, Option.some.injEq] at hx
      subst hx; exact h.leftOrth
    · refine hc1.left x u ?_ (by omega)
      rw [h.ts]
      rw [List.getElem?_append_left (by rw [h.len]; omega)] at hx ⊢
      exact hx
  · rw [h.afterWF.2.1]
    intro x u hx hlt
    rw [h.after] at hx
    simp only at hx
    rw [List.getElem?_append_right (by rw [h.len]; omega), h.len] at hx
    obtain ⟨y, rfl⟩ : ∃ y, x = n + 1 + y := ⟨x - (n + 1), by omega⟩
    rw [show n + 1 + y - n = y + 1 by omega, List.getElem?_cons_succ] at hx
    cases y with
    | zero =>
      simp only [List.getElem?_cons_zero, Option.some.injEq] at hx
      subst hx; exact h.rightOrth
    | succ y =>
      rw [List.getElem?_cons_succ] at hx
      refine hc1.right (n + 1 + (y + 1)) u ?_ (by omega)
      rw [h.ts, List.getElem?_append_right (by rw [h.len]; omega), h.len, show n + 1 + (y + 1) - n = y + 2 by omega]
      exact hx
  · rw [h.after, normF_diagMat]; exact (h.zpos hk).1

/-- The state before the call. -/
theorem Opt2.before (h : Opt2 O solve sv trunc e e1 n l r W W' c A B t w T0 U V s) {s' : List ℕ} (hs : Conf e.mps.ds s') {i : ℕ}
    (hi : i < l) (j : ℕ) : c.mps.amp s' i j = c.mps.Z * pairAmp c.mps.tensors n w.d c.T s' i j :=
  amp_pair h.moved.pos h.ts h.len h.abs h.merge h.LA (by rw [h.moved.ds]; exact hs) hi j

/-- The state after the call. -/
theorem Opt2.afterAmp (h : Opt2 O solve sv trunc e e1 n l r W W' c A B t w T0 U V s) {s' : List ℕ} (hs : Conf e.mps.ds s') {i : ℕ}
    (hi : i < l) (j : ℕ) :
    (norm2 (c.S.take c.kept) : ℂ) * c.after.amp s' i j = c.mps.Z * pairAmp c.mps.tensors n w.d (cutT c t w U V) s' i j := by
  obtain ⟨T1, hT1⟩ : ∃ T1, absorbR (leftT t c.kept U) (diagMat s) = .ok T1 := by
    unfold absorbR
    rw [if_pos (by simp [leftT, diagMat, h.slen])]
    exact ⟨_, rfl⟩
  obtain ⟨-, e1⟩ := absorbR_eq hT1
  obtain ⟨X, hX⟩ : ∃ X, mergeT T1 (rightT w c.kept V) = .ok X := by
    unfold mergeT
    rw [if_pos (by rw [e1]; simp [rightT, diagMat, h.slen])]
    exact ⟨_, rfl⟩
  have hX' := hX
  unfold mergeT at hX'
  split_ifs at hX' with hc
  simp only [Except.ok.injEq] at hX'
  have hts : c.after.tensors = A ++ leftT t c.kept U :: rightT w c.kept V :: B := by rw [h.after]
  obtain ⟨g1, g2, g3, g4, g5, g6, g7, -⟩ := h.afterWF
  have key := amp_pair (m := c.after) g2 hts h.len (by rw [h.after]; exact hT1) hX h.LA (by rw [g4]; exact hs) hi j
  rw [key, g7, mul_left_comm]
  congr 1
  obtain ⟨k1, k2⟩ := take_two A (leftT t c.kept U) (rightT w c.kept V) B h.len
  obtain ⟨k3, k4⟩ := take_two A t w B h.len
  have hds : e.mps.ds = A.map Ten.d ++ t.d :: w.d :: B.map Ten.d := by rw [← h.moved.ds]; unfold MPS.ds; rw [h.ts]; simp
  have hsc := hs
  rw [hds] at hsc
  unfold pairAmp
  rw [hts, h.ts, k1, k2, k3, k4, show (rightT w c.kept V).d = w.d from rfl]
  -- split the configuration
  obtain ⟨sA, x, y, sB, rfl, hA1, hx, hy, hB1⟩ : ∃ sA x y sB, s' = sA ++ x :: y :: sB ∧ sA.length = n ∧ x < t.d ∧ y < w.d ∧ sB.length = B.length := by
    have hl : s'.length = n + 2 + B.length := by rw [hsc.length]; simp [h.len]; omega
    have h1 := List.forall₂_drop n hsc
    rw [show n = (A.map Ten.d).length by rw [List.length_map, h.len], List.drop_left] at h1
    have h2 : s' = s'.take (A.map Ten.d).length ++ s'.drop (A.map Ten.d).length := (List.take_append_drop _ _).symm
    generalize s'.drop (A.map Ten.d).length = q at h1 h2
    cases h1 with
    | cons a1 b1 =>
      cases b1 with
      | cons a2 b2 =>
        refine ⟨_, _, _, _, h2, by rw [List.length_take, List.length_map, h.len]; omega, a1, a2, ?_⟩
        rw [← b2.length_eq, List.length_map]
  rw [mergeIdx_append sA x y sB hA1]
  have hlin : ∀ (Y : Ten ℂ), Y.l = t.l → Y.r = w.r → chain (A ++ Y :: B) (sA ++ (x * w.d + y) :: sB) i j
      = block A B t.l w.r (fun a b => Y.v a b (x * w.d + y)) sA sB i j := by
    intro Y h1 h2
    rw [chain_append (m := t.l) (by exact h.LA) sA _ (by rw [hA1, h.len]) hi]
    unfold block
    refine sum_congr rfl fun a _ => ?_
    simp only [chain, h2, mul_sum, mul_assoc]
  rw [hlin X (by rw [← hX', e1]; rfl) (by rw [← hX']; rfl), hlin (cutT c t w U V) h.shape.1 h.shape.2.1, block_add_smul]
  refine block_congr fun a ha b hb => ?_
  have hn3 := (normalise_ok h.norm).2.2
  rw [← hX']
  simp only [cutT, e1, rightT, leftT, diagMat, h.slen]
  rw [idx_div hy, idx_mod hy, mul_sum]
  refine sum_congr rfl fun q hq => ?_
  rw [sum_eq_single q]
  · have h3 : (c.S.take c.kept).getD q 0 = c.S.getD q 0 := by
      rw [List.getD_eq_getElem?_getD, List.getElem?_take, if_pos (mem_range.mp hq), ← List.getD_eq_getElem?_getD]
    have h4 := hn3 q
    rw [h3] at h4
    rw [h4, if_pos rfl]
    push_cast
    ring
  · intro q' _ hq'
    rw [if_neg hq', mul_zero]
  · intro h0; exact absurd hq h0

end

end

end PyTeN
