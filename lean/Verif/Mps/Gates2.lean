import Verif.Mps.Gates
import Verif.Props.Access

/-! # Lemmas on the two-site gate -/

namespace PyTeN
open Finset

noncomputable section

theorem effSth_default {m : MPS} (hs : m.sth < 1e-15) : m.effSth 1e-16 < 1e-15 := by
  unfold MPS.effSth; rw [if_neg (by norm_num)]; exact hs

/-- A single `position` call: result and canonical form. -/
theorem position_one {O : LinAlg} (hO : O.Spec) {m m' : MPS} {l r : ℕ} {b : ℤ}
    (hs : m.sth < 1e-15) (hw : m.WF l r) (h : m.position O b = .ok m') :
    0 ≤ b ∧ b ≤ m.N ∧ Moved m m' l r b.toNat ∧ (m.Canonical → m'.Canonical) := by
  obtain ⟨h0, h1, hM⟩ := position_moved hO (effSth_default hs) hw h
  refine ⟨h0, h1, hM, ?_⟩
  have : m.positions O [b] = .ok m' := by simp only [MPS.positions, h]
  exact (positions_moved hO [b] hs hw this).2.2.2.2.2.2.2.2.2.2.2

theorem take_mid {α : Type*} (A : List α) (t : α) (B : List α) {n : ℕ} (h : A.length = n) :
    (A ++ t :: B).take (n + 1) = A ++ [t] := by
  rw [show A ++ t :: B = (A ++ [t]) ++ B by simp, ← h,
    show A.length + 1 = (A ++ [t]).length by simp, List.take_left]

theorem drop_mid {α : Type*} (A : List α) (t : α) (B : List α) {n : ℕ} (h : A.length = n) :
    (A ++ t :: B).drop (n + 1) = B := by
  rw [show A ++ t :: B = (A ++ [t]) ++ B by simp, ← h,
    show A.length + 1 = (A ++ [t]).length by simp, List.drop_left]

/-- Two-site block between two outer parts. -/
def block (A B : List (Ten ℂ)) (L R : ℕ) (θ : ℕ → ℕ → ℂ) (sA sB : List ℕ) (i j : ℕ) : ℂ :=
  ∑ a ∈ range L, ∑ b ∈ range R, chain A sA i a * θ a b * chain B sB b j

theorem split_block {l : ℕ} {A B : List (Ten ℂ)} {t w : Ten ℂ} {m : Mat ℂ} (hA : Linked l A t.l)
    (hr : t.r = m.r) {sA : List ℕ} (hs : sA.length = A.length) (x y : ℕ) (sB : List ℕ) {i : ℕ}
    (hi : i < l) (j : ℕ) :
    split (A ++ [t]) m (w :: B) (sA ++ [x]) (y :: sB) i j
      = block A B t.l w.r (fun a b => ∑ k ∈ range m.r, ∑ k' ∈ range m.c,
          t.v a k x * m.v k k' * w.v k' b y) sA sB i j := by
  have h1 : ∀ k ∈ range m.r, chain (A ++ [t]) (sA ++ [x]) i k
      = ∑ a ∈ range t.l, chain A sA i a * t.v a k x := by
    intro k hk
    rw [chain_append hA sA [x] hs hi]
    apply sum_congr rfl; intro a _
    simp only [chain]
    rw [sum_delta_right (by rw [hr]; exact mem_range.mp hk)]
  unfold split block
  rw [sum_congr rfl fun k hk => sum_congr rfl fun k' _ => by
    rw [h1 k hk, show chain (w :: B) (y :: sB) k' j = ∑ b ∈ range w.r, w.v k' b y * chain B sB b j from rfl]]
  have h2 : ∀ k ∈ range m.r, ∀ k' ∈ range m.c,
      (∑ a ∈ range t.l, chain A sA i a * t.v a k x) * m.v k k' *
        (∑ b ∈ range w.r, w.v k' b y * chain B sB b j)
      = ∑ a ∈ range t.l, ∑ b ∈ range w.r,
          chain A sA i a * (t.v a k x * m.v k k' * w.v k' b y) * chain B sB b j := by
    intro k _ k' _
    rw [sum_mul, sum_mul_sum]
    apply sum_congr rfl; intro a _
    apply sum_congr rfl; intro b _
    ring
  rw [sum_congr rfl fun k hk => sum_congr rfl fun k' hk' => h2 k hk k' hk']
  rw [sum_congr rfl fun k _ => sum_comm, sum_comm]
  apply sum_congr rfl; intro a _
  rw [sum_congr rfl fun k _ => sum_comm, sum_comm]
  apply sum_congr rfl; intro b _
  simp_rw [mul_sum, sum_mul]

theorem block_add_smul {A B : List (Ten ℂ)} {L R : ℕ} {θ : ℕ → ℕ → ℂ} {sA sB : List ℕ} {i j : ℕ}
    (c : ℂ) : c * block A B L R θ sA sB i j = block A B L R (fun a b => c * θ a b) sA sB i j := by
  unfold block
  simp_rw [mul_sum]
  apply sum_congr rfl; intro a _
  apply sum_congr rfl; intro b _
  ring

theorem block_sub {A B : List (Ten ℂ)} {L R : ℕ} {θ θ' : ℕ → ℕ → ℂ} {sA sB : List ℕ} {i j : ℕ} :
    block A B L R θ sA sB i j - block A B L R θ' sA sB i j
      = block A B L R (fun a b => θ a b - θ' a b) sA sB i j := by
  unfold block
  simp_rw [← sum_sub_distrib]
  apply sum_congr rfl; intro a _
  apply sum_congr rfl; intro b _
  ring

theorem block_sum {A B : List (Ten ℂ)} {L R n : ℕ} {θ : ℕ → ℕ → ℕ → ℂ} {sA sB : List ℕ} {i j : ℕ} :
    ∑ x ∈ range n, block A B L R (θ x) sA sB i j
      = block A B L R (fun a b => ∑ x ∈ range n, θ x a b) sA sB i j := by
  unfold block
  rw [sum_comm]
  apply sum_congr rfl; intro a _
  rw [sum_comm]
  apply sum_congr rfl; intro b _
  rw [mul_sum, sum_mul]

theorem block_congr {A B : List (Ten ℂ)} {L R : ℕ} {θ θ' : ℕ → ℕ → ℂ} {sA sB : List ℕ} {i j : ℕ}
    (h : ∀ a < L, ∀ b < R, θ a b = θ' a b) :
    block A B L R θ sA sB i j = block A B L R θ' sA sB i j := by
  unfold block
  apply sum_congr rfl; intro a ha
  apply sum_congr rfl; intro b hb
  rw [h a (mem_range.mp ha) b (mem_range.mp hb)]

theorem normF_diagMat (s : List ℝ) : normF (diagMat s) = norm2 s := by
  apply normF_eq_of_sq (norm2_nonneg s)
  rw [norm2_sq]
  simp only [diagMat]
  apply sum_congr rfl; intro i hi
  rw [sum_eq_single i]
  · simp [Complex.normSq_ofReal, sq]
  · intro j _ hj; rw [if_neg (Ne.symm hj)]; simp
  · intro h; exact absurd hi h

/-- What a successful two-site gate does, in terms of the factorised two-site block `M`. -/
structure Gated2 (m p : MPS) (l r n : ℕ) (g : Gate2) (D : ℕ) (th tw : ℝ) (k : ℕ) : Prop where
  ex : ∃ (m1 : MPS) (A : List (Ten ℂ)) (t w : Ten ℂ) (B : List (Ten ℂ)) (T : Ten ℂ)
    (U : Mat ℂ) (S : List ℝ) (V : Mat ℂ) (s : List ℝ),
    Moved m m1 l r (n + 1) ∧ (m.Canonical → m1.Canonical) ∧
    m1.tensors = A ++ t :: w :: B ∧ A.length = n ∧ absorbR t m1.mat = .ok T ∧
    Linked l A t.l ∧ t.r = m1.mat.r ∧ w.l = m1.mat.c ∧ Linked w.r B r ∧ t.d = g.a ∧ w.d = g.b ∧
    SVDSpec (twoSiteMat T w g) U S V ∧
    k = min (S.filter (fun x => decide (x > th))).length D ∧
    tw = ((S.drop k).map (fun x => x ^ 2)).sum ∧ normalise (S.take k) = .ok s ∧ s.length = k ∧
    p = { m1 with
      tensors := A ++ ⟨t.l, k, g.a', fun i a x => U.v (i * g.a' + x) a⟩ ::
        ⟨k, w.r, g.b', fun a j y => V.v a (y * w.r + j)⟩ :: B
      mat := diagMat s }

theorem applyTwoSiteGate_ok {O : LinAlg} (hO : O.Spec) {m p : MPS} {l r n : ℕ} {g : Gate2}
    {D : ℕ} {th tw : ℝ} {k : ℕ} (hw : m.WF l r) (hs : m.sth < 1e-15) (hn : n + 1 < m.N)
    (h : m.applyTwoSiteGate O g n (some D) th = .ok (tw, k, p)) :
    Gated2 m p l r n g D th tw k := by
  unfold MPS.applyTwoSiteGate at h
  rw [if_neg (by simp; omega)] at h
  split at h
  · cases h
  rename_i m1 h1
  obtain ⟨-, -, hM, hcan⟩ := position_one hO hs hw h1
  rw [show ((n : ℤ) + 1).toNat = n + 1 by omega] at hM
  have hlen1 : m1.tensors.length = m.N := by rw [hM.wf.len, hM.N]
  obtain ⟨A, t, B', hts, hA⟩ := split_at m1.tensors (n := n) (by omega)
  obtain ⟨T, hab, hten, hLA, hr, hRB⟩ := tensor_left hM.wf hM.pos hts hA true
  have hB' : B' ≠ [] := by
    rintro rfl
    rw [hts] at hlen1; simp at hlen1; omega
  obtain ⟨w, B, rfl⟩ := List.exists_cons_of_ne_nil hB'
  rw [hten] at h
  simp only [if_true] at h
  have hgz : getZ m1.tensors ((n : ℤ) + 1) = .ok w := by
    have := getZ_nat (ts := m1.tensors) (n := n + 1) (by omega)
    push_cast at this
    rw [this]; congr 1; simp only [hts]
    rw [List.getElem_append_right (by omega)]
    simp [hA]
  rw [hgz] at h
  simp only at h
  obtain ⟨-, hT⟩ := absorbR_eq hab
  by_cases hdim : T.r = w.l ∧ T.d = g.a ∧ w.d = g.b
  swap
  · rw [if_pos hdim] at h; cases h
  rw [if_neg (by simpa using hdim)] at h
  split at h
  · cases h
  rename_i s hnorm
  set M := twoSiteMat T w g
  have hsv := hO.svd M
  set U := (O.svd M).1
  set S := (O.svd M).2.1
  set V := (O.svd M).2.2
  set kk := min (S.filter (fun x => decide (x > th))).length D with hkk
  have hkS : kk ≤ S.length := (min_le_left _ _).trans (List.length_filter_le _ _)
  have hku : min kk U.c = kk := by rw [hsv.u_c, ← hsv.len]; omega
  have hkv : min kk V.r = kk := by rw [hsv.v_r, ← hsv.len]; omega
  have hslen : s.length = kk := by
    rw [(normalise_ok hnorm).1, List.length_take]; omega
  have hset1 : setZ m1.tensors (n : ℤ) ⟨T.l, min kk U.c, g.a', fun i a x => U.v (i * g.a' + x) a⟩
      = .ok (A ++ ⟨t.l, kk, g.a', fun i a x => U.v (i * g.a' + x) a⟩ :: w :: B) := by
    rw [setZ_nat (by omega), hts, set_append' A t _ _ hA.symm, hku, show T.l = t.l by rw [hT]]
  rw [hset1] at h
  simp only at h
  have hset2 : setZ (A ++ ⟨t.l, kk, g.a', fun i a x => U.v (i * g.a' + x) a⟩ :: w :: B) ((n : ℤ) + 1)
      ⟨min kk V.r, w.r, g.b', fun a j y => V.v a (y * w.r + j)⟩
      = .ok (A ++ ⟨t.l, kk, g.a', fun i a x => U.v (i * g.a' + x) a⟩ ::
        ⟨kk, w.r, g.b', fun a j y => V.v a (y * w.r + j)⟩ :: B) := by
    have := setZ_nat (ts := A ++ ⟨t.l, kk, g.a', fun i a x => U.v (i * g.a' + x) a⟩ :: w :: B)
      (n := n + 1) (by simp; omega) ⟨min kk V.r, w.r, g.b', fun a j y => V.v a (y * w.r + j)⟩
    push_cast at this
    rw [this, hkv]
    congr 1
    rw [List.set_append_right _ _ (by omega)]
    simp [hA]
  rw [hset2] at h
  simp only [Except.ok.injEq, Prod.mk.injEq] at h
  obtain ⟨htw, hk, hp⟩ := h
  have hkk2 : k = kk := by rw [← hk, hslen]
  refine ⟨m1, A, t, w, B, T, U, S, V, s, hM, hcan, hts, hA, hab, hLA, hr, ?_, ?_, ?_, hdim.2.2, hsv,
    ?_, ?_, ?_, ?_, ?_⟩
  · have := hdim.1; rw [hT] at this; exact this.symm
  · exact hRB.2
  · rw [← hdim.2.1, hT]
  · rw [hkk2]
  · rw [hkk2]; exact htw.symm
  · rw [hkk2]; exact hnorm
  · rw [hkk2]; exact hslen
  · rw [← hp, hkk2]

/-- The two-site matrix as the gate acting on the contracted pair of tensors. -/
theorem twoSiteMat_v {T w : Ten ℂ} {g : Gate2} {a b x y : ℕ} (hb : b < w.r) (hx : x < g.a') :
    (twoSiteMat T w g).v (a * g.a' + x) (y * w.r + b)
      = ∑ x' ∈ range T.d, ∑ y' ∈ range w.d,
        (∑ k ∈ range T.r, T.v a k x' * w.v k b y') * g.v x' y' x y := by
  unfold twoSiteMat
  simp only
  rw [idx_div hx, idx_mod hx, idx_div hb, idx_mod hb]

variable {m p : MPS} {l r n : ℕ} {g : Gate2} {D : ℕ} {th tw : ℝ} {k : ℕ}

/-- Amplitudes of the gated exact state and of the new object as blocks. -/
theorem Gated2.blocks (h : Gated2 m p l r n g D th tw k) :
    ∃ (m1 : MPS) (A B : List (Ten ℂ)) (L R : ℕ) (M U : Mat ℂ) (S : List ℝ) (V : Mat ℂ) (z : ℝ),
      Moved m m1 l r (n + 1) ∧ (m.Canonical → m1.Canonical ∧ (∀ t ∈ A, LeftOrth t) ∧ ∀ t ∈ B, RightOrth t) ∧
      A.length = n ∧ Linked l A L ∧ Linked R B r ∧ M.r = L * g.a' ∧ M.c = g.b' * R ∧
      SVDSpec M U S V ∧ k = min (S.filter (fun x => decide (x > th))).length D ∧
      tw = ((S.drop k).map (fun x => x ^ 2)).sum ∧ z = norm2 (S.take k) ∧ (k ≠ 0 → 0 < z) ∧
      (∃ t w, p.tensors = A ++ t :: w :: B ∧ t.d = g.a' ∧ w.d = g.b' ∧ t.l = L ∧ t.r = k ∧ w.l = k ∧
        w.r = R ∧ LeftOrth t ∧ RightOrth w) ∧
      (∃ dA dB, m.ds = dA ++ g.a :: g.b :: dB ∧ A.map Ten.d = dA ∧ B.map Ten.d = dB) ∧
      p.mat.r = k ∧ p.mat.c = k ∧ (k ≠ 0 → normF p.mat = 1) ∧ p.pos = n + 1 ∧ p.N = m.N ∧
      p.Z = m1.Z ∧ (∀ q < k, ((S.getD q 0 : ℝ) : ℂ) = z * p.mat.v q q) ∧
      ∀ sA x y sB, Cfg A sA → x < g.a' → y < g.b' → Cfg B sB → ∀ i < l, ∀ j,
        act2 n g.a g.b g.v (fun s => m.amp s i j) (sA ++ x :: y :: sB)
          = p.Z * block A B L R (fun a b => M.v (a * g.a' + x) (y * R + b)) sA sB i j ∧
        (z : ℂ) * p.amp (sA ++ x :: y :: sB) i j
          = p.Z * block A B L R (fun a b => ∑ q ∈ range k,
              U.v (a * g.a' + x) q * ((S.getD q 0 : ℝ) : ℂ) * V.v q (y * R + b)) sA sB i j := by
  obtain ⟨m1, A, t, w, B, T, U, S, V, s, hM, hcan, hts, hA, hab, hLA, hr, hwl, hRB, htd, hwd, hsv, hk,
    htw, hnorm, hsl, hp⟩ := h.ex
  obtain ⟨-, hT⟩ := absorbR_eq hab
  obtain ⟨hn1, hn2, hn3⟩ := normalise_ok hnorm
  have hkS : k ≤ S.length := by rw [hk]; exact (min_le_left _ _).trans (List.length_filter_le _ _)
  have hkm : k ≤ min (twoSiteMat T w g).r (twoSiteMat T w g).c := by rw [← hsv.len]; exact hkS
  have hmr : (twoSiteMat T w g).r = t.l * g.a' := by simp [twoSiteMat, hT]
  have hmc : (twoSiteMat T w g).c = g.b' * w.r := by simp [twoSiteMat, mul_comm]
  have hk0 : k ≠ 0 → S.take k ≠ [] := by
    intro hk0 h0
    have := congrArg List.length h0
    rw [List.length_take, List.length_nil] at this; omega
  refine ⟨m1, A, B, t.l, w.r, twoSiteMat T w g, U, S, V, norm2 (S.take k), hM, ?_, hA, hLA, hRB, hmr,
    hmc, hsv, hk, htw, rfl, fun h0 => (hn2 (hk0 h0)).2, ?_, ?_, ?_, ?_, ?_, ?_, ?_, ?_, ?_, ?_⟩
  · intro hc
    have hc1 := hcan hc
    refine ⟨hc1, ?_, ?_⟩
    · intro u hu
      apply hc1.left' u
      rw [hM.pos, hts, take_mid A t _ hA]; simp [hu]
    · intro u hu
      apply hc1.right' u
      rw [hM.pos, hts, drop_mid A t _ hA]; simp [hu]
  · refine ⟨⟨t.l, k, g.a', fun i a x => U.v (i * g.a' + x) a⟩,
      ⟨k, w.r, g.b', fun a j y => V.v a (y * w.r + j)⟩, by rw [hp], rfl, rfl, rfl, rfl, rfl, rfl, ?_, ?_⟩
    · intro q hq q' hq'
      simp only at hq hq' ⊢
      rw [← hsv.isoU q (by omega) q' (by omega), hmr, sum_range_mul']
    · intro q hq q' hq'
      simp only at hq hq' ⊢
      rw [← hsv.isoV q (by omega) q' (by omega), hmc, sum_range_mul]
  · refine ⟨A.map Ten.d, B.map Ten.d, ?_, rfl, rfl⟩
    rw [← hM.ds]; unfold MPS.ds; rw [hts]; simp [htd, hwd]
  · rw [hp]; simp [diagMat, hsl]
  · rw [hp]; simp [diagMat, hsl]
  · intro h0; rw [hp]; simp only [normF_diagMat]; exact (hn2 (hk0 h0)).1
  · rw [hp]; exact hM.pos
  · rw [hp]; exact hM.N
  · rw [hp]
  · intro q hq
    have h3 : (S.take k).getD q 0 = S.getD q 0 := by
      rw [List.getD_eq_getElem?_getD, List.getElem?_take, if_pos hq, ← List.getD_eq_getElem?_getD]
    rw [hp, ← h3, hn3 q]
    simp [diagMat]
  · intro sA x y sB hcA hx hy hcB i hi j
    have hlA : sA.length = A.length := cfg_length hcA
    constructor
    · rw [act2_append (by omega)]
      have h1 : ∀ x' ∈ range g.a, ∀ y' ∈ range g.b, m.amp (sA ++ x' :: y' :: sB) i j * g.v x' y' x y
          = m1.Z * block A B t.l w.r (fun a b => (∑ k ∈ range m1.mat.r, ∑ k' ∈ range m1.mat.c,
            t.v a k x' * m1.mat.v k k' * w.v k' b y') * g.v x' y' x y) sA sB i j := by
        intro x' hx' y' hy'
        have hcm : Cfg m1.tensors (sA ++ x' :: y' :: sB) := by
          rw [hts]; exact cfg_join hcA (by rw [htd]; exact mem_range.mp hx')
            (List.Forall₂.cons (by rw [hwd]; exact mem_range.mp hy') hcB)
        rw [← hM.amp _ (cfg_of_ds hM.ds.symm hcm) i hi j, amp_eq_split, hM.pos, hts, take_mid A t _ hA,
          drop_mid A t _ hA, take_mid sA x' _ (by omega), drop_mid sA x' _ (by omega),
          split_block hLA hr hlA x' y' sB hi j, mul_assoc, mul_comm (block _ _ _ _ _ _ _ _ _),
          block_add_smul]
        congr 1
        apply block_congr; intro a _ b _; ring
      rw [sum_congr rfl fun x' hx' => sum_congr rfl fun y' hy' => h1 x' hx' y' hy']
      simp_rw [← mul_sum, block_sum]
      rw [hp]
      congr 1
      apply block_congr; intro a ha b hb
      rw [twoSiteMat_v hb hx]
      simp only [hT, htd, hwd]
      apply sum_congr rfl; intro x' _
      apply sum_congr rfl; intro y' _
      congr 1
      rw [sum_comm]
      apply sum_congr rfl; intro k' _
      rw [sum_mul, hr]
    · rw [hp, amp_eq_split]
      simp only [hM.pos]
      rw [take_mid A _ _ hA, drop_mid A _ _ hA, take_mid sA x _ (by omega), drop_mid sA x _ (by omega),
        split_block (t := ⟨t.l, k, g.a', fun i a x => U.v (i * g.a' + x) a⟩)
          (w := ⟨k, w.r, g.b', fun a j y => V.v a (y * w.r + j)⟩) hLA (by simp [diagMat, hsl]) hlA x y sB hi j,
        mul_left_comm, block_add_smul]
      congr 1
      apply block_congr; intro a ha b hb
      simp only [diagMat, hsl]
      rw [mul_sum]
      apply sum_congr rfl; intro q hq
      rw [sum_eq_single q]
      · have h2 := hn3 q
        have h3 : (S.take k).getD q 0 = S.getD q 0 := by
          rw [List.getD_eq_getElem?_getD, List.getElem?_take, if_pos (mem_range.mp hq),
            ← List.getD_eq_getElem?_getD]
        rw [h3] at h2
        rw [h2]
        simp only [if_true]
        push_cast; ring
      · intro q' _ hq'; rw [if_neg (Ne.symm hq')]; ring
      · intro h0; exact absurd hq h0

theorem Gated2.wf (hw : m.WF l r) (hn : n + 1 < m.N) (h : Gated2 m p l r n g D th tw k) :
    p.WF l r := by
  obtain ⟨m1, A, B, L, R, M, U, S, V, z, hM, -, hA, hLA, hRB, -, -, -, -, -, -, -,
    ⟨t, w, hpt, -, -, htl, htr, hwl, hwr, -, -⟩, ⟨dA, dB, hds, hdA, hdB⟩, hmr, hmc, -, hpos, hN, -, -, -⟩ := h.blocks
  refine ⟨?_, ?_, ?_, ?_⟩
  · have := congrArg List.length hds
    simp only [MPS.ds, List.length_map, hw.len, List.length_append, List.length_cons, ← hdA, ← hdB] at this
    rw [hpt, hN]; simp; omega
  · rw [hpos, hN]; omega
  · rw [hpos, hpt, take_mid A _ _ hA, linked_append, hmr]
    exact ⟨L, hLA, htl, htr⟩
  · rw [hpos, hpt, drop_mid A _ _ hA, hmc]
    exact ⟨hwl, by rw [hwr]; exact hRB⟩

end

end PyTeN
