import Verif.Mps.Gates2

/-! # Lemmas on truncating factorisations and sweeps -/

namespace PyTeN
open Finset

noncomputable section

/-- Squared norm of a tensor. -/
def Ten.sq (t : Ten ℂ) : ℝ :=
  ∑ i ∈ range t.l, ∑ j ∈ range t.r, ∑ s ∈ range t.d, Complex.normSq (t.v i j s)

theorem rowMat_sq (t : Ten ℂ) (f : Ten ℂ) (hl : f.l = t.l) (hr : f.r = t.r) (hd : f.d = t.d)
    (F : ℕ → ℕ → ℂ) (hF : ∀ i < t.l, ∀ j < t.r, ∀ s < t.d, f.v i j s = F (s * t.l + i) j) :
    ∑ p ∈ range (t.d * t.l), ∑ j ∈ range t.r, Complex.normSq (F p j) = f.sq := by
  unfold Ten.sq
  rw [sum_range_mul', hl]
  apply sum_congr rfl; intro i hi
  rw [hr, sum_comm]
  apply sum_congr rfl; intro j hj
  rw [hd]
  apply sum_congr rfl; intro s hs
  rw [hF i (mem_range.mp hi) j (mem_range.mp hj) s (mem_range.mp hs)]

theorem colMat_sq (t : Ten ℂ) (f : Ten ℂ) (hl : f.l = t.l) (hr : f.r = t.r) (hd : f.d = t.d)
    (F : ℕ → ℕ → ℂ) (hF : ∀ i < t.l, ∀ j < t.r, ∀ s < t.d, f.v i j s = F i (j * t.d + s)) :
    ∑ i ∈ range t.l, ∑ q ∈ range (t.d * t.r), Complex.normSq (F i q) = f.sq := by
  unfold Ten.sq
  rw [hl]
  apply sum_congr rfl; intro i hi
  rw [hr, mul_comm, sum_range_mul]
  apply sum_congr rfl; intro j hj
  rw [hd]
  apply sum_congr rfl; intro s hs
  rw [hF i (mem_range.mp hi) j (mem_range.mp hj) s (mem_range.mp hs)]

/-- Contract of a truncating factorisation to the left `t ≈ z · m · a`. -/
structure TruncL (t a : Ten ℂ) (m : Mat ℂ) (z : ℝ) (D : Option ℕ) : Prop where
  r : a.r = t.r
  d : a.d = t.d
  l : a.l = m.c
  rr : m.r = t.l
  le : m.c ≤ t.l
  le' : m.c ≤ t.d * t.r
  leD : ∀ D', D = some D' → m.c ≤ D'
  z0 : 0 ≤ z
  zsq : z ^ 2 = t.sq
  orth : RightOrth a
  norm : m.c ≠ 0 → normF m = 1

/-- norm of `m·a` with `a` right-orthonormal. -/
theorem sq_mul_rightOrth {m : Mat ℂ} {a f : Ten ℂ} (h : RightOrth a) (hm : a.l = m.c)
    (hl : f.l = m.r) (hr : f.r = a.r) (hd : f.d = a.d) (c : ℂ)
    (hf : ∀ i < m.r, ∀ j < a.r, ∀ s < a.d, f.v i j s = c * ∑ k ∈ range m.c, m.v i k * a.v k j s) :
    f.sq = Complex.normSq c * normF m ^ 2 := by
  rw [normF_sq, mul_sum]
  unfold Ten.sq
  rw [hl]
  apply sum_congr rfl; intro i hi
  apply Complex.ofReal_injective
  push_cast
  rw [mul_sum]
  have h1 : ∀ j ∈ range a.r, ∀ s ∈ range a.d, ((Complex.normSq (f.v i j s) : ℝ) : ℂ)
      = ((Complex.normSq c : ℝ) : ℂ) * ∑ k ∈ range m.c, ∑ k' ∈ range m.c, (star (m.v i k) * m.v i k') * (a.v k' j s * star (a.v k j s)) := by
    intro j hj s hs
    rw [hf i (mem_range.mp hi) j (mem_range.mp hj) s (mem_range.mp hs), Complex.normSq_mul]
    push_cast
    congr 1
    rw [normSq_eq_star_mul, star_sum, sum_mul_sum]
    apply sum_congr rfl; intro k _
    apply sum_congr rfl; intro k' _
    rw [star_mul']; ring
  rw [hr, hd, sum_congr rfl fun j hj => sum_congr rfl fun s hs => h1 j hj s hs]
  simp_rw [← mul_sum]
  congr 1
  have h2 : ∀ k ∈ range m.c, ∑ k' ∈ range m.c, ∑ j ∈ range a.r, ∑ s ∈ range a.d,
      (star (m.v i k) * m.v i k') * (a.v k' j s * star (a.v k j s)) = star (m.v i k) * m.v i k := by
    intro k hk
    have h3 : ∀ k' ∈ range m.c, ∑ j ∈ range a.r, ∑ s ∈ range a.d,
        (star (m.v i k) * m.v i k') * (a.v k' j s * star (a.v k j s))
        = delta ℂ k k' * (star (m.v i k) * m.v i k') := by
      intro k' hk'
      simp_rw [← mul_sum]
      rw [sum_comm, h k' (by rw [hm]; exact mem_range.mp hk') k (by rw [hm]; exact mem_range.mp hk),
        delta_comm, mul_comm]
    rw [sum_congr rfl h3, sum_delta_left (mem_range.mp hk)]
  have h4 : ∑ j ∈ range a.r, ∑ s ∈ range a.d, ∑ k ∈ range m.c, ∑ k' ∈ range m.c,
      (star (m.v i k) * m.v i k') * (a.v k' j s * star (a.v k j s))
      = ∑ k ∈ range m.c, ∑ k' ∈ range m.c, ∑ j ∈ range a.r, ∑ s ∈ range a.d,
      (star (m.v i k) * m.v i k') * (a.v k' j s * star (a.v k j s)) := by
    rw [sum_congr rfl fun j _ => sum_comm, sum_comm]
    apply sum_congr rfl; intro k _
    rw [sum_congr rfl fun j _ => sum_comm, sum_comm]
  rw [h4, sum_congr rfl h2]
  apply sum_congr rfl; intro k _
  rw [normSq_eq_star_mul]

/-- norm of `a·m` with `a` left-orthonormal. -/
theorem sq_leftOrth_mul {m : Mat ℂ} {a f : Ten ℂ} (h : LeftOrth a) (hm : a.r = m.r)
    (hl : f.l = a.l) (hr : f.r = m.c) (hd : f.d = a.d)
    (hf : ∀ i < a.l, ∀ j < m.c, ∀ s < a.d, f.v i j s = ∑ k ∈ range a.r, a.v i k s * m.v k j) :
    f.sq = normF m ^ 2 := by
  rw [normF_sq]
  unfold Ten.sq
  rw [hl, hr, hd, sum_comm]
  rw [sum_comm (s := range m.r)]
  apply sum_congr rfl; intro j hj
  apply Complex.ofReal_injective
  push_cast
  have h1 : ∀ i ∈ range a.l, ∀ s ∈ range a.d, ((Complex.normSq (f.v i j s) : ℝ) : ℂ)
      = ∑ k ∈ range m.r, ∑ k' ∈ range m.r, (star (m.v k j) * m.v k' j) * (star (a.v i k s) * a.v i k' s) := by
    intro i hi s hs
    rw [hf i (mem_range.mp hi) j (mem_range.mp hj) s (mem_range.mp hs), normSq_eq_star_mul, star_sum,
      sum_mul_sum, hm]
    apply sum_congr rfl; intro k _
    apply sum_congr rfl; intro k' _
    rw [star_mul']; ring
  rw [sum_congr rfl fun i hi => sum_congr rfl fun s hs => h1 i hi s hs]
  have h4 : ∑ i ∈ range a.l, ∑ s ∈ range a.d, ∑ k ∈ range m.r, ∑ k' ∈ range m.r,
      (star (m.v k j) * m.v k' j) * (star (a.v i k s) * a.v i k' s)
      = ∑ k ∈ range m.r, ∑ k' ∈ range m.r, ∑ i ∈ range a.l, ∑ s ∈ range a.d,
      (star (m.v k j) * m.v k' j) * (star (a.v i k s) * a.v i k' s) := by
    rw [sum_congr rfl fun j _ => sum_comm, sum_comm]
    apply sum_congr rfl; intro k _
    rw [sum_congr rfl fun j _ => sum_comm, sum_comm]
  rw [h4]
  apply sum_congr rfl; intro k hk
  rw [normSq_eq_star_mul]
  have h3 : ∀ k' ∈ range m.r, ∑ i ∈ range a.l, ∑ s ∈ range a.d,
      (star (m.v k j) * m.v k' j) * (star (a.v i k s) * a.v i k' s)
      = delta ℂ k k' * (star (m.v k j) * m.v k' j) := by
    intro k' hk'
    simp_rw [← mul_sum]
    rw [sum_comm, h k (by rw [hm]; exact mem_range.mp hk) k' (by rw [hm]; exact mem_range.mp hk'), mul_comm]
  rw [sum_congr rfl h3, sum_delta_left (mem_range.mp hk)]

theorem ExactL.trunc {t a : Ten ℂ} {m : Mat ℂ} {z : ℝ} (h : ExactL t a m z) : TruncL t a m z none := by
  refine ⟨h.r, h.d, h.l, h.rr, h.le, h.le', by simp, h.zpos.le, ?_, h.orth, fun _ => h.norm⟩
  have := sq_mul_rightOrth (f := t) h.orth h.l h.rr.symm h.r.symm h.d.symm (z : ℂ) (by
    intro i hi j hj s hs
    exact h.prod i (by rw [← h.rr]; exact hi) j (by rw [← h.r]; exact hj) s (by rw [← h.d]; exact hs))
  rw [this, h.norm, Complex.normSq_ofReal]; ring

/-- Contract of `prepareTruncate(.,-1)`. -/
structure TruncSVDL (t : Ten ℂ) (D : Option ℕ) (th : ℝ) (u : Mat ℂ) (s : List ℝ) (out : Ten ℂ) (Z : ℝ)
    (S : List ℝ) : Prop where
  ur : u.r = t.l
  uc : u.c = s.length
  ol : out.l = s.length
  outr : out.r = t.r
  od : out.d = t.d
  orth : RightOrth out
  iso : ∀ k < s.length, ∀ k' < s.length, ∑ i ∈ range t.l, star (u.v i k) * u.v i k' = delta ℂ k k'
  unit : s ≠ [] → norm2 s = 1
  Z0 : 0 ≤ Z
  Zsq : Z ^ 2 = t.sq
  Slen : S.length = min t.l (t.d * t.r)
  sorted : S.Pairwise (· ≥ ·)
  nonneg : ∀ x ∈ S, 0 ≤ x
  Sn : norm2 S = Z
  kept : truncS S D th = S.take s.length ∧ s.length = (truncS S D th).length
  vals : ∀ k < s.length, S.getD k 0 = norm2 (S.take s.length) * s.getD k 0
  err : (⟨t.l, t.r, t.d, fun i j x => t.v i j x - ∑ k ∈ range s.length,
      u.v i k * ((S.getD k 0 : ℝ) : ℂ) * out.v k j x⟩ : Ten ℂ).sq
    = ((S.drop s.length).map (fun x => x ^ 2)).sum

theorem prepareTruncateL_spec {O : LinAlg} (hO : O.Spec) {t : Ten ℂ} {D : Option ℕ} {th : ℝ}
    {u : Mat ℂ} {s : List ℝ} {out : Ten ℂ} {Z : ℝ}
    (h : prepareTruncateL O t D th = .ok (u, s, out, Z)) :
    ∃ S, TruncSVDL t D th u s out Z S := by
  unfold prepareTruncateL at h
  simp only at h
  split at h
  · cases h
  rename_i s' hn
  have hsv := hO.svd t.colMat
  set U := (O.svd t.colMat).1
  set S := (O.svd t.colMat).2.1
  set V := (O.svd t.colMat).2.2
  simp only [Except.ok.injEq, Prod.mk.injEq] at h
  obtain ⟨hu, rfl, ho, hZ⟩ := h
  obtain ⟨hp1, hp2, hp3, hp4⟩ := truncS_prefix hsv.sorted D th
  obtain ⟨n1, n2, n3⟩ := normalise_ok hn
  have hcr : t.colMat.r = t.l := rfl
  have hcc : t.colMat.c = t.d * t.r := rfl
  have hku : min (truncS S D th).length U.c = s'.length := by
    rw [hsv.u_c, ← hsv.len, n1]; omega
  have hkv : min (truncS S D th).length V.r = s'.length := by
    rw [hsv.v_r, ← hsv.len, n1]; omega
  have hle : s'.length ≤ min t.colMat.r t.colMat.c := by rw [← hsv.len, n1]; exact hp2
  have hkeep : truncS S D th = S.take s'.length := by rw [n1]; exact hp1
  rw [hku] at hu
  rw [hkv] at ho
  refine ⟨S, ?_⟩
  subst hu ho
  have hS1 : normF t.colMat = Z := by rw [← hsv.norm2_eq]; exact hZ
  refine ⟨hsv.u_r, rfl, rfl, rfl, rfl, ?_, ?_, ?_, ?_, ?_, hsv.len, hsv.sorted, hsv.nonneg, hZ, ⟨hkeep, n1⟩, ?_, ?_⟩
  · intro k hk k' hk'
    simp only at hk hk' ⊢
    rw [← hsv.isoV k (by omega) k' (by omega), hcc, mul_comm t.d, sum_range_mul']
  · intro k hk k' hk'
    simp only
    exact hsv.isoU k (by omega) k' (by omega)
  · intro hne
    apply (n2 _).1
    intro h0; rw [h0] at n1; exact hne (List.length_eq_zero_iff.mp n1)
  · rw [← hZ]; exact norm2_nonneg _
  · rw [← hS1, normF_sq, hcr, hcc]
    apply colMat_sq t t rfl rfl rfl
    intro i hi j hj x hx
    simp only [Ten.colMat]
    rw [idx_div hx, idx_mod hx]
  · intro k hk
    have := n3 k
    rw [hkeep] at this
    rw [← this]; simp only [List.getD_eq_getElem?_getD]; rw [List.getElem?_take, if_pos hk]
  · have e := hsv.truncErr (k := s'.length) (by rw [hsv.len]; exact hle)
    rw [← e, hcr, hcc]
    symm
    refine colMat_sq t _ (by rfl) (by rfl) (by rfl) (fun p q => t.colMat.v p q - ∑ a ∈ range s'.length, U.v p a * ((S.getD a 0 : ℝ) : ℂ) * V.v a q) ?_
    intro i hi j hj x hx
    simp only [Ten.colMat]
    rw [idx_div hx, idx_mod hx]

/-- Contract of `prepareTruncate(.,1)`. -/
structure TruncSVDR (t : Ten ℂ) (D : Option ℕ) (th : ℝ) (out : Ten ℂ) (s : List ℝ) (v : Mat ℂ) (Z : ℝ)
    (S : List ℝ) : Prop where
  ol : out.l = t.l
  outr : out.r = s.length
  od : out.d = t.d
  vr : v.r = s.length
  vc : v.c = t.r
  orth : LeftOrth out
  iso : ∀ k < s.length, ∀ k' < s.length, ∑ j ∈ range t.r, v.v k j * star (v.v k' j) = delta ℂ k k'
  unit : s ≠ [] → norm2 s = 1
  Z0 : 0 ≤ Z
  Zsq : Z ^ 2 = t.sq
  Slen : S.length = min (t.d * t.l) t.r
  sorted : S.Pairwise (· ≥ ·)
  nonneg : ∀ x ∈ S, 0 ≤ x
  Sn : norm2 S = Z
  kept : truncS S D th = S.take s.length ∧ s.length = (truncS S D th).length
  vals : ∀ k < s.length, S.getD k 0 = norm2 (S.take s.length) * s.getD k 0
  err : (⟨t.l, t.r, t.d, fun i j x => t.v i j x - ∑ k ∈ range s.length,
      out.v i k x * ((S.getD k 0 : ℝ) : ℂ) * v.v k j⟩ : Ten ℂ).sq
    = ((S.drop s.length).map (fun x => x ^ 2)).sum

theorem prepareTruncateR_spec {O : LinAlg} (hO : O.Spec) {t : Ten ℂ} {D : Option ℕ} {th : ℝ}
    {v : Mat ℂ} {s : List ℝ} {out : Ten ℂ} {Z : ℝ}
    (h : prepareTruncateR O t D th = .ok (out, s, v, Z)) :
    ∃ S, TruncSVDR t D th out s v Z S := by
  unfold prepareTruncateR at h
  simp only at h
  split at h
  · cases h
  rename_i s' hn
  have hsv := hO.svd t.rowMat
  set U := (O.svd t.rowMat).1
  set S := (O.svd t.rowMat).2.1
  set V := (O.svd t.rowMat).2.2
  simp only [Except.ok.injEq, Prod.mk.injEq] at h
  obtain ⟨ho, rfl, hu, hZ⟩ := h
  obtain ⟨hp1, hp2, hp3, hp4⟩ := truncS_prefix hsv.sorted D th
  obtain ⟨n1, n2, n3⟩ := normalise_ok hn
  have hcr : t.rowMat.r = t.d * t.l := rfl
  have hcc : t.rowMat.c = t.r := rfl
  have hku : min (truncS S D th).length U.c = s'.length := by
    rw [hsv.u_c, ← hsv.len, n1]; omega
  have hkv : min (truncS S D th).length V.r = s'.length := by
    rw [hsv.v_r, ← hsv.len, n1]; omega
  have hle : s'.length ≤ min t.rowMat.r t.rowMat.c := by rw [← hsv.len, n1]; exact hp2
  have hkeep : truncS S D th = S.take s'.length := by rw [n1]; exact hp1
  rw [hku] at ho
  rw [hkv] at hu
  refine ⟨S, ?_⟩
  subst hu ho
  have hS1 : normF t.rowMat = Z := by rw [← hsv.norm2_eq]; exact hZ
  refine ⟨rfl, rfl, rfl, rfl, hsv.v_c, ?_, ?_, ?_, ?_, ?_, hsv.len, hsv.sorted, hsv.nonneg, hZ, ⟨hkeep, n1⟩, ?_, ?_⟩
  · intro k hk k' hk'
    simp only at hk hk' ⊢
    rw [← hsv.isoU k (by omega) k' (by omega), hcr, sum_range_mul]
  · intro k hk k' hk'
    simp only
    exact hsv.isoV k (by omega) k' (by omega)
  · intro hne
    apply (n2 _).1
    intro h0; rw [h0] at n1; exact hne (List.length_eq_zero_iff.mp n1)
  · rw [← hZ]; exact norm2_nonneg _
  · rw [← hS1, normF_sq, hcr, hcc]
    apply rowMat_sq t t rfl rfl rfl
    intro i hi j hj x hx
    simp only [Ten.rowMat]
    rw [idx_div hi, idx_mod hi]
  · intro k hk
    have := n3 k
    rw [hkeep] at this
    rw [← this]; simp only [List.getD_eq_getElem?_getD]; rw [List.getElem?_take, if_pos hk]
  · have e := hsv.truncErr (k := s'.length) (by rw [hsv.len]; exact hle)
    rw [← e, hcr, hcc]
    symm
    refine rowMat_sq t _ (by rfl) (by rfl) (by rfl) (fun p q => t.rowMat.v p q - ∑ a ∈ range s'.length, U.v p a * ((S.getD a 0 : ℝ) : ℂ) * V.v a q) ?_
    intro i hi j hj x hx
    simp only [Ten.rowMat]
    rw [idx_div hi, idx_mod hi]

theorem prepareTruncate_err {O : LinAlg} (hO : O.Spec) {t : Ten ℂ} {D : Option ℕ} {th : ℝ} {e : PyErr}
    (h : prepareTruncateL O t D th = .error e ∨ prepareTruncateR O t D th = .error e) :
    e = .nan ∧ t.sq = 0 := by
  have main : ∀ (M U V : Mat ℂ) (S : List ℝ), SVDSpec M U S V → normalise (truncS S D th) = .error e →
      e = .nan ∧ normF M = 0 := by
    intro M U V S hsv hn
    obtain ⟨h1, h2, h3⟩ := normalise_err hn
    refine ⟨h1, ?_⟩
    rw [← hsv.norm2_eq]
    obtain ⟨hp1, hp2, -, -⟩ := truncS_prefix hsv.sorted D th
    have hk : 0 < (truncS S D th).length := List.length_pos_iff.mpr h2
    have h4 := norm2_sq (truncS S D th)
    rw [h3] at h4
    have h5 : (truncS S D th).getD 0 0 ^ 2 ≤ ∑ k ∈ range (truncS S D th).length, (truncS S D th).getD k 0 ^ 2 :=
      single_le_sum (f := fun k => (truncS S D th).getD k 0 ^ 2) (fun _ _ => by positivity) (mem_range.mpr hk)
    rw [← h4] at h5
    have h6 : (truncS S D th).getD 0 0 = S.getD 0 0 := by
      rw [hp1, List.getD_eq_getElem?_getD, List.getElem?_take, if_pos hk, ← List.getD_eq_getElem?_getD]
    rw [h6] at h5
    have h7 : S.getD 0 0 = 0 := by nlinarith [sq_nonneg (S.getD 0 0)]
    have h8 : norm2 S ^ 2 = 0 := by
      rw [norm2_sq]
      apply sum_eq_zero; intro k hk'
      rw [mem_range] at hk'
      have h9 : 0 ≤ S.getD k 0 := by
        rw [List.getD_eq_getElem _ _ hk']; exact hsv.nonneg _ (List.getElem_mem _)
      have h10 : S.getD k 0 ≤ S.getD 0 0 := by
        rcases Nat.eq_zero_or_pos k with rfl | hk0
        · exact le_rfl
        · rw [List.getD_eq_getElem _ _ hk', List.getD_eq_getElem _ _ (by omega)]
          exact List.pairwise_iff_getElem.mp hsv.sorted 0 k (by omega) hk' hk0
      rw [le_antisymm (h10.trans h7.le) h9]; norm_num
    exact pow_eq_zero_iff two_ne_zero |>.mp h8
  rcases h with h | h
  · unfold prepareTruncateL at h
    simp only at h
    split at h
    · rename_i e' hn
      cases h
      obtain ⟨h1, h2⟩ := main _ _ _ _ (hO.svd t.colMat) hn
      refine ⟨h1, ?_⟩
      have := normF_sq t.colMat
      rw [h2] at this
      rw [← colMat_sq t t rfl rfl rfl t.colMat.v (by
        intro i hi j hj x hx
        simp only [Ten.colMat]
        rw [idx_div hx, idx_mod hx])]
      have e2 : t.colMat.r = t.l := rfl
      have e3 : t.colMat.c = t.d * t.r := rfl
      rw [e2, e3] at this
      rw [← this]; norm_num
    · cases h
  · unfold prepareTruncateR at h
    simp only at h
    split at h
    · rename_i e' hn
      cases h
      obtain ⟨h1, h2⟩ := main _ _ _ _ (hO.svd t.rowMat) hn
      refine ⟨h1, ?_⟩
      have := normF_sq t.rowMat
      rw [h2] at this
      rw [← rowMat_sq t t rfl rfl rfl t.rowMat.v (by
        intro i hi j hj x hx
        simp only [Ten.rowMat]
        rw [idx_div hi, idx_mod hi])]
      have e2 : t.rowMat.r = t.d * t.l := rfl
      have e3 : t.rowMat.c = t.r := rfl
      rw [e2, e3] at this
      rw [← this]; norm_num
    · cases h

theorem normF_mul_diag {u : Mat ℂ} {s : List ℝ} {l : ℕ} (hr : u.r = l) (hc : u.c = s.length)
    (iso : ∀ k < s.length, ∀ k' < s.length, ∑ i ∈ range l, star (u.v i k) * u.v i k' = delta ℂ k k') :
    normF (u.dot (diagMat s)) = norm2 s := by
  apply normF_eq_of_sq (norm2_nonneg s)
  rw [norm2_sq]
  have e1 : (u.dot (diagMat s)).r = l := hr
  have e2 : (u.dot (diagMat s)).c = s.length := rfl
  rw [e1, e2, sum_comm]
  apply sum_congr rfl; intro j hj
  have h1 : ∀ i, (u.dot (diagMat s)).v i j = u.v i j * ((s.getD j 0 : ℝ) : ℂ) := by
    intro i
    simp only [Mat.dot, diagMat, hc]
    rw [sum_eq_single j]
    · simp
    · intro k _ hk; rw [if_neg hk]; simp
    · intro h; exact absurd hj h
  simp_rw [h1, Complex.normSq_mul, Complex.normSq_ofReal]
  rw [← sum_mul]
  have h2 := iso j (mem_range.mp hj) j (mem_range.mp hj)
  have h3 : ∑ i ∈ range l, Complex.normSq (u.v i j) = 1 := by
    apply Complex.ofReal_injective
    push_cast
    simp_rw [normSq_eq_star_mul]
    rw [h2]; simp [delta]
  rw [h3]; ring

theorem cutL_trunc {O : LinAlg} (hO : O.Spec) {sth : ℝ} {D : Option ℕ} (t a : Ten ℂ) (m : Mat ℂ) (z : ℝ)
    (h : cutL O sth D t = .ok (a, m, z)) : TruncL t a m z D := by
  unfold cutL at h
  split_ifs at h with h1
  · obtain ⟨h1, rfl⟩ := h1
    simp only [prepareTensor] at h
    exact (prepareTensorL_spec hO h).trunc
  · split at h
    · cases h
    rename_i u s out Z hp
    cases h
    obtain ⟨S, hS⟩ := prepareTruncateL_spec hO hp
    have hmc : (u.dot (diagMat s)).c = s.length := rfl
    have hmr : (u.dot (diagMat s)).r = t.l := hS.ur
    have hle : s.length ≤ S.length := by
      rw [hS.kept.2]; exact (truncS_prefix hS.sorted D sth).2.1
    have hSl := hS.Slen
    refine ⟨hS.outr, hS.od, hS.ol, hmr, by rw [hmc]; omega, by rw [hmc]; omega, ?_, hS.Z0, hS.Zsq, hS.orth, ?_⟩
    · intro D' hD'
      rw [hmc, hS.kept.2]
      exact (truncS_prefix hS.sorted D sth).2.2.1 D' hD'
    · intro h0
      rw [hmc] at h0
      rw [normF_mul_diag hS.ur hS.uc hS.iso]
      exact hS.unit (by rintro rfl; exact h0 rfl)

/-- Result of a truncating left-moving sweep over the sites `C0 ++ [t]`. -/
structure TrSweptL (l r : ℕ) (A C0 : List (Ten ℂ)) (t : Ten ℂ) (B : List (Ten ℂ)) (Z : ℂ)
    (C : List (Ten ℂ)) (m : Mat ℂ) (Z' : ℂ) (D : Option ℕ) : Prop where
  len : C.length = C0.length + 1
  left : Linked l A m.r
  right : Linked m.c (C ++ B) r
  orth : ∀ c ∈ C, RightOrth c
  ds : C.map Ten.d = C0.map Ten.d ++ [t.d]
  le : List.Forall₂ (fun c t : Ten ℂ => c.l ≤ t.l) C (C0 ++ [t])
  leD : ∀ D', D = some D' → ∀ c ∈ C, c.l ≤ D'
  norm : m.c ≠ 0 → normF m = 1
  tpos : m.c ≠ 0 → t.r ≠ 0
  Zeq : (∀ c ∈ C0, LeftOrth c) → t.sq = 1 → m.c ≠ 0 → Z' = Z

theorem absorbR_sq {t t' : Ten ℂ} {m : Mat ℂ} (h : absorbR t m = .ok t') (ho : LeftOrth t)
    (hm : normF m = 1) : t'.sq = 1 := by
  obtain ⟨h1, rfl⟩ := absorbR_eq h
  rw [sq_leftOrth_mul (f := ⟨t.l, m.c, t.d, fun i j s => ∑ k ∈ range t.r, t.v i k s * m.v k j⟩)
    (m := m) ho h1 rfl rfl rfl (fun _ _ _ _ _ _ => rfl), hm]
  norm_num

theorem sweepL_trunc {cut : Ten ℂ → Res (Ten ℂ × Mat ℂ × ℝ)} {D : Option ℕ}
    (hcut : ∀ t a m z, cut t = .ok (a, m, z) → TruncL t a m z D) {l r : ℕ} (A : List (Ten ℂ)) :
    ∀ (C0 : List (Ten ℂ)) (t : Ten ℂ) (B : List (Ten ℂ)) (m0 : Mat ℂ) (Z : ℂ)
      (w : Sweep), Linked l (A ++ C0 ++ t :: B) r →
      sweepL cut A.length (C0.length + 1) ⟨A ++ C0 ++ t :: B, m0, Z⟩ = .ok w →
      ∃ C, w.ts = A ++ C ++ B ∧ TrSweptL l r A C0 t B Z C w.mat w.Z D := by
  intro C0
  have hz1 : ∀ {t a m z}, TruncL t a m z D → t.sq = 1 → z = 1 := by
    intro t a m z h h1
    have := h.zsq; rw [h1] at this
    have h0 := h.z0
    nlinarith
  induction C0 using List.reverseRecOn with
  | nil =>
    intro t B m0 Z w hl h
    simp only [List.append_nil] at h hl
    simp only [List.length_nil, Nat.add_zero, sweepL, getT_append] at h
    split at h
    · cases h
    · rename_i a m z hc
      simp only [gt_iff_lt, lt_irrefl, if_false, set_append, Except.ok.injEq] at h
      subst h
      have hx := hcut _ _ _ _ hc
      rw [linked_append] at hl
      obtain ⟨n, hA, ht⟩ := hl
      obtain ⟨rfl, hB⟩ := ht
      refine ⟨[a], by simp, ⟨rfl, ?_, ?_, ?_, ?_, ?_, ?_, hx.norm, ?_, ?_⟩⟩
      · simpa [hx.rr] using hA
      · exact ⟨hx.l, by rw [hx.r]; exact hB⟩
      · intro c hc'; simp only [List.mem_singleton] at hc'; subst hc'; exact hx.orth
      · simp [hx.d]
      · exact List.Forall₂.cons (by rw [hx.l]; exact hx.le) List.Forall₂.nil
      · intro D' hD' c hc'; simp only [List.mem_singleton] at hc'; subst hc'
        rw [hx.l]; exact hx.leD D' hD'
      · intro h0 h1
        have := hx.le'; rw [h1, mul_zero] at this; exact h0 (by simpa using this)
      · intro _ h1 _
        simp only [hz1 hx h1]; simp
  | append_singleton C0 t1 ih =>
    intro t B m0 Z w hl h
    simp only [List.length_append, List.length_cons, List.length_nil, Nat.zero_add] at h
    rw [sweepL] at h
    have hlen : A.length + (C0.length + 1) = (A ++ (C0 ++ [t1])).length := by simp
    simp only [getT_append' _ _ _ hlen, set_append' _ _ _ _ hlen] at h
    split at h
    · cases h
    · rename_i a m z hc
      have hlt : A.length + (C0.length + 1) > A.length := by omega
      rw [if_pos hlt] at h
      have hx := hcut _ _ _ _ hc
      rw [linked_append] at hl
      obtain ⟨n, hA, ht⟩ := hl
      obtain ⟨rfl, hB⟩ := ht
      have e2 : A ++ (C0 ++ [t1]) ++ a :: B = (A ++ C0) ++ t1 :: (a :: B) := by simp
      have hlen2 : A.length + (C0.length + 1) - 1 = (A ++ C0).length := by
        simp
      rw [e2, getT_append' _ _ _ hlen2] at h
      simp only at h
      rw [show A ++ (C0 ++ [t1]) = (A ++ C0) ++ [t1] by simp, linked_append] at hA
      obtain ⟨n', hA', ht1⟩ := hA
      obtain ⟨rfl, ht1r⟩ := ht1
      have ht1r : t1.r = t.l := ht1r
      obtain ⟨t1', habs⟩ : ∃ t1', absorbR t1 m = .ok t1' := ⟨_, absorbR_ok (by rw [ht1r, hx.rr])⟩
      rw [habs] at h
      simp only at h
      rw [set_append' _ _ _ _ hlen2] at h
      obtain ⟨-, hte⟩ := absorbR_eq habs
      have hl' : Linked l (A ++ C0 ++ t1' :: a :: B) r := by
        rw [linked_append]
        refine ⟨t1.l, hA', by rw [hte], ?_⟩
        exact ⟨by rw [hte]; exact hx.l, by rw [hx.r]; exact hB⟩
      obtain ⟨C, hw, hS⟩ := ih t1' (a :: B) _ _ w hl' h
      have ht1r' : t1'.r = m.c := by rw [hte]
      refine ⟨C ++ [a], by rw [hw]; simp, ⟨by simp [hS.len], hS.left, ?_, ?_, ?_, ?_, ?_, hS.norm, ?_, ?_⟩⟩
      · have := hS.right; simpa using this
      · intro c hc'
        rcases List.mem_append.mp hc' with hc' | hc'
        · exact hS.orth c hc'
        · rw [List.mem_singleton.mp hc']; exact hx.orth
      · have := hS.ds; simp only [List.map_append, List.map_cons, List.map_nil] at this ⊢
        rw [this]; simp [hx.d, hte]
      · have h2 := hS.le
        refine List.rel_append ?_ (List.Forall₂.cons (by rw [hx.l]; exact hx.le) List.Forall₂.nil)
        have h3 : (C0 ++ [t1']).map Ten.l = (C0 ++ [t1]).map Ten.l := by simp [hte]
        have h4 := (List.forall₂_map_right_iff (R := fun (c : Ten ℂ) (n : ℕ) => c.l ≤ n)
          (f := Ten.l)).mpr h2
        rw [h3] at h4
        exact (List.forall₂_map_right_iff (R := fun (c : Ten ℂ) (n : ℕ) => c.l ≤ n) (f := Ten.l)).mp h4
      · intro D' hD' c hc'
        rcases List.mem_append.mp hc' with hc' | hc'
        · exact hS.leD D' hD' c hc'
        · rw [List.mem_singleton.mp hc', hx.l]; exact hx.leD D' hD'
      · intro h0 h1
        have h2 := hS.tpos h0
        rw [ht1r'] at h2
        have := hx.le'; rw [h1, mul_zero] at this; exact h2 (by simpa using this)
      · intro ho h1 h0
        have h2 := hS.tpos h0
        rw [ht1r'] at h2
        have hz := hS.Zeq (fun c hc' => ho c (by simp [hc']))
          (absorbR_sq habs (ho t1 (by simp)) (hx.norm h2)) h0
        rw [hz, hz1 hx h1]; simp

/-- In the canonical regime a truncating sweep never fails. -/
theorem sweepL_trunc_succeeds {cut : Ten ℂ → Res (Ten ℂ × Mat ℂ × ℝ)} {D : Option ℕ} {P : Prop}
    (hcut : ∀ t a m z, cut t = .ok (a, m, z) → TruncL t a m z D)
    (hok : ∀ t, (t.sq = 1 ∨ (P ∧ t.r = 0)) → ∃ r, cut t = .ok r)
    (hP : ∀ t a m z, cut t = .ok (a, m, z) → m.c = 0 → P) {l r : ℕ} (A : List (Ten ℂ)) :
    ∀ (C0 : List (Ten ℂ)) (t : Ten ℂ) (B : List (Ten ℂ)) (m0 : Mat ℂ) (Z : ℂ),
      Linked l (A ++ C0 ++ t :: B) r → (∀ c ∈ C0, LeftOrth c) → (t.sq = 1 ∨ (P ∧ t.r = 0)) →
      ∃ w, sweepL cut A.length (C0.length + 1) ⟨A ++ C0 ++ t :: B, m0, Z⟩ = .ok w := by
  intro C0
  induction C0 using List.reverseRecOn with
  | nil =>
    intro t B m0 Z hl _ ht
    obtain ⟨⟨a, m, z⟩, hc⟩ := hok t ht
    simp only [List.append_nil]
    simp only [List.length_nil, Nat.add_zero, sweepL, getT_append, hc]
    simp only [gt_iff_lt, lt_irrefl, if_false]
    exact ⟨_, rfl⟩
  | append_singleton C0 t1 ih =>
    intro t B m0 Z hl ho ht
    obtain ⟨⟨a, m, z⟩, hc⟩ := hok t ht
    simp only [List.length_append, List.length_cons, List.length_nil, Nat.zero_add]
    rw [sweepL]
    have hlen : A.length + (C0.length + 1) = (A ++ (C0 ++ [t1])).length := by simp
    simp only [getT_append' _ _ _ hlen, set_append' _ _ _ _ hlen, hc]
    have hlt : A.length + (C0.length + 1) > A.length := by omega
    rw [if_pos hlt]
    have hx := hcut _ _ _ _ hc
    rw [linked_append] at hl
    obtain ⟨n, hA, ht'⟩ := hl
    obtain ⟨rfl, hB⟩ := ht'
    have e2 : A ++ (C0 ++ [t1]) ++ a :: B = (A ++ C0) ++ t1 :: (a :: B) := by simp
    have hlen2 : A.length + (C0.length + 1) - 1 = (A ++ C0).length := by
      simp
    rw [e2, getT_append' _ _ _ hlen2]
    simp only
    rw [show A ++ (C0 ++ [t1]) = (A ++ C0) ++ [t1] by simp, linked_append] at hA
    obtain ⟨n', hA', ht1⟩ := hA
    obtain ⟨rfl, ht1r⟩ := ht1
    have ht1r : t1.r = t.l := ht1r
    obtain ⟨t1', habs⟩ : ∃ t1', absorbR t1 m = .ok t1' := ⟨_, absorbR_ok (by rw [ht1r, hx.rr])⟩
    rw [habs]
    simp only
    rw [set_append' _ _ _ _ hlen2]
    obtain ⟨-, hte⟩ := absorbR_eq habs
    have hl' : Linked l (A ++ C0 ++ t1' :: a :: B) r := by
      rw [linked_append]
      refine ⟨t1.l, hA', by rw [hte], ?_⟩
      exact ⟨by rw [hte]; exact hx.l, by rw [hx.r]; exact hB⟩
    apply ih t1' (a :: B) m _ hl' (fun c hc' => ho c (by simp [hc']))
    by_cases h0 : m.c = 0
    · right; exact ⟨hP _ _ _ _ hc h0, by rw [hte]; exact h0⟩
    · left; exact absorbR_sq habs (ho t1 (by simp)) (hx.norm h0)

end

end PyTeN
