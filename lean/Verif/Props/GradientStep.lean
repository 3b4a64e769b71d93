import Verif.Props.Gradient
import Verif.Props.VumpsFirst
import Verif.Props.Grad
import Verif.Mps.Canon

/-! # C100: the steps of `HomogeneousIMPSengine` -/

namespace PyTeN.GradOpt
open Finset Transfer Regauge Vumps Steady Matrix
noncomputable section

/-! ## The new state -/

section
variable {O : LinAlg}

/-- Spec: `m'` is `m` divided by a number, except for the singular values up to `1e-14` of `m`, and has unit norm. -/
def Rescaled (m m' : Ten ℂ) : Prop :=
  m'.l = m.l ∧ m'.r = m.r ∧ m'.d = m.d ∧ ∃ ν : ℝ, 0 ≤ ν ∧ (0 < ν → m'.sq = 1) ∧
    ν ^ 2 + (⟨m.l, m.r, m.d, fun i j s => m.v i j s - ν * m'.v i j s⟩ : Ten ℂ).sq = m.sq ∧
    (⟨m.l, m.r, m.d, fun i j s => m.v i j s - ν * m'.v i j s⟩ : Ten ℂ).sq ≤ (m.r : ℝ) * (1e-14 : ℝ) ^ 2

theorem normF_diag_mul {v : Mat ℂ} {s : List ℝ} {r : ℕ} (hc : v.c = r)
    (iso : ∀ k < s.length, ∀ k' < s.length, ∑ j ∈ range r, v.v k j * star (v.v k' j) = delta ℂ k k') : normF ((diagMat s).dot v) = norm2 s := by
  apply normF_eq_of_sq (norm2_nonneg s)
  rw [norm2_sq]
  have e1 : ((diagMat s).dot v).r = s.length := rfl
  have e2 : ((diagMat s).dot v).c = r := hc
  rw [e1, e2]
  refine sum_congr rfl fun k hk => ?_
  have h1 : ∀ j, ((diagMat s).dot v).v k j = ((s.getD k 0 : ℝ) : ℂ) * v.v k j := by
    intro j
    simp only [Mat.dot, diagMat]
    rw [sum_eq_single k]
    · simp
    · intro b _ hb; rw [if_neg (Ne.symm hb)]; simp
    · intro h; exact absurd hk h
  simp_rw [h1, Complex.normSq_mul, Complex.normSq_ofReal]
  rw [← mul_sum]
  have h3 : ∑ j ∈ range r, Complex.normSq (v.v k j) = 1 := by
    apply Complex.ofReal_injective
    push_cast
    rw [← delta_self k, ← iso k (mem_range.1 hk) k (mem_range.1 hk)]
    exact sum_congr rfl fun j _ => by rw [normSq_eq_star_mul, mul_comm]
  rw [h3]; ring

theorem norm2_unit {s : List ℝ} (h : s ≠ [] → norm2 s = 1) : normalise s = .ok s := by
  unfold normalise
  split_ifs with h1 h2
  · rw [h1]
  · rw [h h1] at h2; exact absurd h2 one_ne_zero
  · rw [h h1]; simp

theorem dropped {S : List ℝ} (hs : S.Pairwise (· ≥ ·)) (h0 : ∀ x ∈ S, 0 ≤ x) : ((S.drop (truncS S none 1e-14).length).map (fun x => x ^ 2)).sum ≤ (S.length : ℝ) * (1e-14 : ℝ) ^ 2 := by
  have e : truncS S none 1e-14 = S.filter (1e-14 < ·) := by
    unfold truncS
    rw [if_pos (by norm_num)]
  have hsmall : ∀ x ∈ S.drop (truncS S none 1e-14).length, x ≤ 1e-14 := by
    rw [e]
    intro x hx
    have hf := filter_sorted 1e-14 hs
    by_contra hc
    have h3 : S.filter (1e-14 < ·) = (S.take (S.filter (1e-14 < ·)).length).filter (1e-14 < ·) ++ (S.drop (S.filter (1e-14 < ·)).length).filter (1e-14 < ·) := by
      rw [← List.filter_append, List.take_append_drop]
    have h4 : x ∈ (S.drop (S.filter (1e-14 < ·)).length).filter (1e-14 < ·) := List.mem_filter.2 ⟨hx, by simpa using hc⟩
    have h5 : (S.take (S.filter (1e-14 < ·)).length).filter (1e-14 < ·) = S.filter (1e-14 < ·) := by
      rw [← hf]
      simp
    have h6 := congrArg List.length h3
    rw [h5, List.length_append] at h6
    have := List.length_pos_of_mem h4
    omega
  have hb := List.sum_le_card_nsmul ((S.drop (truncS S none 1e-14).length).map (fun x => x ^ 2)) ((1e-14 : ℝ) ^ 2) (by
    intro y hy
    obtain ⟨x, hx, rfl⟩ := List.mem_map.1 hy
    exact pow_le_pow_left₀ (h0 x (List.mem_of_mem_drop hx)) (hsmall x hx) 2)
  rw [List.length_map, nsmul_eq_mul] at hb
  refine hb.trans (mul_le_mul_of_nonneg_right ?_ (by positivity))
  rw [List.length_drop]
  exact_mod_cast Nat.sub_le _ _

theorem norm2_split (S : List ℝ) (n : ℕ) : norm2 (S.take n) ^ 2 + ((S.drop n).map (fun x => x ^ 2)).sum = norm2 S ^ 2 := by
  have hs : ∀ l : List ℝ, norm2 l ^ 2 = (l.map fun x => x ^ 2).sum := fun l => by
    unfold norm2
    exact Real.sq_sqrt (List.sum_nonneg fun x hx => by
      obtain ⟨y, -, rfl⟩ := List.mem_map.1 hx
      positivity)
  rw [hs, hs, ← List.sum_append, ← List.map_append, List.take_append_drop]

/-- The normalisation at the end of a step. -/
theorem rescale (hO : O.Spec) (m : Ten ℂ) : ∃ A s v Z m', prepareTruncateR O m none 1e-14 = .ok (A, s, v, Z) ∧ normalise s = .ok s ∧
    absorbR A ((diagMat s).dot v) = .ok m' ∧ Rescaled m m' := by
  obtain ⟨⟨A, s, v, Z⟩, h1⟩ : ∃ r, prepareTruncateR O m none 1e-14 = .ok r := by
    unfold prepareTruncateR
    simp only
    split
    · rename_i x hx
      exfalso
      unfold normalise at hx
      split_ifs at hx with a b
      obtain ⟨y, hy⟩ := List.exists_mem_of_ne_nil _ a
      have hpos : 1e-14 < y := (truncS_prefix (hO.svd m.rowMat).sorted none 1e-14).2.2.2 (by norm_num) y hy
      have h2 : norm2 (truncS (O.svd m.rowMat).2.1 none 1e-14) ^ 2 = 0 := by rw [b]; norm_num
      have h3 : y ^ 2 ≤ norm2 (truncS (O.svd m.rowMat).2.1 none 1e-14) ^ 2 := by
        unfold norm2
        rw [Real.sq_sqrt (List.sum_nonneg fun x hx => by
          obtain ⟨y, -, rfl⟩ := List.mem_map.1 hx
          positivity)]
        exact List.single_le_sum (by
          intro x hx
          obtain ⟨y, -, rfl⟩ := List.mem_map.1 hx
          positivity) _ (List.mem_map.2 ⟨y, hy, rfl⟩)
      rw [h2] at h3
      have : (0 : ℝ) < y := lt_trans (by norm_num) hpos
      nlinarith
    · exact ⟨_, rfl⟩
  obtain ⟨S, hS⟩ := prepareTruncateR_spec hO h1
  have hsn := norm2_unit hS.unit
  have h3 := absorbR_ok (t := A) (m := (diagMat s).dot v) hS.outr
  refine ⟨A, s, v, Z, _, h1, hsn, h3, hS.ol, hS.vc, hS.od, norm2 (S.take s.length), norm2_nonneg _, ?_, ?_, ?_⟩
  · intro hν
    refine absorbR_sq h3 hS.orth ?_
    rw [normF_diag_mul hS.vc hS.iso]
    refine hS.unit ?_
    rintro rfl
    simp [norm2] at hν
  all_goals
    have hv : ∀ i j x, ((norm2 (S.take s.length) : ℝ) : ℂ) * ∑ k ∈ range A.r, A.v i k x * ((diagMat s).dot v).v k j =
        ∑ k ∈ range s.length, A.v i k x * ((S.getD k 0 : ℝ) : ℂ) * v.v k j := by
      intro i j x
      rw [mul_sum, hS.outr]
      refine sum_congr rfl fun k hk => ?_
      rw [hS.vals k (mem_range.1 hk)]
      simp only [Mat.dot, diagMat]
      rw [sum_eq_single k]
      · simp only [if_true]
        push_cast
        ring
      · intro b _ hb; rw [if_neg (Ne.symm hb)]; simp
      · intro h; exact absurd hk h
    have he := hS.err
    have hsq : (⟨m.l, m.r, m.d, fun i j x => m.v i j x - ((norm2 (S.take s.length) : ℝ) : ℂ) * ∑ k ∈ range A.r, A.v i k x * ((diagMat s).dot v).v k j⟩ : Ten ℂ).sq =
        ((S.drop s.length).map (fun x => x ^ 2)).sum := by
      simp only [hv]
      exact he
  · rw [hsq, norm2_split, hS.Sn, hS.Zsq]
  · rw [hsq, hS.kept.2]
    refine (dropped hS.sorted hS.nonneg).trans (mul_le_mul_of_nonneg_right ?_ (by positivity))
    rw [hS.Slen]
    exact_mod_cast min_le_right _ _

/-- The singular values of an isometric tensor. -/
theorem svd_left {t : Ten ℂ} {u v : Mat ℂ} {s : List ℝ} (h : SVDSpec t.rowMat u s v) (ho : LeftOrth t) {k : ℕ} (hk : k < s.length) : s.getD k 0 = 1 := by
  have hlen := h.len
  rw [hlen] at hk
  have hr : t.rowMat.r = t.d * t.l := rfl
  have hc : t.rowMat.c = t.r := rfl
  have hcol : ∀ a < t.d * t.l, ∑ j ∈ range t.r, t.rowMat.v a j * star (v.v k j) = u.v a k * ((s.getD k 0 : ℝ) : ℂ) := by
    intro a ha
    have e1 : ∀ j ∈ range t.r, t.rowMat.v a j * star (v.v k j) = ∑ k' ∈ range (min t.rowMat.r t.rowMat.c), u.v a k' * ((s.getD k' 0 : ℝ) : ℂ) * (v.v k' j * star (v.v k j)) := by
      intro j hj
      rw [← h.prod a ha j (mem_range.1 hj), sum_mul]
      exact sum_congr rfl fun _ _ => by ring
    rw [sum_congr rfl e1, sum_comm, sum_eq_single k]
    · rw [← mul_sum, ← hc, h.isoV k hk k hk, delta_self, mul_one]
    · intro b hb hbk
      rw [← mul_sum, ← hc, h.isoV b (mem_range.1 hb) k hk]
      simp [delta, hbk]
    · intro hn; exact absurd (mem_range.2 hk) hn
  have hgram : ∀ j < t.r, ∀ j' < t.r, ∑ a ∈ range (t.d * t.l), star (t.rowMat.v a j) * t.rowMat.v a j' = delta ℂ j j' := by
    intro j hj j' hj'
    rw [← ho j hj j' hj', sum_range_mul', sum_comm]
    refine sum_congr rfl fun s _ => sum_congr rfl fun i hi => ?_
    simp only [Ten.rowMat]
    rw [idx_div (mem_range.1 hi), idx_mod (mem_range.1 hi)]
  have h1 : ∑ a ∈ range (t.d * t.l), star (u.v a k * ((s.getD k 0 : ℝ) : ℂ)) * (u.v a k * ((s.getD k 0 : ℝ) : ℂ)) = ((s.getD k 0 : ℝ) : ℂ) ^ 2 := by
    have e1 : ∀ a ∈ range (t.d * t.l), star (u.v a k * ((s.getD k 0 : ℝ) : ℂ)) * (u.v a k * ((s.getD k 0 : ℝ) : ℂ)) = star (u.v a k) * u.v a k * ((s.getD k 0 : ℝ) : ℂ) ^ 2 := by
      intro a _
      rw [star_mul', show star ((s.getD k 0 : ℝ) : ℂ) = ((s.getD k 0 : ℝ) : ℂ) from Complex.conj_ofReal _]
      ring
    rw [sum_congr rfl e1, ← sum_mul, ← hr, h.isoU k hk k hk, delta_self, one_mul]
  have h2 : ∑ a ∈ range (t.d * t.l), star (u.v a k * ((s.getD k 0 : ℝ) : ℂ)) * (u.v a k * ((s.getD k 0 : ℝ) : ℂ)) = 1 := by
    have e1 : ∀ a ∈ range (t.d * t.l), star (u.v a k * ((s.getD k 0 : ℝ) : ℂ)) * (u.v a k * ((s.getD k 0 : ℝ) : ℂ)) =
        ∑ j ∈ range t.r, ∑ j' ∈ range t.r, v.v k j * star (v.v k j') * (star (t.rowMat.v a j) * t.rowMat.v a j') := by
      intro a ha
      rw [← hcol a (mem_range.1 ha), star_sum, sum_mul_sum]
      refine sum_congr rfl fun j _ => sum_congr rfl fun j' _ => ?_
      rw [star_mul', star_star]
      ring
    rw [sum_congr rfl e1, sum_comm]
    have e2 : ∀ j ∈ range t.r, ∑ a ∈ range (t.d * t.l), ∑ j' ∈ range t.r, v.v k j * star (v.v k j') * (star (t.rowMat.v a j) * t.rowMat.v a j') = v.v k j * star (v.v k j) := by
      intro j hj
      rw [sum_comm, sum_eq_single j]
      · rw [← mul_sum, hgram j (mem_range.1 hj) j (mem_range.1 hj), delta_self, mul_one]
      · intro b hb hbj
        rw [← mul_sum, hgram j (mem_range.1 hj) b (mem_range.1 hb)]
        simp [delta, Ne.symm hbj]
      · intro hn; exact absurd hj hn
    rw [sum_congr rfl e2, ← hc, h.isoV k hk k hk, delta_self]
  have h3 : s.getD k 0 ^ 2 = 1 := by
    rw [h1] at h2
    exact_mod_cast h2
  have h4 : 0 ≤ s.getD k 0 := by
    rw [List.getD_eq_getElem _ _ (by rw [hlen]; exact hk)]
    exact h.nonneg _ (List.getElem_mem _)
  nlinarith

theorem rescale_left (hO : O.Spec) {m m' : Ten ℂ} (ho : LeftOrth m) (hm : m.r ≤ m.d * m.l) {A : Ten ℂ} {s : List ℝ} {v : Mat ℂ} {Z : ℝ}
    (h1 : prepareTruncateR O m none 1e-14 = .ok (A, s, v, Z)) (h2 : absorbR A ((diagMat s).dot v) = .ok m') :
    ∀ i < m.l, ∀ j < m.r, ∀ x < m.d, m'.v i j x = m.v i j x / (Real.sqrt m.r : ℝ) := by
  have hsv := hO.svd m.rowMat
  have hmin : min m.rowMat.r m.rowMat.c = m.r := min_eq_right hm
  unfold prepareTruncateR at h1
  simp only at h1
  set U := (O.svd m.rowMat).1
  set S := (O.svd m.rowMat).2.1
  set V := (O.svd m.rowMat).2.2
  have hone : ∀ k < S.length, S.getD k 0 = 1 := fun k hk => svd_left hsv ho hk
  have hlen : S.length = m.r := hsv.len.trans hmin
  have hS : truncS S none 1e-14 = S := by
    unfold truncS
    rw [if_pos (by norm_num)]
    simp only
    rw [List.filter_eq_self]
    intro x hx
    obtain ⟨k, hk, rfl⟩ := List.mem_iff_getElem.1 hx
    have := hone k hk
    rw [List.getD_eq_getElem _ _ hk] at this
    rw [this]
    norm_num
  have hn2 : norm2 S = Real.sqrt m.r := by
    rw [← Real.sqrt_sq (norm2_nonneg S), norm2_sq, sum_congr rfl fun k hk => by rw [hone k (mem_range.1 hk)]]
    simp [hlen]
  rw [hS] at h1
  split at h1
  · cases h1
  rename_i s' hn
  simp only [Except.ok.injEq, Prod.mk.injEq] at h1
  obtain ⟨rfl, rfl, rfl, -⟩ := h1
  obtain ⟨n1, n2, n3⟩ := normalise_ok hn
  obtain ⟨-, rfl⟩ := absorbR_eq h2
  intro i hi j hj x hx
  have hpos : 0 < norm2 S := (n2 (by
    intro h0
    rw [h0] at hlen
    simp at hlen
    omega)).2
  have hs' : ∀ k < m.r, s'.getD k 0 = 1 / norm2 S := by
    intro k hk
    have := n3 k
    rw [hone k (by rw [hlen]; exact hk)] at this
    field_simp
    linarith
  have hmk : min S.length U.c = m.r := by rw [hsv.u_c, hmin, hlen, min_self]
  dsimp only
  rw [hmk, ← hn2]
  have hp := hsv.prod (x * m.l + i) (idx_lt hx hi) j hj
  rw [hmin] at hp
  have e0 : m.rowMat.v (x * m.l + i) j = m.v i j x := by
    simp only [Ten.rowMat]
    rw [idx_div hi, idx_mod hi]
  rw [← e0, ← hp, sum_div]
  refine sum_congr rfl fun k hk => ?_
  have hk := mem_range.1 hk
  rw [hone k (by rw [hlen]; exact hk)]
  simp only [Mat.dot, diagMat]
  rw [sum_eq_single k]
  · rw [if_pos rfl, hs' k hk]
    push_cast
    ring
  · intro b _ hb
    rw [if_neg (Ne.symm hb), zero_mul]
  · intro hn'
    exact absurd (mem_range.2 (by rw [n1, hlen]; exact hk)) hn'

end

section
variable {X : Ext} {o : Opts} {e : Vumps.Eng} {mps m' : Ten ℂ} {pt : Pt} {D B : ℕ} {W : Mpo ℂ} {η η' α : ℝ} {p q : ℕ → ℕ → ℂ}

theorem moved (hl : pt.tensor.l = pt.grad.l) (hr : pt.tensor.r = pt.grad.r) (hd : pt.tensor.d = pt.grad.d) (hlen : pt.tensor.r = pt.lam.length) (hpos : ∀ x ∈ pt.lam, 0 < x) :
    ∃ opt m : Ten ℂ, subT pt.tensor α pt.grad = .ok opt ∧ absorbR opt (diagMat (pt.lam.map (1 / ·))) = .ok m ∧ (m.l = pt.tensor.l ∧ m.r = pt.tensor.r ∧ m.d = pt.tensor.d) ∧
      ∀ i j, j < pt.tensor.r → ∀ s, m.v i j s * ((pt.lam.getD j 0 : ℝ) : ℂ) = pt.tensor.v i j s - α * pt.grad.v i j s := by
  have h1 : subT pt.tensor α pt.grad = .ok ⟨pt.grad.l, pt.grad.r, pt.grad.d, fun i j s => pt.tensor.v i j s - α * pt.grad.v i j s⟩ := by
    unfold subT
    rw [if_pos ⟨hl, hr, hd⟩]
  have hlen' : (pt.lam.map (1 / ·)).length = pt.tensor.r := by rw [List.length_map, hlen]
  have h2 := absorbR_ok (t := ⟨pt.grad.l, pt.grad.r, pt.grad.d, fun i j s => pt.tensor.v i j s - α * pt.grad.v i j s⟩) (m := diagMat (pt.lam.map (1 / ·))) (hr.symm.trans hlen'.symm)
  refine ⟨_, _, h1, h2, ⟨hl.symm, hlen', hd.symm⟩, fun i j hj s => ?_⟩
  dsimp only
  rw [sum_eq_single j]
  · have hj' : j < pt.lam.length := hlen ▸ hj
    have hx : 0 < pt.lam.getD j 0 := by
      rw [List.getD_eq_getElem _ _ hj']
      exact hpos _ (List.getElem_mem _)
    have e1 : (diagMat (pt.lam.map (1 / ·))).v j j = ((1 / pt.lam.getD j 0 : ℝ) : ℂ) := by
      simp only [diagMat, if_true]
      rw [List.getD_eq_getElem _ _ (by rw [List.length_map]; exact hj'), List.getElem_map, List.getD_eq_getElem _ _ hj']
    rw [e1, mul_assoc, ← Complex.ofReal_mul, one_div, inv_mul_cancel₀ hx.ne', Complex.ofReal_one, mul_one]
  · intro b _ hb
    simp [diagMat, hb]
  · intro hn
    exact absurd (mem_range.2 (hr ▸ hj)) hn

/-- **C100 (the new state).**  A step always gives a new state: `(_tensor-alpha*_grad)·lam**(-1)`, divided by a number such that its norm is one,
and without the singular values up to `1e-14`.  No other exception than those of the gradient is possible. -/
theorem C100_move (hX : Routines X) (hi : Input D B o W e mps η η' p q) (h : point X o e mps = .ok pt) (α : ℝ) :
    ∃ m m' : Ten ℂ, move X.O pt α = .ok m' ∧ Rescaled m m' ∧ (m.l = D ∧ m.r = D ∧ m.d = W.din) ∧
      ∀ i < D, ∀ j < D, ∀ s < W.din, m.v i j s * ((pt.lam.getD j 0 : ℝ) : ℂ) = pt.tensor.v i j s - α * pt.grad.v i j s := by
  obtain ⟨-, hC, hd, hT⟩ := point_canon hX hi h
  obtain ⟨-, -, ⟨g1, g2, g3⟩, -⟩ := C100_gradient hX hi h
  have tl : pt.tensor.l = D := hT.1.trans hC.Al
  have tr : pt.tensor.r = D := hT.2.1.trans hC.Ar
  have td : pt.tensor.d = W.din := hT.2.2.1.trans hd
  obtain ⟨opt, m, h1, h2, ⟨m1, m2, m3⟩, hm⟩ := moved (α := α) (tl.trans g1.symm) (tr.trans g2.symm) (td.trans g3.symm) (tr.trans hC.len.symm) hC.pos
  obtain ⟨A, s, v, Z, m', h3, h4, h5, h6⟩ := rescale hX.O m
  refine ⟨m, m', ?_, h6, ⟨m1.trans tl, m2.trans tr, m3.trans td⟩, fun i _ j hj s _ => hm i j (by rw [tr]; exact hj) s⟩
  unfold move
  rw [h1]
  simp only [andThen]
  rw [if_neg fun h0 => lt_irrefl _ (hC.pos 0 h0), h2]
  simp only [h3, h4, h5]

/-- **C100 (fixed points).**  Where the gradient vanishes, the new state is the left-isometric form of the old one up to the factor `1/sqrt(D)`,
for every step size. -/
theorem C100_fixed (hX : Routines X) (hi : Input D B o W e mps η η' p q) (h : point X o e mps = .ok pt) (h0 : pt.normgrad = 0) (hm' : move X.O pt α = .ok m') :
    m'.l = D ∧ m'.r = D ∧ m'.d = W.din ∧ ∀ i < D, ∀ j < D, ∀ s < W.din, m'.v i j s = pt.A.v i j s / (Real.sqrt D : ℝ) := by
  obtain ⟨-, hC, hd, hT⟩ := point_canon hX hi h
  obtain ⟨-, -, ⟨g1, g2, g3⟩, -, -, h5⟩ := C100_gradient hX hi h
  have tl : pt.tensor.l = D := hT.1.trans hC.Al
  have tr : pt.tensor.r = D := hT.2.1.trans hC.Ar
  have td : pt.tensor.d = W.din := hT.2.2.1.trans hd
  obtain ⟨opt, m, h1, h2, ⟨m1, m2, m3⟩, hm⟩ := moved (α := α) (tl.trans g1.symm) (tr.trans g2.symm) (td.trans g3.symm) (tr.trans hC.len.symm) hC.pos
  obtain ⟨A, s, v, Z, m'', h3, h4, h6, h7⟩ := rescale hX.O m
  have hm2 : move X.O pt α = .ok m'' := by
    unfold move
    rw [h1]
    simp only [andThen]
    rw [if_neg fun h0 => lt_irrefl _ (hC.pos 0 h0), h2]
    simp only [h3, h4, h6]
  rw [hm'] at hm2
  cases hm2
  have hg0 : ∀ i < D, ∀ j < D, ∀ s < W.din, pt.grad.v i j s = 0 := by
    rw [h5] at h0
    have := PyTeN.Canon.ten_sq_zero (t := pt.grad) h0
    rw [g1, g2, g3] at this
    exact this
  have hmA : ∀ i < D, ∀ j < D, ∀ s < W.din, m.v i j s = pt.A.v i j s := by
    intro i hi' j hj s hs
    have e1 := hm i j (by rw [tr]; exact hj) s
    rw [hg0 i hi' j hj s hs, mul_zero, sub_zero, hT.2.2.2 i (by rw [hC.Al]; exact hi') j (by rw [hC.Ar]; exact hj) s (by rw [hd]; exact hs)] at e1
    refine mul_right_cancel₀ ?_ e1
    have hj' : j < pt.lam.length := by rw [hC.len]; exact hj
    rw [List.getD_eq_getElem _ _ hj']
    exact_mod_cast (hC.pos _ (List.getElem_mem _)).ne'
  have ho : LeftOrth m := by
    intro j hj j' hj'
    rw [m2, tr] at hj hj'
    rw [← hC.left j (by rw [hC.Ar]; exact hj) j' (by rw [hC.Ar]; exact hj'), m1, tl, m3, td, hC.Al, hd]
    refine sum_congr rfl fun s hs => sum_congr rfl fun i hi' => ?_
    rw [hmA i (mem_range.1 hi') j hj s (mem_range.1 hs), hmA i (mem_range.1 hi') j' hj' s (mem_range.1 hs)]
  have hle : m.r ≤ m.d * m.l := by
    rw [m2, tr, m3, td, m1, tl]
    rcases Nat.eq_zero_or_pos D with h8 | h8
    · rw [h8]; exact Nat.zero_le _
    · refine Nat.le_mul_of_pos_left D (Nat.pos_of_ne_zero fun h9 => ?_)
      have := hC.left 0 (by rw [hC.Ar]; exact h8) 0 (by rw [hC.Ar]; exact h8)
      rw [hd, h9, delta_self] at this
      simp at this
  have hfin := rescale_left hX.O ho hle h3 h6
  rw [m1, tl, m2, tr, m3, td] at hfin
  refine ⟨h7.1.trans (m1.trans tl), h7.2.1.trans (m2.trans tr), h7.2.2.1.trans (m3.trans td), fun i hi' j hj s hs => ?_⟩
  rw [hfin i hi' j hj s hs, hmA i hi' j hj s hs]

/-- **C100 (termination).**  With converging solvers the gradient is computed. -/
theorem C100_point_total (hX : Routines X) (hc : ∀ i, ConvergesK (X.eigs i) o.numeig) (hcS : LgmresConverges X.solve) (hf : 1 ≤ X.fuel) (hk : 1 ≤ o.numeig)
    (hkD : o.numeig + 1 < D * D) (hi : Input D B o W e mps η η' p q) : ∃ pt, point X o e mps = .ok pt := by
  obtain ⟨G, lam, h1⟩ := C100_regauge_total (Dmax := mps.l) hX.O hX.eigh hX.eigs hc hk hkD hf hi.pinv hi.trunc hi.l hi.r hi.right hi.left
  obtain ⟨hS, -, rfl⟩ := C100_regauge hX.O hX.eigh hX.eigs hi.pinv hi.trunc hi.l hi.r hi.right hi.left h1
  have h2 := absorbL_ok (m := diagMat lam) (t := G) (hS.len.trans hS.l.symm)
  have h3 := absorbR_ok (m := diagMat lam) (t := G) (hS.r.trans hS.len.symm)
  generalize (⟨(diagMat lam).r, G.r, G.d, fun i j s => ∑ k ∈ range G.l, (diagMat lam).v i k * G.v k j s⟩ : Ten ℂ) = A at h2
  generalize (⟨G.l, (diagMat lam).c, G.d, fun i j s => ∑ k ∈ range G.r, G.v i k s * (diagMat lam).v k j⟩ : Ten ℂ) = Bt at h3
  have hC := hS.canon hi.pinv hi.r hi.right hi.left h2 h3
  have hd : A.d = W.din := by rw [(absorbL_eq h2).2]; exact hS.d.trans hi.d
  have h4 := absorbL_ok (m := diagMat lam) (t := Bt) (hC.len.trans hC.Bl.symm)
  obtain ⟨D0, hb⟩ := hi.built
  have hb' : Built D B W { e with D := D } := built_D hb
  have hr := isM_rho hC.len
  obtain ⟨lb, en, h5⟩ := envLeft_total (X := X) hX.solve hcS hi.site hd hC.Al hC.Ar hC.left hb' hr hr hr hC.tr hC.tr hC.fixL (normal_uniq hC.normL)
  obtain ⟨rb, enR, h6⟩ := envRight_total (X := X) hX.solve hcS hi.site (hC.dd.symm.trans hd) hC.Bl hC.Br hC.right hb' hr hr hr hC.tr hC.tr hC.fixR (normal_uniq hC.normR)
  obtain ⟨k, hk1⟩ := envLeft_blk hX.solve hi.site hd hC.Al hC.Ar hb' hr hr hr h5
  obtain ⟨k', hk2⟩ := envRight_blk hX.solve hi.site (hC.dd.symm.trans hd) hC.Bl hC.Br hb' hr hr hr h6
  unfold point
  rw [h1]
  simp only [andThen, h2, h3, h4, hC.len, h5, h6]
  unfold contractionH
  rw [if_pos ⟨hk1.u.trans hC.len.symm, hk1.m.trans (by rw [hb.eW]; exact hi.site.l.symm), by rw [hb.eW]; exact hC.dd.symm.trans hd, hC.Br.trans hk2.u.symm,
    by rw [hb.eW]; exact hi.site.r.trans hk2.m.symm⟩]
  simp only
  unfold subT
  rw [if_pos ⟨hk1.w.trans hC.len.symm, hk2.w.trans hC.Br.symm, by rw [hb.eW]; exact hi.site.dd.trans (hd.symm.trans hC.dd)⟩]
  exact ⟨_, rfl⟩

/-! ## Runs -/

/-- Spec: a computation of gradients and new states without exceptions that agrees with the engine's where that raises none. -/
structure Agrees (X : Ext) (o : Opts) (e : Vumps.Eng) (G : Step.Grad (Ten ℂ) Pt ℝ) : Prop where
  eval : ∀ m pt, point X o e m = .ok pt → G.eval m = (pt, pt.normgrad)
  move : ∀ pt a m, move X.O pt a = .ok m → G.move pt a = m
  nonneg : ∀ m, 0 ≤ (G.eval m).2

theorem point_nonneg (h : point X o e mps = .ok pt) : 0 ≤ pt.normgrad := by
  obtain ⟨tw, H, -, -, -, -, -, -, -, -, h9, -⟩ := point_parts h
  rw [h9]
  exact sum_nonneg fun _ _ => sum_nonneg fun _ _ => sum_nonneg fun _ _ => Complex.normSq_nonneg _

theorem exists_agrees (X : Ext) (o : Opts) (e : Vumps.Eng) : ∃ G, Agrees X o e G := by
  let t : Ten ℂ := ⟨0, 0, 0, fun _ _ _ => 0⟩
  let z : Env ℂ := ⟨0, 0, 0, fun _ _ _ => 0⟩
  let d : Pt := ⟨t, [], t, t, t, z, z, t, 0, 0, 0, 0, 0⟩
  refine ⟨⟨fun m => match point X o e m with
    | .ok pt => (pt, pt.normgrad)
    | .error _ => (d, 0), fun pt a => match GradOpt.move X.O pt a with
    | .ok m => m
    | .error _ => t⟩, fun m pt h => ?_, fun pt a m h => ?_, fun m => ?_⟩
  · simp only [h]
  · simp only [h]
  · cases h : point X o e m with
    | ok pt => simp only [h]; exact point_nonneg h
    | error x => simp only [h]; exact le_rfl

variable {par : Step.Par ℝ} {eps : ℝ} {G : Step.Grad (Ten ℂ) Pt ℝ}

/-- **C100 (a step).**  A step of the engine is one of the backtracking descent of C50 with these gradients and new states. -/
theorem C100_step (hG : Agrees X o e G) {s : Step.Eng (Ten ℂ) Pt ℝ} {r : Step.Eng (Ten ℂ) Pt ℝ × Step.Entry Pt ℝ × Bool} (h : gradStep X o e par eps s = .ok r) :
    Step.doGradStep G par eps s = .ok r ∧ point X o e s.mps = .ok r.2.1.point ∧ r.2.1.norm = r.2.1.point.normgrad := by
  unfold gradStep at h
  obtain ⟨pt, h1, h⟩ := andThen_ok.1 h
  unfold Step.doGradStep
  rw [hG.eval _ _ h1]
  simp only
  split at h
  · cases h
  · rename_i c hc
    rw [hc]
    simp only
    split at h
    · cases h
    · rename_i b hb
      obtain ⟨m, h2, h⟩ := andThen_ok.1 h
      cases h
      rw [hb]
      simp only
      rw [hG.move _ _ _ h2]
      exact ⟨rfl, h1, trivial⟩
  · rename_i c hc
    rw [hc]
    obtain ⟨m, h2, h⟩ := andThen_ok.1 h
    cases h
    rw [← hG.move _ _ _ h2]
    exact ⟨rfl, h1, rfl⟩

theorem sim_agrees (hG : Agrees X o e G) {Nmax : ℤ} : ∀ (fuel : ℕ) (s : Step.Eng (Ten ℂ) Pt ℝ) (log : List (Step.Entry Pt ℝ)) {s' : Step.Eng (Ten ℂ) Pt ℝ}
    {rs : List (Step.Entry Pt ℝ)} {conv : Bool}, simulate X o e par eps Nmax fuel s log = .ok (s', rs, conv) →
    Step.simulate G par eps Nmax fuel s log = .ok (s', rs, conv) ∧ ∀ r ∈ rs, r ∈ log ∨ (∃ m, point X o e m = .ok r.point) ∧ r.norm = r.point.normgrad := by
  intro fuel
  induction fuel with
  | zero => intro s log s' rs conv h; cases h
  | succ n ih =>
    intro s log s' rs conv h
    unfold simulate at h
    unfold Step.simulate
    split at h
    · cases h
    · rename_i s1 r c h1
      obtain ⟨h2, h3, h4⟩ := C100_step hG h1
      simp only at h3 h4
      rw [h2]
      simp only
      have hlast : ∀ r' ∈ log ++ [r], r' ∈ log ∨ (∃ m, point X o e m = .ok r'.point) ∧ r'.norm = r'.point.normgrad := by
        intro r' hr'
        rcases List.mem_append.1 hr' with h5 | h5
        · exact .inl h5
        · rw [List.mem_singleton.1 h5]
          exact .inr ⟨⟨_, h3⟩, h4⟩
      split_ifs at h ⊢
      · cases h
        exact ⟨rfl, hlast⟩
      · cases h
        exact ⟨rfl, hlast⟩
      · obtain ⟨h5, h6⟩ := ih _ _ h
        refine ⟨h5, fun r' hr' => ?_⟩
        rcases h6 r' hr' with h7 | h7
        · exact hlast r' h7
        · exact .inr h7

/-- **C100 (runs).**  Every run that returns is one of backtracking descent (the theorem C50 on it applies), and every record of it is a point of
the engine: the canonical form, environments and gradient of a state. -/
theorem C100_run (hp : PyTeN.ParOK par) (he : 0 < eps) (ht : 0 ≤ par.normtol) {Nmax : ℤ} {fuel : ℕ} (hf : Nmax.toNat < fuel) {s' : Step.Eng (Ten ℂ) Pt ℝ}
    {rs : List (Step.Entry Pt ℝ)} {conv : Bool} (h : simulate X o e par eps Nmax fuel (Step.init par mps) [] = .ok (s', rs, conv)) :
    (∃ G, Agrees X o e G ∧ PyTeN.Follows G par mps none rs) ∧ (rs.length : ℤ) ≤ max 1 Nmax ∧
      (∀ r ∈ rs, (∃ m, point X o e m = .ok r.point) ∧ r.norm = r.point.normgrad) ∧
      ∃ init last, rs = init ++ [last] ∧ (∀ r ∈ init, eps ≤ r.point.normgrad) ∧ (conv = true ↔ last.point.normgrad < eps) := by
  obtain ⟨G, hG⟩ := exists_agrees X o e
  obtain ⟨h1, h2⟩ := sim_agrees hG fuel _ _ h
  have h3 : ∀ r ∈ rs, (∃ m, point X o e m = .ok r.point) ∧ r.norm = r.point.normgrad := fun r hr => (h2 r hr).resolve_left (by simp)
  obtain ⟨e2, rs2, c2, a1, a2, a3, -, init, last, a4, a5, a6, -⟩ := PyTeN.C50_backtracking G hp he ht hG.nonneg Nmax fuel hf mps
  rw [h1] at a1
  simp only [Except.ok.injEq, Prod.mk.injEq] at a1
  obtain ⟨-, rfl, rfl⟩ := a1
  refine ⟨⟨G, hG, a2⟩, a3, h3, init, last, a4, fun r hr => ?_, ?_⟩
  · rw [← (h3 r (by rw [a4]; exact List.mem_append_left _ hr)).2]
    exact a5 r hr
  · rw [← (h3 last (by rw [a4]; simp)).2]
    exact a6

/-- **C100 (the first step).**  With converging solvers the first step returns and is accepted. -/
theorem C100_first (hX : Routines X) (hc : ∀ i, ConvergesK (X.eigs i) o.numeig) (hcS : LgmresConverges X.solve) (hf : 1 ≤ X.fuel) (hk : 1 ≤ o.numeig)
    (hkD : o.numeig + 1 < D * D) (hi : Input D B o W e mps η η' p q) (hp : PyTeN.ParOK par) :
    ∃ s' r c, gradStep X o e par eps (Step.init par mps) = .ok (s', r, c) ∧ r.rejected = false ∧ s'.it = 1 := by
  obtain ⟨pt, h1⟩ := C100_point_total hX hc hcS hf hk hkD hi
  obtain ⟨c, rej, h2, -, h3, -⟩ := PyTeN.C50_call hp (s := (Step.init par mps : Step.Eng (Ten ℂ) Pt ℝ).ctl)
    ⟨⟨par.alpha, Or.inl rfl, by simp [Step.init], fun _ => rfl⟩, by simp [Step.init]⟩ (opt := pt.normgrad) (old := 10) 1 (.inl rfl)
  have hr : rej = false := by
    cases rej
    · rfl
    · exact absurd (h3.1 rfl).2 (by norm_num)
  subst hr
  obtain ⟨m, m', h4, -⟩ := C100_move hX hi h1 c.cur
  unfold gradStep
  rw [show (Step.init par mps : Step.Eng (Ten ℂ) Pt ℝ).mps = mps from rfl, h1]
  simp only [andThen]
  rw [show (Step.init par mps : Step.Eng (Ten ℂ) Pt ℝ).old = 10 from rfl, show (Step.init par mps : Step.Eng (Ten ℂ) Pt ℝ).it = 1 from rfl, h2]
  simp only [h4]
  exact ⟨_, _, _, rfl, rfl, rfl⟩

/-- **C100, disagreement**: with the default `numeig=3` a state of bond dimension up to 2 is refused by scipy. -/
theorem C100_violated_two {s : Step.Eng (Ten ℂ) Pt ℝ} (hl : s.mps.l = D) (hr : s.mps.r = D) (hD : D ≤ 2) (ho : 3 ≤ o.numeig) :
    gradStep X o e par eps s = .error .type := by
  unfold gradStep point regaugeSym tmEigs
  rw [if_neg (by rw [hl, hr]; simp), if_pos (by rw [hl]; nlinarith)]
  rfl

/-- **C100, disagreement**: `HomogeneousDiscretizedBosonEngine` ignores its keyword arguments, so that a state of bond dimension 2 is refused
for every `numeig` given. -/
theorem C100_violated_boson (kw : Kw) {pinv trunc : ℝ} {s : Step.Eng (Ten ℂ) Pt ℝ} (hl : s.mps.l = 2) (hr : s.mps.r = 2) :
    gradStep X ⟨(bosonKw kw).numeig, pinv, trunc⟩ e par eps s = .error .type :=
  C100_violated_two (D := 2) hl hr le_rfl le_rfl

/-- **C100 (density).**  The density printed by `HomogeneousDiscretizedBosonEngine` is the probability that a site is not empty, per length. -/
theorem C100_density (hX : Routines X) (hi : Input D B o W e mps η η' p q) (h : point X o e mps = .ok pt) (hd : 0 < W.din) (dx : ℝ) :
    dens pt.tensor dx = (1 - ∑ i ∈ range D, ∑ j ∈ range D, Complex.normSq (pt.tensor.v i j 0) : ℝ) / dx := by
  obtain ⟨-, hC, hd', hT⟩ := point_canon hX hi h
  have tl : pt.tensor.l = D := hT.1.trans hC.Al
  have tr : pt.tensor.r = D := hT.2.1.trans hC.Ar
  have td : pt.tensor.d = W.din := hT.2.2.1.trans hd'
  have hn := canon_sq hC hT
  unfold Ten.nsq at hn
  rw [tl, tr, td] at hn
  have h1 : (1 - ∑ i ∈ range D, ∑ j ∈ range D, Complex.normSq (pt.tensor.v i j 0) : ℝ) = ∑ s ∈ Ico 1 W.din, ∑ j ∈ range D, ∑ i ∈ range D, Complex.normSq (pt.tensor.v i j s) := by
    have h2 : ∀ f : ℕ → ℝ, ∑ s ∈ range W.din, f s = f 0 + ∑ s ∈ Ico 1 W.din, f s := fun f => by
      rw [range_eq_Ico, sum_eq_sum_Ico_succ_bot hd]
    simp_rw [h2] at hn
    simp_rw [sum_add_distrib] at hn
    rw [← hn, add_sub_cancel_left]
    rw [sum_congr rfl fun i _ => sum_comm, sum_comm]
    exact sum_congr rfl fun s _ => sum_comm
  rw [h1]
  unfold dens
  rw [tl, tr, td]
  push_cast
  rw [sum_div]
  refine sum_congr rfl fun s _ => ?_
  congr 1
  exact sum_congr rfl fun j _ => sum_congr rfl fun i _ => by rw [normSq_eq_star_mul]

end

/-- The tensor of all matrix units, which is not normalised, with the sum of the products of neighbouring identities: the hypotheses of the
theorems are met. -/
theorem units_input {e : Vumps.Eng} (hb : Built 2 3 bondMpo e) : Input 2 3 ⟨1, 1e-14, 1e-16⟩ bondMpo e unitsTen 2 2 (fun i j => if i = j then 1 / 2 else 0) fun i j => if i = j then 1 / 2 else 0 :=
  ⟨bond_site, ⟨2, hb⟩, rfl, rfl, rfl, by norm_num, by norm_num, Normal.weaken (units_normal units_right) (by norm_num), Normal.weaken (units_normal units_left) (by norm_num)⟩

example : ∃ (X : Ext) (e : Vumps.Eng) (pt : Pt) (m : Ten ℂ), init unitsTen bondMpo = .ok e ∧ point X ⟨1, 1e-14, 1e-16⟩ e unitsTen = .ok pt ∧ move X.O pt (1 / 10) = .ok m ∧
    Canon 2 pt.A pt.B pt.lam ∧ pt.en.im = 0 ∧ pt.tensor.nsq = 1 ∧ pt.leftn = 0 ∧ ov pt.grad pt.tensor = 0 := by
  obtain ⟨X, he, hE, hcv, hS, hcS, -, hO, -, hf⟩ := exists_ext
  obtain ⟨e, h0, hb, -⟩ := C98_init (A := unitsTen) (W := bondMpo) (B := 3) rfl rfl (by norm_num)
  have hX : Routines X := ⟨hO, he, hE, hS⟩
  have hi := units_input hb
  obtain ⟨pt, hpt⟩ := C100_point_total hX hcv hcS hf le_rfl (by norm_num) hi
  obtain ⟨m, m', h1, -⟩ := C100_move hX hi hpt (1 / 10)
  obtain ⟨g1, -, -, -, g5, -⟩ := C100_gradient hX hi hpt
  exact ⟨X, e, pt, m', h0, hpt, h1, (C100_environments hX hi hpt).2.1, (C100_hermitian bond_conj hX hi hpt).1, g1, (C100_norms hX hi hpt).1, g5⟩

/-- A run of one step with these, which returns. -/
example : ∃ (X : Ext) (e : Vumps.Eng) (r : Step.Eng (Ten ℂ) Pt ℝ × List (Step.Entry Pt ℝ) × Bool), init unitsTen bondMpo = .ok e ∧
    simulate X ⟨1, 1e-14, 1e-16⟩ e ⟨1 / 10, [1 / 10], some [1], 1 / 10, 2, 10⟩ 1e-10 1 2 (Step.init ⟨1 / 10, [1 / 10], some [1], 1 / 10, 2, 10⟩ unitsTen) [] = .ok r ∧ r.2.1.length = 1 := by
  obtain ⟨X, he, hE, hcv, hS, hcS, -, hO, -, hf⟩ := exists_ext
  obtain ⟨e, h0, hb, -⟩ := C98_init (A := unitsTen) (W := bondMpo) (B := 3) rfl rfl (by norm_num)
  obtain ⟨s', r, c, h1, -, h2⟩ := C100_first (par := ⟨1 / 10, [1 / 10], some [1], 1 / 10, 2, 10⟩) (eps := 1e-10) (X := X) ⟨hO, he, hE, hS⟩ hcv hcS hf le_rfl (by norm_num) (units_input hb)
    ⟨by norm_num, by norm_num, by simp⟩
  refine ⟨X, e, (s', [r], c), h0, ?_, rfl⟩
  unfold simulate
  rw [h1]
  simp only
  rw [if_pos (by rw [h2])]
  rfl

end
end PyTeN.GradOpt
