import Verif.Mps.GradRegauge
import Verif.Props.CentralC
import Verif.Props.FixA0

/-! # C115: the left gauge of a unit cell of lattice-cMPS tensors -/

namespace PyTeN.GradRegauge
open Finset Transfer Regauge Vumps TdvpInf CentralC FixA0 Matrix Idmrg
open scoped ComplexOrder

noncomputable section

/-! ## Specification -/

/-- Spec: a square tensor with two components, left-orthonormal, the diagonal of its component 0 real and not negative. -/
structure LeftCanonical (D : ℕ) (a : Ten ℂ) : Prop where
  shape : a.l = D ∧ a.r = D ∧ a.d = 2
  iso : ∑ s ∈ range 2, (mat D a s)ᴴ * mat D a s = 1
  diag : ∀ i : Fin D, ∃ p : ℝ, 0 ≤ p ∧ mat D a 0 i i = p

/-! ## The sweep -/

theorem cell_nil (D : ℕ) : cellM D [] [] = 1 := toM_delta D

theorem cell_cons {D : ℕ} {t : Ten ℂ} (ts : List (Ten ℂ)) (ht : t.r = D) (x : ℕ) (s : List ℕ) :
    cellM D (t :: ts) (x :: s) = mat D t x * cellM D ts s := by
  ext i j
  simp only [cellM, toM, mat, Matrix.mul_apply, chain]
  rw [ht, ← Fin.sum_univ_eq_sum_range (fun b => t.v i b x * chain ts s b j)]

theorem mat_mulL {D : ℕ} {m : Mat ℂ} {t : Ten ℂ} (hl : t.l = D) (s : ℕ) : mat D (mulL m t) s = toM D m.v * mat D t s := by
  ext i j
  simp only [mat, mulL, toM, Matrix.mul_apply]
  rw [hl, ← Fin.sum_univ_eq_sum_range (fun k => m.v i k * t.v k j s)]

theorem mat_mulR {D : ℕ} {m : Mat ℂ} {t : Ten ℂ} (hr : t.r = D) (s : ℕ) : mat D (mulR t m) s = mat D t s * toM D m.v := by
  ext i j
  simp only [mat, mulR, toM, Matrix.mul_apply]
  rw [hr, ← Fin.sum_univ_eq_sum_range (fun k => t.v i k s * m.v k j)]

/-- The inverse of the component 0. -/
theorem inverse_of_unit {D : ℕ} {t : Ten ℂ} (h : IsUnit (mat D t 0)) : Inverse D t (fromM (mat D t 0)⁻¹) := by
  have hd := (Matrix.isUnit_iff_isUnit_det _).1 h
  refine ⟨fun i hi j hj => ?_, fun i hi j hj => ?_⟩
  · have := congrFun (congrFun (Matrix.nonsing_inv_mul _ hd) ⟨i, hi⟩) ⟨j, hj⟩
    rw [Matrix.mul_apply, Matrix.one_apply] at this
    rw [sum_range]
    simp only [delta]
    simp only [Fin.mk.injEq] at this
    rw [← this]
    refine sum_congr rfl fun k _ => ?_
    simp only [fromM, mat, dif_pos (⟨hi, k.2⟩ : i < D ∧ (k : ℕ) < D)]
  · have := congrFun (congrFun (Matrix.mul_nonsing_inv _ hd) ⟨i, hi⟩) ⟨j, hj⟩
    rw [Matrix.mul_apply, Matrix.one_apply] at this
    rw [sum_range]
    simp only [delta]
    simp only [Fin.mk.injEq] at this
    rw [← this]
    refine sum_congr rfl fun k _ => ?_
    simp only [fromM, mat, dif_pos (⟨k.2, hj⟩ : (k : ℕ) < D ∧ j < D)]

/-- One step of the sweep. -/
theorem step_ok {O : LinAlg} (hO : O.Spec) {pinv : Mat ℂ → Mat ℂ} (hp : ∀ A, PinvSpec A (pinv A)) {t : Ten ℂ} {D : ℕ} (hD : 0 < D)
    (hs : t.l = D ∧ t.r = D ∧ t.d = 2) (hu : IsUnit (mat D t 0)) :
    ∃ a m, prepareTensorFixPhase O pinv t 1 .other = .ok (some (a, m)) ∧ LeftCanonical D a ∧ m.r = D ∧ m.c = D ∧ IsUnit (toM D m.v) ∧
      ∀ s < 2, mat D t s = mat D a s * toM D m.v := by
  obtain ⟨h1, h2, h3⟩ := hs
  obtain ⟨a, m, e1, e2, e3⟩ := C111_gradopt_right hO hp one_pos h1 h2 hD h3 (inverse_of_unit hu)
  have hm : ∀ s < 2, mat D t s = mat D a s * toM D m.v := by
    intro s hs
    ext i j
    have := e2.prod i (by rw [h1]; exact i.2) j (by rw [h2]; exact j.2) s (by rw [h3]; exact hs)
    rw [one_mul, h2] at this
    simp only [mat, toM, Matrix.mul_apply]
    rw [this, Fin.sum_univ_eq_sum_range (fun k => a.v i k s * m.v k j)]
  refine ⟨a, m, e1, ⟨⟨e2.al.trans h1, e2.ar.trans h2, e2.ad.trans h3⟩, ?_, fun i => e3 i i.2⟩, e2.mr.trans h2, e2.mc.trans h2, ?_, hm⟩
  · ext i j
    have := e2.orth i (by rw [e2.ar, h2]; exact i.2) j (by rw [e2.ar, h2]; exact j.2)
    rw [e2.ad, e2.al, h1, h3] at this
    rw [Matrix.sum_apply, Matrix.one_apply]
    simp only [delta, Fin.ext_iff] at this ⊢
    rw [← this]
    refine sum_congr rfl fun s _ => ?_
    simp only [Matrix.mul_apply, conjTranspose_apply, mat]
    rw [← Fin.sum_univ_eq_sum_range (fun k => star (a.v k i s) * a.v k j s)]
  · rw [hm 0 (by norm_num)] at hu
    rw [Matrix.isUnit_iff_isUnit_det] at hu ⊢
    rw [Matrix.det_mul] at hu
    exact isUnit_of_mul_isUnit_right hu

/-- The sweep: the tensors become left-orthonormal and the matrix at the right end is returned. -/
theorem sweep_ok {O : LinAlg} (hO : O.Spec) {pinv : Mat ℂ → Mat ℂ} (hp : ∀ A, PinvSpec A (pinv A)) {D : ℕ} (hD : 0 < D) :
    ∀ (us : List (Ten ℂ)) (t : Ten ℂ), (∀ u ∈ t :: us, (u.l = D ∧ u.r = D ∧ u.d = 2) ∧ IsUnit (mat D u 0)) →
      ∃ out m, sweep O pinv t us = .ok (out, m) ∧ out.length = us.length + 1 ∧ (∀ a ∈ out, LeftCanonical D a) ∧ m.r = D ∧ m.c = D ∧
        ∀ s : List ℕ, s.length = us.length + 1 → (∀ x ∈ s, x < 2) → cellM D (t :: us) s = cellM D out s * toM D m.v
  | [], t, h => by
    obtain ⟨a, m, e1, e2, e3, e4, e5, e6⟩ := step_ok hO hp hD (h t (by simp)).1 (h t (by simp)).2
    refine ⟨[a], m, by simp only [sweep, e1], rfl, by simpa using e2, e3, e4, fun s hs hx => ?_⟩
    obtain ⟨x, rfl⟩ := List.length_eq_one_iff.1 hs
    rw [cell_cons [] (h t (by simp)).1.2.1, cell_cons [] e2.shape.2.1, cell_nil, Matrix.mul_one, Matrix.mul_one, e6 x (hx x (by simp))]
  | u :: us, t, h => by
    obtain ⟨a, m, e1, e2, e3, e4, e5, e6⟩ := step_ok hO hp hD (h t (by simp)).1 (h t (by simp)).2
    obtain ⟨⟨u1, u2, u3⟩, u4⟩ := h u (by simp)
    obtain ⟨out, r, f1, f2, f3, f4, f5, f6⟩ := sweep_ok hO hp hD us (mulL m u) (by
      intro v hv
      rcases List.mem_cons.1 hv with rfl | hv
      · exact ⟨⟨e3, u2, u3⟩, by rw [mat_mulL u1]; exact e5.mul u4⟩
      · exact h v (by simp [hv]))
    refine ⟨a :: out, r, by simp only [sweep, e1, f1], by simp [f2], ?_, f4, f5, fun s hs hx => ?_⟩
    · intro b hb
      rcases List.mem_cons.1 hb with rfl | hb
      · exact e2
      · exact f3 b hb
    · match s, hs with
      | x :: y :: s, hs =>
        have := f6 (y :: s) (by simpa using hs) fun z hz => hx z (by simp [hz])
        rw [cell_cons us (show (mulL m u).r = D from u2), mat_mulL u1, Matrix.mul_assoc] at this
        rw [cell_cons _ (h t (by simp)).1.2.1, cell_cons us u2, cell_cons out e2.shape.2.1, e6 x (hx x (by simp)), Matrix.mul_assoc, this,
          Matrix.mul_assoc]

/-- The cell multiplied at both ends. -/
theorem mulLast_ok {D : ℕ} {m : Mat ℂ} (hm : m.c = D) (hu : IsUnit (toM D m.v)) : ∀ (us : List (Ten ℂ)) (t : Ten ℂ),
    (∀ u ∈ t :: us, (u.l = D ∧ u.r = D ∧ u.d = 2) ∧ IsUnit (mat D u 0)) →
      (∀ u ∈ (mulLast m t us).1 :: (mulLast m t us).2, (u.l = D ∧ u.r = D ∧ u.d = 2) ∧ IsUnit (mat D u 0)) ∧
      (mulLast m t us).2.length = us.length ∧
      ∀ s : List ℕ, s.length = us.length + 1 → cellM D ((mulLast m t us).1 :: (mulLast m t us).2) s = cellM D (t :: us) s * toM D m.v
  | [], t, h => by
    obtain ⟨⟨t1, t2, t3⟩, t4⟩ := h t (by simp)
    refine ⟨fun u hu' => ?_, rfl, fun s hs => ?_⟩
    · obtain rfl : u = mulR t m := by simpa [mulLast] using hu'
      exact ⟨⟨t1, hm, t3⟩, by rw [mat_mulR t2]; exact t4.mul hu⟩
    · obtain ⟨x, rfl⟩ := List.length_eq_one_iff.1 hs
      simp only [mulLast]
      rw [cell_cons [] (show (mulR t m).r = D from hm), cell_cons [] t2, cell_nil, Matrix.mul_one, Matrix.mul_one, mat_mulR t2]
  | u :: us, t, h => by
    obtain ⟨f1, f2, f3⟩ := mulLast_ok hm hu us u fun v hv => h v (List.mem_cons_of_mem _ hv)
    obtain ⟨⟨t1, t2, t3⟩, t4⟩ := h t (by simp)
    refine ⟨fun v hv => ?_, by simp [mulLast, f2], fun s hs => ?_⟩
    · simp only [mulLast] at hv
      rcases List.mem_cons.1 hv with rfl | hv
      · exact ⟨⟨t1, t2, t3⟩, t4⟩
      · exact f1 v hv
    · match s, hs with
      | x :: s, hs =>
        simp only [mulLast]
        rw [cell_cons _ t2, cell_cons _ t2, f3 s (by simpa using hs), Matrix.mul_assoc]

/-- The sum over all configurations of a cell of left-orthonormal tensors. -/
theorem cell_iso {D : ℕ} : ∀ {ts : List (Ten ℂ)}, (∀ t ∈ ts, LeftCanonical D t) →
    sumM (ts.map Ten.d) (fun s => (cellM D ts s)ᴴ * cellM D ts s) = 1
  | [], _ => by
    ext i j
    simp only [List.map_nil, sumM, sumCfg, cell_nil, conjTranspose_one, Matrix.mul_one]
  | t :: ts, h => by
    obtain ⟨⟨-, h2, h3⟩, hi, -⟩ := h t (by simp)
    rw [← cell_iso fun u hu => h u (List.mem_cons_of_mem _ hu)]
    have e : ∀ s : List ℕ, ∑ x ∈ range t.d, (cellM D (t :: ts) (x :: s))ᴴ * cellM D (t :: ts) (x :: s) = (cellM D ts s)ᴴ * cellM D ts s := by
      intro s
      rw [sum_congr rfl fun x _ => by
        rw [cell_cons ts h2, conjTranspose_mul, Matrix.mul_assoc, ← Matrix.mul_assoc (mat D t x)ᴴ, ← Matrix.mul_assoc], ← Finset.sum_mul, ← Finset.mul_sum, h3, hi, Matrix.mul_one]
    ext i j
    simp only [List.map_cons, sumM, sumCfg]
    rw [← sumCfg_sum]
    refine sumCfg_congr fun s _ => ?_
    rw [← e s, Matrix.sum_apply]

variable {O : LinAlg} {sqrtm pinv : Mat ℂ → Mat ℂ} {eigs : Eigs} {D : ℕ} {ts : List (Ten ℂ)} {η : ℝ} {p q : ℕ → ℕ → ℂ}

/-- The square roots and the singular value decomposition: the factors at both ends of the cell. -/
theorem ends_ok (hO : O.Spec) {S R Pl Pr : Mat ℂ} {L : Matrix (Fin D) (Fin D) ℂ} (hL : toM D S.v = L) (hPr : toM D Pr.v * toM D R.v = 1) :
    ∃ U : Matrix (Fin D) (Fin D) ℂ, Uᴴ * U = 1 ∧ U * Uᴴ = 1 ∧
      toM D (dotM D (dotM D (diagMat (O.svd (dotM D S R)).2.1) (O.svd (dotM D S R)).2.2) Pr).v = Uᴴ * L ∧
      toM D (dotM D Pl (O.svd (dotM D S R)).1).v = toM D Pl.v * U := by
  have hs := hO.svd (dotM D S R)
  generalize O.svd (dotM D S R) = w at hs
  have hmin : min (dotM D S R).r (dotM D S R).c = D := min_self D
  have hr : (dotM D S R).r = D := rfl
  have h1 : (toM D w.1.v)ᴴ * toM D w.1.v = 1 := by
    ext i j
    have := hs.isoU i (by rw [hmin]; exact i.2) j (by rw [hmin]; exact j.2)
    rw [hr, sum_range] at this
    simp only [Matrix.mul_apply, conjTranspose_apply, toM, Matrix.one_apply, Fin.ext_iff]
    exact this
  have h2 : toM D w.1.v * toM D (diagMat w.2.1).v * toM D w.2.2.v = L * toM D R.v := by
    rw [← hL, ← toM_dotM D S R, toM_diag]
    ext i j
    have := hs.prod i i.2 j j.2
    rw [hmin, sum_range] at this
    rw [Matrix.mul_apply]
    simp only [Matrix.mul_diagonal, toM] at this ⊢
    exact this
  refine ⟨toM D w.1.v, h1, mul_eq_one_comm.1 h1, ?_, toM_dotM _ _ _⟩
  rw [toM_dotM, toM_dotM]
  have h3 : toM D R.v * toM D Pr.v = 1 := mul_eq_one_comm.1 hPr
  calc toM D (diagMat w.2.1).v * toM D w.2.2.v * toM D Pr.v
      = (toM D w.1.v)ᴴ * (toM D w.1.v * toM D (diagMat w.2.1).v * toM D w.2.2.v) * toM D Pr.v := by
        rw [Matrix.mul_assoc (toM D w.1.v), ← Matrix.mul_assoc _ (toM D w.1.v), h1, Matrix.one_mul]
    _ = (toM D w.1.v)ᴴ * L := by rw [h2, Matrix.mul_assoc, Matrix.mul_assoc, h3, Matrix.mul_one]

theorem lt_two {ds s : List ℕ} (h : List.Forall₂ (fun d x => x < d) ds s) (hd : ∀ d ∈ ds, d = 2) : ∀ x ∈ s, x < 2 := by
  induction h with
  | nil => simp
  | cons h1 _ ih =>
    intro x hx
    rcases List.mem_cons.1 hx with rfl | hx
    · exact h1.trans_eq (hd _ (by simp))
    · exact ih (fun d hd' => hd d (by simp [hd'])) x hx

/-- **C115 (the gauge).**  For a cell of square tensors with two components, of bond dimension three or more, with one leading eigenvalue,
well-conditioned density matrices and invertible components 0, `regauge` returns a cell of left-orthonormal tensors, with real and not
negative diagonals of the components 0, and a unitary matrix `r`.  The product of the new cell and `r` is that of the old one, up to an
invertible matrix `X` and its inverse at both ends and the factor `η^(-1/2)` of the normalisation. -/
theorem C115_gauge (hO : O.Spec) (hp : ∀ A, PinvSpec A (pinv A)) (hG : GaugeSpec sqrtm pinv) (hE : EigsSpec eigs) (hc : ConvergesSix eigs)
    (h : Cell D 2 ts η p q) (hu : ∀ t ∈ ts, IsUnit (mat D t 0)) :
    ∃ out r, regauge O sqrtm pinv eigs ts = .ok (out, r) ∧ out.length = ts.length ∧ (∀ a ∈ out, LeftCanonical D a) ∧ r.r = D ∧ r.c = D ∧
      (toM D r.v)ᴴ * toM D r.v = 1 ∧
      ∃ X Xi : Matrix (Fin D) (Fin D) ℂ, X * Xi = 1 ∧ Xi * X = 1 ∧ Xᴴ * X = (toM D p)ᵀ ∧
        ∀ s : List ℕ, s.length = ts.length → (∀ x ∈ s, x < 2) →
          cellM D out s * toM D r.v = ((1 / √η : ℝ) : ℂ) • (X * cellM D ts s * Xi) := by
  obtain ⟨t0, tl, rfl⟩ := List.exists_cons_of_ne_nil h.ne
  set ts := t0 :: tl with hts
  have hsq : ∀ t ∈ ts, t.l = D ∧ t.r = D := fun t ht => ⟨(h.shape t ht).1, (h.shape t ht).2.1⟩
  obtain ⟨s1, s2, s3⟩ := h.shape t0 (by simp [hts])
  have hD := h.three
  have hN : 0 < ts.length := by simp [hts]
  set z := η ^ (1 / (2 * (ts.length : ℝ))) with hz
  have hzp : 0 < z := root_pos h.left.pos _
  have hzN : z ^ (2 * ts.length) = η := root_pow h.left.pos hN
  have hzs : z ^ ts.length = √η := by
    rw [← hzN, mul_comm, pow_mul, Real.sqrt_sq (pow_pos hzp _).le]
  set ts' := ts.map (mulT z⁻¹) with hts'
  have hdiv : ts' = ts.map (divT z) := by rw [hts']; exact List.map_congr_left fun t _ => mulT_eq t
  have hlen : ts'.length = ts.length := by simp [hts']
  have hne' : ts' ≠ [] := by simp [hts', hts]
  have hsh' : ∀ t ∈ ts', t.l = D ∧ t.r = D ∧ t.d = 2 := by
    intro t ht
    obtain ⟨u, hu, rfl⟩ := List.mem_map.1 ht
    exact h.shape u hu
  have hun' : ∀ t ∈ ts', IsUnit (mat D t 0) := by
    intro t ht
    obtain ⟨u, hu', rfl⟩ := List.mem_map.1 ht
    have hz0 : ((z⁻¹ : ℝ) : ℂ) ≠ 0 := by exact_mod_cast (inv_pos.2 hzp).ne'
    rw [mat_mulT]
    exact (hu u hu').smul (Units.mk0 _ hz0)
  have hsq' : ∀ t ∈ ts', t.l = D ∧ t.r = D := fun t ht => ⟨(hsh' t ht).1, (hsh' t ht).2.1⟩
  have nl : Normal .right 0 D ts' 1 p := by
    have := h.left.scale hzp
    rwa [hzN, div_self h.left.pos.ne', ← hdiv] at this
  have nr : Normal .left 0 D ts' 1 q := by
    have := h.right.scale hzp
    rwa [hzN, div_self h.left.pos.ne', ← hdiv] at this
  obtain ⟨v1, a1, a2, c, c0, a3⟩ := cellEigs_ok hE hc hD h.ne hsq h.left
  obtain ⟨x, x1, x2⟩ := densVec_ok h.left.dens c0 a3
  obtain ⟨ld, l1, l2, l3, l4⟩ := rows_right hsq' x2.1
  obtain ⟨v2, b1, b2, c', c0', b3⟩ := cellEigs_ok hE hc hD hne' hsq' nr
  obtain ⟨y, y1, y2⟩ := densVec_ok h.right.dens c0' b3
  obtain ⟨rd, r1, r2, r3, r4⟩ := rows_left_bond hsq' y2.1
  have firstL : toM D (square D (ld.getD 0 ⟨0, fun _ => 0⟩)).v = toM D p := by
    have := l4 0 (Nat.zero_le _)
    rw [List.take_zero, pushR, isMat_mOf x2] at this
    exact transpose_injective this
  have lastR : toM D (square D (rd.getD (rd.length - 1) ⟨0, fun _ => 0⟩)).v = toM D q := by
    rw [r2, Nat.add_sub_cancel]
    obtain ⟨w, w1, w2⟩ := unit_act .left hne' (linked_square hsq') y2
    rw [← cellOp_eq .left hne' hsq', order, r3] at w1
    cases w1
    refine (isMat_mOf w2).trans ?_
    ext i j
    simp only [toM]
    rw [nr.eig i i.2 j j.2, Complex.ofReal_one, one_mul]
  have wp : WellConditioned (toM D p) := by
    have := well_transpose (h.wl 0 (Nat.zero_le _))
    rwa [List.take_zero, pushR, transpose_transpose] at this
  have wq : WellConditioned (toM D q) := by
    have := h.wr ts.length le_rfl
    rwa [List.drop_length, pushL] at this
  obtain ⟨k1, k2, k3, k4⟩ := hG.root D (square D (ld.getD 0 ⟨0, fun _ => 0⟩)) rfl rfl (by rw [firstL]; exact wp)
  obtain ⟨m1, m2, m3, m4⟩ := hG.root D (square D (rd.getD (rd.length - 1) ⟨0, fun _ => 0⟩)) rfl rfl (by rw [lastR]; exact wq)
  rw [firstL] at k4
  rw [lastR] at m4
  set S := sqrtm (square D (ld.getD 0 ⟨0, fun _ => 0⟩)) with hS
  set R := sqrtm (square D (rd.getD (rd.length - 1) ⟨0, fun _ => 0⟩)) with hR
  set L := toM D (trM S).v with hLdef
  have hL1 : L = (toM D S.v)ᵀ := toM_trM _ _
  have hLp : L.PosSemidef := by rw [hL1]; exact k3.transpose
  have hLL : L * L = (toM D p)ᵀ := by rw [hL1, ← transpose_mul, k4]
  obtain ⟨-, -, i1⟩ := hG.inv D (trM S) k2 k1 hLp (by rw [hLL]; exact well_transpose wp)
  obtain ⟨-, -, i2⟩ := hG.inv D R m1 m2 m3 (by rw [m4]; exact wq)
  obtain ⟨U, U1, U2, hLB, hRB⟩ := ends_ok hO (S := trM S) (R := R) (Pl := pinv (trM S)) hLdef.symm i2
  set LB := dotM D (dotM D (diagMat (O.svd (dotM D (trM S) R)).2.1) (O.svd (dotM D (trM S) R)).2.2) (pinv R) with hLBd
  set RB := dotM D (pinv (trM S)) (O.svd (dotM D (trM S) R)).1 with hRBd
  have i3 : L * toM D (pinv (trM S)).v = 1 := mul_eq_one_comm.1 i1
  have hXX : toM D LB.v * toM D RB.v = 1 := by
    rw [hLB, hRB, Matrix.mul_assoc, ← Matrix.mul_assoc L, i3, Matrix.one_mul, U1]
  have hXX' : toM D RB.v * toM D LB.v = 1 := mul_eq_one_comm.1 hXX
  have hXp : (toM D LB.v)ᴴ * toM D LB.v = (toM D p)ᵀ := by
    rw [hLB, conjTranspose_mul, conjTranspose_conjTranspose, hLp.1.eq, Matrix.mul_assoc, ← Matrix.mul_assoc U, U2, Matrix.one_mul, hLL]
  have hunit : IsUnit (toM D LB.v) := ⟨⟨_, _, hXX, hXX'⟩, rfl⟩
  have hunit' : IsUnit (toM D RB.v) := ⟨⟨_, _, hXX', hXX⟩, rfl⟩
  have hts1 : ts' = mulT z⁻¹ t0 :: tl.map (mulT z⁻¹) := rfl
  set t1 := mulT z⁻¹ t0 with ht1
  set tl' := tl.map (mulT z⁻¹) with htl'
  have hall : ∀ u ∈ mulL LB t1 :: tl', (u.l = D ∧ u.r = D ∧ u.d = 2) ∧ IsUnit (mat D u 0) := by
    intro u hu
    have ht : t1 ∈ ts' := by rw [hts1]; simp
    rcases List.mem_cons.1 hu with rfl | hu
    · exact ⟨⟨rfl, (hsh' _ ht).2⟩, by rw [mat_mulL (hsh' _ ht).1]; exact hunit.mul (hun' _ ht)⟩
    · have : u ∈ ts' := by rw [hts1]; simp [hu]
      exact ⟨hsh' _ this, hun' _ this⟩
  obtain ⟨f1, f2, f3⟩ := mulLast_ok (D := D) (m := RB) rfl hunit' tl' (mulL LB t1) hall
  obtain ⟨out, r, g1, g2, g3, g4, g5, g6⟩ := sweep_ok hO hp (show 0 < D by omega) _ _ f1
  have hrun : regauge O sqrtm pinv eigs ts = .ok (out, r) := by
    have hη : (η : ℂ) ≠ 0 := by exact_mod_cast h.left.pos.ne'
    rw [hts] at a1 ⊢
    rw [regauge, if_neg (by rw [s1, s2, s3]; omega), s1]
    simp only [a1, if_neg hη]
    rw [← hts, phi_eq h.left.pos, ← hz, ← hts']
    simp only [x1, l1, b1, y1, r1]
    rw [hts1]
    unfold finish
    exact g1
  have hlt : tl'.length + 1 = ts.length := by simp [htl', hts]
  have hout : out.length = ts.length := by rw [g2, f2, hlt]
  have hcell : ∀ s : List ℕ, s.length = ts.length → (∀ x ∈ s, x < 2) →
      cellM D out s * toM D r.v = ((1 / √η : ℝ) : ℂ) • (toM D LB.v * cellM D ts s * toM D RB.v) := by
    intro s hs hx
    rw [← g6 s (by rw [f2, hlt, hs]) hx, f3 s (by rw [hlt, hs])]
    match s, hs with
    | y :: s, hs =>
      have ht : t1 ∈ ts' := by rw [hts1]; simp
      rw [cell_cons tl' (show (mulL LB t1).r = D from (hsh' _ ht).2.1), mat_mulL (hsh' _ ht).1, Matrix.mul_assoc (toM D LB.v),
        ← cell_cons tl' (hsh' _ ht).2.1, ← hts1, hdiv, cellM_scale, hzs, Matrix.mul_smul, Matrix.smul_mul]
  refine ⟨out, r, hrun, hout, g3, g4, g5, ?_, _, _, hXX, hXX', hXp, hcell⟩
  have hd1 : out.map Ten.d = ts.map Ten.d := by
    rw [show out.map Ten.d = List.replicate ts.length 2 by
        rw [← hout]; exact List.eq_replicate_iff.2 ⟨by simp, fun b hb => by
          obtain ⟨a, ha, rfl⟩ := List.mem_map.1 hb
          exact (g3 a ha).shape.2.2⟩]
    exact (List.eq_replicate_iff.2 ⟨by simp, fun b hb => by
          obtain ⟨a, ha, rfl⟩ := List.mem_map.1 hb
          exact (h.shape a ha).2.2⟩).symm
  have hη2 : ((1 / √η : ℝ) : ℂ) * ((1 / √η : ℝ) : ℂ) * (η : ℂ) = 1 := by
    rw [← Complex.ofReal_mul, ← Complex.ofReal_mul]
    have h2 : (1 / √η) * (1 / √η) * η = 1 := by
      have := Real.mul_self_sqrt h.left.pos.le
      have h0 : √η ≠ 0 := (Real.sqrt_pos.2 h.left.pos).ne'
      field_simp
      rw [sq, this]
    rw [h2, Complex.ofReal_one]
  have hsum : sumM (out.map Ten.d) (fun s => (cellM D out s * toM D r.v)ᴴ * (cellM D out s * toM D r.v)) = (toM D r.v)ᴴ * toM D r.v := by
    have e : (fun s => (cellM D out s * toM D r.v)ᴴ * (cellM D out s * toM D r.v)) =
        fun s => (toM D r.v)ᴴ * ((cellM D out s)ᴴ * cellM D out s) * toM D r.v := by
      funext s
      rw [conjTranspose_mul]
      simp only [Matrix.mul_assoc]
    rw [e, sumM_mul, mul_sumM, cell_iso g3, Matrix.mul_one]
  rw [← hsum, hd1]
  rw [sumM_congr (G := fun s => (((1 / √η : ℝ) : ℂ) * ((1 / √η : ℝ) : ℂ)) • ((toM D RB.v)ᴴ * ((cellM D ts s)ᴴ * (toM D p)ᵀ * cellM D ts s) * toM D RB.v))]
  · rw [sumM_smul, sumM_mul, mul_sumM, act_right]
    have : (toM D (act .right ts D p))ᵀ = (η : ℂ) • (toM D p)ᵀ := by
      ext i j
      simp only [transpose_apply, toM, Matrix.smul_apply, smul_eq_mul]
      exact h.left.eig j j.2 i i.2
    rw [this, Matrix.mul_smul, Matrix.smul_mul, smul_smul, hη2, one_smul, ← hXp, Matrix.mul_assoc, Matrix.mul_assoc, hXX, Matrix.mul_one, ← conjTranspose_mul, hXX,
      conjTranspose_one]
  · intro s hs
    rw [hcell s (by rw [← hs.length_eq]; simp) ?_]
    · rw [← hXp, conjTranspose_smul, Matrix.smul_mul, Matrix.mul_smul, smul_smul]
      congr 1
      · rw [Complex.star_def, Complex.conj_ofReal]
      · simp only [conjTranspose_mul, Matrix.mul_assoc]
    · exact lt_two hs fun d hd => by
        obtain ⟨a, ha, rfl⟩ := List.mem_map.1 hd
        exact (h.shape a ha).2.2

/-- **C115 (violated for small bond dimensions).**  Six eigenvalues are asked for, so a cell of bond dimension one or two is always
refused. -/
theorem C115_violated_small (O : LinAlg) (sqrtm pinv : Mat ℂ → Mat ℂ) (eigs : Eigs) {t0 : Ten ℂ} {tl : List (Ten ℂ)} (hl : t0.l = 1 ∨ t0.l = 2)
    (hr : 0 < t0.r) (hd : 0 < t0.d) : regauge O sqrtm pinv eigs (t0 :: tl) = .error .type := by
  have hcell : cellEigs eigs .right t0.l (t0 :: tl) = .error .type := by
    unfold cellEigs
    rcases hl with h | h <;> rw [h] <;> simp [eigLoop]
  rw [regauge, if_neg (by omega)]
  simp only [hcell]

/-! ## Witness: three tensors of bond dimension three -/

/-- The tensor with the components 1 and `M`. -/
def pair (M : Matrix (Fin 3) (Fin 3) ℂ) : Ten ℂ := ⟨3, 3, 2, fun i j s => if s = 0 then delta ℂ i j else fromM M i j⟩

theorem pair_zero (M : Matrix (Fin 3) (Fin 3) ℂ) : mat 3 (pair M) 0 = 1 := toM_delta 3

theorem pair_one (M : Matrix (Fin 3) (Fin 3) ℂ) : mat 3 (pair M) 1 = M := toM_fromM M

/-- The matrices: two of them take the phases off, the third one is a cyclic shift. -/
def sgnA : Matrix (Fin 3) (Fin 3) ℂ := !![1, 0, 0; 0, -1, 0; 0, 0, -1]
def sgnB : Matrix (Fin 3) (Fin 3) ℂ := !![1, 0, 0; 0, 1, 0; 0, 0, -1]
def shift : Matrix (Fin 3) (Fin 3) ℂ := !![0, 1, 0; 0, 0, 1; 1, 0, 0]

def trio : List (Ten ℂ) := [pair sgnA, pair sgnB, pair shift]

theorem pushL_pair (M : Matrix (Fin 3) (Fin 3) ℂ) (ts : List (Ten ℂ)) (Q : Matrix (Fin 3) (Fin 3) ℂ) :
    pushL 3 (pair M :: ts) Q = pushL 3 ts Q + M * pushL 3 ts Q * Mᴴ := by
  rw [pushL, show (pair M).d = 2 from rfl, sum_range_succ, sum_range_one, pair_zero, pair_one, Matrix.one_mul, conjTranspose_one, Matrix.mul_one]

theorem pushR_pair (M : Matrix (Fin 3) (Fin 3) ℂ) (ts : List (Ten ℂ)) (P : Matrix (Fin 3) (Fin 3) ℂ) :
    pushR 3 (pair M :: ts) P = pushR 3 ts (P + Mᴴ * P * M) := by
  rw [pushR, show (pair M).d = 2 from rfl, sum_range_succ, sum_range_one, pair_zero, pair_one, conjTranspose_one, Matrix.one_mul, Matrix.mul_one]

theorem sgnA_conj (F : Matrix (Fin 3) (Fin 3) ℂ) : F + sgnA * F * sgnAᴴ = !![2 * F 0 0, 0, 0; 0, 2 * F 1 1, 2 * F 1 2; 0, 2 * F 2 1, 2 * F 2 2] := by
  ext i j
  simp only [Matrix.add_apply, Matrix.mul_apply, Fin.sum_univ_three, conjTranspose_apply]
  fin_cases i <;> fin_cases j <;> simp [sgnA] <;> ring

theorem sgnB_conj (F : Matrix (Fin 3) (Fin 3) ℂ) : F + sgnB * F * sgnBᴴ = !![2 * F 0 0, 2 * F 0 1, 0; 2 * F 1 0, 2 * F 1 1, 0; 0, 0, 2 * F 2 2] := by
  ext i j
  simp only [Matrix.add_apply, Matrix.mul_apply, Fin.sum_univ_three, conjTranspose_apply]
  fin_cases i <;> fin_cases j <;> simp [sgnB] <;> ring

theorem sgnA_herm : sgnAᴴ = sgnA := by
  ext i j
  fin_cases i <;> fin_cases j <;> simp [sgnA, conjTranspose_apply]

theorem sgnB_herm : sgnBᴴ = sgnB := by
  ext i j
  fin_cases i <;> fin_cases j <;> simp [sgnB, conjTranspose_apply]

theorem trio_left (F : Matrix (Fin 3) (Fin 3) ℂ) :
    pushL 3 trio F = !![4 * (F 0 0 + F 1 1), 0, 0; 0, 4 * (F 1 1 + F 2 2), 0; 0, 0, 4 * (F 2 2 + F 0 0)] := by
  unfold trio
  rw [pushL_pair, pushL_pair, pushL_pair, pushL, sgnA_conj, sgnB_conj]
  ext i j
  simp only [Matrix.add_apply, Matrix.mul_apply, Fin.sum_univ_three, conjTranspose_apply]
  fin_cases i <;> fin_cases j <;> simp [shift] <;> ring

theorem trio_right (F : Matrix (Fin 3) (Fin 3) ℂ) :
    pushR 3 trio F = !![4 * (F 0 0 + F 2 2), 0, 0; 0, 4 * (F 1 1 + F 0 0), 0; 0, 0, 4 * (F 2 2 + F 1 1)] := by
  unfold trio
  rw [pushR_pair, pushR_pair, pushR_pair, pushR]
  have a := sgnA_conj F
  rw [sgnA_herm] at a
  rw [sgnA_herm, a]
  have b := sgnB_conj !![2 * F 0 0, 0, 0; 0, 2 * F 1 1, 2 * F 1 2; 0, 2 * F 2 1, 2 * F 2 2]
  rw [sgnB_herm] at b
  rw [sgnB_herm, b]
  ext i j
  simp only [Matrix.add_apply, Matrix.mul_apply, Fin.sum_univ_three, conjTranspose_apply]
  fin_cases i <;> fin_cases j <;> simp [shift] <;> ring

/-- The only eigenvector of the shift with an eigenvalue this large. -/
theorem shift_uniq {μ a b c : ℂ} (h1 : 4 * (a + b) = μ * a) (h2 : 4 * (b + c) = μ * b) (h3 : 4 * (c + a) = μ * c) (hμ : 8 ≤ ‖μ‖) : a = b ∧ b = c := by
  by_cases ha : a = 0
  · subst ha
    have hb : b = 0 := by linear_combination h1 / 4
    subst hb
    have hc : c = 0 := by linear_combination h2 / 4
    exact ⟨rfl, hc.symm⟩
  have e1 : b = (μ - 4) / 4 * a := by linear_combination h1 / 4
  have e2 : c = (μ - 4) / 4 * b := by linear_combination h2 / 4
  have e3 : a = (μ - 4) / 4 * c := by linear_combination h3 / 4
  have h4 : ((μ - 4) / 4) ^ 3 = 1 := by
    have : (((μ - 4) / 4) ^ 3 - 1) * a = 0 := by
      rw [e2, e1] at e3
      linear_combination -e3
    exact sub_eq_zero.1 ((mul_eq_zero.1 this).resolve_right ha)
  have h5 : ‖(μ - 4) / 4‖ = 1 := by
    have := congrArg norm h4
    rw [norm_pow, norm_one] at this
    exact (pow_eq_one_iff_of_nonneg (norm_nonneg _) (by norm_num)).1 this
  have h6 : ‖(μ - 4) / 4‖ ^ 2 = 1 := by rw [h5, one_pow]
  have h7 : 64 ≤ ‖μ‖ ^ 2 := by nlinarith
  rw [← Complex.normSq_eq_norm_sq] at h6 h7
  rw [Complex.normSq_apply] at h6 h7
  have hre : ((μ - 4) / 4).re = (μ.re - 4) / 4 := by simp
  have him : ((μ - 4) / 4).im = μ.im / 4 := by simp
  rw [hre, him] at h6
  have h8 : μ.re = 8 := by nlinarith [sq_nonneg μ.im, sq_nonneg (μ.re - 8)]
  have h9 : μ.im = 0 := by
    rw [h8] at h6
    nlinarith [sq_nonneg μ.im]
  have h10 : μ = 8 := Complex.ext (by simpa using h8) (by simpa using h9)
  subst h10
  constructor
  · rw [e1]; norm_num
  · rw [e2]; norm_num

theorem act_pushL (D : ℕ) (f : ℕ → ℕ → ℂ) : ∀ {ts : List (Ten ℂ)}, (∀ t ∈ ts, t.r = D) → toM D (act .left ts D f) = pushL D ts (toM D f)
  | [], _ => by
    rw [← act_left]
    ext i j
    simp only [List.map_nil, sumM, sumCfg, cell_nil, conjTranspose_one, Matrix.mul_one, Matrix.one_mul, pushL]
  | t :: ts, h => by
    rw [pushL, ← act_pushL D f fun u hu => h u (List.mem_cons_of_mem _ hu), ← act_left, ← act_left]
    ext i j
    simp only [List.map_cons, sumM, sumCfg]
    rw [Matrix.sum_apply]
    refine sum_congr rfl fun x _ => ?_
    rw [← mul_sumM, ← sumM_mul]
    simp only [sumM]
    refine sumCfg_congr fun s _ => ?_
    rw [cell_cons ts (h t (by simp)), conjTranspose_mul]
    simp only [Matrix.mul_assoc]

theorem act_pushR (D : ℕ) : ∀ {ts : List (Ten ℂ)} (G : Matrix (Fin D) (Fin D) ℂ), (∀ t ∈ ts, t.r = D) →
    sumM (ts.map Ten.d) (fun s => (cellM D ts s)ᴴ * G * cellM D ts s) = pushR D ts G
  | [], G, _ => by
    ext i j
    simp only [List.map_nil, sumM, sumCfg, cell_nil, conjTranspose_one, Matrix.mul_one, Matrix.one_mul, pushR]
  | t :: ts, G, h => by
    rw [pushR, ← act_pushR D _ fun u hu => h u (List.mem_cons_of_mem _ hu)]
    ext i j
    simp only [List.map_cons, sumM, sumCfg]
    rw [← sumCfg_sum]
    refine sumCfg_congr fun s _ => ?_
    rw [Finset.mul_sum, Finset.sum_mul, Matrix.sum_apply]
    refine sum_congr rfl fun x _ => ?_
    rw [cell_cons ts (h t (by simp)), conjTranspose_mul]
    simp only [Matrix.mul_assoc]

theorem trio_r : ∀ t ∈ trio, t.r = 3 := by simp [trio, pair]

theorem trio_act_left (f : ℕ → ℕ → ℂ) (i j : Fin 3) : act .left trio 3 f i j =
    !![4 * (f 0 0 + f 1 1), 0, 0; 0, 4 * (f 1 1 + f 2 2), 0; 0, 0, 4 * (f 2 2 + f 0 0)] i j :=
  congrFun (congrFun ((act_pushL 3 f trio_r).trans (trio_left _)) i) j

theorem trio_act_right (f : ℕ → ℕ → ℂ) (i j : Fin 3) : act .right trio 3 f i j =
    !![4 * (f 0 0 + f 2 2), 0, 0; 0, 4 * (f 1 1 + f 0 0), 0; 0, 0, 4 * (f 2 2 + f 1 1)] j i :=
  congrFun (congrFun ((act_right 3 trio f).symm.trans ((act_pushR 3 _ trio_r).trans (trio_right _))) j) i

theorem trio_normal (dir : Dir) : Normal dir 0 3 trio 8 fun i j => if i = j then 1 / 3 else 0 := by
  refine ⟨by norm_num, (nine_normal dir).dens, fun i hi j hj => ?_, fun μ f hf he hle => ?_⟩
  · cases dir
    · have := trio_act_left (fun i j => if i = j then 1 / 3 else 0) ⟨i, hi⟩ ⟨j, hj⟩
      simp only at this
      rw [this]
      interval_cases i <;> interval_cases j <;> simp <;> norm_num
    · have := trio_act_right (fun i j => if i = j then 1 / 3 else 0) ⟨i, hi⟩ ⟨j, hj⟩
      simp only at this
      rw [this]
      interval_cases i <;> interval_cases j <;> simp <;> norm_num
  · have hμ : μ ≠ 0 := by
      rintro rfl
      rw [norm_zero] at hle
      linarith
    suffices h : (f 0 0 = f 1 1 ∧ f 1 1 = f 2 2) ∧ ∀ i < 3, ∀ j < 3, i ≠ j → f i j = 0 by
      refine ⟨3 * f 0 0, fun i hi j hj => ?_⟩
      by_cases hij : i = j
      · subst hij
        rw [if_pos rfl]
        interval_cases i
        · ring
        · rw [← h.1.1]; ring
        · rw [← h.1.2, ← h.1.1]; ring
      · rw [if_neg hij, mul_zero, h.2 i hi j hj hij]
    cases dir
    · have e : ∀ i j : Fin 3, μ * f i j = _ := fun i j => (he i i.2 j j.2).symm.trans (trio_act_left f i j)
      refine ⟨shift_uniq (by simpa using (e 0 0).symm) (by simpa using (e 1 1).symm) (by simpa using (e 2 2).symm) hle, fun i hi j hj hij => ?_⟩
      have := e ⟨i, hi⟩ ⟨j, hj⟩
      refine (mul_eq_zero.1 (this.trans ?_)).resolve_left hμ
      interval_cases i <;> interval_cases j <;> simp at hij ⊢
    · have e : ∀ i j : Fin 3, μ * f i j = _ := fun i j => (he i i.2 j j.2).symm.trans (trio_act_right f i j)
      obtain ⟨h1, h2⟩ := shift_uniq (by simpa using (e 0 0).symm) (by simpa using (e 2 2).symm) (by simpa using (e 1 1).symm) hle
      refine ⟨⟨h1.trans h2, h2.symm⟩, fun i hi j hj hij => ?_⟩
      have := e ⟨i, hi⟩ ⟨j, hj⟩
      refine (mul_eq_zero.1 (this.trans ?_)).resolve_left hμ
      interval_cases i <;> interval_cases j <;> simp at hij ⊢

theorem push_one : ∀ {ts : List (Ten ℂ)}, (∀ t ∈ ts, ∃ M : Matrix (Fin 3) (Fin 3) ℂ, t = pair M ∧ Mᴴ * M = 1) → ∀ c : ℝ, 0 < c →
    (∃ b : ℝ, 0 < b ∧ pushR 3 ts ((c : ℂ) • 1) = (b : ℂ) • 1) ∧ ∃ b : ℝ, 0 < b ∧ pushL 3 ts ((c : ℂ) • 1) = (b : ℂ) • 1
  | [], _, c, hc => ⟨⟨c, hc, rfl⟩, c, hc, rfl⟩
  | t :: ts, h, c, hc => by
    obtain ⟨M, rfl, hM⟩ := h t (by simp)
    have ih := push_one (ts := ts) fun u hu => h u (List.mem_cons_of_mem _ hu)
    have hM' : M * Mᴴ = 1 := mul_eq_one_comm.1 hM
    refine ⟨?_, ?_⟩
    · obtain ⟨⟨b, b1, b2⟩, -⟩ := ih (2 * c) (by linarith)
      refine ⟨b, b1, ?_⟩
      rw [pushR_pair, ← b2, Matrix.mul_smul, Matrix.smul_mul, Matrix.mul_one, hM, ← add_smul]
      congr 2
      push_cast; ring
    · obtain ⟨-, b, b1, b2⟩ := ih c hc
      refine ⟨2 * b, by linarith, ?_⟩
      rw [pushL_pair, b2, Matrix.mul_smul, Matrix.smul_mul, Matrix.mul_one, hM', ← add_smul]
      congr 1
      push_cast; ring

theorem trio_unitary : ∀ t ∈ trio, ∃ M : Matrix (Fin 3) (Fin 3) ℂ, t = pair M ∧ Mᴴ * M = 1 := by
  intro t ht
  simp only [trio, List.mem_cons, List.not_mem_nil, or_false] at ht
  rcases ht with rfl | rfl | rfl
  · refine ⟨_, rfl, ?_⟩
    ext i j
    simp only [Matrix.mul_apply, Fin.sum_univ_three, conjTranspose_apply]
    fin_cases i <;> fin_cases j <;> simp [sgnA]
  · refine ⟨_, rfl, ?_⟩
    ext i j
    simp only [Matrix.mul_apply, Fin.sum_univ_three, conjTranspose_apply]
    fin_cases i <;> fin_cases j <;> simp [sgnB]
  · refine ⟨_, rfl, ?_⟩
    ext i j
    simp only [Matrix.mul_apply, Fin.sum_univ_three, conjTranspose_apply]
    fin_cases i <;> fin_cases j <;> simp [shift]

theorem trio_cell : Cell 3 2 trio 8 (fun i j => if i = j then 1 / 3 else 0) fun i j => if i = j then 1 / 3 else 0 := by
  refine ⟨by simp [trio], le_rfl, by norm_num, by simp [trio, pair], trio_normal _, trio_normal _, fun n _ => ?_, fun n _ => ?_⟩
  · rw [third_one, transpose_smul, transpose_one]
    obtain ⟨⟨b, b1, b2⟩, -⟩ := push_one (ts := trio.take n) (fun t ht => trio_unitary t (List.mem_of_mem_take ht)) (1 / 3) (by norm_num)
    rw [b2]
    exact well_smul (well_one 3) b1
  · rw [third_one]
    obtain ⟨-, b, b1, b2⟩ := push_one (ts := trio.drop n) (fun t ht => trio_unitary t (List.mem_of_mem_drop ht)) (1 / 3) (by norm_num)
    rw [b2]
    exact well_smul (well_one 3) b1

/-- The contracts of the square root and the pseudo-inverse can be met by the same functions. -/
theorem exists_gauge_pinv : ∃ sqrtm pinv, GaugeSpec sqrtm pinv ∧ ∀ A, PinvSpec A (pinv A) := by
  obtain ⟨sqrtm, _, hG⟩ := exists_gauge
  obtain ⟨pinv, hp⟩ := exists_pinv
  refine ⟨sqrtm, pinv, ⟨hG.root, fun D S h1 h2 hS hw => ?_⟩, hp⟩
  subst h1
  refine ⟨(hp S).r.trans h2, (hp S).c, ?_⟩
  have hd := (Matrix.isUnit_iff_isUnit_det _).1 (posDef_of_well hw).isUnit
  rw [Matrix.det_mul] at hd
  have hu := isUnit_of_mul_isUnit_left hd
  have e : toM S.r S.v * toM S.r (pinv S).v * toM S.r S.v = toM S.r S.v := by
    ext i j
    have := (hp S).one i i.2 j (by rw [h2]; exact j.2)
    rw [h2, sum_comm, sum_range] at this
    simp only [Matrix.mul_apply, toM, Finset.sum_mul]
    rw [← this]
    exact sum_congr rfl fun k _ => Fin.sum_univ_eq_sum_range (fun x => S.v i x * (pinv S).v x k * S.v k j) S.r
  rw [Matrix.mul_assoc] at e
  calc toM S.r (pinv S).v * toM S.r S.v = (toM S.r S.v)⁻¹ * (toM S.r S.v * (toM S.r (pinv S).v * toM S.r S.v)) := by
        rw [← Matrix.mul_assoc, Matrix.nonsing_inv_mul _ hu, Matrix.one_mul]
    _ = 1 := by rw [e, Matrix.nonsing_inv_mul _ hu]

/-- C115 applies to a cell of three tensors. -/
example : ∃ O sqrtm pinv eigs out r, regauge O sqrtm pinv eigs trio = .ok (out, r) ∧ out.length = 3 ∧ (∀ a ∈ out, LeftCanonical 3 a) ∧
    (toM 3 r.v)ᴴ * toM 3 r.v = 1 := by
  obtain ⟨O, hO⟩ := exists_linAlg
  obtain ⟨sqrtm, pinv, hG, hp⟩ := exists_gauge_pinv
  obtain ⟨eigs, hE, hc⟩ := exists_eigs_six
  obtain ⟨out, r, h1, h2, h3, -, -, h4, -⟩ := C115_gauge hO hp hG hE hc trio_cell fun t ht => by
    obtain ⟨M, rfl, -⟩ := trio_unitary t ht
    rw [pair_zero]; exact isUnit_one
  exact ⟨O, sqrtm, pinv, eigs, out, r, h1, h2, h3, h4⟩

/-- Bond dimension two is refused. -/
example (O : LinAlg) (sqrtm pinv : Mat ℂ → Mat ℂ) (eigs : Eigs) : regauge O sqrtm pinv eigs [⟨2, 2, 2, fun i j _ => delta ℂ i j⟩] = .error .type :=
  C115_violated_small O sqrtm pinv eigs (Or.inr rfl) (by norm_num) (by norm_num)

end

end PyTeN.GradRegauge
