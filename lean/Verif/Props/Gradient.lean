import Verif.Engine.GradientEnv

/-! # C100: the gradient of `HomogeneousIMPSengine` -/

namespace PyTeN.GradOpt
open Finset Transfer Regauge Vumps Steady Matrix
noncomputable section

/-! ## The canonical form -/

section
variable {O : LinAlg} {eigh : Lanczos.Eigh} {eigs : ℕ → Eigs} {fuel k D Dmax : ℕ} {pinv trunc η η' tw : ℝ} {p q : ℕ → ℕ → ℂ} {A G : Ten ℂ} {lam : List ℝ}

theorem sym_parts (h : regaugeSym O eigh eigs fuel k pinv trunc Dmax A = .ok (G, lam, tw)) : ∃ μ v T μ' v', tmEigs eigs fuel .right k A = .ok (μ, v) ∧
    unitEta μ A = .ok T ∧ tmEigs eigs fuel .left k T = .ok (μ', v') := by
  unfold regaugeSym at h
  obtain ⟨⟨μ, v⟩, h1, h⟩ := andThen_ok.1 h
  obtain ⟨T, h2, h⟩ := andThen_ok.1 h
  obtain ⟨⟨w, wi, u⟩, h3, h⟩ := andThen_ok.1 h
  obtain ⟨⟨μ', v'⟩, h4, h⟩ := andThen_ok.1 h
  exact ⟨μ, v, T, μ', v', h1, h2, h4⟩

/-- **C100 (canonical form).**  For a tensor whose transfer operators have simple leading eigenvalues, `regauge(gauge='symmetric')` without
truncation returns `gamma` and `lam` such that `lam·gamma` and `gamma·lam` are the tensor divided by the root of the eigenvalue in other
gauges, the first left- and the second right-isometric; `lam` is positive, sorted and of unit norm, and no weight is discarded. -/
theorem C100_regauge (hO : O.Spec) (he : EighSpec eigh) (hE : ∀ i, EigsLR (eigs i)) (hp : 0 ≤ pinv) (ht : trunc ≤ 1e-15) (hl : A.l = D) (hr : A.r = D)
    (hR : Normal .right pinv D [A] η q) (hL : Normal .left pinv D [A] η' p) (h : regaugeSym O eigh eigs fuel k pinv trunc Dmax A = .ok (G, lam, tw)) :
    SymGauge D A G lam η ∧ tw = 0 ∧ η' = η := by
  obtain ⟨μ, v, T, μ', v', h1, h2, h3⟩ := sym_parts h
  obtain ⟨rfl, -⟩ := tm_lead hE hl hr hR h1
  unfold unitEta at h2
  rw [Complex.ofReal_re, if_neg (not_le.2 hR.pos)] at h2
  cases h2
  obtain ⟨hη, G', lam', h', hS⟩ := regaugeSym_run (Dmax := Dmax) hO he hE hp ht hl hr hR hL h1 h3
  rw [h] at h'
  cases h'
  exact ⟨hS, rfl, hη⟩

/-- **C100 (canonical form, termination).**  With converging solvers it returns. -/
theorem C100_regauge_total (hO : O.Spec) (he : EighSpec eigh) (hE : ∀ i, EigsLR (eigs i)) (hc : ∀ i, ConvergesK (eigs i) k) (hk : 1 ≤ k) (hkD : k + 1 < D * D)
    (hf : 1 ≤ fuel) (hp : 0 ≤ pinv) (ht : trunc ≤ 1e-15) (hl : A.l = D) (hr : A.r = D) (hR : Normal .right pinv D [A] η q) (hL : Normal .left pinv D [A] η' p) :
    ∃ G lam, regaugeSym O eigh eigs fuel k pinv trunc Dmax A = .ok (G, lam, 0) := by
  obtain ⟨v, hv⟩ := tm_total hE hc hk hkD hf hl hr hR
  have hL2 : Normal .left pinv D [divT (Real.sqrt η) A] (η' / Real.sqrt η ^ (2 * 1)) p := hL.scale (Real.sqrt_pos.2 hR.pos)
  obtain ⟨v', hv'⟩ := tm_total (A := divT (Real.sqrt η) A) hE hc hk hkD hf hl hr hL2
  obtain ⟨-, G, lam, h, -⟩ := regaugeSym_run (Dmax := Dmax) hO he hE hp ht hl hr hR hL hv hv'
  exact ⟨G, lam, h⟩

theorem norm2_div {s : List ℝ} (h : norm2 s ≠ 0) : norm2 (s.map (· / norm2 s)) = 1 := by
  have h1 : norm2 (s.map (· / norm2 s)) ^ 2 = 1 := by
    have e : ∀ (c : ℝ) (l : List ℝ), ((l.map (· / c)).map (fun x => x ^ 2)).sum = (l.map fun x => x ^ 2).sum / c ^ 2 := by
      intro c l
      induction l with
      | nil => simp
      | cons a l ih => simp only [List.map_cons, List.sum_cons, ih]; ring
    have hs : ∀ l : List ℝ, norm2 l ^ 2 = (l.map fun x => x ^ 2).sum := fun l => by
      unfold norm2
      exact Real.sq_sqrt (List.sum_nonneg fun x hx => by
        obtain ⟨y, -, rfl⟩ := List.mem_map.1 hx
        positivity)
    rw [hs, e, ← hs, div_self (pow_ne_zero 2 h)]
  nlinarith [norm2_nonneg (s.map (· / norm2 s))]

theorem filter_sorted (t : ℝ) {l : List ℝ} (h : l.Pairwise (· ≥ ·)) : l.filter (t < ·) = l.take (l.filter (t < ·)).length := by
  induction l with
  | nil => simp
  | cons a l ih =>
    obtain ⟨h1, h2⟩ := List.pairwise_cons.1 h
    by_cases ha : t < a
    · rw [List.filter_cons_of_pos (by simpa using ha), List.length_cons, List.take_succ_cons, ← ih h2]
    · have : (a :: l).filter (t < ·) = [] := by
        rw [List.filter_eq_nil_iff]
        intro x hx
        rcases List.mem_cons.1 hx with rfl | hx
        · simpa using ha
        · have := h1 x hx
          simp only [decide_eq_true_eq, not_lt]
          linarith [not_lt.1 ha]
      rw [this]
      simp

theorem sum_parts (t : ℝ) (n : ℕ) (l : List ℝ) : ((l.filter (t < ·)).take n).sum + (((l.filter (t < ·)).drop n).sum + (l.filter (· ≤ t)).sum) = l.sum := by
  rw [← add_assoc, ← List.sum_append, List.take_append_drop]
  induction l with
  | nil => simp
  | cons a l ih =>
    by_cases ha : t < a
    · rw [List.filter_cons_of_pos (by simpa using ha), List.filter_cons_of_neg (by simpa using ha), List.sum_cons, List.sum_cons, add_assoc, ih]
    · rw [List.filter_cons_of_neg (by simpa using ha), List.filter_cons_of_pos (by simpa using ha), List.sum_cons, List.sum_cons, ← ih]
      ring

/-- **C100 (truncation).**  With `trunc>1E-15` the values kept are a positive multiple of the largest of the normalised values: those above
the threshold, but at most `Dmax` of them.  Their norm is one again, and the third result is the sum of the normalised values discarded. -/
theorem C100_truncation {s : List ℝ} (ht : 1e-15 < trunc) (hs : s.Pairwise (· ≥ ·)) (h : keep trunc Dmax s = .ok (lam, tw)) :
    lam.length ≤ Dmax ∧ (lam ≠ [] → norm2 lam = 1) ∧ ∃ c : ℝ, 0 < c ∧ lam = (((s.map (· / norm2 s)).take lam.length).map (· / c)) ∧
      (∀ x ∈ (s.map (· / norm2 s)).take lam.length, trunc < x) ∧ (lam.length = Dmax ∨ ∀ x ∈ (s.map (· / norm2 s)).drop lam.length, x ≤ trunc) ∧
      tw = ((s.map (· / norm2 s)).drop lam.length).sum := by
  unfold keep at h
  obtain ⟨l0, h1, h⟩ := andThen_ok.1 h
  rw [if_pos ht] at h
  obtain ⟨k0, h2, h⟩ := andThen_ok.1 h
  cases h
  have hl0 : l0 = s.map (· / norm2 s) := by
    unfold normalise at h1
    split_ifs at h1 with a b
    · cases h1; rw [a]; rfl
    · cases h1; rfl
  have hs0 : l0.Pairwise (· ≥ ·) := by
    rw [hl0, List.pairwise_map]
    exact hs.imp fun hab => div_le_div_of_nonneg_right hab (norm2_nonneg s)
  rw [← hl0]
  have hf := filter_sorted trunc hs0
  have hlk : lam.length = ((l0.filter (trunc < ·)).take Dmax).length := by
    unfold normalise at h2
    split_ifs at h2 with a b
    · cases h2; rw [a]
    · cases h2; rw [List.length_map]
  have htake : (l0.filter (trunc < ·)).take Dmax = l0.take lam.length := by
    rw [hlk, List.length_take]
    conv_lhs => rw [hf, List.take_take]
  have hbig : ∀ x ∈ l0.take lam.length, trunc < x := fun x hx => by
    rw [← htake] at hx
    simpa using (List.mem_filter.1 (List.mem_of_mem_take hx)).2
  have hdrop : lam.length = Dmax ∨ ∀ x ∈ l0.drop lam.length, x ≤ trunc := by
    rw [hlk, List.length_take]
    rcases le_total Dmax (l0.filter (trunc < ·)).length with hle | hle
    · exact .inl (min_eq_left hle)
    · refine .inr fun x hx => ?_
      rw [min_eq_right hle] at hx
      by_contra hc
      have h3 : l0.filter (trunc < ·) = (l0.take (l0.filter (trunc < ·)).length).filter (trunc < ·) ++ (l0.drop (l0.filter (trunc < ·)).length).filter (trunc < ·) := by
        rw [← List.filter_append, List.take_append_drop]
      have h4 : x ∈ (l0.drop (l0.filter (trunc < ·)).length).filter (trunc < ·) := List.mem_filter.2 ⟨hx, by simpa using hc⟩
      have h5 : (l0.take (l0.filter (trunc < ·)).length).filter (trunc < ·) = l0.filter (trunc < ·) := by
        rw [← hf]
        simp
      have h6 := congrArg List.length h3
      rw [h5, List.length_append] at h6
      have := List.length_pos_of_mem h4
      omega
  have htw : (l0.drop lam.length).sum = ((l0.filter (trunc < ·)).drop Dmax).sum + (l0.filter (· ≤ trunc)).sum := by
    have h3 := sum_parts trunc Dmax l0
    have h4 : (l0.take lam.length).sum + (l0.drop lam.length).sum = l0.sum := by rw [← List.sum_append, List.take_append_drop]
    rw [htake] at h3
    linarith
  refine ⟨by rw [hlk, List.length_take]; exact min_le_left _ _, ?_⟩
  rw [htake] at h2
  unfold normalise at h2
  split_ifs at h2 with a b
  · have hk : lam = [] := (Except.ok.inj h2).symm
    refine ⟨fun h => absurd hk h, 1, one_pos, ?_, hbig, hdrop, htw.symm⟩
    rw [a, hk]; rfl
  · have hk : lam = (l0.take lam.length).map (· / norm2 (l0.take lam.length)) := (Except.ok.inj h2).symm
    refine ⟨fun _ => ?_, norm2 (l0.take lam.length), lt_of_le_of_ne (norm2_nonneg _) (Ne.symm b), hk, hbig, hdrop, htw.symm⟩
    have := norm2_div b
    rwa [← hk] at this

end

/-! ## The point at which the gradient is computed -/

/-- Spec: the tensor `_tensor` is `lam·gamma·lam`. -/
def Centre (A : Ten ℂ) (lam : List ℝ) (T : Ten ℂ) : Prop :=
  T.l = A.l ∧ T.r = A.r ∧ T.d = A.d ∧ ∀ i < A.l, ∀ j < A.r, ∀ s < A.d, T.v i j s = A.v i j s * ((lam.getD j 0 : ℝ) : ℂ)

section
variable {X : Ext} {o : Opts} {e : Vumps.Eng} {mps : Ten ℂ} {pt : Pt} {D B D0 : ℕ} {W : Mpo ℂ} {η η' : ℝ} {p q : ℕ → ℕ → ℂ}

/-- The parts of a point. -/
theorem point_parts (h : point X o e mps = .ok pt) : ∃ tw H, regaugeSym X.O X.eigh X.eigs X.fuel o.numeig o.pinv o.trunc mps.l mps = .ok (pt.gamma, pt.lam, tw) ∧
    absorbL (diagMat pt.lam) pt.gamma = .ok pt.A ∧ absorbR pt.gamma (diagMat pt.lam) = .ok pt.B ∧ absorbL (diagMat pt.lam) pt.B = .ok pt.tensor ∧
    envLeft X { e with D := pt.lam.length } pt.A (diagMat (pt.lam.map (· ^ 2))) (diagMat (pt.lam.map (· ^ 2))) (diagMat (pt.lam.map (· ^ 2))) = .ok (pt.lb, pt.en) ∧
    envRight X { e with D := pt.lam.length } pt.B (diagMat (pt.lam.map (· ^ 2))) (diagMat (pt.lam.map (· ^ 2))) (diagMat (pt.lam.map (· ^ 2))) = .ok (pt.rb, pt.enR) ∧
    contractionH pt.lb pt.tensor e.W pt.rb = .ok H ∧ subT H (2 * pt.en) pt.tensor = .ok pt.grad ∧ pt.normgrad = pt.grad.sq ∧ pt.leftn = leftDev pt.A ∧
    pt.rightn = rightDev pt.B := by
  unfold point at h
  obtain ⟨⟨G, lam, tw⟩, h1, h⟩ := andThen_ok.1 h
  obtain ⟨A, h2, h⟩ := andThen_ok.1 h
  obtain ⟨Bt, h3, h⟩ := andThen_ok.1 h
  obtain ⟨T, h4, h⟩ := andThen_ok.1 h
  obtain ⟨⟨lb, en⟩, h5, h⟩ := andThen_ok.1 h
  obtain ⟨⟨rb, enR⟩, h6, h⟩ := andThen_ok.1 h
  obtain ⟨H, h7, h⟩ := andThen_ok.1 h
  obtain ⟨g, h8, h⟩ := andThen_ok.1 h
  cases h
  exact ⟨tw, H, h1, h2, h3, h4, h5, h6, h7, h8, rfl, rfl, rfl⟩

/-- Spec: the contracts of the routines that are called. -/
structure Routines (X : Ext) : Prop where
  O : X.O.Spec
  eigh : EighSpec X.eigh
  eigs : ∀ i, EigsLR (X.eigs i)
  solve : LgmresSpec X.solve

/-- Spec: a tensor, the operator of a nearest-neighbour Hamiltonian and the engine constructed with it. -/
structure Input (D B : ℕ) (o : Opts) (W : Mpo ℂ) (e : Vumps.Eng) (mps : Ten ℂ) (η η' : ℝ) (p q : ℕ → ℕ → ℂ) : Prop where
  site : NNSite 0 (B - 1) B W
  built : ∃ D0, Built D0 B W e
  l : mps.l = D
  r : mps.r = D
  d : mps.d = W.din
  pinv : 0 ≤ o.pinv
  trunc : o.trunc ≤ 1e-15
  right : Normal .right o.pinv D [mps] η q
  left : Normal .left o.pinv D [mps] η' p

theorem isM_rho {lam : List ℝ} (h : lam.length = D) : IsM (diagMat (lam.map (· ^ 2))) D (rho lam) :=
  ⟨by rw [show (diagMat (lam.map (· ^ 2))).r = (lam.map (· ^ 2)).length from rfl, List.length_map, h],
    by rw [show (diagMat (lam.map (· ^ 2))).c = (lam.map (· ^ 2)).length from rfl, List.length_map, h], fun _ _ _ _ => rfl⟩

theorem built_D (h : Built D0 B W e) : Built D B W { e with D := D } := ⟨rfl, h.eW, h.eW0, h.eW2⟩

theorem point_canon (hX : Routines X) (hi : Input D B o W e mps η η' p q) (h : point X o e mps = .ok pt) :
    SymGauge D mps pt.gamma pt.lam η ∧ Canon D pt.A pt.B pt.lam ∧ pt.A.d = W.din ∧ Centre pt.A pt.lam pt.tensor := by
  obtain ⟨tw, H, h1, h2, h3, h4, -⟩ := point_parts h
  obtain ⟨hS, -, rfl⟩ := C100_regauge hX.O hX.eigh hX.eigs hi.pinv hi.trunc hi.l hi.r hi.right hi.left h1
  have hC := hS.canon hi.pinv hi.r hi.right hi.left h2 h3
  have hd : pt.A.d = W.din := by rw [(absorbL_eq h2).2]; exact hS.d.trans hi.d
  have e4 := absorbL_eq h4
  refine ⟨hS, hC, hd, ?_, ?_, ?_, fun i hi' j hj s hs => ?_⟩
  · rw [e4.2, hC.Al]; exact hS.len
  · rw [e4.2, hC.Ar]; exact hC.Br
  · rw [e4.2, hC.dd]
  · rw [hC.Al] at hi'
    rw [hC.Ar] at hj
    rw [hC.move i hi' j hj s hs, e4.2]
    dsimp only
    rw [sum_eq_single i]
    · simp [diagMat]
    · intro b _ hb
      simp [diagMat, hb.symm]
    · intro hb
      exact absurd (mem_range.2 (by rw [hC.Bl]; exact hi')) hb

theorem point_blk (hX : Routines X) (hi : Input D B o W e mps η η' p q) (h : point X o e mps = .ok pt) :
    ∃ k k', Blk D 0 (B - 1) B pt.A W (rho pt.lam) (rho pt.lam) pt.lb pt.en k ∧ Blk D (B - 1) 0 B (rT pt.B) (rW W) (rho pt.lam) (rho pt.lam) pt.rb pt.enR k' := by
  obtain ⟨hS, hC, hd, -⟩ := point_canon hX hi h
  obtain ⟨tw, H, -, -, -, -, h5, h6, -⟩ := point_parts h
  obtain ⟨D0, hb⟩ := hi.built
  rw [hC.len] at h5 h6
  have hb' : Built D B W { e with D := D } := built_D hb
  have hr := isM_rho hC.len
  obtain ⟨k, hk⟩ := envLeft_blk hX.solve hi.site hd hC.Al hC.Ar hb' hr hr hr h5
  obtain ⟨k', hk'⟩ := envRight_blk hX.solve hi.site (hC.dd.symm.trans hd) hC.Bl hC.Br hb' hr hr hr h6
  exact ⟨k, k', hk, hk'⟩

/-- **C100 (environments).**  `_A` and `_B` are the isometric forms of the state, the two blocks are the halves of the infinite system, and
the energies of a site computed from the left and from the right agree. -/
theorem C100_environments (hX : Routines X) (hi : Input D B o W e mps η η' p q) (h : point X o e mps = .ok pt) :
    SymGauge D mps pt.gamma pt.lam η ∧ Canon D pt.A pt.B pt.lam ∧ Centre pt.A pt.lam pt.tensor ∧ InfL D B pt.A W (rho pt.lam) (rho pt.lam) pt.lb pt.en ∧
      InfR D B pt.B W (rho pt.lam) (rho pt.lam) pt.rb pt.en ∧ pt.enR = pt.en := by
  obtain ⟨hS, hC, hd, hT⟩ := point_canon hX hi h
  obtain ⟨k, k', hk, hk'⟩ := point_blk hX hi h
  have he := (bond_energy hC hi.site hd hk hk').1
  rw [he] at hk'
  exact ⟨hS, hC, hT, blk_left hi.site hd hC.Al hC.Ar hC.left hC.fixL hC.tr hk, blk_right hi.site (hC.dd.symm.trans hd) hC.Bl hC.Br hC.right hC.fixR hC.tr hk', he⟩

theorem leftDev_zero {A : Ten ℂ} (h : LeftOrth A) : leftDev A = 0 := by
  unfold leftDev normF
  rw [Real.sqrt_eq_zero']
  refine le_of_eq (sum_eq_zero fun j hj => sum_eq_zero fun j' hj' => ?_)
  rw [mem_range] at hj hj'
  have := h j' hj' j hj
  rw [Complex.normSq_eq_zero, sub_eq_zero, sum_comm]
  rw [show delta ℂ j j' = delta ℂ j' j by simp [delta, eq_comm], ← this]
  exact sum_congr rfl fun _ _ => sum_congr rfl fun _ _ => mul_comm _ _

theorem rightDev_zero {A : Ten ℂ} (h : RightOrth A) : rightDev A = 0 := by
  unfold rightDev normF
  rw [Real.sqrt_eq_zero']
  refine le_of_eq (sum_eq_zero fun j hj => sum_eq_zero fun j' hj' => ?_)
  rw [mem_range] at hj hj'
  rw [Complex.normSq_eq_zero, sub_eq_zero, sum_comm]
  exact h j hj j' hj'

/-- **C100 (the norms reported).**  The deviations from the two gauges are zero. -/
theorem C100_norms (hX : Routines X) (hi : Input D B o W e mps η η' p q) (h : point X o e mps = .ok pt) : pt.leftn = 0 ∧ pt.rightn = 0 := by
  obtain ⟨-, hC, -⟩ := point_canon hX hi h
  obtain ⟨tw, H, -, -, -, -, -, -, -, -, -, h1, h2⟩ := point_parts h
  rw [h1, h2]
  exact ⟨leftDev_zero hC.left, rightDev_zero hC.right⟩

/-- Spec: the overlap `⟨X|T⟩` of two tensors. -/
def ov (T X : Ten ℂ) : ℂ := ∑ i ∈ range T.l, ∑ j ∈ range T.r, ∑ s ∈ range T.d, T.v i j s * star (X.v i j s)

theorem ov_self (T : Ten ℂ) : ov T T = (T.nsq : ℂ) := by
  unfold ov Ten.nsq
  push_cast
  refine sum_congr rfl fun i _ => sum_congr rfl fun j _ => sum_congr rfl fun s _ => ?_
  rw [Complex.normSq_eq_conj_mul_self, mul_comm]
  rfl

theorem canon_sq {A Bt T : Ten ℂ} {lam : List ℝ} (hC : Canon D A Bt lam) (hT : Centre A lam T) : T.nsq = 1 := by
  have h1 : ((T.nsq : ℝ) : ℂ) = ∑ j ∈ range D, rho lam j j := by
    rw [← ov_self]
    unfold ov
    rw [hT.1, hT.2.1, hT.2.2.1, hC.Al, hC.Ar, sum_comm]
    refine sum_congr rfl fun j hj => ?_
    have hj := mem_range.1 hj
    have ho := hC.left j (by rw [hC.Ar]; exact hj) j (by rw [hC.Ar]; exact hj)
    rw [delta_self, sum_comm, hC.Al] at ho
    rw [rho_v, if_pos rfl, ← one_mul (_ * _), ← ho, sum_mul]
    refine sum_congr rfl fun i hi => ?_
    rw [sum_mul]
    refine sum_congr rfl fun s hs => ?_
    rw [hT.2.2.2 i (by rw [hC.Al]; exact mem_range.1 hi) j (by rw [hC.Ar]; exact hj) s (mem_range.1 hs), star_mul',
      show star (((lam.getD j 0 : ℝ) : ℂ)) = ((lam.getD j 0 : ℝ) : ℂ) from Complex.conj_ofReal _]
    ring
  rw [hC.tr] at h1
  exact_mod_cast h1

theorem point_fits (hX : Routines X) (hi : Input D B o W e mps η η' p q) (h : point X o e mps = .ok pt) : SiteFits pt.lb W pt.rb D D W.din := by
  obtain ⟨k, k', hk, hk'⟩ := point_blk hX hi h
  exact ⟨hk.u, hk.w, hk'.u, hk'.w, rfl, hi.site.dd, hi.site.l.trans hk.m.symm, hi.site.r.trans hk'.m.symm⟩

/-- **C100 (gradient).**  `_tensor` has norm one, and the energy of the effective Hamiltonian in it is twice the energy of a site.  `_grad` is
the gradient of the energy at `_tensor` on the unit sphere, that is `H|T⟩-⟨T|H|T⟩|T⟩`: its overlap with every tensor is that of the
effective Hamiltonian applied to `_tensor` minus that of `2*Elocleft*_tensor`.  It is orthogonal to `_tensor`, and `_normgrad` is the square
of its norm. -/
theorem C100_gradient (hX : Routines X) (hi : Input D B o W e mps η η' p q) (h : point X o e mps = .ok pt) :
    pt.tensor.nsq = 1 ∧ siteForm pt.lb W pt.rb pt.tensor pt.tensor = 2 * pt.en ∧
      (pt.grad.l = D ∧ pt.grad.r = D ∧ pt.grad.d = W.din) ∧
      (∀ Z : Ten ℂ, Z.l = D → Z.r = D → Z.d = W.din → ov pt.grad Z = siteForm pt.lb W pt.rb pt.tensor Z - siteForm pt.lb W pt.rb pt.tensor pt.tensor * ov pt.tensor Z) ∧
      ov pt.grad pt.tensor = 0 ∧ pt.normgrad = pt.grad.nsq := by
  obtain ⟨-, hC, hd, hT⟩ := point_canon hX hi h
  obtain ⟨k, k', hk, hk'⟩ := point_blk hX hi h
  obtain ⟨f1, f2, f3, f4, f5, f6, f7, f8⟩ := point_fits hX hi h
  obtain ⟨tw, H, -, -, -, -, -, -, h7, h8, h9, -⟩ := point_parts h
  obtain ⟨D0, hb⟩ := hi.built
  rw [hb.eW] at h7
  have tl : pt.tensor.l = D := hT.1.trans hC.Al
  have tr : pt.tensor.r = D := hT.2.1.trans hC.Ar
  have td : pt.tensor.d = W.din := hT.2.2.1.trans hd
  have hn := canon_sq hC hT
  have hE : siteForm pt.lb W pt.rb pt.tensor pt.tensor = 2 * pt.en := form_energy hC hi.site hd hk hk' tl tr (td.trans hd.symm)
    fun i hi' j hj s hs => hT.2.2.2 i (by rw [hC.Al]; exact hi') j (by rw [hC.Ar]; exact hj) s hs
  unfold contractionH at h7
  split_ifs at h7 with hc
  have h7 := Except.ok.inj h7
  unfold subT at h8
  split_ifs at h8 with hc8
  have h8 := Except.ok.inj h8
  have gl : pt.grad.l = D := by rw [← h8]; exact tl
  have gr : pt.grad.r = D := by rw [← h8]; exact tr
  have gd : pt.grad.d = W.din := by rw [← h8]; exact td
  have hg : ∀ Z : Ten ℂ, Z.l = D → Z.r = D → Z.d = W.din →
      ov pt.grad Z = siteForm pt.lb W pt.rb pt.tensor Z - siteForm pt.lb W pt.rb pt.tensor pt.tensor * ov pt.tensor Z := by
    intro Z z1 z2 z3
    rw [hE, siteForm_sum ⟨tl.trans f1.symm, tr.trans f3.symm⟩ ⟨z1.trans f2.symm, z2.trans f4.symm, z3.trans f6.symm⟩]
    unfold ov
    rw [gl, gr, gd, tl, tr, td, f2, f4, f6, mul_sum, ← sum_sub_distrib]
    refine sum_congr rfl fun i _ => ?_
    rw [mul_sum, ← sum_sub_distrib]
    refine sum_congr rfl fun j _ => ?_
    rw [mul_sum, ← sum_sub_distrib]
    refine sum_congr rfl fun s _ => ?_
    rw [← h8]
    dsimp only
    rw [← h7]
    dsimp only
    rw [td]
    ring
  refine ⟨hn, hE, ⟨gl, gr, gd⟩, hg, ?_, h9⟩
  rw [hg _ tl tr td, ov_self, hn]
  simp

/-- **C100 (stationary points).**  `_normgrad` vanishes exactly at the eigenvectors of the effective Hamiltonian; the eigenvalue is then twice the
energy of a site. -/
theorem C100_stationary (hX : Routines X) (hi : Input D B o W e mps η η' p q) (h : point X o e mps = .ok pt) :
    (pt.normgrad = 0 ↔ ∃ w, ∀ Z : Ten ℂ, Z.l = D → Z.r = D → Z.d = W.din → siteForm pt.lb W pt.rb pt.tensor Z = w * ov pt.tensor Z) ∧
    ∀ w, (∀ Z : Ten ℂ, Z.l = D → Z.r = D → Z.d = W.din → siteForm pt.lb W pt.rb pt.tensor Z = w * ov pt.tensor Z) → w = 2 * pt.en := by
  obtain ⟨h1, h2, ⟨g1, g2, g3⟩, h3, h4, h5⟩ := C100_gradient hX hi h
  obtain ⟨-, hC, hd, hT⟩ := point_canon hX hi h
  have tl : pt.tensor.l = D := hT.1.trans hC.Al
  have tr : pt.tensor.r = D := hT.2.1.trans hC.Ar
  have td : pt.tensor.d = W.din := hT.2.2.1.trans hd
  have hw : ∀ w, (∀ Z : Ten ℂ, Z.l = D → Z.r = D → Z.d = W.din → siteForm pt.lb W pt.rb pt.tensor Z = w * ov pt.tensor Z) → w = 2 * pt.en := by
    intro w hw
    have := hw _ tl tr td
    rw [h2, ov_self, h1] at this
    simpa using this.symm
  refine ⟨⟨fun h0 => ⟨2 * pt.en, fun Z z1 z2 z3 => ?_⟩, fun ⟨w, h0⟩ => ?_⟩, hw⟩
  · rw [h5] at h0
    have hz : ov pt.grad Z = 0 := by
      refine sum_eq_zero fun i hi => sum_eq_zero fun j hj => sum_eq_zero fun s hs => ?_
      have a := (sum_eq_zero_iff_of_nonneg fun _ _ => sum_nonneg fun _ _ => sum_nonneg fun _ _ => Complex.normSq_nonneg _).1 h0 i hi
      have b := (sum_eq_zero_iff_of_nonneg fun _ _ => sum_nonneg fun _ _ => Complex.normSq_nonneg _).1 a j hj
      have c := (sum_eq_zero_iff_of_nonneg fun _ _ => Complex.normSq_nonneg _).1 b s hs
      rw [Complex.normSq_eq_zero.1 c, zero_mul]
    have := h3 Z z1 z2 z3
    rw [hz, h2] at this
    linear_combination -this
  · have h6 := ov_self pt.grad
    rw [h3 _ g1 g2 g3, h0 _ g1 g2 g3, h2, hw w h0, sub_self] at h6
    rw [h5]
    exact_mod_cast h6.symm

/-- The canonical form is one the theorems on the Hermitian environments apply to. -/
theorem point_ready (hX : Routines X) (hi : Input D B o W e mps η η' p q) (h : point X o e mps = .ok pt) :
    Ready D B 0 W { e with D := D } ⟨pt.A, pt.B, pt.tensor, eye D⟩ (rho pt.lam) (rho pt.lam) := by
  obtain ⟨-, hC, hd, -⟩ := point_canon hX hi h
  obtain ⟨D0, hb⟩ := hi.built
  exact ⟨hi.site, built_D hb, hC.Al, hC.Ar, hd, hC.Bl, hC.Br, hC.dd.symm.trans hd, hC.left, hC.right, hC.normL, hC.normR⟩

variable {σ : ℕ → ℕ} {g : ℕ → ℂ}

/-- **C100 (Hermitian Hamiltonians).**  The energy is real and the effective Hamiltonian is Hermitian. -/
theorem C100_hermitian (hCj : Conj σ g 0 (B - 1) B W) (hX : Routines X) (hi : Input D B o W e mps η η' p q) (h : point X o e mps = .ok pt) :
    pt.en.im = 0 ∧ SiteHerm pt.lb W pt.rb D D W.din := by
  obtain ⟨k, k', hk, hk'⟩ := point_blk hX hi h
  obtain ⟨h1, h2, -⟩ := env_herm hCj (point_ready hX hi h) hk hk'
  exact ⟨Complex.conj_eq_iff_im.1 h1, h2⟩

theorem descent_abstract {V : Type*} [NormedAddCommGroup V] [InnerProductSpace ℂ V] {A : V →ₗ[ℂ] V} (hA : A.IsSymmetric) (x g : V) (c a : ℝ)
    (hg : g = A x - (c : ℂ) • x) (hx : inner ℂ x x = 1) (hc : inner ℂ x (A x) = (c : ℂ)) :
    (inner ℂ (x - (a : ℂ) • g) (A (x - (a : ℂ) • g))).re - c * ‖x - (a : ℂ) • g‖ ^ 2 = -2 * a * ‖g‖ ^ 2 + a ^ 2 * ((inner ℂ g (A g)).re - c * ‖g‖ ^ 2) := by
  have hAx : A x = g + (c : ℂ) • x := by rw [hg]; abel
  have e1 : inner ℂ x g = 0 := by rw [hg, inner_sub_right, inner_smul_right, hc, hx]; simp
  have e2 : inner ℂ g x = 0 := by rw [← inner_conj_symm, e1, map_zero]
  have e3 : inner ℂ g (A x) = ((‖g‖ ^ 2 : ℝ) : ℂ) := by
    rw [hAx, inner_add_right, inner_smul_right, e2, mul_zero, add_zero, inner_self_eq_norm_sq_to_K]
    norm_cast
  have e4 : inner ℂ x (A g) = ((‖g‖ ^ 2 : ℝ) : ℂ) := by
    rw [← hA x g, hAx, inner_add_left, inner_smul_left, e1, mul_zero, add_zero, inner_self_eq_norm_sq_to_K]
    norm_cast
  have e5 : ‖x - (a : ℂ) • g‖ ^ 2 = 1 + a ^ 2 * ‖g‖ ^ 2 := by
    have h1 : ((‖x - (a : ℂ) • g‖ ^ 2 : ℝ) : ℂ) = inner ℂ (x - (a : ℂ) • g) (x - (a : ℂ) • g) := by
      rw [inner_self_eq_norm_sq_to_K]; norm_cast
    rw [inner_sub_left, inner_sub_right, inner_sub_right, inner_smul_left, inner_smul_right, inner_smul_left, inner_smul_right, e1, e2, hx, Complex.conj_ofReal,
      inner_self_eq_norm_sq_to_K] at h1
    have h2 : ((‖x - (a : ℂ) • g‖ ^ 2 : ℝ) : ℂ) = ((1 + a ^ 2 * ‖g‖ ^ 2 : ℝ) : ℂ) := by
      rw [h1]
      push_cast
      change (1 : ℂ) - a * 0 - (a * 0 - a * (a * ((‖g‖ : ℂ)) ^ 2)) = _
      ring
    exact_mod_cast h2
  rw [e5, map_sub, map_smul, inner_sub_left, inner_sub_right, inner_sub_right, inner_smul_left, inner_smul_right, inner_smul_left, inner_smul_right, e3, e4, hc, Complex.conj_ofReal]
  simp only [Complex.sub_re, Complex.mul_re, Complex.ofReal_re, Complex.ofReal_im, zero_mul, sub_zero]
  ring

/-- **C100 (descent).**  For a Hermitian Hamiltonian the energy of the effective Hamiltonian in `_tensor-alpha*_grad`, relative to that in
`_tensor`, is `-2*alpha*_normgrad` and a term of second order. -/
theorem C100_descent (hCj : Conj σ g 0 (B - 1) B W) (hX : Routines X) (hi : Input D B o W e mps η η' p q) (h : point X o e mps = .ok pt) {Y : Ten ℂ} (a : ℝ)
    (y1 : Y.l = D) (y2 : Y.r = D) (y3 : Y.d = W.din) (hY : ∀ i < D, ∀ j < D, ∀ s < W.din, Y.v i j s = pt.tensor.v i j s - a * pt.grad.v i j s) :
    (siteForm pt.lb W pt.rb Y Y).re - 2 * pt.en.re * Y.nsq =
      -2 * a * pt.normgrad + a ^ 2 * ((siteForm pt.lb W pt.rb pt.grad pt.grad).re - 2 * pt.en.re * pt.normgrad) := by
  obtain ⟨him, hH⟩ := C100_hermitian hCj hX hi h
  obtain ⟨h1, h2, ⟨g1, g2, g3⟩, h3, h4, h5⟩ := C100_gradient hX hi h
  obtain ⟨-, hC, hd, hT⟩ := point_canon hX hi h
  have tl : pt.tensor.l = D := hT.1.trans hC.Al
  have tr : pt.tensor.r = D := hT.2.1.trans hC.Ar
  have td : pt.tensor.d = W.din := hT.2.2.1.trans hd
  have hen : ((2 * pt.en.re : ℝ) : ℂ) = 2 * pt.en := by
    apply Complex.ext <;> simp [him]
  have hsf : ∀ U : Ten ℂ, U.l = D → U.r = D → U.d = W.din → ∀ Z : Ten ℂ, Z.l = D → Z.r = D → Z.d = W.din →
      siteForm pt.lb W pt.rb U Z = inner ℂ (Z.vec D D W.din) (siteOp pt.lb W pt.rb D D W.din (U.vec D D W.din)) := by
    intro U u1 u2 u3 Z z1 z2 z3
    have := siteOp_form pt.lb W pt.rb U Z ⟨z1.trans u1.symm, z2.trans u2.symm, z3.trans u3.symm⟩
    rw [u1, u2, u3] at this
    exact this.symm
  have hnv : ∀ U : Ten ℂ, U.l = D → U.r = D → U.d = W.din → U.nsq = ‖U.vec D D W.din‖ ^ 2 := by
    intro U u1 u2 u3
    have := vec_norm U
    rw [u1, u2, u3] at this
    exact this.symm
  have hov : ∀ U : Ten ℂ, U.l = D → U.r = D → U.d = W.din → ∀ Z : Ten ℂ, ov U Z = inner ℂ (Z.vec D D W.din) (U.vec D D W.din) := by
    intro U u1 u2 u3 Z
    rw [PiLp.inner_apply]
    unfold ov
    rw [u1, u2, u3]
    simp only [Fintype.sum_prod_type, Ten.vec, RCLike.inner_apply, Finset.sum_range]
    rfl
  have hgv : pt.grad.vec D D W.din = siteOp pt.lb W pt.rb D D W.din (pt.tensor.vec D D W.din) - ((2 * pt.en.re : ℝ) : ℂ) • pt.tensor.vec D D W.din := by
    refine ext_inner_left ℂ fun v => ?_
    have hv : v = (TVec.ten v).vec D D W.din := (ten_vec v).symm
    rw [hv, ← hov _ g1 g2 g3, h3 (TVec.ten v) rfl rfl rfl, inner_sub_right, inner_smul_right, ← hsf _ tl tr td (TVec.ten v) rfl rfl rfl, ← hov _ tl tr td, h2, hen]
  have hYv : Y.vec D D W.din = pt.tensor.vec D D W.din - (a : ℂ) • pt.grad.vec D D W.din := by
    ext ⟨i, j, s⟩
    exact hY i i.2 j j.2 s s.2
  rw [hsf _ y1 y2 y3 _ y1 y2 y3, hnv _ y1 y2 y3, hYv, h5, hnv _ g1 g2 g3, hsf _ g1 g2 g3 _ g1 g2 g3]
  exact descent_abstract (siteOp_symm hH) _ _ (2 * pt.en.re) a hgv (by rw [← hov _ tl tr td, ov_self, h1]; simp) (by rw [← hsf _ tl tr td _ tl tr td, h2, hen])

/-- **C100 (descent for small steps).**  If the gradient does not vanish, the energy is lowered for all small enough step sizes. -/
theorem C100_lower (hCj : Conj σ g 0 (B - 1) B W) (hX : Routines X) (hi : Input D B o W e mps η η' p q) (h : point X o e mps = .ok pt) (h0 : pt.normgrad ≠ 0) :
    ∃ a₀ : ℝ, 0 < a₀ ∧ ∀ a : ℝ, 0 < a → a < a₀ → ∀ Y : Ten ℂ, Y.l = D → Y.r = D → Y.d = W.din → (∀ i < D, ∀ j < D, ∀ s < W.din, Y.v i j s = pt.tensor.v i j s - a * pt.grad.v i j s) →
      0 < Y.nsq ∧ (siteForm pt.lb W pt.rb Y Y).re / Y.nsq < (siteForm pt.lb W pt.rb pt.tensor pt.tensor).re := by
  obtain ⟨h1, h2, ⟨g1, g2, g3⟩, h3, h4, h5⟩ := C100_gradient hX hi h
  have hn : 0 < pt.normgrad := by
    refine lt_of_le_of_ne ?_ (Ne.symm h0)
    rw [h5]
    exact sum_nonneg fun _ _ => sum_nonneg fun _ _ => sum_nonneg fun _ _ => Complex.normSq_nonneg _
  set κ := (siteForm pt.lb W pt.rb pt.grad pt.grad).re - 2 * pt.en.re * pt.normgrad with hκ
  refine ⟨2 * pt.normgrad / (|κ| + 1), by positivity, fun a ha ha' Y y1 y2 y3 hY => ?_⟩
  have hd := C100_descent hCj hX hi h a y1 y2 y3 hY
  rw [← hκ] at hd
  have hlt : a * κ < 2 * pt.normgrad := by
    have h6 : a * (|κ| + 1) < 2 * pt.normgrad := (lt_div_iff₀ (by positivity)).1 ha'
    nlinarith [le_abs_self κ]
  have hneg : (siteForm pt.lb W pt.rb Y Y).re - 2 * pt.en.re * Y.nsq < 0 := by
    rw [hd]
    nlinarith
  have hYpos : 0 < Y.nsq := by
    refine lt_of_le_of_ne (sum_nonneg fun _ _ => sum_nonneg fun _ _ => sum_nonneg fun _ _ => Complex.normSq_nonneg _) fun h7 => ?_
    have hz : ∀ i < D, ∀ j < D, ∀ s < W.din, Y.v i j s = 0 := by
      have := h7.symm
      intro i hi j hj s hs
      rw [← y1] at hi
      rw [← y2] at hj
      rw [← y3] at hs
      exact Complex.normSq_eq_zero.1 ((sum_eq_zero_iff_of_nonneg fun _ _ => Complex.normSq_nonneg _).1 ((sum_eq_zero_iff_of_nonneg fun _ _ => sum_nonneg fun _ _ => Complex.normSq_nonneg _).1
        ((sum_eq_zero_iff_of_nonneg fun _ _ => sum_nonneg fun _ _ => sum_nonneg fun _ _ => Complex.normSq_nonneg _).1 this i (mem_range.2 hi)) j (mem_range.2 hj)) s (mem_range.2 hs))
    have : siteForm pt.lb W pt.rb Y Y = 0 := by
      unfold siteForm
      rw [y1, y2, y3]
      refine sum_eq_zero fun i hi => sum_eq_zero fun _ _ => sum_eq_zero fun j hj => sum_eq_zero fun _ _ => sum_eq_zero fun s hs => sum_eq_zero fun _ _ => ?_
      rw [hz i (mem_range.1 hi) j (mem_range.1 hj) s (mem_range.1 hs), mul_zero, zero_mul]
    rw [this, ← h7] at hneg
    simp at hneg
  refine ⟨hYpos, ?_⟩
  rw [div_lt_iff₀ hYpos, h2]
  simp only [Complex.mul_re, Complex.re_ofNat, Complex.im_ofNat, zero_mul, sub_zero]
  linarith

end

end
end PyTeN.GradOpt
