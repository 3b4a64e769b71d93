import Verif.Props.VumpsRun
import Verif.Ham.Spin
import Mathlib.LinearAlgebra.Matrix.PosDef

/-! # Property C98, continued: the first step of `VUMPSengine.simulate` -/

namespace PyTeN.Vumps
open Finset Transfer Regauge Steady Matrix
open scoped ComplexOrder
noncomputable section

/-! ## Normal tensors in terms of matrices -/

/-- Spec: the map `F ↦ ∑ M(s)·F·M(s)†` has the simple leading eigenvalue `η>0` with the positive eigenmatrix `P`. -/
structure NormM (D d : ℕ) (M : ℕ → Matrix (Fin D) (Fin D) ℂ) (η : ℝ) (P : Matrix (Fin D) (Fin D) ℂ) : Prop where
  pos : 0 < η
  pd : P.PosDef
  tr : P.trace = 1
  eig : ∑ s ∈ range d, M s * P * (M s)ᴴ = (η : ℂ) • P
  uniq : ∀ (μ : ℂ) (F : Matrix (Fin D) (Fin D) ℂ), F ≠ 0 → ∑ s ∈ range d, M s * F * (M s)ᴴ = μ • F → η ≤ ‖μ‖ → ∃ c : ℂ, F = c • P

def fromM {D : ℕ} (F : Matrix (Fin D) (Fin D) ℂ) (i j : ℕ) : ℂ := if h : i < D ∧ j < D then F ⟨i, h.1⟩ ⟨j, h.2⟩ else 0

theorem toM_fromM {D : ℕ} (F : Matrix (Fin D) (Fin D) ℂ) : toM D (fromM F) = F := by
  ext i j
  simp [toM, fromM, i.2, j.2]

section
variable {D d : ℕ} {M : ℕ → Matrix (Fin D) (Fin D) ℂ} {η pinv : ℝ} {P : Matrix (Fin D) (Fin D) ℂ} {p : ℕ → ℕ → ℂ} {T : Ten ℂ}

theorem form_sum (p : ℕ → ℕ → ℂ) (x : ℕ → ℂ) :
    ∑ i ∈ range D, ∑ j ∈ range D, star (x i) * p i j * x j = star (fun i : Fin D => x i) ⬝ᵥ (toM D p *ᵥ fun i : Fin D => x i) := by
  simp only [dotProduct, mulVec, Finset.sum_range, Finset.mul_sum, Pi.star_apply, toM]
  exact sum_congr rfl fun i _ => sum_congr rfl fun j _ => by ring

theorem density_pd (hp : 0 ≤ pinv) (h : Density pinv D p) : (toM D p).PosDef ∧ (toM D p).trace = 1 := by
  have hH : (toM D p).IsHermitian := by
    ext i j
    exact h.herm j j.2 i i.2
  refine ⟨PosDef.of_dotProduct_mulVec_pos hH fun x hx => ?_, ?_⟩
  · let y : ℕ → ℂ := fun i => if hi : i < D then x ⟨i, hi⟩ else 0
    have hy : (fun i : Fin D => y i) = x := by funext i; simp [y, i.2]
    have hN : 0 < ∑ i ∈ range D, Complex.normSq (y i) := by
      obtain ⟨i, hi⟩ : ∃ i, x i ≠ 0 := by
        by_contra h0; push Not at h0; exact hx (funext h0)
      refine sum_pos' (fun _ _ => Complex.normSq_nonneg _) ⟨i, mem_range.2 i.2, ?_⟩
      exact Complex.normSq_pos.2 (by rw [show y i = x i from congrFun hy i]; exact hi)
    set N := ∑ i ∈ range D, Complex.normSq (y i) with hNd
    have h1 := h.pos (fun i => y i / ((Real.sqrt N : ℝ) : ℂ)) (by
      simp only [Complex.normSq_div, Complex.normSq_ofReal, Real.mul_self_sqrt hN.le]
      rw [← Finset.sum_div, ← hNd, div_self hN.ne'])
    have h2 : ∑ i ∈ range D, ∑ j ∈ range D, star (y i / ((Real.sqrt N : ℝ) : ℂ)) * p i j * (y j / ((Real.sqrt N : ℝ) : ℂ))
        = (∑ i ∈ range D, ∑ j ∈ range D, star (y i) * p i j * y j) / (N : ℂ) := by
      rw [Finset.sum_div]
      refine sum_congr rfl fun i _ => ?_
      rw [Finset.sum_div]
      refine sum_congr rfl fun j _ => ?_
      have : ((Real.sqrt N : ℝ) : ℂ) * ((Real.sqrt N : ℝ) : ℂ) = N := by rw [← Complex.ofReal_mul, Real.mul_self_sqrt hN.le]
      rw [← this, star_div₀, show star ((Real.sqrt N : ℝ) : ℂ) = ((Real.sqrt N : ℝ) : ℂ) from Complex.conj_ofReal _]
      rw [div_mul_eq_mul_div, div_mul_div_comm]
    rw [h2, form_sum, hy, Complex.div_ofReal_re] at h1
    have h3 : 0 < (star x ⬝ᵥ (toM D p *ᵥ x)).re := by
      by_contra h0
      push Not at h0
      have := div_nonpos_of_nonpos_of_nonneg h0 hN.le
      linarith
    have h4 : (star x ⬝ᵥ (toM D p *ᵥ x)).im = 0 := hH.im_star_dotProduct_mulVec_self x
    exact Complex.pos_iff.2 ⟨h3, h4.symm⟩
  · rw [← h.tr, Finset.sum_range]; rfl

theorem pd_density (h : P.PosDef) (ht : P.trace = 1) : Density 0 D (fromM P) := by
  refine ⟨fun i hi j hj => ?_, ?_, fun x hx => ?_⟩
  · simp only [fromM, hi, hj, and_self, dif_pos]
    exact h.isHermitian.apply ⟨j, hj⟩ ⟨i, hi⟩
  · rw [← ht, Finset.sum_range]
    exact sum_congr rfl fun i _ => by simp [fromM, i.2]
  · rw [form_sum, toM_fromM]
    have : (fun i : Fin D => x i) ≠ 0 := by
      intro h0
      rw [Finset.sum_range, sum_eq_zero fun i _ => by rw [show x i = 0 from congrFun h0 i, map_zero]] at hx
      exact zero_ne_one hx
    exact (Complex.pos_iff.1 (h.dotProduct_mulVec_pos this)).1

theorem sum_mat (d : ℕ) (F : ℕ → Matrix (Fin D) (Fin D) ℂ) (G : List ℕ → Matrix (Fin D) (Fin D) ℂ) (h : ∀ s, G [s] = F s) : sumM [d] G = ∑ s ∈ range d, F s := by
  ext i j
  rw [sum_one, Matrix.sum_apply]
  exact sum_congr rfl fun s _ => by rw [h]

theorem act_leftM (hr : T.r = D) (f : ℕ → ℕ → ℂ) : ∑ s ∈ range T.d, mat D T s * toM D f * (mat D T s)ᴴ = toM D (act .left [T] D f) := by
  rw [← act_left]
  exact (sum_mat _ _ _ fun s => by rw [cell_mat hr]).symm

theorem act_rightM (hr : T.r = D) (f : ℕ → ℕ → ℂ) : ∑ s ∈ range T.d, (mat D T s)ᴴ * (toM D f)ᵀ * (mat D T s)ᴴᴴ = (toM D (act .right [T] D f))ᵀ := by
  rw [← act_right]
  exact (sum_mat _ _ _ fun s => by rw [cell_mat hr, conjTranspose_conjTranspose]).symm

theorem ne_zero_toM {f : ℕ → ℕ → ℂ} : (∃ i < D, ∃ j < D, f i j ≠ 0) ↔ toM D f ≠ 0 := by
  constructor
  · rintro ⟨i, hi, j, hj, h⟩ h0
    exact h (congrFun (congrFun h0 ⟨i, hi⟩) ⟨j, hj⟩)
  · intro h
    by_contra h0
    push Not at h0
    exact h (by ext i j; exact h0 i i.2 j j.2)

theorem normM_left (hp : 0 ≤ pinv) (hr : T.r = D) (h : Normal .left pinv D [T] η p) : NormM D T.d (mat D T) η (toM D p) := by
  obtain ⟨h1, h2⟩ := density_pd hp h.dens
  refine ⟨h.pos, h1, h2, ?_, fun μ F hF hE hμ => ?_⟩
  · rw [act_leftM hr]
    exact toM_ext.2 fun i hi j hj => h.eig i hi j hj
  · rw [← toM_fromM F, act_leftM hr] at hE
    obtain ⟨c, hc⟩ := h.uniq μ (fromM F) (ne_zero_toM.2 (by rwa [toM_fromM])) (fun i hi j hj => congrFun (congrFun hE ⟨i, hi⟩) ⟨j, hj⟩) hμ
    exact ⟨c, by rw [← toM_fromM F]; exact toM_ext.2 hc⟩

theorem normM_right (hp : 0 ≤ pinv) (hr : T.r = D) (h : Normal .right pinv D [T] η p) : NormM D T.d (fun s => (mat D T s)ᴴ) η (toM D p)ᵀ := by
  obtain ⟨h1, h2⟩ := density_pd hp h.dens
  refine ⟨h.pos, h1.transpose, by rw [trace_transpose, h2], ?_, fun μ F hF hE hμ => ?_⟩
  · rw [act_rightM hr, ← transpose_smul]
    congr 1
    exact toM_ext.2 fun i hi j hj => h.eig i hi j hj
  · have hG : F = (toM D (fromM Fᵀ))ᵀ := by rw [toM_fromM, transpose_transpose]
    rw [hG, act_rightM hr, ← transpose_smul, transpose_inj] at hE
    obtain ⟨c, hc⟩ := h.uniq μ (fromM Fᵀ) (ne_zero_toM.2 (by rw [toM_fromM]; intro h0; exact hF (by rw [← transpose_transpose F, h0, transpose_zero])))
      (fun i hi j hj => congrFun (congrFun hE ⟨i, hi⟩) ⟨j, hj⟩) hμ
    refine ⟨c, ?_⟩
    rw [hG, ← transpose_smul]
    congr 1
    exact toM_ext.2 hc

theorem left_normM (hr : T.r = D) (h : NormM D T.d (mat D T) η P) : Normal .left 0 D [T] η (fromM P) := by
  refine ⟨h.pos, pd_density h.pd h.tr, ?_, fun μ f hf hE hμ => ?_⟩
  · have := h.eig
    rw [← toM_fromM P, act_leftM hr] at this
    exact fun i hi j hj => congrFun (congrFun this ⟨i, hi⟩) ⟨j, hj⟩
  · obtain ⟨c, hc⟩ := h.uniq μ (toM D f) (ne_zero_toM.1 hf) (by rw [act_leftM hr]; exact toM_ext.2 hE) hμ
    refine ⟨c, ?_⟩
    rw [← toM_fromM P] at hc
    exact fun i hi j hj => congrFun (congrFun hc ⟨i, hi⟩) ⟨j, hj⟩

theorem right_normM (hr : T.r = D) (h : NormM D T.d (fun s => (mat D T s)ᴴ) η P) : Normal .right 0 D [T] η (fromM Pᵀ) := by
  have hP : P = (toM D (fromM Pᵀ))ᵀ := by rw [toM_fromM, transpose_transpose]
  refine ⟨h.pos, pd_density h.pd.transpose (by rw [trace_transpose, h.tr]), ?_, fun μ f hf hE hμ => ?_⟩
  · have := h.eig
    rw [hP, act_rightM hr, ← transpose_smul, transpose_inj] at this
    exact fun i hi j hj => congrFun (congrFun this ⟨i, hi⟩) ⟨j, hj⟩
  · obtain ⟨c, hc⟩ := h.uniq μ (toM D f)ᵀ (fun h0 => ne_zero_toM.1 hf (by rw [← transpose_transpose (toM D f), h0, transpose_zero]))
      (by rw [act_rightM hr, ← transpose_smul]; congr 1; exact toM_ext.2 hE) hμ
    refine ⟨c, ?_⟩
    rw [hP, ← transpose_smul, transpose_inj] at hc
    exact fun i hi j hj => congrFun (congrFun hc ⟨i, hi⟩) ⟨j, hj⟩

/-- A gauge transformation keeps the eigenvalue and transforms the eigenmatrix. -/
theorem NormM.gauge (h : NormM D d M η P) {M' : ℕ → Matrix (Fin D) (Fin D) ℂ} {X Y : Matrix (Fin D) (Fin D) ℂ} (hXY : X * Y = 1) (hM : ∀ s, M' s = X * M s * Y) :
    ∃ P', NormM D d M' η P' := by
  have hYX := mul_eq_one_comm.1 hXY
  have hD : Nonempty (Fin D) := by
    by_contra h0
    rw [not_nonempty_iff] at h0
    have := h.tr
    rw [Matrix.trace, Finset.univ_eq_empty, sum_empty] at this
    exact zero_ne_one this
  have hXu : IsUnit X := IsUnit.of_mul_eq_one _ hXY
  have hpd : (X * P * Xᴴ).PosDef := hXu.posDef_star_right_conjugate_iff.2 h.pd
  have htr := hpd.trace_pos
  set τ := (X * P * Xᴴ).trace with hτ
  have hact : ∀ F, ∑ s ∈ range d, M' s * F * (M' s)ᴴ = X * (∑ s ∈ range d, M s * (Y * F * Yᴴ) * (M s)ᴴ) * Xᴴ := by
    intro F
    rw [Matrix.mul_sum, Matrix.sum_mul]
    refine sum_congr rfl fun s _ => ?_
    rw [hM, conjTranspose_mul, conjTranspose_mul]
    simp only [Matrix.mul_assoc]
  have hback : ∀ F, Y * (X * F * Xᴴ) * Yᴴ = F := by
    intro F
    have : Xᴴ * Yᴴ = 1 := by rw [← conjTranspose_mul, hYX, conjTranspose_one]
    rw [show Y * (X * F * Xᴴ) * Yᴴ = (Y * X) * F * (Xᴴ * Yᴴ) by simp only [Matrix.mul_assoc], hYX, this, Matrix.one_mul, Matrix.mul_one]
  have hforth : ∀ F, X * (Y * F * Yᴴ) * Xᴴ = F := by
    intro F
    have : Yᴴ * Xᴴ = 1 := by rw [← conjTranspose_mul, hXY, conjTranspose_one]
    rw [show X * (Y * F * Yᴴ) * Xᴴ = (X * Y) * F * (Yᴴ * Xᴴ) by simp only [Matrix.mul_assoc], hXY, this, Matrix.one_mul, Matrix.mul_one]
  refine ⟨τ⁻¹ • (X * P * Xᴴ), h.pos, hpd.smul (inv_pos.2 htr), ?_, ?_, fun μ F hF hE hμ => ?_⟩
  · rw [trace_smul, ← hτ, smul_eq_mul, inv_mul_cancel₀ htr.ne']
  · have : ∑ s ∈ range d, M' s * (X * P * Xᴴ) * (M' s)ᴴ = (η : ℂ) • (X * P * Xᴴ) := by
      rw [hact, hback, h.eig, Matrix.mul_smul, Matrix.smul_mul]
    simp only [Matrix.mul_smul, Matrix.smul_mul, ← Finset.smul_sum]
    rw [this, smul_comm]
  · obtain ⟨c, hc⟩ := h.uniq μ (Y * F * Yᴴ) (fun h0 => hF (by rw [← hforth F, h0, Matrix.mul_zero, Matrix.zero_mul])) (by
      have := congrArg (fun G => Y * G * Yᴴ) hE
      rw [hact, hback] at this
      rw [this, Matrix.mul_smul, Matrix.smul_mul]) hμ
    refine ⟨c * τ, ?_⟩
    rw [smul_smul, mul_assoc, mul_inv_cancel₀ htr.ne', mul_one]
    rw [← hforth F, hc, Matrix.mul_smul, Matrix.smul_mul]

end

/-! ## The first step -/

section
variable {D B : ℕ} {η : ℝ} {W : Mpo ℂ} {e e' : Eng} {s : St} {us : List Out} {p q : ℕ → ℕ → ℂ} {X : ℕ → Ext} {o : Opts} {σ : ℕ → ℕ} {g : ℕ → ℂ} {N : ℤ}

theorem LeftGauge.normal {A T out : Ten ℂ} {y : Mat ℂ} (h : LeftGauge D A T out y η q) (hr : A.r = D) {dir : Dir} {pinv : ℝ} (hp : 0 ≤ pinv) (hN : Normal dir pinv D [T] 1 p) :
    ∃ p', Normal dir 0 D [out] 1 p' := by
  have hTr : T.r = D := by rw [h.resc]; exact hr
  have hTd : T.d = A.d := by rw [h.resc]
  obtain ⟨Y, hY⟩ := h.inv.exists_right_inv
  have hXY : (toM D y.v)ᵀ * Yᵀ = 1 := by rw [← transpose_mul, mul_eq_one_comm.1 hY, transpose_one]
  have hM : ∀ x, mat D out x = (toM D y.v)ᵀ * mat D T x * Yᵀ := by
    intro x
    rw [h.gauge, Matrix.mul_assoc, hXY, Matrix.mul_one]
  cases dir with
  | left =>
    obtain ⟨P', hP'⟩ := (normM_left hp hTr hN).gauge hXY hM
    rw [hTd, ← h.d] at hP'
    exact ⟨_, left_normM h.r hP'⟩
  | right =>
    obtain ⟨P', hP'⟩ := (normM_right hp hTr hN).gauge (X := Yᵀᴴ) (Y := (toM D y.v)ᵀᴴ) (M' := fun x => (mat D out x)ᴴ)
      (by rw [← conjTranspose_mul, hXY, conjTranspose_one]) fun x => by
        rw [hM, conjTranspose_mul, conjTranspose_mul, Matrix.mul_assoc]
    rw [hTd, ← h.d] at hP'
    exact ⟨_, right_normM h.r hP'⟩

theorem RightGauge.normal {A T out : Ten ℂ} {y : Mat ℂ} (h : RightGauge D A T out y η q) (hr : A.r = D) {dir : Dir} {pinv : ℝ} (hp : 0 ≤ pinv) (hN : Normal dir pinv D [T] 1 p) :
    ∃ p', Normal dir 0 D [out] 1 p' := by
  have hTr : T.r = D := by rw [h.resc]; exact hr
  have hTd : T.d = A.d := by rw [h.resc]
  obtain ⟨Y, hY⟩ := h.inv.exists_right_inv
  have hXY := mul_eq_one_comm.1 hY
  have hM : ∀ x, mat D out x = Y * mat D T x * toM D y.v := by
    intro x
    rw [Matrix.mul_assoc, h.gauge, ← Matrix.mul_assoc, hXY, Matrix.one_mul]
  cases dir with
  | left =>
    obtain ⟨P', hP'⟩ := (normM_left hp hTr hN).gauge hXY hM
    rw [hTd, ← h.d] at hP'
    exact ⟨_, left_normM h.r hP'⟩
  | right =>
    obtain ⟨P', hP'⟩ := (normM_right hp hTr hN).gauge (X := (toM D y.v)ᴴ) (Y := Yᴴ) (M' := fun x => (mat D out x)ᴴ)
      (by rw [← conjTranspose_mul, hXY, conjTranspose_one]) fun x => by
        rw [hM, conjTranspose_mul, conjTranspose_mul, Matrix.mul_assoc]
    rw [hTd, ← h.d] at hP'
    exact ⟨_, right_normM h.r hP'⟩

/-- A tensor with an eigenvalue is not zero. -/
theorem nsq_pos {T : Ten ℂ} (hl : T.l = D) (hr : T.r = D) {pinv : ℝ} (hp : 0 ≤ pinv) (hN : Normal .left pinv D [T] η p) : 0 < T.nsq := by
  by_contra h0
  have h1 : T.nsq = 0 := le_antisymm (not_lt.1 h0) (sum_nonneg fun _ _ => sum_nonneg fun _ _ => sum_nonneg fun _ _ => Complex.normSq_nonneg _)
  have hz : ∀ s < T.d, mat D T s = 0 := by
    intro s hs
    ext i j
    unfold Ten.nsq at h1
    rw [sum_eq_zero_iff_of_nonneg fun _ _ => sum_nonneg fun _ _ => sum_nonneg fun _ _ => Complex.normSq_nonneg _] at h1
    have h2 := h1 i (mem_range.2 (by rw [hl]; exact i.2))
    rw [sum_eq_zero_iff_of_nonneg fun _ _ => sum_nonneg fun _ _ => Complex.normSq_nonneg _] at h2
    have h3 := h2 j (mem_range.2 (by rw [hr]; exact j.2))
    rw [sum_eq_zero_iff_of_nonneg fun _ _ => Complex.normSq_nonneg _] at h3
    exact Complex.normSq_eq_zero.1 (h3 s (mem_range.2 hs))
  have hM := normM_left hp hr hN
  have he := hM.eig
  rw [sum_eq_zero fun s hs => by rw [hz s (mem_range.1 hs), Matrix.zero_mul, Matrix.zero_mul]] at he
  have ht := congrArg Matrix.trace he
  rw [trace_smul, hM.tr, trace_zero, smul_eq_mul, mul_one] at ht
  exact hM.pos.ne' (by exact_mod_cast ht.symm)

/-- What is known about the state before the first step. -/
theorem C98_first (he : EighSpec (X 0).eigh) (hE : ∀ i, EigsLR ((X 0).eigs i)) (hW : NNSite 0 (B - 1) B W) (hb : Built D B W e)
    (hl : e.mps.l = D) (hr : e.mps.r = D) (hd : e.mps.d = W.din) (hR : Normal .right 1e-14 D [e.mps] η q) (hL : Normal .left 1e-14 D [e.mps] η p)
    {A T Bt : Ten ℂ} {y x : Mat ℂ} (h1 : regaugeL (X 0).eigh (X 0).eigs (X 0).fuel o.numeig 1e-14 e.mps = .ok (A, y, T))
    (h2 : regaugeR (X 0).eigh (X 0).eigs (X 0).fuel o.numeig 1e-14 T = .ok (Bt, x)) :
    (∃ p' q', Ready D B 0 W e ⟨A, Bt, T, eye A.r⟩ p' q') ∧ T.l = D ∧ T.r = D ∧ T.d = W.din ∧ 0 < T.nsq ∧ A.r = D ∧ 0 < (eye A.r).nsq := by
  have g1 := C98_regauge_left he hE (by norm_num) hl hr hR h1
  have hT : T = divT (Real.sqrt η) e.mps := g1.resc
  have hL1 : Normal .left 1e-14 D [T] 1 p := by rw [hT]; exact root_normal hL
  have hR1 : Normal .right 1e-14 D [T] 1 q := by rw [hT]; exact root_normal hR
  have hTl : T.l = D := by rw [hT]; exact hl
  have hTr : T.r = D := by rw [hT]; exact hr
  have hTd : T.d = W.din := by rw [hT]; exact hd
  have g2 := C98_regauge_right he hE (by norm_num) hTl hTr hL1 h2
  rw [show divT (Real.sqrt 1) T = T by simp [divT]] at g2
  obtain ⟨p', hp'⟩ := g1.normal (p := p) hr (by norm_num) hL1
  obtain ⟨q', hq'⟩ := g2.normal (p := q) hTr (by norm_num) hR1
  refine ⟨⟨p', q', hW, hb, g1.l, g1.r, g1.d.trans hd, g2.l, g2.r, g2.d.trans hTd, g1.orth, g2.orth, hp', hq'⟩, hTl, hTr, hTd, nsq_pos hTl hTr (by norm_num) hL1, g1.r, ?_⟩
  have hD : 0 < D := by
    obtain ⟨i, hi, -⟩ := hL.dens.ne
    omega
  rw [g1.r]
  unfold Mat.nsq
  refine sum_pos' (fun _ _ => sum_nonneg fun _ _ => Complex.normSq_nonneg _) ⟨0, mem_range.2 hD, sum_pos' (fun _ _ => Complex.normSq_nonneg _) ⟨0, mem_range.2 hD, ?_⟩⟩
  simp [eye, delta]

/-- **C98 (a run of one step).**  For a normal tensor, a Hermitian nearest-neighbour Hamiltonian and iterative solvers that converge,
`simulate` with `Nmax` not larger than the counter succeeds; it returns the energy of a site of the initial state in the left gauge, a
real number, and leaves normalised ground states of the effective Hamiltonians of that state. -/
theorem C98_run (he : EighSpec (X 0).eigh) (hE0 : ∀ i, EigsLR ((X 0).eigs i)) (hc0 : ∀ i, ConvergesK ((X 0).eigs i) o.numeig) (hf0 : 1 ≤ (X 0).fuel)
    (hC : Conj σ g 0 (B - 1) B W) (hE : ∀ i, EigsLR ((X 1).eigs i)) (hcv : ∀ i, ConvergesK ((X 1).eigs i) o.numeig) (hS : LgmresSpec (X 1).solve)
    (hcS : LgmresConverges (X 1).solve) (hA : Sparse.ArpackSpec (X 1).arp) (hO : (X 1).O.Spec) (hP : PolarSpec (X 1).polar) (hf : 1 ≤ (X 1).fuel)
    (hk : 1 ≤ o.numeig) (hkD : o.numeig + 1 < D * D) (hdin : 0 < W.din) (hW : NNSite 0 (B - 1) B W) (hb : Built D B W e)
    (hl : e.mps.l = D) (hr : e.mps.r = D) (hd : e.mps.d = W.din) (hR : Normal .right 1e-14 D [e.mps] η q) (hL : Normal .left 1e-14 D [e.mps] η p)
    (o1 : o.solver = .AR) (o2 : o.arnumvecs = 1) (hN : N ≤ e.it) :
    ∃ s u e', simulate X o e N = .ok (s, [u], e') ∧ returned [u] = some u.en ∧ e'.it = e.it ∧ e'.mps = u.st.mps ∧ u.en.im = 0 ∧ u.leftn = 0 ∧ u.rightn = 0 ∧
      GroundSite u.lb W u.rb D D W.din u.st.mps u.e1 ∧ (∃ L1, addLayerR u.lb s.A W s.A = .ok L1 ∧ GroundBond L1 u.rb D D u.st.mat u.e2) ∧
      ∃ p' q', Normal .left 0 D [s.A] 1 p' ∧ Normal .right 0 D [s.B] 1 q' ∧ InfL D B s.A W p' q' u.lb u.en := by
  obtain ⟨v, hv⟩ := tm_total hE0 hc0 hk hkD hf0 hl hr hR
  obtain ⟨A, y, T, h1, g1⟩ := regaugeL_run he hE0 (by norm_num) hl hr hR hv
  have hT : T = divT (Real.sqrt η) e.mps := g1.resc
  have hL1 : Normal .left 1e-14 D [T] 1 p := by rw [hT]; exact root_normal hL
  have hTl : T.l = D := by rw [hT]; exact hl
  have hTr : T.r = D := by rw [hT]; exact hr
  obtain ⟨v', hv'⟩ := tm_total hE0 hc0 hk hkD hf0 hTl hTr hL1
  obtain ⟨Bt, x, h2, -⟩ := regaugeR_run he hE0 (by norm_num) hTl hTr hL1 hv'
  obtain ⟨⟨p', q', hs⟩, t1, t2, t3, t4, t5, t6⟩ := C98_first he hE0 hW hb hl hr hd hR hL h1 h2
  obtain ⟨u, hu⟩ := C98_step_total hC hE hcv hS hcS hA hO hP hf hk hkD hdin hs t1 t2 t3 t4 t5 t5 t6 o1 o2
  obtain ⟨b1, b2, b3⟩ := C98_ground hC hE hS hA hs t1 t2 t3 t4 t5 t5 t6 o1 o2 hu
  obtain ⟨n1, n2⟩ := C98_norms hs hu
  refine ⟨⟨A, Bt, T, eye A.r⟩, u, { e with it := e.it, mps := u.st.mps }, ?_, rfl, rfl, rfl, b1, n1, n2, b2, b3, p', q', hs.normL, hs.normR, ?_⟩
  · have hz : (N - e.it).toNat = 0 := by omega
    refine andThen_ok.2 ⟨(A, y, T), h1, andThen_ok.2 ⟨(Bt, x), h2, ?_⟩⟩
    dsimp only
    rw [hz]
    refine andThen_ok.2 ⟨([u], e.it), ?_, rfl⟩
    unfold loop
    dsimp only
    rw [hu]
  · exact (C98_environments hE hS hs hu).1

end

/-! ## Examples -/

/-- The transverse Ising model: the hypotheses on the Hamiltonian hold. -/
theorem C98_tfi (J B : ℝ) : NNSite 0 (3 - 1) 3 (tfiBulk J B) ∧ Conj id (fun _ => 1) 0 (3 - 1) 3 (tfiBulk J B) := by
  refine ⟨⟨rfl, rfl, rfl, by norm_num, by norm_num, by norm_num, ?_, ?_, ?_⟩, ⟨by simp, by simp, rfl, rfl, rfl, rfl, by simp, ?_⟩⟩
  · intro c hc x hx y hy
    change x < 2 at hx
    change y < 2 at hy
    interval_cases c <;> interval_cases x <;> interval_cases y <;> simp [tfiBulk, Mpo.put, Mpo.zeros, delta]
  · intro c hc x hx y hy
    change x < 2 at hx
    change y < 2 at hy
    interval_cases c <;> interval_cases x <;> interval_cases y <;> simp [tfiBulk, Mpo.put, Mpo.zeros, delta]
  · intro b hb c hc b0 b2 c0 c2 x hx y hy
    change x < 2 at hx
    change y < 2 at hy
    obtain rfl : b = 1 := by omega
    obtain rfl : c = 1 := by omega
    interval_cases x <;> interval_cases y <;> simp [tfiBulk, Mpo.put, Mpo.zeros]
  · intro b hb c hc x hx y hy
    change x < 2 at hx
    change y < 2 at hy
    interval_cases b <;> interval_cases c <;> interval_cases x <;> interval_cases y <;> simp [tfiBulk, Mpo.put, Mpo.zeros]

theorem half_conj : (starRingEnd ℂ) 0.5 = 0.5 := by
  rw [Complex.conj_eq_iff_im]; norm_num

theorem xxz_mid1 (Jz Jxy B : ℝ) : ∀ c < 5, c ≠ 0 → c ≠ 4 → ∀ x < 2, ∀ y < 2, (xxzBulk Jz Jxy B).v 1 c x y = 0 := by
  intro c hc c0 c4 x hx y hy
  have : c = 1 ∨ c = 2 ∨ c = 3 := by omega
  rcases this with rfl | rfl | rfl <;> interval_cases x <;> interval_cases y <;> simp [xxzBulk, Mpo.put, Mpo.zeros]

theorem xxz_mid2 (Jz Jxy B : ℝ) : ∀ c < 5, c ≠ 0 → c ≠ 4 → ∀ x < 2, ∀ y < 2, (xxzBulk Jz Jxy B).v 2 c x y = 0 := by
  intro c hc c0 c4 x hx y hy
  have : c = 1 ∨ c = 2 ∨ c = 3 := by omega
  rcases this with rfl | rfl | rfl <;> interval_cases x <;> interval_cases y <;> simp [xxzBulk, Mpo.put, Mpo.zeros]

theorem xxz_mid3 (Jz Jxy B : ℝ) : ∀ c < 5, c ≠ 0 → c ≠ 4 → ∀ x < 2, ∀ y < 2, (xxzBulk Jz Jxy B).v 3 c x y = 0 := by
  intro c hc c0 c4 x hx y hy
  have : c = 1 ∨ c = 2 ∨ c = 3 := by omega
  rcases this with rfl | rfl | rfl <;> interval_cases x <;> interval_cases y <;> simp [xxzBulk, Mpo.put, Mpo.zeros]

theorem xxz_conj0 (Jz Jxy B : ℝ) : ∀ c < 5, ∀ x < 2, ∀ y < 2, star ((xxzBulk Jz Jxy B).v 0 c x y) =
    (xxzBulk Jz Jxy B).v 0 (if c = 1 then 2 else if c = 2 then 1 else c) y x := by
  intro c hc x hx y hy
  interval_cases c <;> interval_cases x <;> interval_cases y <;> simp [xxzBulk, Mpo.put, Mpo.zeros]

theorem xxz_conj1 (Jz Jxy B : ℝ) : ∀ c < 5, ∀ x < 2, ∀ y < 2, star ((xxzBulk Jz Jxy B).v 1 c x y) =
    (xxzBulk Jz Jxy B).v 2 (if c = 1 then 2 else if c = 2 then 1 else c) y x := by
  intro c hc x hx y hy
  interval_cases c <;> interval_cases x <;> interval_cases y <;> simp [xxzBulk, Mpo.put, Mpo.zeros]

theorem xxz_conj2 (Jz Jxy B : ℝ) : ∀ c < 5, ∀ x < 2, ∀ y < 2, star ((xxzBulk Jz Jxy B).v 2 c x y) =
    (xxzBulk Jz Jxy B).v 1 (if c = 1 then 2 else if c = 2 then 1 else c) y x := by
  intro c hc x hx y hy
  interval_cases c <;> interval_cases x <;> interval_cases y <;> simp [xxzBulk, Mpo.put, Mpo.zeros]

theorem xxz_conj3 (Jz Jxy B : ℝ) : ∀ c < 5, ∀ x < 2, ∀ y < 2, star ((xxzBulk Jz Jxy B).v 3 c x y) =
    (xxzBulk Jz Jxy B).v 3 (if c = 1 then 2 else if c = 2 then 1 else c) y x := by
  intro c hc x hx y hy
  interval_cases c <;> interval_cases x <;> interval_cases y <;> simp [xxzBulk, Mpo.put, Mpo.zeros, half_conj]

theorem xxz_conj4 (Jz Jxy B : ℝ) : ∀ c < 5, ∀ x < 2, ∀ y < 2, star ((xxzBulk Jz Jxy B).v 4 c x y) =
    (xxzBulk Jz Jxy B).v 4 (if c = 1 then 2 else if c = 2 then 1 else c) y x := by
  intro c hc x hx y hy
  interval_cases c <;> interval_cases x <;> interval_cases y <;> simp [xxzBulk, Mpo.put, Mpo.zeros, half_conj]

/-- The XXZ model: conjugation exchanges the two terms `S⁺S⁻` and `S⁻S⁺`. -/
theorem C98_xxz (Jz Jxy B : ℝ) : NNSite 0 (5 - 1) 5 (xxzBulk Jz Jxy B) ∧
    Conj (fun b => if b = 1 then 2 else if b = 2 then 1 else b) (fun _ => 1) 0 (5 - 1) 5 (xxzBulk Jz Jxy B) := by
  refine ⟨⟨rfl, rfl, rfl, by norm_num, by norm_num, by norm_num, ?_, ?_, ?_⟩, ⟨?_, ?_, rfl, rfl, rfl, rfl, by simp, ?_⟩⟩
  · intro c hc x hx y hy
    change x < 2 at hx
    change y < 2 at hy
    interval_cases c <;> interval_cases x <;> interval_cases y <;> simp [xxzBulk, Mpo.put, Mpo.zeros, delta]
  · intro c hc x hx y hy
    change x < 2 at hx
    change y < 2 at hy
    interval_cases c <;> interval_cases x <;> interval_cases y <;> simp [xxzBulk, Mpo.put, Mpo.zeros, delta]
  · intro b hb c hc b0 b2 c0 c2 x hx y hy
    change x < 2 at hx
    change y < 2 at hy
    have : b = 1 ∨ b = 2 ∨ b = 3 := by omega
    rcases this with rfl | rfl | rfl
    · exact xxz_mid1 Jz Jxy B c hc c0 c2 x hx y hy
    · exact xxz_mid2 Jz Jxy B c hc c0 c2 x hx y hy
    · exact xxz_mid3 Jz Jxy B c hc c0 c2 x hx y hy
  · intro b hb
    split_ifs <;> omega
  · intro b hb
    split_ifs <;> omega
  · intro b hb c hc x hx y hy
    change x < 2 at hx
    change y < 2 at hy
    rw [mul_one, one_mul]
    interval_cases b
    · exact xxz_conj0 Jz Jxy B c hc x hx y hy
    · exact xxz_conj1 Jz Jxy B c hc x hx y hy
    · exact xxz_conj2 Jz Jxy B c hc x hx y hy
    · exact xxz_conj3 Jz Jxy B c hc x hx y hy
    · exact xxz_conj4 Jz Jxy B c hc x hx y hy

theorem bond_conj : Conj id (fun _ => 1) 0 (3 - 1) 3 bondMpo := by
  refine ⟨by simp, by simp, rfl, rfl, rfl, rfl, by simp, ?_⟩
  intro b hb c hc x hx y hy
  simp only [bondMpo, id, mul_one, one_mul]
  split_ifs <;> simp [delta, eq_comm]

theorem Normal.weaken {dir : Dir} {n : ℕ} {ts : List (Ten ℂ)} {η a b : ℝ} {p : ℕ → ℕ → ℂ} (h : Normal dir a n ts η p) (hab : b ≤ a) : Normal dir b n ts η p :=
  ⟨h.pos, ⟨h.dens.herm, h.dens.tr, fun x hx => lt_of_le_of_lt hab (h.dens.pos x hx)⟩, h.eig, h.uniq⟩

theorem conv_one {eigs : Eigs} (h : Converges eigs) : ConvergesK eigs 1 := by
  intro dir A n hl hr hk
  rw [transfer_unit]
  exact h dir [A] n (by simp) ⟨hl, hr⟩ (by nlinarith)

/-- Routines that meet all contracts. -/
theorem exists_ext : ∃ X : Ext, EighSpec X.eigh ∧ (∀ i, EigsLR (X.eigs i)) ∧ (∀ i, ConvergesK (X.eigs i) 1) ∧ LgmresSpec X.solve ∧ LgmresConverges X.solve ∧
    Sparse.ArpackSpec X.arp ∧ X.O.Spec ∧ PolarSpec X.polar ∧ 1 ≤ X.fuel := by
  obtain ⟨O, hO⟩ := exists_linAlg
  obtain ⟨eigh, he⟩ := exists_eigh
  obtain ⟨eigs, hE, hcv⟩ := exists_eigs_lr
  obtain ⟨solve, hS, hC⟩ := exists_lgmres
  obtain ⟨arp, hA⟩ := Sparse.exists_arpack
  obtain ⟨polar, hP⟩ := exists_polar
  exact ⟨⟨O, eigh, fun _ => eigs, 1, solve, arp, polar, fun _ => 0⟩, he, fun _ => hE, fun _ => conv_one hcv, hS, hC, hA, hO, hP, le_rfl⟩

/-- A run with the tensor of all matrix units, which is not normalised, and the sum of the products of neighbouring identities: the
hypotheses of `C98_run` are met. -/
example : ∃ (X : Ext) (e : Eng), init [unitsTen] [bondMpo] = .ok e ∧ ∃ s u e', simulate (fun _ => X) ⟨1, 1, true, .AR, ⟨10, 10, 1, 1e-8, 1e-8⟩, 1e-10⟩ e 1 = .ok (s, [u], e') ∧
    u.en.im = 0 ∧ u.leftn = 0 ∧ GroundSite u.lb bondMpo u.rb 2 2 4 u.st.mps u.e1 := by
  obtain ⟨X, he, hE, hcv, hS, hcS, hA, hO, hP, hf⟩ := exists_ext
  obtain ⟨e, h0, hb, hm, hi⟩ := C98_init (A := unitsTen) (W := bondMpo) (B := 3) rfl rfl (by norm_num)
  have hL : Normal .left 1e-14 2 [e.mps] 2 (fun i j => if i = j then 1 / 2 else 0) := by rw [hm]; exact Normal.weaken (units_normal units_left) (by norm_num)
  have hR : Normal .right 1e-14 2 [e.mps] 2 (fun i j => if i = j then 1 / 2 else 0) := by rw [hm]; exact Normal.weaken (units_normal units_right) (by norm_num)
  obtain ⟨s, u, e', h1, -, -, -, h2, h3, -, h4, -⟩ := C98_run (X := fun _ => X) (o := ⟨1, 1, true, .AR, ⟨10, 10, 1, 1e-8, 1e-8⟩, 1e-10⟩) (D := 2) (B := 3) (W := bondMpo) (e := e)
    (N := 1) he hE hcv hf bond_conj hE hcv hS hcS hA hO hP hf (by norm_num) (by norm_num) (by norm_num [bondMpo]) bond_site hb (by rw [hm]; rfl)
    (by rw [hm]; rfl) (by rw [hm]; rfl) hR hL rfl rfl (by rw [hi])
  exact ⟨X, e, h0, s, u, e', h1, h2, h3, h4⟩

theorem units_ready {e : Eng} (hb : Built 2 3 bondMpo e) (T : Ten ℂ) (C : Mat ℂ) :
    Ready 2 3 1e-12 bondMpo e ⟨unitsN, unitsN, T, C⟩ (fun i j => if i = j then 1 / 2 else 0) fun i j => if i = j then 1 / 2 else 0 :=
  ⟨bond_site, hb, rfl, rfl, rfl, rfl, rfl, rfl, unitsN_left, unitsN_right, unitsN_normal, unitsN_normal⟩

/-- A step with the Lanczos method and the polar decomposition, from a product of the isometric tensor and the identity: the hypotheses of
`C98_environments`, `C98_isometric`, `C98_lanczos`, `C98_gradient` and `C98_norms` are met. -/
example : ∃ (X : Ext) (e : Eng) (u : Out), init [unitsN] [bondMpo] = .ok e ∧
    step X ⟨1, 1, false, .LAN, ⟨10, 10, 1, 1e-8, 1e-8⟩, 1e-10⟩ e ⟨unitsN, unitsN, unitsN, eye 2⟩ = .ok u ∧ LowerSite u.lb bondMpo u.rb unitsN u.st.mps u.e1 ∧
      Gauged unitsN u.st.A u.st.B ∧ u.leftn = 0 ∧ 0 ≤ u.grad ∧ InfL 2 3 unitsN bondMpo (fun i j => if i = j then 1 / 2 else 0) (fun i j => if i = j then 1 / 2 else 0) u.lb u.en := by
  obtain ⟨X, he, hE, hcv, hS, hcS, hA, hO, hP, hf⟩ := exists_ext
  obtain ⟨e, h0, hb, hm, hi⟩ := C98_init (A := unitsN) (W := bondMpo) (B := 3) rfl rfl (by norm_num)
  have hn : 0 < unitsN.nsq := nsq_pos (D := 2) rfl rfl (by norm_num) unitsN_normal
  have hc : 0 < (eye 2).nsq := by
    refine sum_pos' (fun _ _ => sum_nonneg fun _ _ => Complex.normSq_nonneg _) ⟨0, by simp [eye], sum_pos' (fun _ _ => Complex.normSq_nonneg _) ⟨0, by simp [eye], ?_⟩⟩
    simp [eye, delta]
  have hs := units_ready hb unitsN (eye 2)
  obtain ⟨u, hu⟩ := C98_step_total_lanczos (o := ⟨1, 1, false, .LAN, ⟨10, 10, 1, 1e-8, 1e-8⟩, 1e-10⟩) bond_conj hE hcv hS hcS he (by norm_num) (by norm_num) (by norm_num) (by norm_num)
    hO hP hf (by norm_num) (by norm_num) hs rfl rfl rfl hn rfl rfl hc rfl rfl
  obtain ⟨-, h1, -⟩ := C98_lanczos bond_conj hE hS he (by norm_num) (by norm_num) (by norm_num) (by norm_num) hs rfl rfl rfl hn rfl rfl hc rfl rfl hu
  exact ⟨X, e, u, h0, hu, h1, (C98_isometric hO hP (by norm_num [unitsN]) hu).1, (C98_norms hs hu).1, (C98_gradient hu).1, (C98_environments hE hS hs hu).1⟩

/-- With the default `numeig=3` this state of bond dimension 2 is refused. -/
example (X : ℕ → Ext) (e : Eng) (h : init [unitsTen] [bondMpo] = .ok e) :
    simulate X ⟨3, 1, false, .AR, ⟨10, 500, 1, 1e-8, 1e-10⟩, 1e-10⟩ e 100 = .error .type := by
  obtain ⟨e', h0, -, hm, -⟩ := C98_init (A := unitsTen) (W := bondMpo) (B := 3) rfl rfl (by norm_num)
  cases h0.symm.trans h
  exact C98_violated_two (D := 2) (by rw [hm]; rfl) (by rw [hm]; rfl) le_rfl le_rfl

end
end PyTeN.Vumps
