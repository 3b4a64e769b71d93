import Verif.Engine.Integrator
import Verif.Props.Energy
import Verif.Props.LanczosTime
import Verif.Props.Expokit
import Mathlib.Analysis.ODE.ExistUnique
import Mathlib.Analysis.SpecialFunctions.Exponential

/-! # The integrators of TDVP (C79) -/

namespace PyTeN
open Finset

noncomputable section

/-! ## Vectors and operators -/

theorem ten_vec {l r d : ℕ} (x : TVec l r d) : (TVec.ten x).vec l r d = x := by
  ext p
  simp [Ten.vec, TVec.ten]

theorem mat_vec {r c : ℕ} (x : BVec r c) : (BVec.mat x).vec r c = x := by
  ext p
  simp [Mat.vec, BVec.mat]

/-- Spec: the effective Hamiltonian of a site. -/
def siteOp (L : Env ℂ) (W : Mpo ℂ) (R : Env ℂ) (l r d : ℕ) : TVec l r d →ₗ[ℂ] TVec l r d :=
  Matrix.toEuclideanLin (Matrix.of fun p' p : Fin l × Fin r × Fin d => siteEl L W R p.1 p'.1 p.2.1 p'.2.1 p.2.2 p'.2.2)

/-- Spec: the effective Hamiltonian of a bond. -/
def bondOp (L R : Env ℂ) (r c : ℕ) : BVec r c →ₗ[ℂ] BVec r c :=
  Matrix.toEuclideanLin (Matrix.of fun p' p : Fin r × Fin c => bondMatEl L R p.1 p'.1 p.2 p'.2)

theorem siteOp_apply (L : Env ℂ) (W : Mpo ℂ) (R : Env ℂ) {l r d : ℕ} (x : TVec l r d) (p' : Fin l × Fin r × Fin d) :
    siteOp L W R l r d x p' = ∑ i : Fin l, ∑ j : Fin r, ∑ s : Fin d, siteEl L W R i p'.1 j p'.2.1 s p'.2.2 * x (i, j, s) := by
  unfold siteOp
  rw [Matrix.toLpLin_apply]
  simp only [Matrix.mulVec, dotProduct, Matrix.of_apply, Fintype.sum_prod_type]

theorem bondOp_apply (L R : Env ℂ) {r c : ℕ} (x : BVec r c) (p' : Fin r × Fin c) :
    bondOp L R r c x p' = ∑ i : Fin r, ∑ j : Fin c, bondMatEl L R i p'.1 j p'.2 * x (i, j) := by
  unfold bondOp
  rw [Matrix.toLpLin_apply]
  simp only [Matrix.mulVec, dotProduct, Matrix.of_apply, Fintype.sum_prod_type]

theorem haSite_eq {L : Env ℂ} {W : Mpo ℂ} {R : Env ℂ} {l r d : ℕ} (h : SiteFits L W R l r d) :
    (haSite L W R : TVec l r d → TVec l r d) = siteOp L W R l r d := by
  funext x
  obtain ⟨h1, h2, h3, h4, h5, h6, h7, h8⟩ := h
  have e : contractionH L (TVec.ten x) W R = .ok ⟨L.w, R.w, W.dout, fun i' j' s' =>
      ∑ i ∈ range L.u, ∑ b ∈ range L.m, ∑ s ∈ range d, ∑ j ∈ range R.u, ∑ b' ∈ range R.m,
        L.v i i' b * (TVec.ten x).v i j s * W.v b b' s s' * R.v j j' b'⟩ := by
    unfold contractionH
    rw [if_pos ⟨h1, h7.symm, h5.symm, h3.symm, h8⟩]
    rfl
  unfold haSite
  rw [e]
  ext p'
  rw [siteOp_apply]
  simp only [Ten.vec]
  rw [h1, h3, Finset.sum_range]
  refine sum_congr rfl fun i _ => ?_
  rw [sum_comm, sum_congr rfl fun s _ => sum_comm, sum_comm, Finset.sum_range]
  refine sum_congr rfl fun j _ => ?_
  rw [Finset.sum_range]
  refine sum_congr rfl fun s _ => ?_
  unfold siteEl
  rw [sum_mul]
  refine sum_congr rfl fun b _ => ?_
  rw [sum_mul]
  refine sum_congr rfl fun b' _ => ?_
  simp only [TVec.ten, Fin.is_lt, and_self, dite_true, Fin.eta]
  ring

theorem haBond_eq {L R : Env ℂ} {r c : ℕ} (h : BondFits L R r c) : (haBond L R : BVec r c → BVec r c) = bondOp L R r c := by
  funext x
  obtain ⟨h1, h2, h3, h4, h5, -⟩ := h
  have e : bondH L R (BVec.mat x) = .ok ⟨L.w, R.w, fun i' j' =>
      ∑ i ∈ range L.u, ∑ b ∈ range L.m, ∑ j ∈ range R.u, L.v i i' b * (BVec.mat x).v i j * R.v j j' b⟩ := by
    unfold bondH
    rw [if_pos ⟨h1, h3.symm, h5⟩]
  unfold haBond
  rw [e]
  ext p'
  rw [bondOp_apply]
  simp only [Mat.vec]
  rw [h1, h3, Finset.sum_range]
  refine sum_congr rfl fun i _ => ?_
  rw [sum_comm, Finset.sum_range]
  refine sum_congr rfl fun j _ => ?_
  unfold bondMatEl
  rw [sum_mul]
  refine sum_congr rfl fun b _ => ?_
  simp only [BVec.mat, Fin.is_lt, and_self, dite_true, Fin.eta]
  ring

theorem SiteHerm.fits {L : Env ℂ} {W : Mpo ℂ} {R : Env ℂ} {l r d : ℕ} (h : SiteHerm L W R l r d) : SiteFits L W R l r d :=
  ⟨h.Lu, h.Lw, h.Ru, h.Rw, h.Wi, h.Wo, h.Wl, h.Wr⟩

theorem siteOp_symm {L : Env ℂ} {W : Mpo ℂ} {R : Env ℂ} {l r d : ℕ} (h : SiteHerm L W R l r d) : (siteOp L W R l r d).IsSymmetric := by
  unfold siteOp
  rw [Matrix.isSymmetric_toEuclideanLin_iff]
  ext p p'
  rw [Matrix.conjTranspose_apply, Matrix.of_apply, Matrix.of_apply]
  exact (h.herm _ p'.1.2 _ p.1.2 _ p'.2.1.2 _ p.2.1.2 _ p'.2.2.2 _ p.2.2.2).symm

theorem bondOp_symm {L R : Env ℂ} {r c : ℕ} (h : BondHerm L R r c) : (bondOp L R r c).IsSymmetric := by
  unfold bondOp
  rw [Matrix.isSymmetric_toEuclideanLin_iff]
  ext p p'
  rw [Matrix.conjTranspose_apply, Matrix.of_apply, Matrix.of_apply]
  exact (h.herm _ p'.1.2 _ p.1.2 _ p'.2.2 _ p.2.2).symm

theorem siteOp_form (L : Env ℂ) (W : Mpo ℂ) (R : Env ℂ) (T X : Ten ℂ) (hX : X.l = T.l ∧ X.r = T.r ∧ X.d = T.d) :
    inner ℂ (X.vec T.l T.r T.d) (siteOp L W R T.l T.r T.d (T.vec T.l T.r T.d)) = siteForm L W R T X := by
  rw [PiLp.inner_apply]
  simp only [Fintype.sum_prod_type, siteOp_apply, Ten.vec, RCLike.inner_apply]
  symm
  unfold siteForm
  rw [hX.1, hX.2.1, hX.2.2, Finset.sum_comm, Finset.sum_range]
  refine sum_congr rfl fun i' _ => ?_
  rw [sum_congr rfl fun i _ => sum_comm, sum_comm, Finset.sum_range]
  refine sum_congr rfl fun j' _ => ?_
  rw [sum_congr rfl fun i _ => sum_congr rfl fun j _ => sum_comm]
  rw [sum_congr rfl fun i _ => sum_comm, sum_comm, Finset.sum_range]
  refine sum_congr rfl fun s' _ => ?_
  rw [Finset.sum_range, sum_mul]
  refine sum_congr rfl fun i _ => ?_
  rw [Finset.sum_range, sum_mul]
  refine sum_congr rfl fun j _ => ?_
  rw [Finset.sum_range, sum_mul]
  rfl

theorem bondOp_form (L R : Env ℂ) (C X : Mat ℂ) (hX : X.r = C.r ∧ X.c = C.c) :
    inner ℂ (X.vec C.r C.c) (bondOp L R C.r C.c (C.vec C.r C.c)) = bondForm L R C X := by
  rw [PiLp.inner_apply]
  simp only [Fintype.sum_prod_type, bondOp_apply, Mat.vec, RCLike.inner_apply]
  symm
  unfold bondForm
  rw [hX.1, hX.2, Finset.sum_comm, Finset.sum_range]
  refine sum_congr rfl fun i' _ => ?_
  rw [sum_congr rfl fun i _ => sum_comm, sum_comm, Finset.sum_range]
  refine sum_congr rfl fun j' _ => ?_
  rw [Finset.sum_range, sum_mul]
  refine sum_congr rfl fun i _ => ?_
  rw [Finset.sum_range, sum_mul]
  rfl

theorem vec_norm (T : Ten ℂ) : ‖T.vec T.l T.r T.d‖ ^ 2 = T.nsq := by
  rw [EuclideanSpace.norm_sq_eq]
  unfold Ten.nsq
  simp only [Fintype.sum_prod_type, Ten.vec, Finset.sum_range, Complex.normSq_eq_norm_sq]

theorem matvec_norm (C : Mat ℂ) : ‖C.vec C.r C.c‖ ^ 2 = C.nsq := by
  rw [EuclideanSpace.norm_sq_eq]
  unfold Mat.nsq
  simp only [Fintype.sum_prod_type, Mat.vec, Finset.sum_range, Complex.normSq_eq_norm_sq]

theorem siteOp_scale (f : ℂ) (L : Env ℂ) (W : Mpo ℂ) (R : Env ℂ) (l r d : ℕ) :
    siteOp L (W.scale f) R l r d = f • siteOp L W R l r d := by
  ext x p'
  rw [LinearMap.smul_apply, PiLp.smul_apply, siteOp_apply, siteOp_apply]
  simp only [siteEl, Mpo.scale, smul_eq_mul, mul_sum, sum_mul]
  refine sum_congr rfl fun i _ => sum_congr rfl fun j _ => sum_congr rfl fun s _ => sum_congr rfl fun b _ =>
    sum_congr rfl fun b' _ => ?_
  ring

theorem bondOp_scale (f : ℂ) (L R : Env ℂ) (r c : ℕ) : bondOp L (R.scale f) r c = f • bondOp L R r c := by
  ext x p'
  rw [LinearMap.smul_apply, PiLp.smul_apply, bondOp_apply, bondOp_apply]
  simp only [bondMatEl, Env.scale, smul_eq_mul, mul_sum, sum_mul]
  refine sum_congr rfl fun i _ => sum_congr rfl fun j _ => sum_congr rfl fun b _ => ?_
  ring

/-! ## Exact evolution -/

/-- Spec: `exp(z·H)x`. -/
def expApply {V : Type} [NormedAddCommGroup V] [InnerProductSpace ℂ V] [FiniteDimensional ℂ V] (H : V →ₗ[ℂ] V) (z : ℂ) (x : V) : V :=
  NormedSpace.exp (z • LinearMap.toContinuousLinearMap H) x

section
variable {V : Type} [NormedAddCommGroup V] [InnerProductSpace ℂ V] [FiniteDimensional ℂ V]

theorem expApply_hasDerivAt (H : V →ₗ[ℂ] V) (x : V) (z : ℂ) :
    HasDerivAt (fun z => expApply H z x) (H (expApply H z x)) z := by
  have : CompleteSpace V := FiniteDimensional.complete ℂ V
  have h := hasDerivAt_exp_smul_const' (𝕂 := ℂ) (LinearMap.toContinuousLinearMap H) z
  exact h.clm_apply (hasDerivAt_const z x) |>.congr_deriv (by simp [expApply])

theorem expApply_zero (H : V →ₗ[ℂ] V) (x : V) : expApply H 0 x = x := by
  simp [expApply]

/-- Imaginary times: the norm and the energy are conserved. -/
theorem expApply_unitary {H : V →ₗ[ℂ] V} (hH : H.IsSymmetric) (x : V) {z : ℂ} (hz : z.re = 0) :
    ‖expApply H z x‖ = ‖x‖ ∧ inner ℂ (expApply H z x) (H (expApply H z x)) = inner ℂ x (H x) := by
  have : CompleteSpace V := FiniteDimensional.complete ℂ V
  have hz' : (starRingEnd ℂ) z = -z := by
    apply Complex.ext <;> simp [hz]
  have hn : ∀ y, ‖expApply H z y‖ = ‖y‖ := exp_isometry (H := LinearMap.toContinuousLinearMap H) hH hz'
  refine ⟨hn x, ?_⟩
  have hc : H (expApply H z x) = expApply H z (H x) := by
    let _ : NormedAlgebra ℚ (V →L[ℂ] V) := .restrictScalars ℚ ℂ (V →L[ℂ] V)
    have h := ((Commute.refl (LinearMap.toContinuousLinearMap H)).smul_right z).exp_right
    exact congrArg (fun A : V →L[ℂ] V => A x) h.eq
  rw [hc]
  exact LinearIsometry.inner_map_map (⟨(NormedSpace.exp (z • LinearMap.toContinuousLinearMap H) : V →L[ℂ] V), hn⟩ : V →ₗᵢ[ℂ] V) x (H x)

theorem expApply_hasSum (H : V →ₗ[ℂ] V) (z : ℂ) (x : V) :
    HasSum (fun m : ℕ => (z ^ m * (m.factorial : ℂ)⁻¹) • (H ^ m) x) (expApply H z x) := by
  have : CompleteSpace V := FiniteDimensional.complete ℂ V
  have h := NormedSpace.exp_series_hasSum_exp' (𝕂 := ℂ) (z • LinearMap.toContinuousLinearMap H)
  have h2 := h.mapL (ContinuousLinearMap.apply ℂ V x)
  refine h2.congr_fun ?_
  intro m
  have hp : ∀ m : ℕ, (LinearMap.toContinuousLinearMap H ^ m) x = (H ^ m) x := by
    intro m
    induction m with
    | zero => rfl
    | succ m ih => rw [pow_succ', pow_succ', Module.End.mul_apply, ← ih]; rfl
  simp only [ContinuousLinearMap.apply_apply, smul_apply, smul_pow, hp, smul_smul]
  rw [mul_comm]

end

/-- Contract of `solve_ivp`, with the error of the integration neglected: for a Lipschitz continuous right hand side the
result is the value of the solution at the end of the interval. -/
def IvpSpec (ivp : Ivp) : Prop := ∀ (ι : Type) [Fintype ι] (f : EuclideanSpace ℂ ι → EuclideanSpace ℂ ι) (K : NNReal),
  LipschitzWith K f → ∀ (u : ℝ → EuclideanSpace ℂ ι), (∀ s, HasDerivAt u (f (u s)) s) → ∀ t, ivp ι f t (u 0) = u t

theorem exists_ivp : ∃ ivp : Ivp, IvpSpec ivp := by
  classical
  refine ⟨fun ι _ f t y => if h : ∃ u : ℝ → EuclideanSpace ℂ ι, (∀ s, HasDerivAt u (f (u s)) s) ∧ u 0 = y then h.choose t else y, ?_⟩
  intro ι _ f K hf u hu t
  have h : ∃ u' : ℝ → EuclideanSpace ℂ ι, (∀ s, HasDerivAt u' (f (u' s)) s) ∧ u' 0 = u 0 := ⟨u, hu, rfl⟩
  simp only
  rw [dif_pos h]
  have := ODE_solution_unique_univ (v := fun _ => f) (s := fun _ => Set.univ) (K := K) (t₀ := 0) (fun _ => hf.lipschitzOnWith)
    (fun t => ⟨h.choose_spec.1 t, Set.mem_univ _⟩) (fun t => ⟨hu t, Set.mem_univ _⟩) h.choose_spec.2
  exact congrFun this t

theorem ivp_linear {ivp : Ivp} (h : IvpSpec ivp) {ι : Type} [Fintype ι] (H : EuclideanSpace ℂ ι →ₗ[ℂ] EuclideanSpace ℂ ι) (t : ℝ)
    (x : EuclideanSpace ℂ ι) : ivp ι (fun y => (-Complex.I) • H y) t x = expApply H (-Complex.I * t) x := by
  have hL : LipschitzWith ‖(-Complex.I) • LinearMap.toContinuousLinearMap H‖₊ fun y => (-Complex.I) • H y :=
    ((-Complex.I) • LinearMap.toContinuousLinearMap H).lipschitz
  have h1 : ∀ s : ℝ, HasDerivAt (fun s : ℝ => expApply H (-Complex.I * s) x) ((-Complex.I) • H (expApply H (-Complex.I * s) x)) s := by
    intro s
    have e : HasDerivAt (fun s : ℝ => -Complex.I * (s : ℂ)) (-Complex.I) s := by
      simpa using (Complex.ofRealCLM.hasDerivAt (x := s)).const_mul (-Complex.I)
    exact (expApply_hasDerivAt H x (-Complex.I * s)).scomp s e
  have := h ι (fun y => (-Complex.I) • H y) _ hL (fun s : ℝ => expApply H (-Complex.I * s) x) h1 t
  simp only [Complex.ofReal_zero, mul_zero, expApply_zero] at this
  exact this

/-! ## The integrators -/

/-- **C79 (solve_ivp, site).**  `evolveTensorsolve_ivp` applies `exp(-i·tau·H_eff)`. -/
theorem C79_ivp_site {ivp : Ivp} (hI : IvpSpec ivp) {L : Env ℂ} {W : Mpo ℂ} {R : Env ℂ} {T : Ten ℂ} (hf : SiteFits L W R T.l T.r T.d)
    (tau : ℝ) : ∃ X, evolveTensorIvp ivp L W R T tau = .ok X ∧ X.l = T.l ∧ X.r = T.r ∧ X.d = T.d ∧
      X.vec T.l T.r T.d = expApply (siteOp L W R T.l T.r T.d) (-Complex.I * tau) (T.vec T.l T.r T.d) := by
  unfold evolveTensorIvp
  rw [if_pos hf, haSite_eq hf]
  exact ⟨_, rfl, rfl, rfl, rfl, by rw [ten_vec, ivp_linear hI]⟩

theorem C79_ivp_bond {ivp : Ivp} (hI : IvpSpec ivp) {L R : Env ℂ} {C : Mat ℂ} (hf : BondFits L R C.r C.c)
    (tau : ℝ) : ∃ X, evolveMatrixIvp ivp L R C tau = .ok X ∧ X.r = C.r ∧ X.c = C.c ∧
      X.vec C.r C.c = expApply (bondOp L R C.r C.c) (-Complex.I * tau) (C.vec C.r C.c) := by
  unfold evolveMatrixIvp
  rw [if_pos hf, haBond_eq hf]
  exact ⟨_, rfl, rfl, rfl, by rw [mat_vec, ivp_linear hI]⟩

theorem vec_ne {T : Ten ℂ} (h : 0 < T.nsq) : T.vec T.l T.r T.d ≠ 0 := by
  intro h0
  rw [← vec_norm, h0, norm_zero] at h
  norm_num at h

theorem matvec_ne {C : Mat ℂ} (h : 0 < C.nsq) : C.vec C.r C.c ≠ 0 := by
  intro h0
  rw [← matvec_norm, h0, norm_zero] at h
  norm_num at h

/-- **C79 (LAN, site).**  For imaginary `dt` and tensors with at most `ncv` entries, `evolveTensorLan` applies
`exp(dt·H_eff)` to the normalised tensor, up to an error of `|dt|·delta`. -/
theorem C79_lan_site {eigh : Lanczos.Eigh} (hE : EighSpec eigh) {expm : Mat ℂ → Mat ℂ} (hX : ExpmSpec expm) {ncv : ℕ} {delta : ℝ}
    (hd : 0 < delta) (hd1 : delta ≤ 1) {L : Env ℂ} {W : Mpo ℂ} {R : Env ℂ} {T : Ten ℂ} (hH : SiteHerm L W R T.l T.r T.d)
    (h0 : 0 < T.nsq) (hs : T.l * T.r * T.d ≤ ncv) {dt : ℂ} (hdt : dt.re = 0) :
    ∃ X, evolveTensorLan eigh expm ncv delta L W R T dt = .ok X ∧ X.l = T.l ∧ X.r = T.r ∧ X.d = T.d ∧ X.nsq = 1 ∧
      ‖X.vec T.l T.r T.d - expApply (siteOp L W R T.l T.r T.d) dt (((1 / ‖T.vec T.l T.r T.d‖ : ℝ) : ℂ) • T.vec T.l T.r T.d)‖
        ≤ ‖dt‖ * delta := by
  have hfin : Module.finrank ℂ (TVec T.l T.r T.d) = T.l * T.r * T.d := by simp [mul_assoc]
  have hx := vec_ne h0
  have hn : 0 < ncv := by
    have : 0 < Module.finrank ℂ (TVec T.l T.r T.d) := Module.finrank_pos_iff_exists_ne_zero.mpr ⟨_, hx⟩
    omega
  obtain ⟨y, h1, h2, h3⟩ := C77_error_partial (siteOp_symm hH) hE hX hn (by rw [hfin]; exact hs) hd hd1
    (show (starRingEnd ℂ) dt = -dt by apply Complex.ext <;> simp [hdt]) hx
  unfold evolveTensorLan
  rw [if_pos hH.fits, haSite_eq hH.fits, h1]
  refine ⟨_, rfl, rfl, rfl, rfl, ?_, ?_⟩
  · have := vec_norm (TVec.ten y)
    rw [← this]
    change ‖(TVec.ten y).vec T.l T.r T.d‖ ^ 2 = 1
    rw [ten_vec, h2, one_pow]
  · rw [ten_vec]; exact h3

theorem C79_lan_bond {eigh : Lanczos.Eigh} (hE : EighSpec eigh) {expm : Mat ℂ → Mat ℂ} (hX : ExpmSpec expm) {ncv : ℕ} {delta : ℝ}
    (hd : 0 < delta) (hd1 : delta ≤ 1) {L R : Env ℂ} {C : Mat ℂ} (hH : BondHerm L R C.r C.c) (hsq : C.r = C.c)
    (h0 : 0 < C.nsq) (hs : C.r * C.c ≤ ncv) {dt : ℂ} (hdt : dt.re = 0) :
    ∃ X, evolveMatrixLan eigh expm ncv delta L R C dt = .ok X ∧ X.r = C.r ∧ X.c = C.c ∧ X.nsq = 1 ∧
      ‖X.vec C.r C.c - expApply (bondOp L R C.r C.c) dt (((1 / ‖C.vec C.r C.c‖ : ℝ) : ℂ) • C.vec C.r C.c)‖ ≤ ‖dt‖ * delta := by
  have hfin : Module.finrank ℂ (BVec C.r C.c) = C.r * C.c := by simp
  have hx := matvec_ne h0
  have hn : 0 < ncv := by
    have : 0 < Module.finrank ℂ (BVec C.r C.c) := Module.finrank_pos_iff_exists_ne_zero.mpr ⟨_, hx⟩
    omega
  have hf : BondFits L R C.r C.c := ⟨hH.Lu, hH.Lw, hH.Ru, hH.Rw, hH.m, hsq⟩
  obtain ⟨y, h1, h2, h3⟩ := C77_error_partial (bondOp_symm hH) hE hX hn (by rw [hfin]; exact hs) hd hd1
    (show (starRingEnd ℂ) dt = -dt by apply Complex.ext <;> simp [hdt]) hx
  unfold evolveMatrixLan
  rw [if_pos hf, haBond_eq hf, h1]
  refine ⟨_, rfl, rfl, rfl, ?_, ?_⟩
  · have := matvec_norm (BVec.mat y)
    rw [← this]
    change ‖(BVec.mat y).vec C.r C.c‖ ^ 2 = 1
    rw [mat_vec, h2, one_pow]
  · rw [mat_vec]; exact h3

theorem polar (tau : ℂ) : (‖tau‖ : ℂ) * Complex.exp (Complex.I * (Complex.arg tau : ℂ)) = tau := by
  rw [mul_comm Complex.I]; exact Complex.norm_mul_exp_arg_mul_I tau

theorem smul_pow_series {V : Type} [NormedAddCommGroup V] [InnerProductSpace ℂ V] [FiniteDimensional ℂ V] {H : V →ₗ[ℂ] V} {tau : ℂ} {x y : V}
    (h : HasSum (fun i : ℕ => (((‖tau‖ : ℝ) : ℂ) ^ i * (i.factorial : ℂ)⁻¹) • ((Complex.exp (Complex.I * (Complex.arg tau : ℂ)) • H) ^ i) x) y) :
    y = expApply H tau x := by
  refine h.unique ?_
  have h2 := expApply_hasSum H tau x
  refine h2.congr_fun ?_
  intro i
  rw [smul_pow, LinearMap.smul_apply, smul_smul]
  congr 1
  rw [mul_right_comm, ← mul_pow, polar]

/-- **C79 (SEXPMV, site).**  `evolveTensorSexpmv` applies `exp(tau·H_eff)`, for every complex `tau≠0`, if the tensor lies in an
invariant subspace of dimension at most `min(20,n-1)`, where `n` is the number of entries. -/
theorem C79_sexpmv_site {expm : Mat ℂ → Mat ℂ} (hX : ExpmSpec expm) {eps : ℝ} (he : 0 < eps) {L : Env ℂ} {W : Mpo ℂ} {R : Env ℂ} {T : Ten ℂ}
    (hf : SiteFits L W R T.l T.r T.d) (h0 : 0 < T.nsq) (hn : 2 ≤ T.l * T.r * T.d) {tau : ℂ} (ht : tau ≠ 0)
    {S : Submodule ℂ (TVec T.l T.r T.d)} (hTS : T.vec T.l T.r T.d ∈ S) (hS : ∀ x ∈ S, siteOp L W R T.l T.r T.d x ∈ S)
    (h20 : Module.finrank ℂ S ≤ 20) (hdim : Module.finrank ℂ S < T.l * T.r * T.d) :
    ∃ X, (∀ fuel ≥ 3, evolveTensorSexpmv expm eps fuel L W R T tau = some (.ok X)) ∧ X.l = T.l ∧ X.r = T.r ∧ X.d = T.d ∧
      X.vec T.l T.r T.d = expApply (siteOp L W R T.l T.r T.d) tau (T.vec T.l T.r T.d) := by
  have hf' : SiteFits L (W.scale (Complex.exp (Complex.I * (Complex.arg tau : ℂ)))) R T.l T.r T.d := hf
  have hk : krylovDim (T.l * T.r * T.d) none = min 20 (((T.l * T.r * T.d : ℕ) : ℤ) - 1) := by simp [krylovDim]
  obtain ⟨o, h1, h2, -⟩ := C78_exact hX he (n := T.l * T.r * T.d)
    (A := siteOp L (W.scale (Complex.exp (Complex.I * (Complex.arg tau : ℂ)))) R T.l T.r T.d) (vec_ne h0) (t := ‖tau‖) (norm_ne_zero_iff.mpr ht)
    (anorm := 1) one_pos (m := none) (by rw [hk]; omega) (by rw [hk]; omega) (tol := 0) (mxstep := 500) (btol := none) (by simp) hTS
    (by intro x hx; rw [siteOp_scale, LinearMap.smul_apply]; exact S.smul_mem _ (hS x hx)) (by rw [hk]; omega)
  refine ⟨TVec.ten o.w, fun fuel hfuel => ?_, rfl, rfl, rfl, ?_⟩
  · unfold evolveTensorSexpmv
    rw [if_pos hf, haSite_eq hf', h1 fuel hfuel]
  · rw [ten_vec]
    rw [siteOp_scale] at h2
    exact smul_pow_series h2

theorem C79_sexpmv_bond {expm : Mat ℂ → Mat ℂ} (hX : ExpmSpec expm) {eps : ℝ} (he : 0 < eps) {L R : Env ℂ} {C : Mat ℂ}
    (hf : BondFits L R C.r C.c) (h0 : 0 < C.nsq) (hn : 2 ≤ C.r * C.c) {tau : ℂ} (ht : tau ≠ 0)
    {S : Submodule ℂ (BVec C.r C.c)} (hCS : C.vec C.r C.c ∈ S) (hS : ∀ x ∈ S, bondOp L R C.r C.c x ∈ S)
    (h20 : Module.finrank ℂ S ≤ 20) (hdim : Module.finrank ℂ S < C.r * C.c) :
    ∃ X, (∀ fuel ≥ 3, evolveMatrixSexpmv expm eps fuel L R C tau = some (.ok X)) ∧ X.r = C.r ∧ X.c = C.c ∧
      X.vec C.r C.c = expApply (bondOp L R C.r C.c) tau (C.vec C.r C.c) := by
  have hf' : BondFits L (R.scale (Complex.exp (Complex.I * (Complex.arg tau : ℂ)))) C.r C.c := hf
  have hk : krylovDim (C.r * C.c) none = min 20 (((C.r * C.c : ℕ) : ℤ) - 1) := by simp [krylovDim]
  obtain ⟨o, h1, h2, -⟩ := C78_exact hX he (n := C.r * C.c)
    (A := bondOp L (R.scale (Complex.exp (Complex.I * (Complex.arg tau : ℂ)))) C.r C.c) (matvec_ne h0) (t := ‖tau‖) (norm_ne_zero_iff.mpr ht)
    (anorm := 1) one_pos (m := none) (by rw [hk]; omega) (by rw [hk]; omega) (tol := 0) (mxstep := 500) (btol := none) (by simp) hCS
    (by intro x hx; rw [bondOp_scale, LinearMap.smul_apply]; exact S.smul_mem _ (hS x hx)) (by rw [hk]; omega)
  refine ⟨BVec.mat o.w, fun fuel hfuel => ?_, rfl, rfl, ?_⟩
  · unfold evolveMatrixSexpmv
    rw [if_pos hf, haBond_eq hf', h1 fuel hfuel]
  · rw [mat_vec]
    rw [bondOp_scale] at h2
    exact smul_pow_series h2

end

end PyTeN
