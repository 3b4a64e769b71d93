import Verif.Props.Energy
import Verif.Props.Integrator

/-! # C79, C80: TDVP with the modelled integrators -/

namespace PyTeN
open Finset Lanczos

noncomputable section

/-! ## The energy of a Lanczos step -/

theorem exp_skew_conj {n : ℕ} {A T : Matrix (Fin n) (Fin n) ℂ} (hA : A.conjTranspose = -A) (hc : Commute T A) :
    (NormedSpace.exp A).conjTranspose * (T * NormedSpace.exp A) = T := by
  have hU : (NormedSpace.exp A).conjTranspose * NormedSpace.exp A = 1 := by
    rw [← Matrix.exp_conjTranspose, hA, ← Matrix.exp_add_of_commute _ _ (Commute.neg_left (Commute.refl A)), neg_add_cancel,
      NormedSpace.exp_zero]
  have hT : Commute T (NormedSpace.exp A) := by
    let _ : NormedRing (Matrix (Fin n) (Fin n) ℂ) := Matrix.linftyOpNormedRing
    let _ : NormedAlgebra ℂ (Matrix (Fin n) (Fin n) ℂ) := Matrix.linftyOpNormedAlgebra
    let _ : NormedAlgebra ℚ (Matrix (Fin n) (Fin n) ℂ) := .restrictScalars ℚ ℂ _
    exact hc.exp_right
  rw [hT.eq, ← mul_assoc, hU, one_mul]

section
variable {V : Type} [NormedAddCommGroup V] [InnerProductSpace ℂ V]

theorem combine_form {H : V →ₗ[ℂ] V} {q : List V} {k : List ℝ} {e : List ℂ} {last : V} (h : Tridiag H q k e last) (a : ℕ → ℂ) :
    inner ℂ (∑ n ∈ range q.length, a n • q.getD n 0) (H (∑ n ∈ range q.length, a n • q.getD n 0))
      = ∑ i ∈ range q.length, (starRingEnd ℂ) (a i) * ∑ j ∈ range q.length, (heff k e).v i j * a j := by
  rw [H_combine h, inner_add_right, inner_smul_right, combine_perp h, mul_zero, add_zero, combine_inner h]

/-- **C77 (energy).**  For imaginary `dt`, if at most `ncv` Krylov vectors were built, the result has the energy of the
normalised state, no matter how accurate the step is. -/
theorem C77_energy_partial {H : V →ₗ[ℂ] V} (hH : H.IsSymmetric) {eigh : Eigh} (hE : EighSpec eigh) {expm : Mat ℂ → Mat ℂ}
    (hX : ExpmSpec expm) {ncv : ℕ} (hn : 0 < ncv) {delta : ℝ} (hd : 0 < delta) (hd1 : delta ≤ 1) {dt : ℂ}
    (hdt : (starRingEnd ℂ) dt = -dt) {x : V} (hx : x ≠ 0) {o : Out V}
    (ho : simulate H eigh (timeParams ncv delta) true x = .ok o) (hlen : o.st.vecs.length ≤ ncv) :
    ∃ y, doStep H eigh expm id ncv delta dt x = .ok y ∧ ‖y‖ = 1 ∧ inner ℂ x (H x) = (‖x‖ : ℂ) ^ 2 * inner ℂ y (H y) := by
  obtain ⟨o', ho', run, hs⟩ := doStep_eq hH hE (expm := expm) (cast := id) hn hd (dt := dt) hx
  rw [id, ho] at ho'
  cases ho'
  obtain ⟨y, hy, hnorm, -⟩ := C77_norm_partial hH hE hX hn hd hd1 hdt hx ho
  have hyy := hs.symm.trans hy
  injection hyy with hyy
  refine ⟨y, hy, hnorm hlen, ?_⟩
  have h1 := run_pos hd1 run
  have hr : (heff o.st.kn o.st.eps).r = o.st.vecs.length := run.tri.le
  have hf : (‖x‖ : ℂ) • o.st.vecs.getD 0 0 = x := run.first _ (by
    cases hv : o.st.vecs with
    | nil => rw [hv] at h1; simp at h1
    | cons a l => simp)
  have hq : o.st.vecs.getD 0 0 = ∑ n ∈ range o.st.vecs.length, (if n = 0 then (1 : ℂ) else 0) • o.st.vecs.getD n 0 := by
    rw [sum_eq_single 0]
    · simp
    · intro b _ hb; rw [if_neg hb, zero_smul]
    · intro hn; exact absurd (mem_range.mpr h1) hn
  have e0 : inner ℂ (o.st.vecs.getD 0 0) (H (o.st.vecs.getD 0 0)) = (heff o.st.kn o.st.eps).v 0 0 := by
    rw [hq, combine_form run.tri, sum_eq_single 0]
    · rw [sum_eq_single 0]
      · simp
      · intro b _ hb; rw [if_neg hb, mul_zero]
      · intro hn; exact absurd (mem_range.mpr h1) hn
    · intro b _ hb; rw [if_neg hb, map_zero, zero_mul]
    · intro hn; exact absurd (mem_range.mpr h1) hn
  have e1 : inner ℂ y (H y) = (heff o.st.kn o.st.eps).v 0 0 := by
    rw [min_eq_right hlen] at hyy
    rw [← hyy, combine_form run.tri, ← hr]
    have hk := exp_skew_conj (T := (heff o.st.kn o.st.eps).sq) (scaled_skew (heff_herm run.tri) hdt)
      (by rw [scaled_sq]; exact (Commute.refl _).smul_right dt)
    have hk0 := congrFun (congrFun hk ⟨0, by omega⟩) ⟨0, by omega⟩
    rw [Matrix.mul_apply] at hk0
    refine Eq.trans ?_ hk0
    rw [Finset.sum_range]
    have hu : ∀ i : Fin (heff o.st.kn o.st.eps).r, (expm (scaled dt (heff o.st.kn o.st.eps))).v i 0
        = NormedSpace.exp (scaled dt (heff o.st.kn o.st.eps)).sq i ⟨0, by show 0 < (heff o.st.kn o.st.eps).r; omega⟩ := fun i =>
      expm_eq hX (M := scaled dt (heff o.st.kn o.st.eps)) rfl i ⟨0, by show 0 < (heff o.st.kn o.st.eps).r; omega⟩
    refine sum_congr rfl fun i _ => ?_
    rw [Matrix.conjTranspose_apply, Matrix.mul_apply, Finset.sum_range, hu i]
    refine congrArg _ (sum_congr rfl fun j _ => ?_)
    rw [hu j]
    rfl
  rw [e1, ← e0]
  conv_lhs => rw [← hf]
  rw [map_smul, inner_smul_left, inner_smul_right, Complex.conj_ofReal]
  ring

/-- The hypotheses are met by a spin in a transverse field. -/
example : ∃ (eigh : Eigh) (expm : Mat ℂ → Mat ℂ) (y : EuclideanSpace ℂ (Fin 2)),
    doStep sigmaX eigh expm id 2 (1 / 2) (-Complex.I * (3 : ℝ)) (EuclideanSpace.single 0 1) = .ok y ∧ inner ℂ y (sigmaX y) = 0 := by
  obtain ⟨eigh, hE⟩ := exists_eigh
  obtain ⟨expm, hX⟩ := exists_expm
  have hx : (EuclideanSpace.single 0 1 : EuclideanSpace ℂ (Fin 2)) ≠ 0 := by
    intro h; simpa using congrArg (fun v : EuclideanSpace ℂ (Fin 2) => v 0) h
  obtain ⟨o, ho, run, -⟩ := doStep_eq sigmaX_symm hE (expm := expm) (cast := id) (ncv := 2) (by norm_num) (delta := 1 / 2) (by norm_num)
    (dt := -Complex.I * (3 : ℝ)) (x := EuclideanSpace.single 0 1) hx
  obtain ⟨y, h1, h2, h3⟩ := C77_energy_partial sigmaX_symm hE hX (ncv := 2) (by norm_num) (delta := 1 / 2) (by norm_num) (by norm_num)
    (dt := -Complex.I * (3 : ℝ)) (by rw [map_mul, map_neg, Complex.conj_I, Complex.conj_ofReal]; ring) hx ho
    (sigmaX_run (by norm_num) run).2.1.le
  refine ⟨eigh, expm, y, h1, ?_⟩
  rw [PiLp.norm_single, norm_one, Complex.ofReal_one, one_pow, one_mul] at h3
  rw [← h3]
  simp [sigmaX, Matrix.toLpLin_apply, PiLp.inner_apply]

end

/-! ## The integrators as parameters of TDVP -/

/-- `evolveTensorLan` with `krylov_dimension=ncv`, as called by `doTDVP` with `solver='LAN'`, lib/mpslib/engines.py. -/
def lanT (eigh : Eigh) (expm : Mat ℂ → Mat ℂ) (ncv : ℕ) (delta : ℝ) : EvolveTen := fun _ L W R T t => evolveTensorLan eigh expm ncv delta L W R T t

/-- `evolveMatrixLan`. -/
def lanM (eigh : Eigh) (expm : Mat ℂ → Mat ℂ) (ncv : ℕ) (delta : ℝ) : EvolveMat := fun _ L R C t => evolveMatrixLan eigh expm ncv delta L R C t

/-- `evolveTensorsolve_ivp`; the time is `np.imag(dt_)`. -/
def ivpT (ivp : Ivp) : EvolveTen := fun _ L W R T t => evolveTensorIvp ivp L W R T t.re

/-- `evolveMatrixsolve_ivp`. -/
def ivpM (ivp : Ivp) : EvolveMat := fun _ L R C t => evolveMatrixIvp ivp L R C t.re

variable {O : LinAlg} {eigh : Eigh} {expm : Mat ℂ → Mat ℂ} {ncv : ℕ} {delta : ℝ} {ivp : Ivp}

theorem lanT_shape : (lanT eigh expm ncv delta).Shape := by
  intro sv L W R T t X h
  simp only [lanT, evolveTensorLan] at h
  split_ifs at h
  split at h
  · simp at h
  · injection h with h; subst h; exact ⟨rfl, rfl, rfl⟩

theorem lanM_shape : (lanM eigh expm ncv delta).Shape := by
  intro sv L R C t X h
  simp only [lanM, evolveMatrixLan] at h
  split_ifs at h
  split at h
  · simp at h
  · injection h with h; subst h; exact ⟨rfl, rfl⟩

theorem ivpT_shape : (ivpT ivp).Shape := by
  intro sv L W R T t X h
  simp only [ivpT, evolveTensorIvp] at h
  split_ifs at h
  injection h with h; subst h; exact ⟨rfl, rfl, rfl⟩

theorem ivpM_shape : (ivpM ivp).Shape := by
  intro sv L R C t X h
  simp only [ivpM, evolveMatrixIvp] at h
  split_ifs at h
  injection h with h; subst h; exact ⟨rfl, rfl⟩

theorem Ten.nsq_pos {T : Ten ℂ} : 0 < T.nsq ↔ T.NonZero := by
  unfold Ten.nsq Ten.NonZero
  constructor
  · intro h
    obtain ⟨i, hi, h⟩ := exists_ne_zero_of_sum_ne_zero h.ne'
    obtain ⟨j, hj, h⟩ := exists_ne_zero_of_sum_ne_zero h
    obtain ⟨s, hs, h⟩ := exists_ne_zero_of_sum_ne_zero h
    exact ⟨i, mem_range.mp hi, j, mem_range.mp hj, s, mem_range.mp hs, fun h0 => h (by rw [h0, map_zero])⟩
  · rintro ⟨i, hi, j, hj, s, hs, h⟩
    refine sum_pos' (fun i _ => sum_nonneg fun j _ => sum_nonneg fun s _ => Complex.normSq_nonneg _) ⟨i, mem_range.mpr hi, ?_⟩
    refine sum_pos' (fun j _ => sum_nonneg fun s _ => Complex.normSq_nonneg _) ⟨j, mem_range.mpr hj, ?_⟩
    exact sum_pos' (fun s _ => Complex.normSq_nonneg _) ⟨s, mem_range.mpr hs, Complex.normSq_pos.mpr h⟩

theorem Mat.nsq_pos {C : Mat ℂ} : 0 < C.nsq ↔ normF C ≠ 0 := by
  have h0 : 0 ≤ C.nsq := sum_nonneg fun i _ => sum_nonneg fun j _ => Complex.normSq_nonneg _
  change _ ↔ Real.sqrt C.nsq ≠ 0
  rw [Real.sqrt_ne_zero h0]
  exact ⟨fun h => h.ne', fun h => lt_of_le_of_ne h0 (Ne.symm h)⟩

/-- Calls with a Hermitian effective Hamiltonian and at most `ncv` entries, for real times. -/
def HermCall (ncv : ℕ) : TCall → Prop
  | .ten _ _ L W R T dt => SiteHerm L W R T.l T.r T.d ∧ T.l * T.r * T.d ≤ ncv ∧ dt.re = 0
  | .mat _ _ L R C dt => BondHerm L R C.r C.c ∧ C.r * C.c ≤ ncv ∧ dt.re = 0

theorem lanT_live (hE : EighSpec eigh) (hX : ExpmSpec expm) (hd : 0 < delta) (hd1 : delta ≤ 1) :
    (lanT eigh expm ncv delta).Live .LAN (HermCall ncv) := by
  rintro n m L W R T dt - - - - - - - - h ⟨hH, hs, hdt⟩
  obtain ⟨X, h1, -, -, -, h2, -⟩ := C79_lan_site hE hX hd hd1 hH (Ten.nsq_pos.mpr h) hs hdt
  exact ⟨X, h1, Ten.nsq_pos.mp (by rw [h2]; exact one_pos)⟩

theorem lanM_live (hE : EighSpec eigh) (hX : ExpmSpec expm) (hd : 0 < delta) (hd1 : delta ≤ 1) :
    (lanM eigh expm ncv delta).Live .LAN (HermCall ncv) := by
  rintro n m L R C dt - - - - - hsq h ⟨hH, hs, hdt⟩
  obtain ⟨X, h1, -, -, h2, -⟩ := C79_lan_bond hE hX hd hd1 hH hsq (Mat.nsq_pos.mpr h) hs hdt
  exact ⟨X, h1, Mat.nsq_pos.mp (by rw [h2]; exact one_pos)⟩

/-- The exponential has an inverse. -/
theorem expApply_ne {V : Type} [NormedAddCommGroup V] [InnerProductSpace ℂ V] [FiniteDimensional ℂ V] (H : V →ₗ[ℂ] V) (z : ℂ) {x : V}
    (hx : x ≠ 0) : expApply H z x ≠ 0 := by
  have : CompleteSpace V := FiniteDimensional.complete ℂ V
  let _ : NormedAlgebra ℚ (V →L[ℂ] V) := .restrictScalars ℚ ℂ (V →L[ℂ] V)
  intro h
  have h2 : NormedSpace.exp (-(z • LinearMap.toContinuousLinearMap H)) * NormedSpace.exp (z • LinearMap.toContinuousLinearMap H) = 1 := by
    rw [← NormedSpace.exp_add_of_commute (Commute.neg_left (Commute.refl _)), neg_add_cancel, NormedSpace.exp_zero]
  have h3 := congrArg (fun A : V →L[ℂ] V => A x) h2
  simp only [mul_apply_eq_comp, one_apply_eq_self] at h3
  unfold expApply at h
  rw [h, map_zero] at h3
  exact hx h3.symm

theorem nsq_vec {X : Ten ℂ} {l r d : ℕ} (h1 : X.l = l) (h2 : X.r = r) (h3 : X.d = d) : X.nsq = ‖X.vec l r d‖ ^ 2 := by
  subst h1 h2 h3; exact (vec_norm X).symm

theorem nsq_matvec {X : Mat ℂ} {r c : ℕ} (h1 : X.r = r) (h2 : X.c = c) : X.nsq = ‖X.vec r c‖ ^ 2 := by
  subst h1 h2; exact (matvec_norm X).symm

theorem ivpT_live (hI : IvpSpec ivp) : (ivpT ivp).Live .ivp fun _ => True := by
  rintro n m L W R T dt a1 a2 a3 a4 a5 a6 a7 a8 h -
  obtain ⟨X, h1, x1, x2, x3, h2⟩ := C79_ivp_site hI (T := T) ⟨a1, a2, a4, a5, a7.symm, a8, a3.symm, a6.symm⟩ dt.im
  refine ⟨X, ?_, Ten.nsq_pos.mp ?_⟩
  · simp only [ivpT, TSolver.time, if_true, Complex.ofReal_re]; exact h1
  · rw [nsq_vec x1 x2 x3, h2]
    exact pow_pos (norm_pos_iff.mpr (expApply_ne _ _ (vec_ne (Ten.nsq_pos.mpr h)))) 2

theorem ivpM_live (hI : IvpSpec ivp) : (ivpM ivp).Live .ivp fun _ => True := by
  rintro n m L R C dt a1 a2 a3 a4 a5 hsq h -
  obtain ⟨X, h1, x1, x2, h2⟩ := C79_ivp_bond hI (C := C) ⟨a1, a2, a4, a5, a3, hsq⟩ dt.im
  refine ⟨X, ?_, Mat.nsq_pos.mp ?_⟩
  · simp only [ivpM, TSolver.time, if_true, Complex.ofReal_re]; exact h1
  · rw [nsq_matvec x1 x2, h2]
    exact pow_pos (norm_pos_iff.mpr (expApply_ne _ _ (matvec_ne (Mat.nsq_pos.mpr h)))) 2

theorem form_vec (L : Env ℂ) (W : Mpo ℂ) (R : Env ℂ) {X : Ten ℂ} {l r d : ℕ} (h1 : X.l = l) (h2 : X.r = r) (h3 : X.d = d) :
    siteForm L W R X X = inner ℂ (X.vec l r d) (siteOp L W R l r d (X.vec l r d)) := by
  subst h1 h2 h3; exact (siteOp_form L W R X X ⟨rfl, rfl, rfl⟩).symm

theorem form_matvec (L R : Env ℂ) {X : Mat ℂ} {r c : ℕ} (h1 : X.r = r) (h2 : X.c = c) :
    bondForm L R X X = inner ℂ (X.vec r c) (bondOp L R r c (X.vec r c)) := by
  subst h1 h2; exact (bondOp_form L R X X ⟨rfl, rfl⟩).symm

theorem imag_time (t : ℝ) : (-Complex.I * (t : ℂ)).re = 0 := by simp

theorem ivpT_conserves (hI : IvpSpec ivp) : (ivpT ivp).Conserves .ivp fun _ => True := by
  intro L W R T dt X hH _ hdt h0 h
  obtain ⟨Y, h1, x1, x2, x3, h2⟩ := C79_ivp_site hI (T := T) hH.fits dt.im
  simp only [ivpT, TSolver.time, if_true, Complex.ofReal_re, h1] at h
  injection h with h
  subst h
  obtain ⟨k1, k2⟩ := expApply_unitary (siteOp_symm hH) (T.vec T.l T.r T.d) (imag_time dt.im)
  rw [nsq_vec x1 x2 x3, form_vec L W R x1 x2 x3, h2, k1, k2, ← vec_norm T, form_vec L W R rfl rfl rfl]
  exact ⟨pow_pos (norm_pos_iff.mpr (vec_ne h0)) 2, rfl⟩

theorem bondFits_of_ok {L R : Env ℂ} {C X : Mat ℂ} {t : ℝ} (h : evolveMatrixIvp ivp L R C t = .ok X) : BondFits L R C.r C.c := by
  by_contra hf
  rw [evolveMatrixIvp, if_neg hf] at h
  simp at h

theorem ivpM_conserves (hI : IvpSpec ivp) : (ivpM ivp).Conserves .ivp fun _ => True := by
  intro L R C dt X hH _ hdt h0 h
  simp only [ivpM, TSolver.time, if_true, Complex.ofReal_re] at h
  obtain ⟨Y, h1, x1, x2, h2⟩ := C79_ivp_bond hI (C := C) (bondFits_of_ok h) dt.im
  rw [h1] at h
  injection h with h
  subst h
  obtain ⟨k1, k2⟩ := expApply_unitary (bondOp_symm hH) (C.vec C.r C.c) (imag_time dt.im)
  rw [nsq_matvec x1 x2, form_matvec L R x1 x2, h2, k1, k2, ← matvec_norm C, form_matvec L R rfl rfl]
  exact ⟨pow_pos (norm_pos_iff.mpr (matvec_ne h0)) 2, rfl⟩

theorem conj_of_re {dt : ℂ} (h : dt.re = 0) : (starRingEnd ℂ) dt = -dt := by apply Complex.ext <;> simp [h]

theorem lanT_conserves (hE : EighSpec eigh) (hX : ExpmSpec expm) (hd : 0 < delta) (hd1 : delta ≤ 1) :
    (lanT eigh expm ncv delta).Conserves .LAN fun n => n ≤ ncv := by
  intro L W R T dt X hH hs hdt h0 h
  have hfin : Module.finrank ℂ (TVec T.l T.r T.d) = T.l * T.r * T.d := by simp [mul_assoc]
  have hx := vec_ne h0
  have hn : 0 < ncv := by
    have : 0 < Module.finrank ℂ (TVec T.l T.r T.d) := Module.finrank_pos_iff_exists_ne_zero.mpr ⟨_, hx⟩
    omega
  obtain ⟨o, ho, -, -⟩ := doStep_eq (siteOp_symm hH) hE (expm := expm) (cast := id) hn hd (dt := dt) hx
  have hlen := (C52_exact (siteOp_symm hH) hE hn (p := timeParams ncv delta) hx ho).1
  obtain ⟨y, h1, h2, h3⟩ := C77_energy_partial (siteOp_symm hH) hE hX hn hd hd1 (conj_of_re hdt) hx ho (by omega)
  have ht : TSolver.LAN.time dt = dt := rfl
  simp only [lanT, evolveTensorLan, ht, if_pos hH.fits, haSite_eq hH.fits, h1] at h
  injection h with h
  subst h
  rw [nsq_vec (X := TVec.ten y) (l := T.l) (r := T.r) (d := T.d) rfl rfl rfl, form_vec L W R (X := TVec.ten y) (l := T.l) (r := T.r) (d := T.d) rfl rfl rfl, ten_vec, h2, ← vec_norm T, form_vec L W R rfl rfl rfl, h3]
  refine ⟨by norm_num, ?_⟩
  push_cast
  ring

theorem lanM_conserves (hE : EighSpec eigh) (hX : ExpmSpec expm) (hd : 0 < delta) (hd1 : delta ≤ 1) :
    (lanM eigh expm ncv delta).Conserves .LAN fun n => n ≤ ncv := by
  intro L R C dt X hH hs hdt h0 h
  have ht : TSolver.LAN.time dt = dt := rfl
  have hf : BondFits L R C.r C.c := by
    by_contra hf
    simp only [lanM, evolveMatrixLan, if_neg hf] at h
    simp at h
  have hfin : Module.finrank ℂ (BVec C.r C.c) = C.r * C.c := by simp
  have hx := matvec_ne h0
  have hn : 0 < ncv := by
    have : 0 < Module.finrank ℂ (BVec C.r C.c) := Module.finrank_pos_iff_exists_ne_zero.mpr ⟨_, hx⟩
    omega
  obtain ⟨o, ho, -, -⟩ := doStep_eq (bondOp_symm hH) hE (expm := expm) (cast := id) hn hd (dt := dt) hx
  have hlen := (C52_exact (bondOp_symm hH) hE hn (p := timeParams ncv delta) hx ho).1
  obtain ⟨y, h1, h2, h3⟩ := C77_energy_partial (bondOp_symm hH) hE hX hn hd hd1 (conj_of_re hdt) hx ho (by omega)
  simp only [lanM, evolveMatrixLan, ht, if_pos hf, haBond_eq hf, h1] at h
  injection h with h
  subst h
  rw [nsq_matvec (X := BVec.mat y) (r := C.r) (c := C.c) rfl rfl, form_matvec L R (X := BVec.mat y) (r := C.r) (c := C.c) rfl rfl, mat_vec, h2, ← matvec_norm C, form_matvec L R rfl rfl, h3]
  refine ⟨by norm_num, ?_⟩
  push_cast
  ring

/-! ## Runs -/

theorem tstep_re {dt x : ℂ} (h : TStep dt x) (hdt : dt.re = 0) : x.re = 0 := by
  rcases h with rfl | rfl | rfl <;> simp [hdt]

/-- The sizes of the calls. -/
theorem shaped_size {ts : List (Ten ℂ)} (hadm : ∀ t ∈ ts, t.Adm) (hs : ∀ t ∈ ts, t.l * t.r * t.d ≤ ncv) {c : TCall}
    (h : c.Shaped (ts.map Ten.shape)) : c.size ≤ ncv := by
  cases c with
  | ten n m L W R T dt =>
    simp only [TCall.Shaped, List.getElem?_map, Option.map_eq_some_iff] at h
    obtain ⟨t, ht, he⟩ := h
    have := hs t (List.mem_of_getElem? ht)
    simp only [Ten.shape, Prod.mk.injEq] at he
    obtain ⟨e1, e2, e3⟩ := he
    simp only [TCall.size]
    rw [← e1, ← e2, ← e3]; exact this
  | mat n m L R C dt =>
    obtain ⟨hsq, a, ha, hc⟩ := h
    simp only [List.getElem?_map, Option.map_eq_some_iff] at ha
    obtain ⟨t, ht, he⟩ := ha
    have h1 := hs t (List.mem_of_getElem? ht)
    have h2 := (hadm t (List.mem_of_getElem? ht)).1
    subst he
    have hc : t.r = C.c := hc
    simp only [TCall.size]
    rw [hsq, ← hc]
    calc t.r * t.r ≤ (t.d * t.l) * t.r := Nat.mul_le_mul_right _ h2
      _ = t.l * t.r * t.d := by ring
      _ ≤ ncv := h1

theorem admits_herm {e : Eng} (hf : e.Fit) (hH : HermH e.lb e.mpo e.rb e.mps.ds) {dt : ℂ} (hdt : dt.re = 0)
    (hadm : ∀ t ∈ e.mps.tensors, t.Adm) (hs : ∀ t ∈ e.mps.tensors, t.l * t.r * t.d ≤ ncv) : e.Admits dt (HermCall ncv) := by
  intro c hok hds hsh hst
  have hsz := shaped_size hadm hs hsh
  cases c with
  | ten n m L W R T dt' => exact ⟨(siteCtx_of_ok hf hok hds).herm hH, hsz, tstep_re hst hdt⟩
  | mat n m L R C dt' => exact ⟨(bondCtx_of_ok hf hok hds).herm hH, hsz, tstep_re hst hdt⟩

/-- **C80 (LAN).**  `doTDVP` with `solver='LAN'` in real time, for a Hermitian MPO and a canonical state whose tensors have at
most `krylov_dim` entries, never raises; energy and norm one are kept, and so are all bond dimensions. -/
theorem C80_lan (hO : O.Spec) (hE : EighSpec eigh) (hX : ExpmSpec expm) (hd : 0 < delta) (hd1 : delta ≤ 1) {dt : ℂ} (hdt : dt.re = 0)
    (n : ℕ) {cp : Option ℤ} (hcp : cp ≠ some 0) (keep : Bool) (v : ℤ) {w : World} (hs : w.evo.eng.TStart)
    (hf : w.evo.eng.Fit) (hc : w.evo.eng.mps.Canonical) (hZ : PosC w.evo.eng.mps.Z)
    (hH : HermH w.evo.eng.lb w.evo.eng.mpo w.evo.eng.rb w.evo.eng.mps.ds) (hadm : ∀ t ∈ w.evo.eng.mps.tensors, t.Adm)
    (hsq : w.evo.eng.mps.mat.r = w.evo.eng.mps.mat.c) (hsz : ∀ t ∈ w.evo.eng.mps.tensors, t.l * t.r * t.d ≤ ncv) :
    ∃ w' css, doTDVP O (lanT eigh expm ncv delta) (lanM eigh expm ncv delta) .LAN dt n cp keep v w = .ok (w', css) ∧
      energy w.evo.eng.lb w.evo.eng.mpo w.evo.eng.rb w.evo.eng.mps.ds w'.evo.eng.mps.amp
        = energy w.evo.eng.lb w.evo.eng.mpo w.evo.eng.rb w.evo.eng.mps.ds w.evo.eng.mps.amp ∧
      nsq w.evo.eng.mps.ds w.evo.eng.lb.u w.evo.eng.rb.u w'.evo.eng.mps.amp = 1 ∧
      w'.evo.eng.mps.tensors.map Ten.shape = w.evo.eng.mps.tensors.map Ten.shape := by
  obtain ⟨w', css, h1, h2, h3⟩ := C39_progress hO lanT_shape lanM_shape (lanT_live hE hX hd hd1) (lanM_live hE hX hd hd1) (by simp) dt n hcp keep v
    hs hf hc hZ.ne hadm hsq (admits_herm hf hH hdt hadm hsz)
  obtain ⟨k1, k2⟩ := C80_energy hO lanT_shape lanM_shape (lanT_conserves hE hX hd hd1) (lanM_conserves hE hX hd hd1) hdt hs hZ hc hf hH h1
    fun c hc => shaped_size hadm hsz (h3 c hc)
  exact ⟨w', css, h1, k1, k2, h2⟩

/-- **C80 (solve_ivp).**  The same with a `solve_ivp` method, for tensors of any size. -/
theorem C80_ivp (hO : O.Spec) (hI : IvpSpec ivp) {dt : ℂ} (hdt : dt.re = 0)
    (n : ℕ) {cp : Option ℤ} (hcp : cp ≠ some 0) (keep : Bool) (v : ℤ) {w : World} (hs : w.evo.eng.TStart)
    (hf : w.evo.eng.Fit) (hc : w.evo.eng.mps.Canonical) (hZ : PosC w.evo.eng.mps.Z)
    (hH : HermH w.evo.eng.lb w.evo.eng.mpo w.evo.eng.rb w.evo.eng.mps.ds) (hadm : ∀ t ∈ w.evo.eng.mps.tensors, t.Adm)
    (hsq : w.evo.eng.mps.mat.r = w.evo.eng.mps.mat.c) :
    ∃ w' css, doTDVP O (ivpT ivp) (ivpM ivp) .ivp dt n cp keep v w = .ok (w', css) ∧
      energy w.evo.eng.lb w.evo.eng.mpo w.evo.eng.rb w.evo.eng.mps.ds w'.evo.eng.mps.amp
        = energy w.evo.eng.lb w.evo.eng.mpo w.evo.eng.rb w.evo.eng.mps.ds w.evo.eng.mps.amp ∧
      nsq w.evo.eng.mps.ds w.evo.eng.lb.u w.evo.eng.rb.u w'.evo.eng.mps.amp = 1 ∧
      w'.evo.eng.mps.tensors.map Ten.shape = w.evo.eng.mps.tensors.map Ten.shape := by
  obtain ⟨w', css, h1, h2, -⟩ := C39_progress hO ivpT_shape ivpM_shape (ivpT_live hI) (ivpM_live hI) (by simp) dt n hcp keep v
    hs hf hc hZ.ne hadm hsq (fun _ _ _ _ _ => trivial)
  obtain ⟨k1, k2⟩ := C80_energy hO ivpT_shape ivpM_shape (ivpT_conserves hI) (ivpM_conserves hI) hdt hs hZ hc hf hH h1 fun _ _ => trivial
  exact ⟨w', css, h1, k1, k2, h2⟩

/-! ## Witness: three qubits in an entangled state, Hamiltonian `X⊗X⊗X` -/

/-- MPO tensor of the Pauli matrix `X`. -/
def flipW : Mpo ℂ := ⟨1, 1, 2, 2, fun _ _ s s' => if s = s' then 0 else 1⟩

theorem flip_herm_of {ws : List (Mpo ℂ)} (hws : ∀ w ∈ ws, w = flipW) (ds : List ℕ) : HermH oneEnv ws oneEnv ds := by
  have hr : ∀ (ws : List (Mpo ℂ)), (∀ w ∈ ws, w = flipW) → ∀ s s' b b', mchain ws s s' b b' = star (mchain ws s' s b b') := by
    intro ws
    induction ws with
    | nil =>
      intro _ s s' b b'
      cases s <;> cases s' <;> simp [mchain, delta]
    | cons w ws ih =>
      intro hw s s' b b'
      rw [hw w (by simp)]
      cases s with
      | nil => cases s' <;> simp [mchain]
      | cons a s =>
        cases s' with
        | nil => simp [mchain]
        | cons a' s' =>
          simp only [mchain, star_sum, star_mul']
          refine sum_congr rfl fun c _ => ?_
          rw [ih (fun w hw' => hw w (by simp [hw'])) s s']
          simp only [flipW, eq_comm (a := a')]
          split_ifs <;> simp
  refine ⟨rfl, rfl, fun s s' _ _ i _ i' _ j _ j' _ => ?_⟩
  unfold helem
  simp only [star_sum, star_mul']
  refine sum_congr rfl fun b _ => sum_congr rfl fun b' _ => ?_
  rw [hr _ hws s s']
  simp [oneEnv]

theorem flip_herm : HermH oneEnv [flipW, flipW, flipW] oneEnv [2, 2, 2] := flip_herm_of (by simp) _

/-- A run with the Lanczos integrator: 100 steps on three qubits. -/
example : ∃ (O : LinAlg) (eigh : Eigh) (expm : Mat ℂ → Mat ℂ) (w w' : World) (css : List (List TCall)), O.Spec ∧
    w.evo.eng.mpo = [flipW, flipW, flipW] ∧ w.evo.eng.mps.tensors.map Ten.shape = [(1, 2, 2), (2, 2, 2), (2, 1, 2)] ∧
    doTDVP O (lanT eigh expm 10 (1 / 10 ^ 8)) (lanM eigh expm 10 (1 / 10 ^ 8)) .LAN (-Complex.I / 10) (100 : ℕ) none false 1 w = .ok (w', css) ∧
    energy oneEnv [flipW, flipW, flipW] oneEnv [2, 2, 2] w'.evo.eng.mps.amp = energy oneEnv [flipW, flipW, flipW] oneEnv [2, 2, 2] w.evo.eng.mps.amp := by
  obtain ⟨O, hO⟩ := exists_linAlg
  obtain ⟨eigh, hE⟩ := exists_eigh
  obtain ⟨expm, hX⟩ := exists_expm
  obtain ⟨e, m, -, -, h1, h2, h3, h4, hN, -, hds, -, -, -, -, hm, hl, hr, hsh, hadm, hsq⟩ := tdvp_start_witness hO (W := flipW) ⟨rfl, rfl, rfl, rfl⟩
  have hshape : e.eng.mps.tensors.map Ten.shape = [(1, 2, 2), (2, 2, 2), (2, 1, 2)] := by rw [hsh]; rfl
  obtain ⟨w', css, a1, a2, -, -⟩ := C80_lan hO hE hX (delta := 1 / 10 ^ 8) (by norm_num) (by norm_num) (dt := -Complex.I / 10) (by simp)
    100 (cp := none) (by simp) false 1 (w := ⟨e, fun _ => none⟩) h1 h2 h3 h4 (by simp only [hm, hl, hr, hds]; exact flip_herm) hadm hsq
    (ncv := 10) (by
      intro t ht
      have : t.shape ∈ e.eng.mps.tensors.map Ten.shape := List.mem_map_of_mem ht
      rw [hshape] at this
      simp only [Ten.shape, List.mem_cons, Prod.mk.injEq, List.not_mem_nil, or_false] at this
      rcases this with ⟨c1, c2, c3⟩ | ⟨c1, c2, c3⟩ | ⟨c1, c2, c3⟩ <;> rw [c1, c2, c3] <;> norm_num)
  simp only [hm, hl, hr, hds] at a2
  exact ⟨O, eigh, expm, ⟨e, fun _ => none⟩, w', css, hO, hm, hshape, a1, a2⟩

/-- A run with a `solve_ivp` method. -/
example : ∃ (O : LinAlg) (ivp : Ivp) (w w' : World) (css : List (List TCall)), O.Spec ∧
    w.evo.eng.mpo = [flipW, flipW, flipW] ∧ doTDVP O (ivpT ivp) (ivpM ivp) .ivp (-Complex.I / 10) (100 : ℕ) none false 1 w = .ok (w', css) ∧
    energy oneEnv [flipW, flipW, flipW] oneEnv [2, 2, 2] w'.evo.eng.mps.amp = energy oneEnv [flipW, flipW, flipW] oneEnv [2, 2, 2] w.evo.eng.mps.amp := by
  obtain ⟨O, hO⟩ := exists_linAlg
  obtain ⟨ivp, hI⟩ := exists_ivp
  obtain ⟨e, m, -, -, h1, h2, h3, h4, hN, -, hds, -, -, -, -, hm, hl, hr, hsh, hadm, hsq⟩ := tdvp_start_witness hO (W := flipW) ⟨rfl, rfl, rfl, rfl⟩
  obtain ⟨w', css, a1, a2, -, -⟩ := C80_ivp hO hI (dt := -Complex.I / 10) (by simp)
    100 (cp := none) (by simp) false 1 (w := ⟨e, fun _ => none⟩) h1 h2 h3 h4 (by simp only [hm, hl, hr, hds]; exact flip_herm) hadm hsq
  simp only [hm, hl, hr, hds] at a2
  exact ⟨O, ivp, ⟨e, fun _ => none⟩, w', css, hO, hm, a1, a2⟩

/-! ## The sign of the step of the `solve_ivp` methods -/

theorem expApply_eigen {V : Type} [NormedAddCommGroup V] [InnerProductSpace ℂ V] [FiniteDimensional ℂ V] {H : V →ₗ[ℂ] V} {x : V} {a : ℂ}
    (h : H x = a • x) (z : ℂ) : expApply H z x = Complex.exp (z * a) • x := by
  refine (expApply_hasSum H z x).unique ?_
  have hp : ∀ m : ℕ, (H ^ m) x = a ^ m • x := by
    intro m
    induction m with
    | zero => simp
    | succ m ih => rw [pow_succ', Module.End.mul_apply, ih, map_smul, h, smul_smul, pow_succ]
  have h2 := (NormedSpace.exp_series_hasSum_exp' (𝕂 := ℂ) (z * a)).smul_const x
  rw [← Complex.exp_eq_exp_ℂ] at h2
  refine h2.congr_fun ?_
  intro m
  rw [hp, smul_smul, smul_eq_mul, mul_pow]
  congr 1
  ring

/-- For an imaginary step `dt` the `solve_ivp` methods apply `exp(-dt·H_eff)`: `doTDVP` hands them `np.imag(dt)`. -/
theorem C79_ivp_backwards (hI : IvpSpec ivp) {L : Env ℂ} {W : Mpo ℂ} {R : Env ℂ} {T : Ten ℂ} (hf : SiteFits L W R T.l T.r T.d) {dt : ℂ}
    (hdt : dt.re = 0) : ∃ X, ivpT ivp .ivp L W R T (TSolver.ivp.time dt) = .ok X ∧
      X.vec T.l T.r T.d = expApply (siteOp L W R T.l T.r T.d) (-dt) (T.vec T.l T.r T.d) := by
  obtain ⟨X, h1, -, -, -, h2⟩ := C79_ivp_site hI hf dt.im
  refine ⟨X, ?_, ?_⟩
  · simp only [ivpT, TSolver.time, if_true, Complex.ofReal_re]; exact h1
  · rw [h2]
    congr 1
    apply Complex.ext <;> simp [hdt]

/-- A qubit with the energies 0 and 1. -/
def numW : Mpo ℂ := ⟨1, 1, 2, 2, fun _ _ s s' => if s = 1 ∧ s' = 1 then 1 else 0⟩

/-- The state `|0>+|1>`. -/
def qubitT : Ten ℂ := ⟨1, 1, 2, fun _ _ _ => 1⟩

theorem num_herm : SiteHerm oneEnv numW oneEnv 1 1 2 := by
  refine ⟨rfl, rfl, rfl, rfl, rfl, rfl, rfl, rfl, fun i _ i' _ j _ j' _ s _ s' _ => ?_⟩
  simp only [siteEl, oneEnv, numW, sum_range_one, one_mul, mul_one]
  simp only [and_comm (a := s = 1)]
  split_ifs <;> simp

theorem num_one : siteOp oneEnv numW oneEnv 1 1 2 (EuclideanSpace.single (0, 0, 1) 1) = (1 : ℂ) • EuclideanSpace.single (0, 0, 1) 1 := by
  ext p
  obtain ⟨a, b, c⟩ := p
  fin_cases a; fin_cases b; fin_cases c
  · simp [siteOp_apply, siteEl, oneEnv, numW]
  · simp [siteOp_apply, siteEl, oneEnv, numW, Fin.sum_univ_two]
    rfl

theorem num_exp (z : ℂ) : expApply (siteOp oneEnv numW oneEnv 1 1 2) z (qubitT.vec 1 1 2)
    = EuclideanSpace.single (0, 0, 0) 1 + Complex.exp z • EuclideanSpace.single (0, 0, 1) 1 := by
  have h0 : siteOp oneEnv numW oneEnv 1 1 2 (EuclideanSpace.single (0, 0, 0) 1) = (0 : ℂ) • EuclideanSpace.single (0, 0, 0) 1 := by
    ext p
    obtain ⟨a, b, c⟩ := p
    fin_cases a; fin_cases b; fin_cases c <;>
      simp [siteOp_apply, siteEl, oneEnv, numW, Fin.sum_univ_two]
  have h1 := num_one
  have hp : qubitT.vec 1 1 2 = EuclideanSpace.single (0, 0, 0) 1 + EuclideanSpace.single (0, 0, 1) 1 := by
    ext p
    obtain ⟨a, b, c⟩ := p
    fin_cases a; fin_cases b; fin_cases c <;> simp [Ten.vec, qubitT]
  have hadd : ∀ x y, expApply (siteOp oneEnv numW oneEnv 1 1 2) z (x + y)
      = expApply (siteOp oneEnv numW oneEnv 1 1 2) z x + expApply (siteOp oneEnv numW oneEnv 1 1 2) z y := fun x y => map_add _ x y
  rw [hp, hadd, expApply_eigen h0, expApply_eigen h1, mul_zero, mul_one, Complex.exp_zero, one_smul]

/-- **C79 is violated by the `solve_ivp` methods.**  For a qubit with energies 0 and 1 and `dt=iπ/2` the state `|0>+|1>` is
evolved to a state that is not parallel to `exp(dt·H)(|0>+|1>)`, which the other integrators compute. -/
theorem C79_violated_ivp : ∃ (L : Env ℂ) (W : Mpo ℂ) (R : Env ℂ) (T : Ten ℂ) (dt : ℂ), SiteHerm L W R T.l T.r T.d ∧ 0 < T.nsq ∧ dt.re = 0 ∧
    ∀ ivp, IvpSpec ivp → ∃ X, ivpT ivp .ivp L W R T (TSolver.ivp.time dt) = .ok X ∧
      ∀ c : ℂ, X.vec T.l T.r T.d ≠ c • expApply (siteOp L W R T.l T.r T.d) dt (T.vec T.l T.r T.d) := by
  refine ⟨oneEnv, numW, oneEnv, qubitT, (Real.pi / 2 : ℝ) * Complex.I, num_herm, by norm_num [Ten.nsq, qubitT], by simp, fun ivp hI => ?_⟩
  obtain ⟨X, h1, h2⟩ := C79_ivp_backwards hI (T := qubitT) num_herm.fits (dt := (Real.pi / 2 : ℝ) * Complex.I) (by simp)
  refine ⟨X, h1, fun c hc => ?_⟩
  rw [h2] at hc
  change expApply (siteOp oneEnv numW oneEnv 1 1 2) _ (qubitT.vec 1 1 2) = c • expApply (siteOp oneEnv numW oneEnv 1 1 2) _ (qubitT.vec 1 1 2) at hc
  rw [num_exp, num_exp] at hc
  have c0 := congrArg (fun v : TVec 1 1 2 => v (0, 0, 0)) hc
  have c1 := congrArg (fun v : TVec 1 1 2 => v (0, 0, 1)) hc
  have e1 : Complex.exp ((Real.pi / 2 : ℝ) * Complex.I) = Complex.I := by
    push_cast
    rw [Complex.exp_mul_I, Complex.cos_pi_div_two, Complex.sin_pi_div_two]; simp
  rw [Complex.exp_neg, e1] at c1
  simp at c0 c1
  rw [← c0, one_mul] at c1
  have := congrArg Complex.im c1
  norm_num at this

/-- The hypotheses of the theorems on the Lanczos integrator are met by the same qubit. -/
example : ∃ (eigh : Eigh) (expm : Mat ℂ → Mat ℂ) (X : Ten ℂ),
    evolveTensorLan eigh expm 10 (1 / 10 ^ 8) oneEnv numW oneEnv qubitT (Complex.I * (1 / 2 : ℝ)) = .ok X ∧ X.nsq = 1 := by
  obtain ⟨eigh, hE⟩ := exists_eigh
  obtain ⟨expm, hX⟩ := exists_expm
  obtain ⟨X, h1, -, -, -, h2, -⟩ := C79_lan_site hE hX (ncv := 10) (delta := 1 / 10 ^ 8) (by norm_num) (by norm_num) (T := qubitT) num_herm
    (by norm_num [Ten.nsq, qubitT]) (by norm_num [qubitT]) (dt := Complex.I * (1 / 2 : ℝ)) (by simp)
  exact ⟨eigh, expm, X, h1, h2⟩

/-- The hypotheses of the theorems on `gexpmv` are met by its excited state. -/
example : ∃ (expm : Mat ℂ → Mat ℂ) (X T : Ten ℂ), (∀ fuel ≥ 3, evolveTensorSexpmv expm (1 / 2 ^ 52) fuel oneEnv numW oneEnv T (2 + Complex.I) = some (.ok X)) ∧
    T.vec 1 1 2 = EuclideanSpace.single (0, 0, 1) 1 ∧ X.vec 1 1 2 = Complex.exp (2 + Complex.I) • EuclideanSpace.single (0, 0, 1) 1 := by
  obtain ⟨expm, hX⟩ := exists_expm
  let T : Ten ℂ := ⟨1, 1, 2, fun _ _ s => if s = 1 then 1 else 0⟩
  have hT : T.vec 1 1 2 = EuclideanSpace.single (0, 0, 1) 1 := by
    ext p
    obtain ⟨a, b, c⟩ := p
    fin_cases a; fin_cases b; fin_cases c <;> simp [Ten.vec, T]
  have hne : (EuclideanSpace.single (0, 0, 1) 1 : TVec 1 1 2) ≠ 0 := by
    intro h; simpa using congrArg (fun v : TVec 1 1 2 => v (0, 0, 1)) h
  have hfin : Module.finrank ℂ (Submodule.span ℂ {(EuclideanSpace.single (0, 0, 1) 1 : TVec 1 1 2)}) = 1 := finrank_span_singleton hne
  obtain ⟨X, h1, -, -, -, h2⟩ := C79_sexpmv_site hX (eps := 1 / 2 ^ 52) (by norm_num) (T := T) num_herm.fits
    (by norm_num [Ten.nsq, T, sum_range_succ]) (by norm_num [T]) (tau := 2 + Complex.I) (by intro h; simpa using congrArg Complex.im h)
    (S := Submodule.span ℂ {(EuclideanSpace.single (0, 0, 1) 1 : TVec 1 1 2)}) (by
      change T.vec 1 1 2 ∈ _
      rw [hT]; exact Submodule.mem_span_singleton_self _) (by
      intro x hx
      obtain ⟨c, rfl⟩ := Submodule.mem_span_singleton.mp hx
      change siteOp oneEnv numW oneEnv 1 1 2 _ ∈ _
      rw [map_smul, num_one, one_smul]
      exact Submodule.smul_mem _ _ (Submodule.mem_span_singleton_self _)) (by
      change Module.finrank ℂ (Submodule.span ℂ {(EuclideanSpace.single (0, 0, 1) 1 : TVec 1 1 2)}) ≤ 20
      rw [hfin]; norm_num) (by
      change Module.finrank ℂ (Submodule.span ℂ {(EuclideanSpace.single (0, 0, 1) 1 : TVec 1 1 2)}) < 1 * 1 * 2
      rw [hfin]; norm_num)
  refine ⟨expm, X, T, h1, hT, h2.trans ?_⟩
  change expApply (siteOp oneEnv numW oneEnv 1 1 2) _ (T.vec 1 1 2) = _
  rw [hT, expApply_eigen num_one, mul_one]

/-! ## Bonds that are too large -/

/-- The bond integrators work for square matrices only. -/
def EvolveMat.Square (evM : EvolveMat) : Prop := ∀ sv L R C t X, evM sv L R C t = .ok X → C.r = C.c

theorem ivpM_square : (ivpM ivp).Square := by
  intro sv L R C t X h
  exact (bondFits_of_ok h).2.2.2.2.2

theorem lanM_square : (lanM eigh expm ncv delta).Square := by
  intro sv L R C t X h
  by_contra hc
  rw [lanM, evolveMatrixLan, if_neg fun hf : BondFits L R C.r C.c => hc hf.2.2.2.2.2] at h
  simp at h

variable {evT : EvolveTen} {evM : EvolveMat} {sv : TSolver}

theorem tdvpR_rect (hO : O.Spec) (hT : evT.Shape) (hM : evM.Square) {e e' : Eng} {dt : ℂ} {cs : List TCall} {t0 t1 : Ten ℂ}
    (hs : e.TStart) (h0 : e.mps.tensors[0]? = some t0) (h1 : e.mps.tensors[1]? = some t1) (hp0 : e.mps.pos = 0)
    (h : e.tdvpR O evT evM sv dt 0 = .ok (e', cs)) : t1.l ≤ t0.d * e.lb.u := by
  unfold Eng.tdvpR at h
  simp only at h
  split at h
  · cases h
  rename_i m0 hm0
  obtain ⟨-, -, M⟩ := position_moved hO (effSth_default hs.sth) hs.wf hm0
  rw [show (((0 : ℕ) : ℤ) + 1).toNat = 1 by omega] at M
  split at h
  · cases h
  rename_i e1 X c hev
  have hv0 : ({ e with mps := m0 } : Eng).Val 0 1 :=
    val_moved hs.val M le_rfl le_rfl (Or.inl ⟨by omega, by omega⟩) (Or.inl ⟨le_rfl, by omega⟩)
  obtain ⟨q1, ⟨L0, W0, R0, T0, rfl, x1, x2, x3⟩, ⟨C1, rfl⟩, q2, q3, q4, q5⟩ :=
    evolveTen_spec (evM := evM) (a := 0) (b := 1) hT M.wf hv0 le_rfl le_rfl (by simp only [M.N]; have := hs.two; omega) hev
  simp only at q4 q5 h
  split at h
  · cases h
  rename_i A C z hp
  have X1 := prepareTensorR_spec hO hp
  have hm1 : m0.tensors[1]? = some t1 := by rw [M.same 1 (Or.inr ⟨by omega, le_rfl⟩), h1]
  have hlen : 2 ≤ m0.tensors.length := by rw [M.wf.len, M.N]; exact hs.two
  have hXl : X.l = e.lb.u ∧ t1.l = X.r := by
    rcases hts : m0.tensors with - | ⟨a, - | ⟨b, ts⟩⟩
    · rw [hts] at hlen; simp at hlen
    · rw [hts] at hlen; simp at hlen
    · rw [hts] at hm1 q4
      simp only [List.getElem?_cons_succ, List.getElem?_cons_zero, Option.some.injEq] at hm1
      subst hm1
      exact ⟨q4.1, q4.2.1⟩
  have hXd : X.d = t0.d := by
    have e1 := congrArg (fun l => l[0]?) q5
    have e2 := congrArg (fun l => l[0]?) M.ds
    simp only [MPS.ds, List.getElem?_map, h0, List.getElem?_set_self (show 0 < m0.tensors.length by omega), Option.map_some] at e1 e2
    rw [e2] at e1
    exact Option.some.inj e1
  split at h
  · cases h
  split at h
  · cases h
  split at h
  · cases h
  split at h
  · cases h
  split at h
  · cases h
  rw [if_pos (by have := hs.two; omega)] at h
  split at h
  · cases h
  rename_i e3 c' hev'
  have hsq : C.r = C.c := by
    unfold Eng.evolveMat at hev'
    split at hev'
    · cases hev'
    split at hev'
    · cases hev'
    split at hev'
    · cases hev'
    rename_i Y hY
    exact hM _ _ _ _ _ _ hY
  rw [hXl.2, ← X1.c, ← hsq, ← hXd, ← hXl.1]
  exact X1.le'

/-- **C39 is violated for bonds that are too large.**  If the first bond is larger than the local dimension allows (as after
a truncation of a neighbouring bond) `doTDVP` with these integrators raises instead of evolving the state, no matter what
the state is: the bond matrix is not square, but `HAproductBond` takes it for a square one. -/
theorem C39_violated_bonds (hO : O.Spec) (hT : evT.Shape) (hM : evM.Square) {dt : ℂ} {n : ℤ} (hn : 0 < n) {cp : Option ℤ} {keep : Bool}
    {v : ℤ} {w : World} {t0 t1 : Ten ℂ} (hs : w.evo.eng.TStart) (h0 : w.evo.eng.mps.tensors[0]? = some t0)
    (h1 : w.evo.eng.mps.tensors[1]? = some t1) (hp : w.evo.eng.mps.pos = 0) (hbig : t0.d * w.evo.eng.lb.u < t1.l) :
    ∃ x, doTDVP O evT evM sv dt n cp keep v w = .error x := by
  cases h : doTDVP O evT evM sv dt n cp keep v w with
  | error x => exact ⟨x, rfl⟩
  | ok r =>
    exfalso
    have hpos : w.evo.eng.mps.position O 0 = .ok w.evo.eng.mps := by
      unfold MPS.position
      rw [if_neg (by simp), if_neg (by simp)]
      simp only [Int.toNat_zero, hp, if_true]
    unfold doTDVP at h
    split_ifs at h
    rw [hpos] at h
    obtain ⟨k, hk⟩ : ∃ k, n.toNat = k + 1 := ⟨n.toNat - 1, by omega⟩
    obtain ⟨N, hN⟩ : ∃ N, w.evo.eng.mps.N = N + 1 := ⟨w.evo.eng.mps.N - 1, by have := hs.two; omega⟩
    simp only [hk, tdvpLoop] at h
    split at h
    · cases h
    rename_i r' hr
    split at hr
    · cases hr
    rename_i s1 w1 c1 hst
    unfold tdvpStep at hst
    split at hst
    · cases hst
    rename_i e1 c2 hR
    simp only [hN, Eng.tdvpRight] at hR
    split at hR
    · cases hR
    rename_i e2 c3 hR0
    have := tdvpR_rect hO hT hM hs h0 h1 hp hR0
    omega

/-- A canonical state of three qubits with a bond of dimension three after the first of them. -/
def wideMps : MPS :=
  { N := 3, Dmax := 3, obc := true, sth := 1e-16, rth := 1e-14
    tensors := [⟨1, 3, 2, fun _ j s => if j = 0 ∧ s = 0 then ((3 / 5 : ℝ) : ℂ) else if j = 2 ∧ s = 1 then ((4 / 5 : ℝ) : ℂ) else 0⟩,
      ⟨3, 2, 2, fun i j s => if i = 2 * j + s then 1 else 0⟩, ⟨2, 1, 2, fun i _ s => if i = s then 1 else 0⟩]
    mat := ⟨1, 1, fun _ _ => 1⟩, conn := ⟨1, 1, fun _ _ => 1⟩, pos := 0, Z := 1 }

theorem wideMps_wf : wideMps.WF 1 1 := by
  refine ⟨rfl, by simp [wideMps], ?_, ?_⟩ <;> simp [wideMps, Linked]

theorem wideMps_canonical : wideMps.Canonical := by
  refine ⟨fun x t _ hx => by simp [wideMps] at hx, fun x t hx _ => ?_, by simp [wideMps, normF]⟩
  have ht : t ∈ wideMps.tensors := List.mem_of_getElem? hx
  simp only [wideMps, List.mem_cons, List.not_mem_nil, or_false] at ht
  rcases ht with rfl | rfl | rfl
  · intro i hi i' hi'
    have hi : i = 0 := Nat.lt_one_iff.mp hi
    have hi' : i' = 0 := Nat.lt_one_iff.mp hi'
    subst hi hi'
    simp only [sum_range_succ, range_zero, sum_empty, PyTeN.delta]
    norm_num [Complex.conj_ofNat]
  · intro i hi i' hi'
    simp only at hi hi'
    interval_cases i <;> interval_cases i' <;> simp [sum_range_succ, PyTeN.delta]
  · intro i hi i' hi'
    simp only at hi hi'
    interval_cases i <;> interval_cases i' <;> simp [PyTeN.delta]

/-- All other hypotheses of `C39_progress` are met, and the run fails. -/
example : ∃ (O : LinAlg) (ivp : Ivp) (w : World), O.Spec ∧ IvpSpec ivp ∧ w.evo.eng.TStart ∧ w.evo.eng.Fit ∧ w.evo.eng.mps.Canonical ∧
    PosC w.evo.eng.mps.Z ∧ w.evo.eng.mps.mat.r = w.evo.eng.mps.mat.c ∧ HermH w.evo.eng.lb w.evo.eng.mpo w.evo.eng.rb w.evo.eng.mps.ds ∧
    ∃ x, doTDVP O (ivpT ivp) (ivpM ivp) .ivp (-Complex.I / 10) 1 none false 1 w = .error x := by
  obtain ⟨O, hO⟩ := exists_linAlg
  obtain ⟨ivp, hI⟩ := exists_ivp
  have hf : (tevoOf flipW wideMps "run").eng.Fit := by
    refine ⟨rfl, rfl, by simp [tevoOf, MLinked, flipW, oneEnv], ?_, ?_⟩ <;> simp [tevoOf, flipW, wideMps, MPS.ds]
  have hpos : wideMps.position O 0 = .ok wideMps := by
    unfold MPS.position
    rw [if_neg (by simp), if_neg (by simp)]
    simp [wideMps]
  have hl : Linked 1 wideMps.tensors 1 := by simp [wideMps, Linked]
  have hfit : Fits wideMps.tensors [flipW, flipW, flipW] wideMps.tensors :=
    fits_of_maps (by simp [wideMps, flipW]) (by simp [wideMps, flipW])
  obtain ⟨Ls, hLs⟩ := C30_getL_succeeds (lb := (oneEnv : Env ℂ)) (by simp [wideMps]) hl hl (show MLinked 1 [flipW, flipW, flipW] 1 from hf.mlink) hfit
  obtain ⟨Rs, hRs⟩ := C30_getR_succeeds (rb := (oneEnv : Env ℂ)) (by simp [wideMps]) hl hl (show MLinked 1 [flipW, flipW, flipW] 1 from hf.mlink) hfit
  have he : (tevoOf flipW wideMps "run").initializeTDVP O
      = .ok { tevoOf flipW wideMps "run" with eng := { (tevoOf flipW wideMps "run").eng with mps := wideMps, L := oneEnv :: Ls, R := oneEnv :: Rs } } := by
    unfold Evo.initializeTDVP
    simp only [tevoOf, hpos, hLs, hRs]
  have hs := (C70_initializeTDVP hO he wideMps_wf (by norm_num [tevoOf, wideMps]) (by simp [tevoOf, wideMps]) rfl).1
  refine ⟨O, ivp, ⟨_, fun _ => none⟩, hO, hI, hs, ⟨rfl, rfl, hf.mlink, hf.ins, hf.outs⟩, wideMps_canonical, ⟨1, one_pos, by simp [wideMps]⟩, rfl, flip_herm,
    C39_violated_bonds hO ivpT_shape ivpM_square one_pos hs (t0 := _) (t1 := _) rfl rfl rfl ?_⟩
  simp [tevoOf, oneEnv]

end

end PyTeN
