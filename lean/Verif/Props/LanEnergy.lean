import Verif.Props.TdvpEnergy
import Mathlib.Analysis.InnerProductSpace.PiL2

/-! # C77, C80: the energy is not conserved when the Krylov space is cut -/

namespace PyTeN
open Finset Lanczos

noncomputable section

section
variable {V : Type} [NormedAddCommGroup V] [InnerProductSpace ℂ V]

/-- On an invariant Krylov space all vectors together give the exponential. -/
theorem krylov_exp {H : V →ₗ[ℂ] V} {expm : Mat ℂ → Mat ℂ} (hX : ExpmSpec expm) {q : List V} {k : List ℝ} {e : List ℂ}
    (tri : Tridiag H q k e 0) (h1 : 0 < q.length) (dt : ℂ) :
    HasSum (fun m : ℕ => (dt ^ m * (m.factorial : ℂ)⁻¹) • (H ^ m) (q.getD 0 0))
      (∑ i ∈ range q.length, (expm (scaled dt (heff k e))).v i 0 • q.getD i 0) := by
  have hr : (heff k e).r = q.length := tri.le
  rw [← hr, Finset.sum_range]
  have h2 : (fun m : ℕ => (dt ^ m * (m.factorial : ℂ)⁻¹) • (H ^ m) (q.getD 0 0)) = fun m : ℕ =>
      ∑ i : Fin (heff k e).r, (((m.factorial : ℂ)⁻¹) * ((scaled dt (heff k e)).sq ^ m) i ⟨0, by rw [hr]; exact h1⟩) • q.getD i 0 := by
    funext m
    rw [pow_krylov tri h1 m, smul_sum]
    refine sum_congr rfl fun i _ => ?_
    rw [smul_smul, scaled_sq, smul_pow, Matrix.smul_apply, smul_eq_mul]
    congr 1
    ring
  rw [h2]
  refine hasSum_sum fun i _ => ?_
  exact (hX (scaled dt (heff k e)) rfl i ⟨0, by rw [show (scaled dt (heff k e)).r = _ from hr]; exact h1⟩).smul_const _

variable [FiniteDimensional ℂ V]

theorem expApply_add (H : V →ₗ[ℂ] V) (z : ℂ) (x y : V) : expApply H z (x + y) = expApply H z x + expApply H z y := by
  simp [expApply]

theorem expApply_smul (H : V →ₗ[ℂ] V) (z a : ℂ) (x : V) : expApply H z (a • x) = a • expApply H z x := by
  simp [expApply]

omit [FiniteDimensional ℂ V] in
theorem span3 (hdim : Module.finrank ℂ V = 3) {f : Fin 3 → V} (on : Orthonormal ℂ f) (v : V) :
    v = inner ℂ (f 0) v • f 0 + inner ℂ (f 1) v • f 1 + inner ℂ (f 2) v • f 2 := by
  have hb : (basisOfOrthonormalOfCardEqFinrank on (by simp [hdim]) : Fin 3 → V) = f := coe_basisOfOrthonormalOfCardEqFinrank on _
  let b := (basisOfOrthonormalOfCardEqFinrank on (by simp [hdim])).toOrthonormalBasis (by rw [hb]; exact on)
  have hb2 : ∀ i, b i = f i := fun i => by simp [b, hb]
  have := b.sum_repr' v
  rw [Fin.sum_univ_three, hb2, hb2, hb2] at this
  exact this.symm

/-- The exponential for the Hamiltonian of the example. -/
theorem three_exp {H : V →ₗ[ℂ] V} {f : Fin 3 → V} (h0 : H (f 0) = f 1) (h1 : H (f 1) = f 0 + f 1 + f 2) (h2 : H (f 2) = f 1) :
    expApply H (-Complex.I * Real.pi) (f 0) = (1 / 3 : ℂ) • f 0 + (2 / 3 : ℂ) • f 1 + (-2 / 3 : ℂ) • f 2 := by
  have e1 : H (f 0 + (-1 : ℂ) • f 1 + f 2) = (-1 : ℂ) • (f 0 + (-1 : ℂ) • f 1 + f 2) := by
    rw [map_add, map_add, map_smul, h0, h1, h2]; module
  have e2 : H (f 0 + (2 : ℂ) • f 1 + f 2) = (2 : ℂ) • (f 0 + (2 : ℂ) • f 1 + f 2) := by
    rw [map_add, map_add, map_smul, h0, h1, h2]; module
  have e3 : H (f 0 + (-1 : ℂ) • f 2) = (0 : ℂ) • (f 0 + (-1 : ℂ) • f 2) := by
    rw [map_add, map_smul, h0, h2]; module
  have d : f 0 = (1 / 3 : ℂ) • (f 0 + (-1 : ℂ) • f 1 + f 2) + (1 / 6 : ℂ) • (f 0 + (2 : ℂ) • f 1 + f 2) + (1 / 2 : ℂ) • (f 0 + (-1 : ℂ) • f 2) := by
    module
  have x1 : Complex.exp (-Complex.I * Real.pi * (-1)) = -1 := by
    rw [show -Complex.I * (Real.pi : ℂ) * (-1) = (Real.pi : ℂ) * Complex.I by ring, Complex.exp_pi_mul_I]
  have x2 : Complex.exp (-Complex.I * Real.pi * 2) = 1 := by
    rw [show -Complex.I * (Real.pi : ℂ) * 2 = -(2 * (Real.pi : ℂ) * Complex.I) by ring, Complex.exp_neg, Complex.exp_two_pi_mul_I, inv_one]
  conv_lhs => rw [d]
  rw [expApply_add, expApply_add, expApply_smul, expApply_smul, expApply_smul, expApply_eigen e1, expApply_eigen e2, expApply_eigen e3, x1, x2,
    mul_zero, Complex.exp_zero]
  module

/-- **The last Krylov vector is missing.**  In three dimensions, with `ncv=2`: all three Krylov vectors are built, and the component of
the exact result along the third one is dropped. -/
theorem three_step {H : V →ₗ[ℂ] V} (hH : H.IsSymmetric) (hdim : Module.finrank ℂ V = 3) {eigh : Eigh} (hE : EighSpec eigh)
    {expm : Mat ℂ → Mat ℂ} (hX : ExpmSpec expm) {tol : ℝ} (hd : 0 < tol) (hd1 : tol ≤ 1) {f : Fin 3 → V} (on : Orthonormal ℂ f)
    (h0 : H (f 0) = f 1) (h1 : H (f 1) = f 0 + f 1 + f 2) (h2 : H (f 2) = f 1) {c : ℂ} (hc : c ≠ 0) :
    doStep H eigh expm id 2 tol (-Complex.I * Real.pi) (c • f 0)
      = .ok ((c / ‖c‖) • ((1 / 3 : ℂ) • f 0 + (2 / 3 : ℂ) • f 1)) := by
  have hin : ∀ i j, inner ℂ (f i) (f j) = if i = j then (1 : ℂ) else 0 := orthonormal_iff_ite.mp on
  have hf0 : ‖f 0‖ = 1 := on.1 0
  have hc' : (‖c‖ : ℂ) ≠ 0 := by exact_mod_cast norm_ne_zero_iff.mpr hc
  have hx : c • f 0 ≠ 0 := by
    rw [← norm_ne_zero_iff, norm_smul, hf0, mul_one]; exact norm_ne_zero_iff.mpr hc
  obtain ⟨o, ho, run, hs⟩ := doStep_eq hH hE (expm := expm) (cast := id) (ncv := 2) (by norm_num) hd (dt := -Complex.I * Real.pi) hx
  have tri := run.tri
  have hpos := run_pos (p := timeParams 2 tol) (by simpa [timeParams] using hd1) run
  have hle : o.st.vecs.length ≤ 3 := run.le
  have hq0 : o.st.vecs.getD 0 0 = (c / ‖c‖) • f 0 := by
    have hf := run.first (o.st.vecs.getD 0 0) (by
      cases hv : o.st.vecs with
      | nil => rw [hv] at hpos; simp at hpos
      | cons a l => simp)
    rw [id, norm_smul, hf0, mul_one] at hf
    have : o.st.vecs.getD 0 0 = (‖c‖ : ℂ)⁻¹ • ((‖c‖ : ℂ) • o.st.vecs.getD 0 0) := by rw [smul_smul, inv_mul_cancel₀ hc', one_smul]
    rw [this, hf, smul_smul]
    congr 1; field_simp
  set u : ℂ := c / ‖c‖ with hu
  have hu0 : u ≠ 0 := div_ne_zero hc hc'
  have hun : ‖u‖ = 1 := by rw [hu, norm_div, Complex.norm_real, norm_norm, div_self (norm_ne_zero_iff.mpr hc)]
  have stop : ∀ m, o.st.vecs.length = m → m < 3 → ‖o.last‖ < tol := by
    intro m hm hm3
    cases hcv : o.converged with
    | false => have : o.st.vecs.length = 2 + 1 := run.full hcv; omega
    | true =>
      rcases run.conv_iff.mp hcv with h4 | h4
      · exact h4.1
      · have : 2 < o.st.vecs.length := h4.2.1; omega
  have r0 := tri.recur 0 hpos
  rw [if_neg (lt_irrefl _), zero_add, zero_add, hq0, map_smul, h0] at r0
  have he0 : o.st.eps.getD 0 0 = 0 := by
    have := congrArg (fun v => inner ℂ (o.st.vecs.getD 0 0) v) r0
    simp only [inner_add_right, inner_smul_right] at this
    have hlast : inner ℂ (o.st.vecs.getD 0 0) (if 1 < o.st.vecs.length then (o.st.kn.getD 1 0 : ℂ) • o.st.vecs.getD 1 0 else o.last) = 0 := by
      split_ifs with h
      · rw [inner_smul_right, tri.orth 0 hpos 1 h]; simp [delta]
      · exact tri.perp 0 hpos
    rw [hlast, hq0, inner_smul_left, inner_smul_left, hin, hin] at this
    simpa [hu0] using this
  rw [he0, zero_smul, zero_add] at r0
  have hn1 : 1 < o.st.vecs.length := by
    by_contra hcon
    rw [if_neg hcon] at r0
    have := stop 1 (by omega) (by norm_num)
    rw [← r0, norm_smul, hun, on.1 1] at this
    linarith
  rw [if_pos hn1] at r0
  have hk1 : (o.st.kn.getD 1 0 : ℂ) ≠ 0 := by
    intro h
    rw [h, zero_smul] at r0
    have := congrArg norm r0
    rw [norm_smul, hun, on.1 1, norm_zero] at this
    norm_num at this
  obtain ⟨w, hw⟩ : ∃ w : ℂ, o.st.vecs.getD 1 0 = w • f 1 := by
    refine ⟨(o.st.kn.getD 1 0 : ℂ)⁻¹ * u, ?_⟩
    rw [mul_smul, r0, smul_smul, inv_mul_cancel₀ hk1, one_smul]
  have hwn : ‖w‖ = 1 := by
    have := tri.orth 1 hn1 1 hn1
    rw [hw, inner_smul_left, inner_smul_right, hin] at this
    simp only [if_true, mul_one, delta] at this
    rw [mul_comm, Complex.mul_conj, Complex.normSq_eq_norm_sq] at this
    have h3 : ‖w‖ ^ 2 = 1 := by exact_mod_cast this
    nlinarith [norm_nonneg w]
  have hw0 : w ≠ 0 := by rintro rfl; simp at hwn
  have hn2 : 2 < o.st.vecs.length := by
    by_contra hcon
    have hlast := stop 2 (by omega) (by norm_num)
    have r1 := tri.recur 1 hn1
    rw [if_pos one_pos, if_neg (by omega), show 1 - 1 = 0 from rfl, hw, hq0, map_smul, h1] at r1
    have := congrArg (fun v => inner ℂ (f 2) v) r1
    simp only [inner_add_right, inner_smul_right, hin] at this
    simp only [Fin.isValue, Fin.reduceEq, if_false, if_true, mul_zero, zero_add, add_zero, mul_one] at this
    have h3 := norm_inner_le_norm (𝕜 := ℂ) (f 2) o.last
    rw [← this, hwn, on.1 2, one_mul] at h3
    linarith
  obtain ⟨t, ht⟩ : ∃ t : ℂ, o.st.vecs.getD 2 0 = t • f 2 := by
    refine ⟨inner ℂ (f 2) (o.st.vecs.getD 2 0), (span3 hdim on (o.st.vecs.getD 2 0)).trans ?_⟩
    have p0 := tri.orth 0 hpos 2 hn2
    have p1 := tri.orth 1 hn1 2 hn2
    rw [hq0, inner_smul_left] at p0
    rw [hw, inner_smul_left] at p1
    simp only [delta, OfNat.zero_ne_ofNat, OfNat.one_ne_ofNat, if_false, mul_eq_zero, map_eq_zero, hu0, hw0, false_or] at p0 p1
    rw [p0, p1, zero_smul, zero_smul, zero_add, zero_add]
  have ht0 : t ≠ 0 := by
    rintro rfl
    have := tri.orth 2 hn2 2 hn2
    rw [ht, zero_smul, inner_zero_left] at this
    simp [delta] at this
  have hlast : o.last = 0 := by
    rw [span3 hdim on o.last]
    have p0 := tri.perp 0 hpos
    have p1 := tri.perp 1 hn1
    have p2 := tri.perp 2 hn2
    rw [hq0, inner_smul_left] at p0
    rw [hw, inner_smul_left] at p1
    rw [ht, inner_smul_left] at p2
    simp only [mul_eq_zero, map_eq_zero, hu0, hw0, ht0, false_or] at p0 p1 p2
    rw [p0, p1, p2]; simp
  rw [hlast] at tri
  have hlen : o.st.vecs.length = 3 := by omega
  have hZ := (krylov_exp hX tri hpos (-Complex.I * Real.pi)).unique (expApply_hasSum H _ _)
  rw [hq0, expApply_smul, three_exp h0 h1 h2, hlen] at hZ
  rw [hs, hlen]
  simp only [Nat.reduceLeDiff, inf_of_le_left] at hZ ⊢
  rw [sum_range_succ, sum_range_succ, sum_range_one] at hZ
  rw [sum_range_succ, sum_range_one]
  rw [hq0, hw, ht] at hZ
  rw [hq0, hw]
  generalize (expm (scaled (-Complex.I * ↑Real.pi) (heff o.st.kn o.st.eps))).v 0 0 = a at hZ ⊢
  generalize (expm (scaled (-Complex.I * ↑Real.pi) (heff o.st.kn o.st.eps))).v 1 0 = b at hZ ⊢
  have y0 := congrArg (fun v => inner ℂ (f 0) v) hZ
  have y1 := congrArg (fun v => inner ℂ (f 1) v) hZ
  simp only [inner_add_right, inner_smul_right, hin] at y0 y1
  simp only [Fin.isValue, Fin.reduceEq, if_false, if_true, mul_zero, zero_add, add_zero, mul_one] at y0 y1
  congr 1
  rw [smul_smul, smul_smul, y0, y1, smul_add, smul_smul, smul_smul]

end

/-! ## The witness at the level of one site -/

/-- On-site Hamiltonian with matrix elements between neighbouring levels and on the middle one. -/
def threeW : Mpo ℂ := ⟨1, 1, 3, 3, fun _ _ s s' => if s = 1 ∨ s' = 1 then 1 else 0⟩

/-- The local basis. -/
def lev (s : Fin 3) : TVec 1 1 3 := EuclideanSpace.single (0, 0, s) 1

theorem lev_on : Orthonormal ℂ lev := by
  rw [orthonormal_iff_ite]
  intro i j
  simp only [lev, EuclideanSpace.inner_single_left, map_one, one_mul, PiLp.single_apply, Prod.mk.injEq, true_and]

/-- Spec: the environments around one site are trivial. -/
structure Trivial1 (L R : Env ℂ) : Prop where
  Lu : L.u = 1
  Lw : L.w = 1
  Lm : L.m = 1
  Lv : L.v 0 0 0 = 1
  Ru : R.u = 1
  Rw : R.w = 1
  Rm : R.m = 1
  Rv : R.v 0 0 0 = 1

theorem three_el {L R : Env ℂ} (h : Trivial1 L R) (s s' : ℕ) : siteEl L threeW R 0 0 0 0 s s' = if s = 1 ∨ s' = 1 then 1 else 0 := by
  simp [siteEl, h.Lm, h.Rm, h.Lv, h.Rv, threeW]

theorem three_herm {L R : Env ℂ} (h : Trivial1 L R) : SiteHerm L threeW R 1 1 3 := by
  refine ⟨h.Lu, h.Lw, h.Ru, h.Rw, rfl, rfl, h.Lm.symm, h.Rm.symm, ?_⟩
  intro i hi i' hi' j hj j' hj' s hs s' hs'
  obtain rfl : i = 0 := by omega
  obtain rfl : i' = 0 := by omega
  obtain rfl : j = 0 := by omega
  obtain rfl : j' = 0 := by omega
  rw [three_el h, three_el h]
  by_cases h1 : s = 1 <;> by_cases h2 : s' = 1 <;> simp [h1, h2]

theorem three_lev {L R : Env ℂ} (h : Trivial1 L R) (a : Fin 3) (p : Fin 1 × Fin 1 × Fin 3) :
    siteOp L threeW R 1 1 3 (lev a) p = if (a : ℕ) = 1 ∨ (p.2.2 : ℕ) = 1 then 1 else 0 := by
  rw [siteOp_apply]
  simp only [Finset.univ_unique, sum_singleton]
  rw [Finset.sum_eq_single a]
  · have h1 : ((p.1 : Fin 1) : ℕ) = 0 := by omega
    have h2 : ((p.2.1 : Fin 1) : ℕ) = 0 := by omega
    have h3 : ((default : Fin 1) : ℕ) = 0 := rfl
    rw [h1, h2, h3, three_el h]
    simp [lev]
  · intro b _ hb
    simp [lev, hb]
  · simp

theorem three_acts {L R : Env ℂ} (h : Trivial1 L R) : siteOp L threeW R 1 1 3 (lev 0) = lev 1 ∧
    siteOp L threeW R 1 1 3 (lev 1) = lev 0 + lev 1 + lev 2 ∧ siteOp L threeW R 1 1 3 (lev 2) = lev 1 := by
  have e0 : siteOp L threeW R 1 1 3 (lev 0) = lev 1 := by
    ext p
    rw [three_lev h]
    obtain ⟨i, j, s⟩ := p
    have hi : i = 0 := by omega
    have hj : j = 0 := by omega
    subst hi hj
    fin_cases s <;> simp [lev]
  have e1 : siteOp L threeW R 1 1 3 (lev 1) = lev 0 + lev 1 + lev 2 := by
    ext p
    rw [three_lev h]
    obtain ⟨i, j, s⟩ := p
    have hi : i = 0 := by omega
    have hj : j = 0 := by omega
    subst hi hj
    fin_cases s <;> simp [lev]
  have e2 : siteOp L threeW R 1 1 3 (lev 2) = lev 1 := by
    ext p
    rw [three_lev h]
    obtain ⟨i, j, s⟩ := p
    have hi : i = 0 := by omega
    have hj : j = 0 := by omega
    subst hi hj
    fin_cases s <;> simp [lev]
  exact ⟨e0, e1, e2⟩

theorem three_site {eigh : Eigh} (hE : EighSpec eigh) {expm : Mat ℂ → Mat ℂ} (hX : ExpmSpec expm) {tol : ℝ} (hd : 0 < tol)
    (hd1 : tol ≤ 1) {L R : Env ℂ} (h : Trivial1 L R) {T : Ten ℂ} (hs : T.shape = (1, 1, 3)) (h0 : T.v 0 0 0 ≠ 0) (h1 : T.v 0 0 1 = 0)
    (h2 : T.v 0 0 2 = 0) :
    ∃ X u, evolveTensorLan eigh expm 2 tol L threeW R T (-Complex.I * Real.pi) = .ok X ∧ X.shape = (1, 1, 3) ∧ u ≠ 0 ∧
      X.v 0 0 0 = u ∧ X.v 0 0 1 = 2 * u ∧ X.v 0 0 2 = 0 := by
  obtain ⟨l, r, d, v⟩ := T
  simp only [Ten.shape, Prod.mk.injEq] at hs
  obtain ⟨rfl, rfl, rfl⟩ := hs
  dsimp only at h0 h1 h2
  have hx : (⟨1, 1, 3, v⟩ : Ten ℂ).vec 1 1 3 = (v 0 0 0) • lev 0 := by
    ext p
    obtain ⟨i, j, s⟩ := p
    have hi : i = 0 := by omega
    have hj : j = 0 := by omega
    subst hi hj
    fin_cases s <;> simp [Ten.vec, lev, h1, h2]
  obtain ⟨e0, e1, e2⟩ := three_acts h
  have hH := three_herm h
  have hf : SiteFits L threeW R 1 1 3 := ⟨hH.Lu, hH.Lw, hH.Ru, hH.Rw, hH.Wi, hH.Wo, hH.Wl, hH.Wr⟩
  have hstep := three_step (siteOp_symm hH) (by simp) hE hX hd hd1 lev_on e0 e1 e2 h0
  have hn : (‖v 0 0 0‖ : ℂ) ≠ 0 := by exact_mod_cast norm_ne_zero_iff.mpr h0
  refine ⟨TVec.ten ((v 0 0 0 / ‖v 0 0 0‖ : ℂ) • ((1 / 3 : ℂ) • lev 0 + (2 / 3 : ℂ) • lev 1)), (v 0 0 0 / ‖v 0 0 0‖) / 3, ?_, rfl, div_ne_zero (div_ne_zero h0 hn) (by norm_num), ?_, ?_, ?_⟩
  · unfold evolveTensorLan
    dsimp only
    rw [if_pos hf, haSite_eq hf, hx, hstep]
  · simp [TVec.ten, lev]; ring
  · simp [TVec.ten, lev]; ring
  · simp [TVec.ten, lev]

/-- **C77 is violated** also for the energy: when `ncv+1` vectors are built, the step changes the expectation value of the Hermitian
operator that generates it, here from `0` to `8/5` (after normalisation), for all correct eigensolvers, exponentials and tolerances. -/
theorem C77_violated_energy : ∃ (H : TVec 1 1 3 →ₗ[ℂ] TVec 1 1 3) (x y : TVec 1 1 3) (dt : ℂ), H.IsSymmetric ∧ ‖x‖ = 1 ∧ dt.re = 0 ∧
    (∀ (eigh : Eigh) (expm : Mat ℂ → Mat ℂ) (tol : ℝ), EighSpec eigh → ExpmSpec expm → 0 < tol → tol ≤ 1 →
      doStep H eigh expm id 2 tol dt x = .ok y) ∧
    inner ℂ x (H x) = 0 ∧ inner ℂ y (H y) = (8 / 5 : ℂ) * inner ℂ y y ∧ y ≠ 0 := by
  have h : Trivial1 oneEnv oneEnv := ⟨rfl, rfl, rfl, rfl, rfl, rfl, rfl, rfl⟩
  obtain ⟨e0, e1, e2⟩ := three_acts h
  have hin : ∀ i j, inner ℂ (lev i) (lev j) = if i = j then (1 : ℂ) else 0 := orthonormal_iff_ite.mp lev_on
  have h23 : (starRingEnd ℂ) 2 = 2 ∧ (starRingEnd ℂ) 3 = 3 := ⟨Complex.conj_ofNat 2, Complex.conj_ofNat 3⟩
  have hc : ((1 : ℂ) / (‖(1 : ℂ)‖ : ℂ)) = 1 := by simp
  have hy : inner ℂ ((1 / 3 : ℂ) • lev 0 + (2 / 3 : ℂ) • lev 1) ((1 / 3 : ℂ) • lev 0 + (2 / 3 : ℂ) • lev 1) = (5 / 9 : ℂ) := by
    simp only [inner_add_left, inner_add_right, inner_smul_left, inner_smul_right, hin]
    simp [h23.1, h23.2]; norm_num
  refine ⟨siteOp oneEnv threeW oneEnv 1 1 3, lev 0, (1 / 3 : ℂ) • lev 0 + (2 / 3 : ℂ) • lev 1, -Complex.I * Real.pi, siteOp_symm (three_herm h),
    lev_on.1 0, by simp, fun eigh expm tol hE hX hd hd1 => ?_, ?_, ?_, ?_⟩
  · have := three_step (siteOp_symm (three_herm h)) (by simp) hE hX hd hd1 lev_on e0 e1 e2 one_ne_zero
    rw [hc, one_smul, one_smul] at this
    exact this
  · rw [e0, hin]; simp
  · rw [hy, map_add, map_smul, map_smul, e0, e1]
    simp only [inner_add_left, inner_add_right, inner_smul_left, inner_smul_right, smul_add, hin]
    simp [h23.1, h23.2]; norm_num
  · intro h0
    rw [h0, inner_zero_left] at hy
    norm_num at hy

/-! ## A run depends on the recorded calls only -/

section
variable {O : LinAlg} {evT evT' : EvolveTen} {evM : EvolveMat} {sv : TSolver}

/-- Spec: two site integrators return the same tensor in a recorded call. -/
def TCall.Agree (evT evT' : EvolveTen) (sv : TSolver) : TCall → Prop
  | .ten _ _ L W R T dt => ∀ X, evT sv L W R T (sv.time dt) = .ok X → evT' sv L W R T (sv.time dt) = .ok X
  | .mat .. => True

theorem evolveTen_congr {clear : Bool} {e e' : Eng} {n : ℕ} {dt : ℂ} {X : Ten ℂ} {c : TCall}
    (h : Eng.evolveTen evT sv clear e n dt = .ok (e', X, c)) (hc : c.Agree evT evT' sv) :
    Eng.evolveTen evT' sv clear e n dt = .ok (e', X, c) := by
  unfold Eng.evolveTen at h ⊢
  repeat' (split at h; · cases h)
  rename_i X' hX'
  simp only [Except.ok.injEq, Prod.mk.injEq] at h
  obtain ⟨h1, h2, h3⟩ := h
  rw [← h3] at hc
  simp only [*, hc _ hX']

theorem tdvpR_congr {dt : ℂ} {e e' : Eng} {n : ℕ} {cs : List TCall} (h : Eng.tdvpR O evT evM sv dt e n = .ok (e', cs))
    (hc : ∀ c ∈ cs, c.Agree evT evT' sv) : Eng.tdvpR O evT' evM sv dt e n = .ok (e', cs) := by
  unfold Eng.tdvpR at h ⊢
  dsimp only at h ⊢
  split at h
  · cases h
  split at h
  · cases h
  rename_i e1 X c he1
  have hin : c ∈ cs := by
    iterate 6 (split at h; · cases h)
    split at h
    · split at h
      · cases h
      · simp only [Except.ok.injEq, Prod.mk.injEq] at h
        rw [← h.2]; simp
    · simp only [Except.ok.injEq, Prod.mk.injEq] at h
      rw [← h.2]; simp
  rw [evolveTen_congr he1 (hc c hin)]
  exact h

theorem tdvpL_congr {dt : ℂ} {e e' : Eng} {n : ℕ} {cs : List TCall} (h : Eng.tdvpL O evT evM sv dt e n = .ok (e', cs))
    (hc : ∀ c ∈ cs, c.Agree evT evT' sv) : Eng.tdvpL O evT' evM sv dt e n = .ok (e', cs) := by
  unfold Eng.tdvpL at h ⊢
  split at h
  · cases h
  split at h
  · cases h
  split at h
  · cases h
  split at h
  · cases h
  split at h
  · cases h
  split at h
  · cases h
  split at h
  · cases h
  split at h
  · cases h
  rename_i e2 X c' h8
  have hin : c' ∈ cs := by
    split at h
    · cases h
    split at h
    · cases h
    simp only [Except.ok.injEq, Prod.mk.injEq] at h
    rw [← h.2]; simp
  rw [evolveTen_congr h8 (hc c' hin)]
  exact h

theorem tdvpRight_acc {dt : ℂ} : ∀ {k n : ℕ} {e e' : Eng} {acc cs : List TCall},
    Eng.tdvpRight O evT evM sv dt k n e acc = .ok (e', cs) → ∀ c ∈ acc, c ∈ cs
  | 0, _, _, _, _, _, h => by
    simp only [Eng.tdvpRight, Except.ok.injEq, Prod.mk.injEq] at h
    rw [h.2]; exact fun _ h => h
  | k + 1, n, e, e', acc, cs, h => by
    rw [Eng.tdvpRight] at h
    split at h
    · cases h
    · exact fun c hc => tdvpRight_acc h c (List.mem_append_left _ hc)

theorem tdvpRight_congr {dt : ℂ} : ∀ {k n : ℕ} {e e' : Eng} {acc cs : List TCall},
    Eng.tdvpRight O evT evM sv dt k n e acc = .ok (e', cs) → (∀ c ∈ cs, c.Agree evT evT' sv) →
    Eng.tdvpRight O evT' evM sv dt k n e acc = .ok (e', cs)
  | 0, _, _, _, _, _, h, _ => h
  | k + 1, n, e, e', acc, cs, h, hc => by
    rw [Eng.tdvpRight] at h ⊢
    split at h
    · cases h
    rename_i e1 c1 h1
    rw [tdvpR_congr h1 fun c hcc => hc c (tdvpRight_acc h c (List.mem_append_right _ hcc))]
    exact tdvpRight_congr h hc

theorem tdvpLeft_acc {dt : ℂ} : ∀ {n : ℕ} {e e' : Eng} {acc cs : List TCall},
    Eng.tdvpLeft O evT evM sv dt n e acc = .ok (e', cs) → ∀ c ∈ acc, c ∈ cs
  | 0, _, _, _, _, h => by
    simp only [Eng.tdvpLeft, Except.ok.injEq, Prod.mk.injEq] at h
    rw [h.2]; exact fun _ h => h
  | n + 1, e, e', acc, cs, h => by
    rw [Eng.tdvpLeft] at h
    split at h
    · cases h
    · exact fun c hc => tdvpLeft_acc h c (List.mem_append_left _ hc)

theorem tdvpLeft_congr {dt : ℂ} : ∀ {n : ℕ} {e e' : Eng} {acc cs : List TCall},
    Eng.tdvpLeft O evT evM sv dt n e acc = .ok (e', cs) → (∀ c ∈ cs, c.Agree evT evT' sv) →
    Eng.tdvpLeft O evT' evM sv dt n e acc = .ok (e', cs)
  | 0, _, _, _, _, h, _ => h
  | n + 1, e, e', acc, cs, h, hc => by
    rw [Eng.tdvpLeft] at h ⊢
    split at h
    · cases h
    rename_i e1 c1 h1
    rw [tdvpL_congr h1 fun c hcc => hc c (tdvpLeft_acc h c (List.mem_append_right _ hcc))]
    exact tdvpLeft_congr h hc

theorem tdvpStep_congr {dt : ℂ} {v : ℤ} {cp : Option ℤ} {keep : Bool} {cur cur' : String} {w w' : World} {cs : List TCall}
    (h : tdvpStep O evT evM sv dt v cp keep cur w = .ok (cur', w', cs)) (hc : ∀ c ∈ cs, c.Agree evT evT' sv) :
    tdvpStep O evT' evM sv dt v cp keep cur w = .ok (cur', w', cs) := by
  unfold tdvpStep at h ⊢
  split at h
  · cases h
  rename_i e1 c1 h1
  split at h
  · cases h
  rename_i e2 c2 h2
  have hcs : c2 = cs := by
    dsimp only at h
    split at h
    · cases h
    · simp only [Except.ok.injEq, Prod.mk.injEq] at h; exact h.2.2
    · simp only [Except.ok.injEq, Prod.mk.injEq] at h; exact h.2.2
  rw [← hcs] at hc
  rw [tdvpRight_congr h1 fun c hcc => hc c (tdvpLeft_acc h2 c hcc)]
  dsimp only
  rw [tdvpLeft_congr h2 hc]
  exact h

theorem tdvpLoop_acc {dt : ℂ} {v : ℤ} {cp : Option ℤ} {keep : Bool} : ∀ {k : ℕ} {cur : String} {w w' : World}
    {acc css : List (List TCall)}, tdvpLoop O evT evM sv dt v cp keep k cur w acc = .ok (w', css) → ∀ c ∈ acc, c ∈ css
  | 0, _, _, _, _, _, h => by
    simp only [tdvpLoop, Except.ok.injEq, Prod.mk.injEq] at h
    rw [h.2]; exact fun _ h => h
  | k + 1, cur, w, w', acc, css, h => by
    rw [tdvpLoop] at h
    split at h
    · cases h
    · exact fun c hc => tdvpLoop_acc h c (List.mem_append_left _ hc)

theorem tdvpLoop_congr {dt : ℂ} {v : ℤ} {cp : Option ℤ} {keep : Bool} : ∀ {k : ℕ} {cur : String} {w w' : World}
    {acc css : List (List TCall)}, tdvpLoop O evT evM sv dt v cp keep k cur w acc = .ok (w', css) →
    (∀ cs ∈ css, ∀ c ∈ cs, c.Agree evT evT' sv) → tdvpLoop O evT' evM sv dt v cp keep k cur w acc = .ok (w', css)
  | 0, _, _, _, _, _, h, _ => h
  | k + 1, cur, w, w', acc, css, h, hc => by
    rw [tdvpLoop] at h ⊢
    split at h
    · cases h
    rename_i cur1 w1 c1 h1
    rw [tdvpStep_congr h1 (hc c1 (tdvpLoop_acc h c1 (by simp)))]
    exact tdvpLoop_congr h hc

/-- A run depends on the site integrator through the recorded calls only. -/
theorem doTDVP_congr {dt : ℂ} {n : ℤ} {v : ℤ} {cp : Option ℤ} {keep : Bool} {w w' : World} {css : List (List TCall)}
    (h : doTDVP O evT evM sv dt n cp keep v w = .ok (w', css)) (hc : ∀ c ∈ css.flatten, c.Agree evT evT' sv) :
    doTDVP O evT' evM sv dt n cp keep v w = .ok (w', css) := by
  unfold doTDVP at h ⊢
  split_ifs at h with h0
  rw [if_neg h0]
  split at h
  · cases h
  split at h
  · cases h
  rename_i w1 cs h2
  have hcs : cs = css := by
    split at h
    · cases h
    · simp only [Except.ok.injEq, Prod.mk.injEq] at h; exact h.2
  rw [tdvpLoop_congr h2 fun a ha c hcc => hc c (by rw [← hcs]; exact List.mem_flatten.mpr ⟨a, ha, hcc⟩)]
  exact h
end

/-! ## The witness at the level of a run -/

/-- Spec: the state of the two sites is a multiple of `|00⟩ + a|01⟩`. -/
def Pat (a : ℂ) (f : Amp) : Prop := f [0, 0] 0 0 ≠ 0 ∧ f [0, 1] 0 0 = a * f [0, 0] 0 0 ∧ f [0, 2] 0 0 = 0

theorem conf13 {k : ℕ} (hk : k < 3) : Conf [1, 3] [0, k] := List.Forall₂.cons one_pos (List.Forall₂.cons hk List.Forall₂.nil)

theorem Pat.ray {a : ℂ} {f g : Amp} (h : Ray [1, 3] 1 f g) (hf : Pat a f) : Pat a g := by
  obtain ⟨c, hc, hg⟩ := h
  obtain ⟨h0, h1, h2⟩ := hf
  have hc' : (c : ℂ) ≠ 0 := by exact_mod_cast hc.ne'
  refine ⟨?_, ?_, ?_⟩
  · rw [hg _ (conf13 (by norm_num)) 0 one_pos 0]; exact mul_ne_zero hc' h0
  · rw [hg _ (conf13 (by norm_num)) 0 one_pos 0, hg _ (conf13 (by norm_num)) 0 one_pos 0, h1]; ring
  · rw [hg _ (conf13 (by norm_num)) 0 one_pos 0, h2, mul_zero]

theorem Pat.scale {a : ℂ} {f f' : Amp} {y z : ℂ} {g : ℕ → ℂ} (hf : Pat a f) (h1 : ∀ k, f [0, k] 0 0 = y * g k)
    (h2 : ∀ k, f' [0, k] 0 0 = z * g k) : y ≠ 0 ∧ (z ≠ 0 → Pat a f') := by
  obtain ⟨p0, p1, p2⟩ := hf
  rw [h1] at p0 p1 p2
  rw [h1] at p1
  have hy : y ≠ 0 := left_ne_zero_of_mul p0
  refine ⟨hy, fun hz => ⟨?_, ?_, ?_⟩⟩
  · rw [h2]; exact mul_ne_zero hz (right_ne_zero_of_mul p0)
  · rw [h2, h2, mul_left_cancel₀ hy (p1.trans (mul_left_comm a y (g 0)))]; ring
  · rw [h2, (mul_eq_zero.mp p2).resolve_left hy, mul_zero]

/-- The operators of the two sites. -/
def mpo13 : List (Mpo ℂ) := [idMpo ℂ 1 1, threeW]

theorem two_tensors {m : MPS} (h : m.ds = [1, 3]) : ∃ A B : Ten ℂ, m.tensors = [A, B] ∧ A.d = 1 ∧ B.d = 3 := by
  unfold MPS.ds at h
  match ht : m.tensors with
  | [] => rw [ht] at h; simp at h
  | [A] => rw [ht] at h; simp at h
  | [A, B] => rw [ht] at h; simp at h; exact ⟨A, B, rfl, h.1, h.2⟩
  | A :: B :: C :: l => rw [ht] at h; simp at h

theorem shape13 {T : Ten ℂ} {a b c : ℕ} (h : T.shape = (a, b, c)) : T.l = a ∧ T.r = b ∧ T.d = c := by
  simpa [Ten.shape] using h

theorem site0_call {m : MPS} {L R : Env ℂ} {W : Mpo ℂ} {T : Ten ℂ} {dt : ℂ} (hok : TCall.OK oneEnv oneEnv mpo13 (.ten 0 m L W R T dt))
    (hds : m.ds = [1, 3]) (hT : T.shape = (1, 1, 1)) :
    ∃ g : ℕ → ℂ, ∀ X : Ten ℂ, X.l = T.l ∧ X.r = T.r ∧ X.d = T.d → ∀ k, siteAmp m 0 X [0, k] 0 0 = X.v 0 0 0 * g k := by
  obtain ⟨A, B, hm, -, -⟩ := two_tensors hds
  obtain ⟨t1, t2, t3⟩ := shape13 hT
  obtain ⟨-, -, -, -, -, hl, -⟩ := hok
  rw [hm] at hl
  simp only [List.set_cons_zero, Linked] at hl
  refine ⟨fun k => m.Z * B.v 0 0 k, fun X hX k => ?_⟩
  have hr : B.r = 1 := hl.2.2
  simp only [siteAmp, hm, List.set_cons_zero, chain, hX.2.1, t2, hr, sum_range_one, delta]
  simp; ring

theorem bond0_call {m : MPS} {L R : Env ℂ} {C : Mat ℂ} {dt : ℂ} (hok : TCall.OK oneEnv oneEnv mpo13 (.mat 0 m L R C dt))
    (hds : m.ds = [1, 3]) (hC : C.r = 1 ∧ C.c = 1) :
    ∃ g : ℕ → ℂ, ∀ X : Mat ℂ, X.r = C.r ∧ X.c = C.c → ∀ k, bondAmp m 0 X [0, k] 0 0 = X.v 0 0 * g k := by
  obtain ⟨A, B, hm, -, -⟩ := two_tensors hds
  obtain ⟨-, -, -, -, h1, h2⟩ := hok
  rw [hm] at h1 h2
  simp only [zero_add, List.take_succ_cons, List.take_zero, List.drop_succ_cons, List.drop_zero, Linked] at h1 h2
  refine ⟨fun k => m.Z * A.v 0 0 0 * B.v 0 0 k, fun X hX k => ?_⟩
  have ha : A.r = 1 := h1.2.trans hC.1
  have hb : B.r = 1 := h2.2
  simp only [bondAmp, hm, split, zero_add, List.take_succ_cons, List.take_zero, List.drop_succ_cons, List.drop_zero, chain, hX.1, hX.2,
    hC.1, hC.2, ha, hb, sum_range_one, delta]
  simp; ring

theorem site1_call {m : MPS} {L R : Env ℂ} {W : Mpo ℂ} {T : Ten ℂ} {dt : ℂ} (hok : TCall.OK oneEnv oneEnv mpo13 (.ten 1 m L W R T dt))
    (hor : TCall.Orth (.ten 1 m L W R T dt)) (hds : m.ds = [1, 3]) (hT : T.shape = (1, 1, 3)) :
    Trivial1 L R ∧ W = threeW ∧
    ∃ z : ℂ, ∀ X : Ten ℂ, X.l = T.l ∧ X.r = T.r ∧ X.d = T.d → ∀ k, siteAmp m 1 X [0, k] 0 0 = z * X.v 0 0 k := by
  obtain ⟨A, B, hm, hA, -⟩ := two_tensors hds
  obtain ⟨t1, t2, t3⟩ := shape13 hT
  obtain ⟨-, -, hW, hL, hR, hl, -⟩ := hok
  rw [hm] at hL hR hl
  simp only [mpo13, List.take_succ_cons, List.take_zero, List.drop_succ_cons, List.drop_nil, List.set_cons_succ,
    List.set_cons_zero, Linked, Nat.reduceAdd] at hL hR hl hW
  have hAl : A.l = 1 := hl.1
  have hAr : A.r = 1 := by rw [← hl.2.1, t1]
  have ho : LeftOrth A := hor.1 0 A (by rw [hm]; rfl) one_pos
  have ho' := ho 0 (by omega) 0 (by omega)
  rw [hA, hAl] at ho'
  simp only [sum_range_one, delta] at ho'
  have hLu : L.u = 1 := by rw [← hL.u.2, hAr]
  have hLw : L.w = 1 := by rw [← hL.w.2, hAr]
  have hLm : L.m = 1 := hL.m.2.symm
  refine ⟨⟨hLu, hLw, hLm, ?_, hR.u, hR.w, hR.m, ?_⟩, by simpa using hW.symm, m.Z * A.v 0 0 0, fun X hX k => ?_⟩
  · rw [hL.v 0 (by omega) 0 (by omega) 0 (by omega)]
    simp only [contrL, List.map_cons, List.map_nil, hA, sumCfg, sum_range_one, oneEnv, chain, hAr, mchain, idMpo, delta]
    simp only [if_true, mul_one, one_mul] at ho' ⊢
    rw [← ho']; ring
  · rw [hR.v 0 (by rw [show R.u = 1 from hR.u]; exact one_pos) 0 (by rw [show R.w = 1 from hR.w]; exact one_pos) 0 (by rw [show R.m = 1 from hR.m]; exact one_pos)]
    simp [contrR, sumCfg, oneEnv, chain, mchain, delta]
  · simp only [siteAmp, hm, List.set_cons_succ, List.set_cons_zero, chain, hX.2.1, t2, hAr, sum_range_one, delta]
    simp; ring

/-- The energy of such a state. -/
theorem pat_energy {a : ℂ} {f : Amp} (h : Pat a f) :
    energy oneEnv mpo13 oneEnv [1, 3] f = (a + star a + a * star a) / (1 + a * star a) := by
  obtain ⟨h0, h1, h2⟩ := h
  set x := f [0, 0] 0 0 with hx
  have hxx : x * star x ≠ 0 := mul_ne_zero h0 (star_ne_zero.mpr h0)
  have e1 : hform oneEnv mpo13 oneEnv [1, 3] f f = (a + star a + a * star a) * (x * star x) := by
    simp only [hform, sumCfg, helem, oneEnv, mpo13, idMpo, threeW, mchain, sum_range_succ, range_zero, sum_empty, zero_add, delta]
    rw [h1, h2, ← hx]
    simp
    ring
  have e2 : ((nsq [1, 3] 1 1 f : ℝ) : ℂ) = (1 + a * star a) * (x * star x) := by
    simp only [nsq, sumCfg, sum_range_succ, range_zero, sum_empty, zero_add]
    rw [h1, h2, ← hx]
    simp only [map_mul, map_zero, add_zero, Complex.ofReal_add, Complex.ofReal_mul, Complex.normSq_eq_conj_mul_self, RCLike.star_def]
    ring
  unfold energy
  rw [e1, show (oneEnv : Env ℂ).u = 1 from rfl, e2, mul_div_mul_right _ _ hxx]

theorem herm13 : HermH oneEnv mpo13 oneEnv [1, 3] := by
  refine ⟨rfl, rfl, fun s s' _ _ i _ i' _ j _ j' _ => ?_⟩
  have key : ∀ b b', mchain mpo13 s s' b b' = star (mchain mpo13 s' s b b') := by
    intro b b'
    match s, s' with
    | [], [] => simp [mpo13, mchain]
    | [], _ :: _ => simp [mpo13, mchain]
    | _ :: _, [] => simp [mpo13, mchain]
    | [_], [_] => simp [mpo13, mchain]
    | [_], _ :: _ :: _ => simp [mpo13, mchain]
    | _ :: _ :: _, [_] => simp [mpo13, mchain]
    | [p, q], [p', q'] =>
      simp only [mpo13, mchain, idMpo, threeW, sum_range_one, delta, star_mul']
      simp only [eq_comm (a := p') (b := p)]
      by_cases h1 : q = 1 <;> by_cases h2 : q' = 1 <;> by_cases h3 : p = p' <;> by_cases h4 : b = 0 <;> by_cases h5 : 0 = b' <;> simp [h1, h2, h3, h4, h5]
    | _ :: _ :: _ :: _, _ :: _ :: _ => simp [mpo13, mchain]
    | [_, _], _ :: _ :: _ :: _ => simp [mpo13, mchain]
  unfold helem
  simp only [star_sum, star_mul']
  refine sum_congr rfl fun b _ => sum_congr rfl fun b' _ => ?_
  rw [key]
  simp [oneEnv]

/-- The initial state `|00⟩`. -/
def mps13 : MPS :=
  { N := 2, Dmax := 1, obc := true, sth := 1e-16, rth := 1e-14
    tensors := [⟨1, 1, 1, fun _ _ _ => 1⟩, ⟨1, 1, 3, fun _ _ s => if s = 0 then 1 else 0⟩]
    mat := ⟨1, 1, fun _ _ => 1⟩, conn := ⟨1, 1, fun _ _ => 1⟩, pos := 0, Z := 1 }

theorem mps13_wf : mps13.WF 1 1 := by
  refine ⟨rfl, Nat.zero_le _, ?_, ?_⟩ <;> simp [mps13, Linked]

theorem mps13_canonical : mps13.Canonical := by
  refine ⟨fun x t _ hx => absurd hx (Nat.not_lt_zero x), fun x t ht _ => ?_, by simp [mps13, normF]⟩
  have hmem := List.mem_of_getElem? ht
  simp only [mps13, List.mem_cons, List.not_mem_nil, or_false] at hmem
  rcases hmem with rfl | rfl
  · intro i hi i' hi'
    dsimp only at hi hi'
    obtain rfl : i = 0 := by omega
    obtain rfl : i' = 0 := by omega
    simp [delta]
  · intro i hi i' hi'
    dsimp only at hi hi'
    obtain rfl : i = 0 := by omega
    obtain rfl : i' = 0 := by omega
    simp [delta]

theorem mps13_pat : Pat 0 mps13.amp := by
  refine ⟨?_, ?_, ?_⟩ <;> simp [MPS.amp, mps13, chain, delta]

/-- Engine on this state, before `initializeTDVP`. -/
def evo13 : Evo := ⟨⟨mps13, mpo13, oneEnv, oneEnv, [], []⟩, 0, 0, 0, 0, "run", []⟩

theorem start13 {O : LinAlg} (hO : O.Spec) : ∃ e : Evo, evo13.initializeTDVP O = .ok e ∧ e.eng.TStart ∧ e.eng.Fit ∧ e.eng.mps.Canonical ∧
    PosC e.eng.mps.Z ∧ e.eng.mps.ds = [1, 3] ∧ e.eng.mps.N = 2 ∧ e.eng.mpo = mpo13 ∧ e.eng.lb = oneEnv ∧ e.eng.rb = oneEnv ∧ Pat 0 e.eng.mps.amp ∧
    e.eng.mps.tensors.map Ten.shape = [(1, 1, 1), (1, 1, 3)] ∧ e.eng.mps.mat.r = e.eng.mps.mat.c := by
  have hf : evo13.eng.Fit := by
    refine ⟨rfl, rfl, by simp [evo13, MLinked, mpo13, idMpo, threeW, oneEnv], ?_, ?_⟩ <;> simp [evo13, mpo13, idMpo, threeW, mps13, MPS.ds]
  have hadm : ∀ t ∈ mps13.tensors, t.Adm := by simp [mps13, Ten.Adm]
  have hs : mps13.sth < 1e-15 := by norm_num [mps13]
  obtain ⟨e, he⟩ := C70_progress hO (e := evo13) mps13_wf rfl hs (by simp [evo13, mps13]) hf hadm
    ⟨[0, 0], 0, 0, List.Forall₂.cons one_pos (List.Forall₂.cons (by norm_num) List.Forall₂.nil), one_pos, mps13_pat.1⟩
  obtain ⟨b1, -, -, b4, b5, b6, b7, -, -, -, b11, b12, b13⟩ := C70_initializeTDVP hO he mps13_wf hs le_rfl rfl
  have hds : e.eng.mps.ds = [1, 3] := b4
  have hamp : ∀ k < 3, e.eng.mps.amp [0, k] 0 0 = mps13.amp [0, k] 0 0 := fun k hk => b11 _ (conf13 hk) 0 one_pos 0
  obtain ⟨sh, sq⟩ : e.eng.mps.tensors.map Ten.shape = mps13.tensors.map Ten.shape ∧ e.eng.mps.mat.r = e.eng.mps.mat.c := by
    unfold Evo.initializeTDVP at he
    split at he
    · cases he
    rename_i m1 hm1
    split at he
    · cases he
    split at he
    · cases he
    simp only [Except.ok.injEq] at he
    rw [← he]
    exact position_shape hO hs hm1 hadm rfl
  refine ⟨e, he, b1, ⟨by rw [b6]; rfl, by rw [b7]; rfl, by rw [b5, b6, b7]; exact hf.mlink, by rw [b5, b4]; exact hf.ins,
    by rw [b5, b4]; exact hf.outs⟩, b13 mps13_canonical, b12 ⟨1, one_pos, by simp [evo13, mps13]⟩, hds, ?_, b5, b6, b7, ?_, sh, sq⟩
  · rw [← b1.wf.len, ← List.length_map (f := Ten.d), ← MPS.ds, hds]; rfl
  · obtain ⟨p0, p1, p2⟩ := mps13_pat
    exact ⟨by rw [hamp 0 (by norm_num)]; exact p0, by rw [hamp 1 (by norm_num), hamp 0 (by norm_num)]; exact p1,
      by rw [hamp 2 (by norm_num)]; exact p2⟩

open Classical in
/-- An integrator that cannot fail and agrees with `evolveTensorLan` where this succeeds. -/
def lanSafe (eigh : Eigh) (expm : Mat ℂ → Mat ℂ) (ncv : ℕ) (tol : ℝ) : EvolveTen := fun sv L W R T t =>
  match lanT eigh expm ncv tol sv L W R T t with
  | .error _ => .ok T
  | .ok X => if X.NonZero then .ok X else .ok T

section
variable {O : LinAlg} {eigh : Eigh} {expm : Mat ℂ → Mat ℂ} {ncv : ℕ} {tol : ℝ}

theorem lanSafe_of {sv : TSolver} {L : Env ℂ} {W : Mpo ℂ} {R : Env ℂ} {T X : Ten ℂ} {t : ℂ} (h : lanT eigh expm ncv tol sv L W R T t = .ok X)
    (hX : X.NonZero) : lanSafe eigh expm ncv tol sv L W R T t = .ok X := by
  unfold lanSafe
  rw [h]
  dsimp only
  rw [if_pos hX]

theorem lanSafe_shape : (lanSafe eigh expm ncv tol).Shape := by
  intro sv L W R T t X h
  unfold lanSafe at h
  split at h
  · injection h with h; subst h; exact ⟨rfl, rfl, rfl⟩
  rename_i Y hY
  split_ifs at h
  · injection h with h; subst h; exact lanT_shape _ _ _ _ _ _ _ hY
  · injection h with h; subst h; exact ⟨rfl, rfl, rfl⟩

theorem lanSafe_live {sv : TSolver} {Q : TCall → Prop} : (lanSafe eigh expm ncv tol).Live sv Q := by
  intro n m L W R T dt _ _ _ _ _ _ _ _ hT _
  unfold lanSafe
  split
  · exact ⟨T, rfl, hT⟩
  split_ifs with h
  · exact ⟨_, rfl, h⟩
  · exact ⟨T, rfl, hT⟩

/-- Site calls on a single entry. -/
theorem one_entry (hE : EighSpec eigh) (hX : ExpmSpec expm) (hd : 0 < tol) (hd1 : tol ≤ 1) {L R : Env ℂ} {W : Mpo ℂ} {T : Ten ℂ} {dt : ℂ}
    (hH : SiteHerm L W R T.l T.r T.d) (hT : T.shape = (1, 1, 1)) (h0 : T.v 0 0 0 ≠ 0) (hdt : dt.re = 0) :
    ∃ X, lanT eigh expm 2 tol .LAN L W R T dt = .ok X ∧ X.NonZero ∧ X.v 0 0 0 ≠ 0 ∧ X.l = T.l ∧ X.r = T.r ∧ X.d = T.d := by
  obtain ⟨t1, t2, t3⟩ := shape13 hT
  obtain ⟨X, h1, x1, x2, x3, h2, -⟩ := C79_lan_site hE hX hd hd1 hH
    (Ten.nsq_pos.mpr ⟨0, by omega, 0, by omega, 0, by omega, h0⟩) (by rw [t1, t2, t3]; norm_num) hdt (ncv := 2)
  have hn : X.NonZero := Ten.nsq_pos.mp (by rw [h2]; exact one_pos)
  refine ⟨X, h1, hn, ?_, x1, x2, x3⟩
  obtain ⟨i, hi, j, hj, s, hs, hne⟩ := hn
  obtain rfl : i = 0 := by omega
  obtain rfl : j = 0 := by omega
  obtain rfl : s = 0 := by omega
  exact hne

theorem one_entry_bond (hE : EighSpec eigh) (hX : ExpmSpec expm) (hd : 0 < tol) (hd1 : tol ≤ 1) {L R : Env ℂ} {C : Mat ℂ} {dt : ℂ}
    (hH : BondHerm L R C.r C.c) (hC : C.r = 1 ∧ C.c = 1) (h0 : C.v 0 0 ≠ 0) (hdt : dt.re = 0) :
    ∃ X, lanM eigh expm 2 tol .LAN L R C dt = .ok X ∧ X.v 0 0 ≠ 0 ∧ X.r = C.r ∧ X.c = C.c := by
  obtain ⟨c1, c2⟩ := hC
  have hn : ∀ Y : Mat ℂ, Y.r = 1 → Y.c = 1 → Y.nsq = Complex.normSq (Y.v 0 0) := by
    intro Y h1 h2
    rw [Mat.nsq, h1, h2]
    simp
  obtain ⟨X, h1, x1, x2, h2, -⟩ := C79_lan_bond hE hX hd hd1 hH (c1.trans c2.symm) (by rw [hn C c1 c2]; exact Complex.normSq_pos.mpr h0)
    (by rw [c1, c2]; norm_num) hdt (ncv := 2)
  refine ⟨X, h1, ?_, x1, x2⟩
  rw [hn X (x1.trans c1) (x2.trans c2)] at h2
  intro h
  rw [h] at h2
  simp at h2

/-- The calls of the witness before and after the Krylov space is cut keep the pattern. -/
theorem scalar_call (hE : EighSpec eigh) (hX : ExpmSpec expm) (hd : 0 < tol) (hd1 : tol ≤ 1) {c : TCall}
    (hok : c.OK oneEnv oneEnv mpo13) (hds : c.mps.ds = [1, 3]) (hsh : c.Shaped [(1, 1, 1), (1, 1, 3)]) (hH : HermCall 3 c)
    (hn : ∀ x, c.evt ≠ .site 1 x) (hb : ∀ n x, c.evt = .bond n x → n = 0) (hs : ∀ n x, c.evt = .site n x → n < 2)
    {a : ℂ} {f : Amp} (hf : Pat a c.before)
    (ha : c.After (lanSafe eigh expm 2 tol) (lanM eigh expm 2 tol) .LAN f) :
    Pat a f ∧ c.Agree (lanSafe eigh expm 2 tol) (lanT eigh expm 2 tol) .LAN := by
  cases c with
  | ten n m L W R T dt =>
    have h2 := hs n dt rfl
    have h1 : n ≠ 1 := fun h => hn dt (by rw [h]; rfl)
    obtain rfl : n = 0 := by omega
    have hT : T.shape = (1, 1, 1) := by
      have := hsh
      simp only [TCall.Shaped, List.getElem?_cons_zero, Option.some.injEq] at this
      exact this.symm
    obtain ⟨g, hg⟩ := site0_call hok hds hT
    obtain ⟨X, hX', rfl⟩ := ha
    have h0 : T.v 0 0 0 ≠ 0 := (hf.scale (hg T ⟨rfl, rfl, rfl⟩) (hg T ⟨rfl, rfl, rfl⟩)).1
    obtain ⟨Y, y1, y2, y3, y4⟩ := one_entry hE hX hd hd1 hH.1 hT h0 hH.2.2
    have hY := lanSafe_of y1 y2
    have ht : TSolver.time .LAN dt = dt := rfl
    rw [ht, hY] at hX'
    injection hX' with hX'
    subst hX'
    refine ⟨(hf.scale (hg T ⟨rfl, rfl, rfl⟩) (hg Y y4)).2 y3, fun Z hZ => ?_⟩
    rw [ht] at hZ ⊢
    rw [hY] at hZ
    rw [y1]; exact hZ
  | mat n m L R C dt =>
    obtain rfl : n = 0 := hb n dt rfl
    have hC : C.r = 1 ∧ C.c = 1 := by
      obtain ⟨h1, x, h2, h3⟩ := hsh
      simp only [List.getElem?_cons_zero, Option.some.injEq] at h2
      rw [← h2] at h3
      exact ⟨h1.trans h3.symm, h3.symm⟩
    obtain ⟨g, hg⟩ := bond0_call hok hds hC
    obtain ⟨X, hX', rfl⟩ := ha
    have h0 : C.v 0 0 ≠ 0 := (hf.scale (hg C ⟨rfl, rfl⟩) (hg C ⟨rfl, rfl⟩)).1
    obtain ⟨Y, y1, y3, y4⟩ := one_entry_bond hE hX hd hd1 hH.1 hC h0 hH.2.2
    have ht : TSolver.time .LAN dt = dt := rfl
    rw [ht, y1] at hX'
    injection hX' with hX'
    subst hX'
    exact ⟨(hf.scale (hg C ⟨rfl, rfl⟩) (hg Y y4)).2 y3, trivial⟩

theorem three_call (hE : EighSpec eigh) (hX : ExpmSpec expm) (hd : 0 < tol) (hd1 : tol ≤ 1) {c : TCall}
    (hok : c.OK oneEnv oneEnv mpo13) (hor : c.Orth) (hds : c.mps.ds = [1, 3]) (hsh : c.Shaped [(1, 1, 1), (1, 1, 3)])
    (hn : c.evt = .site 1 (-Complex.I * Real.pi)) {f : Amp} (hf : Pat 0 c.before)
    (ha : c.After (lanSafe eigh expm 2 tol) (lanM eigh expm 2 tol) .LAN f) :
    Pat 2 f ∧ c.Agree (lanSafe eigh expm 2 tol) (lanT eigh expm 2 tol) .LAN := by
  cases c with
  | mat n m L R C dt => cases hn
  | ten n m L W R T dt =>
    injection hn with h1 h2
    subst h1 h2
    have hT : T.shape = (1, 1, 3) := by
      have := hsh
      simp only [TCall.Shaped, List.getElem?_cons_succ, List.getElem?_cons_zero, Option.some.injEq] at this
      exact this.symm
    obtain ⟨htr, rfl, z, hz⟩ := site1_call hok hor hds hT
    obtain ⟨X, hX', rfl⟩ := ha
    obtain ⟨p0, p1, p2⟩ := hf
    change siteAmp m 1 T [0, 0] 0 0 ≠ 0 at p0
    change siteAmp m 1 T [0, 1] 0 0 = _ at p1
    change siteAmp m 1 T [0, 2] 0 0 = 0 at p2
    rw [hz T ⟨rfl, rfl, rfl⟩] at p0 p1 p2
    have hz0 := left_ne_zero_of_mul p0
    rw [zero_mul] at p1
    obtain ⟨Y, u, y1, y2, y3, y4, y5, y6⟩ := three_site hE hX hd hd1 htr hT (right_ne_zero_of_mul p0)
      ((mul_eq_zero.mp p1).resolve_left hz0) ((mul_eq_zero.mp p2).resolve_left hz0)
    obtain ⟨s1, s2, s3⟩ := shape13 y2
    obtain ⟨t1, t2, t3⟩ := shape13 hT
    have y1' : lanT eigh expm 2 tol .LAN L threeW R T (-Complex.I * Real.pi) = .ok Y := y1
    have hY := lanSafe_of y1' ⟨0, by omega, 0, by omega, 0, by omega, by rw [y4]; exact y3⟩
    have ht : TSolver.time .LAN (-Complex.I * Real.pi) = -Complex.I * Real.pi := rfl
    rw [ht, hY] at hX'
    injection hX' with hX'
    subst hX'
    have hzY := hz Y ⟨s1.trans t1.symm, s2.trans t2.symm, s3.trans t3.symm⟩
    refine ⟨⟨?_, ?_, ?_⟩, fun Z hZ => ?_⟩
    · rw [hzY, y4]; exact mul_ne_zero hz0 y3
    · rw [hzY, hzY, y4, y5]; ring
    · rw [hzY, y6, mul_zero]
    · rw [ht] at hZ ⊢
      rw [hY] at hZ
      rw [y1']; exact hZ

/-- **C80 is violated** by `doTDVP` with `solver='LAN'` when a tensor has more entries than the Krylov space: one step in real time
with a Hermitian MPO takes a canonical state of energy `0` to a state of energy `8/5`. -/
theorem C80_violated_lan (hO : O.Spec) (hE : EighSpec eigh) (hX : ExpmSpec expm) (hd : 0 < tol) (hd1 : tol ≤ 1) :
    ∃ (w w' : World) (css : List (List TCall)) (dt : ℂ), w.evo.eng.TStart ∧ w.evo.eng.Fit ∧ w.evo.eng.mps.Canonical ∧ PosC w.evo.eng.mps.Z ∧
      HermH w.evo.eng.lb w.evo.eng.mpo w.evo.eng.rb w.evo.eng.mps.ds ∧ (∀ t ∈ w.evo.eng.mps.tensors, t.Adm) ∧
      w.evo.eng.mps.mat.r = w.evo.eng.mps.mat.c ∧ (∀ t ∈ w.evo.eng.mps.tensors, t.l * t.r * t.d ≤ 3) ∧ dt.re = 0 ∧
      doTDVP O (lanT eigh expm 2 tol) (lanM eigh expm 2 tol) .LAN dt 1 none false 1 w = .ok (w', css) ∧
      energy w.evo.eng.lb w.evo.eng.mpo w.evo.eng.rb w.evo.eng.mps.ds w.evo.eng.mps.amp = 0 ∧
      energy w.evo.eng.lb w.evo.eng.mpo w.evo.eng.rb w.evo.eng.mps.ds w'.evo.eng.mps.amp = 8 / 5 := by
  obtain ⟨e, -, hs, hf, hc, hZ, hds, hN, hmpo, hlb, hrb, hp, hsh, hsq⟩ := start13 hO
  have hmem : ∀ t ∈ e.eng.mps.tensors, t.shape = (1, 1, 1) ∨ t.shape = (1, 1, 3) := by
    intro t ht
    have := List.mem_map_of_mem (f := Ten.shape) ht
    rw [hsh] at this
    simpa using this
  have hadm : ∀ t ∈ e.eng.mps.tensors, t.Adm := by
    intro t ht
    unfold Ten.Adm
    rcases hmem t ht with h | h <;> obtain ⟨h1, h2, h3⟩ := shape13 h <;> rw [h1, h2, h3] <;> norm_num
  have hsz : ∀ t ∈ e.eng.mps.tensors, t.l * t.r * t.d ≤ 3 := by
    intro t ht
    rcases hmem t ht with h | h <;> (obtain ⟨h1, h2, h3⟩ := shape13 h; simp [h1, h2, h3])
  have hH : HermH e.eng.lb e.eng.mpo e.eng.rb e.eng.mps.ds := by rw [hlb, hrb, hmpo, hds]; exact herm13
  have hdt : (-Complex.I * Real.pi : ℂ).re = 0 := by simp
  have hadmits := admits_herm hf hH hdt hadm hsz
  have lM : (lanM eigh expm 2 tol).Live .LAN (fun c => HermCall 3 c ∧ ∀ n m L R C x, c = .mat n m L R C x → C.r * C.c ≤ 2) := by
    intro n m L R C x h1 h2 h3 h4 h5 h6 h7 h8
    exact lanM_live hE hX hd hd1 n m L R C x h1 h2 h3 h4 h5 h6 h7 ⟨h8.1.1, h8.2 _ _ _ _ _ _ rfl, h8.1.2.2⟩
  obtain ⟨w', css, hrun, -, hshp⟩ := C39_progress (evT := lanSafe eigh expm 2 tol) hO lanSafe_shape lanM_shape lanSafe_live lM (by simp) (-Complex.I * Real.pi) 1 (cp := none) (by simp)
    false 1 (w := ⟨e, fun _ => none⟩) hs hf hc hZ.ne hadm hsq (by
      intro c h1 h2 h3 h4
      refine ⟨hadmits c h1 h2 h3 h4, ?_⟩
      rintro n m L R C x rfl
      obtain ⟨h5, y, h6, h7⟩ := h3
      change (e.eng.mps.tensors.map Ten.shape)[n]? = some y at h6
      have := List.mem_of_getElem? h6
      rw [hsh] at this
      simp only [List.mem_cons, List.not_mem_nil, or_false] at this
      rcases this with rfl | rfl <;> rw [h5, ← h7] <;> norm_num)
  obtain ⟨k1, k2, k3, -⟩ := C39_schedule hO lanSafe_shape lanM_shape (w := ⟨e, fun _ => none⟩) hs hZ hrun
  obtain ⟨cs, rfl⟩ := List.length_eq_one_iff.mp k1
  obtain ⟨q1, q2⟩ := k2 cs (by simp)
  simp only [hN, hlb, hrb, hmpo, hds] at q1 q2
  rw [List.flatten_singleton] at k3 hshp
  simp only [hds, hlb] at k3
  simp only [hsh] at hshp
  have hmemc : ∀ c ∈ cs, c.OK oneEnv oneEnv mpo13 ∧ c.Orth ∧ c.mps.ds = [1, 3] ∧ c.Shaped [(1, 1, 1), (1, 1, 3)] := by
    intro c hcc
    obtain ⟨r1, r2, r3⟩ := q2 c hcc
    exact ⟨r1, r2 hc, r3, hshp c hcc⟩
  have hherm : ∀ c ∈ cs, TStep (-Complex.I * Real.pi) c.dt → HermCall 3 c := by
    intro c hcc ht
    obtain ⟨r1, -, r3, r4⟩ := hmemc c hcc
    exact hadmits c (by rw [hlb, hrb, hmpo]; exact r1) (by rw [hds]; exact r3) (by rw [hsh]; exact r4) ht
  have hsite : ∀ (c : TCall) n x, c.evt = .site n x → c.dt = x := by
    intro c n x h
    cases c with
    | ten n m L W R T dt => injection h
    | mat n m L R C dt => cases h
  have hbond : ∀ (c : TCall) n x, c.evt = .bond n x → c.dt = x := by
    intro c n x h
    cases c with
    | mat n m L R C dt => injection h
    | ten n m L W R T dt => cases h
  obtain ⟨c1, l1, rfl, v1, q1⟩ := List.map_eq_cons_iff.mp q1
  obtain ⟨c2, l2, rfl, v2, q1⟩ := List.map_eq_cons_iff.mp q1
  obtain ⟨c3, l3, rfl, v3, q1⟩ := List.map_eq_cons_iff.mp q1
  obtain ⟨c4, l4, rfl, v4, q1⟩ := List.map_eq_cons_iff.mp q1
  obtain ⟨c5, l5, rfl, v5, q1⟩ := List.map_eq_cons_iff.mp q1
  obtain rfl := List.map_eq_nil_iff.mp q1
  have sc : ∀ c ∈ [c1, c2, c3, c4, c5], (c.evt = .site 0 (-Complex.I * Real.pi / 2) ∨ c.evt = .bond 0 (-(-Complex.I * Real.pi / 2))) →
      ∀ {a : ℂ} {f g : Amp}, Pat a f → Ray [1, 3] 1 f c.before → c.After (lanSafe eigh expm 2 tol) (lanM eigh expm 2 tol) .LAN g →
        Pat a g ∧ c.Agree (lanSafe eigh expm 2 tol) (lanT eigh expm 2 tol) .LAN := by
    intro c hcc hev a f g hf hr hg
    obtain ⟨r1, -, r3, r4⟩ := hmemc c hcc
    have hst : TStep (-Complex.I * Real.pi) c.dt := by
      rcases hev with h | h
      · exact Or.inr (Or.inl (hsite c _ _ h))
      · exact Or.inr (Or.inr (hbond c _ _ h))
    refine scalar_call hE hX hd hd1 r1 r3 r4 (hherm c hcc hst) (fun x h => ?_) (fun n x h => ?_) (fun n x h => ?_) (hf.ray hr) hg
    · rcases hev with h' | h' <;> rw [h'] at h <;> simp at h
    · rcases hev with h' | h' <;> rw [h'] at h <;> simp at h
      exact h.1.symm
    · rcases hev with h' | h' <;> rw [h'] at h <;> simp at h
      omega
  obtain ⟨f1, g1, a1, f2, g2, a2, f3, g3, a3, f4, g4, a4, f5, g5, a5, f6⟩ := k3
  obtain ⟨p1, o1⟩ := sc c1 (by simp) (Or.inl v1) hp f1 a1
  obtain ⟨p2, o2⟩ := sc c2 (by simp) (Or.inr v2) p1 f2 a2
  obtain ⟨r1, r2, r3, r4⟩ := hmemc c3 (by simp)
  obtain ⟨p3, o3⟩ := three_call hE hX hd hd1 r1 r2 r3 r4 v3 (p2.ray f3) a3
  obtain ⟨p4, o4⟩ := sc c4 (by simp) (Or.inr v4) p3 f4 a4
  obtain ⟨p5, o5⟩ := sc c5 (by simp) (Or.inl v5) p4 f5 a5
  have p6 := p5.ray f6
  refine ⟨⟨e, fun _ => none⟩, w', _, -Complex.I * Real.pi, hs, hf, hc, hZ, hH, hadm, hsq, hsz, hdt, doTDVP_congr hrun ?_, ?_, ?_⟩
  · intro c hcc
    rw [List.flatten_singleton] at hcc
    simp only [List.mem_cons, List.not_mem_nil, or_false] at hcc
    rcases hcc with rfl | rfl | rfl | rfl | rfl <;> assumption
  · dsimp only
    rw [hlb, hrb, hmpo, hds, pat_energy hp]; simp
  · dsimp only
    rw [hlb, hrb, hmpo, hds, pat_energy p6]
    simp; norm_num
end

/-- The solvers the theorem speaks of exist. -/
example : ∃ (O : LinAlg) (eigh : Eigh) (expm : Mat ℂ → Mat ℂ) (w w' : World) (css : List (List TCall)) (dt : ℂ),
    doTDVP O (lanT eigh expm 2 (1 / 10)) (lanM eigh expm 2 (1 / 10)) .LAN dt 1 none false 1 w = .ok (w', css) ∧
      energy w.evo.eng.lb w.evo.eng.mpo w.evo.eng.rb w.evo.eng.mps.ds w'.evo.eng.mps.amp
        ≠ energy w.evo.eng.lb w.evo.eng.mpo w.evo.eng.rb w.evo.eng.mps.ds w.evo.eng.mps.amp := by
  obtain ⟨O, hO⟩ := exists_linAlg
  obtain ⟨eigh, hE⟩ := exists_eigh
  obtain ⟨expm, hX⟩ := exists_expm
  obtain ⟨w, w', css, dt, -, -, -, -, -, -, -, -, -, h1, h2, h3⟩ := C80_violated_lan hO hE hX (tol := 1 / 10) (by norm_num) (by norm_num)
  exact ⟨O, eigh, expm, w, w', css, dt, h1, by rw [h2, h3]; norm_num⟩

end

end PyTeN
