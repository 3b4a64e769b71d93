import Verif.Props.Lanczos
import Verif.Krylov.Exp
import Mathlib.Analysis.SpecialFunctions.Trigonometric.Basic

/-! # C77: time evolution with the Lanczos method -/

namespace PyTeN
open Finset Lanczos

noncomputable section

/-- The square matrix of the entries. -/
def Mat.sq (M : Mat ℂ) : Matrix (Fin M.r) (Fin M.r) ℂ := fun i j => M.v i j

/-- Contract of `scipy.linalg.expm`: the entries are those of the power series. -/
def ExpmSpec (expm : Mat ℂ → Mat ℂ) : Prop := ∀ M : Mat ℂ, M.r = M.c → ∀ i j : Fin M.r,
  HasSum (fun m : ℕ => ((m.factorial : ℂ)⁻¹) * (M.sq ^ m) i j) ((expm M).v i j)

theorem matrix_exp_hasSum {n : ℕ} (A : Matrix (Fin n) (Fin n) ℂ) (i j : Fin n) :
    HasSum (fun m : ℕ => ((m.factorial : ℂ)⁻¹) * (A ^ m) i j) (NormedSpace.exp A i j) := by
  let _ : NormedRing (Matrix (Fin n) (Fin n) ℂ) := Matrix.linftyOpNormedRing
  let _ : NormedAlgebra ℂ (Matrix (Fin n) (Fin n) ℂ) := Matrix.linftyOpNormedAlgebra
  have h := NormedSpace.exp_series_hasSum_exp' (𝕂 := ℂ) A
  have hc : Continuous fun B : Matrix (Fin n) (Fin n) ℂ => B i j := (continuous_apply j).comp (continuous_apply i)
  exact h.map (Matrix.entryAddMonoidHom ℂ i j) hc

theorem exists_expm : ∃ expm, ExpmSpec expm :=
  ⟨fun M => ⟨M.r, M.r, fun i j => if h : i < M.r ∧ j < M.r then NormedSpace.exp M.sq ⟨i, h.1⟩ ⟨j, h.2⟩ else 0⟩, by
    intro M _ i j
    simp only [Fin.is_lt, and_self, dite_true, Fin.eta]
    exact matrix_exp_hasSum M.sq i j⟩

theorem expm_eq {expm : Mat ℂ → Mat ℂ} (hX : ExpmSpec expm) {M : Mat ℂ} (hM : M.r = M.c) (i j : Fin M.r) :
    (expm M).v i j = NormedSpace.exp M.sq i j := (hX M hM i j).unique (matrix_exp_hasSum M.sq i j)

variable {V : Type} [NormedAddCommGroup V] [InnerProductSpace ℂ V]

/-- `dt*Heff`. -/
abbrev scaled (dt : ℂ) (M : Mat ℂ) : Mat ℂ := ⟨M.r, M.c, fun i j => dt * M.v i j⟩

theorem scaled_sq (dt : ℂ) (M : Mat ℂ) : (scaled dt M).sq = dt • M.sq := by
  ext i j; rfl

/-- Powers of the operator on an invariant Krylov space. -/
theorem pow_krylov {H : V →ₗ[ℂ] V} {q : List V} {k : List ℝ} {e : List ℂ} (h : Tridiag H q k e 0) (hq : 0 < q.length)
    (m : ℕ) : (H ^ m) (q.getD 0 0) = ∑ i : Fin (heff k e).r, ((heff k e).sq ^ m) i ⟨0, by rw [show (heff k e).r = q.length from h.le]; exact hq⟩ • q.getD i 0 := by
  have hr : (heff k e).r = q.length := h.le
  induction m with
  | zero =>
    rw [pow_zero, pow_zero, sum_eq_single ⟨0, by rw [hr]; exact hq⟩]
    · simp
    · intro b _ hb
      rw [Matrix.one_apply_ne hb, zero_smul]
    · intro hn; exact absurd (mem_univ _) hn
  | succ m ih =>
    rw [pow_succ', Module.End.mul_apply, ih, map_sum]
    have : ∀ j : Fin (heff k e).r, H (((heff k e).sq ^ m) j ⟨0, by rw [hr]; exact hq⟩ • q.getD j 0)
        = ∑ i : Fin (heff k e).r, ((heff k e).sq i j * ((heff k e).sq ^ m) j ⟨0, by rw [hr]; exact hq⟩) • q.getD i 0 := by
      intro j
      have hs : ∑ i ∈ range q.length, (heff k e).v i j • q.getD i 0 = ∑ i : Fin (heff k e).r, (heff k e).v i j • q.getD i 0 := by
        rw [← Finset.sum_range (fun i => (heff k e).v i j • q.getD i 0)]
        exact sum_congr (by rw [hr]) fun _ _ => rfl
      rw [map_smul, heff_apply h (by rw [← hr]; exact j.2), ite_self, add_zero, hs, smul_sum]
      exact sum_congr rfl fun i _ => by rw [smul_smul, mul_comm]; rfl
    rw [sum_congr rfl fun j _ => this j, sum_comm]
    refine sum_congr rfl fun i _ => ?_
    rw [← sum_smul, pow_succ', Matrix.mul_apply]

/-- The result in terms of the run. -/
theorem doStep_eq {H : V →ₗ[ℂ] V} (hH : H.IsSymmetric) {eigh : Eigh} (hE : EighSpec eigh) {expm : Mat ℂ → Mat ℂ} {cast : V → V}
    {ncv : ℕ} (hn : 0 < ncv) {delta : ℝ} (hd : 0 < delta) {dt : ℂ} {x : V} (hx : cast x ≠ 0) :
    ∃ o, simulate H eigh (timeParams ncv delta) true (cast x) = .ok o ∧
      Run H eigh (timeParams ncv delta) (cast x) o.st o.last o.converged ∧
      doStep H eigh expm cast ncv delta dt x = .ok (∑ n ∈ range (min ncv o.st.vecs.length),
        (expm (scaled dt (heff o.st.kn o.st.eps))).v n 0 • o.st.vecs.getD n 0) := by
  have hN : 0 < (timeParams ncv delta).Ndiag := hn
  obtain ⟨o, ho⟩ := (simulate_spec hH hE hN hx (re := true)).2 hd
  have run := C52_run hH hE hN hx ho
  refine ⟨o, ho, run, ?_⟩
  have hi : init (timeParams ncv delta) = .ok (timeParams ncv delta) := by
    unfold init
    rw [if_neg (not_not.mpr (show (timeParams ncv delta).ncv ≥ (timeParams ncv delta).numeig from le_rfl)), if_neg (not_not.mpr hN)]
  unfold doStep
  rw [hi]
  simp only [ho]
  have hr : (heff o.st.kn o.st.eps).r = o.st.vecs.length := run.tri.le
  rw [show min (timeParams ncv delta).ncv (heff o.st.kn o.st.eps).r = min ncv o.st.vecs.length by rw [hr]; rfl]

/-- **C77 (exact step).**  If the iteration ends because the Krylov space is invariant (the next vector is zero) within
`ncv` vectors, the step is `exp(dt·H)` applied to the state divided by its norm. -/
theorem C77_exact_partial {H : V →ₗ[ℂ] V} (hH : H.IsSymmetric) {eigh : Eigh} (hE : EighSpec eigh) {expm : Mat ℂ → Mat ℂ}
    (hX : ExpmSpec expm) {ncv : ℕ} (hn : 0 < ncv) {delta : ℝ} (hd : 0 < delta) (hd1 : delta ≤ 1) {dt : ℂ} {x : V} (hx : x ≠ 0)
    {o : Out V} (ho : simulate H eigh (timeParams ncv delta) true x = .ok o) (hlast : o.last = 0) (hlen : o.st.vecs.length ≤ ncv) :
    ∃ y, doStep H eigh expm id ncv delta dt x = .ok y ∧
      HasSum (fun m : ℕ => ((m.factorial : ℂ)⁻¹ * dt ^ m) • (H ^ m) x) ((‖x‖ : ℂ) • y) := by
  obtain ⟨o', ho', run, hs⟩ := doStep_eq hH hE (expm := expm) (cast := id) hn hd (dt := dt) hx
  rw [id, ho] at ho'
  cases ho'
  refine ⟨_, hs, ?_⟩
  have tri := run.tri
  rw [hlast] at tri
  have h1 := run_pos hd1 run
  have hr : (heff o.st.kn o.st.eps).r = o.st.vecs.length := tri.le
  have hq : o.st.vecs.head? = some (o.st.vecs.getD 0 0) := by
    cases hv : o.st.vecs with
    | nil => rw [hv] at h1; simp at h1
    | cons a l => simp
  have hf : (‖x‖ : ℂ) • o.st.vecs.getD 0 0 = x := run.first _ hq
  rw [min_eq_right hlen, ← hr, Finset.sum_range]
  have key : HasSum (fun m : ℕ => ((m.factorial : ℂ)⁻¹ * dt ^ m) • (H ^ m) (o.st.vecs.getD 0 0))
      (∑ i : Fin (heff o.st.kn o.st.eps).r, (expm (scaled dt (heff o.st.kn o.st.eps))).v i 0 • o.st.vecs.getD i 0) := by
    have h2 : (fun m : ℕ => ((m.factorial : ℂ)⁻¹ * dt ^ m) • (H ^ m) (o.st.vecs.getD 0 0)) = fun m : ℕ =>
        ∑ i : Fin (heff o.st.kn o.st.eps).r, (((m.factorial : ℂ)⁻¹) *
          ((scaled dt (heff o.st.kn o.st.eps)).sq ^ m) i ⟨0, by rw [hr]; exact h1⟩) • o.st.vecs.getD i 0 := by
      funext m
      rw [pow_krylov tri h1 m, smul_sum]
      refine sum_congr rfl fun i _ => ?_
      rw [smul_smul, scaled_sq, smul_pow, Matrix.smul_apply, smul_eq_mul]
      congr 1
      ring
    rw [h2]
    refine hasSum_sum fun i _ => ?_
    exact (hX (scaled dt (heff o.st.kn o.st.eps)) rfl i ⟨0, by rw [show (scaled dt (heff o.st.kn o.st.eps)).r = _ from hr]; exact h1⟩).smul_const _
  have h3 := key.const_smul (‖x‖ : ℂ)
  have h4 : (fun m : ℕ => ((m.factorial : ℂ)⁻¹ * dt ^ m) • (H ^ m) x)
      = fun m : ℕ => (‖x‖ : ℂ) • ((m.factorial : ℂ)⁻¹ * dt ^ m) • (H ^ m) (o.st.vecs.getD 0 0) := by
    funext m
    conv_lhs => rw [← hf, map_smul, smul_comm]
  rw [h4]
  exact h3

/-- The iteration for `σ^x` from `|0>` builds two vectors and exhausts the space. -/
theorem sigmaX_run {eigh : Eigh} {ncv : ℕ} (hn : 1 ≤ ncv) {o : Out (EuclideanSpace ℂ (Fin 2))}
    (run : Run sigmaX eigh (timeParams ncv (1 / 2)) (EuclideanSpace.single 0 1) o.st o.last o.converged) :
    o.st.vecs.getD 0 0 = EuclideanSpace.single 0 1 ∧ o.st.vecs.length = 2 ∧ o.last = 0 := by
  have h1 := run_pos (p := timeParams ncv (1 / 2)) (by norm_num [timeParams]) run
  have on : Orthonormal ℂ fun i : Fin o.st.vecs.length => o.st.vecs.getD i 0 := by
    rw [orthonormal_iff_ite]
    intro i j
    rw [run.tri.orth i i.2 j j.2]
    simp [delta, Fin.ext_iff]
  have h2 := on.linearIndependent.fintype_card_le_finrank
  rw [Fintype.card_fin, finrank_euclideanSpace_fin] at h2
  have hf : o.st.vecs.getD 0 0 = EuclideanSpace.single 0 1 := by
    have hf := run.first (o.st.vecs.getD 0 0) (by
      cases hv : o.st.vecs with
      | nil => rw [hv] at h1; simp at h1
      | cons a l => simp)
    rw [PiLp.norm_single, norm_one, Complex.ofReal_one, one_smul] at hf
    exact hf
  have h3 : o.st.vecs.length = 2 := by
    by_contra hcon
    have hl : o.st.vecs.length = 1 := by omega
    cases hc : o.converged with
    | false => have : o.st.vecs.length = ncv + 1 := run.full hc; omega
    | true =>
      rcases run.conv_iff.mp hc with ⟨h4, -⟩ | h4
      · have h4 : ‖o.last‖ < 1 / 2 := h4
        have hr := run.tri.recur 0 (by omega)
        rw [hl, if_neg (lt_irrefl _), if_neg (lt_irrefl _), zero_add, hf] at hr
        have h5 : o.last 1 = 1 := by
          have := congrArg (fun v : EuclideanSpace ℂ (Fin 2) => v 1) hr
          simp [sigmaX, Matrix.toLpLin_apply] at this
          exact this.symm
        have h6 := PiLp.norm_apply_le o.last 1
        rw [h5, norm_one] at h6
        linarith
      · have : ncv < o.st.vecs.length := h4.2.1; omega
  have hlast : o.last = 0 := by
    have p0 := run.tri.perp 0 (by omega)
    have p1 := run.tri.perp 1 (by omega)
    have o1 := run.tri.orth 1 (by omega) 1 (by omega)
    have o0 := run.tri.orth 0 (by omega) 1 (by omega)
    rw [hf] at p0 o0
    generalize o.st.vecs.getD 1 0 = v at p1 o1 o0
    simp [PiLp.inner_apply, delta] at p0 p1 o0
    rw [p0, zero_mul, zero_add] at p1
    rcases mul_eq_zero.mp p1 with h | h
    · ext i
      fin_cases i
      · exact p0
      · exact h
    · exfalso
      have hv : v = 0 := by
        ext i
        fin_cases i
        · exact o0
        · simpa using h
      rw [hv, inner_zero_left] at o1
      simp [delta] at o1
  exact ⟨hf, h3, hlast⟩

/-- The hypotheses are met by a spin in a transverse field. -/
example : ∃ (eigh : Eigh) (expm : Mat ℂ → Mat ℂ) (y : EuclideanSpace ℂ (Fin 2)),
    doStep sigmaX eigh expm id 2 (1 / 2) 3 (EuclideanSpace.single 0 1) = .ok y ∧
      HasSum (fun m : ℕ => ((m.factorial : ℂ)⁻¹ * 3 ^ m) • (sigmaX ^ m) (EuclideanSpace.single 0 1)) y := by
  obtain ⟨eigh, hE⟩ := exists_eigh
  obtain ⟨expm, hX⟩ := exists_expm
  have hx : (EuclideanSpace.single 0 1 : EuclideanSpace ℂ (Fin 2)) ≠ 0 := by
    intro h; simpa using congrArg (fun v : EuclideanSpace ℂ (Fin 2) => v 0) h
  obtain ⟨o, ho, run, -⟩ := doStep_eq sigmaX_symm hE (expm := expm) (cast := id) (ncv := 2) (by norm_num) (delta := 1 / 2) (by norm_num)
    (dt := 3) (x := EuclideanSpace.single 0 1) hx
  obtain ⟨-, h3, hlast⟩ := sigmaX_run (by norm_num) run
  obtain ⟨y, h1, h2⟩ := C77_exact_partial sigmaX_symm hE hX (ncv := 2) (by norm_num) (delta := 1 / 2) (by norm_num) (by norm_num) (dt := 3) hx ho
    hlast h3.le
  rw [PiLp.norm_single, norm_one, Complex.ofReal_one, one_smul] at h2
  exact ⟨eigh, expm, y, h1, h2⟩

theorem scaled_skew {M : Mat ℂ} (hherm : ∀ i < M.r, ∀ j < M.r, (starRingEnd ℂ) (M.v i j) = M.v j i) {dt : ℂ}
    (hdt : (starRingEnd ℂ) dt = -dt) : (scaled dt M).sq.conjTranspose = -(scaled dt M).sq := by
  ext i j
  rw [Matrix.conjTranspose_apply]
  change (starRingEnd ℂ) (dt * M.v j i) = -(dt * M.v i j)
  rw [map_mul, hdt, hherm j j.2 i i.2]
  ring

/-- The first column of the exponential of an anti-Hermitian matrix is normalised. -/
theorem expm_col {expm : Mat ℂ → Mat ℂ} (hX : ExpmSpec expm) {M : Mat ℂ} (hM : M.r = M.c)
    (hherm : ∀ i < M.r, ∀ j < M.r, (starRingEnd ℂ) (M.v i j) = M.v j i) {dt : ℂ} (hdt : (starRingEnd ℂ) dt = -dt) (h0 : 0 < M.r) :
    ∑ i ∈ range M.r, ‖(expm (scaled dt M)).v i 0‖ ^ 2 = 1 := by
  have h := exp_col (scaled_skew hherm hdt) (⟨0, h0⟩ : Fin M.r)
  rw [Finset.sum_range, ← h]
  refine sum_congr rfl fun i _ => ?_
  exact congrArg (fun z : ℂ => ‖z‖ ^ 2) (expm_eq hX (M := scaled dt M) hM i ⟨0, h0⟩)

/-- **C77 (norm).**  For imaginary `dt` the norm of the result is one if at most `ncv` Krylov vectors were built; if there
are `ncv+1`, the weight of the last one is missing. -/
theorem C77_norm_partial {H : V →ₗ[ℂ] V} (hH : H.IsSymmetric) {eigh : Eigh} (hE : EighSpec eigh) {expm : Mat ℂ → Mat ℂ}
    (hX : ExpmSpec expm) {ncv : ℕ} (hn : 0 < ncv) {delta : ℝ} (hd : 0 < delta) (hd1 : delta ≤ 1) {dt : ℂ}
    (hdt : (starRingEnd ℂ) dt = -dt) {x : V} (hx : x ≠ 0) {o : Out V}
    (ho : simulate H eigh (timeParams ncv delta) true x = .ok o) :
    ∃ y, doStep H eigh expm id ncv delta dt x = .ok y ∧ (o.st.vecs.length ≤ ncv → ‖y‖ = 1) ∧
      (o.st.vecs.length = ncv + 1 → ‖y‖ ^ 2 = 1 - ‖(expm (scaled dt (heff o.st.kn o.st.eps))).v ncv 0‖ ^ 2) := by
  obtain ⟨o', ho', run, hs⟩ := doStep_eq hH hE (expm := expm) (cast := id) hn hd (dt := dt) hx
  rw [id, ho] at ho'
  cases ho'
  refine ⟨_, hs, ?_⟩
  have h1 := run_pos hd1 run
  have hr : (heff o.st.kn o.st.eps).r = o.st.vecs.length := run.tri.le
  have hcol := expm_col hX (M := heff o.st.kn o.st.eps) rfl (heff_herm run.tri) hdt (by rw [hr]; exact h1)
  rw [hr] at hcol
  set u : ℕ → ℂ := fun i => (expm (scaled dt (heff o.st.kn o.st.eps))).v i 0 with hu
  have hle := run.le
  have hnorm : ‖∑ n ∈ range (min ncv o.st.vecs.length), u n • o.st.vecs.getD n 0‖ ^ 2
      = ∑ n ∈ range (min ncv o.st.vecs.length), ‖u n‖ ^ 2 := by
    have e1 : ∑ n ∈ range (min ncv o.st.vecs.length), u n • o.st.vecs.getD n 0
        = ∑ n ∈ range o.st.vecs.length, (if n < min ncv o.st.vecs.length then u n else 0) • o.st.vecs.getD n 0 := by
      rw [← sum_subset (range_subset_range.mpr (min_le_right ncv o.st.vecs.length))]
      · exact sum_congr rfl fun n hn => by rw [if_pos (mem_range.mp hn)]
      · intro n _ hn; rw [if_neg (fun h => hn (mem_range.mpr h)), zero_smul]
    have e2 := combine_inner run.tri (fun n => if n < min ncv o.st.vecs.length then u n else 0)
      (fun n => if n < min ncv o.st.vecs.length then u n else 0)
    rw [← e1, inner_self_eq_norm_sq_to_K] at e2
    have e3 := congrArg Complex.re e2
    rw [Complex.re_sum] at e3
    have e4 : ((‖∑ n ∈ range (min ncv o.st.vecs.length), u n • o.st.vecs.getD n 0‖ : ℂ) ^ 2).re
        = ‖∑ n ∈ range (min ncv o.st.vecs.length), u n • o.st.vecs.getD n 0‖ ^ 2 := by rw [← Complex.ofReal_pow, Complex.ofReal_re]
    rw [← e4]
    refine e3.trans ?_
    rw [← sum_subset (range_subset_range.mpr (min_le_right ncv o.st.vecs.length))]
    · refine sum_congr rfl fun n hn => ?_
      rw [if_pos (mem_range.mp hn), ← Complex.normSq_eq_conj_mul_self, Complex.ofReal_re, Complex.normSq_eq_norm_sq]
    · intro n _ hn; rw [if_neg (fun h => hn (mem_range.mpr h))]; simp
  refine ⟨fun h2 => ?_, fun h2 => ?_⟩
  · rw [min_eq_right h2] at hnorm ⊢
    rw [hcol] at hnorm
    nlinarith [norm_nonneg (∑ n ∈ range o.st.vecs.length, u n • o.st.vecs.getD n 0)]
  · rw [hnorm, min_eq_left (by omega)]
    rw [h2, sum_range_succ] at hcol
    linarith

/-- **C77 (error).**  In a space of at most `ncv` dimensions the step with imaginary `dt` differs from `exp(dt·H)` applied to
the normalised state by at most `|dt|·delta`. -/
theorem C77_error_partial [FiniteDimensional ℂ V] {H : V →ₗ[ℂ] V} (hH : H.IsSymmetric) {eigh : Eigh} (hE : EighSpec eigh)
    {expm : Mat ℂ → Mat ℂ} (hX : ExpmSpec expm) {ncv : ℕ} (hn : 0 < ncv) (hdim : Module.finrank ℂ V ≤ ncv) {delta : ℝ}
    (hd : 0 < delta) (hd1 : delta ≤ 1) {dt : ℂ} (hdt : (starRingEnd ℂ) dt = -dt) {x : V} (hx : x ≠ 0) :
    ∃ y, doStep H eigh expm id ncv delta dt x = .ok y ∧ ‖y‖ = 1 ∧
      ‖y - NormedSpace.exp (dt • H.toContinuousLinearMap) (((1 / ‖x‖ : ℝ) : ℂ) • x)‖ ≤ ‖dt‖ * delta := by
  have : CompleteSpace V := FiniteDimensional.complete ℂ V
  obtain ⟨o, ho, run, hs⟩ := doStep_eq hH hE (expm := expm) (cast := id) hn hd (dt := dt) hx
  have hlen := (C52_exact hH hE hn (p := timeParams ncv delta) hx ho).1.trans hdim
  obtain ⟨y, hy, hnorm, -⟩ := C77_norm_partial hH hE hX hn hd hd1 hdt hx ho
  have hyy := hs.symm.trans hy
  refine ⟨y, hy, hnorm hlen, ?_⟩
  injection hyy with hyy
  rw [min_eq_right hlen] at hyy
  have h1 := run_pos hd1 run
  have hr : (heff o.st.kn o.st.eps).r = o.st.vecs.length := run.tri.le
  have hlast : ‖o.last‖ ≤ delta := by
    cases hc : o.converged with
    | false => have : o.st.vecs.length = ncv + 1 := run.full hc; omega
    | true =>
      rcases run.conv_iff.mp hc with ⟨h4, -⟩ | h4
      · exact h4.le
      · have h5 : ncv < o.st.vecs.length := h4.2.1
        omega
  have hfirst : o.st.vecs.getD 0 0 = ((1 / ‖x‖ : ℝ) : ℂ) • x := by
    have hf := run.first (o.st.vecs.getD 0 0) (by
      cases hv : o.st.vecs with
      | nil => rw [hv] at h1; simp at h1
      | cons a l => simp)
    have h0 : ‖x‖ ≠ 0 := norm_ne_zero_iff.mpr hx
    have hf' : (‖x‖ : ℂ) • o.st.vecs.getD 0 0 = x := hf
    have e := congrArg (((1 / ‖x‖ : ℝ) : ℂ) • ·) hf'
    simp only [smul_smul, ← Complex.ofReal_mul, one_div_mul_cancel h0, Complex.ofReal_one, one_smul] at e
    exact e
  have key := krylov_error (H := H.toContinuousLinearMap) hH (T := (heff o.st.kn o.st.eps).sq)
    (q := fun i => o.st.vecs.getD i 0) (c := ⟨o.st.vecs.length - 1, by omega⟩) (last := o.last) (by
      ext i j
      rw [Matrix.conjTranspose_apply]
      exact heff_herm run.tri j j.2 i i.2) (by
      intro a
      have hc := H_combine run.tri (fun i => if h : i < (heff o.st.kn o.st.eps).r then a ⟨i, h⟩ else 0)
      have hsum : ∀ f : ℕ → V, ∑ i ∈ range o.st.vecs.length, f i = ∑ i : Fin (heff o.st.kn o.st.eps).r, f i := by
        intro f; rw [← hr, Finset.sum_range]
      have hsum' : ∀ f : ℕ → ℂ, ∑ i ∈ range o.st.vecs.length, f i = ∑ i : Fin (heff o.st.kn o.st.eps).r, f i := by
        intro f; rw [← hr, Finset.sum_range]
      rw [hsum, hsum, if_neg (by omega), dif_pos (by omega)] at hc
      simp only [hsum', Fin.is_lt, dite_true, Fin.eta] at hc
      exact hc) ⟨0, by omega⟩ hdt
  simp only [hfirst] at key
  have hyk : y = ∑ i : Fin (heff o.st.kn o.st.eps).r, NormedSpace.exp (dt • (heff o.st.kn o.st.eps).sq) i ⟨0, by omega⟩ • o.st.vecs.getD i 0 := by
    rw [← hyy, ← hr, Finset.sum_range]
    refine sum_congr rfl fun i _ => ?_
    have h6 := expm_eq hX (M := scaled dt (heff o.st.kn o.st.eps)) rfl i ⟨0, by show 0 < (heff o.st.kn o.st.eps).r; omega⟩
    rw [scaled_sq] at h6
    exact congrArg (· • o.st.vecs.getD i 0) h6
  rw [hyk]
  exact key.trans (mul_le_mul_of_nonneg_left hlast (norm_nonneg _))

/-- The hypotheses are met by a spin in a transverse field. -/
example : ∃ (eigh : Eigh) (expm : Mat ℂ → Mat ℂ) (y : EuclideanSpace ℂ (Fin 2)),
    doStep sigmaX eigh expm id 2 (1 / 2) (-Complex.I * (3 : ℝ)) (EuclideanSpace.single 0 1) = .ok y ∧ ‖y‖ = 1 := by
  obtain ⟨eigh, hE⟩ := exists_eigh
  obtain ⟨expm, hX⟩ := exists_expm
  obtain ⟨y, h1, h2, -⟩ := C77_error_partial (ncv := 2) (delta := 1 / 2) sigmaX_symm hE hX (by norm_num) (by simp) (by norm_num) (by norm_num)
    (dt := -Complex.I * (3 : ℝ)) (by rw [map_mul, map_neg, Complex.conj_I, Complex.conj_ofReal]; ring)
    (x := EuclideanSpace.single 0 1) (by intro h; simpa using congrArg (fun v : EuclideanSpace ℂ (Fin 2) => v 0) h)
  exact ⟨eigh, expm, y, h1, h2⟩

/-! ## Disagreements -/

omit [InnerProductSpace ℂ V] in
theorem smul_norm [InnerProductSpace ℂ V] {c : ℝ} (hc : 0 < c) (x : V) :
    ((1 / ‖(c : ℂ) • x‖ : ℝ) : ℂ) • ((c : ℂ) • x) = ((1 / ‖x‖ : ℝ) : ℂ) • x := by
  rw [norm_smul, Complex.norm_real, Real.norm_of_nonneg hc.le, smul_smul, ← Complex.ofReal_mul]
  congr 2
  rcases eq_or_ne ‖x‖ 0 with h | h
  · rw [h]; simp
  · field_simp

/-- **The norm of the state is lost.**  The step returns the same vector for a state and for its positive multiples. -/
theorem C77_violated_scale (H : V → V) (eigh : Eigh) (expm : Mat ℂ → Mat ℂ) (ncv : ℕ) (delta : ℝ) (dt : ℂ) (x : V) {c : ℝ}
    (hc : 0 < c) : doStep H eigh expm id ncv delta dt ((c : ℂ) • x) = doStep H eigh expm id ncv delta dt x := by
  have : ∀ p, simulate H eigh p true ((c : ℂ) • x) = simulate H eigh p true x := by
    intro p
    unfold simulate
    rw [smul_norm hc]
    by_cases h : ‖x‖ = 0
    · rw [if_pos h, if_pos (by rw [norm_smul, h, mul_zero])]
    · rw [if_neg h, if_neg]
      rw [norm_smul, Complex.norm_real, Real.norm_of_nonneg hc.le]
      exact mul_ne_zero hc.ne' h
  unfold doStep
  simp only [id, this]

/-- **Weight is lost when the Krylov space is not exhausted.**  With `ncv=1` the evolution of `|0>` with `σ^x` for the time
`π/2` (which is `-i|1>`) returns the zero vector. -/
theorem C77_violated_cut {eigh : Eigh} (hE : EighSpec eigh) {expm : Mat ℂ → Mat ℂ} (hX : ExpmSpec expm) :
    doStep sigmaX eigh expm id 1 (1 / 2) (-Complex.I * (Real.pi / 2 : ℝ)) (EuclideanSpace.single 0 1) = .ok 0 := by
  have hx : (EuclideanSpace.single 0 1 : EuclideanSpace ℂ (Fin 2)) ≠ 0 := by
    intro h; simpa using congrArg (fun v : EuclideanSpace ℂ (Fin 2) => v 0) h
  obtain ⟨o, ho, run, hs⟩ := doStep_eq sigmaX_symm hE (expm := expm) (cast := id) (ncv := 1) (by norm_num) (delta := 1 / 2) (by norm_num)
    (dt := -Complex.I * (Real.pi / 2 : ℝ)) (x := EuclideanSpace.single 0 1) hx
  obtain ⟨hf, h3, hlast⟩ := sigmaX_run le_rfl run
  have tri := run.tri
  rw [hlast] at tri
  have hr : (heff o.st.kn o.st.eps).r = o.st.vecs.length := run.tri.le
  have hs2 : ∀ m : ℕ, (sigmaX ^ m) (EuclideanSpace.single 0 1)
      = WithLp.toLp 2 ![((1 : ℂ) + (-1) ^ m) / 2, (1 - (-1) ^ m) / 2] := by
    intro m
    induction m with
    | zero => ext i; fin_cases i <;> simp
    | succ m ih =>
      rw [pow_succ', Module.End.mul_apply, ih]
      ext i
      fin_cases i <;> simp [sigmaX, Matrix.toLpLin_apply, pow_succ]
      all_goals ring
  have hpow : ∀ m : ℕ, ((heff o.st.kn o.st.eps).sq ^ m) ⟨0, by omega⟩ ⟨0, by omega⟩ = (1 + (-1) ^ m) / 2 := by
    intro m
    have hk := pow_krylov tri (by omega) m
    have hk' := congrArg (fun w => inner ℂ (o.st.vecs.getD 0 0) w) hk
    simp only [inner_sum, inner_smul_right] at hk'
    rw [sum_eq_single ⟨0, by omega⟩] at hk'
    · rw [tri.orth 0 (by omega) 0 (by omega), hf] at hk'
      simp only [delta, if_true, mul_one] at hk'
      rw [← hk', hs2 m]
      simp [PiLp.inner_apply]
    · intro b _ hb
      rw [tri.orth 0 (by omega) b (by have := b.2; omega), delta_ne (fun h => hb (Fin.ext h.symm)), mul_zero]
    · intro hn; exact absurd (mem_univ _) hn
  have hsum := (hX (scaled (-Complex.I * (Real.pi / 2 : ℝ)) (heff o.st.kn o.st.eps)) rfl ⟨0, by show 0 < (heff o.st.kn o.st.eps).r; omega⟩
    ⟨0, by show 0 < (heff o.st.kn o.st.eps).r; omega⟩)
  rw [scaled_sq] at hsum
  generalize hz : -Complex.I * ((Real.pi / 2 : ℝ) : ℂ) = z at hs hsum ⊢
  have hterm : (fun m : ℕ => ((m.factorial : ℂ)⁻¹) * ((z • (heff o.st.kn o.st.eps).sq) ^ m) ⟨0, by omega⟩ ⟨0, by omega⟩)
      = fun m : ℕ => (1 / 2 : ℂ) * (((m.factorial : ℂ)⁻¹) • z ^ m + ((m.factorial : ℂ)⁻¹) • (-z) ^ m) := by
    funext m
    rw [smul_pow, Matrix.smul_apply, hpow, smul_eq_mul, smul_eq_mul, smul_eq_mul, neg_pow z]
    ring
  have hcosh : HasSum (fun m : ℕ => (1 / 2 : ℂ) * (((m.factorial : ℂ)⁻¹) • z ^ m + ((m.factorial : ℂ)⁻¹) • (-z) ^ m))
      ((1 / 2 : ℂ) * (NormedSpace.exp z + NormedSpace.exp (-z))) :=
    ((NormedSpace.exp_series_hasSum_exp' (𝕂 := ℂ) z).add (NormedSpace.exp_series_hasSum_exp' (𝕂 := ℂ) (-z))).mul_left _
  have hval : (expm (scaled z (heff o.st.kn o.st.eps))).v 0 0 = 0 := by
    rw [← hterm] at hcosh
    rw [hsum.unique hcosh, ← Complex.exp_eq_exp_ℂ, ← hz]
    have : Complex.cos ((Real.pi / 2 : ℝ) : ℂ) = 0 := by rw [← Complex.ofReal_cos, Real.cos_pi_div_two, Complex.ofReal_zero]
    rw [Complex.cos] at this
    rw [← this, show -(-Complex.I * ((Real.pi / 2 : ℝ) : ℂ)) = ((Real.pi / 2 : ℝ) : ℂ) * Complex.I by ring,
      show -Complex.I * ((Real.pi / 2 : ℝ) : ℂ) = -((Real.pi / 2 : ℝ) : ℂ) * Complex.I by ring]
    ring
  rw [hs, h3]
  simp [hval]

/-- **A real time step drops the imaginary part of the state.**  `state.astype(type(dt))` maps `i|0>` to zero, and the
step is `nan`. -/
theorem C77_violated_real {eigh : Eigh} {expm : Mat ℂ → Mat ℂ} {ncv : ℕ} (hn : 0 < ncv) {delta : ℝ} {dt : ℝ} :
    doStep sigmaX eigh expm (fun v => WithLp.toLp 2 fun i => ((v i).re : ℂ)) ncv delta dt (Complex.I • EuclideanSpace.single 0 1)
      = .error .nan := by
  have hz : (WithLp.toLp 2 fun i => (((Complex.I • EuclideanSpace.single 0 1 : EuclideanSpace ℂ (Fin 2)) i).re : ℂ)
      : EuclideanSpace ℂ (Fin 2)) = 0 := by
    ext i
    fin_cases i <;> simp
  have hi : init (timeParams ncv delta) = .ok (timeParams ncv delta) := by
    unfold init
    rw [if_neg (not_not.mpr (show (timeParams ncv delta).ncv ≥ (timeParams ncv delta).numeig from le_rfl)),
      if_neg (not_not.mpr (show 0 < (timeParams ncv delta).Ndiag from hn))]
  unfold doStep
  rw [hi]
  simp only [hz, simulate, norm_zero, if_true]

end

end PyTeN
