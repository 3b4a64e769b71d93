import Verif.Utils.Phase
import Mathlib.Analysis.SpecialFunctions.Trigonometric.Deriv
import Mathlib.Analysis.Calculus.LocalExtr.Basic
import Mathlib.Analysis.Real.Pi.Bounds
import Mathlib.Data.List.GetD
import Mathlib.Analysis.SpecialFunctions.Trigonometric.Inverse

/-! # C114: matching the phases of singular vectors -/

namespace PyTeN.Phase
open Finset

noncomputable section

/-! ## Specification -/

/-- Contract of `minimize_scalar(f,method='bounded',bounds=(a,b))`: a local minimum strictly inside the bounds, for continuous functions of
a period shorter than the interval. -/
def MiniSpec (mini : (ℝ → ℝ) → ℝ → ℝ → ℝ) : Prop :=
  ∀ (f : ℝ → ℝ) (a b T : ℝ), Continuous f → Function.Periodic f T → 0 < T → T < b - a → mini f a b ∈ Set.Ioo a b ∧ IsLocalMin f (mini f a b)

/-- Spec: squared distance of two vectors after the second got a phase. -/
def phaseDist (m : ℕ) (a b : ℕ → ℂ) (z : ℂ) : ℝ := ∑ i ∈ range m, Complex.normSq (a i - z * b i)

/-! ## Sinusoids -/

/-- A local minimum of a sinusoid is a global one. -/
theorem sinusoid_min {C p q x : ℝ} (h : IsLocalMin (fun t => C - (p * Real.cos t + q * Real.sin t)) x) (y : ℝ) :
    C - (p * Real.cos x + q * Real.sin x) ≤ C - (p * Real.cos y + q * Real.sin y) := by
  have hd : HasDerivAt (fun t => C - (p * Real.cos t + q * Real.sin t)) (-(p * (-Real.sin x) + q * Real.cos x)) x :=
    ((((Real.hasDerivAt_cos x).const_mul p).add ((Real.hasDerivAt_sin x).const_mul q)).const_sub C)
  have h0 := h.hasDerivAt_eq_zero hd
  have hQ : q * Real.cos x - p * Real.sin x = 0 := by linarith
  have key : ∀ t, p * Real.cos t + q * Real.sin t = (p * Real.cos x + q * Real.sin x) * Real.cos (t - x) := by
    intro t
    have e : t = x + (t - x) := by ring
    have h1 := Real.cos_add x (t - x)
    have h2 := Real.sin_add x (t - x)
    rw [← e] at h1 h2
    rw [h1, h2]
    linear_combination Real.sin (t - x) * hQ
  have hP : 0 ≤ p * Real.cos x + q * Real.sin x := by
    obtain ⟨ε, hε, hb⟩ := Metric.eventually_nhds_iff.mp h
    set h1 := min (ε / 2) 1 with hh1
    have hpos : 0 < h1 := lt_min (by linarith) one_pos
    have hlt : h1 < ε := lt_of_le_of_lt (min_le_left _ _) (by linarith)
    have h2 := hb (y := x + h1) (by rw [Real.dist_eq, add_sub_cancel_left, abs_of_pos hpos]; exact hlt)
    dsimp only at h2
    rw [key (x + h1), add_sub_cancel_left] at h2
    have h3 : Real.cos h1 < 1 := by
      rw [← Real.cos_zero]
      exact Real.cos_lt_cos_of_nonneg_of_le_pi le_rfl ((min_le_right _ _).trans (by linarith [Real.pi_gt_three])) hpos
    nlinarith
  rw [key y]
  nlinarith [Real.cos_le_one (y - x)]

theorem exp_phase (phi : ℝ) : Complex.exp (Complex.I * phi) = ⟨Real.cos phi, Real.sin phi⟩ := by
  rw [mul_comm, Complex.exp_mul_I]
  apply Complex.ext <;> simp [Complex.cos_ofReal_re, Complex.sin_ofReal_re]

theorem exp_phase_neg (phi : ℝ) : Complex.exp (-Complex.I * phi) = ⟨Real.cos phi, -Real.sin phi⟩ := by
  have := exp_phase (-phi)
  rw [Real.cos_neg, Real.sin_neg] at this
  rw [← this]
  push_cast
  ring_nf

theorem fun3_eq (m m' : ℕ) (U0 U1 V0 V1 : ℕ → ℂ) (phi : ℝ) : fun3 m m' U0 U1 V0 V1 phi =
    phaseDist m U0 U1 (Complex.exp (Complex.I * phi)) + phaseDist m' V0 V1 (Complex.exp (-Complex.I * phi)) := by
  have e : ∀ z : ℂ, (star z * z).re = Complex.normSq z := fun z => by
    rw [Complex.normSq_apply]; simp [Complex.mul_re]
  unfold fun3 phaseDist
  simp only [Complex.add_re, Complex.re_sum, e]

theorem fun1_eq (U0 U1 V0 V1 : ℂ) (phi : ℝ) : fun1 U0 U1 V0 V1 phi =
    Complex.normSq (U0 - Complex.exp (Complex.I * phi) * U1) + Complex.normSq (V0 - Complex.exp (Complex.I * phi) * V1) := by
  rw [exp_phase, Complex.normSq_apply, Complex.normSq_apply]
  simp only [fun1, Complex.sub_re, Complex.sub_im, Complex.mul_re, Complex.mul_im]
  ring

/-- One term of the cost is a sinusoid. -/
theorem term_sin (σ : ℝ) (hσ : σ ^ 2 = 1) (a b : ℂ) (t : ℝ) : Complex.normSq (a - (⟨Real.cos t, σ * Real.sin t⟩ : ℂ) * b)
    = (Complex.normSq a + Complex.normSq b) - ((2 * (a.re * b.re + a.im * b.im)) * Real.cos t + (2 * σ * (a.im * b.re - a.re * b.im)) * Real.sin t) := by
  simp only [Complex.normSq_apply, Complex.sub_re, Complex.sub_im, Complex.mul_re, Complex.mul_im]
  linear_combination (b.re ^ 2 + b.im ^ 2) * Real.sin t ^ 2 * hσ + (b.re ^ 2 + b.im ^ 2) * Real.sin_sq_add_cos_sq t

theorem dist_sin (σ : ℝ) (hσ : σ ^ 2 = 1) (m : ℕ) (a b : ℕ → ℂ) : ∃ C p q : ℝ, ∀ t : ℝ,
    phaseDist m a b (⟨Real.cos t, σ * Real.sin t⟩ : ℂ) = C - (p * Real.cos t + q * Real.sin t) := by
  refine ⟨∑ i ∈ range m, (Complex.normSq (a i) + Complex.normSq (b i)), ∑ i ∈ range m, 2 * ((a i).re * (b i).re + (a i).im * (b i).im),
    ∑ i ∈ range m, 2 * σ * ((a i).im * (b i).re - (a i).re * (b i).im), fun t => ?_⟩
  unfold phaseDist
  rw [sum_mul, sum_mul, ← sum_add_distrib, ← sum_sub_distrib]
  exact sum_congr rfl fun i _ => term_sin σ hσ _ _ t

theorem fun3_sin (m m' : ℕ) (U0 U1 V0 V1 : ℕ → ℂ) : ∃ C p q : ℝ, fun3 m m' U0 U1 V0 V1 = fun t => C - (p * Real.cos t + q * Real.sin t) := by
  obtain ⟨C, p, q, h⟩ := dist_sin 1 (by norm_num) m U0 U1
  obtain ⟨C', p', q', h'⟩ := dist_sin (-1) (by norm_num) m' V0 V1
  refine ⟨C + C', p + p', q + q', funext fun t => ?_⟩
  have h1 := h t
  have h2 := h' t
  rw [one_mul, ← exp_phase] at h1
  rw [neg_one_mul, ← exp_phase_neg] at h2
  rw [fun3_eq, h1, h2]
  ring

theorem fun1_sin (U0 U1 V0 V1 : ℂ) : ∃ C p q : ℝ, fun1 U0 U1 V0 V1 = fun t => C - (p * Real.cos t + q * Real.sin t) := by
  refine ⟨Complex.normSq U0 + Complex.normSq U1 + (Complex.normSq V0 + Complex.normSq V1),
    2 * (U0.re * U1.re + U0.im * U1.im) + 2 * (V0.re * V1.re + V0.im * V1.im),
    2 * 1 * (U0.im * U1.re - U0.re * U1.im) + 2 * 1 * (V0.im * V1.re - V0.re * V1.im), funext fun t => ?_⟩
  have h1 := term_sin 1 (by norm_num) U0 U1 t
  have h2 := term_sin 1 (by norm_num) V0 V1 t
  rw [one_mul, ← exp_phase] at h1 h2
  rw [fun1_eq, h1, h2]
  ring

theorem mini_sin {mini : (ℝ → ℝ) → ℝ → ℝ → ℝ} (hm : MiniSpec mini) {f : ℝ → ℝ} (hf : ∃ C p q : ℝ, f = fun t => C - (p * Real.cos t + q * Real.sin t)) :
    -2 * Real.pi < mini f (-2 * Real.pi) (2 * Real.pi) ∧ mini f (-2 * Real.pi) (2 * Real.pi) < 2 * Real.pi ∧
      IsLocalMin f (mini f (-2 * Real.pi) (2 * Real.pi)) ∧ ∀ y, f (mini f (-2 * Real.pi) (2 * Real.pi)) ≤ f y := by
  obtain ⟨C, p, q, rfl⟩ := hf
  obtain ⟨h1, h2⟩ := hm (fun t => C - (p * Real.cos t + q * Real.sin t)) (-2 * Real.pi) (2 * Real.pi) (2 * Real.pi) (by fun_prop)
    (fun t => by simp only [Real.cos_add_two_pi, Real.sin_add_two_pi]) Real.two_pi_pos (by linarith [Real.pi_pos])
  exact ⟨h1.1, h1.2, h2, fun y => sinusoid_min h2 y⟩

/-! ## Theorems -/

/-- **C114**: `findPhase2` returns for every column the phase for which `e^{iφ}U1[:,n]` and `e^{-iφ}V1[n,:]` are, of all phases, closest to
the columns of `U0` and the rows of `V0`; any local minimum found by the solver will do. -/
theorem C114_closest {mini : (ℝ → ℝ) → ℝ → ℝ → ℝ} (hm : MiniSpec mini) {U0 U1 V0 V1 : Mat ℂ} {phi : List ℝ}
    (h : findPhase2 mini U0 U1 V0 V1 = .ok phi) : phi.length = U0.r ∧ ∀ n < U0.r, ∀ y : ℝ,
      phaseDist U0.r (fun i => U0.v i n) (fun i => U1.v i n) (Complex.exp (Complex.I * (phi.getD n 0 : ℝ))) +
        phaseDist V0.c (fun j => V0.v n j) (fun j => V1.v n j) (Complex.exp (-Complex.I * (phi.getD n 0 : ℝ))) ≤
      phaseDist U0.r (fun i => U0.v i n) (fun i => U1.v i n) (Complex.exp (Complex.I * y)) +
        phaseDist V0.c (fun j => V0.v n j) (fun j => V1.v n j) (Complex.exp (-Complex.I * y)) := by
  unfold findPhase2 at h
  split_ifs at h with h0 h1 h2
  · cases h
    exact ⟨h0.symm, fun n hn => by omega⟩
  cases h
  refine ⟨by simp, fun n hn y => ?_⟩
  rw [List.getD_eq_getElem _ _ (by simpa using hn), List.getElem_map, List.getElem_range, ← fun3_eq, ← fun3_eq]
  exact (mini_sin hm (fun3_sin _ _ _ _ _ _)).2.2.2 y

/-- **C114**, the phases of singular vectors: if `U1` and `V1` are `U0` and `V0` up to the phases `e^{-iθ}` and `e^{iθ}` that a singular
value decomposition leaves open, the returned phases undo them exactly. -/
theorem C114_recovers {mini : (ℝ → ℝ) → ℝ → ℝ → ℝ} (hm : MiniSpec mini) {U0 U1 V0 V1 : Mat ℂ} {phi : List ℝ}
    (h : findPhase2 mini U0 U1 V0 V1 = .ok phi) (θ : ℕ → ℝ)
    (hU : ∀ i < U0.r, ∀ n < U0.r, U1.v i n = Complex.exp (-Complex.I * θ n) * U0.v i n)
    (hV : ∀ n < U0.r, ∀ j < V0.c, V1.v n j = Complex.exp (Complex.I * θ n) * V0.v n j) :
    (∀ i < U0.r, ∀ n < U0.r, Complex.exp (Complex.I * (phi.getD n 0 : ℝ)) * U1.v i n = U0.v i n) ∧
    ∀ n < U0.r, ∀ j < V0.c, Complex.exp (-Complex.I * (phi.getD n 0 : ℝ)) * V1.v n j = V0.v n j := by
  obtain ⟨-, hc⟩ := C114_closest hm h
  have hnn : ∀ m a b z, 0 ≤ phaseDist m a b z := fun m a b z => sum_nonneg fun _ _ => Complex.normSq_nonneg _
  have hz : ∀ n < U0.r, phaseDist U0.r (fun i => U0.v i n) (fun i => U1.v i n) (Complex.exp (Complex.I * (phi.getD n 0 : ℝ))) = 0 ∧
      phaseDist V0.c (fun j => V0.v n j) (fun j => V1.v n j) (Complex.exp (-Complex.I * (phi.getD n 0 : ℝ))) = 0 := by
    intro n hn
    have h1 := hc n hn (θ n)
    have e1 : phaseDist U0.r (fun i => U0.v i n) (fun i => U1.v i n) (Complex.exp (Complex.I * θ n)) = 0 :=
      sum_eq_zero fun i hi => by
        dsimp only
        rw [hU i (mem_range.mp hi) n hn, ← mul_assoc, ← Complex.exp_add, neg_mul, add_neg_cancel, Complex.exp_zero, one_mul, sub_self, map_zero]
    have e2 : phaseDist V0.c (fun j => V0.v n j) (fun j => V1.v n j) (Complex.exp (-Complex.I * θ n)) = 0 :=
      sum_eq_zero fun j hj => by
        dsimp only
        rw [hV n hn j (mem_range.mp hj), ← mul_assoc, ← Complex.exp_add, neg_mul, neg_add_cancel, Complex.exp_zero, one_mul, sub_self, map_zero]
    rw [e1, e2, add_zero] at h1
    have a1 := hnn U0.r (fun i => U0.v i n) (fun i => U1.v i n) (Complex.exp (Complex.I * (phi.getD n 0 : ℝ)))
    have a2 := hnn V0.c (fun j => V0.v n j) (fun j => V1.v n j) (Complex.exp (-Complex.I * (phi.getD n 0 : ℝ)))
    exact ⟨by linarith, by linarith⟩
  constructor
  · intro i hi n hn
    have := (sum_eq_zero_iff_of_nonneg fun _ _ => Complex.normSq_nonneg _).mp (hz n hn).1 i (mem_range.mpr hi)
    exact (sub_eq_zero.mp (Complex.normSq_eq_zero.mp this)).symm
  · intro n hn j hj
    have := (sum_eq_zero_iff_of_nonneg fun _ _ => Complex.normSq_nonneg _).mp (hz n hn).2 j (mem_range.mpr hj)
    exact (sub_eq_zero.mp (Complex.normSq_eq_zero.mp this)).symm

/-- **C114**: square matrices of one size are accepted. -/
theorem C114_succeeds (mini : (ℝ → ℝ) → ℝ → ℝ → ℝ) {D : ℕ} {U0 U1 V0 V1 : Mat ℂ} (h1 : U0.r = D ∧ U0.c = D) (h2 : U1.r = D ∧ U1.c = D)
    (h3 : V0.r = D ∧ V0.c = D) (h4 : V1.r = D ∧ V1.c = D) : ∃ phi, findPhase2 mini U0 U1 V0 V1 = .ok phi := by
  unfold findPhase2
  rw [h1.1, h1.2, h2.1, h2.2, h3.1, h3.2, h4.1, h4.2]
  split_ifs with a b c
  · exact ⟨_, rfl⟩
  · omega
  · omega
  · exact ⟨_, rfl⟩

/-- **C114 (partial: what `findPhase` minimises)**: on the diagonals, the sum of the two distances with the same phase on both sides. -/
theorem C114_diag_partial {mini : (ℝ → ℝ) → ℝ → ℝ → ℝ} (hm : MiniSpec mini) {U0 U1 V0 V1 : List ℂ} {phi : List ℝ}
    (h : findPhase mini U0 U1 V0 V1 = .ok phi) : phi.length = U0.length ∧ ∀ n < U0.length, ∀ y : ℝ,
      Complex.normSq (U0.getD n 0 - Complex.exp (Complex.I * (phi.getD n 0 : ℝ)) * U1.getD n 0) +
        Complex.normSq (V0.getD n 0 - Complex.exp (Complex.I * (phi.getD n 0 : ℝ)) * V1.getD n 0) ≤
      Complex.normSq (U0.getD n 0 - Complex.exp (Complex.I * y) * U1.getD n 0) +
        Complex.normSq (V0.getD n 0 - Complex.exp (Complex.I * y) * V1.getD n 0) := by
  unfold findPhase at h
  split_ifs at h
  cases h
  refine ⟨by simp, fun n hn y => ?_⟩
  rw [List.getD_eq_getElem (l := List.map _ _) _ (by simpa using hn), List.getElem_map, List.getElem_range, ← fun1_eq, ← fun1_eq]
  exact (mini_sin hm (fun1_sin _ _ _ _)).2.2.2 y

/-- **C114 is violated** by `findPhase`: with `U1=e^{-iθ}`, `V1=e^{iθ}` (`cos θ=3/5`) and `U0=V0=1` no exact solver returns the phase
`θ`, as `fun1` uses `e^{iφ}` for `V` as well. -/
theorem C114_violated_diag {mini : (ℝ → ℝ) → ℝ → ℝ → ℝ} (hm : MiniSpec mini) : ∃ phi, findPhase mini [1] [⟨3 / 5, -4 / 5⟩] [1] [⟨3 / 5, 4 / 5⟩] = .ok phi ∧
    Complex.exp (Complex.I * (phi.getD 0 0 : ℝ)) * ⟨3 / 5, -4 / 5⟩ ≠ 1 ∧
    ∃ θ : ℝ, Complex.exp (Complex.I * θ) * ⟨3 / 5, -4 / 5⟩ = 1 ∧ Complex.exp (-Complex.I * θ) * ⟨3 / 5, 4 / 5⟩ = 1 := by
  refine ⟨[mini (fun1 1 ⟨3 / 5, -4 / 5⟩ 1 ⟨3 / 5, 4 / 5⟩) (-2 * Real.pi) (2 * Real.pi)], by simp [findPhase], ?_, ?_⟩
  · rw [List.getD_cons_zero]
    set x := mini (fun1 1 ⟨3 / 5, -4 / 5⟩ 1 ⟨3 / 5, 4 / 5⟩) (-2 * Real.pi) (2 * Real.pi) with hx
    have hmin := (mini_sin hm (fun1_sin 1 ⟨3 / 5, -4 / 5⟩ 1 ⟨3 / 5, 4 / 5⟩)).2.2.2
    rw [← hx] at hmin
    have e : ∀ t, fun1 1 ⟨3 / 5, -4 / 5⟩ 1 ⟨3 / 5, 4 / 5⟩ t = 4 - 12 / 5 * Real.cos t := by
      intro t
      simp only [fun1, Complex.one_re, Complex.one_im]
      linear_combination 2 * Real.sin_sq_add_cos_sq t
    have h0 := hmin 0
    rw [e, e, Real.cos_zero] at h0
    have h1 : Real.cos x = 1 := le_antisymm (Real.cos_le_one x) (by linarith)
    rw [exp_phase]
    intro h
    have hr := congrArg Complex.re h
    have hi := congrArg Complex.im h
    simp only [Complex.mul_re, Complex.mul_im, Complex.one_re, Complex.one_im] at hr hi
    rw [h1] at hr hi
    have h2 := Real.sin_sq_add_cos_sq x
    rw [h1] at h2
    nlinarith
  · refine ⟨Real.arccos (3 / 5), ?_, ?_⟩
    · rw [exp_phase, Real.cos_arccos (by norm_num) (by norm_num), Real.sin_arccos, show (1 : ℝ) - (3 / 5) ^ 2 = (4 / 5) ^ 2 by norm_num,
        Real.sqrt_sq (by norm_num)]
      apply Complex.ext <;> simp only [Complex.mul_re, Complex.mul_im, Complex.one_re, Complex.one_im] <;> norm_num
    · rw [exp_phase_neg, Real.cos_arccos (by norm_num) (by norm_num), Real.sin_arccos, show (1 : ℝ) - (3 / 5) ^ 2 = (4 / 5) ^ 2 by norm_num,
        Real.sqrt_sq (by norm_num)]
      apply Complex.ext <;> simp only [Complex.mul_re, Complex.mul_im, Complex.one_re, Complex.one_im] <;> norm_num

/-! ## The contract can be met -/

theorem exists_mini : ∃ mini, MiniSpec mini := by
  have key : ∀ (f : ℝ → ℝ) (a b : ℝ), ∃ x, ∀ T, Continuous f → Function.Periodic f T → 0 < T → T < b - a → x ∈ Set.Ioo a b ∧ IsLocalMin f x := by
    intro f a b
    by_cases hf : ∃ T, Continuous f ∧ Function.Periodic f T ∧ 0 < T ∧ T < b - a
    swap
    · exact ⟨0, fun T h1 h2 h3 h4 => absurd ⟨T, h1, h2, h3, h4⟩ hf⟩
    obtain ⟨T, h1, h2, h3, h4⟩ := hf
    set c := (b - a - T) / 2 with hc
    have hc0 : 0 < c := by rw [hc]; linarith
    obtain ⟨x, hx, hmin⟩ := (isCompact_Icc (a := a + c) (b := a + c + T)).exists_isMinOn ⟨a + c, by constructor <;> linarith⟩ h1.continuousOn
    have hg : ∀ y, f x ≤ f y := by
      intro y
      obtain ⟨z, hz, hfz⟩ := h2.exists_mem_Ico h3 y (a + c)
      rw [hfz]
      exact hmin ⟨hz.1, hz.2.le⟩
    exact ⟨x, fun _ _ _ _ _ => ⟨⟨by linarith [hx.1], by linarith [hx.2]⟩, Filter.Eventually.of_forall hg⟩⟩
  choose mini h using key
  exact ⟨mini, fun f a b T h1 h2 h3 h4 => h f a b T h1 h2 h3 h4⟩

/-- C114 applies to the singular vectors of the identity with the phases `1` and `-1`. -/
example : ∃ mini phi, MiniSpec mini ∧ findPhase2 mini ⟨2, 2, delta ℂ⟩ ⟨2, 2, fun i j => Complex.exp (-Complex.I * (j : ℝ)) * delta ℂ i j⟩
      ⟨2, 2, delta ℂ⟩ ⟨2, 2, fun i j => Complex.exp (Complex.I * (i : ℝ)) * delta ℂ i j⟩ = .ok phi ∧
    Complex.exp (Complex.I * (phi.getD 1 0 : ℝ)) * Complex.exp (-Complex.I * ((1 : ℕ) : ℝ)) = 1 := by
  obtain ⟨mini, hm⟩ := exists_mini
  obtain ⟨phi, h⟩ := C114_succeeds mini (D := 2) (U0 := ⟨2, 2, delta ℂ⟩) (U1 := ⟨2, 2, fun i j => Complex.exp (-Complex.I * (j : ℝ)) * delta ℂ i j⟩)
      (V0 := ⟨2, 2, delta ℂ⟩) (V1 := ⟨2, 2, fun i j => Complex.exp (Complex.I * (i : ℝ)) * delta ℂ i j⟩) ⟨rfl, rfl⟩ ⟨rfl, rfl⟩ ⟨rfl, rfl⟩ ⟨rfl, rfl⟩
  refine ⟨mini, phi, hm, h, ?_⟩
  have := (C114_recovers hm h (fun n => (n : ℝ)) (fun _ _ _ _ => rfl) fun _ _ _ _ => rfl).1 1 (by norm_num) 1 (by norm_num)
  simpa [delta] using this

end

end PyTeN.Phase
