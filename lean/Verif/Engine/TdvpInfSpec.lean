import Mathlib.Analysis.Normed.Algebra.GelfandFormula
import Mathlib.Analysis.Normed.Module.FiniteDimension
import Mathlib.Analysis.Matrix.Normed
import Mathlib.Analysis.SpecificLimits.Basic
import Mathlib.Data.Complex.BigOperators
import Mathlib.LinearAlgebra.Matrix.PosDef
import Mathlib.LinearAlgebra.Matrix.Trace
import Mathlib.Algebra.BigOperators.Intervals

/-! # Spec for `TDVPupdate`: matrix elements of a nearest-neighbour Hamiltonian between a uniform state and its tangent vectors -/

namespace PyTeN.TdvpInf
open Finset Matrix Filter Topology
noncomputable section

variable {D : ℕ}

/-- Spec: a left block `Y` (rows: lower, columns: upper indices) extended by one site, with the tensors `A` (upper) and `l` (lower, conjugated). -/
def cap (d : ℕ) (A l : ℕ → Matrix (Fin D) (Fin D) ℂ) (Y : Matrix (Fin D) (Fin D) ℂ) : Matrix (Fin D) (Fin D) ℂ :=
  ∑ s ∈ range d, (l s)ᴴ * Y * A s

/-- Spec: the same for two sites with the operator `h` (`h s1 s2 t1 t2 = ⟨t1 t2|h|s1 s2⟩`) between them. -/
def capH (d : ℕ) (h : ℕ → ℕ → ℕ → ℕ → ℂ) (A l1 l2 : ℕ → Matrix (Fin D) (Fin D) ℂ) (Y : Matrix (Fin D) (Fin D) ℂ) : Matrix (Fin D) (Fin D) ℂ :=
  ∑ s1 ∈ range d, ∑ s2 ∈ range d, ∑ t1 ∈ range d, ∑ t2 ∈ range d, h s1 s2 t1 t2 • ((l1 t1 * l2 t2)ᴴ * Y * (A s1 * A s2))

/-- Spec: extension by several sites. -/
def caps (d : ℕ) (A : ℕ → Matrix (Fin D) (Fin D) ℂ) : List (ℕ → Matrix (Fin D) (Fin D) ℂ) → Matrix (Fin D) (Fin D) ℂ → Matrix (Fin D) (Fin D) ℂ
  | [], Y => Y
  | l :: ls, Y => caps d A ls (cap d A l Y)

/-- Spec: extension by several sites, with the sum of `h` over all pairs of neighbours among them. -/
def sumH (d : ℕ) (h : ℕ → ℕ → ℕ → ℕ → ℂ) (A : ℕ → Matrix (Fin D) (Fin D) ℂ) :
    List (ℕ → Matrix (Fin D) (Fin D) ℂ) → Matrix (Fin D) (Fin D) ℂ → Matrix (Fin D) (Fin D) ℂ
  | l1 :: l2 :: ls, Y => caps d A ls (capH d h A l1 l2 Y) + sumH d h A (l2 :: ls) (cap d A l1 Y)
  | _, _ => 0

/-- Spec: `⟨A…A B A…A|H|A…A⟩` with `p` sites to the left and `q` sites to the right of the one with `B`; the left boundary is the unit matrix, the right
boundary `r`. -/
def chainH (d : ℕ) (h : ℕ → ℕ → ℕ → ℕ → ℂ) (A : ℕ → Matrix (Fin D) (Fin D) ℂ) (r : Matrix (Fin D) (Fin D) ℂ) (p q : ℕ) (B : ℕ → Matrix (Fin D) (Fin D) ℂ) : ℂ :=
  (sumH d h A (List.replicate p A ++ B :: List.replicate q A) 1 * r).trace

/-- Spec: the overlap of two tangent vectors with tensors `B` (conjugated) and `C` at the same site, for the boundaries `1` and `r`. -/
def metric (d : ℕ) (r : Matrix (Fin D) (Fin D) ℂ) (B C : ℕ → Matrix (Fin D) (Fin D) ℂ) : ℂ := (cap d C B 1 * r).trace

variable {d : ℕ} {h : ℕ → ℕ → ℕ → ℕ → ℂ} {A B l l1 l2 VL : ℕ → Matrix (Fin D) (Fin D) ℂ} {r k Y Z sr ir : Matrix (Fin D) (Fin D) ℂ}

theorem cap_add : cap d A l (Y + Z) = cap d A l Y + cap d A l Z := by
  simp only [cap, Matrix.mul_add, Matrix.add_mul, sum_add_distrib]

theorem cap_sub : cap d A l (Y - Z) = cap d A l Y - cap d A l Z := by
  simp only [cap, Matrix.mul_sub, Matrix.sub_mul, sum_sub_distrib]

theorem cap_smul (c : ℂ) : cap d A l (c • Y) = c • cap d A l Y := by
  simp only [cap, Matrix.mul_smul, Matrix.smul_mul, smul_sum]

theorem cap_zero : cap d A l 0 = 0 := by simp [cap]

theorem capH_zero : capH d h A l1 l2 0 = 0 := by simp [capH]

theorem caps_zero : ∀ ls, caps d A ls 0 = 0
  | [] => rfl
  | l :: ls => by rw [caps, cap_zero, caps_zero ls]

theorem sumH_zero : ∀ ls, sumH d h A ls 0 = 0
  | [] => by simp [sumH]
  | [_] => by simp [sumH]
  | l1 :: l2 :: ls => by rw [sumH, capH_zero, caps_zero, cap_zero, sumH_zero (l2 :: ls), add_zero]

theorem caps_append : ∀ (ls ls' : List (ℕ → Matrix (Fin D) (Fin D) ℂ)) (Y : Matrix (Fin D) (Fin D) ℂ), caps d A (ls ++ ls') Y = caps d A ls' (caps d A ls Y)
  | [], _, _ => rfl
  | l :: ls, ls', Y => by rw [List.cons_append, caps, caps, caps_append ls ls']

theorem caps_rep (n : ℕ) : ∀ Y, caps d A (List.replicate n A) Y = (cap d A A)^[n] Y := by
  induction n with
  | zero => intro Y; rfl
  | succ n ih => intro Y; rw [List.replicate_succ, caps, ih, Function.iterate_succ_apply]

theorem trace_cap (hr : ∑ s ∈ range d, A s * r * (A s)ᴴ = r) : (cap d A A Y * r).trace = (Y * r).trace := by
  conv_rhs => rw [← hr]
  simp only [cap, Finset.sum_mul, Finset.mul_sum, Matrix.trace_sum]
  refine sum_congr rfl fun s _ => ?_
  rw [Matrix.mul_assoc, Matrix.mul_assoc, Matrix.trace_mul_comm, Matrix.mul_assoc, Matrix.mul_assoc]

theorem trace_caps (hr : ∑ s ∈ range d, A s * r * (A s)ᴴ = r) (n : ℕ) : ((cap d A A)^[n] Y * r).trace = (Y * r).trace := by
  induction n with
  | zero => rfl
  | succ n ih => rw [Function.iterate_succ_apply', trace_cap hr, ih]

theorem iter_one (h1 : cap d A A 1 = 1) (n : ℕ) : (cap d A A)^[n] 1 = 1 := Function.iterate_fixed h1 n

/-- The matrix elements of the Hamiltonian between the uniform state and a tangent vector in the left gauge. -/
theorem chainH_eq (h1 : cap d A A 1 = 1) (hr : ∑ s ∈ range d, A s * r * (A s)ᴴ = r) (hB : cap d A B 1 = 0) (p q : ℕ) :
    chainH d h A r (p + 1) (q + 1) B = (capH d h A B A 1 * r).trace + (capH d h A A B 1 * r).trace
      + ∑ n ∈ range p, (cap d A B ((cap d A A)^[n] (capH d h A A A 1)) * r).trace := by
  induction p with
  | zero =>
    simp only [chainH, zero_add, List.replicate_one, List.singleton_append, range_zero, sum_empty, add_zero]
    rw [List.replicate_succ, sumH, h1, sumH, hB, sumH_zero, add_zero, Matrix.add_mul, Matrix.trace_add, add_comm, caps_rep, trace_caps hr]
    congr 1
    rw [show A :: List.replicate q A = List.replicate (q + 1) A from rfl, caps_rep, trace_caps hr]
  | succ p ih =>
    rw [sum_range_succ, ← add_assoc, ← ih, chainH, chainH]
    rw [show List.replicate (p + 1 + 1) A ++ B :: List.replicate (q + 1) A = A :: A :: (List.replicate p A ++ B :: List.replicate (q + 1) A) from rfl,
      sumH, h1, show A :: (List.replicate p A ++ B :: List.replicate (q + 1) A) = List.replicate (p + 1) A ++ B :: List.replicate (q + 1) A from rfl,
      Matrix.add_mul, Matrix.trace_add, add_comm]
    congr 1
    rw [caps_append, caps, caps_rep, caps_rep, trace_caps hr]

/-- The geometric series in terms of the solution of the linear system. -/
theorem series (h1 : cap d A A 1 = 1) (hr : ∑ s ∈ range d, A s * r * (A s)ᴴ = r) (ht : r.trace = 1)
    (hk : k - cap d A A k + (k * r).trace • (1 : Matrix (Fin D) (Fin D) ℂ) = Y - (Y * r).trace • (1 : Matrix (Fin D) (Fin D) ℂ)) :
    (k * r).trace = 0 ∧ ∀ n, (cap d A A)^[n] Y = (Y * r).trace • (1 : Matrix (Fin D) (Fin D) ℂ) + ((cap d A A)^[n] k - (cap d A A)^[n + 1] k) := by
  have h0 : (k * r).trace = 0 := by
    have := congrArg (fun Z => (Z * r).trace) hk
    simp only [Matrix.add_mul, Matrix.sub_mul, Matrix.trace_add, Matrix.trace_sub, Matrix.smul_mul, Matrix.trace_smul, Matrix.one_mul, ht, trace_cap hr] at this
    simpa using this
  refine ⟨h0, fun n => ?_⟩
  rw [h0, zero_smul, add_zero] at hk
  induction n with
  | zero => simp only [Function.iterate_zero, id, zero_add, Function.iterate_one]; rw [hk]; abel
  | succ n ih =>
    rw [Function.iterate_succ_apply', ih, cap_add, cap_smul, h1, cap_sub, ← Function.iterate_succ_apply' (cap d A A), ← Function.iterate_succ_apply' (cap d A A)]

theorem chainH_solved (h1 : cap d A A 1 = 1) (hr : ∑ s ∈ range d, A s * r * (A s)ᴴ = r) (ht : r.trace = 1) (hB : cap d A B 1 = 0)
    (hk : k - cap d A A k + (k * r).trace • (1 : Matrix (Fin D) (Fin D) ℂ)
      = capH d h A A A 1 - (capH d h A A A 1 * r).trace • (1 : Matrix (Fin D) (Fin D) ℂ)) (p q : ℕ) :
    chainH d h A r (p + 1) (q + 1) B = (capH d h A B A 1 * r).trace + (capH d h A A B 1 * r).trace
      + (cap d A B k * r).trace - (cap d A B ((cap d A A)^[p] k) * r).trace := by
  rw [chainH_eq h1 hr hB, add_sub_assoc]
  congr 1
  obtain ⟨-, hn⟩ := series h1 hr ht hk
  have e : ∀ n, (cap d A B ((cap d A A)^[n] (capH d h A A A 1)) * r).trace = (cap d A B ((cap d A A)^[n] k) * r).trace - (cap d A B ((cap d A A)^[n + 1] k) * r).trace := by
    intro n
    rw [hn n, cap_add, cap_smul, hB, smul_zero, zero_add, cap_sub, Matrix.sub_mul, Matrix.trace_sub]
  simp only [e]
  rw [Finset.sum_range_sub' (fun n => (cap d A B ((cap d A A)^[n] k) * r).trace) p]
  rfl

/-! ## Tangent vectors `VL·x·r^(-1/2)` -/

theorem cap_tangent (x : Matrix (Fin D) (Fin D) ℂ) : cap d A (fun s => VL s * x * ir) Y = irᴴ * xᴴ * cap d A VL Y := by
  simp only [cap, conjTranspose_mul, Finset.mul_sum, Matrix.mul_assoc]

theorem capH_tangent_left (x : Matrix (Fin D) (Fin D) ℂ) :
    (capH d h A (fun s => VL s * x * ir) l Y * r).trace = ∑ s1 ∈ range d, ∑ s2 ∈ range d, ∑ t1 ∈ range d, ∑ t2 ∈ range d,
      h s1 s2 t1 t2 * (xᴴ * ((VL t1)ᴴ * Y * A s1 * (A s2 * r * (l t2)ᴴ * irᴴ))).trace := by
  simp only [capH, Finset.sum_mul, Matrix.trace_sum, Matrix.smul_mul, Matrix.trace_smul, smul_eq_mul]
  refine sum_congr rfl fun s1 _ => sum_congr rfl fun s2 _ => sum_congr rfl fun t1 _ => sum_congr rfl fun t2 _ => ?_
  congr 1
  simp only [conjTranspose_mul, Matrix.mul_assoc]
  rw [Matrix.trace_mul_comm (l t2)ᴴ]
  simp only [Matrix.mul_assoc]
  rw [Matrix.trace_mul_comm irᴴ]
  simp only [Matrix.mul_assoc]

theorem capH_tangent_right (x : Matrix (Fin D) (Fin D) ℂ) : capH d h A l (fun s => VL s * x * ir) Y = irᴴ * xᴴ * capH d h A l VL Y := by
  simp only [capH, conjTranspose_mul, Finset.mul_sum, Matrix.mul_smul, Matrix.mul_assoc]

/-- The matrix `xopt`. -/
def xopt (d : ℕ) (h : ℕ → ℕ → ℕ → ℕ → ℂ) (A VL : ℕ → Matrix (Fin D) (Fin D) ℂ) (r sr ir k : Matrix (Fin D) (Fin D) ℂ) : Matrix (Fin D) (Fin D) ℂ :=
  (∑ s1 ∈ range d, ∑ s2 ∈ range d, ∑ t1 ∈ range d, ∑ t2 ∈ range d, h s1 s2 t1 t2 • ((VL t1)ᴴ * A s1 * (A s2 * r * (A t2)ᴴ * irᴴ)))
    + capH d h A A VL 1 * sr + cap d A VL k * sr

theorem xopt_pair (hs : r * irᴴ = sr) (x : Matrix (Fin D) (Fin D) ℂ) :
    (xᴴ * xopt d h A VL r sr ir k).trace = (capH d h A (fun s => VL s * x * ir) A 1 * r).trace + (capH d h A A (fun s => VL s * x * ir) 1 * r).trace
      + (cap d A (fun s => VL s * x * ir) k * r).trace := by
  rw [capH_tangent_left, capH_tangent_right, cap_tangent, xopt, Matrix.mul_add, Matrix.mul_add, Matrix.trace_add, Matrix.trace_add]
  congr 1
  · congr 1
    · simp only [Finset.mul_sum, Matrix.trace_sum, Matrix.mul_smul, Matrix.trace_smul, smul_eq_mul, Matrix.mul_one]
    · rw [← hs, Matrix.mul_assoc, Matrix.mul_assoc, Matrix.trace_mul_comm irᴴ]
      simp only [Matrix.mul_assoc]
  · rw [← hs, Matrix.mul_assoc, Matrix.mul_assoc, Matrix.trace_mul_comm irᴴ]
    simp only [Matrix.mul_assoc]

theorem metric_tangent (hV : cap d VL VL 1 = 1) (hi : ir * r * irᴴ = 1) (x y : Matrix (Fin D) (Fin D) ℂ) :
    metric d r (fun s => VL s * x * ir) (fun s => VL s * y * ir) = (xᴴ * y).trace := by
  have e : cap d (fun s => VL s * y * ir) (fun s => VL s * x * ir) 1 = irᴴ * (xᴴ * cap d VL VL 1 * y * ir) := by
    simp only [cap, conjTranspose_mul, Finset.mul_sum, Finset.sum_mul, Matrix.mul_assoc]
  rw [metric, e, hV, Matrix.mul_assoc, Matrix.trace_mul_comm, Matrix.mul_one, Matrix.mul_assoc, Matrix.mul_assoc, ← Matrix.mul_assoc ir, hi, Matrix.mul_one]

/-! ## The limit of long chains -/

/-- Powers of an endomorphism whose eigenvalues have modulus below one tend to zero. -/
theorem pow_tendsto {V : Type*} [NormedAddCommGroup V] [NormedSpace ℂ V] [FiniteDimensional ℂ V] (f : Module.End ℂ V)
    (hf : ∀ (μ : ℂ) (v : V), v ≠ 0 → f v = μ • v → ‖μ‖ < 1) (v : V) : Tendsto (fun n : ℕ => (f ^ n) v) atTop (𝓝 0) := by
  have : CompleteSpace V := FiniteDimensional.complete ℂ V
  rcases subsingleton_or_nontrivial V with hs | hs
  · have : (fun n : ℕ => (f ^ n) v) = fun _ => 0 := funext fun n => Subsingleton.elim _ _
    rw [this]; exact tendsto_const_nhds
  let F : V →L[ℂ] V := LinearMap.toContinuousLinearMap f
  have hF : ∀ w, F w = f w := fun w => rfl
  have hsp : ∀ μ ∈ spectrum ℂ F, ‖μ‖₊ < 1 := by
    intro μ hμ
    rw [spectrum.mem_iff, ContinuousLinearMap.isUnit_iff_bijective] at hμ
    have hinj : ¬ Function.Injective (algebraMap ℂ (V →L[ℂ] V) μ - F) := by
      intro hi
      exact hμ ⟨hi, LinearMap.surjective_of_injective (f := ((algebraMap ℂ (V →L[ℂ] V) μ - F : V →L[ℂ] V) : V →ₗ[ℂ] V)) hi⟩
    rw [injective_iff_map_eq_zero] at hinj
    push Not at hinj
    obtain ⟨w, h1, h2⟩ := hinj
    refine NNReal.coe_lt_coe.1 (hf μ w h2 ?_)
    have : μ • w - f w = 0 := h1
    exact (sub_eq_zero.1 this).symm
  have hr : spectralRadius ℂ F < 1 := by
    have := spectrum.spectralRadius_lt_of_forall_lt F hsp
    exact_mod_cast this
  have hg := spectrum.pow_nnnorm_pow_one_div_tendsto_nhds_spectralRadius F
  obtain ⟨c, hc1, hc2⟩ := ENNReal.lt_iff_exists_nnreal_btwn.1 hr
  have hev : ∀ᶠ n : ℕ in atTop, ‖F ^ n‖ ≤ (c : ℝ) ^ n := by
    filter_upwards [hg.eventually_lt_const hc1, eventually_gt_atTop 0] with n hn h0
    have h3 : ((‖F ^ n‖₊ : ENNReal)) < (c : ENNReal) ^ (n : ℝ) := by
      have := ENNReal.rpow_lt_rpow hn (z := (n : ℝ)) (by exact_mod_cast h0)
      rwa [← ENNReal.rpow_mul, one_div, inv_mul_cancel₀ (by exact_mod_cast h0.ne'), ENNReal.rpow_one] at this
    rw [ENNReal.rpow_natCast] at h3
    exact_mod_cast h3.le
  have hc : (c : ℝ) < 1 := by exact_mod_cast hc2
  have hlim : Tendsto (fun n : ℕ => F ^ n) atTop (𝓝 0) := by
    refine squeeze_zero_norm' hev (tendsto_pow_atTop_nhds_zero_of_lt_one c.2 hc)
  have := ((ContinuousLinearMap.apply ℂ V v).continuous.tendsto 0).comp hlim
  rw [map_zero] at this
  refine this.congr fun n => ?_
  change (F ^ n) v = (f ^ n) v
  induction n with
  | zero => rfl
  | succ n ih => rw [pow_succ', pow_succ', mul_apply_eq_comp, ih]; rfl


/-- Spec: the unit matrix is the only fixed point of the left transfer operator, and its other eigenvalues have modulus below one. -/
def Gapped (d : ℕ) (A : ℕ → Matrix (Fin D) (Fin D) ℂ) : Prop :=
  ∀ (μ : ℂ) (Y : Matrix (Fin D) (Fin D) ℂ), Y ≠ 0 → cap d A A Y = μ • Y → 1 ≤ ‖μ‖ → ∃ c : ℂ, Y = c • 1

section
attribute [local instance] Matrix.normedAddCommGroup Matrix.normedSpace

theorem iter_tendsto (hr : ∑ s ∈ range d, A s * r * (A s)ᴴ = r) (ht : r.trace = 1) (hg : Gapped d A) (hk : (k * r).trace = 0)
    (φ : Matrix (Fin D) (Fin D) ℂ →ₗ[ℂ] ℂ) : Tendsto (fun n : ℕ => φ ((cap d A A)^[n] k)) atTop (𝓝 0) := by
  let f : Module.End ℂ (Matrix (Fin D) (Fin D) ℂ) :=
    { toFun := fun Y => cap d A A Y - (Y * r).trace • 1
      map_add' := fun Y Z => by rw [cap_add, Matrix.add_mul, Matrix.trace_add, add_smul]; abel
      map_smul' := fun c Y => by
        rw [cap_smul, Matrix.smul_mul, Matrix.trace_smul, smul_eq_mul, mul_smul, smul_sub]; rfl }
  have hf : ∀ Y, f Y = cap d A A Y - (Y * r).trace • 1 := fun _ => rfl
  have e : ∀ n : ℕ, (f ^ n) k = (cap d A A)^[n] k := by
    intro n
    induction n with
    | zero => rfl
    | succ n ih =>
      rw [pow_succ', Module.End.mul_apply, ih, hf, trace_caps hr, hk, zero_smul, sub_zero, Function.iterate_succ_apply']
  have hlim := pow_tendsto f (fun μ Y hY hμ => by
    by_contra hge
    push Not at hge
    rw [hf] at hμ
    have h2 : μ * (Y * r).trace = 0 := by
      have := congrArg (fun Z => (Z * r).trace) hμ
      simp only [Matrix.sub_mul, Matrix.trace_sub, Matrix.smul_mul, Matrix.trace_smul, Matrix.one_mul, ht, trace_cap hr, smul_eq_mul] at this
      rw [← this]; ring
    have h3 : (Y * r).trace = 0 := by
      rcases mul_eq_zero.1 h2 with h | h
      · rw [h, norm_zero] at hge; linarith
      · exact h
    rw [h3, zero_smul, sub_zero] at hμ
    obtain ⟨c, rfl⟩ := hg μ Y hY hμ hge
    rw [Matrix.smul_mul, Matrix.one_mul, Matrix.trace_smul, ht, smul_eq_mul, mul_one] at h3
    exact hY (by rw [h3, zero_smul])) k
  have := ((LinearMap.continuous_of_finiteDimensional φ).tendsto 0).comp hlim
  rw [map_zero] at this
  exact this.congr fun n => by rw [← e]; rfl

end

theorem chainH_tendsto (h1 : cap d A A 1 = 1) (hr : ∑ s ∈ range d, A s * r * (A s)ᴴ = r) (ht : r.trace = 1) (hg : Gapped d A) (hB : cap d A B 1 = 0)
    (hk : k - cap d A A k + (k * r).trace • (1 : Matrix (Fin D) (Fin D) ℂ)
      = capH d h A A A 1 - (capH d h A A A 1 * r).trace • (1 : Matrix (Fin D) (Fin D) ℂ)) (q : ℕ) :
    Tendsto (fun p : ℕ => chainH d h A r (p + 1) (q + 1) B) atTop
      (𝓝 ((capH d h A B A 1 * r).trace + (capH d h A A B 1 * r).trace + (cap d A B k * r).trace)) := by
  let φ : Matrix (Fin D) (Fin D) ℂ →ₗ[ℂ] ℂ :=
    { toFun := fun Y => (cap d A B Y * r).trace
      map_add' := fun Y Z => by rw [cap_add, Matrix.add_mul, Matrix.trace_add]
      map_smul' := fun c Y => by rw [cap_smul, Matrix.smul_mul, Matrix.trace_smul]; rfl }
  have := (iter_tendsto hr ht hg (series h1 hr ht hk).1 φ).const_sub ((capH d h A B A 1 * r).trace + (capH d h A A B 1 * r).trace + (cap d A B k * r).trace)
  rw [sub_zero] at this
  exact this.congr fun p => (chainH_solved h1 hr ht hB hk p q).symm

/-! ## All tangent vectors in the left gauge -/

theorem cap_congr {l' : ℕ → Matrix (Fin D) (Fin D) ℂ} (hl : ∀ s < d, l s = l' s) : cap d A l Y = cap d A l' Y :=
  sum_congr rfl fun s hs => by rw [hl s (mem_range.1 hs)]

theorem cap_congr' {l' : ℕ → Matrix (Fin D) (Fin D) ℂ} (hl : ∀ s < d, l s = l' s) : cap d l A Y = cap d l' A Y :=
  sum_congr rfl fun s hs => by rw [hl s (mem_range.1 hs)]

theorem capH_congr {l1' l2' : ℕ → Matrix (Fin D) (Fin D) ℂ} (h1 : ∀ s < d, l1 s = l1' s) (h2 : ∀ s < d, l2 s = l2' s) :
    capH d h A l1 l2 Y = capH d h A l1' l2' Y :=
  sum_congr rfl fun _ _ => sum_congr rfl fun _ _ => sum_congr rfl fun t1 ht1 => sum_congr rfl fun t2 ht2 => by
    rw [h1 t1 (mem_range.1 ht1), h2 t2 (mem_range.1 ht2)]


/-- For two states per site: a tangent vector in the left gauge is `VL·x·r^(-1/2)`. -/
theorem tangent_exists {VL : ℕ → Matrix (Fin D) (Fin D) ℂ} (h1 : cap 2 A A 1 = 1) (hV : cap 2 VL VL 1 = 1) (hAV : cap 2 A VL 1 = 0) (hB : cap 2 A B 1 = 0) (hs : sr * ir = 1) :
    ∃ x, ∀ s < 2, B s = VL s * x * ir := by
  simp only [cap, sum_range_succ, range_zero, sum_empty, zero_add, Matrix.mul_one] at h1 hV hAV hB
  have hAV' : (A 0)ᴴ * VL 0 + (A 1)ᴴ * VL 1 = 0 := by
    have := congrArg conjTranspose hAV
    simpa only [conjTranspose_add, conjTranspose_mul, conjTranspose_conjTranspose, conjTranspose_zero] using this
  have hB' : (A 0)ᴴ * B 0 + (A 1)ᴴ * B 1 = 0 := by
    have := congrArg conjTranspose hB
    simpa only [conjTranspose_add, conjTranspose_mul, conjTranspose_conjTranspose, conjTranspose_zero] using this
  have hQ : (fromBlocks (A 0) (VL 0) (A 1) (VL 1))ᴴ * fromBlocks (A 0) (VL 0) (A 1) (VL 1) = 1 := by
    rw [fromBlocks_conjTranspose, fromBlocks_multiply, h1, hV, hAV, hAV', fromBlocks_one]
  have hQ' := mul_eq_one_comm.1 hQ
  rw [fromBlocks_conjTranspose, fromBlocks_multiply, ← fromBlocks_one, fromBlocks_inj] at hQ'
  obtain ⟨q1, q2, q3, q4⟩ := hQ'
  refine ⟨((VL 0)ᴴ * B 0 + (VL 1)ᴴ * B 1) * sr, fun s hs2 => ?_⟩
  rw [Matrix.mul_assoc, Matrix.mul_assoc, hs, Matrix.mul_one]
  have e0 : VL s * ((VL 0)ᴴ * B 0 + (VL 1)ᴴ * B 1)
      = (A s * (A 0)ᴴ + VL s * (VL 0)ᴴ) * B 0 + (A s * (A 1)ᴴ + VL s * (VL 1)ᴴ) * B 1 := by
    have : A s * ((A 0)ᴴ * B 0 + (A 1)ᴴ * B 1) = 0 := by rw [hB', Matrix.mul_zero]
    rw [← zero_add (VL s * _), ← this]
    noncomm_ring
  rw [e0]
  interval_cases s
  · rw [q1, q2, Matrix.one_mul, Matrix.zero_mul, add_zero]
  · rw [q3, q4, Matrix.one_mul, Matrix.zero_mul, zero_add]

end
end PyTeN.TdvpInf
