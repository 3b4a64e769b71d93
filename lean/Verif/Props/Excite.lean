import Verif.Engine.ExciteTerms
import Verif.Props.TdvpInf

/-! # C102: `ExHAproductSingle` applies the Hamiltonian to the tangent vectors of a momentum -/

namespace PyTeN.Excite
open Finset Transfer Regauge Vumps Steady Matrix TdvpInf Filter Topology
noncomputable section

variable {D D2 d : ℕ}

/-- Spec: the arguments belong to one uniform state with a gap, `VL` is orthogonal to its tensor, and `K`, `KR` solve the systems of the renormalised sums of
the Hamiltonian to the left and to the right. -/
structure Uniform (D D2 d : ℕ) (I : Inp) : Prop where
  ready : Ready D D2 d I
  orth : cap d (mat D I.A) (mat D I.A) 1 = 1
  fixed : ∑ s ∈ range d, mat D I.A s * toM D I.r.v * (mat D I.A s)ᴴ = toM D I.r.v
  trace : (toM D I.r.v).trace = 1
  gap : Gapped d (mat D I.A)
  null : ∑ s ∈ range d, (rect D D2 I.VL s)ᴴ * mat D I.A s = 0
  sumL : lo D I.K 0 - cap d (mat D I.A) (mat D I.A) (lo D I.K 0) + (lo D I.K 0 * toM D I.r.v).trace • (1 : Matrix (Fin D) (Fin D) ℂ)
    = capG d (TdvpInf.bondH I.W0 I.W1) (mat D I.A) (mat D I.A) (mat D I.A) (mat D I.A) 1
      - (capG d (TdvpInf.bondH I.W0 I.W1) (mat D I.A) (mat D I.A) (mat D I.A) (mat D I.A) 1 * toM D I.r.v).trace • (1 : Matrix (Fin D) (Fin D) ℂ)
  sumR : up D I.KR 0 - cup d (mat D I.A) (mat D I.A) (up D I.KR 0) + (up D I.KR 0).trace • toM D I.r.v
    = cupG d (TdvpInf.bondH I.W0 I.W1) (mat D I.A) (mat D I.A) (mat D I.A) (mat D I.A) (toM D I.r.v)
      - (cupG d (TdvpInf.bondH I.W0 I.W1) (mat D I.A) (mat D I.A) (mat D I.A) (mat D I.A) (toM D I.r.v)).trace • toM D I.r.v

/-- Spec: the tensor of the tangent vector with the parameters `x`. -/
def tangentOf (D D2 : ℕ) (I : Inp) (x : Matrix (Fin D2) (Fin D) ℂ) (s : ℕ) : Matrix (Fin D) (Fin D) ℂ := rect D D2 I.VL s * x * toM D I.ir.v

/-- Spec: the scalar product of parameters. -/
def dotP {a b : ℕ} (Z X : Matrix (Fin a) (Fin b) ℂ) : ℂ := ∑ q, ∑ j, star (Z q j) * X q j

/-- Spec: the matrix element of the Hamiltonian of a chain with `p` sites to the left and `q` to the right of the bra's excitation, and its energy without excitation. -/
def elementI (D d : ℕ) (I : Inp) (z : ℂ) (p q : ℕ) (C B : ℕ → Matrix (Fin D) (Fin D) ℂ) : ℂ :=
  elementK d (TdvpInf.bondH I.W0 I.W1) (mat D I.A) (toM D I.r.v) z p q C B

/-- Spec: the energy of a bond. -/
def bondE (D d : ℕ) (I : Inp) : ℂ := (capG d (TdvpInf.bondH I.W0 I.W1) (mat D I.A) (mat D I.A) (mat D I.A) (mat D I.A) 1 * toM D I.r.v).trace

section general
variable {A B l u1 u2 l1 l2 : ℕ → Matrix (Fin D) (Fin D) ℂ} {r Y Z : Matrix (Fin D) (Fin D) ℂ} {h : ℕ → ℕ → ℕ → ℕ → ℂ}

theorem cup_sub : cup d A l (Y - Z) = cup d A l Y - cup d A l Z := by
  simp only [cup, Matrix.mul_sub, Matrix.sub_mul, sum_sub_distrib]

theorem cup_add : cup d A l (Y + Z) = cup d A l Y + cup d A l Z := by
  simp only [cup, Matrix.mul_add, Matrix.add_mul, sum_add_distrib]

theorem cup_smul (c : ℂ) : cup d A l (c • Y) = c • cup d A l Y := by
  simp only [cup, Matrix.mul_smul, Matrix.smul_mul, smul_sum]

theorem trace_cup_one (h1 : cap d A l 1 = 1) : (cup d A l Y).trace = Y.trace := by
  have := trace_cup (d := d) (A := A) (l := l) (Y := 1) (Z := Y)
  rw [h1, Matrix.one_mul, Matrix.one_mul] at this
  exact this.symm

theorem cap_fixed (hg : Gapped d A) (hY : cap d A A Y = Y) : ∃ c : ℂ, Y = c • 1 := by
  by_cases h0 : Y = 0
  · exact ⟨0, by rw [h0, zero_smul]⟩
  · exact hg 1 Y h0 (by rw [hY, one_smul]) (by simp)

theorem cup_fixed (h1 : cap d A A 1 = 1) (hr : ∑ s ∈ range d, A s * r * (A s)ᴴ = r) (ht : r.trace = 1) (hg : Gapped d A) (hY : cup d A A Y = Y) : ∃ c : ℂ, Y = c • r := by
  refine ⟨Y.trace, ?_⟩
  have hr' : cup d A A r = r := hr
  have h0 : (Y - Y.trace • r).trace = 0 := by rw [Matrix.trace_sub, Matrix.trace_smul, ht, smul_eq_mul, mul_one, sub_self]
  have hf : cup d A A (Y - Y.trace • r) = Y - Y.trace • r := by rw [cup_sub, cup_smul, hY, hr']
  have hlim := cupIter_tendsto h1 hr ht hg h0
  have hc : (fun n : ℕ => (cup d A A)^[n] (Y - Y.trace • r)) = fun _ => Y - Y.trace • r := funext fun n => Function.iterate_fixed hf n
  rw [hc] at hlim
  exact sub_eq_zero.1 (tendsto_nhds_unique tendsto_const_nhds hlim)

/-- The systems have one solution. -/
theorem cap_unique (hr : ∑ s ∈ range d, A s * r * (A s)ᴴ = r) (ht : r.trace = 1) (hg : Gapped d A)
    (hY : Y - cap d A A Y + (Y * r).trace • (1 : Matrix (Fin D) (Fin D) ℂ) = 0) : Y = 0 := by
  have h0 : (Y * r).trace = 0 := by
    have := congrArg (fun M => (M * r).trace) hY
    simpa [Matrix.add_mul, Matrix.sub_mul, trace_cap hr, ht] using this
  rw [h0, zero_smul, add_zero] at hY
  obtain ⟨c, hc⟩ := cap_fixed hg (sub_eq_zero.1 hY).symm
  rw [hc, Matrix.smul_mul, Matrix.one_mul, Matrix.trace_smul, ht, smul_eq_mul, mul_one] at h0
  rw [hc, h0, zero_smul]

theorem cup_unique (h1 : cap d A A 1 = 1) (hr : ∑ s ∈ range d, A s * r * (A s)ᴴ = r) (ht : r.trace = 1) (hg : Gapped d A)
    (hY : Y - cup d A A Y + Y.trace • r = 0) : Y = 0 := by
  have h0 : Y.trace = 0 := by
    have := congrArg Matrix.trace hY
    simpa [trace_cup_one h1, ht] using this
  rw [h0, zero_smul, add_zero] at hY
  obtain ⟨c, hc⟩ := cup_fixed h1 hr ht hg (sub_eq_zero.1 hY).symm
  rw [hc, Matrix.trace_smul, ht, smul_eq_mul, mul_one] at h0
  rw [hc, h0, zero_smul]

end general

theorem Uniform.left {I : Inp} (hI : Uniform D D2 d I) (x : Matrix (Fin D2) (Fin D) ℂ) (w : Matrix (Fin D) (Fin D) ℂ) :
    cap d (fun s => rect D D2 I.VL s * x * w) (mat D I.A) 1 = 0 := by
  have e := congrArg conjTranspose hI.null
  rw [conjTranspose_sum, conjTranspose_zero] at e
  simp only [conjTranspose_mul, conjTranspose_conjTranspose] at e
  have : cap d (fun s => rect D D2 I.VL s * x * w) (mat D I.A) 1 = (∑ s ∈ range d, (mat D I.A s)ᴴ * rect D D2 I.VL s) * (x * w) := by
    simp only [cap, Matrix.mul_one, Matrix.sum_mul, Matrix.mul_assoc]
  rw [this, e, Matrix.zero_mul]

theorem Uniform.right {I : Inp} (hI : Uniform D D2 d I) (x : Matrix (Fin D2) (Fin D) ℂ) (w : Matrix (Fin D) (Fin D) ℂ) :
    cap d (mat D I.A) (fun s => rect D D2 I.VL s * x * w) 1 = 0 := by
  have : cap d (mat D I.A) (fun s => rect D D2 I.VL s * x * w) 1 = (x * w)ᴴ * ∑ s ∈ range d, (rect D D2 I.VL s)ᴴ * mat D I.A s := by
    simp only [cap, Matrix.mul_one, Matrix.mul_sum, conjTranspose_mul, Matrix.mul_assoc]
  rw [this, hI.null, Matrix.mul_zero]

section main
variable {solve : Lgmres} {rnd : ℕ → ℕ → ℂ} {I : Inp} {k : ℝ} {vec y : Vec ℂ}

/-- C102: the routine returns a vector of the length of its argument, for every momentum. -/
theorem C102_returns (hS : LgmresSpec solve) (hC : LgmresConverges solve) (hI : Uniform D D2 d I) (hv : vec.n = D2 * D) :
    ∃ y, exHA solve rnd I k vec = .ok y ∧ y.n = D2 * D := by
  obtain ⟨y, hy⟩ := exHA_total (rnd := rnd) (k := k) hS hC hI.ready hv hI.orth hI.fixed hI.trace
    (fun F hF => cup_fixed hI.orth hI.fixed hI.trace hI.gap hF) (fun F hF => cap_fixed hI.gap hF)
  exact ⟨y, hy, (exHA_spec hS hI.ready hv hy).1⟩

theorem Solved.s7_eq {h : ℕ → ℕ → ℕ → ℕ → ℂ} {A B : ℕ → Matrix (Fin D) (Fin D) ℂ} {r K s7 x8 x10 x12 : Matrix (Fin D) (Fin D) ℂ} (hs : Solved d h A B r K k s7 x8 x10 x12)
    (h1 : cap d A A 1 = 1) (ht : r.trace = 1) (hB : cap d B A 1 = 0) : s7.trace = 0 ∧ s7 - cup d A A s7 = cup d B A r := by
  have h0 : (cup d B A r).trace = 0 := by
    have := trace_cup (d := d) (A := B) (l := A) (Y := 1) (Z := r)
    rw [hB, Matrix.zero_mul, Matrix.one_mul, Matrix.trace_zero] at this
    exact this.symm
  have e7 := hs.e7
  have hp : projk k (0 : ℂ) = 0 := by simp [projk]
  rw [h0, hp, zero_smul, sub_zero] at e7
  have h2 : s7.trace = 0 := by
    have := congrArg Matrix.trace e7
    simpa [trace_cup_one h1, ht, h0] using this
  refine ⟨h2, ?_⟩
  rwa [h2, zero_smul, add_zero] at e7

/-- All matrix elements for momentum zero, with the bra that the routine uses. -/
theorem zero_core (hS : LgmresSpec solve) (hI : Uniform D D2 d I) (hv : vec.n = D2 * D) (hk : |k| < 1e-8) (hrun : exHA solve rnd I k vec = .ok y) (Z : Matrix (Fin D2) (Fin D) ℂ) :
    Tendsto (fun n : ℕ × ℕ => elementI D d I 1 (n.1 + 1) (n.2 + 1) (fun s => rect D D2 I.VL s * Z * (toM D I.ir.v).map star) (tangentOf D D2 I (vecM D2 D vec))
        - (n.1 + n.2) * bondE D d I * (cap d (tangentOf D D2 I (vecM D2 D vec)) (fun s => rect D D2 I.VL s * Z * (toM D I.ir.v).map star) 1 * toM D I.r.v).trace)
      (atTop ×ˢ atTop) (𝓝 (dotP Z (vecM D2 D y))) := by
  obtain ⟨-, s7, x8, x10, x12, hs, hy⟩ := exHA_spec hS hI.ready hv hrun
  have hf : facp k = 1 := if_neg (not_le.2 hk)
  obtain ⟨t0, t1⟩ := hs.s7_eq hI.orth hI.trace (hI.left _ _)
  have hx : x8 + x10 + x12 = (1 : ℂ)⁻¹ • cap d (mat D I.A) (mat D I.A) (x8 + x10 + x12)
      + (1 : ℂ)⁻¹ • cap d (tangentOf D D2 I (vecM D2 D vec)) (mat D I.A) (lo D I.K 0)
      + ((1 : ℂ)⁻¹ * (1 : ℂ)⁻¹) • capG d (TdvpInf.bondH I.W0 I.W1) (tangentOf D D2 I (vecM D2 D vec)) (mat D I.A) (mat D I.A) (mat D I.A) 1
      + (1 : ℂ)⁻¹ • capG d (TdvpInf.bondH I.W0 I.W1) (mat D I.A) (tangentOf D D2 I (vecM D2 D vec)) (mat D I.A) (mat D I.A) 1
      + (-(x8 * toM D I.r.v).trace - (x10 * toM D I.r.v).trace - (x12 * toM D I.r.v).trace
        - projk k (cap d (tangentOf D D2 I (vecM D2 D vec)) (mat D I.A) (lo D I.K 0) * toM D I.r.v).trace
        - projk k (capG d (TdvpInf.bondH I.W0 I.W1) (mat D I.A) (tangentOf D D2 I (vecM D2 D vec)) (mat D I.A) (mat D I.A) 1 * toM D I.r.v).trace
        - projk k (capG d (TdvpInf.bondH I.W0 I.W1) (tangentOf D D2 I (vecM D2 D vec)) (mat D I.A) (mat D I.A) (mat D I.A) 1 * toM D I.r.v).trace)
          • (1 : Matrix (Fin D) (Fin D) ℂ) := by
    have hs' : Solved d (TdvpInf.bondH I.W0 I.W1) (mat D I.A) (tangentOf D D2 I (vecM D2 D vec)) (toM D I.r.v) (lo D I.K 0) k s7 x8 x10 x12 := hs
    have e8 := eq_sub_of_add_eq hs'.e8
    have e10 := eq_sub_of_add_eq hs'.e10
    have e12 := eq_sub_of_add_eq hs'.e12
    rw [cap_add, cap_add]
    conv_lhs => rw [eq_add_of_sub_eq e8, eq_add_of_sub_eq e10, eq_add_of_sub_eq e12]
    simp only [inv_one, mul_one, one_smul, sub_smul, neg_smul]
    abel
  have hl := elementK_tendsto (h := TdvpInf.bondH I.W0 I.W1) (z := 1) (by simp) hI.orth hI.fixed hI.trace (hI.left (vecM D2 D vec) (toM D I.ir.v))
    (hI.right Z ((toM D I.ir.v).map star)) hI.sumL hI.sumR (by rw [one_smul]; exact t1) t0 hI.gap hx
  have e := hy Z
  rw [hf] at e
  simp only [inv_one, mul_one, one_smul] at e
  rw [dotP, e]
  exact hl

theorem metric_eq (hV : ∑ s ∈ range d, (rect D D2 I.VL s)ᴴ * rect D D2 I.VL s = 1) (hi : toM D I.ir.v * toM D I.r.v * (toM D I.ir.v)ᴴ = 1) (Z X : Matrix (Fin D2) (Fin D) ℂ) :
    (cap d (tangentOf D D2 I X) (tangentOf D D2 I Z) 1 * toM D I.r.v).trace = dotP Z X := by
  have e : cap d (tangentOf D D2 I X) (tangentOf D D2 I Z) 1 = (Z * toM D I.ir.v)ᴴ * (∑ s ∈ range d, (rect D D2 I.VL s)ᴴ * rect D D2 I.VL s) * (X * toM D I.ir.v) := by
    simp only [cap, tangentOf, Matrix.mul_one, Matrix.mul_sum, Matrix.sum_mul, conjTranspose_mul, Matrix.mul_assoc]
  rw [e, hV, Matrix.mul_one, conjTranspose_mul]
  have : (toM D I.ir.v)ᴴ * Zᴴ * (X * toM D I.ir.v) * toM D I.r.v = (toM D I.ir.v)ᴴ * (Zᴴ * X * (toM D I.ir.v * toM D I.r.v)) := by simp only [Matrix.mul_assoc]
  rw [this, Matrix.trace_mul_comm, Matrix.mul_assoc, hi, Matrix.mul_one]
  simp only [Matrix.trace, Matrix.diag, Matrix.mul_apply, conjTranspose_apply, dotP]
  exact Finset.sum_comm

/-- C102 for momentum zero and a real `invsqrtr`: in the orthonormal coordinates of the tangent space the vector returned is the effective Hamiltonian times
the argument: its scalar products are the limits of the matrix elements of `H`, less the energy of all bonds but the two next to the excitation.
What is missing: momenta other than zero (`C102_violated_momentum`), matrices that are not real (`C102_violated_complex`); the energy of two bonds
is not subtracted. -/
theorem C102_zero_partial (hS : LgmresSpec solve) (hI : Uniform D D2 d I) (hv : vec.n = D2 * D) (hk : |k| < 1e-8)
    (hV : ∑ s ∈ range d, (rect D D2 I.VL s)ᴴ * rect D D2 I.VL s = 1) (hi : toM D I.ir.v * toM D I.r.v * (toM D I.ir.v)ᴴ = 1)
    (hreal : ∀ i < D, ∀ j < D, star (I.ir.v i j) = I.ir.v i j) (hrun : exHA solve rnd I k vec = .ok y) (Z : Matrix (Fin D2) (Fin D) ℂ) :
    Tendsto (fun n : ℕ × ℕ => elementI D d I 1 (n.1 + 1) (n.2 + 1) (tangentOf D D2 I Z) (tangentOf D D2 I (vecM D2 D vec))
        - (n.1 + n.2 + 2) * bondE D d I * dotP Z (vecM D2 D vec))
      (atTop ×ˢ atTop) (𝓝 (dotP Z (vecM D2 D y) - 2 * bondE D d I * dotP Z (vecM D2 D vec))) := by
  have hr : (toM D I.ir.v).map star = toM D I.ir.v := by ext i j; exact hreal i i.2 j j.2
  have := zero_core hS hI hv hk hrun Z
  rw [hr] at this
  have hm := metric_eq (d := d) hV hi Z (vecM D2 D vec)
  unfold tangentOf at hm this ⊢
  rw [hm] at this
  refine (this.sub_const (2 * bondE D d I * dotP Z (vecM D2 D vec))).congr fun n => ?_
  ring

end main

section linear
variable {A B B' C : ℕ → Matrix (Fin D) (Fin D) ℂ} {l u l1 l2 : ℕ → Matrix (Fin D) (Fin D) ℂ} {r K KR Y s7 x8 x10 x12 t7 y8 y10 y12 : Matrix (Fin D) (Fin D) ℂ}
  {h : ℕ → ℕ → ℕ → ℕ → ℂ} {k : ℝ}

theorem cap_comb (a : ℂ) : cap d (fun s => a • B s + B' s) l Y = a • cap d B l Y + cap d B' l Y := by
  simp only [cap, Matrix.mul_add, Matrix.mul_smul, sum_add_distrib, smul_sum]

theorem cup_comb (a : ℂ) : cup d (fun s => a • B s + B' s) l Y = a • cup d B l Y + cup d B' l Y := by
  simp only [cup, Matrix.add_mul, Matrix.smul_mul, sum_add_distrib, smul_sum]

theorem capG_comb1 (a : ℂ) : capG d h (fun s => a • B s + B' s) u l1 l2 Y = a • capG d h B u l1 l2 Y + capG d h B' u l1 l2 Y := by
  simp only [capG, Matrix.add_mul, Matrix.smul_mul, Matrix.mul_add, Matrix.mul_smul, smul_add, sum_add_distrib, smul_sum, smul_comm a]

theorem capG_comb2 (a : ℂ) : capG d h u (fun s => a • B s + B' s) l1 l2 Y = a • capG d h u B l1 l2 Y + capG d h u B' l1 l2 Y := by
  simp only [capG, Matrix.mul_add, Matrix.mul_smul, smul_add, sum_add_distrib, smul_sum, smul_comm a]

theorem projk_comb (a c e : ℂ) : projk k (a * c + e) = a * projk k c + projk k e := by
  unfold projk
  split_ifs <;> ring

theorem sys_comb (a : ℂ) {f : Matrix (Fin D) (Fin D) ℂ → Matrix (Fin D) (Fin D) ℂ} {g : Matrix (Fin D) (Fin D) ℂ → ℂ} {P x y F G : Matrix (Fin D) (Fin D) ℂ} {c e : ℂ}
    (hf : f (a • x + y) = a • f x + f y) (hg : g (a • x + y) = a * g x + g y) (hx : x - f x + g x • P = F - projk k c • P) (hy : y - f y + g y • P = G - projk k e • P) :
    (a • x + y) - f (a • x + y) + g (a • x + y) • P = (a • F + G) - projk k (a * c + e) • P := by
  rw [hf, hg, projk_comb]
  have : (a • x + y) - (a • f x + f y) + (a * g x + g y) • P = a • (x - f x + g x • P) + (y - f y + g y • P) := by
    rw [smul_add, smul_sub, add_smul, mul_smul]; abel
  rw [this, hx, hy, smul_sub, add_smul, mul_smul]
  abel

theorem Solved.comb (a : ℂ) (h1 : Solved d h A B r K k s7 x8 x10 x12) (h2 : Solved d h A B' r K k t7 y8 y10 y12) :
    Solved d h A (fun s => a • B s + B' s) r K k (a • s7 + t7) (a • x8 + y8) (a • x10 + y10) (a • x12 + y12) := by
  have tr : ∀ M N : Matrix (Fin D) (Fin D) ℂ, ((a • M + N) * r).trace = a * (M * r).trace + (N * r).trace := fun M N => by
    rw [Matrix.add_mul, Matrix.smul_mul, Matrix.trace_add, Matrix.trace_smul, smul_eq_mul]
  have tr' : ∀ M N : Matrix (Fin D) (Fin D) ℂ, (a • M + N).trace = a * M.trace + N.trace := fun M N => by
    rw [Matrix.trace_add, Matrix.trace_smul, smul_eq_mul]
  have hc : ∀ M N : Matrix (Fin D) (Fin D) ℂ, cap d A A (a • M + N) = a • cap d A A M + cap d A A N := fun M N => by rw [cap_add, cap_smul]
  refine ⟨?_, ?_, ?_, ?_⟩
  · rw [cup_comb, tr' (cup d B A r)]
    exact sys_comb (g := Matrix.trace) a (by rw [cup_add, cup_smul]) (tr' _ _) h1.e7 h2.e7
  · rw [cap_comb, tr (cap d B A K)]
    exact sys_comb (g := fun M => (M * r).trace) a (hc _ _) (tr _ _) h1.e8 h2.e8
  · rw [capG_comb2, tr (capG d h A B A A 1)]
    exact sys_comb (g := fun M => (M * r).trace) a (hc _ _) (tr _ _) h1.e10 h2.e10
  · rw [capG_comb1, tr (capG d h B A A A 1)]
    exact sys_comb (g := fun M => (M * r).trace) a (hc _ _) (tr _ _) h1.e12 h2.e12

theorem Solved.uniq (h1 : cap d A A 1 = 1) (hr : ∑ s ∈ range d, A s * r * (A s)ᴴ = r) (ht : r.trace = 1) (hg : Gapped d A)
    (hs : Solved d h A B r K k s7 x8 x10 x12) (hs' : Solved d h A B r K k t7 y8 y10 y12) : s7 = t7 ∧ x8 = y8 ∧ x10 = y10 ∧ x12 = y12 := by
  have hc : ∀ {M N F : Matrix (Fin D) (Fin D) ℂ}, M - cap d A A M + (M * r).trace • (1 : Matrix (Fin D) (Fin D) ℂ) = F →
      N - cap d A A N + (N * r).trace • (1 : Matrix (Fin D) (Fin D) ℂ) = F → M = N := by
    intro M N F hM hN
    refine sub_eq_zero.1 (cap_unique hr ht hg ?_)
    rw [cap_sub, Matrix.sub_mul, Matrix.trace_sub, sub_smul, ← sub_eq_zero.2 (hM.trans hN.symm)]
    abel
  refine ⟨?_, hc hs.e8 hs'.e8, hc hs.e10 hs'.e10, hc hs.e12 hs'.e12⟩
  refine sub_eq_zero.1 (cup_unique h1 hr ht hg ?_)
  rw [cup_sub, Matrix.trace_sub, sub_smul, ← sub_eq_zero.2 (hs.e7.trans hs'.e7.symm)]
  abel

theorem limitK_comb (a z : ℂ) (xs ys : Matrix (Fin D) (Fin D) ℂ) : limitK d h A (fun s => a • B s + B' s) C r z K KR (a • s7 + t7) (a • xs + ys)
    = a * limitK d h A B C r z K KR s7 xs + limitK d h A B' C r z K KR t7 ys := by
  simp only [limitK, cap_comb, capG_comb1, capG_comb2, cap_add, cap_smul, Matrix.add_mul, Matrix.mul_add, Matrix.smul_mul, Matrix.mul_smul, Matrix.trace_add, Matrix.trace_smul, smul_eq_mul]
  ring

end linear

theorem dotP_single {a b : ℕ} (q : Fin a) (j : Fin b) (X : Matrix (Fin a) (Fin b) ℂ) : dotP (Matrix.single q j 1) X = X q j := by
  unfold dotP
  rw [Finset.sum_eq_single q, Finset.sum_eq_single j]
  · simp
  · intro j' _ hj; simp [hj.symm]
  · simp
  · intro q' _ hq
    exact sum_eq_zero fun j' _ => by simp [hq.symm]
  · simp

/-- C102: for every momentum the routine is a linear map of its last argument; the random vectors do not influence it. -/
theorem C102_linear {solve : Lgmres} {rnd1 rnd2 rnd3 : ℕ → ℕ → ℂ} {I : Inp} {k : ℝ} {v1 v2 v3 y1 y2 y3 : Vec ℂ} (hS : LgmresSpec solve) (hI : Uniform D D2 d I)
    (n1 : v1.n = D2 * D) (n2 : v2.n = D2 * D) (n3 : v3.n = D2 * D) (a : ℂ) (h3 : ∀ i < D2 * D, v3.v i = a * v1.v i + v2.v i)
    (r1 : exHA solve rnd1 I k v1 = .ok y1) (r2 : exHA solve rnd2 I k v2 = .ok y2) (r3 : exHA solve rnd3 I k v3 = .ok y3) :
    ∀ i < D2 * D, y3.v i = a * y1.v i + y2.v i := by
  obtain ⟨-, s1, w1, x1, z1, p1, q1⟩ := exHA_spec hS hI.ready n1 r1
  obtain ⟨-, s2, w2, x2, z2, p2, q2⟩ := exHA_spec hS hI.ready n2 r2
  obtain ⟨-, s3, w3, x3, z3, p3, q3⟩ := exHA_spec hS hI.ready n3 r3
  have hv : vecM D2 D v3 = a • vecM D2 D v1 + vecM D2 D v2 := by
    ext i j
    have hij : (i : ℕ) * D + j < D2 * D := by
      have h1 := i.2
      have h2 := j.2
      nlinarith
    simp only [vecM, Matrix.add_apply, Matrix.smul_apply, smul_eq_mul, h3 _ hij]
  have hB : (fun s => rect D D2 I.VL s * vecM D2 D v3 * toM D I.ir.v)
      = fun s => a • (rect D D2 I.VL s * vecM D2 D v1 * toM D I.ir.v) + rect D D2 I.VL s * vecM D2 D v2 * toM D I.ir.v := by
    funext s
    rw [hv, Matrix.mul_add, Matrix.mul_smul, Matrix.add_mul, Matrix.smul_mul]
  rw [hB] at p3 q3
  obtain ⟨rfl, rfl, rfl, rfl⟩ := Solved.uniq hI.orth hI.fixed hI.trace hI.gap p3 (Solved.comb a p1 p2)
  have key : ∀ Z : Matrix (Fin D2) (Fin D) ℂ, dotP Z (vecM D2 D y3) = a * dotP Z (vecM D2 D y1) + dotP Z (vecM D2 D y2) := by
    intro Z
    rw [dotP, q3 Z, dotP, q1 Z, dotP, q2 Z, ← limitK_comb]
    congr 1
    simp only [smul_add, smul_comm a]
    abel
  intro i hi
  have hD : 0 < D := by
    rcases Nat.eq_zero_or_pos D with h | h
    · rw [h, mul_zero] at hi; omega
    · exact h
  have := key (Matrix.single ⟨i / D, (Nat.div_lt_iff_lt_mul hD).2 hi⟩ ⟨i % D, Nat.mod_lt _ hD⟩ 1)
  rw [dotP_single, dotP_single, dotP_single] at this
  simp only [vecM, Nat.div_add_mod'] at this
  exact this

/-- C102 for product states (bond dimension one) and every momentum: the scalar products of the vector returned are the limits of the matrix elements of `H`
between tangent vectors of this momentum, less the energy of all bonds but the two next to the excitation. -/
theorem C102_product_partial {solve : Lgmres} {rnd : ℕ → ℕ → ℂ} {I : Inp} {k : ℝ} {vec y : Vec ℂ} (hS : LgmresSpec solve) (hI : Uniform 1 D2 d I) (hv : vec.n = D2 * 1)
    (hreal : star (I.ir.v 0 0) = I.ir.v 0 0) (hrun : exHA solve rnd I k vec = .ok y) (Z : Matrix (Fin D2) (Fin 1) ℂ) :
    Tendsto (fun n : ℕ × ℕ => elementI 1 d I (facp k) (n.1 + 1) (n.2 + 1) (tangentOf 1 D2 I Z) (tangentOf 1 D2 I (vecM D2 1 vec))
        - (n.1 + n.2) * bondE 1 d I * (cap d (tangentOf 1 D2 I (vecM D2 1 vec)) (tangentOf 1 D2 I Z) 1 * toM 1 I.r.v).trace)
      (atTop ×ˢ atTop) (𝓝 (dotP Z (vecM D2 1 y))) := by
  obtain ⟨-, s7, x8, x10, x12, hs, hy⟩ := exHA_spec hS hI.ready hv hrun
  have hr : (toM 1 I.ir.v).map star = toM 1 I.ir.v := by ext i j; fin_cases i; fin_cases j; exact hreal
  have one : ∀ M : Matrix (Fin 1) (Fin 1) ℂ, M = M 0 0 • 1 := fun M => by ext i j; fin_cases i; fin_cases j; simp
  obtain ⟨t0, t1⟩ := hs.s7_eq hI.orth hI.trace (hI.left _ _)
  have hs7 : s7 = 0 := by
    ext i j; fin_cases i; fin_cases j
    simpa [Matrix.trace] using t0
  have hz : facp k ≠ 0 := facp_ne k
  have t2 : s7 - facp k • cup d (mat 1 I.A) (mat 1 I.A) s7 = cup d (tangentOf 1 D2 I (vecM D2 1 vec)) (mat 1 I.A) (toM 1 I.r.v) := by
    rw [hs7] at t1 ⊢
    have e : cup d (mat 1 I.A) (mat 1 I.A) 0 = 0 := by simp [cup]
    rw [e, sub_zero] at t1
    rw [e, smul_zero, sub_zero]
    exact t1
  set xs := (facp k)⁻¹ • x8 + (facp k)⁻¹ • x10 + ((facp k)⁻¹ * (facp k)⁻¹) • x12 with hxs
  set R := (facp k)⁻¹ • cap d (mat 1 I.A) (mat 1 I.A) xs + (facp k)⁻¹ • cap d (tangentOf 1 D2 I (vecM D2 1 vec)) (mat 1 I.A) (lo 1 I.K 0)
      + ((facp k)⁻¹ * (facp k)⁻¹) • capG d (TdvpInf.bondH I.W0 I.W1) (tangentOf 1 D2 I (vecM D2 1 vec)) (mat 1 I.A) (mat 1 I.A) (mat 1 I.A) 1
      + (facp k)⁻¹ • capG d (TdvpInf.bondH I.W0 I.W1) (mat 1 I.A) (tangentOf 1 D2 I (vecM D2 1 vec)) (mat 1 I.A) (mat 1 I.A) 1 with hR
  have hx : xs = R + (xs 0 0 - R 0 0) • (1 : Matrix (Fin 1) (Fin 1) ℂ) := by
    rw [sub_smul, ← one xs, ← one R]; abel
  have hl := elementK_tendsto (h := TdvpInf.bondH I.W0 I.W1) (facp_norm k) hI.orth hI.fixed hI.trace (hI.left (vecM D2 1 vec) (toM 1 I.ir.v))
    (hI.right Z ((toM 1 I.ir.v).map star)) hI.sumL hI.sumR t2 t0 hI.gap hx
  rw [dotP, hy Z]
  rw [hr] at hl ⊢
  exact hl


/-! ## What does not hold -/

/-- The two tensors of the MPO of `σx⊗σx`. -/
def sxMpo : Mpo ℂ := ⟨1, 1, 2, 2, fun _ _ s t => if s = t then 0 else 1⟩

theorem sx_capG {D : ℕ} (u1 u2 l1 l2 : ℕ → Matrix (Fin D) (Fin D) ℂ) (Y : Matrix (Fin D) (Fin D) ℂ) : capG 2 (TdvpInf.bondH sxMpo sxMpo) u1 u2 l1 l2 Y
    = (l1 1 * l2 1)ᴴ * Y * (u1 0 * u2 0) + (l1 1 * l2 0)ᴴ * Y * (u1 0 * u2 1) + (l1 0 * l2 1)ᴴ * Y * (u1 1 * u2 0) + (l1 0 * l2 0)ᴴ * Y * (u1 1 * u2 1) := by
  simp [capG, TdvpInf.bondH, sxMpo, sum_range_succ]
  abel

theorem sx_cupG {D : ℕ} (u1 u2 l1 l2 : ℕ → Matrix (Fin D) (Fin D) ℂ) (Y : Matrix (Fin D) (Fin D) ℂ) : cupG 2 (TdvpInf.bondH sxMpo sxMpo) u1 u2 l1 l2 Y
    = (u1 0 * u2 0) * Y * (l1 1 * l2 1)ᴴ + (u1 0 * u2 1) * Y * (l1 1 * l2 0)ᴴ + (u1 1 * u2 0) * Y * (l1 0 * l2 1)ᴴ + (u1 1 * u2 1) * Y * (l1 0 * l2 0)ᴴ := by
  simp [cupG, TdvpInf.bondH, sxMpo, sum_range_succ]
  abel

/-- A boundary block of bond dimension one of the MPO. -/
def blk (M : Mat ℂ) : Env ℂ := ⟨M.r, M.c, 1, fun i j _ => M.v i j⟩

/-- The block with one site added; all arguments are of matching shapes in what follows. -/
def okEnv : Res (Env ℂ) → Env ℂ
  | .ok E => E
  | .error _ => ⟨0, 0, 0, fun _ _ _ => 0⟩

/-- A tensor orthogonal to `hadTen`. -/
def hadNull : Ten ℂ := ⟨2, 2, 2, fun i j s => if i = j ∨ s = i then 0 else if s < 2 then 1 else 0⟩

/-- `√2` times the unit matrix. -/
def rootMat : Mat ℂ := ⟨2, 2, fun i j => if i = j then ((Real.sqrt 2 : ℝ) : ℂ) else 0⟩

/-- The arguments for the state of `hadTen` and `H=∑σx⊗σx`. -/
def hadInp : Inp where
  l := eye 2
  r := halfMat
  L := blk (eye 2)
  LAA := okEnv (addLayerR (blk (eye 2)) hadTen sxMpo hadTen)
  K := ⟨2, 2, 1, fun _ _ _ => 0⟩
  R := blk halfMat
  RAA := okEnv (addLayerL (blk halfMat) hadTen sxMpo hadTen)
  KR := ⟨2, 2, 1, fun _ _ _ => 0⟩
  A := hadTen
  VL := hadNull
  il := eye 2
  ir := rootMat
  W0 := sxMpo
  W1 := sxMpo

theorem okEnv_ok {R : Res (Env ℂ)} (h : ∃ E, R = .ok E) : R = .ok (okEnv R) := by
  obtain ⟨E, rfl⟩ := h
  rfl

theorem lo_blk (D : ℕ) (M : Mat ℂ) : lo D (blk M) 0 = (toM D M.v)ᵀ := rfl

theorem up_blk (D : ℕ) (M : Mat ℂ) : up D (blk M) 0 = toM D M.v := rfl

theorem had_ready : Ready 2 2 2 hadInp where
  A := ⟨rfl, rfl, rfl⟩
  W0 := ⟨rfl, rfl⟩
  W1 := ⟨rfl, rfl⟩
  w1 := rfl
  w2 := rfl
  w3 := rfl
  l := ⟨rfl, rfl, toM_eye⟩
  r := ⟨rfl, rfl⟩
  L := ⟨⟨rfl, rfl, rfl⟩, by rw [show hadInp.L = blk (eye 2) from rfl, lo_blk, toM_eye, transpose_one]⟩
  R := ⟨⟨rfl, rfl, rfl⟩, rfl⟩
  LAA := okEnv_ok ⟨_, if_pos ⟨rfl, rfl, rfl, rfl, rfl⟩⟩
  RAA := okEnv_ok ⟨_, if_pos ⟨rfl, rfl, rfl, rfl, rfl⟩⟩
  K := ⟨rfl, rfl, rfl⟩
  KR := ⟨rfl, rfl, rfl⟩
  VL := ⟨rfl, rfl, rfl⟩
  il := ⟨rfl, rfl, toM_eye⟩
  ir := ⟨rfl, rfl⟩

theorem null_zero : rect 2 2 hadNull 0 = !![0, 0; 1, 0] := by
  ext i j; fin_cases i <;> fin_cases j <;> simp [rect, hadNull]

theorem null_one : rect 2 2 hadNull 1 = !![0, 1; 0, 0] := by
  ext i j; fin_cases i <;> fin_cases j <;> simp [rect, hadNull]

theorem rootMat_eq : toM 2 rootMat.v = (2 * (((Real.sqrt 2)⁻¹ : ℝ) : ℂ)) • 1 := by
  have : ((Real.sqrt 2 : ℝ) : ℂ) = 2 * (((Real.sqrt 2)⁻¹ : ℝ) : ℂ) := by
    rw [← Complex.ofReal_ofNat, ← Complex.ofReal_mul]
    congr 1
    have := Real.mul_self_sqrt (show (0 : ℝ) ≤ 2 by norm_num)
    field_simp
    linarith
  rw [← this]
  ext i j; fin_cases i <;> fin_cases j <;> simp [toM, rootMat]

theorem sx_had : capG 2 (TdvpInf.bondH sxMpo sxMpo) (mat 2 hadTen) (mat 2 hadTen) (mat 2 hadTen) (mat 2 hadTen) 1 = 0 := by
  rw [sx_capG]
  simp only [had_zero, had_one, conjTranspose_smul, conjTranspose_mul, Matrix.smul_mul, Matrix.mul_smul, smul_smul, Matrix.mul_one]
  ext i j; fin_cases i <;> fin_cases j <;> simp [Matrix.mul_apply, Fin.sum_univ_two]

theorem had_uniform : Uniform 2 2 2 hadInp := by
  have hst := had_state
  refine ⟨had_ready, hst.cap, hst.fixed, hst.trace, had_gapped, ?_, ?_, ?_⟩
  · show ∑ s ∈ range 2, (rect 2 2 hadNull s)ᴴ * mat 2 hadTen s = 0
    simp only [sum_range_succ, range_zero, sum_empty, zero_add, null_zero, null_one, had_zero, had_one, Matrix.mul_smul]
    ext i j; fin_cases i <;> fin_cases j <;> simp [Matrix.mul_apply, Fin.sum_univ_two]
  · have e : lo 2 hadInp.K 0 = 0 := rfl
    rw [e]
    show _ = capG 2 (TdvpInf.bondH sxMpo sxMpo) (mat 2 hadTen) (mat 2 hadTen) (mat 2 hadTen) (mat 2 hadTen) 1
      - (capG 2 (TdvpInf.bondH sxMpo sxMpo) (mat 2 hadTen) (mat 2 hadTen) (mat 2 hadTen) (mat 2 hadTen) 1 * _).trace • _
    rw [sx_had, cap_zero]
    simp
  · have e : up 2 hadInp.KR 0 = 0 := rfl
    have g : cupG 2 (TdvpInf.bondH sxMpo sxMpo) (mat 2 hadTen) (mat 2 hadTen) (mat 2 hadTen) (mat 2 hadTen) (toM 2 halfMat.v) = 0 := by
      rw [sx_cupG, half_eq]
      simp only [had_zero, had_one, conjTranspose_smul, conjTranspose_mul, Matrix.smul_mul, Matrix.mul_smul, smul_smul, Matrix.mul_one]
      ext i j; fin_cases i <;> fin_cases j <;> simp [Matrix.mul_apply, Fin.sum_univ_two, Matrix.vecMul, dotProduct]
    rw [e]
    show _ = cupG 2 (TdvpInf.bondH sxMpo sxMpo) (mat 2 hadTen) (mat 2 hadTen) (mat 2 hadTen) (mat 2 hadTen) (toM 2 halfMat.v)
      - (cupG 2 (TdvpInf.bondH sxMpo sxMpo) (mat 2 hadTen) (mat 2 hadTen) (mat 2 hadTen) (mat 2 hadTen) (toM 2 halfMat.v)).trace • _
    rw [g]
    simp [cup]

/-- The first unit vector of length four. -/
def unitVec : Vec ℂ := ⟨4, fun i => if i = 0 then 1 else 0⟩

theorem unit_eq : vecM 2 2 unitVec = !![1, 0; 0, 0] := by
  ext i j; fin_cases i <;> fin_cases j <;> simp [vecM, unitVec]

/-- The tangent vector of these parameters. -/
def hadTan : ℕ → Matrix (Fin 2) (Fin 2) ℂ := tangentOf 2 2 hadInp (vecM 2 2 unitVec)

theorem tan_zero : hadTan 0 = (2 * (((Real.sqrt 2)⁻¹ : ℝ) : ℂ)) • !![0, 0; 1, 0] := by
  show rect 2 2 hadNull 0 * vecM 2 2 unitVec * toM 2 rootMat.v = _
  rw [null_zero, unit_eq, rootMat_eq, Matrix.mul_smul, Matrix.mul_one]
  congr 1
  ext i j; fin_cases i <;> fin_cases j <;> simp

theorem tan_one : hadTan 1 = (2 * (((Real.sqrt 2)⁻¹ : ℝ) : ℂ)) • !![0, 0; 0, 0] := by
  show rect 2 2 hadNull 1 * vecM 2 2 unitVec * toM 2 rootMat.v = _
  rw [null_one, unit_eq, rootMat_eq, Matrix.mul_smul, Matrix.mul_one]
  congr 1
  ext i j; fin_cases i <;> fin_cases j <;> simp

section values
set_option linter.unusedSimpArgs false
set_option linter.unusedTactic false
set_option linter.unreachableTactic false
attribute [local simp] Matrix.mul_apply Fin.sum_univ_two Matrix.vecMul dotProduct

theorem two_had : (2 * (((Real.sqrt 2)⁻¹ : ℝ) : ℂ)) * ((Real.sqrt 2)⁻¹ : ℝ) = 1 := by rw [mul_assoc, had_sq]; norm_num

theorem two_two : (2 * (((Real.sqrt 2)⁻¹ : ℝ) : ℂ)) * (2 * (((Real.sqrt 2)⁻¹ : ℝ) : ℂ)) = 2 := by
  linear_combination 4 * had_sq

theorem two_star : star (2 * (((Real.sqrt 2)⁻¹ : ℝ) : ℂ)) = 2 * (((Real.sqrt 2)⁻¹ : ℝ) : ℂ) := by
  rw [star_mul', had_star]; simp

variable (Y : Matrix (Fin 2) (Fin 2) ℂ)



theorem scaled (a b c e : ℂ) (u1 u2 l1 l2 : Matrix (Fin 2) (Fin 2) ℂ) : ((c • l1) * (e • l2))ᴴ * 1 * ((a • u1) * (b • u2)) = (star c * a * (star e * b)) • ((l1 * l2)ᴴ * (u1 * u2)) := by
  simp only [conjTranspose_mul, conjTranspose_smul, Matrix.smul_mul, Matrix.mul_smul, smul_smul, Matrix.mul_one, star_mul']
  congr 1
  ring

theorem scaled1 (a c : ℂ) (u l Y : Matrix (Fin 2) (Fin 2) ℂ) : (c • l)ᴴ * Y * (a • u) = (star c * a) • (lᴴ * Y * u) := by
  simp only [conjTranspose_smul, Matrix.smul_mul, Matrix.mul_smul, smul_smul]
  rw [mul_comm]

theorem scaled2 (a c : ℂ) (u l Y : Matrix (Fin 2) (Fin 2) ℂ) : (a • u) * Y * (c • l)ᴴ = (star c * a) • (u * Y * lᴴ) := by
  simp only [conjTranspose_smul, Matrix.smul_mul, Matrix.mul_smul, smul_smul]

theorem had_two : (((Real.sqrt 2)⁻¹ : ℝ) : ℂ) * (2 * ((Real.sqrt 2)⁻¹ : ℝ)) = 1 := by rw [mul_comm, two_had]

theorem v_cup : cup 2 hadTan (mat 2 hadTen) (toM 2 halfMat.v) = !![0, 0; 1 / 2, 0] := by
  simp only [cup, sum_range_succ, range_zero, sum_empty, zero_add, tan_zero, tan_one, had_zero, had_one, half_eq, scaled2, had_star, had_two, one_smul]
  ext i j; fin_cases i <;> fin_cases j <;> simp

theorem v_cap : cap 2 (mat 2 hadTen) hadTan Y = !![Y 1 0, Y 1 0; 0, 0] := by
  simp only [cap, sum_range_succ, range_zero, sum_empty, zero_add, tan_zero, tan_one, had_zero, had_one, scaled1, two_star, two_had, one_smul]
  ext i j; fin_cases i <;> fin_cases j <;> simp

theorem v_BC : cap 2 hadTan hadTan Y = !![2 * Y 1 1, 0; 0, 0] := by
  simp only [cap, sum_range_succ, range_zero, sum_empty, zero_add, tan_zero, tan_one, scaled1, two_star, two_two]
  ext i j; fin_cases i <;> fin_cases j <;> simp

theorem v_BAAA : capG 2 (TdvpInf.bondH sxMpo sxMpo) hadTan (mat 2 hadTen) (mat 2 hadTen) (mat 2 hadTen) 1 = !![-1 / 2, -1 / 2; 1 / 2, 1 / 2] := by
  rw [sx_capG]
  simp only [had_zero, had_one, tan_zero, tan_one, scaled, had_star, two_star, had_sq, had_two, two_had, two_two]
  ext i j; fin_cases i <;> fin_cases j <;> simp <;> norm_num

theorem v_ABAA : capG 2 (TdvpInf.bondH sxMpo sxMpo) (mat 2 hadTen) hadTan (mat 2 hadTen) (mat 2 hadTen) 1 = 0 := by
  rw [sx_capG]
  simp only [had_zero, had_one, tan_zero, tan_one, scaled, had_star, two_star, had_sq, had_two, two_had, two_two]
  ext i j; fin_cases i <;> fin_cases j <;> simp <;> norm_num

theorem v_BAAC : capG 2 (TdvpInf.bondH sxMpo sxMpo) hadTan (mat 2 hadTen) (mat 2 hadTen) hadTan 1 = 0 := by
  rw [sx_capG]
  simp only [had_zero, had_one, tan_zero, tan_one, scaled, had_star, two_star, had_sq, had_two, two_had, two_two]
  ext i j; fin_cases i <;> fin_cases j <;> simp <;> norm_num

theorem v_ABAC : capG 2 (TdvpInf.bondH sxMpo sxMpo) (mat 2 hadTen) hadTan (mat 2 hadTen) hadTan 1 = 0 := by
  rw [sx_capG]
  simp only [had_zero, had_one, tan_zero, tan_one, scaled, had_star, two_star, had_sq, had_two, two_had, two_two]
  ext i j; fin_cases i <;> fin_cases j <;> simp <;> norm_num

theorem v_BACA : capG 2 (TdvpInf.bondH sxMpo sxMpo) hadTan (mat 2 hadTen) hadTan (mat 2 hadTen) 1 = 0 := by
  rw [sx_capG]
  simp only [had_zero, had_one, tan_zero, tan_one, scaled, had_star, two_star, had_sq, had_two, two_had, two_two]
  ext i j; fin_cases i <;> fin_cases j <;> simp <;> norm_num

theorem v_ABCA : capG 2 (TdvpInf.bondH sxMpo sxMpo) (mat 2 hadTen) hadTan hadTan (mat 2 hadTen) 1 = 0 := by
  rw [sx_capG]
  simp only [had_zero, had_one, tan_zero, tan_one, scaled, had_star, two_star, had_sq, had_two, two_had, two_two]
  ext i j; fin_cases i <;> fin_cases j <;> simp <;> norm_num

theorem v_AAAC : capG 2 (TdvpInf.bondH sxMpo sxMpo) (mat 2 hadTen) (mat 2 hadTen) (mat 2 hadTen) hadTan 1 = 0 := by
  rw [sx_capG]
  simp only [had_zero, had_one, tan_zero, tan_one, scaled, had_star, two_star, had_sq, had_two, two_had, two_two]
  ext i j; fin_cases i <;> fin_cases j <;> simp <;> norm_num

theorem v_AACA : capG 2 (TdvpInf.bondH sxMpo sxMpo) (mat 2 hadTen) (mat 2 hadTen) hadTan (mat 2 hadTen) 1 = !![-1 / 2, 1 / 2; -1 / 2, 1 / 2] := by
  rw [sx_capG]
  simp only [had_zero, had_one, tan_zero, tan_one, scaled, had_star, two_star, had_sq, had_two, two_had, two_two]
  ext i j; fin_cases i <;> fin_cases j <;> simp <;> norm_num

end values

theorem facp_pi : facp Real.pi = -1 := by
  have h : (1e-8 : ℝ) ≤ |Real.pi| := by
    rw [abs_of_pos Real.pi_pos]
    have := Real.two_le_pi
    norm_num
    linarith
  rw [facp, if_pos h, mul_comm, Complex.exp_pi_mul_I]

theorem projk_pi (c : ℂ) : projk Real.pi c = 0 := by
  have := Real.two_le_pi
  refine if_neg (not_lt.2 ?_)
  rw [abs_of_pos Real.pi_pos]
  norm_num
  linarith

theorem had_limit (s7 xs : Matrix (Fin 2) (Fin 2) ℂ) : limitK 2 (TdvpInf.bondH sxMpo sxMpo) (mat 2 hadTen) hadTan hadTan (toM 2 halfMat.v) (-1) 0 0 s7 xs
    = xs 1 0 / 2 + (-s7 0 0 / 2 + s7 1 0 / 2 - s7 0 1 / 2 + s7 1 1 / 2) := by
  rw [limitK, v_BAAC, v_ABAC, v_BACA, v_ABCA, v_AAAC, v_AACA, cap_zero, cap_zero, v_cap, half_eq]
  simp [Matrix.trace_fin_two, Matrix.vecMul, dotProduct]
  ring

/-- C102 fails for momenta other than zero: for an entangled state, `H=∑σx⊗σx` and the momentum `π` the matrix element of `H` for a unit vector of parameters has
the limit 1 (the energy of the state is zero), but the vector returned has the component 0. -/
theorem C102_violated_momentum {solve : Lgmres} {rnd : ℕ → ℕ → ℂ} (hS : LgmresSpec solve) (hC : LgmresConverges solve) :
    Uniform 2 2 2 hadInp ∧ bondE 2 2 hadInp = 0
      ∧ Tendsto (fun n : ℕ × ℕ => elementI 2 2 hadInp (Complex.exp (Complex.I * Real.pi)) (n.1 + 1) (n.2 + 1) (tangentOf 2 2 hadInp (vecM 2 2 unitVec))
          (tangentOf 2 2 hadInp (vecM 2 2 unitVec))) (atTop ×ˢ atTop) (𝓝 1)
      ∧ ∃ y, exHA solve rnd hadInp Real.pi unitVec = .ok y ∧ y.v 0 = 0 := by
  have hI := had_uniform
  have he : bondE 2 2 hadInp = 0 := by
    show (capG 2 (TdvpInf.bondH sxMpo sxMpo) (mat 2 hadTen) (mat 2 hadTen) (mat 2 hadTen) (mat 2 hadTen) 1 * _).trace = 0
    rw [sx_had, Matrix.zero_mul, Matrix.trace_zero]
  refine ⟨hI, he, ?_, ?_⟩
  · have hs : !![-1 / 4, 0; 1 / 2, 1 / 4] - (-1 : ℂ) • cup 2 (mat 2 hadTen) (mat 2 hadTen) !![-1 / 4, 0; 1 / 2, 1 / 4] = cup 2 hadTan (mat 2 hadTen) (toM 2 halfMat.v) := by
      rw [v_cup, cup, had_right]
      ext i j; fin_cases i <;> fin_cases j <;> simp <;> norm_num
    have hx : (!![-1 / 2, 0; 1, 1 / 2] : Matrix (Fin 2) (Fin 2) ℂ) = (-1 : ℂ)⁻¹ • cap 2 (mat 2 hadTen) (mat 2 hadTen) !![-1 / 2, 0; 1, 1 / 2] + (-1 : ℂ)⁻¹ • cap 2 hadTan (mat 2 hadTen) 0
        + ((-1 : ℂ)⁻¹ * (-1 : ℂ)⁻¹) • capG 2 (TdvpInf.bondH sxMpo sxMpo) hadTan (mat 2 hadTen) (mat 2 hadTen) (mat 2 hadTen) 1
        + (-1 : ℂ)⁻¹ • capG 2 (TdvpInf.bondH sxMpo sxMpo) (mat 2 hadTen) hadTan (mat 2 hadTen) (mat 2 hadTen) 1 + (0 : ℂ) • (1 : Matrix (Fin 2) (Fin 2) ℂ) := by
      rw [v_BAAA, v_ABAA, cap_zero, had_left]
      ext i j; fin_cases i <;> fin_cases j <;> simp <;> norm_num
    have hl := elementK_tendsto (h := TdvpInf.bondH sxMpo sxMpo) (z := -1) (C := hadTan) (by simp) hI.orth hI.fixed hI.trace (hI.left _ _) (hI.right _ _) hI.sumL hI.sumR hs
      (by simp [Matrix.trace_fin_two]; norm_num) hI.gap hx
    have hlim : limitK 2 (TdvpInf.bondH sxMpo sxMpo) (mat 2 hadTen) hadTan hadTan (toM 2 halfMat.v) (-1) 0 0 !![-1 / 4, 0; 1 / 2, 1 / 4] !![-1 / 2, 0; 1, 1 / 2] = 1 := by
      rw [had_limit]; simp; norm_num
    rw [← hlim, mul_comm, Complex.exp_pi_mul_I]
    refine hl.congr fun n => ?_
    have h0 : (capG 2 (TdvpInf.bondH sxMpo sxMpo) (mat 2 hadInp.A) (mat 2 hadInp.A) (mat 2 hadInp.A) (mat 2 hadInp.A) 1 * toM 2 hadInp.r.v).trace = 0 := he
    rw [h0, mul_zero, zero_mul, sub_zero]
    rfl
  · obtain ⟨y, hy, hn⟩ := C102_returns (rnd := rnd) (k := Real.pi) hS hC hI (vec := unitVec) rfl
    refine ⟨y, hy, ?_⟩
    obtain ⟨-, s7, x8, x10, x12, hs, hz⟩ := exHA_spec hS hI.ready rfl hy
    have hs' : Solved 2 (TdvpInf.bondH sxMpo sxMpo) (mat 2 hadTen) hadTan (toM 2 halfMat.v) 0 Real.pi s7 x8 x10 x12 := hs
    have hz' := hz (Matrix.single 0 0 1)
    have hC' : (fun s => rect 2 2 hadInp.VL s * Matrix.single 0 0 1 * (toM 2 hadInp.ir.v).map star) = hadTan := by
      have e1 : (Matrix.single 0 0 1 : Matrix (Fin 2) (Fin 2) ℂ) = vecM 2 2 unitVec := by
        rw [unit_eq]; ext i j; fin_cases i <;> fin_cases j <;> simp
      have e2 : (toM 2 hadInp.ir.v).map star = toM 2 hadInp.ir.v := by
        ext i j; fin_cases i <;> fin_cases j <;> simp [toM, hadInp, rootMat]
      rw [e1, e2]
      rfl
    have hd := dotP_single (0 : Fin 2) (0 : Fin 2) (vecM 2 2 y)
    rw [dotP] at hd
    rw [hC', facp_pi, hd] at hz'
    change _ = limitK 2 (TdvpInf.bondH sxMpo sxMpo) (mat 2 hadTen) hadTan hadTan (toM 2 halfMat.v) (-1) 0 0 s7 _ at hz'
    rw [had_limit] at hz'
    have hL : ∀ x F : Matrix (Fin 2) (Fin 2) ℂ, x - cap 2 (mat 2 hadTen) (mat 2 hadTen) x + (x * toM 2 halfMat.v).trace • (1 : Matrix (Fin 2) (Fin 2) ℂ) = F →
        x 1 0 = F 1 0 + (F 0 0 - F 1 1) / 2 := by
      intro x F h
      rw [had_left, half_eq] at h
      have a := congrFun (congrFun h 0) 0
      have b := congrFun (congrFun h 1) 0
      have c := congrFun (congrFun h 1) 1
      simp [Matrix.trace_fin_two] at a b c
      linear_combination b + a / 2 - c / 2
    have e8 := hL _ _ hs'.e8
    have e10 := hL _ _ hs'.e10
    have e12 := hL _ _ hs'.e12
    have e7 := hs'.e7
    rw [projk_pi, zero_smul, sub_zero, v_cup, cup, had_right, half_eq] at e7
    rw [projk_pi, zero_smul, sub_zero, cap_zero] at e8
    rw [projk_pi, zero_smul, sub_zero, v_ABAA] at e10
    rw [projk_pi, zero_smul, sub_zero, v_BAAA] at e12
    have a := congrFun (congrFun e7 0) 0
    have b := congrFun (congrFun e7 0) 1
    have c := congrFun (congrFun e7 1) 0
    have d := congrFun (congrFun e7 1) 1
    simp [Matrix.trace_fin_two] at a b c d e8 e10 e12
    have h1 : vecM 2 2 y 0 0 = y.v 0 := rfl
    rw [← h1, hz']
    simp [e8, e10, e12]
    linear_combination -(1 / 2) * a + (1 / 2) * d - b

/-- The MPO of the unit operator. -/
def idMpo (d : ℕ) : Mpo ℂ := ⟨1, 1, d, d, fun _ _ s t => if s = t then 1 else 0⟩

theorem id_bond (d s1 s2 t1 t2 : ℕ) : TdvpInf.bondH (idMpo d) (idMpo d) s1 s2 t1 t2 = (if s1 = t1 then 1 else 0) * (if s2 = t2 then 1 else 0) := by
  simp [TdvpInf.bondH, idMpo]

theorem id_capG {D d : ℕ} (e : ℕ) (u1 u2 l1 l2 : ℕ → Matrix (Fin D) (Fin D) ℂ) (Y : Matrix (Fin D) (Fin D) ℂ) :
    capG d (TdvpInf.bondH (idMpo e) (idMpo e)) u1 u2 l1 l2 Y = cap d u2 l2 (cap d u1 l1 Y) := by
  simp only [capG, cap, id_bond, Finset.mul_sum, Finset.sum_mul]
  rw [Finset.sum_comm]
  refine sum_congr rfl fun s2 h2 => sum_congr rfl fun s1 h1 => ?_
  rw [Finset.sum_eq_single_of_mem s1 h1 (fun t _ ht => sum_eq_zero fun t' _ => by rw [if_neg ht.symm, zero_mul, zero_smul]),
    Finset.sum_eq_single_of_mem s2 h2 (fun t _ ht => by rw [if_neg ht.symm, mul_zero, zero_smul]), if_pos rfl, if_pos rfl, mul_one, one_smul, conjTranspose_mul]
  simp only [Matrix.mul_assoc]

theorem id_cupG {D d : ℕ} (e : ℕ) (u1 u2 l1 l2 : ℕ → Matrix (Fin D) (Fin D) ℂ) (Y : Matrix (Fin D) (Fin D) ℂ) :
    cupG d (TdvpInf.bondH (idMpo e) (idMpo e)) u1 u2 l1 l2 Y = cup d u1 l1 (cup d u2 l2 Y) := by
  simp only [cupG, cup, id_bond, Finset.mul_sum, Finset.sum_mul]
  refine sum_congr rfl fun s1 h1 => sum_congr rfl fun s2 h2 => ?_
  rw [Finset.sum_eq_single_of_mem s1 h1 (fun t _ ht => sum_eq_zero fun t' _ => by rw [if_neg ht.symm, zero_mul, zero_smul]),
    Finset.sum_eq_single_of_mem s2 h2 (fun t _ ht => by rw [if_neg ht.symm, mul_zero, zero_smul]), if_pos rfl, if_pos rfl, mul_one, one_smul, conjTranspose_mul]
  simp only [Matrix.mul_assoc]

theorem id_limit {D d : ℕ} (e : ℕ) {A B C : ℕ → Matrix (Fin D) (Fin D) ℂ} {r s7 : Matrix (Fin D) (Fin D) ℂ} (hr : ∑ s ∈ range d, A s * r * (A s)ᴴ = r)
    (h1 : cap d A A 1 = 1) (hB : cap d B A 1 = 0) (hC : cap d A C 1 = 0) : limitK d (TdvpInf.bondH (idMpo e) (idMpo e)) A B C r 1 0 0 s7 0 = 2 * (cap d B C 1 * r).trace := by
  simp only [limitK, id_capG, hB, hC, h1, cap_zero, trace_cap hr, Matrix.zero_mul, Matrix.mul_zero, Matrix.trace_zero, add_zero]
  ring

/-- A positive matrix with trace one square, not real. -/
def cRoot (i j : ℕ) : ℂ := if i = 0 then (if j = 0 then 4 / 7 else -2 / 7 * Complex.I) else if j = 0 then 2 / 7 * Complex.I else 5 / 7

/-- A uniform state with four states per site; its right density matrix is the square of `cRoot`. -/
def cTen : Ten ℂ := ⟨2, 2, 4, fun i j s => if s % 2 = j then cRoot i (s / 2) else 0⟩

def cDens : Mat ℂ := ⟨2, 2, fun i j => if i = 0 then (if j = 0 then 20 / 49 else -18 / 49 * Complex.I) else if j = 0 then 18 / 49 * Complex.I else 29 / 49⟩

def cInv : Mat ℂ := ⟨2, 2, fun i j => if i = 0 then (if j = 0 then 35 / 16 else 14 / 16 * Complex.I) else if j = 0 then -14 / 16 * Complex.I else 28 / 16⟩

def cNull : Ten ℂ := ⟨2, 1, 4, fun i _ s => (if s = 0 then 2 / 5 else if s = 1 then 1 / 5 else 0) * (if i = 0 then 1 else -2 * Complex.I)⟩

/-- The arguments for this state and `H=∑1`. -/
def cInp : Inp where
  l := eye 2
  r := cDens
  L := blk (eye 2)
  LAA := okEnv (addLayerR (blk (eye 2)) cTen (idMpo 4) cTen)
  K := ⟨2, 2, 1, fun _ _ _ => 0⟩
  R := blk cDens
  RAA := okEnv (addLayerL (blk cDens) cTen (idMpo 4) cTen)
  KR := ⟨2, 2, 1, fun _ _ _ => 0⟩
  A := cTen
  VL := cNull
  il := eye 2
  ir := cInv
  W0 := idMpo 4
  W1 := idMpo 4

theorem c_ready : Ready 2 1 4 cInp where
  A := ⟨rfl, rfl, rfl⟩
  W0 := ⟨rfl, rfl⟩
  W1 := ⟨rfl, rfl⟩
  w1 := rfl
  w2 := rfl
  w3 := rfl
  l := ⟨rfl, rfl, toM_eye⟩
  r := ⟨rfl, rfl⟩
  L := ⟨⟨rfl, rfl, rfl⟩, by rw [show cInp.L = blk (eye 2) from rfl, lo_blk, toM_eye, transpose_one]⟩
  R := ⟨⟨rfl, rfl, rfl⟩, rfl⟩
  LAA := okEnv_ok ⟨_, if_pos ⟨rfl, rfl, rfl, rfl, rfl⟩⟩
  RAA := okEnv_ok ⟨_, if_pos ⟨rfl, rfl, rfl, rfl, rfl⟩⟩
  K := ⟨rfl, rfl, rfl⟩
  KR := ⟨rfl, rfl, rfl⟩
  VL := ⟨rfl, rfl, rfl⟩
  il := ⟨rfl, rfl, toM_eye⟩
  ir := ⟨rfl, rfl⟩

theorem cDens_eq : toM 2 cDens.v = !![20 / 49, -18 / 49 * Complex.I; 18 / 49 * Complex.I, 29 / 49] := by
  ext i j; fin_cases i <;> fin_cases j <;> simp [toM, cDens]

theorem cInv_eq : toM 2 cInv.v = !![35 / 16, 14 / 16 * Complex.I; -14 / 16 * Complex.I, 28 / 16] := by
  ext i j; fin_cases i <;> fin_cases j <;> simp [toM, cInv]

theorem c_cap (Y : Matrix (Fin 2) (Fin 2) ℂ) : cap 4 (mat 2 cTen) (mat 2 cTen) Y = (Y * toM 2 cDens.v).trace • 1 := by
  rw [cDens_eq]
  simp only [cap, sum_range_succ, range_zero, sum_empty, zero_add]
  ext i j
  fin_cases i <;> fin_cases j <;> simp [Matrix.mul_apply, Fin.sum_univ_two, mat, cTen, cRoot, Matrix.trace_fin_two, map_ofNat] <;> ring_nf <;> (try simp only [Complex.I_sq]) <;> (try ring)

theorem c_cup (F : Matrix (Fin 2) (Fin 2) ℂ) : cup 4 (mat 2 cTen) (mat 2 cTen) F = F.trace • toM 2 cDens.v := by
  rw [cDens_eq]
  simp only [cup, sum_range_succ, range_zero, sum_empty, zero_add]
  ext i j
  fin_cases i <;> fin_cases j <;> simp [Matrix.mul_apply, Fin.sum_univ_two, mat, cTen, cRoot, Matrix.trace_fin_two, map_ofNat] <;> ring_nf <;> (try simp only [Complex.I_sq]) <;> (try ring)

theorem c_trace : (toM 2 cDens.v).trace = 1 := by
  rw [cDens_eq]; simp [Matrix.trace_fin_two]; norm_num

theorem c_uniform : Uniform 2 1 4 cInp := by
  have h1 : cap 4 (mat 2 cTen) (mat 2 cTen) 1 = 1 := by rw [c_cap, Matrix.one_mul, c_trace, one_smul]
  have h2 : cup 4 (mat 2 cTen) (mat 2 cTen) (toM 2 cDens.v) = toM 2 cDens.v := by rw [c_cup, c_trace, one_smul]
  refine ⟨c_ready, h1, h2, c_trace, ?_, ?_, ?_, ?_⟩
  · intro μ Y _ hY hμ
    have h0 : μ ≠ 0 := by rintro rfl; simp at hμ; linarith
    refine ⟨μ⁻¹ * (Y * toM 2 cDens.v).trace, ?_⟩
    have hY' : cap 4 (mat 2 cTen) (mat 2 cTen) Y = μ • Y := hY
    rw [mul_smul, ← c_cap, hY', smul_smul, inv_mul_cancel₀ h0, one_smul]
  · show ∑ s ∈ range 4, (rect 2 1 cNull s)ᴴ * mat 2 cTen s = 0
    simp only [sum_range_succ, range_zero, sum_empty, zero_add]
    ext i j
    fin_cases i
    fin_cases j <;> simp [Matrix.mul_apply, Fin.sum_univ_two, rect, mat, cTen, cRoot, cNull, map_ofNat] <;> ring_nf <;> (try simp only [Complex.I_sq]) <;> (try ring)
  · show (0 : Matrix (Fin 2) (Fin 2) ℂ) - cap 4 (mat 2 cTen) (mat 2 cTen) 0 + (0 * toM 2 cDens.v).trace • 1 = capG 4 (TdvpInf.bondH (idMpo 4) (idMpo 4)) (mat 2 cTen) (mat 2 cTen) (mat 2 cTen) (mat 2 cTen) 1
      - (capG 4 (TdvpInf.bondH (idMpo 4) (idMpo 4)) (mat 2 cTen) (mat 2 cTen) (mat 2 cTen) (mat 2 cTen) 1 * toM 2 cDens.v).trace • 1
    rw [id_capG, h1, h1, cap_zero, Matrix.one_mul, c_trace]
    simp
  · show (0 : Matrix (Fin 2) (Fin 2) ℂ) - cup 4 (mat 2 cTen) (mat 2 cTen) 0 + (0 : Matrix (Fin 2) (Fin 2) ℂ).trace • toM 2 cDens.v
      = cupG 4 (TdvpInf.bondH (idMpo 4) (idMpo 4)) (mat 2 cTen) (mat 2 cTen) (mat 2 cTen) (mat 2 cTen) (toM 2 cDens.v)
      - (cupG 4 (TdvpInf.bondH (idMpo 4) (idMpo 4)) (mat 2 cTen) (mat 2 cTen) (mat 2 cTen) (mat 2 cTen) (toM 2 cDens.v)).trace • toM 2 cDens.v
    rw [id_cupG, h2, h2, c_trace, c_cup]
    simp

/-- The first unit vector of length two. -/
def unitTwo : Vec ℂ := ⟨2, fun i => if i = 0 then 1 else 0⟩

theorem c_iso : ∑ s ∈ range 4, (rect 2 1 cInp.VL s)ᴴ * rect 2 1 cInp.VL s = 1 := by
  simp only [sum_range_succ, range_zero, sum_empty, zero_add]
  ext i j
  fin_cases i; fin_cases j
  simp [Matrix.mul_apply, Fin.sum_univ_two, rect, cInp, cNull, map_ofNat]
  ring_nf
  simp only [Complex.I_sq]
  ring

theorem c_inv : toM 2 cInp.ir.v * toM 2 cInp.r.v * (toM 2 cInp.ir.v)ᴴ = 1 := by
  show toM 2 cInv.v * toM 2 cDens.v * (toM 2 cInv.v)ᴴ = 1
  rw [cInv_eq, cDens_eq]
  ext i j; fin_cases i <;> fin_cases j <;> simp [Matrix.mul_apply, Fin.sum_univ_two, map_ofNat] <;> ring_nf <;> (try simp only [Complex.I_sq, Complex.I_pow_three]) <;> (try ring)

/-- C102 fails for matrices that are not real even for momentum zero: for a state with a complex density matrix, an isometric `VL`, the inverse of the square root
of the density matrix, and the Hamiltonian whose bonds are the unit operator, the scalar product for a unit vector of parameters is 2, but the vector
returned has the component 3 (`invsqrtr` is contracted without conjugation). -/
theorem C102_violated_complex {solve : Lgmres} {rnd : ℕ → ℕ → ℂ} (hS : LgmresSpec solve) (hC : LgmresConverges solve) :
    Uniform 2 1 4 cInp ∧ (∑ s ∈ range 4, (rect 2 1 cInp.VL s)ᴴ * rect 2 1 cInp.VL s = 1) ∧ toM 2 cInp.ir.v * toM 2 cInp.r.v * (toM 2 cInp.ir.v)ᴴ = 1
      ∧ Tendsto (fun n : ℕ × ℕ => elementI 2 4 cInp 1 (n.1 + 1) (n.2 + 1) (tangentOf 2 1 cInp (vecM 1 2 unitTwo)) (tangentOf 2 1 cInp (vecM 1 2 unitTwo))
          - (n.1 + n.2) * bondE 2 4 cInp * dotP (vecM 1 2 unitTwo) (vecM 1 2 unitTwo)) (atTop ×ˢ atTop) (𝓝 2)
      ∧ ∃ y, exHA solve rnd cInp 0 unitTwo = .ok y ∧ y.v 0 = 3 := by
  have hI := c_uniform
  have hd : dotP (vecM 1 2 unitTwo) (vecM 1 2 unitTwo) = 1 := by
    simp [dotP, vecM, unitTwo]
  refine ⟨hI, c_iso, c_inv, ?_, ?_⟩
  · have hm := metric_eq c_iso c_inv (vecM 1 2 unitTwo) (vecM 1 2 unitTwo)
    rw [hd] at hm
    have hB := hI.left (vecM 1 2 unitTwo) (toM 2 cInp.ir.v)
    have hC' := hI.right (vecM 1 2 unitTwo) (toM 2 cInp.ir.v)
    have hb0 : cap 4 (tangentOf 2 1 cInp (vecM 1 2 unitTwo)) (mat 2 cInp.A) 1 = 0 := hB
    obtain ⟨y, hy, -⟩ := C102_returns (rnd := rnd) (k := 0) hS hC hI (vec := unitTwo) rfl
    obtain ⟨-, s7, x8, x10, x12, hs, -⟩ := exHA_spec hS hI.ready rfl hy
    obtain ⟨t0, t1⟩ := hs.s7_eq hI.orth hI.trace hB
    have hx : (0 : Matrix (Fin 2) (Fin 2) ℂ) = (1 : ℂ)⁻¹ • cap 4 (mat 2 cInp.A) (mat 2 cInp.A) 0 + (1 : ℂ)⁻¹ • cap 4 (tangentOf 2 1 cInp (vecM 1 2 unitTwo)) (mat 2 cInp.A) 0
        + ((1 : ℂ)⁻¹ * (1 : ℂ)⁻¹) • capG 4 (TdvpInf.bondH (idMpo 4) (idMpo 4)) (tangentOf 2 1 cInp (vecM 1 2 unitTwo)) (mat 2 cInp.A) (mat 2 cInp.A) (mat 2 cInp.A) 1
        + (1 : ℂ)⁻¹ • capG 4 (TdvpInf.bondH (idMpo 4) (idMpo 4)) (mat 2 cInp.A) (tangentOf 2 1 cInp (vecM 1 2 unitTwo)) (mat 2 cInp.A) (mat 2 cInp.A) 1
        + (0 : ℂ) • (1 : Matrix (Fin 2) (Fin 2) ℂ) := by
      rw [id_capG, id_capG, hI.orth, hb0, cap_zero, cap_zero]
      simp
    have hl := elementK_tendsto (h := TdvpInf.bondH (idMpo 4) (idMpo 4)) (z := 1) (C := tangentOf 2 1 cInp (vecM 1 2 unitTwo)) (by simp) hI.orth hI.fixed hI.trace hB hC' hI.sumL hI.sumR
      (by rw [one_smul]; exact t1) t0 hI.gap hx
    have hv : limitK 4 (TdvpInf.bondH (idMpo 4) (idMpo 4)) (mat 2 cInp.A) (tangentOf 2 1 cInp (vecM 1 2 unitTwo)) (tangentOf 2 1 cInp (vecM 1 2 unitTwo)) (toM 2 cInp.r.v) 1 0 0 s7 0
        = 2 := by
      rw [id_limit 4 hI.fixed hI.orth hb0 (show cap 4 (mat 2 cInp.A) (tangentOf 2 1 cInp (vecM 1 2 unitTwo)) 1 = 0 from hC'), hm, mul_one]
    rw [← hv, hd]
    refine hl.congr fun n => ?_
    change elementI 2 4 cInp 1 _ _ (tangentOf 2 1 cInp (vecM 1 2 unitTwo)) (tangentOf 2 1 cInp (vecM 1 2 unitTwo)) - _ * bondE 2 4 cInp * (cap 4 (tangentOf 2 1 cInp (vecM 1 2 unitTwo)) (tangentOf 2 1 cInp (vecM 1 2 unitTwo)) 1 * toM 2 cInp.r.v).trace = _
    rw [hm]
  · obtain ⟨y, hy, -⟩ := C102_returns (rnd := rnd) (k := 0) hS hC hI (vec := unitTwo) rfl
    refine ⟨y, hy, ?_⟩
    obtain ⟨-, s7, x8, x10, x12, hs, hz⟩ := exHA_spec hS hI.ready rfl hy
    have hB := hI.left (vecM 1 2 unitTwo) (toM 2 cInp.ir.v)
    have hL : ∀ x : Matrix (Fin 2) (Fin 2) ℂ, x - cap 4 (mat 2 cInp.A) (mat 2 cInp.A) x + (x * toM 2 cInp.r.v).trace • (1 : Matrix (Fin 2) (Fin 2) ℂ) = 0 → x = 0 := fun x hx =>
      cap_unique hI.fixed hI.trace hI.gap hx
    have hK : lo 2 cInp.K 0 = 0 := rfl
    have hp : projk 0 (0 : ℂ) = 0 := by simp [projk]
    have e8 := hs.e8
    rw [hK, cap_zero, Matrix.zero_mul, Matrix.trace_zero, hp, zero_smul, sub_zero] at e8
    have e10 : _ = capG 4 (TdvpInf.bondH (idMpo 4) (idMpo 4)) (mat 2 cInp.A) _ (mat 2 cInp.A) (mat 2 cInp.A) 1
      - projk 0 (capG 4 (TdvpInf.bondH (idMpo 4) (idMpo 4)) (mat 2 cInp.A) _ (mat 2 cInp.A) (mat 2 cInp.A) 1 * _).trace • _ := hs.e10
    rw [id_capG, hI.orth, hB, Matrix.zero_mul, Matrix.trace_zero, hp, zero_smul, sub_zero] at e10
    have e12 : _ = capG 4 (TdvpInf.bondH (idMpo 4) (idMpo 4)) _ (mat 2 cInp.A) (mat 2 cInp.A) (mat 2 cInp.A) 1
      - projk 0 (capG 4 (TdvpInf.bondH (idMpo 4) (idMpo 4)) _ (mat 2 cInp.A) (mat 2 cInp.A) (mat 2 cInp.A) 1 * _).trace • _ := hs.e12
    rw [id_capG, hB, cap_zero, Matrix.zero_mul, Matrix.trace_zero, hp, zero_smul, sub_zero] at e12
    obtain rfl := hL _ e8
    obtain rfl := hL _ e10
    obtain rfl := hL _ e12
    have hz' := hz (Matrix.single 0 0 1)
    have hd' := dotP_single (0 : Fin 1) (0 : Fin 2) (vecM 1 2 y)
    rw [dotP] at hd'
    have hf : facp 0 = 1 := by simp [facp]
    rw [hd', hf, smul_zero, smul_zero, add_zero, add_zero] at hz'
    change _ = limitK 4 (TdvpInf.bondH (idMpo 4) (idMpo 4)) (mat 2 cInp.A) _ _ (toM 2 cInp.r.v) 1 0 0 s7 0 at hz'
    rw [id_limit 4 hI.fixed hI.orth hB (hI.right _ _)] at hz'
    have h1 : vecM 1 2 y 0 0 = y.v 0 := rfl
    rw [← h1, hz']
    have hg : ∀ X Z : Matrix (Fin 1) (Fin 2) ℂ, cap 4 (fun s => rect 2 1 cInp.VL s * X * toM 2 cInp.ir.v) (fun s => rect 2 1 cInp.VL s * Z * (toM 2 cInp.ir.v).map star) 1
        = (Z * (toM 2 cInp.ir.v).map star)ᴴ * (∑ s ∈ range 4, (rect 2 1 cInp.VL s)ᴴ * rect 2 1 cInp.VL s) * (X * toM 2 cInp.ir.v) := by
      intro X Z
      simp only [cap, Matrix.mul_one, Matrix.mul_sum, Matrix.sum_mul, conjTranspose_mul, Matrix.mul_assoc]
    rw [hg, c_iso, Matrix.mul_one]
    change 2 * (((Matrix.single 0 0 1 : Matrix (Fin 1) (Fin 2) ℂ) * (toM 2 cInv.v).map star)ᴴ * (vecM 1 2 unitTwo * toM 2 cInv.v) * toM 2 cDens.v).trace = 3
    rw [cInv_eq, cDens_eq]
    simp [Matrix.trace_fin_two, Matrix.mul_apply, Fin.sum_univ_two, vecM, unitTwo]
    ring_nf
    simp only [Complex.I_sq]
    ring

/-- The hypotheses of the theorems can be met: the arguments of `C102_violated_momentum` belong to a uniform state with a gap, `VL` is isometric and `invsqrtr`
real, and there is a solver. -/
example : ∃ solve : Lgmres, LgmresSpec solve ∧ LgmresConverges solve ∧ Uniform 2 2 2 hadInp ∧ (∑ s ∈ range 2, (rect 2 2 hadInp.VL s)ᴴ * rect 2 2 hadInp.VL s = 1)
    ∧ toM 2 hadInp.ir.v * toM 2 hadInp.r.v * (toM 2 hadInp.ir.v)ᴴ = 1 ∧ (∀ i < 2, ∀ j < 2, star (hadInp.ir.v i j) = hadInp.ir.v i j)
    ∧ ∃ y, exHA solve (fun _ _ => 0) hadInp 0 unitVec = .ok y := by
  obtain ⟨solve, h1, h2⟩ := exists_lgmres
  obtain ⟨y, hy, -⟩ := C102_returns (rnd := fun _ _ => 0) (k := 0) h1 h2 had_uniform (vec := unitVec) rfl
  refine ⟨solve, h1, h2, had_uniform, ?_, ?_, ?_, y, hy⟩
  · show ∑ s ∈ range 2, (rect 2 2 hadNull s)ᴴ * rect 2 2 hadNull s = 1
    simp only [sum_range_succ, range_zero, sum_empty, zero_add, null_zero, null_one]
    ext i j; fin_cases i <;> fin_cases j <;> simp [Matrix.mul_apply, Fin.sum_univ_two]
  · show toM 2 rootMat.v * toM 2 halfMat.v * (toM 2 rootMat.v)ᴴ = 1
    rw [rootMat_eq, half_eq, conjTranspose_smul, two_star, conjTranspose_one, Matrix.mul_smul, Matrix.mul_one, Matrix.mul_smul, Matrix.mul_one, smul_smul, smul_smul]
    rw [show 2 * (((Real.sqrt 2)⁻¹ : ℝ) : ℂ) * (1 / 2) * (2 * (((Real.sqrt 2)⁻¹ : ℝ) : ℂ)) = 1 by linear_combination (1 / 2) * two_two, one_smul]
  · intro i _ j _
    by_cases h : i = j <;> simp [hadInp, rootMat, h]

end
end PyTeN.Excite
