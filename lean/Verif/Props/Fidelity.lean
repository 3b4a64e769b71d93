import Verif.Env.Fidelity
import Verif.Props.Transfer
import Verif.Props.RegaugeImps
import Verif.Props.TdvpInf

/-! # C116: the eigenvalues of the mixed transfer operator -/

namespace PyTeN.Fidelity
open Finset Transfer Regauge Vumps TdvpInf Matrix
open scoped ComplexOrder

noncomputable section

/-! ## Specification -/

/-- Spec: the vector `x` is an eigenvector of `MixedTransferOperator(direction,U,L,.)` with eigenvalue `μ`. -/
def Eigen (dir : Dir) (U L : Ten ℂ) (μ : ℂ) (x : Vec ℂ) : Prop :=
  x.n = U.l * L.l ∧ (∃ i < x.n, x.v i ≠ 0) ∧
    ∃ y, mixedTransferOperator dir (.arr U) (.arr L) x = .ok y ∧ y.n = x.n ∧ ∀ i < x.n, y.v i = μ * x.v i

/-- Spec: the matrices of a tensor. -/
def comp (D : ℕ) (t : Ten ℂ) (s : ℕ) : Matrix (Fin D) (Fin D) ℂ := fun i j => t.v i j s

/-- Spec: `η` is the eigenvalue of the transfer operator of `t` to the given direction for a positive matrix. -/
def Weight (dir : Dir) (D : ℕ) (t : Ten ℂ) (η : ℝ) : Prop :=
  ∃ P : Matrix (Fin D) (Fin D) ℂ, P.PosDef ∧
    match dir with
    | .right => ∑ s ∈ range t.d, (comp D t s)ᴴ * P * comp D t s = (η : ℂ) • P
    | .left => ∑ s ∈ range t.d, comp D t s * P * (comp D t s)ᴴ = (η : ℂ) • P

/-! ## The inequality -/

section
open scoped MatrixOrder

theorem factor {n : ℕ} {P : Matrix (Fin n) (Fin n) ℂ} (h : P.PosSemidef) : ∃ K, P = Kᴴ * K :=
  ⟨CFC.sqrt P, by rw [(CFC.sqrt_nonneg P).posSemidef.1.eq, CFC.sqrt_mul_sqrt_self P h.nonneg]⟩

end

section core
variable {m n d : ℕ} {A : ℕ → Matrix (Fin m) (Fin m) ℂ} {B : ℕ → Matrix (Fin n) (Fin n) ℂ} {l : Matrix (Fin m) (Fin m) ℂ}
  {r : Matrix (Fin n) (Fin n) ℂ}

/-- The squared norm of a matrix for the weights `l`, `r`. -/
def form (l : Matrix (Fin m) (Fin m) ℂ) (r : Matrix (Fin n) (Fin n) ℂ) (Z W : Matrix (Fin m) (Fin n) ℂ) : ℂ := trace (Zᴴ * l * W * r)

theorem form_factor (hl : l.PosDef) (hr : r.PosDef) : ∃ (K : Matrix (Fin m) (Fin m) ℂ) (C : Matrix (Fin n) (Fin n) ℂ), l = Kᴴ * K ∧ r = Cᴴ * C ∧
    ∀ Z : Matrix (Fin m) (Fin n) ℂ, form l r Z Z = trace ((K * Z * Cᴴ)ᴴ * (K * Z * Cᴴ)) := by
  obtain ⟨K, hK⟩ := factor hl.posSemidef
  obtain ⟨C, hC⟩ := factor hr.posSemidef
  refine ⟨K, C, hK, hC, fun Z => ?_⟩
  unfold form
  rw [hK, hC, ← Matrix.mul_assoc, trace_mul_comm]
  simp only [conjTranspose_mul, conjTranspose_conjTranspose, Matrix.mul_assoc]

theorem form_nonneg (hl : l.PosDef) (hr : r.PosDef) (Z : Matrix (Fin m) (Fin n) ℂ) : 0 ≤ form l r Z Z := by
  obtain ⟨K, C, -, -, h⟩ := form_factor hl hr
  rw [h]
  exact (posSemidef_conjTranspose_mul_self _).trace_nonneg

theorem form_zero (hl : l.PosDef) (hr : r.PosDef) {Z : Matrix (Fin m) (Fin n) ℂ} (h0 : form l r Z Z = 0) : Z = 0 := by
  obtain ⟨K, C, hK, hC, h⟩ := form_factor hl hr
  rw [h, trace_conjTranspose_mul_self_eq_zero_iff] at h0
  have h1 : l * Z * r = 0 := by
    rw [hK, hC]
    calc Kᴴ * K * Z * (Cᴴ * C) = Kᴴ * (K * Z * Cᴴ) * C := by simp only [Matrix.mul_assoc]
      _ = 0 := by rw [h0, Matrix.mul_zero, Matrix.zero_mul]
  have d1 := (Matrix.isUnit_iff_isUnit_det _).1 hl.isUnit
  have d2 := (Matrix.isUnit_iff_isUnit_det _).1 hr.isUnit
  calc Z = l⁻¹ * (l * Z * r) * r⁻¹ := by
        rw [Matrix.mul_assoc, Matrix.mul_assoc (l * Z), Matrix.mul_nonsing_inv _ d2, Matrix.mul_one, ← Matrix.mul_assoc, Matrix.nonsing_inv_mul _ d1, Matrix.one_mul]
    _ = 0 := by rw [h1, Matrix.mul_zero, Matrix.zero_mul]

/-- The distance of `A·Y` and `κ·Y·B`. -/
theorem defect (hl : l.PosDef) (hr : r.PosDef) {ηA ηB : ℝ} (hB0 : 0 < ηB) (hA : ∑ s ∈ range d, (A s)ᴴ * l * A s = (ηA : ℂ) • l)
    (hB : ∑ s ∈ range d, B s * r * (B s)ᴴ = (ηB : ℂ) • r) {μ : ℂ} {Y : Matrix (Fin m) (Fin n) ℂ}
    (hE : ∑ s ∈ range d, (A s)ᴴ * (l * Y) * B s = μ • (l * Y)) :
    ∑ s ∈ range d, form l r (A s * Y - (star μ / ηB) • (Y * B s)) (A s * Y - (star μ / ηB) • (Y * B s)) =
      ((ηA - ‖μ‖ ^ 2 / ηB : ℝ) : ℂ) * form l r Y Y := by
  have hN : star (form l r Y Y) = form l r Y Y := by
    have := form_nonneg hl hr Y
    rw [Complex.star_def, Complex.conj_eq_iff_im]
    exact ((Complex.le_def.1 this).2).symm
  have e1 : ∑ s ∈ range d, form l r (A s * Y) (A s * Y) = ηA * form l r Y Y := by
    unfold form
    rw [← trace_sum]
    have : ∑ s ∈ range d, (A s * Y)ᴴ * l * (A s * Y) * r = Yᴴ * (∑ s ∈ range d, (A s)ᴴ * l * A s) * Y * r := by
      rw [Matrix.mul_sum, Matrix.sum_mul, Matrix.sum_mul]
      refine sum_congr rfl fun s _ => ?_
      rw [conjTranspose_mul]
      simp only [Matrix.mul_assoc]
    rw [this, hA, Matrix.mul_smul, Matrix.smul_mul, Matrix.smul_mul, trace_smul, smul_eq_mul]
  have e2 : ∑ s ∈ range d, form l r (A s * Y) (Y * B s) = μ * form l r Y Y := by
    unfold form
    rw [← trace_sum]
    have : ∑ s ∈ range d, (A s * Y)ᴴ * l * (Y * B s) * r = Yᴴ * (∑ s ∈ range d, (A s)ᴴ * (l * Y) * B s) * r := by
      rw [Matrix.mul_sum, Matrix.sum_mul]
      refine sum_congr rfl fun s _ => ?_
      rw [conjTranspose_mul]
      simp only [Matrix.mul_assoc]
    rw [this, hE, Matrix.mul_smul, Matrix.smul_mul, trace_smul, smul_eq_mul]
    simp only [Matrix.mul_assoc]
  have hsym : ∀ Z W : Matrix (Fin m) (Fin n) ℂ, form l r Z W = star (form l r W Z) := by
    intro Z W
    unfold form
    rw [← trace_conjTranspose]
    simp only [conjTranspose_mul, conjTranspose_conjTranspose, hl.1.eq, hr.1.eq]
    rw [trace_mul_comm]
    simp only [Matrix.mul_assoc]
  have e3 : ∑ s ∈ range d, form l r (Y * B s) (A s * Y) = star μ * form l r Y Y := by
    rw [sum_congr rfl fun s _ => hsym (Y * B s) (A s * Y), ← star_sum, e2, star_mul', hN]
  have e4 : ∑ s ∈ range d, form l r (Y * B s) (Y * B s) = ηB * form l r Y Y := by
    unfold form
    have : ∀ s, trace ((Y * B s)ᴴ * l * (Y * B s) * r) = trace (Yᴴ * l * Y * (B s * r * (B s)ᴴ)) := by
      intro s
      rw [conjTranspose_mul, Matrix.mul_assoc, Matrix.mul_assoc, Matrix.mul_assoc, trace_mul_comm]
      simp only [Matrix.mul_assoc]
    rw [sum_congr rfl fun s _ => this s, ← trace_sum, ← Finset.mul_sum, hB, Matrix.mul_smul, trace_smul, smul_eq_mul]
  have hexp : ∀ (Z W : Matrix (Fin m) (Fin n) ℂ) (k : ℂ), form l r (Z - k • W) (Z - k • W) =
      form l r Z Z - k * form l r Z W - star k * form l r W Z + star k * k * form l r W W := by
    intro Z W k
    unfold form
    simp only [conjTranspose_sub, conjTranspose_smul, Matrix.sub_mul, Matrix.mul_sub, Matrix.smul_mul, Matrix.mul_smul, trace_sub, trace_smul, smul_eq_mul]
    ring
  rw [sum_congr rfl fun s _ => hexp (A s * Y) (Y * B s) (star μ / ηB), sum_add_distrib, sum_sub_distrib, sum_sub_distrib, ← mul_sum, ← mul_sum, ← mul_sum, e1, e2, e3, e4]
  have hb : (ηB : ℂ) ≠ 0 := by exact_mod_cast hB0.ne'
  have hs : star (star μ / (ηB : ℂ)) = μ / ηB := by
    rw [star_div₀, star_star, Complex.star_def, Complex.conj_ofReal]
  have hm : star μ * μ = ((‖μ‖ ^ 2 : ℝ) : ℂ) := by
    rw [mul_comm, Complex.star_def, Complex.mul_conj, Complex.normSq_eq_norm_sq]
  rw [hs]
  push_cast at hm ⊢
  field_simp
  linear_combination (-(form l r Y Y)) * hm

/-- No eigenvalue is larger than the geometric mean of the weights; if one is equal to it there is an intertwiner. -/
theorem bound (hl : l.PosDef) (hr : r.PosDef) {ηA ηB : ℝ} (hB0 : 0 < ηB) (hA : ∑ s ∈ range d, (A s)ᴴ * l * A s = (ηA : ℂ) • l)
    (hB : ∑ s ∈ range d, B s * r * (B s)ᴴ = (ηB : ℂ) • r) {μ : ℂ} {X : Matrix (Fin m) (Fin n) ℂ} (hX : X ≠ 0)
    (hE : ∑ s ∈ range d, (A s)ᴴ * X * B s = μ • X) : ‖μ‖ ^ 2 ≤ ηA * ηB ∧ (‖μ‖ ^ 2 = ηA * ηB →
      ∃ Y : Matrix (Fin m) (Fin n) ℂ, Y ≠ 0 ∧ ∀ s < d, A s * Y = (star μ / ηB) • (Y * B s)) := by
  have d1 := (Matrix.isUnit_iff_isUnit_det _).1 hl.isUnit
  set Y := l⁻¹ * X with hY
  have hlY : l * Y = X := by rw [hY, ← Matrix.mul_assoc, Matrix.mul_nonsing_inv _ d1, Matrix.one_mul]
  have hY0 : Y ≠ 0 := by
    intro h
    rw [h, Matrix.mul_zero] at hlY
    exact hX hlY.symm
  have hN : 0 < form l r Y Y := lt_of_le_of_ne (form_nonneg hl hr Y) fun h => hY0 (form_zero hl hr h.symm)
  have h := defect hl hr hB0 hA hB (μ := μ) (Y := Y) (by rw [hlY]; exact hE)
  have hpos : 0 ≤ ∑ s ∈ range d, form l r (A s * Y - (star μ / ηB) • (Y * B s)) (A s * Y - (star μ / ηB) • (Y * B s)) :=
    sum_nonneg fun s _ => form_nonneg hl hr _
  refine ⟨?_, fun heq => ⟨Y, hY0, fun s hs => ?_⟩⟩
  · rw [h] at hpos
    obtain ⟨x, hx⟩ : ∃ x : ℝ, form l r Y Y = x := ⟨(form l r Y Y).re, Complex.ext rfl ((Complex.le_def.1 hN.le).2).symm⟩
    rw [hx] at hpos hN
    have hx0 : 0 < x := by exact_mod_cast hN
    rw [← Complex.ofReal_mul] at hpos
    have h2 : 0 ≤ (ηA - ‖μ‖ ^ 2 / ηB) * x := by exact_mod_cast hpos
    have h3 : ‖μ‖ ^ 2 / ηB ≤ ηA := by
      have := nonneg_of_mul_nonneg_left h2 hx0
      linarith
    rwa [div_le_iff₀ hB0] at h3
  · have h0 : ηA - ‖μ‖ ^ 2 / ηB = 0 := by
      rw [heq]
      field_simp
      ring
    rw [h0, Complex.ofReal_zero, zero_mul] at h
    have := (sum_eq_zero_iff_of_nonneg fun s _ => form_nonneg hl hr _).1 h s (mem_range.2 hs)
    exact sub_eq_zero.1 (form_zero hl hr this)

end core

/-! ## The operator -/

variable {U L : Ten ℂ} {m n : ℕ}

/-- The matrix a vector stands for. -/
def asM (m n : ℕ) (x : Vec ℂ) : Matrix (Fin m) (Fin n) ℂ := fun i j => x.v (i * n + j)

theorem asM_ne {x : Vec ℂ} (hx : x.n = m * n) (h : ∃ i < x.n, x.v i ≠ 0) : asM m n x ≠ 0 := by
  obtain ⟨k, hk, h0⟩ := h
  rw [hx] at hk
  have hn : 0 < n := Nat.pos_of_ne_zero fun h => by simp [h] at hk
  intro h
  apply h0
  have := congrFun (congrFun h ⟨k / n, Nat.div_lt_of_lt_mul (by rwa [mul_comm] at hk)⟩) ⟨k % n, Nat.mod_lt _ hn⟩
  simp only [asM, Matrix.zero_apply] at this
  rwa [Nat.div_add_mod'] at this

theorem flat_at {M : Mat ℂ} {y : Vec ℂ} {N : ℕ} (h : flat M N = .ok y) {i j : ℕ} (hj : j < M.c) : y.n = N ∧ y.v (i * M.c + j) = M.v i j := by
  unfold flat at h
  split_ifs at h
  cases h
  refine ⟨rfl, ?_⟩
  simp only
  rw [Nat.mul_comm, Nat.mul_add_div (by omega), Nat.div_eq_of_lt hj, Nat.mul_add_mod, Nat.mod_eq_of_lt hj, Nat.add_zero]

theorem triple {d : ℕ} (g : ℕ → Fin n → Fin m → ℂ) : ∑ s ∈ range d, ∑ b, ∑ a, g s b a = ∑ a, ∑ b, ∑ s ∈ range d, g s b a :=
  calc ∑ s ∈ range d, ∑ b, ∑ a, g s b a = ∑ s ∈ range d, ∑ a, ∑ b, g s b a := sum_congr rfl fun _ _ => sum_comm
    _ = ∑ a, ∑ s ∈ range d, ∑ b, g s b a := sum_comm
    _ = ∑ a, ∑ b, ∑ s ∈ range d, g s b a := sum_congr rfl fun _ _ => sum_comm

/-- The matrix form of the operator. -/
def opM (dir : Dir) (m n : ℕ) (U L : Ten ℂ) (X : Matrix (Fin m) (Fin n) ℂ) : Matrix (Fin m) (Fin n) ℂ :=
  match dir with
  | .right => ∑ s ∈ range U.d, (comp m U s)ᵀ * X * (comp n L s)ᴴᵀ
  | .left => ∑ s ∈ range U.d, comp m U s * X * (comp n L s)ᴴ

theorem op_ok (dir : Dir) (hUl : U.l = m) (hUr : U.r = m) (hLl : L.l = n) (hLr : L.r = n) (hd : U.d = L.d) {x : Vec ℂ} (hx : x.n = m * n) :
    ∃ y, mixedTransferOperator dir (.arr U) (.arr L) x = .ok y ∧ y.n = m * n ∧ asM m n y = opM dir m n U L (asM m n x) := by
  cases dir
  · simp only [mixedTransferOperator, mixedArr, reshape2, hUl, hUr, hLl, hLr, hx, if_true, if_pos hd]
    obtain ⟨y, hy⟩ : ∃ y, flat (⟨m, n, fun i i' => ∑ j ∈ range m, ∑ j' ∈ range n, ∑ s ∈ range U.d, x.v (j * n + j') * U.v i j s * star (L.v i' j' s)⟩ : Mat ℂ) (n * m) = .ok y :=
      ⟨_, if_pos (mul_comm m n)⟩
    refine ⟨y, hy, ?_, ?_⟩
    · unfold flat at hy
      rw [if_pos (mul_comm m n)] at hy
      cases hy
      exact mul_comm n m
    · ext i i'
      refine ((flat_at hy (i := i) (j := i') i'.2).2).trans ?_
      simp only [opM]
      rw [Matrix.sum_apply]
      simp only [Matrix.mul_apply, conjTranspose_apply, comp, Finset.sum_mul, asM]
      rw [triple, sum_range]
      refine sum_congr rfl fun j _ => ?_
      rw [sum_range]
      exact sum_congr rfl fun j' _ => sum_congr rfl fun s _ => by ring
  · simp only [mixedTransferOperator, mixedArr, reshape2, hUl, hUr, hLl, hLr, hx, if_true, if_pos hd]
    obtain ⟨y, hy⟩ : ∃ y, flat (⟨m, n, fun j j' => ∑ i ∈ range m, ∑ i' ∈ range n, ∑ s ∈ range U.d, x.v (i * n + i') * U.v i j s * star (L.v i' j' s)⟩ : Mat ℂ) (n * m) = .ok y :=
      ⟨_, if_pos (mul_comm m n)⟩
    refine ⟨y, hy, ?_, ?_⟩
    · unfold flat at hy
      rw [if_pos (mul_comm m n)] at hy
      cases hy
      exact mul_comm n m
    · ext i i'
      refine ((flat_at hy (i := i) (j := i') i'.2).2).trans ?_
      simp only [opM]
      rw [Matrix.sum_apply]
      simp only [Matrix.mul_apply, transpose_apply, conjTranspose_apply, comp, Finset.sum_mul, asM]
      rw [triple, sum_range]
      refine sum_congr rfl fun j _ => ?_
      rw [sum_range]
      exact sum_congr rfl fun j' _ => sum_congr rfl fun s _ => by ring

theorem index_lt {i j : ℕ} (hi : i < m) (hj : j < n) : i * n + j < m * n :=
  calc i * n + j < i * n + n := by omega
    _ = (i + 1) * n := by ring
    _ ≤ m * n := Nat.mul_le_mul_right _ hi

theorem eigen_mat {dir : Dir} (hUl : U.l = m) (hUr : U.r = m) (hLl : L.l = n) (hLr : L.r = n) (hd : U.d = L.d) {μ : ℂ} {x : Vec ℂ}
    (h : Eigen dir U L μ x) : asM m n x ≠ 0 ∧ opM dir m n U L (asM m n x) = μ • asM m n x := by
  obtain ⟨h1, h2, y, h3, h4, h5⟩ := h
  rw [hUl, hLl] at h1
  refine ⟨asM_ne h1 h2, ?_⟩
  obtain ⟨y', e1, e2, e3⟩ := op_ok dir hUl hUr hLl hLr hd h1
  rw [h3] at e1
  cases e1
  rw [← e3]
  ext i j
  exact h5 _ (by rw [h1]; exact index_lt i.2 j.2)

theorem mat_eigen {dir : Dir} (hUl : U.l = m) (hUr : U.r = m) (hLl : L.l = n) (hLr : L.r = n) (hd : U.d = L.d) {μ : ℂ}
    {X : Matrix (Fin m) (Fin n) ℂ} (h0 : X ≠ 0) (h : opM dir m n U L X = μ • X) : ∃ x, Eigen dir U L μ x := by
  have hx : ∃ x : Vec ℂ, x.n = m * n ∧ asM m n x = X := by
    refine ⟨⟨m * n, fun k => if hk : k / n < m ∧ k % n < n then X ⟨k / n, hk.1⟩ ⟨k % n, hk.2⟩ else 0⟩, rfl, ?_⟩
    ext i j
    have hn : 0 < n := by have := j.2; omega
    have a : ((i : ℕ) * n + j) / n = i := by
      rw [Nat.mul_comm, Nat.mul_add_div hn, Nat.div_eq_of_lt j.2, Nat.add_zero]
    have b : ((i : ℕ) * n + j) % n = j := by
      rw [Nat.mul_comm, Nat.mul_add_mod, Nat.mod_eq_of_lt j.2]
    simp only [asM, a, b, i.2, j.2, and_self, dif_pos]
  obtain ⟨x, hx, rfl⟩ := hx
  obtain ⟨y, e1, e2, e3⟩ := op_ok dir hUl hUr hLl hLr hd hx
  refine ⟨x, by rw [hUl, hLl, hx], ?_, y, e1, e2.trans hx.symm, fun k hk => ?_⟩
  · by_contra hno
    push Not at hno
    apply h0
    ext i j
    exact hno _ (by rw [hx]; exact index_lt i.2 j.2)
  · rw [hx] at hk
    have hn : 0 < n := Nat.pos_of_ne_zero fun h => by simp [h] at hk
    have := congrFun (congrFun (e3.trans h) ⟨k / n, Nat.div_lt_of_lt_mul (by rwa [mul_comm] at hk)⟩) ⟨k % n, Nat.mod_lt _ hn⟩
    simp only [asM, Matrix.smul_apply, smul_eq_mul] at this
    rwa [Nat.div_add_mod'] at this

theorem conj_conj (M : Matrix (Fin m) (Fin n) ℂ) : (Mᴴᵀ)ᴴ = Mᵀ := by
  ext i j; simp [conjTranspose_apply]

theorem norm_ratio {μ : ℂ} {a b : ℝ} (hb : 0 < b) (h : ‖μ‖ ^ 2 = a * b) : ‖star μ / (b : ℂ)‖ ^ 2 = a / b := by
  rw [norm_div, norm_star, Complex.norm_of_nonneg hb.le, div_pow, h]
  field_simp

/-- **C116 (the bound).**  Every eigenvalue of the mixed transfer operator of two square tensors, of any bond dimensions, is bounded by the
leading eigenvalues of the tensors: `|μ|²≤η_U·η_L`.  If it is equal, the tensors are the same up to a factor and an intertwining matrix. -/
theorem C116_right (hUl : U.l = m) (hUr : U.r = m) (hLl : L.l = n) (hLr : L.r = n) (hd : U.d = L.d) {ηU ηL : ℝ} (hL0 : 0 < ηL)
    (hU : Weight .right m U ηU) (hL : Weight .left n L ηL) {μ : ℂ} {x : Vec ℂ} (h : Eigen .right U L μ x) :
    ‖μ‖ ^ 2 ≤ ηU * ηL ∧ (‖μ‖ ^ 2 = ηU * ηL → ∃ (Y : Matrix (Fin m) (Fin n) ℂ) (c : ℂ), Y ≠ 0 ∧ ‖c‖ ^ 2 = ηU / ηL ∧
      ∀ s < U.d, comp m U s * Y = c • (Y * comp n L s)) := by
  obtain ⟨P, hP, eP⟩ := hU
  obtain ⟨Q, hQ, eQ⟩ := hL
  simp only at eP eQ
  obtain ⟨hX, hE⟩ := eigen_mat hUl hUr hLl hLr hd h
  obtain ⟨b1, b2⟩ := bound (d := U.d) (A := fun s => (comp m U s)ᴴᵀ) (B := fun s => (comp n L s)ᴴᵀ) hP.transpose hQ.transpose hL0 (ηA := ηU)
    (by
      rw [← transpose_smul, ← eP, transpose_sum]
      refine sum_congr rfl fun s _ => ?_
      rw [conj_conj, transpose_mul, transpose_mul, Matrix.mul_assoc])
    (by
      rw [hd, ← transpose_smul, ← eQ, transpose_sum]
      refine sum_congr rfl fun s _ => ?_
      rw [conj_conj, transpose_mul, transpose_mul, Matrix.mul_assoc]) hX (μ := μ) (by
      rw [← hE]
      simp only [opM]
      exact sum_congr rfl fun s _ => by rw [conj_conj])
  refine ⟨b1, fun he => ?_⟩
  obtain ⟨Y, h1, h2⟩ := b2 he
  refine ⟨Yᴴᵀ, star (star μ / (ηL : ℂ)), fun h0 => h1 ?_, ?_, fun s hs => ?_⟩
  · have := congrArg conjTranspose h0
    rw [conj_conj, conjTranspose_zero] at this
    exact transpose_eq_zero.1 this
  · rw [norm_star, norm_ratio hL0 he]
  · have := congrArg (fun M => Mᴴᵀ) (h2 s hs)
    simp only [conjTranspose_mul, conjTranspose_smul, transpose_mul, transpose_smul, conj_conj, transpose_transpose] at this
    exact this

/-- **C116 (the bound to the left).** -/
theorem C116_left (hUl : U.l = m) (hUr : U.r = m) (hLl : L.l = n) (hLr : L.r = n) (hd : U.d = L.d) {ηU ηL : ℝ} (hL0 : 0 < ηL)
    (hU : Weight .left m U ηU) (hL : Weight .right n L ηL) {μ : ℂ} {x : Vec ℂ} (h : Eigen .left U L μ x) :
    ‖μ‖ ^ 2 ≤ ηU * ηL ∧ (‖μ‖ ^ 2 = ηU * ηL → ∃ (Z : Matrix (Fin n) (Fin m) ℂ) (c : ℂ), Z ≠ 0 ∧ ‖c‖ ^ 2 = ηU / ηL ∧
      ∀ s < U.d, Z * comp m U s = c • (comp n L s * Z)) := by
  obtain ⟨P, hP, eP⟩ := hU
  obtain ⟨Q, hQ, eQ⟩ := hL
  simp only at eP eQ
  obtain ⟨hX, hE⟩ := eigen_mat hUl hUr hLl hLr hd h
  obtain ⟨b1, b2⟩ := bound (d := U.d) (A := fun s => (comp m U s)ᴴ) (B := fun s => (comp n L s)ᴴ) hP hQ hL0 (ηA := ηU)
    (by simpa only [conjTranspose_conjTranspose] using eP) (by simpa only [conjTranspose_conjTranspose, hd] using eQ) hX (μ := μ)
    (by simpa only [conjTranspose_conjTranspose, opM] using hE)
  refine ⟨b1, fun he => ?_⟩
  obtain ⟨Y, h1, h2⟩ := b2 he
  refine ⟨Yᴴ, star (star μ / (ηL : ℂ)), fun h0 => h1 (conjTranspose_eq_zero.1 h0), by rw [norm_star, norm_ratio hL0 he], fun s hs => ?_⟩
  have := congrArg conjTranspose (h2 s hs)
  simpa only [conjTranspose_mul, conjTranspose_smul, conjTranspose_conjTranspose] using this

/-- **C116 (the bound is reached).**  If the tensors are the same up to a factor and an intertwining matrix the operator has the eigenvalue
`η_U/c̄`, which reaches the bound for `|c|²=η_U/η_L`. -/
theorem C116_reached_right (hUl : U.l = m) (hUr : U.r = m) (hLl : L.l = n) (hLr : L.r = n) (hd : U.d = L.d) {ηU : ℝ} (hU : Weight .right m U ηU)
    {Y : Matrix (Fin m) (Fin n) ℂ} {c : ℂ} (hY : Y ≠ 0) (hc : c ≠ 0) (h : ∀ s < U.d, comp m U s * Y = c • (Y * comp n L s)) :
    ∃ x, Eigen .right U L (ηU / star c) x := by
  obtain ⟨P, hP, eP⟩ := hU
  simp only at eP
  have dP := (Matrix.isUnit_iff_isUnit_det _).1 hP.transpose.isUnit
  have hs : star c ≠ 0 := star_ne_zero.2 hc
  refine mat_eigen hUl hUr hLl hLr hd (X := Pᵀ * Yᴴᵀ) (fun h0 => hY ?_) ?_
  · have : Yᴴᵀ = 0 := by
      rw [← Matrix.one_mul Yᴴᵀ, ← Matrix.nonsing_inv_mul _ dP, Matrix.mul_assoc, h0, Matrix.mul_zero]
    exact conjTranspose_eq_zero.1 (transpose_eq_zero.1 this)
  · have e : ∀ s < U.d, (comp m U s)ᵀ * (Pᵀ * Yᴴᵀ) * (comp n L s)ᴴᵀ = (star c)⁻¹ • (((comp m U s)ᴴ * P * comp m U s)ᵀ * Yᴴᵀ) := by
      intro s hs'
      have h1 := congrArg (fun M => Mᴴᵀ) (h s hs')
      simp only [conjTranspose_mul, conjTranspose_smul, transpose_mul, transpose_smul] at h1
      have h2 : Yᴴᵀ * (comp n L s)ᴴᵀ = (star c)⁻¹ • ((comp m U s)ᴴᵀ * Yᴴᵀ) := by
        rw [h1, smul_smul, inv_mul_cancel₀ hs, one_smul]
      simp only [transpose_mul, Matrix.mul_assoc] at h2 ⊢
      rw [h2, Matrix.mul_smul, Matrix.mul_smul]
    simp only [opM]
    rw [sum_congr rfl fun s hs' => e s (mem_range.1 hs'), ← smul_sum, ← Matrix.sum_mul, ← transpose_sum, eP, transpose_smul, Matrix.smul_mul, smul_smul]
    congr 1
    field_simp

/-- **C116 (the bound is reached to the left).** -/
theorem C116_reached_left (hUl : U.l = m) (hUr : U.r = m) (hLl : L.l = n) (hLr : L.r = n) (hd : U.d = L.d) {ηU : ℝ} (hU : Weight .left m U ηU)
    {Z : Matrix (Fin n) (Fin m) ℂ} {c : ℂ} (hZ : Z ≠ 0) (hc : c ≠ 0) (h : ∀ s < U.d, Z * comp m U s = c • (comp n L s * Z)) :
    ∃ x, Eigen .left U L (ηU / star c) x := by
  obtain ⟨P, hP, eP⟩ := hU
  simp only at eP
  have dP := (Matrix.isUnit_iff_isUnit_det _).1 hP.isUnit
  have hs : star c ≠ 0 := star_ne_zero.2 hc
  refine mat_eigen hUl hUr hLl hLr hd (X := P * Zᴴ) (fun h0 => hZ ?_) ?_
  · have : Zᴴ = 0 := by
      rw [← Matrix.one_mul Zᴴ, ← Matrix.nonsing_inv_mul _ dP, Matrix.mul_assoc, h0, Matrix.mul_zero]
    exact conjTranspose_eq_zero.1 this
  · have e : ∀ s < U.d, comp m U s * (P * Zᴴ) * (comp n L s)ᴴ = (star c)⁻¹ • (comp m U s * P * (comp m U s)ᴴ * Zᴴ) := by
      intro s hs'
      have h1 := congrArg conjTranspose (h s hs')
      simp only [conjTranspose_mul, conjTranspose_smul] at h1
      have h2 : Zᴴ * (comp n L s)ᴴ = (star c)⁻¹ • ((comp m U s)ᴴ * Zᴴ) := by
        rw [h1, smul_smul, inv_mul_cancel₀ hs, one_smul]
      simp only [Matrix.mul_assoc]
      rw [h2, Matrix.mul_smul, Matrix.mul_smul]
    simp only [opM]
    rw [sum_congr rfl fun s hs' => e s (mem_range.1 hs'), ← smul_sum, ← Matrix.sum_mul, eP, Matrix.smul_mul, smul_smul]
    congr 1
    field_simp

/-- **C116 (violated by `MixedUnitcellTMeigs`).**  The function for unit cells never returns, as the operator it calls uses undefined
names. -/
theorem C116_violated_cell {eigs : Eigs} (hE : EigsSpec eigs) (mps1 mps2 : List (Ten ℂ)) (dir : Dir) (k : ℕ) :
    ∃ e, mixedUnitcellTMeigs eigs mps1 mps2 dir k = .error e := by
  unfold mixedUnitcellTMeigs
  split_ifs with h0 hk
  · exact ⟨_, rfl⟩
  · split
    · split_ifs <;> exact ⟨_, rfl⟩
    · exact ⟨_, rfl⟩
  · split
    · split_ifs
      · exact ⟨_, rfl⟩
      · exact ⟨_, rfl⟩
      · split
        · exact ⟨_, rfl⟩
        · rename_i l hl
          exfalso
          obtain ⟨g1, g2⟩ := hE _ _ _ _ hl
          cases l with
          | nil => exact hk g1.symm
          | cons q l =>
            obtain ⟨-, -, ⟨w, hw, -⟩, -⟩ := g2 q (by simp)
            simp [mixedUnitcellTransferOperator] at hw
    · exact ⟨_, rfl⟩

/-- Exact eigensolvers exist, and the operator for unit cells always raises a NameError. -/
example : (∃ eigs : Eigs, EigsSpec eigs) ∧ ∀ dir ts ts' (x : Vec ℂ), mixedUnitcellTransferOperator dir ts ts' x = .error .name :=
  ⟨exists_eigs.imp fun _ h => h.1, fun _ _ _ _ => rfl⟩

/-! ## Witnesses -/

/-- A tensor which is orthonormal both ways, and the same tensor with a phase. -/
def tenA : Ten ℂ := ⟨2, 2, 2, fun i j s => if i = s ∧ j = 1 - s then 1 else 0⟩
def tenB : Ten ℂ := ⟨2, 2, 2, fun i j s => if i = s ∧ j = 1 - s then Complex.I else 0⟩

theorem tenA_weight (dir : Dir) : Weight dir 2 tenA 1 := by
  refine ⟨1, PosDef.one, ?_⟩
  cases dir <;> simp only <;> ext i j <;> fin_cases i <;> fin_cases j <;>
    simp [tenA, comp, sum_range_succ, Matrix.mul_apply, Fin.sum_univ_two, conjTranspose_apply, Matrix.add_apply]

theorem tenB_weight (dir : Dir) : Weight dir 2 tenB 1 := by
  refine ⟨1, PosDef.one, ?_⟩
  cases dir <;> simp only <;> ext i j <;> fin_cases i <;> fin_cases j <;>
    simp [tenB, comp, sum_range_succ, Matrix.mul_apply, Fin.sum_univ_two, conjTranspose_apply, Matrix.add_apply]

/-- The tensors `A` and `iA`: the eigenvalue `i` reaches the bound, and all eigenvalues satisfy it. -/
example : (∃ x, Eigen .right tenB tenA (1 / star Complex.I) x) ∧ ∀ μ x, Eigen .right tenB tenA μ x → ‖μ‖ ^ 2 ≤ 1 * 1 := by
  refine ⟨Complex.ofReal_one ▸ C116_reached_right (U := tenB) (L := tenA) (m := 2) (n := 2) rfl rfl rfl rfl rfl (tenB_weight .right) (Y := 1) one_ne_zero Complex.I_ne_zero fun s hs => ?_,
    fun μ x h => (C116_right (U := tenB) (L := tenA) (m := 2) (n := 2) rfl rfl rfl rfl rfl one_pos (tenB_weight .right) (tenA_weight .left) h).1⟩
  rw [Matrix.mul_one, Matrix.one_mul]
  ext i j
  simp [comp, tenA, tenB]

end

end PyTeN.Fidelity
