import Verif.Engine.VumpsRun
import Mathlib.LinearAlgebra.Matrix.Trace
import Mathlib.LinearAlgebra.Matrix.ConjTranspose
import Mathlib.LinearAlgebra.Matrix.NonsingularInverse
import Mathlib.Analysis.Matrix.Order
import Mathlib.Analysis.SpecialFunctions.ContinuousFunctionalCalculus.Rpow.Basic

/-! # Lemmas for `VUMPSengine`: the gauge matching -/

namespace PyTeN.Vumps
open Finset Matrix Regauge
open scoped ComplexOrder
noncomputable section

/-! ## Matrices -/

section abstract
variable {ρ : Type*} [Fintype ρ] {n : ℕ}

/-- Squared Frobenius norm. -/
def fsq {α β : Type*} [Fintype α] [Fintype β] (M : Matrix α β ℂ) : ℝ := ∑ i, ∑ j, Complex.normSq (M i j)

theorem fsq_trace {α β : Type*} [Fintype α] [Fintype β] (M : Matrix α β ℂ) : fsq M = (trace (Mᴴ * M)).re := by
  unfold fsq trace
  simp only [diag_apply, mul_apply, conjTranspose_apply, Complex.re_sum]
  rw [sum_comm]
  refine sum_congr rfl fun j _ => sum_congr rfl fun i _ => ?_
  rw [Complex.normSq_apply]; simp

theorem fsq_herm {α β : Type*} [Fintype α] [Fintype β] (M : Matrix α β ℂ) : fsq Mᴴ = fsq M := by
  unfold fsq
  rw [sum_comm]
  simp only [conjTranspose_apply]
  refine sum_congr rfl fun j _ => sum_congr rfl fun i _ => ?_
  rw [Complex.star_def, Complex.normSq_conj]

/-- The distance from a product with an isometry. -/
theorem fsq_iso (T A : Matrix ρ (Fin n) ℂ) (C : Matrix (Fin n) (Fin n) ℂ) (hA : Aᴴ * A = 1) :
    fsq (T - A * C) = fsq T + fsq C - 2 * (trace (Aᴴ * (T * Cᴴ))).re := by
  rw [fsq_trace, fsq_trace, fsq_trace]
  have e1 : (T - A * C)ᴴ * (T - A * C) = Tᴴ * T - Tᴴ * A * C - Cᴴ * (Aᴴ * T) + Cᴴ * C := by
    rw [conjTranspose_sub, conjTranspose_mul]
    have : Cᴴ * Aᴴ * (A * C) = Cᴴ * C := by rw [Matrix.mul_assoc, ← Matrix.mul_assoc Aᴴ, hA, Matrix.one_mul]
    rw [Matrix.sub_mul, Matrix.mul_sub, Matrix.mul_sub, this, ← Matrix.mul_assoc, Matrix.mul_assoc Cᴴ]
    abel
  have e2 : trace (Cᴴ * (Aᴴ * T)) = trace (Aᴴ * (T * Cᴴ)) := by rw [trace_mul_comm, Matrix.mul_assoc]
  have e3 : trace (Tᴴ * A * C) = star (trace (Aᴴ * (T * Cᴴ))) := by
    rw [← e2, ← trace_conjTranspose, conjTranspose_mul, conjTranspose_mul, conjTranspose_conjTranspose, conjTranspose_conjTranspose]
  rw [e1, trace_add, trace_sub, trace_sub, e2, e3]
  simp only [Complex.add_re, Complex.sub_re, Complex.star_def, Complex.conj_re]
  ring

/-- The overlap of two isometries. -/
theorem iso_overlap (X U : Matrix ρ (Fin n) ℂ) (hX : Xᴴ * X = 1) (hU : Uᴴ * U = 1) (k : Fin n) : ((Xᴴ * U) k k).re ≤ 1 := by
  have h0 : 0 ≤ ∑ i, Complex.normSq (X i k - U i k) := sum_nonneg fun i _ => Complex.normSq_nonneg _
  have n1 : ∀ Y : Matrix ρ (Fin n) ℂ, Yᴴ * Y = 1 → ∑ i, Complex.normSq (Y i k) = 1 := fun Y hY => by
    have := congrArg Complex.re (congrFun (congrFun hY k) k)
    rw [Matrix.mul_apply, Matrix.one_apply_eq, Complex.re_sum] at this
    rw [Complex.one_re] at this
    rw [← this]
    refine sum_congr rfl fun i _ => ?_
    rw [conjTranspose_apply, Complex.normSq_apply]; simp
  have e : ∑ i, Complex.normSq (X i k - U i k) = ∑ i, Complex.normSq (X i k) + ∑ i, Complex.normSq (U i k) - 2 * ((Xᴴ * U) k k).re := by
    rw [Matrix.mul_apply, Complex.re_sum, mul_sum, ← sum_add_distrib, ← sum_sub_distrib]
    refine sum_congr rfl fun i _ => ?_
    rw [conjTranspose_apply, Complex.normSq_sub]
    simp
  rw [n1 X hX, n1 U hU] at e
  linarith

theorem iso_mul {U : Matrix ρ (Fin n) ℂ} {V : Matrix (Fin n) (Fin n) ℂ} (hU : Uᴴ * U = 1) (hV : V * Vᴴ = 1) : (U * V)ᴴ * (U * V) = 1 := by
  rw [conjTranspose_mul, Matrix.mul_assoc, ← Matrix.mul_assoc Uᴴ, hU, Matrix.one_mul]
  exact mul_eq_one_comm.1 hV

/-- The product of the two isometries of a singular value decomposition is the best isometry. -/
theorem svd_best {T U A' : Matrix ρ (Fin n) ℂ} {C V : Matrix (Fin n) (Fin n) ℂ} {s : Fin n → ℝ} (hU : Uᴴ * U = 1) (hV : V * Vᴴ = 1) (hs : ∀ k, 0 ≤ s k)
    (hT : T * Cᴴ = U * diagonal (fun k => (s k : ℂ)) * V) (hA : A'ᴴ * A' = 1) : fsq (T - U * V * C) ≤ fsq (T - A' * C) := by
  rw [fsq_iso _ _ _ (iso_mul hU hV), fsq_iso _ _ _ hA]
  have key : ∀ A : Matrix ρ (Fin n) ℂ, (trace (Aᴴ * (T * Cᴴ))).re = ∑ k, s k * (((A * Vᴴ)ᴴ * U) k k).re := by
    intro A
    rw [hT, ← Matrix.mul_assoc, trace_mul_comm, ← Matrix.mul_assoc, ← Matrix.mul_assoc]
    have : V * Aᴴ * U = (A * Vᴴ)ᴴ * U := by rw [conjTranspose_mul, conjTranspose_conjTranspose]
    rw [this, trace, Complex.re_sum]
    refine sum_congr rfl fun k _ => ?_
    rw [diag_apply, mul_diagonal, Complex.mul_re, Complex.ofReal_re, Complex.ofReal_im]
    ring
  have e1 : (trace ((U * V)ᴴ * (T * Cᴴ))).re = ∑ k, s k := by
    rw [key]
    refine sum_congr rfl fun k _ => ?_
    rw [Matrix.mul_assoc, hV, Matrix.mul_one, hU, Matrix.one_apply_eq, Complex.one_re, mul_one]
  have e2 : (trace (A'ᴴ * (T * Cᴴ))).re ≤ ∑ k, s k := by
    rw [key]
    refine sum_le_sum fun k _ => ?_
    have := iso_overlap (A' * Vᴴ) U (iso_mul hA (by rw [conjTranspose_conjTranspose]; exact mul_eq_one_comm.1 hV)) hU k
    nlinarith [hs k]
  linarith

theorem fsq_zero {α β : Type*} [Fintype α] [Fintype β] {M : Matrix α β ℂ} (h : fsq M ≤ 0) : M = 0 := by
  have h0 : fsq M = 0 := le_antisymm h (sum_nonneg fun _ _ => sum_nonneg fun _ _ => Complex.normSq_nonneg _)
  unfold fsq at h0
  ext i j
  have h1 := (sum_eq_zero_iff_of_nonneg fun _ _ => sum_nonneg fun _ _ => Complex.normSq_nonneg _).1 h0 i (mem_univ _)
  have h2 := (sum_eq_zero_iff_of_nonneg fun _ _ => Complex.normSq_nonneg _).1 h1 j (mem_univ _)
  exact Complex.normSq_eq_zero.1 h2

open scoped MatrixOrder Matrix.Norms.L2Operator in
/-- The positive root is unique. -/
theorem psd_unique {P Q : Matrix (Fin n) (Fin n) ℂ} (hP : P.PosSemidef) (hQ : Q.PosSemidef) (h : P * P = Q * Q) : P = Q :=
  (CFC.mul_self_eq_mul_self_iff P Q (nonneg_iff_posSemidef.2 hP) (nonneg_iff_posSemidef.2 hQ)).1 h

/-- The polar factors of a product with an isometry. -/
theorem polar_match {T U A' : Matrix ρ (Fin n) ℂ} {C V P Q : Matrix (Fin n) (Fin n) ℂ} (hU : Uᴴ * U = 1) (hV : Vᴴ * V = 1) (hP : P.PosSemidef) (hQ : Q.PosSemidef)
    (hT : T = U * P) (hC : C = V * Q) (hA : A'ᴴ * A' = 1) (h : T = A' * C) (hdet : IsUnit C.det) : U * Vᴴ = A' := by
  have hV' : V * Vᴴ = 1 := mul_eq_one_comm.1 hV
  have e1 : Tᴴ * T = P * P := by
    rw [hT, conjTranspose_mul, hP.1.eq, Matrix.mul_assoc, ← Matrix.mul_assoc Uᴴ, hU, Matrix.one_mul]
  have e2 : Cᴴ * C = Q * Q := by
    rw [hC, conjTranspose_mul, hQ.1.eq, Matrix.mul_assoc, ← Matrix.mul_assoc Vᴴ, hV, Matrix.one_mul]
  have e3 : Tᴴ * T = Cᴴ * C := by
    rw [h, conjTranspose_mul, Matrix.mul_assoc, ← Matrix.mul_assoc A'ᴴ, hA, Matrix.one_mul]
  have e4 : P = Q := psd_unique hP hQ (by rw [← e1, e3, e2])
  have hd : IsUnit Q.det := by
    rw [hC, det_mul] at hdet
    exact isUnit_of_mul_isUnit_right hdet
  have e5 : U * Q = A' * V * Q := by rw [← e4, ← hT, h, hC, e4, Matrix.mul_assoc]
  have e6 : U = A' * V := by
    have := congrArg (· * Q⁻¹) e5
    simp only [Matrix.mul_assoc] at this
    rwa [mul_nonsing_inv _ hd, Matrix.mul_one, Matrix.mul_one] at this
  rw [e6, Matrix.mul_assoc, hV', Matrix.mul_one]

omit [Fintype ρ] in
theorem cancel_right {A A' : Matrix ρ (Fin n) ℂ} {C : Matrix (Fin n) (Fin n) ℂ} (h : A * C = A' * C) (hdet : IsUnit C.det) : A = A' := by
  have := congrArg (· * C⁻¹) h
  simp only [Matrix.mul_assoc] at this
  rwa [mul_nonsing_inv _ hdet, Matrix.mul_one, Matrix.mul_one] at this

end abstract

/-! ## Tensors as matrices -/

/-- The entries of a matrix. -/
def matM (m n : ℕ) (f : ℕ → ℕ → ℂ) : Matrix (Fin m) (Fin n) ℂ := fun i j => f i j

/-- A tensor as a matrix with the rows `(i,s)`. -/
def rowM (l d r : ℕ) (T : Ten ℂ) : Matrix (Fin l × Fin d) (Fin r) ℂ := fun p j => T.v p.1 j p.2

/-- A tensor as a matrix with the columns `(j,s)`. -/
def colM (l d r : ℕ) (T : Ten ℂ) : Matrix (Fin l) (Fin r × Fin d) ℂ := fun i p => T.v i p.1 p.2

theorem matM_ext {m n : ℕ} {f g : ℕ → ℕ → ℂ} : matM m n f = matM m n g ↔ ∀ i < m, ∀ j < n, f i j = g i j :=
  ⟨fun h i hi j hj => congrFun (congrFun h ⟨i, hi⟩) ⟨j, hj⟩, fun h => by ext i j; exact h i i.2 j j.2⟩

theorem rowM_ext {l d r : ℕ} {A A' : Ten ℂ} : rowM l d r A = rowM l d r A' ↔ ∀ i < l, ∀ j < r, ∀ s < d, A.v i j s = A'.v i j s :=
  ⟨fun h i hi j hj s hs => congrFun (congrFun h (⟨i, hi⟩, ⟨s, hs⟩)) ⟨j, hj⟩, fun h => by ext p j; exact h _ p.1.2 _ j.2 _ p.2.2⟩

theorem colM_ext {l d r : ℕ} {A A' : Ten ℂ} : colM l d r A = colM l d r A' ↔ ∀ i < l, ∀ j < r, ∀ s < d, A.v i j s = A'.v i j s :=
  ⟨fun h i hi j hj s hs => congrFun (congrFun h ⟨i, hi⟩) (⟨j, hj⟩, ⟨s, hs⟩), fun h => by ext i p; exact h _ i.2 _ p.1.2 _ p.2.2⟩

theorem one_entry {n : ℕ} (i j : Fin n) : (1 : Matrix (Fin n) (Fin n) ℂ) i j = delta ℂ i j := by
  rw [Matrix.one_apply]; unfold delta; simp [Fin.ext_iff]

theorem leftOrth_iff (A : Ten ℂ) : LeftOrth A ↔ (rowM A.l A.d A.r A)ᴴ * rowM A.l A.d A.r A = 1 := by
  have e : ∀ j j' : Fin A.r, ((rowM A.l A.d A.r A)ᴴ * rowM A.l A.d A.r A) j j' = ∑ s ∈ range A.d, ∑ i ∈ range A.l, star (A.v i j s) * A.v i j' s := by
    intro j j'
    rw [Matrix.mul_apply, Fintype.sum_prod_type, sum_comm, sum_range]
    refine sum_congr rfl fun s _ => ?_
    rw [sum_range]; rfl
  constructor
  · intro h
    ext j j'
    rw [e, one_entry, h j j.2 j' j'.2]
  · intro h j hj j' hj'
    rw [← e ⟨j, hj⟩ ⟨j', hj'⟩, h, one_entry]

theorem rightOrth_iff (B : Ten ℂ) : RightOrth B ↔ colM B.l B.d B.r B * (colM B.l B.d B.r B)ᴴ = 1 := by
  have e : ∀ j j' : Fin B.l, (colM B.l B.d B.r B * (colM B.l B.d B.r B)ᴴ) j j' = ∑ s ∈ range B.d, ∑ i ∈ range B.r, B.v j i s * star (B.v j' i s) := by
    intro j j'
    rw [Matrix.mul_apply, Fintype.sum_prod_type, sum_comm, sum_range]
    refine sum_congr rfl fun s _ => ?_
    rw [sum_range]; rfl
  constructor
  · intro h
    ext j j'
    rw [e, one_entry, h j j.2 j' j'.2]
  · intro h j hj j' hj'
    rw [← e ⟨j, hj⟩ ⟨j', hj'⟩, h, one_entry]

/-- Spec: squared distance of `T` from `A·C`. -/
def misfitL (T A : Ten ℂ) (C : Mat ℂ) : ℝ :=
  ∑ i ∈ range T.l, ∑ j ∈ range T.r, ∑ s ∈ range T.d, Complex.normSq (T.v i j s - ∑ k ∈ range C.r, A.v i k s * C.v k j)

/-- Spec: squared distance of `T` from `C·B`. -/
def misfitR (T B : Ten ℂ) (C : Mat ℂ) : ℝ :=
  ∑ i ∈ range T.l, ∑ j ∈ range T.r, ∑ s ∈ range T.d, Complex.normSq (T.v i j s - ∑ k ∈ range C.c, C.v i k * B.v k j s)

theorem misfitL_eq (T A : Ten ℂ) (C : Mat ℂ) : misfitL T A C = fsq (rowM T.l T.d T.r T - rowM T.l T.d C.r A * matM C.r T.r C.v) := by
  unfold misfitL fsq
  rw [Fintype.sum_prod_type, sum_range]
  refine sum_congr rfl fun i _ => ?_
  rw [sum_comm, sum_range]
  refine sum_congr rfl fun s _ => ?_
  rw [sum_range]
  refine sum_congr rfl fun j _ => ?_
  rw [Matrix.sub_apply, Matrix.mul_apply, sum_range]
  rfl

theorem misfitR_eq (T B : Ten ℂ) (C : Mat ℂ) : misfitR T B C = fsq (colM T.l T.d T.r T - matM T.l C.c C.v * colM C.c T.d T.r B) := by
  unfold misfitR fsq
  rw [sum_range]
  refine sum_congr rfl fun i _ => ?_
  rw [Fintype.sum_prod_type, sum_range]
  refine sum_congr rfl fun j _ => ?_
  rw [sum_range]
  refine sum_congr rfl fun s _ => ?_
  rw [Matrix.sub_apply, Matrix.mul_apply, sum_range]
  rfl

theorem leftOrth_iff' {A : Ten ℂ} {l d r : ℕ} (h1 : A.l = l) (h2 : A.d = d) (h3 : A.r = r) : LeftOrth A ↔ (rowM l d r A)ᴴ * rowM l d r A = 1 := by
  subst h1 h2 h3; exact leftOrth_iff A

theorem rightOrth_iff' {A : Ten ℂ} {l d r : ℕ} (h1 : A.l = l) (h2 : A.d = d) (h3 : A.r = r) : RightOrth A ↔ colM l d r A * (colM l d r A)ᴴ = 1 := by
  subst h1 h2 h3; exact rightOrth_iff A

theorem misfitL_eq' (T A : Ten ℂ) (C : Mat ℂ) {n : ℕ} (h1 : T.r = n) (h2 : C.r = n) :
    misfitL T A C = fsq (rowM T.l T.d n T - rowM T.l T.d n A * matM n n C.v) := by
  rw [misfitL_eq, h1, h2]

theorem misfitR_eq' (T A : Ten ℂ) (C : Mat ℂ) {n : ℕ} (h1 : T.l = n) (h2 : C.c = n) :
    misfitR T A C = fsq (colM n T.d T.r T - matM n n C.v * colM n T.d T.r A) := by
  rw [misfitR_eq, h1, h2]

theorem sum_split (a d : ℕ) (F : ℕ → ℂ) : ∑ p ∈ range (a * d), F p = ∑ i ∈ range a, ∑ s ∈ range d, F (i * d + s) := by
  induction a with
  | zero => simp
  | succ a ih => rw [Nat.succ_mul, sum_range_add, ih, sum_range_succ]

theorem split_div {d i s : ℕ} (hs : s < d) : (i * d + s) / d = i := by
  rw [Nat.add_comm, Nat.add_mul_div_right _ _ (by omega), Nat.div_eq_of_lt hs, Nat.zero_add]

theorem split_mod {d i s : ℕ} (hs : s < d) : (i * d + s) % d = s := by
  rw [Nat.mul_add_mod', Nat.mod_eq_of_lt hs]

theorem split_lt {l d i s : ℕ} (hi : i < l) (hs : s < d) : i * d + s < l * d :=
  calc i * d + s < i * d + d := by omega
    _ = (i + 1) * d := by ring
    _ ≤ l * d := Nat.mul_le_mul_right _ hi

/-- The rows `(i,s)` of a matrix. -/
def rowsM (l d n : ℕ) (M : Mat ℂ) : Matrix (Fin l × Fin d) (Fin n) ℂ := fun p k => M.v (p.1 * d + p.2) k

/-- The columns `(j,s)` of a matrix. -/
def colsM (m r d : ℕ) (M : Mat ℂ) : Matrix (Fin m) (Fin r × Fin d) ℂ := fun k p => M.v k (p.1 * d + p.2)

theorem rows_gram {l d n : ℕ} (u : Mat ℂ) (k k' : Fin n) : ((rowsM l d n u)ᴴ * rowsM l d n u) k k' = ∑ i ∈ range (l * d), star (u.v i k) * u.v i k' := by
  rw [Matrix.mul_apply, Fintype.sum_prod_type, sum_split, sum_range]
  refine sum_congr rfl fun i _ => ?_
  rw [sum_range]; rfl

theorem cols_gram {m r d : ℕ} (v : Mat ℂ) (k k' : Fin m) : (colsM m r d v * (colsM m r d v)ᴴ) k k' = ∑ i ∈ range (r * d), v.v k i * star (v.v k' i) := by
  rw [Matrix.mul_apply, Fintype.sum_prod_type, sum_split, sum_range]
  refine sum_congr rfl fun i _ => ?_
  rw [sum_range]; rfl

theorem mat_gram {m n : ℕ} (f : ℕ → ℕ → ℂ) (k k' : Fin n) : ((matM m n f)ᴴ * matM m n f) k k' = ∑ i ∈ range m, star (f i k) * f i k' := by
  rw [Matrix.mul_apply, sum_range]; rfl

theorem mat_cogram {m n : ℕ} (f : ℕ → ℕ → ℂ) (k k' : Fin m) : (matM m n f * (matM m n f)ᴴ) k k' = ∑ i ∈ range n, f k i * star (f k' i) := by
  rw [Matrix.mul_apply, sum_range]; rfl

theorem svd_rows {M u v : Mat ℂ} {s : List ℝ} (h : SVDSpec M u s v) {l d n : ℕ} (hr : M.r = l * d) (hc : M.c = n) (hle : n ≤ l * d) :
    (rowsM l d n u)ᴴ * rowsM l d n u = 1 ∧ matM n n v.v * (matM n n v.v)ᴴ = 1 ∧
      rowsM l d n M = rowsM l d n u * diagonal (fun k : Fin n => ((s.getD k 0 : ℝ) : ℂ)) * matM n n v.v := by
  have hm : min M.r M.c = n := by rw [hr, hc]; exact min_eq_right hle
  refine ⟨?_, ?_, ?_⟩
  · ext k k'
    rw [rows_gram, one_entry, ← hr, h.isoU k (by rw [hm]; exact k.2) k' (by rw [hm]; exact k'.2)]
  · ext k k'
    rw [mat_cogram, one_entry]
    have := h.isoV k (by rw [hm]; exact k.2) k' (by rw [hm]; exact k'.2)
    rwa [hc] at this
  · ext p j
    have := h.prod (p.1 * d + p.2) (by rw [hr]; exact split_lt p.1.2 p.2.2) j (by rw [hc]; exact j.2)
    rw [hm, sum_range] at this
    change M.v _ _ = _
    rw [← this, Matrix.mul_apply]
    refine sum_congr rfl fun k _ => ?_
    rw [mul_diagonal]; rfl

theorem svd_cols {M u v : Mat ℂ} {s : List ℝ} (h : SVDSpec M u s v) {r d n : ℕ} (hr : M.r = n) (hc : M.c = r * d) (hle : n ≤ r * d) :
    (matM n n u.v)ᴴ * matM n n u.v = 1 ∧ colsM n r d v * (colsM n r d v)ᴴ = 1 ∧
      colsM n r d M = matM n n u.v * diagonal (fun k : Fin n => ((s.getD k 0 : ℝ) : ℂ)) * colsM n r d v := by
  have hm : min M.r M.c = n := by rw [hr, hc]; exact min_eq_left hle
  refine ⟨?_, ?_, ?_⟩
  · ext k k'
    rw [mat_gram, one_entry]
    have := h.isoU k (by rw [hm]; exact k.2) k' (by rw [hm]; exact k'.2)
    rwa [hr] at this
  · ext k k'
    rw [cols_gram, one_entry, ← hc, h.isoV k (by rw [hm]; exact k.2) k' (by rw [hm]; exact k'.2)]
  · ext i p
    have := h.prod i (by rw [hr]; exact i.2) (p.1 * d + p.2) (by rw [hc]; exact split_lt p.1.2 p.2.2)
    rw [hm, sum_range] at this
    change M.v _ _ = _
    rw [← this, Matrix.mul_apply]
    refine sum_congr rfl fun k _ => ?_
    rw [mul_diagonal]; rfl

/-- What the gauge matching has to give: tensors of the shape of `T`, isometric in the two directions. -/
structure Gauged (T A B : Ten ℂ) : Prop where
  Al : A.l = T.l
  Ar : A.r = T.r
  Ad : A.d = T.d
  Bl : B.l = T.l
  Br : B.r = T.r
  Bd : B.d = T.d
  left : LeftOrth A
  right : RightOrth B

theorem getD_nonneg {s : List ℝ} (h : ∀ x ∈ s, 0 ≤ x) (k : ℕ) : 0 ≤ s.getD k 0 := by
  rw [List.getD_eq_getElem?_getD]
  cases hk : s[k]? with
  | none => simp
  | some x => exact h x (List.mem_of_getElem? hk)

theorem le_mul_pos {n d : ℕ} (hd : 0 < d) : n ≤ n * d := Nat.le_mul_of_pos_right n hd

/-- The matching with the singular value decomposition. -/
theorem matchSvd_spec {X : Ext} (hO : X.O.Spec) {T A B : Ten ℂ} {C : Mat ℂ} (hd : 0 < T.d) (h : matchSvd X T C = .ok (A, B)) :
    T.r = T.l ∧ C.r = T.l ∧ C.c = T.l ∧ Gauged T A B ∧
    (∀ A' : Ten ℂ, A'.l = T.l → A'.r = T.r → A'.d = T.d → LeftOrth A' → misfitL T A C ≤ misfitL T A' C) ∧
    ∀ B' : Ten ℂ, B'.l = T.l → B'.r = T.r → B'.d = T.d → RightOrth B' → misfitR T B C ≤ misfitR T B' C := by
  unfold matchSvd at h
  obtain ⟨P, hP, h⟩ := andThen_ok.1 h
  obtain ⟨Q, hQ, h⟩ := andThen_ok.1 h
  split_ifs at h with hC
  obtain ⟨a, ha, h⟩ := andThen_ok.1 h
  obtain ⟨b, hb, h⟩ := andThen_ok.1 h
  obtain ⟨A1, hA1, h⟩ := andThen_ok.1 h
  obtain ⟨B1, hB1, h⟩ := andThen_ok.1 h
  cases h
  obtain ⟨hC1, hC2⟩ := hC
  obtain ⟨p1, hP⟩ := absorbR_eq hP
  obtain ⟨q1, hQ⟩ := absorbL_eq hQ
  have hrl : T.r = T.l := p1.trans hC2
  have hC1 : C.r = T.l := hC1.trans hrl
  have hsP := hO.svd (rowC P)
  have hsQ := hO.svd Q.colMat
  generalize X.O.svd (rowC P) = sp at *
  generalize X.O.svd Q.colMat = sq at *
  obtain ⟨u, s, v⟩ := sp
  obtain ⟨u', s', v'⟩ := sq
  dsimp only at hsP hsQ ha hb
  have P1 : (rowC P).r = T.l * T.d := by rw [hP]; rfl
  have P2 : (rowC P).c = T.l := by rw [hP]; exact hC1
  have Q1 : Q.colMat.r = T.l := by rw [hQ]; exact hC2
  have Q2 : Q.colMat.c = T.l * T.d := by rw [hQ]; change T.d * T.r = _; rw [hrl, mul_comm]
  obtain ⟨a1, a2, a3⟩ := svd_rows hsP P1 P2 (le_mul_pos hd)
  obtain ⟨b1, b2, b3⟩ := svd_cols hsQ Q1 Q2 (le_mul_pos hd)
  have e1 : rowsM T.l T.d T.l (rowC P) = rowM T.l T.d T.l T * (matM T.l T.l C.v)ᴴ := by
    ext p j
    rw [Matrix.mul_apply]
    change P.v ((p.1 * T.d + p.2) / P.d) j ((p.1 * T.d + p.2) % P.d) = _
    rw [hP]
    dsimp only
    rw [split_div p.2.2, split_mod p.2.2, hrl, sum_range]
    rfl
  have e2 : colsM T.l T.l T.d Q.colMat = (matM T.l T.l C.v)ᴴ * colM T.l T.d T.l T := by
    ext i p
    rw [Matrix.mul_apply]
    change Q.v i ((p.1 * T.d + p.2) / Q.d) ((p.1 * T.d + p.2) % Q.d) = _
    rw [hQ]
    dsimp only
    rw [split_div p.2.2, split_mod p.2.2, sum_range]
    rfl
  unfold Mat.dotR at ha hb
  split_ifs at ha hb
  have ha := (Except.ok.inj ha).symm
  have hb := (Except.ok.inj hb).symm
  unfold unrowC at hA1
  unfold uncolC at hB1
  split_ifs at hA1 hB1
  have hA1 := (Except.ok.inj hA1).symm
  have hB1 := (Except.ok.inj hB1).symm
  have m1 : u.c = T.l := by rw [hsP.u_c, P1, P2]; exact min_eq_right (le_mul_pos hd)
  have m2 : u'.c = T.l := by rw [hsQ.u_c, Q1, Q2]; exact min_eq_left (le_mul_pos hd)
  have f1 : rowM T.l T.d T.l A = rowsM T.l T.d T.l u * matM T.l T.l v.v := by
    ext p j
    rw [hA1, ha, Matrix.mul_apply]
    change ∑ k ∈ range u.c, _ = _
    rw [m1, sum_range]
    rfl
  have f2 : colM T.l T.d T.l B = matM T.l T.l u'.v * colsM T.l T.l T.d v' := by
    ext i p
    rw [hB1, hb, Matrix.mul_apply]
    change ∑ k ∈ range u'.c, _ = _
    rw [m2, sum_range]
    rfl
  have d1 : A.l = T.l := by rw [hA1]
  have d2 : A.r = T.r := by rw [hA1]
  have d3 : A.d = T.d := by rw [hA1]
  have d4 : B.l = T.l := by rw [hB1]
  have d5 : B.r = T.r := by rw [hB1]
  have d6 : B.d = T.d := by rw [hB1]
  have b1' : matM T.l T.l u'.v * (matM T.l T.l u'.v)ᴴ = 1 := mul_eq_one_comm.1 b1
  refine ⟨hrl, hC1, hC2, ⟨d1, d2, d3, d4, d5, d6, ?_, ?_⟩, fun A' i1 i2 i3 i4 => ?_, fun B' i1 i2 i3 i4 => ?_⟩
  · rw [leftOrth_iff' d1 d3 (d2.trans hrl), f1]
    exact iso_mul a1 a2
  · rw [rightOrth_iff' d4 d6 (d5.trans hrl), f2, conjTranspose_mul, Matrix.mul_assoc, ← Matrix.mul_assoc (colsM _ _ _ _), b2, Matrix.one_mul, b1']
  · rw [misfitL_eq' T A C hrl hC1, misfitL_eq' T A' C hrl hC1, f1]
    rw [leftOrth_iff' i1 i3 (i2.trans hrl)] at i4
    exact svd_best a1 a2 (s := fun k => s.getD k 0) (fun k => getD_nonneg hsP.nonneg k) (by rw [← e1, a3]) i4
  · rw [misfitR_eq' T B C rfl hC2, misfitR_eq' T B' C rfl hC2, hrl, f2]
    rw [rightOrth_iff' i1 i3 (i2.trans hrl)] at i4
    rw [← fsq_herm, ← fsq_herm (colM _ _ _ T - matM T.l T.l C.v * _)]
    rw [conjTranspose_sub, conjTranspose_sub, conjTranspose_mul, conjTranspose_mul, conjTranspose_mul]
    refine svd_best (s := fun k => s'.getD k 0) (by rw [conjTranspose_conjTranspose]; exact b2) (by rw [conjTranspose_conjTranspose]; exact b1)
      (fun k => getD_nonneg hsQ.nonneg k) ?_ (by rw [conjTranspose_conjTranspose]; exact i4)
    have := congrArg conjTranspose (e2.symm.trans b3)
    rw [conjTranspose_mul, conjTranspose_mul, conjTranspose_mul, diagonal_conjTranspose] at this
    rw [this, ← Matrix.mul_assoc]
    congr 3
    funext k
    simp

/-! ## The polar decomposition -/

/-- The contract of `sp.linalg.polar(a,side='right')`: `a=u·p`. -/
structure PolarR (A u p : Mat ℂ) : Prop where
  u_r : u.r = A.r
  u_c : u.c = A.c
  psd : (matM A.c A.c p.v).PosSemidef
  prod : ∀ i < A.r, ∀ j < A.c, ∑ k ∈ range A.c, u.v i k * p.v k j = A.v i j
  iso : A.c ≤ A.r → ∀ k < A.c, ∀ k' < A.c, ∑ i ∈ range A.r, star (u.v i k) * u.v i k' = delta ℂ k k'

/-- The contract of `sp.linalg.polar(a,side='left')`: `a=p·u`. -/
structure PolarL (A u p : Mat ℂ) : Prop where
  u_r : u.r = A.r
  u_c : u.c = A.c
  psd : (matM A.r A.r p.v).PosSemidef
  prod : ∀ i < A.r, ∀ j < A.c, ∑ k ∈ range A.r, p.v i k * u.v k j = A.v i j
  iso : A.r ≤ A.c → ∀ k < A.r, ∀ k' < A.r, ∑ j ∈ range A.c, u.v k j * star (u.v k' j) = delta ℂ k k'

/-- The contract of `sp.linalg.polar`. -/
def PolarSpec (polar : Mat ℂ → Bool → Mat ℂ × Mat ℂ) : Prop :=
  ∀ A, PolarR A (polar A true).1 (polar A true).2 ∧ PolarL A (polar A false).1 (polar A false).2

theorem psd_conj {m c : ℕ} (V : Matrix (Fin m) (Fin c) ℂ) {s : ℕ → ℝ} (hs : ∀ k, 0 ≤ s k) :
    (Vᴴ * diagonal (fun k : Fin m => (s k : ℂ)) * V).PosSemidef :=
  (PosSemidef.diagonal fun k => by simpa using hs k).conjTranspose_mul_mul_same V

/-- The entries of a matrix, continued by zero. -/
def liftM {a b : ℕ} (M : Matrix (Fin a) (Fin b) ℂ) (i j : ℕ) : ℂ := if hi : i < a then (if hj : j < b then M ⟨i, hi⟩ ⟨j, hj⟩ else 0) else 0

theorem mat_lift {a b : ℕ} (M : Matrix (Fin a) (Fin b) ℂ) : matM a b (liftM M) = M := by
  ext i j
  simp [matM, liftM]

theorem lift_prod {a b c : ℕ} {f g h : ℕ → ℕ → ℂ} (e : matM a b f * matM b c g = matM a c h) {i j : ℕ} (hi : i < a) (hj : j < c) :
    ∑ k ∈ range b, f i k * g k j = h i j := by
  have := congrFun (congrFun e ⟨i, hi⟩) ⟨j, hj⟩
  rw [Matrix.mul_apply] at this
  rw [sum_range]
  exact this

theorem lift_gram {a b : ℕ} {f : ℕ → ℕ → ℂ} (e : (matM a b f)ᴴ * matM a b f = 1) {k k' : ℕ} (hk : k < b) (hk' : k' < b) :
    ∑ i ∈ range a, star (f i k) * f i k' = delta ℂ k k' := by
  have := congrFun (congrFun e ⟨k, hk⟩) ⟨k', hk'⟩
  rwa [mat_gram, one_entry] at this

theorem lift_cogram {a b : ℕ} {f : ℕ → ℕ → ℂ} (e : matM a b f * (matM a b f)ᴴ = 1) {k k' : ℕ} (hk : k < a) (hk' : k' < a) :
    ∑ i ∈ range b, f k i * star (f k' i) = delta ℂ k k' := by
  have := congrFun (congrFun e ⟨k, hk⟩) ⟨k', hk'⟩
  rwa [mat_cogram, one_entry] at this

theorem square_iso {m c : ℕ} {V : Matrix (Fin m) (Fin c) ℂ} (h : m = c) (hV : V * Vᴴ = 1) : Vᴴ * V = 1 := by
  subst h; exact mul_eq_one_comm.1 hV

theorem polar_of_svd (A : Mat ℂ) : ∃ u p q, PolarR A u p ∧ PolarL A u q := by
  obtain ⟨u, s, v, h⟩ := exists_svd A
  obtain ⟨m, hm⟩ : ∃ m, min A.r A.c = m := ⟨_, rfl⟩
  obtain ⟨U, hU0⟩ : ∃ U, U = matM A.r m u.v := ⟨_, rfl⟩
  obtain ⟨V, hV0⟩ : ∃ V, V = matM m A.c v.v := ⟨_, rfl⟩
  have hs : ∀ k, 0 ≤ s.getD k 0 := getD_nonneg h.nonneg
  have hP := psd_conj V hs
  have hQ := psd_conj Uᴴ hs
  obtain ⟨S, hS0⟩ : ∃ S, S = diagonal (fun k : Fin m => ((s.getD k 0 : ℝ) : ℂ)) := ⟨_, rfl⟩
  rw [← hS0] at hP hQ
  rw [conjTranspose_conjTranspose] at hQ
  have hU : Uᴴ * U = 1 := by
    ext k k'
    rw [hU0, mat_gram, one_entry, h.isoU k (by rw [hm]; exact k.2) k' (by rw [hm]; exact k'.2)]
  have hV : V * Vᴴ = 1 := by
    ext k k'
    rw [hV0, mat_cogram, one_entry, h.isoV k (by rw [hm]; exact k.2) k' (by rw [hm]; exact k'.2)]
  have hA : matM A.r A.c A.v = U * S * V := by
    ext i j
    have := h.prod i i.2 j j.2
    rw [hm, sum_range] at this
    change A.v i j = _
    rw [← this, Matrix.mul_apply, hS0, hU0, hV0]
    refine sum_congr rfl fun k _ => ?_
    rw [mul_diagonal]; rfl
  clear hU0 hV0 hS0 h hs
  refine ⟨⟨A.r, A.c, liftM (U * V)⟩, ⟨A.c, A.c, liftM (Vᴴ * S * V)⟩, ⟨A.r, A.r, liftM (U * S * Uᴴ)⟩, ⟨rfl, rfl, ?_, ?_, ?_⟩, ⟨rfl, rfl, ?_, ?_, ?_⟩⟩
  · dsimp only
    rw [mat_lift]; exact hP
  · intro i hi j hj
    refine lift_prod ?_ hi hj
    rw [mat_lift, mat_lift, hA]
    simp only [Matrix.mul_assoc]
    rw [← Matrix.mul_assoc V, hV, Matrix.one_mul]
  · intro hle k hk k' hk'
    refine lift_gram ?_ hk hk'
    rw [mat_lift, conjTranspose_mul, Matrix.mul_assoc, ← Matrix.mul_assoc Uᴴ, hU, Matrix.one_mul]
    exact square_iso (by rw [← hm]; exact min_eq_right hle) hV
  · dsimp only
    rw [mat_lift]; exact hQ
  · intro i hi j hj
    refine lift_prod ?_ hi hj
    rw [mat_lift, mat_lift, hA]
    simp only [Matrix.mul_assoc]
    rw [← Matrix.mul_assoc Uᴴ, hU, Matrix.one_mul]
  · intro hle k hk k' hk'
    refine lift_cogram ?_ hk hk'
    rw [mat_lift, conjTranspose_mul, Matrix.mul_assoc, ← Matrix.mul_assoc V, hV, Matrix.one_mul]
    have := square_iso (V := Uᴴ) (by rw [← hm]; exact min_eq_left hle) (by rw [conjTranspose_conjTranspose]; exact hU)
    rwa [conjTranspose_conjTranspose] at this

/-- A routine meeting the contract exists. -/
theorem exists_polar : ∃ polar, PolarSpec polar := by
  choose u p q h using polar_of_svd
  exact ⟨fun A b => (u A, if b then p A else q A), fun A => ⟨(h A).1, (h A).2⟩⟩

/-- `T=A'·C` on the ranges. -/
def FactL (T A' : Ten ℂ) (C : Mat ℂ) : Prop := ∀ i < T.l, ∀ j < T.r, ∀ s < T.d, T.v i j s = ∑ k ∈ range C.r, A'.v i k s * C.v k j

/-- `T=C·B'` on the ranges. -/
def FactR (T B' : Ten ℂ) (C : Mat ℂ) : Prop := ∀ i < T.l, ∀ j < T.r, ∀ s < T.d, T.v i j s = ∑ k ∈ range C.c, C.v i k * B'.v k j s

/-- `C` has an inverse. -/
def Invertible' (C : Mat ℂ) : Prop := ∃ f : ℕ → ℕ → ℂ, ∀ i < C.r, ∀ j < C.r, ∑ k ∈ range C.c, C.v i k * f k j = delta ℂ i j

theorem inv_det {C : Mat ℂ} {n : ℕ} (h1 : C.r = n) (h2 : C.c = n) (h : Invertible' C) : IsUnit (matM n n C.v).det := by
  obtain ⟨f, hf⟩ := h
  rw [h1, h2] at hf
  have : matM n n C.v * matM n n f = 1 := by
    ext i j
    have := hf i i.2 j j.2
    rw [sum_range] at this
    rw [one_entry, Matrix.mul_apply, ← this]; rfl
  have := congrArg det this
  rw [det_mul, det_one] at this
  exact IsUnit.of_mul_eq_one _ this

theorem factL_mat {T A' : Ten ℂ} {C : Mat ℂ} {n : ℕ} (h1 : T.r = n) (h2 : C.r = n) (h : FactL T A' C) :
    rowM T.l T.d n T = rowM T.l T.d n A' * matM n n C.v := by
  ext p j
  have := h p.1 p.1.2 j (by rw [h1]; exact j.2) p.2 p.2.2
  rw [h2, sum_range] at this
  rw [Matrix.mul_apply]
  exact this

theorem factR_mat {T B' : Ten ℂ} {C : Mat ℂ} {n : ℕ} (h1 : T.l = n) (h2 : C.c = n) (h : FactR T B' C) :
    colM n T.d T.r T = matM n n C.v * colM n T.d T.r B' := by
  ext i p
  have := h i (by rw [h1]; exact i.2) p.1 p.1.2 p.2 p.2.2
  rw [h2, sum_range] at this
  rw [Matrix.mul_apply]
  exact this

/-- Equal entries in the shape of `T`. -/
def SameOn (T A A' : Ten ℂ) : Prop := ∀ i < T.l, ∀ j < T.r, ∀ s < T.d, A.v i j s = A'.v i j s

theorem fsq_nil {α β : Type*} [Fintype α] [Fintype β] : fsq (0 : Matrix α β ℂ) = 0 := by simp [fsq]

/-- If the tensors can be matched, the singular value decomposition finds the match. -/
theorem matchSvd_exact {X : Ext} (hO : X.O.Spec) {T A B : Ten ℂ} {C : Mat ℂ} (hd : 0 < T.d) (h : matchSvd X T C = .ok (A, B)) (hC : Invertible' C) :
    (∀ A' : Ten ℂ, A'.l = T.l → A'.r = T.r → A'.d = T.d → LeftOrth A' → FactL T A' C → SameOn T A A') ∧
    ∀ B' : Ten ℂ, B'.l = T.l → B'.r = T.r → B'.d = T.d → RightOrth B' → FactR T B' C → SameOn T B B' := by
  obtain ⟨hrl, c1, c2, -, ha, hb⟩ := matchSvd_spec hO hd h
  have hdet := inv_det c1 c2 hC
  constructor
  · intro A' i1 i2 i3 i4 hf
    have h1 := ha A' i1 i2 i3 i4
    have hf := factL_mat hrl c1 hf
    rw [misfitL_eq' T A C hrl c1, misfitL_eq' T A' C hrl c1, ← hf, sub_self, fsq_nil] at h1
    have h2 := sub_eq_zero.1 (fsq_zero h1)
    have h3 := cancel_right (h2.symm.trans hf) hdet
    intro i hi j hj s hs
    exact rowM_ext.1 h3 i hi j (hrl ▸ hj) s hs
  · intro B' i1 i2 i3 i4 hf
    have h1 := hb B' i1 i2 i3 i4
    have hf := factR_mat rfl c2 hf
    rw [misfitR_eq' T B C rfl c2, misfitR_eq' T B' C rfl c2, ← hf, sub_self, fsq_nil] at h1
    have h2 := sub_eq_zero.1 (fsq_zero h1)
    have h3 := congrArg conjTranspose (h2.symm.trans hf)
    rw [conjTranspose_mul, conjTranspose_mul] at h3
    have h3 := cancel_right h3 (by rw [det_conjTranspose]; exact hdet.star)
    exact colM_ext.1 (conjTranspose_injective h3)

/-- The matching with the polar decomposition. -/
theorem matchPolar_spec {X : Ext} (hX : PolarSpec X.polar) {T A B : Ten ℂ} {C : Mat ℂ} (hd : 0 < T.d) (h : matchPolar X T C = .ok (A, B)) :
    T.r = T.l ∧ C.r = T.l ∧ C.c = T.l ∧ Gauged T A B ∧ (Invertible' C →
    (∀ A' : Ten ℂ, A'.l = T.l → A'.r = T.r → A'.d = T.d → LeftOrth A' → FactL T A' C → SameOn T A A') ∧
    ∀ B' : Ten ℂ, B'.l = T.l → B'.r = T.r → B'.d = T.d → RightOrth B' → FactR T B' C → SameOn T B B') := by
  unfold matchPolar at h
  obtain ⟨a, ha, h⟩ := andThen_ok.1 h
  obtain ⟨A1, hA1, h⟩ := andThen_ok.1 h
  obtain ⟨b, hb, h⟩ := andThen_ok.1 h
  obtain ⟨B1, hB1, h⟩ := andThen_ok.1 h
  cases h
  have hp := (hX (rowC T)).1
  have hq := (hX T.colMat).2
  have hc := (hX C).1
  have he := (hX C).2
  generalize X.polar (rowC T) true = p at *
  generalize X.polar T.colMat false = q at *
  generalize X.polar C true = c at *
  generalize X.polar C false = e at *
  obtain ⟨pu, pp⟩ := p
  obtain ⟨qu, qp⟩ := q
  obtain ⟨cu, cp⟩ := c
  obtain ⟨eu, ep⟩ := e
  dsimp only at *
  unfold Mat.dotR at ha hb
  split_ifs at ha hb with g1 g2
  have ha := (Except.ok.inj ha).symm
  have hb := (Except.ok.inj hb).symm
  unfold unrowC at hA1
  unfold uncolC at hB1
  split_ifs at hA1 hB1 with g3 g4
  have hA1 := (Except.ok.inj hA1).symm
  have hB1 := (Except.ok.inj hB1).symm
  have r1 : T.r = C.c := hp.u_c.symm.trans (g1.trans hc.u_c)
  have r2 : C.r = T.r := by
    have := g3.2; rw [ha] at this; exact hc.u_r.symm.trans this
  have r3 : C.c = T.l := by
    have := g4.1; rw [hb] at this; exact he.u_c.symm.trans this
  have hrl : T.r = T.l := r1.trans r3
  have hC1 : C.r = T.l := r2.trans hrl
  have w1 : pu.c = T.l := hp.u_c.trans hrl
  have w2 : eu.r = T.l := he.u_r.trans hC1
  have hle : (rowC T).c ≤ (rowC T).r := by change T.r ≤ T.l * T.d; rw [hrl]; exact le_mul_pos hd
  have hle' : T.colMat.r ≤ T.colMat.c := by change T.l ≤ T.d * T.r; rw [hrl, mul_comm]; exact le_mul_pos hd
  -- the factors
  have U1 : (rowsM T.l T.d T.l pu)ᴴ * rowsM T.l T.d T.l pu = 1 := by
    ext k k'
    rw [rows_gram, one_entry]
    exact hp.iso hle k (by change _ < T.r; rw [hrl]; exact k.2) k' (by change _ < T.r; rw [hrl]; exact k'.2)
  have U2 : colsM T.l T.l T.d qu * (colsM T.l T.l T.d qu)ᴴ = 1 := by
    ext k k'
    rw [cols_gram, one_entry]
    have := hq.iso hle' k k.2 k' k'.2
    rwa [show T.colMat.c = T.l * T.d by change T.d * T.r = _; rw [hrl, mul_comm]] at this
  have V1 : (matM T.l T.l cu.v)ᴴ * matM T.l T.l cu.v = 1 := by
    ext k k'
    rw [mat_gram, one_entry]
    have := hc.iso (by rw [hC1, r3]) k (by rw [r3]; exact k.2) k' (by rw [r3]; exact k'.2)
    rwa [hC1] at this
  have V2 : matM T.l T.l eu.v * (matM T.l T.l eu.v)ᴴ = 1 := by
    ext k k'
    rw [mat_cogram, one_entry]
    have := he.iso (by rw [hC1, r3]) k (by rw [hC1]; exact k.2) k' (by rw [hC1]; exact k'.2)
    rwa [r3] at this
  have V1' : matM T.l T.l cu.v * (matM T.l T.l cu.v)ᴴ = 1 := mul_eq_one_comm.1 V1
  have V2' : (matM T.l T.l eu.v)ᴴ * matM T.l T.l eu.v = 1 := mul_eq_one_comm.1 V2
  have f1 : rowM T.l T.d T.l A = rowsM T.l T.d T.l pu * (matM T.l T.l cu.v)ᴴ := by
    ext p j
    rw [hA1, ha, Matrix.mul_apply]
    change ∑ k ∈ range pu.c, _ = _
    rw [w1, sum_range]
    rfl
  have f2 : colM T.l T.d T.l B = (matM T.l T.l eu.v)ᴴ * colsM T.l T.l T.d qu := by
    ext i p
    rw [hB1, hb, Matrix.mul_apply]
    change ∑ k ∈ range eu.r, _ = _
    rw [w2, sum_range]
    rfl
  have d1 : A.l = T.l := by rw [hA1]
  have d2 : A.r = T.r := by rw [hA1]
  have d3 : A.d = T.d := by rw [hA1]
  have d4 : B.l = T.l := by rw [hB1]
  have d5 : B.r = T.r := by rw [hB1]
  have d6 : B.d = T.d := by rw [hB1]
  refine ⟨hrl, hC1, r3, ⟨d1, d2, d3, d4, d5, d6, ?_, ?_⟩, fun hC => ?_⟩
  · rw [leftOrth_iff' d1 d3 (d2.trans hrl), f1]
    exact iso_mul U1 (by rw [conjTranspose_conjTranspose]; exact V1)
  · rw [rightOrth_iff' d4 d6 (d5.trans hrl), f2, conjTranspose_mul, Matrix.mul_assoc, ← Matrix.mul_assoc (colsM _ _ _ _), U2, Matrix.one_mul,
      conjTranspose_conjTranspose, V2']
  have hdet := inv_det hC1 r3 hC
  have E1 : rowM T.l T.d T.l T = rowsM T.l T.d T.l pu * matM T.l T.l pp.v := by
    ext p j
    have := hp.prod (p.1 * T.d + p.2) (split_lt p.1.2 p.2.2) j (by change _ < T.r; rw [hrl]; exact j.2)
    rw [show (rowC T).c = T.l from hrl, sum_range] at this
    rw [Matrix.mul_apply]
    refine Eq.trans ?_ this.symm
    change _ = T.v ((p.1 * T.d + p.2) / T.d) j ((p.1 * T.d + p.2) % T.d)
    rw [split_div p.2.2, split_mod p.2.2]; rfl
  have E2 : matM T.l T.l C.v = matM T.l T.l cu.v * matM T.l T.l cp.v := by
    ext i j
    have := hc.prod i (by rw [hC1]; exact i.2) j (by rw [r3]; exact j.2)
    rw [r3, sum_range] at this
    rw [Matrix.mul_apply]
    exact this.symm
  have E3 : colM T.l T.d T.l T = matM T.l T.l qp.v * colsM T.l T.l T.d qu := by
    ext i p
    have := hq.prod i i.2 (p.1 * T.d + p.2) (by change _ < T.d * T.r; rw [hrl, mul_comm T.d]; exact split_lt p.1.2 p.2.2)
    rw [show T.colMat.r = T.l from rfl, sum_range] at this
    rw [Matrix.mul_apply]
    refine Eq.trans ?_ this.symm
    change _ = T.v i ((p.1 * T.d + p.2) / T.d) ((p.1 * T.d + p.2) % T.d)
    rw [split_div p.2.2, split_mod p.2.2]; rfl
  have E4 : matM T.l T.l C.v = matM T.l T.l ep.v * matM T.l T.l eu.v := by
    ext i j
    have := he.prod i (by rw [hC1]; exact i.2) j (by rw [r3]; exact j.2)
    rw [hC1, sum_range] at this
    rw [Matrix.mul_apply]
    exact this.symm
  have P1 : (matM T.l T.l pp.v).PosSemidef := by
    have := hp.psd; rwa [show (rowC T).c = T.l from hrl] at this
  have P2 : (matM T.l T.l cp.v).PosSemidef := by
    have := hc.psd; rwa [r3] at this
  have P3 : (matM T.l T.l qp.v).PosSemidef := hq.psd
  have P4 : (matM T.l T.l ep.v).PosSemidef := by
    have := he.psd; rwa [hC1] at this
  constructor
  · intro A' i1 i2 i3 i4 hf
    rw [leftOrth_iff' i1 i3 (i2.trans hrl)] at i4
    have h3 := polar_match U1 V1 P1 P2 E1 E2 i4 (factL_mat hrl hC1 hf) hdet
    rw [← f1] at h3
    intro i hi j hj s hs
    exact rowM_ext.1 h3 i hi j (hrl ▸ hj) s hs
  · intro B' i1 i2 i3 i4 hf
    rw [rightOrth_iff' i1 i3 (i2.trans hrl)] at i4
    have hf := factR_mat rfl r3 hf
    rw [hrl] at hf
    have E3' := congrArg conjTranspose E3
    have E4' := congrArg conjTranspose E4
    have hf' := congrArg conjTranspose hf
    rw [conjTranspose_mul] at E3' E4' hf'
    rw [P3.1.eq] at E3'
    rw [P4.1.eq] at E4'
    have h3 := polar_match (by rw [conjTranspose_conjTranspose]; exact U2) (by rw [conjTranspose_conjTranspose]; exact V2) P3 P4 E3' E4'
      (by rw [conjTranspose_conjTranspose]; exact i4) hf' (by rw [det_conjTranspose]; exact hdet.star)
    rw [← conjTranspose_mul, ← f2] at h3
    have h4 := conjTranspose_injective h3
    intro i hi j hj s hs
    exact colM_ext.1 h4 i hi j (hrl ▸ hj) s hs

end
end PyTeN.Vumps
