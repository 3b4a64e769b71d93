import Verif.Env.PairH
import Mathlib.LinearAlgebra.Matrix.Trace
import Mathlib.LinearAlgebra.Matrix.Hermitian
import Mathlib.Analysis.Complex.Basic

/-! # C117: the effective Hamiltonian of a nearest-neighbour interaction -/

namespace PyTeN.PairH
open Finset Transfer Matrix

noncomputable section

/-! ## Specification -/

/-- Spec: the interaction of two sites which a pair of mpo tensors stands for. -/
def inter (W0 W1 : Mpo ℂ) (s t s' t' : ℕ) : ℂ := ∑ m ∈ range W0.r, W0.v 0 m s s' * W1.v m 0 t t'

/-- Spec: the matrices of a tensor. -/
def slice (D : ℕ) (t : Ten ℂ) (s : ℕ) : Matrix (Fin D) (Fin D) ℂ := fun i j => t.v i j s

/-- Spec: a matrix of the model as a matrix. -/
def ofMat (D : ℕ) (M : Mat ℂ) : Matrix (Fin D) (Fin D) ℂ := fun i j => M.v i j

/-- Spec: the matrix element of the Hamiltonian between the states with `X` and with `Z` at the site: the parts left and right, the
interaction with the left and with the right neighbour. -/
def element (D d : ℕ) (h : ℕ → ℕ → ℕ → ℕ → ℂ) (Hl Hr : Matrix (Fin D) (Fin D) ℂ) (A B Z X : ℕ → Matrix (Fin D) (Fin D) ℂ) : ℂ :=
  ∑ t ∈ range d, trace ((Z t)ᴴ * (Hlᵀ * X t)) + ∑ t ∈ range d, trace ((Z t)ᴴ * (X t * Hr)) +
    ∑ t' ∈ range d, ∑ t ∈ range d, ∑ s ∈ range d, ∑ s' ∈ range d, h s t s' t' * trace ((A s' * Z t')ᴴ * (A s * X t)) +
    ∑ t' ∈ range d, ∑ t ∈ range d, ∑ s ∈ range d, ∑ s' ∈ range d, h t s t' s' * trace ((Z t' * B s')ᴴ * (X t * B s))

/-- Spec: a tensor with square matrices. -/
def Sq (D d : ℕ) (t : Ten ℂ) : Prop := t.l = D ∧ t.r = D ∧ t.d = d

/-- Spec: a pair of mpo tensors for an interaction of two sites. -/
def Pair (d : ℕ) (W0 W1 : Mpo ℂ) : Prop :=
  W0.l = 1 ∧ W1.r = 1 ∧ W0.r = W1.l ∧ W0.din = d ∧ W0.dout = d ∧ W1.din = d ∧ W1.dout = d

/-! ## Lemmas -/

variable {D d : ℕ} {A B X V : Ten ℂ} {W0 W1 : Mpo ℂ} {Hl Hr : Mat ℂ}

/-- A block as a matrix, lower index first. -/
def envM (D : ℕ) (E : Env ℂ) (m : ℕ) : Matrix (Fin D) (Fin D) ℂ := fun i j => E.v j i m

theorem sum_eye (D : ℕ) {i' : ℕ} (hi : i' < D) (f : ℕ → ℂ) : ∑ i ∈ range D, (eyeD D).v i i' * f i = f i' := by
  rw [sum_eq_single i']
  · simp [eyeD]
  · intro b _ hb
    simp [eyeD, hb]
  · intro h
    exact absurd (mem_range.2 hi) h

theorem initR (hA : Sq D d A) (hB : Sq D d B) (h1 : W0.l = 1) (h2 : W0.din = d) (h3 : W0.dout = d) :
    ∃ E, initializeLayerR A (eyeD D) B W0 = .ok E ∧ E.u = D ∧ E.w = D ∧ E.m = W0.r ∧
      ∀ m, envM D E m = ∑ s ∈ range d, ∑ s' ∈ range d, W0.v 0 m s s' • ((slice D B s')ᴴ * slice D A s) := by
  obtain ⟨a1, a2, a3⟩ := hA
  obtain ⟨b1, b2, b3⟩ := hB
  refine ⟨_, if_pos ⟨a1.symm, b1.symm, by omega, by omega, h1⟩, a2, b2, rfl, fun m => ?_⟩
  ext i j
  simp only [Matrix.sum_apply, Matrix.smul_apply, Matrix.mul_apply, conjTranspose_apply, slice, envM, a3, b3, smul_eq_mul]
  refine sum_congr rfl fun s _ => sum_congr rfl fun s' _ => ?_
  rw [mul_comm]
  congr 1
  show ∑ i' ∈ range D, (∑ i ∈ range D, (eyeD D).v i i' * A.v i j s) * star (B.v i' i s') = _
  rw [sum_range]
  refine sum_congr rfl fun k _ => ?_
  rw [sum_eye D k.2 fun a => A.v a j s]
  exact mul_comm _ _

theorem initL (hA : Sq D d A) (hB : Sq D d B) (h1 : W1.r = 1) (h2 : W1.din = d) (h3 : W1.dout = d) :
    ∃ E, initializeLayerL A (eyeD D) B W1 = .ok E ∧ E.u = D ∧ E.w = D ∧ E.m = W1.l ∧
      ∀ m, (envM D E m)ᵀ = ∑ s ∈ range d, ∑ s' ∈ range d, W1.v m 0 s s' • (slice D A s * (slice D B s')ᴴ) := by
  obtain ⟨a1, a2, a3⟩ := hA
  obtain ⟨b1, b2, b3⟩ := hB
  refine ⟨_, if_pos ⟨a2.symm, b2.symm, by omega, by omega, h1⟩, a1, b1, rfl, fun m => ?_⟩
  ext i j
  simp only [Matrix.sum_apply, Matrix.smul_apply, Matrix.mul_apply, transpose_apply, conjTranspose_apply, slice, envM, a3, b3, smul_eq_mul]
  refine sum_congr rfl fun s _ => sum_congr rfl fun s' _ => ?_
  rw [mul_comm]
  congr 1
  show ∑ i' ∈ range D, (∑ a ∈ range D, (eyeD D).v a i' * A.v i a s) * star (B.v j i' s') = _
  rw [sum_range]
  refine sum_congr rfl fun k _ => ?_
  rw [sum_eye D k.2 fun a => A.v i a s]

theorem pull {M : Type} [AddCommMonoid M] (a b : ℕ) (f : ℕ → ℕ → ℕ → ℕ → M) :
    ∑ t ∈ range a, ∑ s ∈ range a, ∑ s' ∈ range a, ∑ m ∈ range b, f m t s s' = ∑ m ∈ range b, ∑ t ∈ range a, ∑ s ∈ range a, ∑ s' ∈ range a, f m t s s' := by
  calc ∑ t ∈ range a, ∑ s ∈ range a, ∑ s' ∈ range a, ∑ m ∈ range b, f m t s s' =
      ∑ t ∈ range a, ∑ s ∈ range a, ∑ m ∈ range b, ∑ s' ∈ range a, f m t s s' := sum_congr rfl fun _ _ => sum_congr rfl fun _ _ => sum_comm
    _ = ∑ t ∈ range a, ∑ m ∈ range b, ∑ s ∈ range a, ∑ s' ∈ range a, f m t s s' := sum_congr rfl fun _ _ => sum_comm
    _ = _ := sum_comm

theorem left_sum {L : ℕ → Matrix (Fin D) (Fin D) ℂ} {G : ℕ → ℕ → Matrix (Fin D) (Fin D) ℂ}
    (hL : ∀ m, L m = ∑ s ∈ range d, ∑ s' ∈ range d, W0.v 0 m s s' • G s s') (t' : ℕ) (Y : ℕ → Matrix (Fin D) (Fin D) ℂ) :
    ∑ t ∈ range d, ∑ s ∈ range d, ∑ s' ∈ range d, inter W0 W1 s t s' t' • (G s s' * Y t) =
      ∑ m ∈ range W0.r, ∑ t ∈ range d, W1.v m 0 t t' • (L m * Y t) := by
  simp only [inter, sum_smul]
  rw [pull]
  refine sum_congr rfl fun m _ => sum_congr rfl fun t _ => ?_
  simp only [hL, Matrix.sum_mul, smul_sum, Matrix.smul_mul, smul_smul, mul_comm]

theorem right_sum {R : ℕ → Matrix (Fin D) (Fin D) ℂ} {G : ℕ → ℕ → Matrix (Fin D) (Fin D) ℂ}
    (hR : ∀ m, R m = ∑ s ∈ range d, ∑ s' ∈ range d, W1.v m 0 s s' • G s s') (t' : ℕ) (Y : ℕ → Matrix (Fin D) (Fin D) ℂ) :
    ∑ t ∈ range d, ∑ s ∈ range d, ∑ s' ∈ range d, inter W0 W1 t s t' s' • (Y t * G s s') =
      ∑ m ∈ range W0.r, ∑ t ∈ range d, W0.v 0 m t t' • (Y t * R m) := by
  simp only [inter, sum_smul]
  rw [pull]
  refine sum_congr rfl fun m _ => sum_congr rfl fun t _ => ?_
  simp only [hR, Matrix.mul_sum, smul_sum, Matrix.mul_smul, smul_smul]

/-- The four terms as matrices. -/
theorem product_mat (hA : Sq D d A) (hB : Sq D d B) (hX : Sq D d X) (hW : Pair d W0 W1) (hl1 : Hl.r = D) (hl2 : Hl.c = D) (hr1 : Hr.r = D)
    (hr2 : Hr.c = D) : ∃ Y, liebLinigerHAproduct Hl W0 W1 Hr A X B = .ok Y ∧ Sq D d Y ∧ ∀ t', slice D Y t' =
      (ofMat D Hl)ᵀ * slice D X t' + slice D X t' * ofMat D Hr +
        ∑ t ∈ range d, ∑ s ∈ range d, ∑ s' ∈ range d, inter W0 W1 s t s' t' • ((slice D A s')ᴴ * slice D A s * slice D X t) +
        ∑ t ∈ range d, ∑ s ∈ range d, ∑ s' ∈ range d, inter W0 W1 t s t' s' • (slice D X t * (slice D B s * (slice D B s')ᴴ)) := by
  obtain ⟨w1, w2, w3, w4, w5, w6, w7⟩ := hW
  obtain ⟨x1, x2, x3⟩ := hX
  obtain ⟨L, l1, l2, l3, l4, l5⟩ := initR hA hA w1 w4 w5
  obtain ⟨R, r1, r2, r3, r4, r5⟩ := initL hB hB w2 w6 w7
  rw [liebLinigerHAproduct, if_neg (by omega), if_neg (by omega)]
  simp only [x1, l1, r1]
  rw [leftPair, if_pos ⟨by omega, by omega, by omega⟩, if_neg (by omega)]
  simp only
  rw [rightPair, if_pos ⟨by omega, by omega, by omega⟩, if_neg (by omega)]
  simp only
  rw [addTen, if_pos ⟨by simp only; omega, by simp only; omega, rfl⟩]
  simp only
  rw [addTen, if_pos ⟨by simp only; omega, by simp only, by simp only; omega⟩]
  simp only
  rw [addTen, if_pos ⟨by simp only; omega, by simp only; omega, by simp only; omega⟩]
  refine ⟨_, rfl, ⟨hl2, x2, x3⟩, fun t' => ?_⟩
  rw [left_sum l5 t' fun t => slice D X t, right_sum r5 t' fun t => slice D X t]
  ext i j
  simp only [Matrix.add_apply, Matrix.sum_apply, Matrix.smul_apply, Matrix.mul_apply, transpose_apply, slice, envM, ofMat, smul_eq_mul]
  congr 1
  · congr 1
    · congr 1
      · rw [hl1, sum_range]
      · rw [x2, sum_range]
    · rw [l4, l2, x3]
      refine sum_congr rfl fun m _ => sum_congr rfl fun s _ => ?_
      rw [sum_range, mul_comm]
  · rw [r4, r2, x3, ← w3]
    refine sum_congr rfl fun m _ => sum_congr rfl fun s _ => ?_
    rw [sum_range, mul_comm]

theorem trace_pair {ι : Type} [Fintype ι] [DecidableEq ι] (Z : Matrix ι ι ℂ) (c : ℕ → ℕ → ℕ → ℂ) (F : ℕ → ℕ → ℕ → Matrix ι ι ℂ) :
    trace (Z * ∑ t ∈ range d, ∑ s ∈ range d, ∑ s' ∈ range d, c t s s' • F t s s') =
      ∑ t ∈ range d, ∑ s ∈ range d, ∑ s' ∈ range d, c t s s' * trace (Z * F t s s') := by
  simp only [Matrix.mul_sum, trace_sum, Matrix.mul_smul, trace_smul, smul_eq_mul]

theorem elem_core (Hl Hr : Matrix (Fin D) (Fin D) ℂ) (h : ℕ → ℕ → ℕ → ℕ → ℂ) (A B X Y Z : ℕ → Matrix (Fin D) (Fin D) ℂ) (hY : ∀ t', Y t' = Hlᵀ * X t' + X t' * Hr +
        ∑ t ∈ range d, ∑ s ∈ range d, ∑ s' ∈ range d, h s t s' t' • ((A s')ᴴ * A s * X t) +
        ∑ t ∈ range d, ∑ s ∈ range d, ∑ s' ∈ range d, h t s t' s' • (X t * (B s * (B s')ᴴ))) :
    ∑ t ∈ range d, trace ((Z t)ᴴ * Y t) = element D d h Hl Hr A B Z X := by
  unfold element
  rw [← sum_add_distrib, ← sum_add_distrib, ← sum_add_distrib]
  refine sum_congr rfl fun t' _ => ?_
  have p1 := trace_pair (d := d) (Z t')ᴴ (fun t s s' => h s t s' t') fun t s s' => (A s')ᴴ * A s * X t
  have p2 := trace_pair (d := d) (Z t')ᴴ (fun t s s' => h t s t' s') fun t s s' => X t * (B s * (B s')ᴴ)
  rw [hY, Matrix.mul_add, Matrix.mul_add, Matrix.mul_add, trace_add, trace_add, trace_add, p1, p2]
  have q1 : ∀ t s s', trace ((Z t')ᴴ * ((A s')ᴴ * A s * X t)) = trace ((A s' * Z t')ᴴ * (A s * X t)) := by
    intro t s s'
    rw [conjTranspose_mul]
    simp only [Matrix.mul_assoc]
  have q2 : ∀ t s s', trace ((Z t')ᴴ * (X t * (B s * (B s')ᴴ))) = trace ((Z t' * B s')ᴴ * (X t * B s)) := by
    intro t s s'
    rw [conjTranspose_mul, Matrix.mul_assoc (B s')ᴴ, trace_mul_comm (B s')ᴴ]
    simp only [Matrix.mul_assoc]
  simp only [q1, q2]

/-- **C117 (the matrix elements).**  `LiebLinigerHAproduct` returns for every pair of mpo tensors, and the product with any tensor `Z` is the
matrix element of the Hamiltonian: the left and the right part, and the interactions with the two neighbours. -/
theorem C117_element (hA : Sq D d A) (hB : Sq D d B) (hX : Sq D d X) (hW : Pair d W0 W1) (hl1 : Hl.r = D) (hl2 : Hl.c = D) (hr1 : Hr.r = D)
    (hr2 : Hr.c = D) : ∃ Y, liebLinigerHAproduct Hl W0 W1 Hr A X B = .ok Y ∧ Sq D d Y ∧ ∀ Z : Ten ℂ,
      ∑ t ∈ range d, trace ((slice D Z t)ᴴ * slice D Y t) =
        element D d (inter W0 W1) (ofMat D Hl) (ofMat D Hr) (slice D A) (slice D B) (slice D Z) (slice D X) := by
  obtain ⟨Y, h1, h2, h3⟩ := product_mat hA hB hX hW hl1 hl2 hr1 hr2
  exact ⟨Y, h1, h2, fun Z => elem_core _ _ _ _ _ _ _ _ h3⟩

theorem star_trace {ι : Type} [Fintype ι] (M N : Matrix ι ι ℂ) : star (trace (Mᴴ * N)) = trace (Nᴴ * M) := by
  rw [← trace_conjTranspose, conjTranspose_mul, conjTranspose_conjTranspose]

theorem swap_four (f : ℕ → ℕ → ℕ → ℕ → ℂ) : ∑ t' ∈ range d, ∑ t ∈ range d, ∑ s ∈ range d, ∑ s' ∈ range d, f t' t s s' =
    ∑ t' ∈ range d, ∑ t ∈ range d, ∑ s ∈ range d, ∑ s' ∈ range d, f t t' s' s := by
  rw [sum_comm]
  exact sum_congr rfl fun _ _ => sum_congr rfl fun _ _ => sum_comm

theorem herm_core {Hl Hr : Matrix (Fin D) (Fin D) ℂ} {h : ℕ → ℕ → ℕ → ℕ → ℂ} (A B X Z : ℕ → Matrix (Fin D) (Fin D) ℂ) (h1 : Hl.IsHermitian)
    (h2 : Hr.IsHermitian) (hh : ∀ s t s' t', star (h s t s' t') = h s' t' s t) :
    star (element D d h Hl Hr A B Z X) = element D d h Hl Hr A B X Z := by
  have t1 : (Hlᵀ)ᴴ = Hlᵀ := by
    have := congrArg transpose h1.eq
    ext i j
    exact congrFun (congrFun this i) j
  have q1 : ∀ t, trace ((Hlᵀ * X t)ᴴ * Z t) = trace ((X t)ᴴ * (Hlᵀ * Z t)) := by
    intro t
    rw [conjTranspose_mul, t1, Matrix.mul_assoc]
  have q2 : ∀ t, trace ((X t * Hr)ᴴ * Z t) = trace ((X t)ᴴ * (Z t * Hr)) := by
    intro t
    rw [conjTranspose_mul, h2.eq, Matrix.mul_assoc, trace_mul_comm Hr, Matrix.mul_assoc]
  unfold element
  simp only [star_add, star_sum, star_mul', hh, star_trace, q1, q2]
  rw [swap_four fun t' t s s' => h s' t' s t * trace ((A s * X t)ᴴ * (A s' * Z t')),
    swap_four fun t' t s s' => h t' s' t s * trace ((X t * B s)ᴴ * (Z t' * B s'))]

/-- **C117 (Hermitian).**  The effective Hamiltonian is Hermitian if the interaction and the blocks are. -/
theorem C117_hermitian (hA : Sq D d A) (hB : Sq D d B) (hX : Sq D d X) {Z : Ten ℂ} (hZ : Sq D d Z) (hW : Pair d W0 W1) (hl1 : Hl.r = D)
    (hl2 : Hl.c = D) (hr1 : Hr.r = D) (hr2 : Hr.c = D) (h1 : (ofMat D Hl).IsHermitian) (h2 : (ofMat D Hr).IsHermitian)
    (h : ∀ s t s' t', star (inter W0 W1 s t s' t') = inter W0 W1 s' t' s t) :
    ∃ Y Y', liebLinigerHAproduct Hl W0 W1 Hr A X B = .ok Y ∧ liebLinigerHAproduct Hl W0 W1 Hr A Z B = .ok Y' ∧
      ∑ t ∈ range d, trace ((slice D Z t)ᴴ * slice D Y t) = ∑ t ∈ range d, trace ((slice D Y' t)ᴴ * slice D X t) := by
  obtain ⟨Y, y1, -, y3⟩ := C117_element hA hB hX hW hl1 hl2 hr1 hr2
  obtain ⟨Y', z1, -, z3⟩ := C117_element hA hB hZ hW hl1 hl2 hr1 hr2
  refine ⟨Y, Y', y1, z1, ?_⟩
  have e : ∑ t ∈ range d, trace ((slice D Y' t)ᴴ * slice D X t) = star (∑ t ∈ range d, trace ((slice D X t)ᴴ * slice D Y' t)) := by
    rw [star_sum]
    exact sum_congr rfl fun t _ => (star_trace _ _).symm
  rw [e, y3, z3]
  exact (herm_core _ _ _ _ h1 h2 h).symm

theorem kTerm_ok {k : Mat ℂ} (hX : Sq D d X) (hV : Sq D d V) (h1 : k.r = D) (h2 : k.c = D) :
    ∃ K, kTerm D k X V = .ok K ∧ K.r = D ∧ K.c = D ∧ ofMat D K = ∑ t ∈ range d, (slice D V t)ᴴ * ((ofMat D k)ᵀ * slice D X t) := by
  obtain ⟨x1, x2, x3⟩ := hX
  obtain ⟨v1, v2, v3⟩ := hV
  rw [kTerm, flat, if_pos (by rw [h1, h2])]
  simp only [generalizedMatrixVectorProduct, mixedTransferOperator, mixedArr, reshape2, x1, v1, x2, v2, x3, v3, if_true, flat, h2]
  refine ⟨_, rfl, rfl, rfl, ?_⟩
  ext i j
  have hD : 0 < D := by have := i.2; omega
  have idx : ∀ a b : ℕ, b < D → (a * D + b) / D = a ∧ (a * D + b) % D = b := by
    intro a b hb
    exact ⟨by rw [Nat.mul_comm, Nat.mul_add_div hD, Nat.div_eq_of_lt hb, Nat.add_zero], by rw [Nat.mul_comm, Nat.mul_add_mod, Nat.mod_eq_of_lt hb]⟩
  simp only [ofMat, Matrix.sum_apply, Matrix.mul_apply, conjTranspose_apply, transpose_apply, slice, (idx j i i.2).1, (idx j i i.2).2]
  have e : ∀ a ∈ range D, ∀ b ∈ range D, ∀ s ∈ range d, k.v ((a * D + b) / D) ((a * D + b) % D) * X.v a j s * star (V.v b i s) =
      k.v a b * X.v a j s * star (V.v b i s) := fun a _ b hb s _ => by rw [(idx a b (mem_range.1 hb)).1, (idx a b (mem_range.1 hb)).2]
  rw [sum_congr rfl fun a ha => sum_congr rfl fun b hb => sum_congr rfl fun s hs => e a ha b hb s hs]
  have e2 : ∑ a ∈ range D, ∑ b ∈ range D, ∑ s ∈ range d, k.v a b * X.v a j s * star (V.v b i s) =
      ∑ s ∈ range d, ∑ b ∈ range D, ∑ a ∈ range D, k.v a b * X.v a j s * star (V.v b i s) := by
    rw [sum_comm, sum_congr rfl fun b _ => sum_comm, sum_comm]
  rw [e2]
  refine sum_congr rfl fun s _ => ?_
  rw [sum_range]
  refine sum_congr rfl fun b _ => ?_
  rw [sum_range, mul_sum]
  exact sum_congr rfl fun a _ => by ring

theorem addLayer_ok {L : Env ℂ} (hX : Sq D d X) (hV : Sq D d V) (hW : Pair d W0 W1) (l2 : L.u = D) (l3 : L.w = D) (l4 : L.m = W0.r) :
    ∃ E, addLayerR L X W1 V = .ok E ∧ E.u = D ∧ E.w = D ∧ E.m = 1 ∧
      envM D E 0 = ∑ t' ∈ range d, (slice D V t')ᴴ * ∑ m ∈ range W0.r, ∑ t ∈ range d, W1.v m 0 t t' • (envM D L m * slice D X t) := by
  obtain ⟨x1, x2, x3⟩ := hX
  obtain ⟨v1, v2, v3⟩ := hV
  obtain ⟨w1, w2, w3, w4, w5, w6, w7⟩ := hW
  refine ⟨_, if_pos ⟨by omega, by omega, by omega, by omega, by omega⟩, x2, v2, w2, ?_⟩
  ext i j
  simp only [envM, Matrix.sum_apply, Matrix.mul_apply, Matrix.smul_apply, conjTranspose_apply, slice, smul_eq_mul, l2, l3, l4, x3, v3]
  have e : ∀ f : ℕ → ℕ → ℕ → ℕ → ℕ → ℂ, ∑ a ∈ range D, ∑ b ∈ range D, ∑ m ∈ range W0.r, ∑ s ∈ range d, ∑ s' ∈ range d, f a b m s s' =
      ∑ s' ∈ range d, ∑ b ∈ range D, ∑ m ∈ range W0.r, ∑ s ∈ range d, ∑ a ∈ range D, f a b m s s' := by
    intro f
    calc ∑ a ∈ range D, ∑ b ∈ range D, ∑ m ∈ range W0.r, ∑ s ∈ range d, ∑ s' ∈ range d, f a b m s s' =
        ∑ b ∈ range D, ∑ a ∈ range D, ∑ m ∈ range W0.r, ∑ s ∈ range d, ∑ s' ∈ range d, f a b m s s' := sum_comm
      _ = ∑ b ∈ range D, ∑ m ∈ range W0.r, ∑ a ∈ range D, ∑ s ∈ range d, ∑ s' ∈ range d, f a b m s s' := sum_congr rfl fun _ _ => sum_comm
      _ = ∑ b ∈ range D, ∑ m ∈ range W0.r, ∑ s ∈ range d, ∑ a ∈ range D, ∑ s' ∈ range d, f a b m s s' :=
        sum_congr rfl fun _ _ => sum_congr rfl fun _ _ => sum_comm
      _ = ∑ b ∈ range D, ∑ m ∈ range W0.r, ∑ s ∈ range d, ∑ s' ∈ range d, ∑ a ∈ range D, f a b m s s' :=
        sum_congr rfl fun _ _ => sum_congr rfl fun _ _ => sum_congr rfl fun _ _ => sum_comm
      _ = ∑ b ∈ range D, ∑ m ∈ range W0.r, ∑ s' ∈ range d, ∑ s ∈ range d, ∑ a ∈ range D, f a b m s s' :=
        sum_congr rfl fun _ _ => sum_congr rfl fun _ _ => sum_comm
      _ = ∑ b ∈ range D, ∑ s' ∈ range d, ∑ m ∈ range W0.r, ∑ s ∈ range d, ∑ a ∈ range D, f a b m s s' := sum_congr rfl fun _ _ => sum_comm
      _ = _ := sum_comm
  rw [e]
  refine sum_congr rfl fun s' _ => ?_
  rw [sum_range]
  refine sum_congr rfl fun b _ => ?_
  rw [mul_sum]
  refine sum_congr rfl fun m _ => ?_
  rw [mul_sum]
  refine sum_congr rfl fun s _ => ?_
  rw [sum_range, mul_sum, mul_sum]
  exact sum_congr rfl fun a _ => by ring

theorem pair_ok {L R : Env ℂ} {n : ℕ} (l2 : L.u = D) (l3 : L.w = D) (l4 : L.m = n) (r2 : R.u = D) (r3 : R.w = D) (r4 : R.m = n) :
    ∃ P, pairEnv L R = .ok P ∧ P.r = D ∧ P.c = D ∧ ofMat D P = ∑ m ∈ range n, envM D L m * (envM D R m)ᵀ := by
  refine ⟨_, if_pos ⟨by omega, by omega⟩, l3, r3, ?_⟩
  ext i j
  simp only [ofMat, Matrix.sum_apply, Matrix.mul_apply, envM, transpose_apply]
  rw [sum_comm, l4, l2]
  exact sum_congr rfl fun m _ => by rw [sum_range]

theorem first_term {L R : ℕ → Matrix (Fin D) (Fin D) ℂ} {V X : ℕ → Matrix (Fin D) (Fin D) ℂ} {G : ℕ → ℕ → Matrix (Fin D) (Fin D) ℂ}
    (hL : ∀ m, L m = ∑ s ∈ range d, ∑ s' ∈ range d, W0.v 0 m s s' • ((V s')ᴴ * X s))
    (hR : ∀ m, R m = ∑ s ∈ range d, ∑ s' ∈ range d, W1.v m 0 s s' • G s s') :
    ∑ m ∈ range W0.r, L m * R m =
      ∑ t' ∈ range d, (V t')ᴴ * ∑ t ∈ range d, ∑ s ∈ range d, ∑ s' ∈ range d, inter W0 W1 t s t' s' • (X t * G s s') := by
  have e : ∀ t', ∑ t ∈ range d, ∑ s ∈ range d, ∑ s' ∈ range d, inter W0 W1 t s t' s' • (X t * G s s') =
      ∑ m ∈ range W0.r, ∑ t ∈ range d, W0.v 0 m t t' • (X t * R m) := fun t' => right_sum hR t' X
  simp only [e, Matrix.mul_sum]
  rw [sum_comm]
  refine sum_congr rfl fun m _ => ?_
  rw [hL, Matrix.sum_mul, sum_comm]
  refine sum_congr rfl fun t _ => ?_
  rw [Matrix.sum_mul]
  refine sum_congr rfl fun t' _ => ?_
  rw [Matrix.smul_mul, Matrix.mul_smul, Matrix.mul_assoc]

/-- **C117 (the projection).**  `tangentSpaceHAproduct` is the projection of `LiebLinigerHAproduct` to the tangent space, if `VL` is orthogonal
to the centre; the right block drops out. -/
theorem C117_tangent (hA : Sq D d A) (hB : Sq D d B) (hX : Sq D d X) (hV : Sq D d V) (hW : Pair d W0 W1) (hl1 : Hl.r = D) (hl2 : Hl.c = D)
    (hr1 : Hr.r = D) (hr2 : Hr.c = D) (ho : ∑ t ∈ range d, (slice D V t)ᴴ * slice D X t = 0) :
    ∃ Y M, liebLinigerHAproduct Hl W0 W1 Hr A X B = .ok Y ∧ tangentSpaceHAproduct Hl A B X V W0 W1 = .ok M ∧ M.r = D ∧ M.c = D ∧
      ofMat D M = ∑ t ∈ range d, (slice D V t)ᴴ * slice D Y t := by
  obtain ⟨Y, h1, -, h3⟩ := product_mat hA hB hX hW hl1 hl2 hr1 hr2
  have hW' := hW
  obtain ⟨w1, w2, w3, w4, w5, w6, w7⟩ := hW'
  obtain ⟨L, l1, l2, l3, l4, l5⟩ := initR hX hV w1 w4 w5
  obtain ⟨L', m1, m2, m3, m4, m5⟩ := initR hA hA w1 w4 w5
  obtain ⟨R, r1, r2, r3, r4, r5⟩ := initL hB hB w2 w6 w7
  obtain ⟨K, k1, k2, k3, k4⟩ := kTerm_ok hX hV hl1 hl2
  obtain ⟨E, e1, e2, e3, e4, e5⟩ := addLayer_ok hX hV hW m2 m3 m4
  obtain ⟨P, p1, p2, p3, p4⟩ := pair_ok l2 l3 l4 r2 r3 (r4.trans w3.symm)
  have hM : tangentSpaceHAproduct Hl A B X V W0 W1 = .ok ⟨P.r, P.c, fun i j => P.v i j + E.v j i 0 + K.v i j⟩ := by
    rw [tangentSpaceHAproduct]
    simp only [hA.1, l1, r1, p1, m1, e1, k1]
    rw [if_neg (by omega), addMat, if_pos ⟨p2.trans e3.symm, p3.trans e2.symm⟩]
    simp only
    rw [addMat, if_pos ⟨p2.trans k2.symm, p3.trans k3.symm⟩]
  refine ⟨Y, _, h1, hM, p2, p3, ?_⟩
  have hs : ofMat D (⟨P.r, P.c, fun i j => P.v i j + E.v j i 0 + K.v i j⟩ : Mat ℂ) = ofMat D P + envM D E 0 + ofMat D K := rfl
  rw [hs]
  have e6 : ∑ t' ∈ range d, (slice D V t')ᴴ * (slice D X t' * ofMat D Hr) = 0 := by
    simp only [← Matrix.mul_assoc]
    rw [← Matrix.sum_mul, ho, Matrix.zero_mul]
  have e7 : ∀ t', ∑ m ∈ range W0.r, ∑ t ∈ range d, W1.v m 0 t t' • (envM D L' m * slice D X t) =
      ∑ t ∈ range d, ∑ s ∈ range d, ∑ s' ∈ range d, inter W0 W1 s t s' t' • ((slice D A s')ᴴ * slice D A s * slice D X t) :=
    fun t' => (left_sum m5 t' fun t => slice D X t).symm
  rw [sum_congr rfl fun t' _ => congrArg (fun M => (slice D V t')ᴴ * M) (h3 t')]
  rw [k4, e5, p4, first_term l5 r5, sum_congr rfl fun t' _ => congrArg (fun M => (slice D V t')ᴴ * M) (e7 t')]
  simp only [Matrix.mul_add, sum_add_distrib]
  rw [e6, add_zero]
  abel

/-- **C117 (violated for three and more components).**  The complement of a left-orthonormal tensor with `d` components has `D·(d-1)` columns;
for `d≥3` they do not fit and the function raises. -/
theorem C117_violated_wide (hA : Sq D d A) (hB : Sq D d B) (hX : Sq D d X) (hV : V.l = D ∧ V.r = D * (d - 1) ∧ V.d = d) (hW : Pair d W0 W1)
    (hl1 : Hl.r = D) (hl2 : Hl.c = D) (hD : 0 < D) (hd : 3 ≤ d) : tangentSpaceHAproduct Hl A B X V W0 W1 = .error .value := by
  obtain ⟨w1, w2, w3, w4, w5, w6, w7⟩ := hW
  obtain ⟨L', m1, m2, m3, m4, m5⟩ := initR hA hA w1 w4 w5
  obtain ⟨R, r1, r2, r3, r4, r5⟩ := initL hB hB w2 w6 w7
  obtain ⟨a1, a2, a3⟩ := hA
  obtain ⟨x1, x2, x3⟩ := hX
  obtain ⟨v1, v2, v3⟩ := hV
  have hne : ¬ V.r * X.r = D * D := by
    rw [v2, x2]
    intro h
    have := Nat.eq_of_mul_eq_mul_right hD h
    have h2 : D * 2 ≤ D * (d - 1) := Nat.mul_le_mul_left _ (by omega)
    omega
  have hk : kTerm D Hl X V = .error .value := by
    rw [kTerm, flat, if_pos (by rw [hl1, hl2])]
    simp only [generalizedMatrixVectorProduct, mixedTransferOperator, mixedArr, reshape2, x1, v1, if_true, x3, v3]
    rw [flat, if_pos (mul_comm _ _)]
    simp only [if_neg hne]
  rw [tangentSpaceHAproduct, initializeLayerR, if_pos ⟨by rw [a1, x1]; rfl, by rw [a1, v1]; rfl, by omega, by omega, w1⟩]
  simp only [a1, r1, m1]
  rw [pairEnv, if_pos ⟨by simp only; omega, by simp only; omega⟩]
  simp only
  rw [addLayerR, if_pos ⟨by omega, by omega, by omega, by omega, by omega⟩]
  simp only [hk]
  rw [if_neg (by omega)]

/-! ## Witnesses -/

/-- The Ising interaction of two spins. -/
def zW : Mpo ℂ := ⟨1, 1, 2, 2, fun _ _ s s' => if s = s' then (-1) ^ s else 0⟩
/-- The first component and the second component. -/
def up : Ten ℂ := ⟨2, 2, 2, fun i j s => if i = j ∧ s = 0 then 1 else 0⟩
def down : Ten ℂ := ⟨2, 2, 2, fun i j s => if i = j ∧ s = 1 then 1 else 0⟩
/-- A Hermitian block. -/
def blk : Mat ℂ := ⟨2, 2, fun i j => if i = j then i else if i < j then Complex.I else -Complex.I⟩

theorem blk_herm : (ofMat 2 blk).IsHermitian := by
  ext i j
  fin_cases i <;> fin_cases j <;> simp [ofMat, blk]

theorem zW_herm (s t s' t' : ℕ) : star (inter zW zW s t s' t') = inter zW zW s' t' s t := by
  simp only [inter, zW, sum_range_one]
  by_cases h1 : s = s' <;> by_cases h2 : t = t'
  · subst h1 h2; simp
  · have h2' : ¬ t' = t := fun h => h2 h.symm
    simp [h2, h2']
  · have h1' : ¬ s' = s := fun h => h1 h.symm
    simp [h1, h1']
  · have h1' : ¬ s' = s := fun h => h1 h.symm
    simp [h1, h1']

example : ∃ Y, liebLinigerHAproduct blk zW zW blk up up down = .ok Y ∧ Sq 2 2 Y ∧ ∀ Z : Ten ℂ,
    ∑ t ∈ range 2, trace ((slice 2 Z t)ᴴ * slice 2 Y t) =
      element 2 2 (inter zW zW) (ofMat 2 blk) (ofMat 2 blk) (slice 2 up) (slice 2 down) (slice 2 Z) (slice 2 up) :=
  C117_element ⟨rfl, rfl, rfl⟩ ⟨rfl, rfl, rfl⟩ ⟨rfl, rfl, rfl⟩ ⟨rfl, rfl, rfl, rfl, rfl, rfl, rfl⟩ rfl rfl rfl rfl

example : ∃ Y Y', liebLinigerHAproduct blk zW zW blk up up down = .ok Y ∧ liebLinigerHAproduct blk zW zW blk up down down = .ok Y' ∧
    ∑ t ∈ range 2, trace ((slice 2 down t)ᴴ * slice 2 Y t) = ∑ t ∈ range 2, trace ((slice 2 Y' t)ᴴ * slice 2 up t) :=
  C117_hermitian (D := 2) (d := 2) (A := up) (B := down) (X := up) (Z := down) (W0 := zW) (W1 := zW) (Hl := blk) (Hr := blk) ⟨rfl, rfl, rfl⟩ ⟨rfl, rfl, rfl⟩ ⟨rfl, rfl, rfl⟩ ⟨rfl, rfl, rfl⟩ ⟨rfl, rfl, rfl, rfl, rfl, rfl, rfl⟩ rfl rfl rfl rfl blk_herm blk_herm zW_herm

example : ∃ Y M, liebLinigerHAproduct blk zW zW blk up up down = .ok Y ∧ tangentSpaceHAproduct blk up down up down zW zW = .ok M ∧ M.r = 2 ∧ M.c = 2 ∧
    ofMat 2 M = ∑ t ∈ range 2, (slice 2 down t)ᴴ * slice 2 Y t :=
  C117_tangent ⟨rfl, rfl, rfl⟩ ⟨rfl, rfl, rfl⟩ ⟨rfl, rfl, rfl⟩ ⟨rfl, rfl, rfl⟩ ⟨rfl, rfl, rfl, rfl, rfl, rfl, rfl⟩ rfl rfl rfl rfl (by
    rw [sum_range_succ, sum_range_one]
    ext i j
    simp [slice, up, down, Matrix.mul_apply])

example : tangentSpaceHAproduct blk ⟨2, 2, 3, up.v⟩ ⟨2, 2, 3, down.v⟩ ⟨2, 2, 3, up.v⟩ ⟨2, 4, 3, fun i j s => if j = 2 * (s - 1) + i ∧ 1 ≤ s then 1 else 0⟩
    ⟨1, 1, 3, 3, zW.v⟩ ⟨1, 1, 3, 3, zW.v⟩ = .error .value :=
  C117_violated_wide (D := 2) (d := 3) ⟨rfl, rfl, rfl⟩ ⟨rfl, rfl, rfl⟩ ⟨rfl, rfl, rfl⟩ ⟨rfl, rfl, rfl⟩ ⟨rfl, rfl, rfl, rfl, rfl, rfl, rfl⟩ rfl rfl two_pos le_rfl

end

end PyTeN.PairH
