import Verif.Engine.TdvpInfSpec

/-! # Spec for `ExHAproductSingle`: matrix elements of a nearest-neighbour Hamiltonian between two tangent vectors of a momentum -/

namespace PyTeN.Excite
open Finset Matrix Filter Topology TdvpInf
noncomputable section

variable {D : ℕ}

/-- Spec: a left block extended by two sites with the operator `h` between them (`h s1 s2 t1 t2 = ⟨t1 t2|h|s1 s2⟩`), upper tensors `u1`, `u2`, lower tensors
`l1`, `l2`. -/
def capG (d : ℕ) (h : ℕ → ℕ → ℕ → ℕ → ℂ) (u1 u2 l1 l2 : ℕ → Matrix (Fin D) (Fin D) ℂ) (Y : Matrix (Fin D) (Fin D) ℂ) : Matrix (Fin D) (Fin D) ℂ :=
  ∑ s1 ∈ range d, ∑ s2 ∈ range d, ∑ t1 ∈ range d, ∑ t2 ∈ range d, h s1 s2 t1 t2 • ((l1 t1 * l2 t2)ᴴ * Y * (u1 s1 * u2 s2))

/-- Spec: the first `j` sites of a chain with the tensors `U` (ket) and `L` (bra). -/
def prop (d : ℕ) (U L : ℕ → ℕ → Matrix (Fin D) (Fin D) ℂ) : ℕ → Matrix (Fin D) (Fin D) ℂ
  | 0 => 1
  | j + 1 => cap d (U j) (L j) (prop d U L j)

/-- Spec: the same with the sum of `h` over all pairs of neighbours among the first `j` sites. -/
def ham (d : ℕ) (h : ℕ → ℕ → ℕ → ℕ → ℂ) (U L : ℕ → ℕ → Matrix (Fin D) (Fin D) ℂ) : ℕ → Matrix (Fin D) (Fin D) ℂ
  | 0 => 0
  | 1 => 0
  | j + 2 => cap d (U (j + 1)) (L (j + 1)) (ham d h U L (j + 1)) + capG d h (U j) (U (j + 1)) (L j) (L (j + 1)) (prop d U L j)

theorem ham_succ (d : ℕ) (h : ℕ → ℕ → ℕ → ℕ → ℂ) (U L : ℕ → ℕ → Matrix (Fin D) (Fin D) ℂ) (j : ℕ) :
    ham d h U L (j + 2) = cap d (U (j + 1)) (L (j + 1)) (ham d h U L (j + 1)) + capG d h (U j) (U (j + 1)) (L j) (L (j + 1)) (prop d U L j) := rfl

/-- Spec: the tensor `A` at all sites but `n`, and `B` there. -/
def place (A B : ℕ → Matrix (Fin D) (Fin D) ℂ) (n : ℕ) : ℕ → ℕ → Matrix (Fin D) (Fin D) ℂ := fun j => if j = n then B else A

/-- Spec: `⟨A…A C A…A|H|∑ₙ z^(n-p) A…A B A…A⟩` with `C` at the site `p` of a chain of `p+1+q` sites, the left boundary `1` and the right boundary `r`. -/
def elementK (d : ℕ) (h : ℕ → ℕ → ℕ → ℕ → ℂ) (A : ℕ → Matrix (Fin D) (Fin D) ℂ) (r : Matrix (Fin D) (Fin D) ℂ) (z : ℂ) (p q : ℕ) (C B : ℕ → Matrix (Fin D) (Fin D) ℂ) : ℂ :=
  (z ^ p)⁻¹ * ∑ n ∈ range (p + 1 + q), z ^ n * (ham d h (place A B n) (place A C p) (p + 1 + q) * r).trace

/-- A right block extended by one site. -/
def cup (d : ℕ) (A l : ℕ → Matrix (Fin D) (Fin D) ℂ) (Y : Matrix (Fin D) (Fin D) ℂ) : Matrix (Fin D) (Fin D) ℂ :=
  ∑ s ∈ range d, A s * Y * (l s)ᴴ

/-- A right block extended by two sites with the operator `h`. -/
def cupG (d : ℕ) (h : ℕ → ℕ → ℕ → ℕ → ℂ) (u1 u2 l1 l2 : ℕ → Matrix (Fin D) (Fin D) ℂ) (Y : Matrix (Fin D) (Fin D) ℂ) : Matrix (Fin D) (Fin D) ℂ :=
  ∑ s1 ∈ range d, ∑ s2 ∈ range d, ∑ t1 ∈ range d, ∑ t2 ∈ range d, h s1 s2 t1 t2 • ((u1 s1 * u2 s2) * Y * (l1 t1 * l2 t2)ᴴ)

variable {d : ℕ} {h : ℕ → ℕ → ℕ → ℕ → ℂ} {A B C l u1 u2 l1 l2 : ℕ → Matrix (Fin D) (Fin D) ℂ} {U L : ℕ → ℕ → Matrix (Fin D) (Fin D) ℂ}
  {r K KR s7 xs Y Z : Matrix (Fin D) (Fin D) ℂ} {z : ℂ}

theorem capG_add : capG d h u1 u2 l1 l2 (Y + Z) = capG d h u1 u2 l1 l2 Y + capG d h u1 u2 l1 l2 Z := by
  simp only [capG, Matrix.mul_add, Matrix.add_mul, smul_add, sum_add_distrib]

theorem capG_smul (c : ℂ) : capG d h u1 u2 l1 l2 (c • Y) = c • capG d h u1 u2 l1 l2 Y := by
  simp only [capG, Matrix.mul_smul, Matrix.smul_mul, smul_sum, smul_comm c]

theorem capG_zero : capG d h u1 u2 l1 l2 0 = 0 := by simp [capG]

/-- `cap` as a linear map. -/
def capL (d : ℕ) (A l : ℕ → Matrix (Fin D) (Fin D) ℂ) : Matrix (Fin D) (Fin D) ℂ →ₗ[ℂ] Matrix (Fin D) (Fin D) ℂ where
  toFun := cap d A l
  map_add' _ _ := cap_add
  map_smul' c _ := cap_smul c

def capGL (d : ℕ) (h : ℕ → ℕ → ℕ → ℕ → ℂ) (u1 u2 l1 l2 : ℕ → Matrix (Fin D) (Fin D) ℂ) : Matrix (Fin D) (Fin D) ℂ →ₗ[ℂ] Matrix (Fin D) (Fin D) ℂ where
  toFun := capG d h u1 u2 l1 l2
  map_add' _ _ := capG_add
  map_smul' c _ := capG_smul c

theorem cap_sum {ι : Type*} (S : Finset ι) (f : ι → Matrix (Fin D) (Fin D) ℂ) : cap d A l (∑ i ∈ S, f i) = ∑ i ∈ S, cap d A l (f i) := map_sum (capL d A l) f S

theorem capG_sum {ι : Type*} (S : Finset ι) (f : ι → Matrix (Fin D) (Fin D) ℂ) :
    capG d h u1 u2 l1 l2 (∑ i ∈ S, f i) = ∑ i ∈ S, capG d h u1 u2 l1 l2 (f i) := map_sum (capGL d h u1 u2 l1 l2) f S

theorem trace_cup : (cap d A l Y * Z).trace = (Y * cup d A l Z).trace := by
  simp only [cap, cup, Finset.sum_mul, Finset.mul_sum, Matrix.trace_sum]
  refine sum_congr rfl fun s _ => ?_
  rw [Matrix.mul_assoc, Matrix.mul_assoc, Matrix.trace_mul_comm, Matrix.mul_assoc, Matrix.mul_assoc]

theorem trace_cupG : (capG d h u1 u2 l1 l2 Y * Z).trace = (Y * cupG d h u1 u2 l1 l2 Z).trace := by
  simp only [capG, cupG, Finset.sum_mul, Finset.mul_sum, Matrix.trace_sum, Matrix.smul_mul, Matrix.mul_smul, Matrix.trace_smul]
  refine sum_congr rfl fun s1 _ => sum_congr rfl fun s2 _ => sum_congr rfl fun t1 _ => sum_congr rfl fun t2 _ => ?_
  congr 1
  rw [Matrix.mul_assoc, Matrix.mul_assoc, Matrix.trace_mul_comm, Matrix.mul_assoc, Matrix.mul_assoc]

theorem trace_cup_iter (n : ℕ) : ((cap d A l)^[n] Y * Z).trace = (Y * (cup d A l)^[n] Z).trace := by
  induction n generalizing Y with
  | zero => rfl
  | succ n ih => rw [Function.iterate_succ_apply, ih, Function.iterate_succ_apply', trace_cup]

/-! ## Recursions in the length of the chain -/

theorem prop_congr {U' : ℕ → ℕ → Matrix (Fin D) (Fin D) ℂ} (n : ℕ) (hU : ∀ j < n, U j = U' j) : prop d U L n = prop d U' L n := by
  induction n with
  | zero => rfl
  | succ n ih => rw [prop, prop, ih fun j hj => hU j (by omega), hU n (by omega)]

theorem ham_congr {U' : ℕ → ℕ → Matrix (Fin D) (Fin D) ℂ} (n : ℕ) (hU : ∀ j < n, U j = U' j) : ham d h U L n = ham d h U' L n := by
  induction n with
  | zero => rfl
  | succ n ih =>
    match n with
    | 0 => rfl
    | n + 1 => rw [ham, ham, ih fun j hj => hU j (by omega), hU n (by omega), hU (n + 1) (by omega), prop_congr n fun j hj => hU j (by omega)]

theorem prop_congrL {L' : ℕ → ℕ → Matrix (Fin D) (Fin D) ℂ} (n : ℕ) (hU : ∀ j < n, L j = L' j) : prop d U L n = prop d U L' n := by
  induction n with
  | zero => rfl
  | succ n ih => rw [prop, prop, ih fun j hj => hU j (by omega), hU n (by omega)]

theorem ham_congrL {L' : ℕ → ℕ → Matrix (Fin D) (Fin D) ℂ} (n : ℕ) (hU : ∀ j < n, L j = L' j) : ham d h U L n = ham d h U L' n := by
  induction n with
  | zero => rfl
  | succ n ih =>
    match n with
    | 0 => rfl
    | n + 1 => rw [ham, ham, ih fun j hj => hU j (by omega), hU n (by omega), hU (n + 1) (by omega), prop_congrL n fun j hj => hU j (by omega)]

/-- The sums over the site of `B`. -/
def propB (d : ℕ) (A B : ℕ → Matrix (Fin D) (Fin D) ℂ) (z : ℂ) (L : ℕ → ℕ → Matrix (Fin D) (Fin D) ℂ) (N : ℕ) : Matrix (Fin D) (Fin D) ℂ :=
  ∑ n ∈ range N, z ^ n • prop d (place A B n) L N

def hamB (d : ℕ) (h : ℕ → ℕ → ℕ → ℕ → ℂ) (A B : ℕ → Matrix (Fin D) (Fin D) ℂ) (z : ℂ) (L : ℕ → ℕ → Matrix (Fin D) (Fin D) ℂ) (N : ℕ) : Matrix (Fin D) (Fin D) ℂ :=
  ∑ n ∈ range N, z ^ n • ham d h (place A B n) L N

theorem place_self (n : ℕ) : place A B n n = B := if_pos rfl

theorem place_ne {n j : ℕ} (hn : j ≠ n) : place A B n j = A := if_neg hn

theorem prop_far {n N : ℕ} (hn : N ≤ n) : prop d (place A B n) L N = prop d (fun _ => A) L N :=
  prop_congr N fun j hj => place_ne (by omega)

theorem ham_far {n N : ℕ} (hn : N ≤ n) : ham d h (place A B n) L N = ham d h (fun _ => A) L N :=
  ham_congr N fun j hj => place_ne (by omega)

theorem propB_succ (N : ℕ) : propB d A B z L (N + 1) = cap d A (L N) (propB d A B z L N) + z ^ N • cap d B (L N) (prop d (fun _ => A) L N) := by
  rw [propB, sum_range_succ, propB, cap_sum]
  congr 1
  · refine sum_congr rfl fun n hn => ?_
    have := mem_range.1 hn
    rw [prop, place_ne (by omega), cap_smul]
  · rw [prop, place_self, prop_far le_rfl]

theorem hamB_aux1 (N : ℕ) : ∑ n ∈ range (N + 2), z ^ n • cap d (place A B n (N + 1)) (L (N + 1)) (ham d h (place A B n) L (N + 1))
      = cap d A (L (N + 1)) (hamB d h A B z L (N + 1)) + z ^ (N + 1) • cap d B (L (N + 1)) (ham d h (fun _ => A) L (N + 1)) := by
  have e : ∀ n ∈ range (N + 1), z ^ n • cap d (place A B n (N + 1)) (L (N + 1)) (ham d h (place A B n) L (N + 1))
      = cap d A (L (N + 1)) (z ^ n • ham d h (place A B n) L (N + 1)) := by
    intro n hn
    have := mem_range.1 hn
    rw [place_ne (by omega), cap_smul]
  rw [sum_range_succ, sum_congr rfl e, ← cap_sum, place_self, ham_far le_rfl, hamB]

theorem hamB_aux2 (N : ℕ) : ∑ n ∈ range (N + 2), z ^ n • capG d h (place A B n N) (place A B n (N + 1)) (L N) (L (N + 1)) (prop d (place A B n) L N)
      = capG d h A A (L N) (L (N + 1)) (propB d A B z L N) + z ^ N • capG d h B A (L N) (L (N + 1)) (prop d (fun _ => A) L N)
        + z ^ (N + 1) • capG d h A B (L N) (L (N + 1)) (prop d (fun _ => A) L N) := by
  have e : ∀ n ∈ range N, z ^ n • capG d h (place A B n N) (place A B n (N + 1)) (L N) (L (N + 1)) (prop d (place A B n) L N)
      = capG d h A A (L N) (L (N + 1)) (z ^ n • prop d (place A B n) L N) := by
    intro n hn
    have := mem_range.1 hn
    rw [place_ne (by omega), place_ne (by omega), capG_smul]
  rw [sum_range_succ, sum_range_succ, sum_congr rfl e, ← capG_sum, place_self, place_self, place_ne (by omega), place_ne (by omega), prop_far le_rfl, prop_far (by omega), propB]

theorem hamB_succ (N : ℕ) : hamB d h A B z L (N + 2) = cap d A (L (N + 1)) (hamB d h A B z L (N + 1))
    + z ^ (N + 1) • cap d B (L (N + 1)) (ham d h (fun _ => A) L (N + 1)) + capG d h A A (L N) (L (N + 1)) (propB d A B z L N)
    + z ^ N • capG d h B A (L N) (L (N + 1)) (prop d (fun _ => A) L N) + z ^ (N + 1) • capG d h A B (L N) (L (N + 1)) (prop d (fun _ => A) L N) := by
  have e1 : hamB d h A B z L (N + 2) = (∑ n ∈ range (N + 2), z ^ n • cap d (place A B n (N + 1)) (L (N + 1)) (ham d h (place A B n) L (N + 1)))
      + ∑ n ∈ range (N + 2), z ^ n • capG d h (place A B n N) (place A B n (N + 1)) (L N) (L (N + 1)) (prop d (place A B n) L N) := by
    rw [hamB, ← sum_add_distrib]
    exact sum_congr rfl fun n _ => by rw [ham_succ, smul_add]
  rw [e1, hamB_aux1, hamB_aux2, ← add_assoc, ← add_assoc]

theorem elementK_eq (p q : ℕ) : elementK d h A r z p q C B = (z ^ p)⁻¹ * (hamB d h A B z (place A C p) (p + 1 + q) * r).trace := by
  rw [elementK, hamB, Finset.sum_mul, Matrix.trace_sum]
  congr 1
  exact sum_congr rfl fun n _ => by rw [Matrix.smul_mul, Matrix.trace_smul, smul_eq_mul]

/-! ## To the left of `C` -/

section left
variable (h1 : cap d A A 1 = 1) (hB : cap d B A 1 = 0)
include h1

theorem prop_one (N : ℕ) : prop d (fun _ => A) (fun _ => A) N = 1 := by
  induction N with
  | zero => rfl
  | succ n ih => rw [prop, ih, h1]

include hB in
theorem propB_zero (N : ℕ) : propB d A B z (fun _ => A) N = 0 := by
  induction N with
  | zero => simp [propB]
  | succ n ih => rw [propB_succ, ih, cap_zero, prop_one h1, hB, smul_zero, add_zero]

theorem ham_left (N : ℕ) : ham d h (fun _ => A) (fun _ => A) (N + 1) = ∑ n ∈ range N, (cap d A A)^[n] (capG d h A A A A 1) := by
  induction N with
  | zero => simp [ham]
  | succ n ih =>
    rw [ham, ih, prop_one h1, cap_sum, sum_range_succ']
    congr 1
    exact sum_congr rfl fun n _ => by rw [Function.iterate_succ_apply']

theorem ham_solved (hr : ∑ s ∈ range d, A s * r * (A s)ᴴ = r) (ht : r.trace = 1)
    (hK : K - cap d A A K + (K * r).trace • (1 : Matrix (Fin D) (Fin D) ℂ) = capG d h A A A A 1 - (capG d h A A A A 1 * r).trace • (1 : Matrix (Fin D) (Fin D) ℂ)) (N : ℕ) :
    ham d h (fun _ => A) (fun _ => A) (N + 1) = (N * (capG d h A A A A 1 * r).trace) • (1 : Matrix (Fin D) (Fin D) ℂ) + K - (cap d A A)^[N] K := by
  obtain ⟨-, hn⟩ := series h1 hr ht hK
  rw [ham_left h1, sum_congr rfl fun n _ => hn n, sum_add_distrib, sum_const, card_range, Finset.sum_range_sub' (fun n => (cap d A A)^[n] K) N,
    ← Nat.cast_smul_eq_nsmul ℂ, smul_smul]
  exact (add_sub_assoc _ _ _).symm

include hB in
theorem hamB_left (hr : ∑ s ∈ range d, A s * r * (A s)ᴴ = r) (ht : r.trace = 1)
    (hK : K - cap d A A K + (K * r).trace • (1 : Matrix (Fin D) (Fin D) ℂ) = capG d h A A A A 1 - (capG d h A A A A 1 * r).trace • (1 : Matrix (Fin D) (Fin D) ℂ)) (N : ℕ) :
    hamB d h A B z (fun _ => A) (N + 2) = cap d A A (hamB d h A B z (fun _ => A) (N + 1))
      + z ^ (N + 1) • (cap d B A K - cap d B A ((cap d A A)^[N] K)) + z ^ N • capG d h B A A A 1 + z ^ (N + 1) • capG d h A B A A 1 := by
  rw [hamB_succ, propB_zero h1 hB, capG_zero, add_zero, prop_one h1, ham_solved h1 hr ht hK, cap_sub, cap_add, cap_smul, hB, smul_zero, zero_add]

end left

/-- The left sums without the phase of the last site. -/
def xl (d : ℕ) (h : ℕ → ℕ → ℕ → ℕ → ℂ) (A B : ℕ → Matrix (Fin D) (Fin D) ℂ) (z : ℂ) (N : ℕ) : Matrix (Fin D) (Fin D) ℂ :=
  (z ^ N)⁻¹ • hamB d h A B z (fun _ => A) N

theorem xl_one : xl d h A B z 1 = 0 := by simp [xl, hamB, ham]

theorem xl_succ (hz : z ≠ 0) (h1 : cap d A A 1 = 1) (hB : cap d B A 1 = 0) (hr : ∑ s ∈ range d, A s * r * (A s)ᴴ = r) (ht : r.trace = 1)
    (hK : K - cap d A A K + (K * r).trace • (1 : Matrix (Fin D) (Fin D) ℂ) = capG d h A A A A 1 - (capG d h A A A A 1 * r).trace • (1 : Matrix (Fin D) (Fin D) ℂ)) (N : ℕ) :
    xl d h A B z (N + 2) = z⁻¹ • cap d A A (xl d h A B z (N + 1)) + z⁻¹ • (cap d B A K - cap d B A ((cap d A A)^[N] K))
      + (z⁻¹ * z⁻¹) • capG d h B A A A 1 + z⁻¹ • capG d h A B A A 1 := by
  rw [xl, hamB_left h1 hB hr ht hK, xl, cap_smul, smul_add, smul_add, smul_add, smul_smul, smul_smul, smul_smul, smul_smul]
  have e1 : (z ^ (N + 2))⁻¹ = z⁻¹ * (z ^ (N + 1))⁻¹ := by rw [pow_succ, mul_inv, mul_comm]
  have e2 : (z ^ (N + 2))⁻¹ * z ^ (N + 1) = z⁻¹ := by rw [e1, mul_assoc, inv_mul_cancel₀ (pow_ne_zero _ hz), mul_one]
  have e3 : (z ^ (N + 2))⁻¹ * z ^ N = z⁻¹ * z⁻¹ := by
    rw [e1, pow_succ, mul_inv]
    field_simp
  rw [e2, e3, e1]

/-! ## The whole chain -/

theorem place_left {p : ℕ} : ∀ j < p, place A C p j = (fun _ => A) j := fun _ hj => place_ne (by omega)

section whole
variable (hz : z ≠ 0) (h1 : cap d A A 1 = 1) (hB : cap d B A 1 = 0) (hC : cap d A C 1 = 0)

theorem hamB_congrL {L' : ℕ → ℕ → Matrix (Fin D) (Fin D) ℂ} (n : ℕ) (hU : ∀ j < n, L j = L' j) : hamB d h A B z L n = hamB d h A B z L' n :=
  sum_congr rfl fun _ _ => by rw [ham_congrL n hU]

theorem propB_congrL {L' : ℕ → ℕ → Matrix (Fin D) (Fin D) ℂ} (n : ℕ) (hU : ∀ j < n, L j = L' j) : propB d A B z L n = propB d A B z L' n :=
  sum_congr rfl fun _ _ => by rw [prop_congrL n hU]

include h1 hC

theorem right_zero (P i : ℕ) : prop d (fun _ => A) (place A C (P + 1)) (P + 2 + i) = 0 := by
  induction i with
  | zero => rw [add_zero, prop, place_self, prop_congrL (P + 1) place_left, prop_one h1, hC]
  | succ i ih => rw [show P + 2 + (i + 1) = (P + 2 + i) + 1 from rfl, prop, ih, cap_zero]

include hB in
theorem right_prop (P i : ℕ) : prop d (fun _ => A) (place A C (P + 1)) (P + 2 + i) = 0
    ∧ propB d A B z (place A C (P + 1)) (P + 2 + i) = z ^ (P + 1) • (cap d A A)^[i] (cap d B C 1) := by
  induction i with
  | zero =>
    constructor
    · rw [add_zero, prop, place_self, prop_congrL (P + 1) place_left, prop_one h1, hC]
    · rw [add_zero, propB_succ, propB_congrL (P + 1) place_left, propB_zero h1 hB, cap_zero, zero_add, place_self, prop_congrL (P + 1) place_left, prop_one h1]
      rfl
  | succ i ih =>
    rw [show P + 2 + (i + 1) = (P + 2 + i) + 1 from rfl]
    constructor
    · rw [prop, ih.1, cap_zero]
    · rw [propB_succ, ih.1, ih.2, cap_zero, smul_zero, add_zero, place_ne (by omega), cap_smul, Function.iterate_succ_apply']

/-- The blocks without `B`, to the right of `C`. -/
theorem right_ham (P i : ℕ) : ham d h (fun _ => A) (place A C (P + 1)) (P + 2) = cap d A C (ham d h (fun _ => A) (fun _ => A) (P + 1)) + capG d h A A A C 1
    ∧ ham d h (fun _ => A) (place A C (P + 1)) (P + 3 + i)
      = (cap d A A)^[i] (cap d A A (cap d A C (ham d h (fun _ => A) (fun _ => A) (P + 1)) + capG d h A A A C 1) + capG d h A A C A 1) := by
  have e : ham d h (fun _ => A) (place A C (P + 1)) (P + 2) = cap d A C (ham d h (fun _ => A) (fun _ => A) (P + 1)) + capG d h A A A C 1 := by
    rw [ham, place_self, place_ne (by omega), ham_congrL (P + 1) place_left, prop_congrL P fun j hj => place_left j (by omega), prop_one h1]
  refine ⟨e, ?_⟩
  induction i with
  | zero =>
    rw [add_zero, ham, e, place_self, place_ne (by omega), prop_congrL (P + 1) place_left, prop_one h1]
    rfl
  | succ i ih =>
    rw [show P + 3 + (i + 1) = (P + 2 + i) + 2 from by omega, ham, show P + 2 + i + 1 = P + 3 + i from by omega, ih, right_zero h1 hC P i, capG_zero, add_zero,
      place_ne (by omega), Function.iterate_succ_apply']

include hz hB in
/-- The matrix element in a finite chain. -/
theorem elementK_finite (hr : ∑ s ∈ range d, A s * r * (A s)ᴴ = r) (P i : ℕ) :
    elementK d h A r z (P + 1) (i + 1) C B
      = (cap d A C (xl d h A B z (P + 1)) * r).trace + (cap d B C (ham d h (fun _ => A) (fun _ => A) (P + 1)) * r).trace
        + z⁻¹ * (capG d h B A A C 1 * r).trace + (capG d h A B A C 1 * r).trace + (capG d h B A C A 1 * r).trace + z * (capG d h A B C A 1 * r).trace
        + ∑ n ∈ range (i + 1), z ^ (n + 1) * (cap d B A ((cap d A A)^[n] (cap d A C (ham d h (fun _ => A) (fun _ => A) (P + 1)) + capG d h A A A C 1)) * r).trace
        + ∑ n ∈ range i, z ^ (n + 2) * (cap d B A ((cap d A A)^[n] (capG d h A A C A 1)) * r).trace
        + ∑ n ∈ range i, (capG d h A A A A ((cap d A A)^[n] (cap d B C 1)) * r).trace := by
  have hzp : z ^ (P + 1) ≠ 0 := pow_ne_zero _ hz
  have e2 : hamB d h A B z (place A C (P + 1)) (P + 2) = z ^ (P + 1) • (cap d A C (xl d h A B z (P + 1)) + cap d B C (ham d h (fun _ => A) (fun _ => A) (P + 1))
      + z⁻¹ • capG d h B A A C 1 + capG d h A B A C 1) := by
    have hx : hamB d h A B z (fun _ => A) (P + 1) = z ^ (P + 1) • xl d h A B z (P + 1) := by
      rw [xl, smul_smul, mul_inv_cancel₀ hzp, one_smul]
    have hzz : z ^ P = z ^ (P + 1) * z⁻¹ := by rw [pow_succ, mul_assoc, mul_inv_cancel₀ hz, mul_one]
    rw [hamB_succ, place_self, place_ne (by omega), hamB_congrL (P + 1) place_left, hx, ham_congrL (P + 1) place_left, prop_congrL P fun j hj => place_left j (by omega),
      propB_congrL P fun j hj => place_left j (by omega), prop_one h1, propB_zero h1 hB, capG_zero, add_zero, cap_smul, hzz, ← smul_smul, smul_add, smul_add, smul_add]
  have e3 : (hamB d h A B z (place A C (P + 1)) (P + 3) * r).trace = z ^ (P + 1) * ((cap d A C (xl d h A B z (P + 1)) * r).trace + (cap d B C (ham d h (fun _ => A) (fun _ => A) (P + 1)) * r).trace
        + z⁻¹ * (capG d h B A A C 1 * r).trace + (capG d h A B A C 1 * r).trace + (capG d h B A C A 1 * r).trace + z * (capG d h A B C A 1 * r).trace
        + z * (cap d B A (cap d A C (ham d h (fun _ => A) (fun _ => A) (P + 1)) + capG d h A A A C 1) * r).trace) := by
    rw [hamB_succ, place_self, place_ne (by omega), e2, (right_ham h1 hC P 0).1, prop_congrL (P + 1) place_left, propB_congrL (P + 1) place_left, prop_one h1,
      propB_zero h1 hB, capG_zero, add_zero]
    simp only [Matrix.add_mul, Matrix.trace_add, cap_smul, cap_add, Matrix.smul_mul, Matrix.trace_smul, smul_eq_mul, trace_cap hr]
    ring
  have e4 : ∀ i, (hamB d h A B z (place A C (P + 1)) (P + 3 + i) * r).trace = (hamB d h A B z (place A C (P + 1)) (P + 3) * r).trace
      + z ^ (P + 1) * ((∑ n ∈ range i, z ^ (n + 2) * (cap d B A ((cap d A A)^[n] (cap d A A (cap d A C (ham d h (fun _ => A) (fun _ => A) (P + 1)) + capG d h A A A C 1) + capG d h A A C A 1)) * r).trace)
        + ∑ n ∈ range i, (capG d h A A A A ((cap d A A)^[n] (cap d B C 1)) * r).trace) := by
    intro i
    induction i with
    | zero => simp
    | succ i ih =>
      rw [show P + 3 + (i + 1) = (P + 2 + i) + 2 from by omega, hamB_succ, show P + 2 + i + 1 = P + 3 + i from by omega, (right_prop (z := z) h1 hB hC P i).1,
        (right_prop (z := z) h1 hB hC P i).2, (right_ham h1 hC P i).2, place_ne (by omega), place_ne (by omega)]
      simp only [capG_zero, smul_zero, add_zero, Matrix.add_mul, Matrix.trace_add, trace_cap hr, capG_smul, Matrix.smul_mul, Matrix.trace_smul, smul_eq_mul, ih, sum_range_succ]
      ring
  have e5 : ∀ n, (cap d A A)^[n] (cap d A A (cap d A C (ham d h (fun _ => A) (fun _ => A) (P + 1)) + capG d h A A A C 1) + capG d h A A C A 1)
      = (cap d A A)^[n + 1] (cap d A C (ham d h (fun _ => A) (fun _ => A) (P + 1)) + capG d h A A A C 1) + (cap d A A)^[n] (capG d h A A C A 1) := by
    intro n
    have hl : ∀ (n : ℕ) (Y Z : Matrix (Fin D) (Fin D) ℂ), (cap d A A)^[n] (Y + Z) = (cap d A A)^[n] Y + (cap d A A)^[n] Z := by
      intro n
      induction n with
      | zero => intro Y Z; rfl
      | succ n ih => intro Y Z; rw [Function.iterate_succ_apply', ih, cap_add, Function.iterate_succ_apply', Function.iterate_succ_apply']
    rw [hl, Function.iterate_succ_apply]
  rw [elementK_eq, show P + 1 + 1 + (i + 1) = P + 3 + i from by omega, e4, e3, ← mul_add, ← mul_assoc, inv_mul_cancel₀ hzp, one_mul, sum_range_succ' _ i]
  have e6 : ∑ n ∈ range i, z ^ (n + 2) * (cap d B A ((cap d A A)^[n] (cap d A A (cap d A C (ham d h (fun _ => A) (fun _ => A) (P + 1)) + capG d h A A A C 1) + capG d h A A C A 1)) * r).trace
      = (∑ n ∈ range i, z ^ (n + 1 + 1) * (cap d B A ((cap d A A)^[n + 1] (cap d A C (ham d h (fun _ => A) (fun _ => A) (P + 1)) + capG d h A A A C 1)) * r).trace)
        + ∑ n ∈ range i, z ^ (n + 2) * (cap d B A ((cap d A A)^[n] (capG d h A A C A 1)) * r).trace := by
    rw [← sum_add_distrib]
    refine sum_congr rfl fun n _ => ?_
    rw [e5, cap_add, Matrix.add_mul, Matrix.trace_add, mul_add]
  rw [e6, Function.iterate_zero, id, zero_add, pow_one]
  ring

end whole

/-! ## Long chains -/

/-- The matrix element of the momentum `z` in the infinite chain, in terms of the solutions `K` (left environment), `KR` (right environment), `s7` (`B` to the right
of `C`) and `xs` (`B` to the left of `C`); bonds far away are counted relative to their expectation value. -/
def limitK (d : ℕ) (h : ℕ → ℕ → ℕ → ℕ → ℂ) (A B C : ℕ → Matrix (Fin D) (Fin D) ℂ) (r : Matrix (Fin D) (Fin D) ℂ) (z : ℂ) (K KR s7 xs : Matrix (Fin D) (Fin D) ℂ) : ℂ :=
  (cap d A C xs * r).trace + (cap d B C K * r).trace
    + z⁻¹ * (capG d h B A A C 1 * r).trace + (capG d h A B A C 1 * r).trace + (capG d h B A C A 1 * r).trace + z * (capG d h A B C A 1 * r).trace
    + z * ((cap d A C K + capG d h A A A C 1) * s7).trace + z ^ 2 * (capG d h A A C A 1 * s7).trace + (cap d B C 1 * KR).trace

section limits
attribute [local instance] Matrix.normedAddCommGroup Matrix.normedSpace

/-- The transfer operator without its eigenvalue one. -/
def defl (d : ℕ) (A : ℕ → Matrix (Fin D) (Fin D) ℂ) (r : Matrix (Fin D) (Fin D) ℂ) : Module.End ℂ (Matrix (Fin D) (Fin D) ℂ) where
  toFun Y := cap d A A Y - (Y * r).trace • 1
  map_add' Y Z := by rw [cap_add, Matrix.add_mul, Matrix.trace_add, add_smul]; abel
  map_smul' c Y := by rw [cap_smul, Matrix.smul_mul, Matrix.trace_smul, smul_eq_mul, mul_smul, smul_sub]; rfl

theorem defl_apply : defl d A r Y = cap d A A Y - (Y * r).trace • 1 := rfl

theorem defl_eig (hr : ∑ s ∈ range d, A s * r * (A s)ᴴ = r) (ht : r.trace = 1) (hg : Gapped d A) (μ : ℂ) (hY : Y ≠ 0) (hμ : defl d A r Y = μ • Y) : ‖μ‖ < 1 := by
  by_contra hge
  push Not at hge
  rw [defl_apply] at hμ
  have h2 : μ * (Y * r).trace = 0 := by
    have := congrArg (fun Z => (Z * r).trace) hμ
    simp only [Matrix.sub_mul, Matrix.trace_sub, Matrix.smul_mul, Matrix.trace_smul, Matrix.one_mul, ht, trace_cap hr, smul_eq_mul] at this
    rw [← this]; ring
  have h3 : (Y * r).trace = 0 := by
    rcases mul_eq_zero.1 h2 with h | h
    · rw [h, norm_zero] at hge; linarith
    · exact h
  rw [h3, zero_smul, sub_zero] at hμ
  obtain ⟨c, rfl⟩ := hg μ Y hY hμ hge
  rw [Matrix.smul_mul, Matrix.one_mul, Matrix.trace_smul, ht, smul_eq_mul, mul_one] at h3
  exact hY (by rw [h3, zero_smul])

theorem defl_pow (hr : ∑ s ∈ range d, A s * r * (A s)ᴴ = r) (hK : (K * r).trace = 0) (n : ℕ) : (defl d A r ^ n) K = (cap d A A)^[n] K := by
  induction n with
  | zero => rfl
  | succ n ih => rw [pow_succ', Module.End.mul_apply, ih, defl_apply, trace_caps hr, hK, zero_smul, sub_zero, Function.iterate_succ_apply']

theorem capIter_tendsto (hr : ∑ s ∈ range d, A s * r * (A s)ᴴ = r) (ht : r.trace = 1) (hg : Gapped d A) (hK : (K * r).trace = 0) :
    Tendsto (fun n : ℕ => (cap d A A)^[n] K) atTop (𝓝 0) :=
  (pow_tendsto (defl d A r) (fun μ _ hY hμ => defl_eig hr ht hg μ hY hμ) K).congr fun n => defl_pow hr hK n

theorem capIter_add (n : ℕ) (Y Z : Matrix (Fin D) (Fin D) ℂ) : (cap d A A)^[n] (Y + Z) = (cap d A A)^[n] Y + (cap d A A)^[n] Z := by
  induction n with
  | zero => rfl
  | succ n ih => rw [Function.iterate_succ_apply', ih, cap_add, Function.iterate_succ_apply', Function.iterate_succ_apply']

theorem capIter_smul (n : ℕ) (c : ℂ) (Y : Matrix (Fin D) (Fin D) ℂ) : (cap d A A)^[n] (c • Y) = c • (cap d A A)^[n] Y := by
  induction n with
  | zero => rfl
  | succ n ih => rw [Function.iterate_succ_apply', ih, cap_smul, Function.iterate_succ_apply']

theorem cupIter_tendsto (h1 : cap d A A 1 = 1) (hr : ∑ s ∈ range d, A s * r * (A s)ᴴ = r) (ht : r.trace = 1) (hg : Gapped d A) (hs : s7.trace = 0) :
    Tendsto (fun n : ℕ => (cup d A A)^[n] s7) atTop (𝓝 0) := by
  have hent : ∀ a b : Fin D, Tendsto (fun n : ℕ => (cup d A A)^[n] s7 a b) atTop (𝓝 0) := by
    intro a b
    let Q : Matrix (Fin D) (Fin D) ℂ := Matrix.single b a 1
    have hQ : ∀ M : Matrix (Fin D) (Fin D) ℂ, (Q * M).trace = M a b := fun M =>
      (Matrix.trace_single_mul ..).trans (one_smul _ _)
    have h0 : ((Q - (Q * r).trace • 1) * r).trace = 0 := by
      rw [Matrix.sub_mul, Matrix.smul_mul, Matrix.one_mul, Matrix.trace_sub, Matrix.trace_smul, ht, smul_eq_mul, mul_one, sub_self]
    let φ : Matrix (Fin D) (Fin D) ℂ →ₗ[ℂ] ℂ :=
      { toFun := fun Y => (Y * s7).trace
        map_add' := fun Y Z => by rw [Matrix.add_mul, Matrix.trace_add]
        map_smul' := fun c Y => by rw [Matrix.smul_mul, Matrix.trace_smul]; rfl }
    refine (iter_tendsto hr ht hg h0 φ).congr fun n => ?_
    change ((cap d A A)^[n] (Q - (Q * r).trace • 1) * s7).trace = _
    rw [sub_eq_add_neg, ← neg_smul, capIter_add, capIter_smul, iter_one h1, Matrix.add_mul, Matrix.trace_add, Matrix.smul_mul, Matrix.one_mul, Matrix.trace_smul, hs, smul_zero,
      add_zero, trace_cup_iter, hQ]
  exact tendsto_pi_nhds.2 fun a => tendsto_pi_nhds.2 fun b => hent a b

theorem phase_tendsto (hz : ‖z‖ = 1) {f : ℕ → Matrix (Fin D) (Fin D) ℂ} (hf : Tendsto f atTop (𝓝 0)) : Tendsto (fun n => z ^ n • f n) atTop (𝓝 0) := by
  refine tendsto_zero_iff_norm_tendsto_zero.2 ?_
  exact (tendsto_zero_iff_norm_tendsto_zero.1 hf).congr fun n => by rw [norm_smul, norm_pow, hz, one_pow, one_mul]

/-- The part of `Y` without the fixed point of the transfer operator. -/
def cut (r : Matrix (Fin D) (Fin D) ℂ) : Matrix (Fin D) (Fin D) ℂ →ₗ[ℂ] Matrix (Fin D) (Fin D) ℂ where
  toFun Y := Y - (Y * r).trace • 1
  map_add' Y Z := by rw [Matrix.add_mul, Matrix.trace_add, add_smul]; abel
  map_smul' c Y := by rw [Matrix.smul_mul, Matrix.trace_smul, smul_eq_mul, mul_smul, smul_sub]; rfl

theorem cut_apply : cut r Y = Y - (Y * r).trace • 1 := rfl

theorem cut_one (ht : r.trace = 1) : cut r (1 : Matrix (Fin D) (Fin D) ℂ) = 0 := by rw [cut_apply, Matrix.one_mul, ht, one_smul, sub_self]

theorem cut_cap (hr : ∑ s ∈ range d, A s * r * (A s)ᴴ = r) (h1 : cap d A A 1 = 1) (ht : r.trace = 1) : cut r (cap d A A Y) = defl d A r (cut r Y) := by
  rw [cut_apply, defl_apply, cut_apply, trace_cap hr, cap_sub, cap_smul, h1, Matrix.sub_mul, Matrix.trace_sub, Matrix.smul_mul, Matrix.trace_smul, Matrix.one_mul, ht,
    smul_eq_mul, mul_one, sub_self, zero_smul, sub_zero]

/-- The left sums converge up to multiples of the identity. -/
theorem xl_tendsto (hz : ‖z‖ = 1) (h1 : cap d A A 1 = 1) (hB : cap d B A 1 = 0) (hr : ∑ s ∈ range d, A s * r * (A s)ᴴ = r) (ht : r.trace = 1) (hg : Gapped d A)
    (hK : K - cap d A A K + (K * r).trace • (1 : Matrix (Fin D) (Fin D) ℂ) = capG d h A A A A 1 - (capG d h A A A A 1 * r).trace • (1 : Matrix (Fin D) (Fin D) ℂ))
    {c : ℂ} (hx : xs = z⁻¹ • cap d A A xs + z⁻¹ • cap d B A K + (z⁻¹ * z⁻¹) • capG d h B A A A 1 + z⁻¹ • capG d h A B A A 1 + c • (1 : Matrix (Fin D) (Fin D) ℂ)) :
    Tendsto (fun N : ℕ => cut r (xl d h A B z (N + 1))) atTop (𝓝 (cut r xs)) := by
  have hz0 : z ≠ 0 := fun h => by rw [h, norm_zero] at hz; exact zero_ne_one hz
  obtain ⟨hK0, -⟩ := series h1 hr ht hK
  let T : Module.End ℂ (Matrix (Fin D) (Fin D) ℂ × Matrix (Fin D) (Fin D) ℂ) :=
    LinearMap.prod (z⁻¹ • (defl d A r ∘ₗ LinearMap.fst ℂ _ _) - z⁻¹ • (cut r ∘ₗ capL d B A ∘ₗ LinearMap.snd ℂ _ _)) (defl d A r ∘ₗ LinearMap.snd ℂ _ _)
  have hT : ∀ v, T v = (z⁻¹ • defl d A r v.1 - z⁻¹ • cut r (cap d B A v.2), defl d A r v.2) := fun v => rfl
  have hlim := pow_tendsto T (fun μ v hv hμ => by
    rw [hT] at hμ
    have hμ1 := congrArg Prod.fst hμ
    have hμ2 := congrArg Prod.snd hμ
    dsimp only [Prod.smul_fst, Prod.smul_snd] at hμ1 hμ2
    by_cases h2 : v.2 = 0
    · have h1' : v.1 ≠ 0 := fun h => hv (Prod.ext h h2)
      rw [h2, cap_zero, map_zero, smul_zero, sub_zero] at hμ1
      have h3 : defl d A r v.1 = (z * μ) • v.1 := by
        rw [mul_smul, ← hμ1, smul_smul, mul_inv_cancel₀ hz0, one_smul]
      have := defl_eig hr ht hg _ h1' h3
      rwa [norm_mul, hz, one_mul] at this
    · exact defl_eig hr ht hg μ h2 hμ2) (cut r (xl d h A B z 1 - xs), K)
  have e : ∀ n : ℕ, (T ^ n) (cut r (xl d h A B z 1 - xs), K) = (cut r (xl d h A B z (n + 1) - xs), (cap d A A)^[n] K) := by
    intro n
    induction n with
    | zero => rfl
    | succ n ih =>
      rw [pow_succ', Module.End.mul_apply, ih, hT]
      refine Prod.ext ?_ ?_
      · dsimp only
        have hs : xl d h A B z (n + 2) - xs = z⁻¹ • cap d A A (xl d h A B z (n + 1) - xs) - z⁻¹ • cap d B A ((cap d A A)^[n] K) - c • (1 : Matrix (Fin D) (Fin D) ℂ) := by
          rw [xl_succ hz0 h1 hB hr ht hK]
          conv_lhs => rw [hx]
          rw [cap_sub, smul_sub, smul_sub]
          abel
        have hc : ∀ X Y : Matrix (Fin D) (Fin D) ℂ, cut r (z⁻¹ • X - z⁻¹ • Y - c • (1 : Matrix (Fin D) (Fin D) ℂ)) = z⁻¹ • cut r X - z⁻¹ • cut r Y := fun X Y => by
          rw [map_sub, map_sub, map_smul, map_smul, map_smul, cut_one ht, smul_zero, sub_zero]
        rw [hs, hc, cut_cap hr h1 ht]
      · dsimp only
        rw [defl_apply, trace_caps hr, hK0, zero_smul, sub_zero, Function.iterate_succ_apply']
  have h2 := (continuous_fst.tendsto _).comp hlim
  have h3 := h2.add_const (cut r xs)
  rw [Prod.fst_zero, zero_add] at h3
  refine h3.congr fun n => ?_
  simp only [Function.comp_apply, e]
  rw [map_sub, sub_add_cancel]

end limits

section
variable (hz : ‖z‖ = 1) (h1 : cap d A A 1 = 1) (hr : ∑ s ∈ range d, A s * r * (A s)ᴴ = r) (ht : r.trace = 1)
include h1 hr ht

omit h1 hr ht in
theorem cupB_sum (hs : s7 - z • cup d A A s7 = cup d B A r) (n : ℕ) : ∑ j ∈ range n, z ^ j • (cup d A A)^[j] (cup d B A r) = s7 - z ^ n • (cup d A A)^[n] s7 := by
  induction n with
  | zero => simp
  | succ n ih =>
    have hl : ∀ (n : ℕ) (Y Z : Matrix (Fin D) (Fin D) ℂ) (c : ℂ), (cup d A A)^[n] (Y - c • Z) = (cup d A A)^[n] Y - c • (cup d A A)^[n] Z := by
      intro n
      induction n with
      | zero => intro Y Z c; rfl
      | succ n ih =>
        intro Y Z c
        rw [Function.iterate_succ_apply', ih, Function.iterate_succ_apply', Function.iterate_succ_apply']
        simp only [cup, Matrix.mul_sub, Matrix.sub_mul, sum_sub_distrib, Matrix.mul_smul, Matrix.smul_mul, smul_sum]
    rw [sum_range_succ, ih, ← hs, hl, ← Function.iterate_succ_apply, smul_sub, smul_smul, ← pow_succ]
    abel

omit h1 in
theorem cupR_sum (hKR : KR - cup d A A KR + KR.trace • r = cupG d h A A A A r - (cupG d h A A A A r).trace • r) (hK0 : KR.trace = 0) (n : ℕ) :
    ∑ j ∈ range n, (cup d A A)^[j] (cupG d h A A A A r) = (n * (cupG d h A A A A r).trace) • r + KR - (cup d A A)^[n] KR := by
  have _ := ht
  rw [hK0, zero_smul, add_zero] at hKR
  have hl : ∀ (n : ℕ), (cup d A A)^[n] (cupG d h A A A A r) = (cup d A A)^[n] KR - (cup d A A)^[n + 1] KR + (cupG d h A A A A r).trace • r := by
    intro n
    induction n with
    | zero => rw [Function.iterate_zero, id, id, zero_add, Function.iterate_one, hKR, sub_add_cancel]
    | succ n ih =>
      rw [Function.iterate_succ_apply', ih, Function.iterate_succ_apply' _ (n + 1), Function.iterate_succ_apply' _ n]
      have : ∀ (X Y : Matrix (Fin D) (Fin D) ℂ) (c : ℂ), cup d A A (X - Y + c • r) = cup d A A X - cup d A A Y + c • cup d A A r := by
        intro X Y c
        simp only [cup, Matrix.mul_sub, Matrix.sub_mul, Matrix.mul_add, Matrix.add_mul, sum_add_distrib, sum_sub_distrib, Matrix.mul_smul, Matrix.smul_mul, smul_sum]
      rw [this, show cup d A A r = r from hr]
  rw [sum_congr rfl fun n _ => hl n, sum_add_distrib, sum_const, card_range, Finset.sum_range_sub' (fun n => (cup d A A)^[n] KR) n, ← Nat.cast_smul_eq_nsmul ℂ, smul_smul]
  rw [Function.iterate_zero, id]
  abel

variable (hB : cap d B A 1 = 0) (hC : cap d A C 1 = 0)
    (hK : K - cap d A A K + (K * r).trace • (1 : Matrix (Fin D) (Fin D) ℂ) = capG d h A A A A 1 - (capG d h A A A A 1 * r).trace • (1 : Matrix (Fin D) (Fin D) ℂ))
    (hKR : KR - cup d A A KR + KR.trace • r = cupG d h A A A A r - (cupG d h A A A A r).trace • r)
    (hs : s7 - z • cup d A A s7 = cup d B A r) (hs0 : s7.trace = 0)

omit h1 in
include hKR in
theorem KR_zero (h1 : cap d A A 1 = 1) : KR.trace = 0 := by
  have _ := hr
  have := congrArg Matrix.trace hKR
  have hc : (cup d A A KR).trace = KR.trace := by
    have := trace_cup (d := d) (A := A) (l := A) (Y := 1) (Z := KR)
    rw [h1, Matrix.one_mul, Matrix.one_mul] at this
    exact this.symm
  simp only [Matrix.trace_add, Matrix.trace_sub, hc, Matrix.trace_smul, ht, smul_eq_mul, mul_one, sub_self, zero_add] at this
  exact this

include hz hB hC hK hKR hs

/-- The finite chain in terms of the solutions. -/
theorem elementK_solved (P i : ℕ) :
    elementK d h A r z (P + 1) (i + 1) C B - (P + i) * (capG d h A A A A 1 * r).trace * (cap d B C 1 * r).trace
      = (cap d A C (cut r (xl d h A B z (P + 1))) * r).trace + (cap d B C (K - (cap d A A)^[P] K) * r).trace
        + z⁻¹ * (capG d h B A A C 1 * r).trace + (capG d h A B A C 1 * r).trace + (capG d h B A C A 1 * r).trace + z * (capG d h A B C A 1 * r).trace
        + z * ((cap d A C (K - (cap d A A)^[P] K) + capG d h A A A C 1) * (s7 - z ^ (i + 1) • (cup d A A)^[i + 1] s7)).trace
        + z ^ 2 * (capG d h A A C A 1 * (s7 - z ^ i • (cup d A A)^[i] s7)).trace
        + (cap d B C 1 * (KR - (cup d A A)^[i] KR)).trace := by
  have hz0 : z ≠ 0 := fun h => by rw [h, norm_zero] at hz; exact zero_ne_one hz
  have hE : (cupG d h A A A A r).trace = (capG d h A A A A 1 * r).trace := by rw [trace_cupG, Matrix.one_mul]
  have a1 : cap d A C (cut r (xl d h A B z (P + 1))) = cap d A C (xl d h A B z (P + 1)) := by
    rw [cut_apply, cap_sub, cap_smul, hC, smul_zero, sub_zero]
  have a2 : cap d A C (ham d h (fun _ => A) (fun _ => A) (P + 1)) = cap d A C (K - (cap d A A)^[P] K) := by
    rw [ham_solved h1 hr ht hK, add_sub_assoc, cap_add, cap_smul, hC, smul_zero, zero_add]
  have a3 : (cap d B C (ham d h (fun _ => A) (fun _ => A) (P + 1)) * r).trace
      = P * (capG d h A A A A 1 * r).trace * (cap d B C 1 * r).trace + (cap d B C (K - (cap d A A)^[P] K) * r).trace := by
    rw [ham_solved h1 hr ht hK, add_sub_assoc, cap_add, cap_smul, Matrix.add_mul, Matrix.smul_mul, Matrix.trace_add, Matrix.trace_smul, smul_eq_mul]
  have a4 : ∀ (n : ℕ) (G : Matrix (Fin D) (Fin D) ℂ), ∑ j ∈ range n, z ^ j * (cap d B A ((cap d A A)^[j] G) * r).trace = (G * (s7 - z ^ n • (cup d A A)^[n] s7)).trace := by
    intro n G
    rw [← cupB_sum hs, Finset.mul_sum, Matrix.trace_sum]
    exact sum_congr rfl fun j _ => by rw [trace_cup, trace_cup_iter, Matrix.mul_smul, Matrix.trace_smul, smul_eq_mul]
  have a5 : ∑ n ∈ range i, (capG d h A A A A ((cap d A A)^[n] (cap d B C 1)) * r).trace
      = i * (capG d h A A A A 1 * r).trace * (cap d B C 1 * r).trace + (cap d B C 1 * (KR - (cup d A A)^[i] KR)).trace := by
    have : ∀ n, (capG d h A A A A ((cap d A A)^[n] (cap d B C 1)) * r).trace = (cap d B C 1 * (cup d A A)^[n] (cupG d h A A A A r)).trace := fun n => by
      rw [trace_cupG, trace_cup_iter]
    rw [sum_congr rfl fun n _ => this n, ← Matrix.trace_sum, ← Finset.mul_sum, cupR_sum hr ht hKR (KR_zero hr ht hKR h1), add_sub_assoc, Matrix.mul_add, Matrix.trace_add,
      Matrix.mul_smul, Matrix.trace_smul, smul_eq_mul, hE]
  have a6 : ∀ (n k : ℕ) (G : Matrix (Fin D) (Fin D) ℂ), ∑ j ∈ range n, z ^ (j + k) * (cap d B A ((cap d A A)^[j] G) * r).trace
      = z ^ k * (G * (s7 - z ^ n • (cup d A A)^[n] s7)).trace := by
    intro n k G
    rw [← a4, Finset.mul_sum]
    exact sum_congr rfl fun j _ => by rw [pow_add]; ring
  rw [elementK_finite hz0 h1 hB hC hr, a1, a6, a6, a5, a3, a2, pow_one]
  ring

include hs0 in
theorem elementK_tendsto (hg : Gapped d A) {c : ℂ}
    (hx : xs = z⁻¹ • cap d A A xs + z⁻¹ • cap d B A K + (z⁻¹ * z⁻¹) • capG d h B A A A 1 + z⁻¹ • capG d h A B A A 1 + c • (1 : Matrix (Fin D) (Fin D) ℂ)) :
    Tendsto (fun n : ℕ × ℕ => elementK d h A r z (n.1 + 1) (n.2 + 1) C B - (n.1 + n.2) * (capG d h A A A A 1 * r).trace * (cap d B C 1 * r).trace)
      (atTop ×ˢ atTop) (𝓝 (limitK d h A B C r z K KR s7 xs)) := by
  have hcap : ∀ {A l : ℕ → Matrix (Fin D) (Fin D) ℂ}, Continuous (cap d A l) := fun {A l} => LinearMap.continuous_of_finiteDimensional (capL d A l)
  have htr : Continuous (Matrix.trace : Matrix (Fin D) (Fin D) ℂ → ℂ) := continuous_id.matrix_trace
  have b1 : Tendsto (fun n : ℕ × ℕ => (cap d A C (cut r (xl d h A B z (n.1 + 1))) * r).trace) (atTop ×ˢ atTop) (𝓝 (cap d A C xs * r).trace) := by
    have e : cap d A C xs = cap d A C (cut r xs) := by rw [cut_apply, cap_sub, cap_smul, hC, smul_zero, sub_zero]
    rw [e]
    exact (htr.tendsto _).comp ((((hcap.tendsto _).comp (xl_tendsto hz h1 hB hr ht hg hK hx)).comp tendsto_fst).mul_const r)
  have b0 : Tendsto (fun n : ℕ × ℕ => K - (cap d A A)^[n.1] K) (atTop ×ˢ atTop) (𝓝 K) := by
    have := ((capIter_tendsto hr ht hg (series h1 hr ht hK).1).const_sub K).comp (tendsto_fst (f := atTop (α := ℕ)) (g := atTop (α := ℕ)))
    rwa [sub_zero] at this
  have b2 : Tendsto (fun n : ℕ × ℕ => (cap d B C (K - (cap d A A)^[n.1] K) * r).trace) (atTop ×ˢ atTop) (𝓝 (cap d B C K * r).trace) :=
    (htr.tendsto _).comp (((hcap.tendsto _).comp b0).mul_const r)
  have b3 : Tendsto (fun n : ℕ × ℕ => s7 - z ^ n.2 • (cup d A A)^[n.2] s7) (atTop ×ˢ atTop) (𝓝 s7) := by
    have := ((phase_tendsto hz (cupIter_tendsto h1 hr ht hg hs0)).const_sub s7).comp (tendsto_snd (f := atTop (α := ℕ)) (g := atTop (α := ℕ)))
    rwa [sub_zero] at this
  have b3' : Tendsto (fun n : ℕ × ℕ => s7 - z ^ (n.2 + 1) • (cup d A A)^[n.2 + 1] s7) (atTop ×ˢ atTop) (𝓝 s7) := by
    have := (((phase_tendsto hz (cupIter_tendsto h1 hr ht hg hs0)).comp (tendsto_add_atTop_nat 1)).const_sub s7).comp (tendsto_snd (f := atTop (α := ℕ)) (g := atTop (α := ℕ)))
    rwa [sub_zero] at this
  have b4 : Tendsto (fun n : ℕ × ℕ => KR - (cup d A A)^[n.2] KR) (atTop ×ˢ atTop) (𝓝 KR) := by
    have := ((cupIter_tendsto h1 hr ht hg (KR_zero hr ht hKR h1)).const_sub KR).comp (tendsto_snd (f := atTop (α := ℕ)) (g := atTop (α := ℕ)))
    rwa [sub_zero] at this
  have b5 := (htr.tendsto _).comp ((((hcap (A := A) (l := C)).tendsto _).comp b0).add_const (capG d h A A A C 1) |>.mul b3')
  have b6 := (htr.tendsto _).comp (b3.const_mul (capG d h A A C A 1))
  have b7 := (htr.tendsto _).comp (b4.const_mul (cap d B C 1))
  refine Tendsto.congr (fun n => (elementK_solved hz h1 hr ht hB hC hK hKR hs n.1 n.2).symm) ?_
  exact ((((((((b1.add b2).add_const _).add_const _).add_const _).add_const _).add (b5.const_mul z)).add (b6.const_mul (z ^ 2))).add b7)

end

end
end PyTeN.Excite
