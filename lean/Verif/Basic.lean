import Mathlib.Algebra.BigOperators.Ring.Finset
import Mathlib.Algebra.BigOperators.Intervals
import Mathlib.Tactic.Ring
import Mathlib.Tactic.Linarith

/-!
# Basic vocabulary of the model

numpy arrays are modelled as a shape together with an entry function; the entries outside the
shape are irrelevant (every statement only looks inside the shape).  Arithmetic is exact.
Python exceptions are values of `PyErr`.
-/

namespace PyTeN

/-- Python / numpy failures that the modelled code can produce.  `nan` is not an exception in
numpy but a division `0/0` that fills the result with NaN; it is treated as a failure here so that
no theorem can hold because of Lean's `x/0 = 0`. -/
inductive PyErr
  | assertion | value | type | index | name | unbound | attribute | zerodiv | nan | exit | key
  deriving DecidableEq, Repr

/-- Result of a Python call: a value or an exception. -/
abbrev Res (α : Type*) := Except PyErr α

/-- `np.ndarray` of shape `(r, c)`. -/
structure Mat (K : Type*) where
  r : ℕ
  c : ℕ
  v : ℕ → ℕ → K

/-- MPS tensor: `np.ndarray` of shape `(l, r, d)` = (left bond, right bond, physical),
see lib/mpslib/mps.py:92-104. -/
structure Ten (K : Type*) where
  l : ℕ
  r : ℕ
  d : ℕ
  v : ℕ → ℕ → ℕ → K

/-- MPO tensor: `np.ndarray` of shape `(l, r, din, dout)`, see lib/mpslib/mpsfunctions.py:916-930. -/
structure Mpo (K : Type*) where
  l : ℕ
  r : ℕ
  din : ℕ
  dout : ℕ
  v : ℕ → ℕ → ℕ → ℕ → K

/-- Environment tensor of shape `(u, w, m)` = (upper bond, lower bond, mpo bond),
see lib/mpslib/mpsfunctions.py:916-930. -/
structure Env (K : Type*) where
  u : ℕ
  w : ℕ
  m : ℕ
  v : ℕ → ℕ → ℕ → K

open Finset

/-- Row-major (C order) index splitting: a sum over `a*b` is a double sum. -/
theorem sum_range_mul {K : Type*} [AddCommMonoid K] (a b : ℕ) (f : ℕ → K) :
    ∑ k ∈ range (a * b), f k = ∑ i ∈ range a, ∑ j ∈ range b, f (i * b + j) := by
  induction a with
  | zero => simp
  | succ a ih =>
    rw [Nat.succ_mul, sum_range_add, ih, sum_range_succ]

/-- Same with the minor index first. -/
theorem sum_range_mul' {K : Type*} [AddCommMonoid K] (a b : ℕ) (f : ℕ → K) :
    ∑ k ∈ range (a * b), f k = ∑ j ∈ range b, ∑ i ∈ range a, f (i * b + j) := by
  rw [sum_range_mul, sum_comm]

theorem idx_lt {a b i j : ℕ} (hi : i < a) (hj : j < b) : i * b + j < a * b := by
  calc i * b + j < i * b + b := by omega
    _ = (i + 1) * b := by ring
    _ ≤ a * b := Nat.mul_le_mul_right b hi

theorem idx_div {b i j : ℕ} (hj : j < b) : (i * b + j) / b = i := by
  have hb : 0 < b := by omega
  rw [Nat.mul_comm, Nat.mul_add_div hb, Nat.div_eq_of_lt hj, Nat.add_zero]

theorem idx_mod {b i j : ℕ} (hj : j < b) : (i * b + j) % b = j := by
  rw [Nat.mul_comm, Nat.mul_add_mod, Nat.mod_eq_of_lt hj]

/-- Kronecker delta. -/
def delta (K : Type*) [Zero K] [One K] (i j : ℕ) : K := if i = j then 1 else 0

section delta
variable {K : Type*} [CommSemiring K]

@[simp] theorem delta_self (i : ℕ) : delta K i i = 1 := by simp [delta]

theorem delta_ne {i j : ℕ} (h : i ≠ j) : delta K i j = 0 := by simp [delta, h]

theorem delta_comm (i j : ℕ) : delta K i j = delta K j i := by
  unfold delta; simp [eq_comm]

theorem sum_delta_left {n i : ℕ} (hi : i < n) (f : ℕ → K) :
    ∑ k ∈ range n, delta K i k * f k = f i := by
  rw [sum_eq_single i]
  · simp
  · intro b _ hb; simp [delta_ne (Ne.symm hb)]
  · intro h; exact absurd (mem_range.mpr hi) h

theorem sum_delta_right {n j : ℕ} (hj : j < n) (f : ℕ → K) :
    ∑ k ∈ range n, f k * delta K k j = f j := by
  rw [sum_eq_single j]
  · simp
  · intro b _ hb; simp [delta_ne hb]
  · intro h; exact absurd (mem_range.mpr hj) h

theorem sum_delta_left' {n i : ℕ} (hi : i < n) (f : ℕ → K) :
    ∑ k ∈ range n, delta K k i * f k = f i := by
  simp_rw [delta_comm _ i]; exact sum_delta_left hi f

theorem sum_delta_right' {n j : ℕ} (hj : j < n) (f : ℕ → K) :
    ∑ k ∈ range n, f k * delta K j k = f j := by
  simp_rw [delta_comm j]; exact sum_delta_right hj f

end delta

end PyTeN
