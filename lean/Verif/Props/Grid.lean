import Verif.Utils.Grid
import Mathlib.Tactic.Linarith
import Mathlib.Tactic.Ring
import Mathlib.Tactic.NormNum
import Mathlib.Tactic.FieldSimp
import Mathlib.Algebra.Order.Archimedean.Basic
import Mathlib.Algebra.Order.Floor.Ring
import Mathlib.LinearAlgebra.Matrix.Determinant.Basic

/-! # C48, C49, C53: grid spacings, brackets, Wick sums -/

namespace PyTeN
open Utils

set_option linter.unusedSectionVars false

variable {K : Type*} [Field K] [LinearOrder K] [IsStrictOrderedRing K]

/-! ## C48 -/

/-- Boundaries of the cells around the grid points: `x0`, the midpoints, and `xN`. -/
def cellBoundary (x0 : K) (x : List K) (xN : K) (n : ℕ) : K :=
  if n = 0 then x0 else if n = x.length then xN else (x.getD (n - 1) 0 + x.getD n 0) / 2

theorem dxAll_eq {x0 : K} {x : List K} {xN : K} (h : 2 ≤ x.length) (ns : List ℕ) :
    dxAll x0 x xN ns = .ok (ns.map fun n =>
      if n = 0 then (x.getD 1 0 + x.getD 0 0) / 2
      else if n < x.length - 1 then (x.getD (n + 1) 0 - x.getD (n - 1) 0) / 2
      else xN - x0 - (x.getD n 0 + x.getD (n - 1) 0) / 2) := by
  induction ns with
  | nil => rfl
  | cons n ns ih =>
    match x, h with
    | a :: b :: l, _ =>
      simp only [dxAll, ih, List.map_cons]
      unfold dxAt
      by_cases h0 : n = 0
      · subst h0; simp [getE]
      · rw [if_neg h0, if_neg h0]
        split_ifs <;> rfl

/-- The spacings in terms of the cells: they are the cell widths, except that `x0` is added to the first and subtracted from the
last. -/
theorem dx_cells {x0 : K} {x : List K} {xN : K} (h : 2 ≤ x.length) :
    dxAll x0 x xN (List.range x.length) = .ok ((List.range x.length).map fun n =>
      cellBoundary x0 x xN (n + 1) - cellBoundary x0 x xN n + (if n = 0 then x0 else 0) - if n = x.length - 1 then x0 else 0) := by
  rw [dxAll_eq h]
  congr 1
  refine List.map_congr_left fun n hn => ?_
  have hn' := List.mem_range.mp hn
  simp only [cellBoundary]
  by_cases h0 : n = 0
  · subst h0
    rw [if_pos rfl, if_neg (by omega), if_neg (by omega), if_pos rfl, if_pos rfl, if_neg (by omega)]
    simp
    ring
  · rw [if_neg h0, if_neg (show ¬ n + 1 = 0 by omega), if_neg h0, if_neg (show ¬ n = x.length by omega), if_neg h0]
    by_cases h1 : n < x.length - 1
    · rw [if_pos h1, if_neg (show ¬ n + 1 = x.length by omega), if_neg (show ¬ n = x.length - 1 by omega)]
      simp only [Nat.add_sub_cancel]
      ring
    · rw [if_neg h1, if_pos (show n + 1 = x.length by omega), if_pos (show n = x.length - 1 by omega)]
      ring

theorem sum_telescope (f : ℕ → K) (n : ℕ) : ((List.range n).map fun i => f (i + 1) - f i).sum = f n - f 0 := by
  induction n with
  | zero => simp
  | succ n ih => rw [List.range_succ, List.map_append, List.sum_append, ih]; simp

theorem sum_ite_range (n i : ℕ) (hi : i < n) (c : K) : ((List.range n).map fun k => if k = i then c else 0).sum = c := by
  induction n with
  | zero => omega
  | succ n ih =>
    rw [List.range_succ, List.map_append, List.sum_append]
    by_cases h : i = n
    · subst h
      have : ((List.range i).map fun k => if k = i then c else 0).sum = 0 := by
        refine List.sum_eq_zero fun y hy => ?_
        obtain ⟨k, hk, rfl⟩ := List.mem_map.mp hy
        rw [if_neg (by have := List.mem_range.mp hk; omega)]
      simp [this]
    · rw [ih (by omega)]
      simp [Ne.symm h]

theorem sum_map_add (l : List ℕ) (f g : ℕ → K) : (l.map fun i => f i + g i).sum = (l.map f).sum + (l.map g).sum := by
  induction l with
  | nil => simp
  | cons a l ih => simp [ih]; ring

theorem dx_sum {x0 : K} {x : List K} {xN : K} (h : 2 ≤ x.length) :
    ∃ ds, dxAll x0 x xN (List.range x.length) = .ok ds ∧ ds.length = x.length ∧ ds.sum = xN - x0 := by
  refine ⟨_, dx_cells h, by simp, ?_⟩
  have e : ∀ n, cellBoundary x0 x xN (n + 1) - cellBoundary x0 x xN n + (if n = 0 then x0 else 0) - (if n = x.length - 1 then x0 else 0) =
      (cellBoundary x0 x xN (n + 1) - cellBoundary x0 x xN n) + ((if n = 0 then x0 else 0) + (if n = x.length - 1 then -x0 else 0)) := by
    intro n
    split_ifs <;> ring
  simp only [e]
  rw [sum_map_add, sum_map_add, sum_telescope, sum_ite_range _ _ (by omega), sum_ite_range _ _ (by omega)]
  simp [cellBoundary]
  intro h0
  rw [h0] at h
  simp at h

/-- **C48 (sum).**  On every grid of at least two points inside `[x0,xN]` the spacings are returned, one per point, and add up to
`xN-x0`. -/
theorem C48_sum {tol x0 : K} {x : List K} {xN : K} (ht : 0 < tol) (h : 2 ≤ x.length) (h0 : x0 ≤ x.headD 0) (hN : x.getLastD 0 ≤ xN) :
    ∃ ds, computedx tol x0 x xN = .ok ds ∧ ds.length = x.length ∧ ds.sum = xN - x0 := by
  obtain ⟨ds, h1, h2, h3⟩ := dx_sum (x0 := x0) (xN := xN) h
  refine ⟨ds, ?_, h2, h3⟩
  match x, h with
  | a :: l, h =>
    simp only [computedx]
    rw [if_neg (by simpa using h0), if_neg (by simpa using hN), h1]
    simp only [h3, sub_self, abs_zero]
    rw [if_pos ht]

/-- **C48 (partial: left boundary 0).**  If the left boundary is 0, each spacing is the width of the cell of its grid point, and
all spacings are positive on a strictly increasing grid. -/
theorem C48_cells_partial {tol : K} {x : List K} {xN : K} (ht : 0 < tol) (h : 2 ≤ x.length) (h0 : 0 ≤ x.headD 0)
    (hN : x.getLastD 0 ≤ xN) :
    ∃ ds, computedx tol 0 x xN = .ok ds ∧ ds.length = x.length ∧
      (∀ n < x.length, ds.getD n 0 = cellBoundary 0 x xN (n + 1) - cellBoundary 0 x xN n) ∧
      (x.Pairwise (· < ·) → ∀ n < x.length, 0 < ds.getD n 0) := by
  obtain ⟨ds, h1, h2, -⟩ := C48_sum ht h h0 hN
  have hd : ds = (List.range x.length).map fun n => cellBoundary 0 x xN (n + 1) - cellBoundary 0 x xN n := by
    have h3 := dx_cells (x0 := (0 : K)) (xN := xN) h
    match x, h with
    | a :: l, h =>
      simp only [computedx] at h1
      rw [if_neg (by simpa using h0), if_neg (by simpa using hN), h3] at h1
      simp only at h1
      split_ifs at h1
      · simpa using (Except.ok.inj h1).symm
  have hg : ∀ n < x.length, ds.getD n 0 = cellBoundary 0 x xN (n + 1) - cellBoundary 0 x xN n := by
    intro n hn
    rw [hd, List.getD_eq_getElem _ _ (by simpa using hn)]
    simp
  refine ⟨ds, h1, h2, hg, fun hp n hn => ?_⟩
  have hlt : ∀ i j, i < j → j < x.length → x.getD i 0 < x.getD j 0 := by
    intro i j hij hj
    rw [List.getD_eq_getElem _ _ (hij.trans hj), List.getD_eq_getElem _ _ hj]
    exact List.pairwise_iff_getElem.mp hp i j _ _ hij
  have hx0 : 0 ≤ x.getD 0 0 := by
    match x, h with
    | a :: l, _ => simpa using h0
  have hxN : x.getD (x.length - 1) 0 ≤ xN := by
    rw [List.getLastD_eq_getLast?, List.getLast?_eq_getElem?] at hN
    rwa [List.getD_eq_getElem?_getD]
  rw [hg n hn]
  simp only [cellBoundary]
  by_cases hn0 : n = 0
  · subst hn0
    have := hlt 0 1 (by omega) (by omega)
    rw [if_neg (by omega), if_neg (by omega), if_pos rfl]
    simp only [zero_add]
    linarith
  · rw [if_neg (by omega), if_neg hn0, if_neg (show ¬ n = x.length by omega)]
    by_cases h1 : n + 1 = x.length
    · rw [if_pos h1]
      have := hlt (n - 1) n (by omega) hn
      have e : x.length - 1 = n := by omega
      rw [e] at hxN
      linarith
    · rw [if_neg h1]
      have a1 := hlt (n - 1) n (by omega) hn
      have a2 := hlt n (n + 1) (by omega) (by omega)
      simp only [Nat.add_sub_cancel]
      linarith

/-- **C48 is violated for a left boundary other than 0**: on the grid 10, 11 in `[10,11]` the last spacing is negative, though the
two cells have width 1/2. -/
theorem C48_violated : computedx (1 / 10 ^ 12 : ℚ) 10 [10, 11] 11 = .ok [21 / 2, -19 / 2] := by
  simp [computedx, dxAll, dxAt, getE, List.range_succ]
  norm_num

/-- A grid of one point raises IndexError. -/
theorem C48_one_point {tol x0 a xN : K} (h0 : x0 ≤ a) (hN : a ≤ xN) : computedx tol x0 [a] xN = .error .index := by
  simp [computedx, dxAll, dxAt, getE, h0, hN, List.range_succ]

example : ∃ ds, computedx (1 / 10 ^ 12 : ℚ) 0 [0, 1, 3] 4 = .ok ds ∧ ds = [1 / 2, 3 / 2, 2] := by
  refine ⟨_, ?_, rfl⟩
  simp [computedx, dxAll, dxAt, getE, List.range_succ]
  norm_num

/-! ## C49 -/

theorem bracket_run (f : K → K) {D t a0 b0 : K} {n : ℕ} (hlt : ∀ i < n, SignType.sign (f (a0 - i * D)) = SignType.sign (f (b0 + i * D)) ∧
    (i + 1) * |D| ≤ t) (m k : ℕ) (hm : m + k = n) (fuel : ℕ) :
    placeBraket f D t a0 b0 (fuel + k) (a0 - m * D) (b0 + m * D) = placeBraket f D t a0 b0 fuel (a0 - n * D) (b0 + n * D) := by
  induction k generalizing m with
  | zero => obtain rfl : m = n := by omega
            rfl
  | succ k ih =>
    obtain ⟨h1, h2⟩ := hlt m (by omega)
    have e1 : a0 - m * D - D = a0 - ((m + 1 : ℕ) : K) * D := by push_cast; ring
    have e2 : b0 + m * D + D = b0 + ((m + 1 : ℕ) : K) * D := by push_cast; ring
    have e3 : |a0 - ((m + 1 : ℕ) : K) * D - a0| = (m + 1) * |D| := by
      rw [show a0 - ((m + 1 : ℕ) : K) * D - a0 = -((m + 1 : ℕ) * D) by ring, abs_neg, abs_mul, Nat.abs_cast]; push_cast; rfl
    have e4 : |b0 + ((m + 1 : ℕ) : K) * D - b0| = (m + 1) * |D| := by
      rw [show b0 + ((m + 1 : ℕ) : K) * D - b0 = ((m + 1 : ℕ) * D) by ring, abs_mul, Nat.abs_cast]; push_cast; rfl
    rw [← add_assoc, placeBraket, if_neg (by simpa using h1)]
    simp only [e1, e2, e3, e4]
    rw [if_neg (by simpa using h2), ih (m + 1) (by omega)]

/-- **C49 (partial: `Delta ≠ 0`).**  The search stops; it visits the brackets `[a-i*Delta, b+i*Delta]` in turn, and returns the
first one with different signs (flag True), or, if all brackets within the threshold have equal signs, the first bracket
beyond the threshold (flag False).  The number of steps is bounded by `n*|Delta| ≤ thresh` (for `n > 0`). -/
theorem C49_search_partial [Archimedean K] (f : K → K) {D : K} (hD : D ≠ 0) (t a b : K) :
    ∃ n : ℕ, (∀ i < n, SignType.sign (f (a - i * D)) = SignType.sign (f (b + i * D))) ∧ (0 < n → n * |D| ≤ t) ∧
      ((SignType.sign (f (a - n * D)) ≠ SignType.sign (f (b + n * D)) ∧
          ∀ fuel > n, placeBraket f D t a b fuel a b = .ok (a - n * D, b + n * D, true)) ∨
        (SignType.sign (f (a - n * D)) = SignType.sign (f (b + n * D)) ∧ t < (n + 1) * |D| ∧
          ∀ fuel > n, placeBraket f D t a b fuel a b = .ok (a - (n + 1) * D, b + (n + 1) * D, false))) := by
  classical
  have hD' : 0 < |D| := abs_pos.mpr hD
  have hex : ∃ n : ℕ, SignType.sign (f (a - n * D)) ≠ SignType.sign (f (b + n * D)) ∨ t < (n + 1) * |D| := by
    obtain ⟨n, hn⟩ := Archimedean.arch t hD'
    refine ⟨n, Or.inr ?_⟩
    rw [nsmul_eq_mul] at hn
    linarith
  have hmin := fun i (hi : i < Nat.find hex) => Nat.find_min hex hi
  have hspec := Nat.find_spec hex
  generalize Nat.find hex = n at hmin hspec
  have hlt : ∀ i < n, SignType.sign (f (a - i * D)) = SignType.sign (f (b + i * D)) ∧ (i + 1) * |D| ≤ t := by
    intro i hi
    have := hmin i hi
    push Not at this
    exact this
  have hrun : ∀ fuel > n, ∃ k, placeBraket f D t a b fuel a b = placeBraket f D t a b (k + 1) (a - n * D) (b + n * D) := by
    intro fuel hf
    obtain ⟨k, rfl⟩ := Nat.exists_eq_add_of_lt hf
    have := bracket_run f hlt 0 n (by omega) (k + 1)
    simp only [Nat.cast_zero, zero_mul, sub_zero, add_zero] at this
    exact ⟨k, by rw [show n + k + 1 = k + 1 + n by omega]; exact this⟩
  refine ⟨n, fun i hi => (hlt i hi).1, ?_, ?_⟩
  · intro hn
    have := (hlt (n - 1) (by omega)).2
    rw [Nat.cast_sub hn] at this
    simpa using this
  · by_cases hs : SignType.sign (f (a - n * D)) = SignType.sign (f (b + n * D))
    · have ht := hspec.resolve_left (by simpa using hs)
      refine Or.inr ⟨hs, ht, fun fuel hf => ?_⟩
      obtain ⟨k, hk⟩ := hrun fuel hf
      have e1 : a - n * D - D = a - (n + 1) * D := by ring
      have e2 : b + n * D + D = b + (n + 1) * D := by ring
      have e3 : |a - (n + 1) * D - a| = (n + 1) * |D| := by
        rw [show a - (n + 1) * D - a = -((n + 1 : ℕ) * D) by push_cast; ring, abs_neg, abs_mul, Nat.abs_cast]; push_cast; rfl
      rw [hk, placeBraket, if_neg (by simpa using hs)]
      simp only [e1, e2, e3]
      rw [if_pos (Or.inl ht)]
    · refine Or.inl ⟨hs, fun fuel hf => ?_⟩
      obtain ⟨k, hk⟩ := hrun fuel hf
      rw [hk, placeBraket, if_pos hs]

/-- A returned bracket has function values of weakly opposite sign, not both zero. -/
theorem C49_bracket {f : K → K} {D t a0 b0 a b : K} {fuel : ℕ} {x y : K}
    (h : placeBraket f D t a0 b0 fuel x y = .ok (a, b, true)) : f a * f b ≤ 0 ∧ ¬ (f a = 0 ∧ f b = 0) := by
  induction fuel generalizing x y with
  | zero => simp [placeBraket] at h
  | succ fuel ih =>
    rw [placeBraket] at h
    by_cases hs : SignType.sign (f x) ≠ SignType.sign (f y)
    · rw [if_pos hs] at h
      simp only [Except.ok.injEq, Prod.mk.injEq, and_true] at h
      obtain ⟨rfl, rfl⟩ := h
      refine ⟨?_, fun h => hs (by rw [h.1, h.2])⟩
      by_contra hlt
      push Not at hlt
      rcases mul_pos_iff.mp hlt with ⟨p, q⟩ | ⟨p, q⟩
      · exact hs (by rw [sign_pos p, sign_pos q])
      · exact hs (by rw [sign_neg p, sign_neg q])
    · rw [if_neg hs] at h
      simp only at h
      split_ifs at h
      · simp at h
      · exact ih h

/-- **C49 is violated at zeros**: a bracket is returned although the function vanishes at one end and so the signs are not
opposite. -/
theorem C49_violated_zero : placeBraket (fun x : ℚ => x) 1 5 0 1 1 0 1 = .ok (0, 1, true) ∧
    ¬ ((0 : ℚ) < 0 ∧ (0 : ℚ) < 1 ∨ (0 : ℚ) < 0 ∧ (1 : ℚ) < 0) := by
  constructor
  · simp [placeBraket]
  · simp

/-- **C49 is violated for `Delta = 0`**: if the signs are equal (and the threshold is not negative) the search never stops. -/
theorem C49_violated_zero_step {f : K → K} {t a b : K} (ht : 0 ≤ t) (hs : SignType.sign (f a) = SignType.sign (f b)) (fuel : ℕ) :
    placeBraket f 0 t a b fuel a b = .error .exit := by
  induction fuel with
  | zero => rfl
  | succ fuel ih =>
    rw [placeBraket, if_neg (by simpa using hs)]
    simp only [sub_zero, add_zero, sub_self, abs_zero, gt_iff_lt, or_self]
    rw [if_neg (by simpa using ht), ih]

example : placeBraket (fun x : ℚ => x - 11 / 2) 1 10 0 1 20 0 1 = .ok (-5, 6, true) := by
  have h : ∀ x : ℚ, SignType.sign x = if 0 < x then 1 else if x < 0 then -1 else 0 := fun x => rfl
  simp [placeBraket, h]
  norm_num

/-! ## C53 -/

section
variable {F : Type*} [Field F]

/-- A single pair is the two-point function. -/
theorem C53_pair_partial (M : ℕ → ℕ → F) (i j fuel : ℕ) :
    SFwick M (fuel + 1) [i] [j] = .ok (M i j) ∧ SBwick M fuel [i] [j] = .ok (M i j) := ⟨rfl, rfl⟩

/-- The result for two distinct creators and two distinct annihilators. -/
theorem wick_two (M : ℕ → ℕ → F) {i1 i2 j1 j2 : ℕ} (hi : i1 ≠ i2) (hj : j1 ≠ j2) (fuel : ℕ) :
    SFwick M (fuel + 2) [i1, i2] [j1, j2] = .ok (M 0 0 * M i2 j2 - M 0 1 * M i2 j1 - M 1 0 * M i1 j2 + M 1 1 * M i1 j1) ∧
      SBwick M (fuel + 1) [i1, i2] [j1, j2] = .ok (M 0 0 * M i2 j2 + M 0 1 * M i2 j1 + M 1 0 * M i1 j2 + M 1 1 * M i1 j1) := by
  have f1 : [i1, i2].filter (fun l => l ≠ i1) = [i2] := by simp [hi.symm]
  have f2 : [i1, i2].filter (fun l => l ≠ i2) = [i1] := by simp [hi]
  have f3 : [j1, j2].filter (fun l => l ≠ j1) = [j2] := by simp [hj.symm]
  have f4 : [j1, j2].filter (fun l => l ≠ j2) = [j1] := by simp [hj]
  have r2 : List.range 2 = [0, 1] := rfl
  constructor
  · rw [SFwick]
    simp only [List.length_cons, List.length_nil, zero_add, Nat.reduceAdd, r2, List.foldl_cons, List.foldl_nil, List.getD_cons_zero,
      List.getD_cons_succ, f1, f2, f3, f4, SFwick]
    congr 1
    norm_num
    ring
    simp
  · rw [SBwick]
    simp only [List.length_cons, List.length_nil, zero_add, Nat.reduceAdd, r2, List.foldl_cons, List.foldl_nil, List.getD_cons_zero,
      List.getD_cons_succ, f1, f2, f3, f4, SFwick]
    simp

/-- **C53 is violated for four operators**: with the labels 0 and 1 the fermionic result is twice the determinant and the bosonic
one twice the permanent, so neither is the Wick sum (whatever the sign convention) unless that is zero. -/
theorem C53_violated_factor [CharZero F] (M : ℕ → ℕ → F) (fuel : ℕ) :
    let W : Matrix (Fin 2) (Fin 2) F := Matrix.of fun a b => M a b
    SFwick M (fuel + 2) [0, 1] [0, 1] = .ok (2 * W.det) ∧
      SBwick M (fuel + 1) [0, 1] [0, 1] = .ok (2 * (M 0 0 * M 1 1 + M 0 1 * M 1 0)) ∧
      (W.det ≠ 0 → 2 * W.det ≠ W.det ∧ 2 * W.det ≠ -W.det) := by
  intro W
  have hd : W.det = M 0 0 * M 1 1 - M 0 1 * M 1 0 := by rw [Matrix.det_fin_two]; simp [W]
  obtain ⟨h1, h2⟩ := wick_two M (i1 := 0) (i2 := 1) (j1 := 0) (j2 := 1) (by omega) (by omega) fuel
  refine ⟨?_, ?_, fun hne => ⟨?_, ?_⟩⟩
  · rw [h1, hd]; congr 1; ring
  · rw [h2]; congr 1; ring
  · intro h
    apply hne
    linear_combination h
  · intro h
    have h3 : (3 : F) * W.det = 0 := by linear_combination h
    rcases mul_eq_zero.mp h3 with h4 | h4
    · norm_num at h4
    · exact hne h4

/-- **C53 is violated for shifted labels**: `SFwick` reads the matrix at list positions, so its value for the labels 2 and 3
depends on entries that do not belong to these operators: here all correlations between the labels 2 and 3 vanish except
the diagonal ones, and the result is 0 instead of 1. -/
theorem C53_violated_labels (fuel : ℕ) :
    SFwick (fun i j => if i = j ∧ 2 ≤ i then (1 : ℚ) else 0) (fuel + 2) [2, 3] [2, 3] = .ok 0 := by
  rw [(wick_two _ (by omega) (by omega) fuel).1]
  simp

end

end PyTeN
