import Verif.Utils.Bits

/-! # C05, C06: fixed-popcount basis and bit primitives -/

namespace PyTeN
open Finset Bits

/-! ## C06 -/

theorem mask_getLsbD (pos i : ℕ) (hp : pos < 64) : (mask pos).getLsbD i = decide (i = pos) := by
  simp only [mask, BitVec.getLsbD_shiftLeft, BitVec.getLsbD_one]
  by_cases h : i = pos
  · subst h; simp [hp]
  · by_cases h2 : i < pos
    · simp [h, h2]
    · have : i - pos ≠ 0 := by omega
      simp [h, this]

theorem and_mask_eq_zero (b : BitVec 64) (pos : ℕ) (hp : pos < 64) : b &&& mask pos = 0#64 ↔ b.getLsbD pos = false := by
  constructor
  · intro h
    have := congrArg (fun x => x.getLsbD pos) h
    simpa [mask_getLsbD _ _ hp] using this
  · intro h
    refine BitVec.eq_of_getLsbD_eq fun i hi => ?_
    rw [BitVec.getLsbD_and, mask_getLsbD _ _ hp, BitVec.getLsbD_zero]
    by_cases hip : i = pos
    · subst hip; simp [h]
    · simp [hip]

/-- **C06.**  Every bit of the results. -/
theorem C06_bits (b : BitVec 64) (pos i : ℕ) (hp : pos < 64) :
    (setBit b pos).getLsbD i = (if i = pos then true else b.getLsbD i) ∧
      (unsetBit b pos).getLsbD i = (if i = pos then false else b.getLsbD i) ∧
      (flipBit b pos).getLsbD i = (if i = pos then !b.getLsbD i else b.getLsbD i) ∧
      getBit b pos = (b.getLsbD pos).toNat := by
  refine ⟨?_, ?_, ?_, ?_⟩
  · simp only [setBit, BitVec.getLsbD_or, mask_getLsbD _ _ hp]
    by_cases h : i = pos <;> simp [h]
  · simp only [unsetBit, BitVec.getLsbD_and, BitVec.getLsbD_not, mask_getLsbD _ _ hp]
    by_cases h : i = pos
    · simp [h]
    · by_cases h64 : i < 64
      · simp [h, h64]
      · simp [h, BitVec.getLsbD_of_ge b i (by omega)]
  · unfold flipBit
    by_cases hb : b &&& mask pos = 0#64
    · rw [if_pos hb, BitVec.getLsbD_or, mask_getLsbD _ _ hp]
      have := (and_mask_eq_zero b pos hp).mp hb
      by_cases h : i = pos
      · subst h; simp [this]
      · simp [h]
    · rw [if_neg hb, BitVec.getLsbD_and, BitVec.getLsbD_not, mask_getLsbD _ _ hp]
      have hb' : b.getLsbD pos = true := by
        by_contra hne
        exact hb ((and_mask_eq_zero b pos hp).mpr (by simpa using hne))
      by_cases h : i = pos
      · subst h; simp [hb']
      · by_cases h64 : i < 64
        · simp [h, h64]
        · simp [h, BitVec.getLsbD_of_ge b i (by omega)]
  · unfold getBit
    by_cases hb : b &&& mask pos = 0#64
    · rw [hb, (and_mask_eq_zero b pos hp).mp hb]; simp
    · have hb' : b.getLsbD pos = true := by
        by_contra hne
        exact hb ((and_mask_eq_zero b pos hp).mpr (by simpa using hne))
      rw [if_pos, hb']
      · rfl
      · change 0#64 < _
        rw [BitVec.lt_def]
        have h0 : (b &&& mask pos).toNat ≠ 0 := fun h => hb (BitVec.eq_of_toNat_eq (by simpa using h))
        simp only [BitVec.toNat_ofNat, Nat.zero_mod]
        omega

/-- **C06 (consequences).**  Flipping twice is the identity, setting and unsetting are idempotent and undo each other's effect on
the addressed bit, and operations at different positions commute. -/
theorem C06_laws (b : BitVec 64) {pos q : ℕ} (hp : pos < 64) (hq : q < 64) :
    flipBit (flipBit b pos) pos = b ∧ setBit (setBit b pos) pos = setBit b pos ∧
      unsetBit (unsetBit b pos) pos = unsetBit b pos ∧ setBit (unsetBit b pos) pos = setBit b pos ∧
      unsetBit (setBit b pos) pos = unsetBit b pos ∧
      flipBit (flipBit b pos) q = flipBit (flipBit b q) pos ∧ setBit (setBit b pos) q = setBit (setBit b q) pos ∧
      unsetBit (unsetBit b pos) q = unsetBit (unsetBit b q) pos ∧
      (pos ≠ q → setBit (unsetBit b q) pos = unsetBit (setBit b pos) q ∧ setBit (flipBit b q) pos = flipBit (setBit b pos) q ∧
        unsetBit (flipBit b q) pos = flipBit (unsetBit b pos) q) := by
  have S : ∀ (b : BitVec 64) {pos : ℕ}, pos < 64 → ∀ i, (setBit b pos).getLsbD i = (if i = pos then true else b.getLsbD i) :=
    fun b _ h i => (C06_bits b _ i h).1
  have U : ∀ (b : BitVec 64) {pos : ℕ}, pos < 64 → ∀ i, (unsetBit b pos).getLsbD i = (if i = pos then false else b.getLsbD i) :=
    fun b _ h i => (C06_bits b _ i h).2.1
  have F : ∀ (b : BitVec 64) {pos : ℕ}, pos < 64 → ∀ i, (flipBit b pos).getLsbD i = (if i = pos then !b.getLsbD i else b.getLsbD i) :=
    fun b _ h i => (C06_bits b _ i h).2.2.1
  refine ⟨?_, ?_, ?_, ?_, ?_, ?_, ?_, ?_, fun hne => ⟨?_, ?_, ?_⟩⟩ <;> refine BitVec.eq_of_getLsbD_eq fun i hi => ?_ <;>
    simp only [S _ hp, S _ hq, U _ hp, U _ hq, F _ hp, F _ hq] <;> split_ifs <;>
    first | rfl | (exfalso; omega) | simp

/-! ## C05 -/

/-- Number of ones among the lowest `N` binary digits. -/
def ones (N x : ℕ) : ℕ := #{i ∈ range N | x.testBit i = true}

theorem ones_le (N x : ℕ) : ones N x ≤ N := (card_filter_le _ _).trans_eq (card_range N)

theorem ones_zero (N : ℕ) : ones N 0 = 0 := by simp [ones]

theorem eq_zero_of_ones {N x : ℕ} (hx : x < 2 ^ N) (h : ones N x = 0) : x = 0 := by
  refine Nat.eq_of_testBit_eq fun i => ?_
  rw [Nat.zero_testBit]
  by_cases hi : i < N
  · by_contra hne
    have : i ∈ ({i ∈ range N | x.testBit i = true} : Finset ℕ) := mem_filter.mpr ⟨mem_range.mpr hi, by simpa using hne⟩
    rw [card_eq_zero.mp h] at this
    simp at this
  · exact Nat.testBit_eq_false_of_lt (hx.trans_le (Nat.pow_le_pow_right (by omega) (by omega)))

theorem ones_add_pow {N n p : ℕ} (hn : n < 2 ^ p) (hp : p < N) : ones N (n + 2 ^ p) = ones p n + 1 := by
  have hset : ({i ∈ range N | (n + 2 ^ p).testBit i = true} : Finset ℕ) = insert p ({i ∈ range p | n.testBit i = true} : Finset ℕ) := by
    ext i
    rw [add_comm n]
    simp only [mem_filter, mem_range, mem_insert]
    rcases lt_trichotomy i p with h | rfl | h
    · rw [Nat.testBit_two_pow_add_gt h]
      constructor
      · rintro ⟨_, h2⟩; exact Or.inr ⟨h, h2⟩
      · rintro (rfl | ⟨_, h2⟩)
        · omega
        · exact ⟨by omega, h2⟩
    · rw [Nat.testBit_two_pow_add_eq, Nat.testBit_eq_false_of_lt hn]
      simp [hp]
    · have : (2 ^ p + n).testBit i = false := by
        refine Nat.testBit_eq_false_of_lt ?_
        have : 2 ^ (p + 1) ≤ 2 ^ i := Nat.pow_le_pow_right (by omega) h
        rw [pow_succ] at this
        omega
      rw [this]
      simp
      omega
  rw [ones, hset, card_insert_of_notMem (by simp), ones]

/-- The largest one of a non-zero number. -/
theorem top_bit {x : ℕ} (hx : x ≠ 0) : ∃ p n, x = n + 2 ^ p ∧ n < 2 ^ p := by
  refine ⟨x.log2, x - 2 ^ x.log2, ?_, ?_⟩
  · have := Nat.log2_self_le hx; omega
  · have h1 := Nat.log2_self_le hx
    have h2 : x < 2 ^ (x.log2 + 1) := Nat.lt_log2_self
    rw [pow_succ] at h2
    omega

theorem basis_mem (k N x : ℕ) : x ∈ binarybasis id k N ↔ x < 2 ^ N ∧ ones N x = k := by
  induction k generalizing N x with
  | zero =>
    simp only [binarybasis, List.mem_singleton]
    constructor
    · rintro rfl; exact ⟨by positivity, ones_zero N⟩
    · rintro ⟨h1, h2⟩; exact eq_zero_of_ones h1 h2
  | succ k ih =>
    simp only [binarybasis, List.mem_flatMap, List.mem_range'_1, List.mem_map, id]
    constructor
    · rintro ⟨p, hp, n, hn, rfl⟩
      obtain ⟨h1, h2⟩ := (ih p n).mp hn
      have hpN : p < N := by omega
      refine ⟨?_, by rw [ones_add_pow h1 hpN, h2]⟩
      have : 2 ^ (p + 1) ≤ 2 ^ N := Nat.pow_le_pow_right (by omega) hpN
      rw [pow_succ] at this
      omega
    · rintro ⟨h1, h2⟩
      have hx : x ≠ 0 := by rintro rfl; rw [ones_zero] at h2; omega
      obtain ⟨p, n, rfl, hn⟩ := top_bit hx
      have hpN : p < N := by
        by_contra hge
        have : 2 ^ N ≤ 2 ^ p := Nat.pow_le_pow_right (by omega) (by omega)
        omega
      rw [ones_add_pow hn hpN] at h2
      have hk := ones_le p n
      exact ⟨p, by omega, n, (ih p n).mpr ⟨hn, by omega⟩, rfl⟩

theorem basis_sorted (k N : ℕ) : (binarybasis id k N).Pairwise (· < ·) := by
  induction k generalizing N with
  | zero => simp [binarybasis]
  | succ k ih =>
    simp only [binarybasis]
    rw [List.pairwise_flatMap]
    constructor
    · intro p _
      rw [List.pairwise_map]
      exact (ih p).imp fun {a b} h => by simp only [id]; omega
    · refine (List.pairwise_lt_range' (step := 1) (by omega)).imp fun {p q} hpq => ?_
      intro x hx y hy
      obtain ⟨n, hn, rfl⟩ := List.mem_map.mp hx
      obtain ⟨m, hm, rfl⟩ := List.mem_map.mp hy
      have h1 := ((basis_mem k p n).mp hn).1
      have : 2 ^ (p + 1) ≤ 2 ^ q := Nat.pow_le_pow_right (by omega) hpq
      rw [pow_succ] at this
      simp only [id]
      omega

theorem basis_length (rnd : ℕ → ℕ) (k N : ℕ) : (binarybasis rnd k N).length = N.choose k := by
  induction k generalizing N with
  | zero => simp [binarybasis]
  | succ k ih =>
    simp only [binarybasis, List.length_flatMap, List.length_map, ih]
    by_cases hk : N < k
    · rw [Nat.sub_eq_zero_of_le hk.le, Nat.choose_eq_zero_of_lt (by omega)]; rfl
    · obtain ⟨m, rfl⟩ := Nat.exists_eq_add_of_le (not_lt.mp hk)
      rw [Nat.add_sub_cancel_left]
      induction m with
      | zero => simp
      | succ m ihm =>
        rw [List.range'_1_concat, List.map_append, List.sum_append, ihm (by omega)]
        rw [← add_assoc, Nat.choose_succ_succ' (k + m) k]
        simp [add_comm]

/-- **C05.**  The list is strictly increasing, its elements are exactly the numbers below `2^N` with `Nup` ones, and its length is
the binomial coefficient. -/
theorem C05_basis (N Nup : ℕ) :
    (binarybasis id Nup N).Pairwise (· < ·) ∧ (∀ x, x ∈ binarybasis id Nup N ↔ x < 2 ^ N ∧ ones N x = Nup) ∧
      (binarybasis id Nup N).length = N.choose Nup :=
  ⟨basis_sorted Nup N, basis_mem Nup N, basis_length id Nup N⟩

theorem basis_rnd {rnd : ℕ → ℕ} (h : ∀ n < 2 ^ 53, rnd n = n) (k N : ℕ) (hN : N ≤ 53) :
    binarybasis rnd k N = binarybasis id k N := by
  induction k generalizing N with
  | zero => rfl
  | succ k ih =>
    simp only [binarybasis]
    refine List.flatMap_congr fun p hp => ?_
    have hp' := List.mem_range'_1.mp hp
    rw [ih p (by omega)]
    refine List.map_congr_left fun n hn => ?_
    have h1 := ((basis_mem k p n).mp hn).1
    rw [h _ ?_, id]
    have : 2 ^ (p + 1) ≤ 2 ^ 53 := Nat.pow_le_pow_right (by omega) (by omega)
    rw [pow_succ] at this
    omega

/-- **C05 (double precision).**  The additions may be done in double precision as long as there are at most 53 sites. -/
theorem C05_double (N Nup : ℕ) (hN : N ≤ 53) : binarybasis double Nup N = binarybasis id Nup N :=
  basis_rnd (fun n hn => by rw [double, if_pos hn]) Nup N hN

/-- With 54 or more sites, two particles and additions in double precision the list contains a number with a single one.  This is
what numpy 1.x does: `np.uint64(1)+2**53` is a double. -/
theorem C05_violated_double (N : ℕ) (hN : 54 ≤ N) : 2 ^ 53 ∈ binarybasis double 2 N ∧ ones N (2 ^ 53) ≠ 2 := by
  constructor
  · simp only [binarybasis, List.mem_flatMap, List.mem_range'_1, List.mem_map]
    refine ⟨53, by omega, 1, ⟨0, by omega, 0, by simp, by decide⟩, by decide⟩
  · have := ones_add_pow (N := N) (n := 0) (p := 53) (by positivity) (by omega)
    rw [zero_add, ones_zero] at this
    omega

example : binarybasis id 2 4 = [3, 5, 6, 9, 10, 12] := by decide
example : flipBit 5#64 1 = 7#64 ∧ flipBit 5#64 2 = 1#64 ∧ getBit 5#64 2 = 1 ∧ getBit 5#64 63 = 0 := by decide

end PyTeN
