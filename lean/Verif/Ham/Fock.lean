import Verif.Ham.Local

/-! # Specification: fermionic operators on occupation-number states

Modes are numbered; an occupation-number state is a list of zeros and ones.  A creation or annihilation operator maps
a basis state to a multiple of a basis state, with the sign given by the number of particles on the modes in front. -/

namespace PyTeN

/-- Whether `a†` (`b = true`) or `a` (`b = false`) can act on a mode with occupation `x`. -/
def can (b : Bool) (x : ℕ) : ℤ := if x = cond b 0 1 then 1 else 0

/-- `a_n` (`b = false`) or `a†_n` (`b = true`) applied to a basis state: coefficient and new state. -/
def one (b : Bool) (n : ℕ) (s : List ℕ) : ℤ × List ℕ :=
  (can b (s.getD n 0) * (-1) ^ (s.take n).sum, s.set n (cond b 1 0))

/-- Product of creation and annihilation operators, leftmost factor acting last. -/
def word : List (Bool × ℕ) → List ℕ → ℤ × List ℕ
  | [], s => (1, s)
  | (b, n) :: w, s => ((one b n (word w s).2).1 * (word w s).1, (one b n (word w s).2).2)

/-- Matrix element `⟨t| w |s⟩`. -/
def fEl (w : List (Bool × ℕ)) (s t : List ℕ) : ℤ := if (word w s).2 = t then (word w s).1 else 0

theorem one_length (b : Bool) (n : ℕ) (s : List ℕ) : (one b n s).2.length = s.length := by
  simp [one]

theorem word_length (w : List (Bool × ℕ)) (s : List ℕ) : (word w s).2.length = s.length := by
  induction w with
  | nil => rfl
  | cons x w ih => simp [word, one_length, ih]

/-- Modes behind a prefix. -/
theorem one_prefix (b : Bool) (n : ℕ) (p s : List ℕ) :
    one b (p.length + n) (p ++ s) = ((-1) ^ p.sum * (one b n s).1, p ++ (one b n s).2) := by
  have h1 : (p ++ s).getD (p.length + n) 0 = s.getD n 0 := by
    simp [List.getD_eq_getElem?_getD, List.getElem?_append_right]
  have h2 : ((p ++ s).take (p.length + n)).sum = p.sum + (s.take n).sum := by
    simp [List.take_append, List.take_of_length_le]
  have h3 : ∀ v, (p ++ s).set (p.length + n) v = p ++ s.set n v := by
    intro v; simp
  simp only [one, h1, h2, h3, pow_add, Prod.mk.injEq, and_true]; ring

/-- Modes in front of a suffix. -/
theorem one_suffix (b : Bool) (n : ℕ) (s q : List ℕ) (h : n < s.length) :
    one b n (s ++ q) = ((one b n s).1, (one b n s).2 ++ q) := by
  have h1 : (s ++ q).getD n 0 = s.getD n 0 := by
    simp [List.getD_eq_getElem?_getD, List.getElem?_append_left, h]
  have h2 : (s ++ q).take n = s.take n := by
    simp [List.take_append, Nat.sub_eq_zero_of_le (le_of_lt h)]
  have h3 : ∀ v, (s ++ q).set n v = s.set n v ++ q := by
    intro v; simp [h]
  simp only [one, h1, h2, h3]

/-- Operators supported on a window of modes. -/
theorem word_window (w : List (Bool × ℕ)) (p s q : List ℕ) (h : ∀ x ∈ w, x.2 < s.length) :
    word (w.map fun x => (x.1, p.length + x.2)) (p ++ s ++ q)
      = ((-1) ^ (p.sum * w.length) * (word w s).1, p ++ (word w s).2 ++ q) := by
  induction w with
  | nil => simp [word]
  | cons x w ih =>
    obtain ⟨b, n⟩ := x
    have hn : n < s.length := h (b, n) (by simp)
    simp only [List.map_cons, word, ih fun y hy => h y (by simp [hy])]
    rw [List.append_assoc, one_prefix, one_suffix _ _ _ _ (by rw [word_length]; exact hn)]
    simp only [List.append_assoc, List.length_cons, Prod.mk.injEq, and_true]
    rw [Nat.mul_succ, pow_add]; ring

/-- Matrix elements of an even operator on a window: identity outside. -/
theorem fEl_window (w : List (Bool × ℕ)) (p s q p' s' q' : List ℕ) (h : ∀ x ∈ w, x.2 < s.length) (he : Even w.length)
    (hp : p.length = p'.length) (hs : s.length = s'.length) :
    fEl (w.map fun x => (x.1, p.length + x.2)) (p ++ s ++ q) (p' ++ s' ++ q')
      = (if p = p' then 1 else 0) * fEl w s s' * (if q = q' then 1 else 0) := by
  unfold fEl
  rw [word_window w p s q h, (he.mul_left _).neg_one_pow, one_mul]
  have : (p ++ (word w s).2 ++ q = p' ++ s' ++ q') ↔ p = p' ∧ (word w s).2 = s' ∧ q = q' := by
    constructor
    · intro e
      rw [List.append_assoc, List.append_assoc] at e
      obtain ⟨e1, e2⟩ := List.append_inj e hp
      obtain ⟨e3, e4⟩ := List.append_inj e2 (by rw [word_length, hs])
      exact ⟨e1, e3, e4⟩
    · rintro ⟨rfl, e, rfl⟩; rw [e]
  simp only [this]
  by_cases h1 : p = p' <;> by_cases h2 : (word w s).2 = s' <;> by_cases h3 : q = q' <;> simp [h1, h2, h3]

/-! ## The operators satisfy the canonical anticommutation relations -/

theorem sum_take_set {n m : ℕ} {s : List ℕ} (h : n < m) (hn : n < s.length) (v : ℕ) :
    ((s.set n v).take m).sum + s.getD n 0 = (s.take m).sum + v := by
  induction s generalizing n m with
  | nil => simp at hn
  | cons x s ih =>
    obtain ⟨m, rfl⟩ : ∃ k, m = k + 1 := ⟨m - 1, by omega⟩
    cases n with
    | zero => simp; omega
    | succ n =>
      have := ih (n := n) (m := m) (by omega) (by simpa using hn)
      simp only [List.set_cons_succ, List.take_succ_cons, List.sum_cons, List.getD_cons_succ]
      omega

/-- Operators on different modes anticommute. -/
theorem word_swap (b c : Bool) {n m : ℕ} (s : List ℕ) (h : n < m) (hm : m < s.length) :
    (word [(b, n), (c, m)] s).1 = -(word [(c, m), (b, n)] s).1 ∧
    (word [(b, n), (c, m)] s).2 = (word [(c, m), (b, n)] s).2 := by
  have g1 : ∀ v, (s.set m v).getD n 0 = s.getD n 0 := by
    intro v; simp [List.getD_eq_getElem?_getD, List.getElem?_set_ne (show m ≠ n by omega)]
  have g2 : ∀ v, (s.set n v).getD m 0 = s.getD m 0 := by
    intro v; simp [List.getD_eq_getElem?_getD, List.getElem?_set_ne (show n ≠ m by omega)]
  have g3 : ∀ v, (s.set m v).take n = s.take n := by
    intro v; rw [List.take_set_of_le (by omega)]
  have g4 : ∀ v u, (s.set m v).set n u = (s.set n u).set m v := by
    intro v u; rw [List.set_comm]; omega
  have g5 := fun v => sum_take_set (n := n) (m := m) (s := s) h (by omega) v
  have p0 : can b (s.getD n 0) * (-1 : ℤ) ^ ((s.set n (cond b 1 0)).take m).sum
      = -(can b (s.getD n 0) * (-1) ^ (s.take m).sum) := by
    unfold can
    split_ifs with e
    · have := g5 (cond b 1 0)
      rw [e] at this
      cases b
      · simp only [cond_false] at *
        rw [show (s.take m).sum = ((s.set n 0).take m).sum + 1 by omega, pow_succ]; ring
      · simp only [cond_true] at *
        rw [show ((s.set n 1).take m).sum = (s.take m).sum + 1 by omega, pow_succ]; ring
    · ring
  simp only [word, one, g1, g2, g3, g4, mul_one, and_true]
  linear_combination (can c (s.getD m 0)) * (-1 : ℤ) ^ (s.take n).sum * p0

/-- `{a_n, a†_m} = δ_nm`, `{a_n, a_m} = 0 = {a†_n, a†_m}` on occupation-number states. -/
theorem car (b c : Bool) {n m : ℕ} (s t : List ℕ) (hn : n < s.length) (hm : m < s.length) (hs : ∀ x ∈ s, x < 2) :
    fEl [(b, n), (c, m)] s t + fEl [(c, m), (b, n)] s t = if b ≠ c ∧ n = m ∧ s = t then 1 else 0 := by
  rcases lt_trichotomy n m with h | rfl | h
  · obtain ⟨h1, h2⟩ := word_swap b c s h hm
    rw [if_neg (by rintro ⟨_, e, _⟩; omega)]
    unfold fEl; rw [h1, h2]; split_ifs <;> ring
  · have hx : s.getD n 0 < 2 := by
      rw [List.getD_eq_getElem _ _ hn]; exact hs _ (List.getElem_mem hn)
    have g1 : ∀ v, (s.set n v).getD n 0 = v := by
      intro v; simp [List.getD_eq_getElem?_getD, List.getElem?_set_self hn]
    have g2 : ∀ v, (s.set n v).take n = s.take n := by
      intro v; rw [List.take_set_of_le (le_refl _)]
    have g3 : s.getD n 0 = 0 → s.set n 0 = s := by
      intro e; rw [← e, List.getD_eq_getElem _ _ hn, List.set_getElem_self]
    have g4 : s.getD n 0 = 1 → s.set n 1 = s := by
      intro e; rw [← e, List.getD_eq_getElem _ _ hn, List.set_getElem_self]
    have g5 : (-1 : ℤ) ^ (s.take n).sum * (-1) ^ (s.take n).sum = 1 := by
      rw [← pow_add, ← two_mul, pow_mul]; norm_num
    have h01 : s.getD n 0 = 0 ∨ s.getD n 0 = 1 := by omega
    simp only [fEl, word, one, g1, g2, List.set_set, mul_one]
    generalize s.getD n 0 = x at *
    have e1 : ∀ y z : ℤ, y * (-1 : ℤ) ^ (s.take n).sum * (z * (-1) ^ (s.take n).sum) = y * z := by
      intro y z; linear_combination y * z * g5
    simp only [e1]
    rcases h01 with rfl | rfl <;> cases b <;> cases c <;> simp [can, g3, g4]
  · obtain ⟨h1, h2⟩ := word_swap c b s h hn
    rw [if_neg (by rintro ⟨_, e, _⟩; omega)]
    unfold fEl; rw [h1, h2]; split_ifs <;> ring

/-! ## Adjoints -/

/-- Adjoint of a product. -/
def adj (w : List (Bool × ℕ)) : List (Bool × ℕ) := (w.map fun x => (!x.1, x.2)).reverse

theorem adj_adj (w : List (Bool × ℕ)) : adj (adj w) = w := by
  simp [adj, List.map_reverse, Function.comp_def]

theorem word_append (w1 w2 : List (Bool × ℕ)) (s : List ℕ) :
    word (w1 ++ w2) s = ((word w1 (word w2 s).2).1 * (word w2 s).1, (word w1 (word w2 s).2).2) := by
  induction w1 with
  | nil => simp [word]
  | cons x w1 ih =>
    obtain ⟨b, n⟩ := x
    simp only [List.cons_append, word, ih, mul_assoc]

theorem one_adj {b : Bool} {n : ℕ} {s : List ℕ} (hn : n < s.length) (h : (one b n s).1 ≠ 0) :
    one (!b) n (one b n s).2 = ((one b n s).1, s) := by
  simp only [one, can] at *
  split_ifs at h with e
  swap
  · simp at h
  have g1 : ∀ v, (s.set n v).getD n 0 = v := by
    intro v; simp [List.getD_eq_getElem?_getD, List.getElem?_set_self hn]
  have g2 : ∀ v, (s.set n v).take n = s.take n := by
    intro v; rw [List.take_set_of_le (le_refl _)]
  have g3 : s.set n (cond b 0 1) = s := by
    rw [← e, List.getD_eq_getElem _ _ hn, List.set_getElem_self]
  simp only [g1, g2, List.set_set, if_pos e]
  cases b <;> simp_all

theorem word_adj {w : List (Bool × ℕ)} {s : List ℕ} (hw : ∀ x ∈ w, x.2 < s.length) (h : (word w s).1 ≠ 0) :
    word (adj w) (word w s).2 = ((word w s).1, s) := by
  induction w with
  | nil => simp [adj, word]
  | cons x w ih =>
    obtain ⟨b, n⟩ := x
    simp only [word] at h
    have h2 := right_ne_zero_of_mul h
    have h1 := left_ne_zero_of_mul h
    have := one_adj (by rw [word_length]; exact hw (b, n) (by simp)) h1
    have e : adj ((b, n) :: w) = adj w ++ [(!b, n)] := by simp [adj]
    rw [e, word_append]
    simp only [word, this, ih (fun x hx => hw x (by simp [hx])) h2, mul_one, Prod.mk.injEq, and_true]
    ring

/-- `⟨t| w |s⟩ = ⟨s| w† |t⟩`. -/
theorem fEl_adj (w : List (Bool × ℕ)) (s t : List ℕ) (hw : ∀ x ∈ w, x.2 < s.length) (hl : s.length = t.length) :
    fEl w s t = fEl (adj w) t s := by
  have key : ∀ (w : List (Bool × ℕ)) (s t : List ℕ), (∀ x ∈ w, x.2 < s.length) → fEl w s t ≠ 0 →
      fEl w s t = fEl (adj w) t s := by
    intro w s t hw h
    unfold fEl at h
    split_ifs at h with e
    swap
    · exact absurd rfl h
    have := word_adj hw h
    rw [e] at this
    simp only [fEl, e, this, if_true]
  by_cases h : fEl w s t = 0
  · by_contra h'
    rw [h] at h'
    refine h' ?_
    have := key (adj w) t s (by
      intro x hx
      simp only [adj, List.mem_reverse, List.mem_map] at hx
      obtain ⟨y, hy, rfl⟩ := hx
      rw [← hl]; exact hw y hy) (fun e => h' e.symm)
    rw [this, adj_adj, h]
  · exact key w s t hw h

end PyTeN
