import Verif.Ham.Obj
import Mathlib.Tactic.Linarith

/-! # C119: MPO objects made from lists -/

namespace PyTeN.MpoObj

section
variable {K : Type*}

/-! ## Specification -/

/-- Spec: the site which the index `i` means in a chain of `n` sites. -/
def Means (n : ℕ) (i : ℤ) (k : ℕ) : Prop := k < n ∧ (i = k ∨ i = (k : ℤ) - n)

/-- Spec: the tensor at site `k` after the assignments, `W` being the one before. -/
def after [DecidableEq ℤ] (n k : ℕ) (W : Mpo K) : List (ℤ × Mpo K) → Mpo K
  | [] => W
  | (i, V) :: l => if i = k ∨ i = (k : ℤ) - n then after n k V l else after n k W l

/-! ## Properties -/

theorem index_ok {n : ℕ} {i : ℤ} {k : ℕ} : index n i = .ok k ↔ Means n i k := by
  unfold index Means
  split_ifs with h1 h2 h3
  · simp only [Except.ok.injEq]
    omega
  · simp only [false_iff]
    omega
  · simp only [Except.ok.injEq]
    omega
  · simp only [false_iff]
    omega

theorem index_error {n : ℕ} {i : ℤ} (h : ∀ k, ¬ Means n i k) : index n i = .error .index := by
  cases hk : index n i with
  | ok k => exact absurd (index_ok.1 hk) (h k)
  | error e =>
    unfold index at hk
    split_ifs at hk <;> simp_all

/-- **C119 (items).**  The items of an object made from a list are the items of the list, for indices from both ends; other indices raise
IndexError. -/
theorem C119_item (l : List (Mpo K)) : len (fromlist l) = l.length ∧ (fromlist l).N = l.length ∧
    (∀ i k W, Means l.length i k → l[k]? = some W → getItem (fromlist l) i = .ok W) ∧
    ∀ i, (∀ k, ¬ Means l.length i k) → getItem (fromlist l) i = .error .index := by
  refine ⟨rfl, rfl, fun i k W h hk => ?_, fun i h => ?_⟩
  · rw [getItem]
    have : index (fromlist l).mpo.length i = .ok k := index_ok.2 h
    rw [this]
    show (match l[k]? with
      | some W => Except.ok W
      | none => Except.error PyErr.index) = _
    rw [hk]
  · rw [getItem]
    have : index (fromlist l).mpo.length i = .error .index := index_error h
    rw [this]

theorem assign_spec {o o' : Obj K} {l : List (ℤ × Mpo K)} (h : assign o l = .ok o') :
    o'.mpo.length = o.mpo.length ∧ o'.N = o.N ∧ o'.dtype = o.dtype ∧
      ∀ (k : ℕ) (W : Mpo K), o.mpo[k]? = some W → o'.mpo[k]? = some (after o.mpo.length k W l) := by
  induction l generalizing o with
  | nil =>
    cases h
    exact ⟨rfl, rfl, rfl, fun k W h => h⟩
  | cons a l ih =>
    obtain ⟨i, V⟩ := a
    rw [assign, setItem] at h
    cases hk : index o.mpo.length i with
    | error e =>
      rw [hk] at h
      cases h
    | ok j =>
      rw [hk] at h
      obtain ⟨g1, g2, g3, g4⟩ := ih h
      have hm := index_ok.1 hk
      rw [List.length_set] at g1 g4
      refine ⟨g1, g2, g3, fun k W hW => ?_⟩
      have hkn : k < o.mpo.length := (List.getElem?_eq_some_iff.1 hW).1
      rw [after]
      split_ifs with hi
      · have : j = k := by
          obtain ⟨hj, hj'⟩ := hm
          omega
        subst this
        exact g4 j V (by simp [hkn])
      · refine g4 k W ?_
        rw [List.getElem?_set_ne, hW]
        rintro rfl
        exact hi hm.2

/-- **C119 (assignments).**  Any sequence of assignments with indices in range succeeds; after it the item at every site is the one assigned
last, or the old one, and the length is the same. -/
theorem C119_assign (l : List (Mpo K)) (ops : List (ℤ × Mpo K)) (h : ∀ q ∈ ops, ∃ k, Means l.length q.1 k) :
    ∃ o, assign (fromlist l) ops = .ok o ∧ len o = l.length ∧ o.N = l.length ∧
      ∀ i k W, Means l.length i k → l[k]? = some W → getItem o i = .ok (after l.length k W ops) := by
  have run : ∀ (ops : List (ℤ × Mpo K)) (o : Obj K), o.mpo.length = l.length → (∀ q ∈ ops, ∃ k, Means l.length q.1 k) → ∃ o', assign o ops = .ok o' := by
    intro ops
    induction ops with
    | nil => exact fun o _ _ => ⟨o, rfl⟩
    | cons a ops ih =>
      intro o ho hq
      obtain ⟨k, hk⟩ := hq a (by simp)
      rw [← ho] at hk
      rw [assign, setItem, index_ok.2 hk]
      exact ih _ (by simp [ho]) fun q hq' => hq q (by simp [hq'])
  obtain ⟨o, ho⟩ := run ops (fromlist l) rfl h
  obtain ⟨h1, h2, -, h4⟩ := assign_spec ho
  refine ⟨o, ho, h1, h2, fun i k W hk hW => ?_⟩
  rw [getItem, h1]
  have : index (fromlist l).mpo.length i = .ok k := index_ok.2 hk
  rw [this]
  have e : o.mpo[k]? = some (after l.length k W ops) := h4 k W hW
  simp only [e]

/-- **C119 (an index out of range).**  An assignment with an index out of range raises IndexError. -/
theorem C119_range (l : List (Mpo K)) (i : ℤ) (W : Mpo K) (h : ∀ k, ¬ Means l.length i k) : setItem (fromlist l) i W = .error .index := by
  rw [setItem]
  have : index (fromlist l).mpo.length i = .error .index := index_error h
  rw [this]

/-- **C119 (violated by `fromMPO` and `dtype`).**  No object can be made from another one, and objects made from lists have no dtype. -/
theorem C119_violated (o : Obj K) (l : List (Mpo K)) : fromMPO o = .error .attribute ∧ dtype (fromlist l) = .error .attribute ∧
    ∀ ops o', assign (fromlist l) ops = .ok o' → dtype o' = .error .attribute := by
  refine ⟨rfl, rfl, fun ops o' h => ?_⟩
  rw [dtype, (assign_spec h).2.2.1]
  rfl

/-! ## Witnesses -/

/-- Three different tensors. -/
def w (n : ℕ) : Mpo ℤ := ⟨1, 1, 1, 1, fun _ _ _ _ => n⟩

example : ∃ o, assign (fromlist [w 0, w 1]) [(-1, w 2), (0, w 3), (1, w 4)] = .ok o ∧ getItem o (-1) = .ok (w 4) ∧ getItem o 0 = .ok (w 3) := by
  obtain ⟨o, h1, -, -, h2⟩ := C119_assign [w 0, w 1] [(-1, w 2), (0, w 3), (1, w 4)] (by
    intro q hq
    simp only [List.mem_cons, List.not_mem_nil, or_false] at hq
    rcases hq with rfl | rfl | rfl
    · exact ⟨1, by simp [Means]⟩
    · exact ⟨0, by simp [Means]⟩
    · exact ⟨1, by simp [Means]⟩)
  refine ⟨o, h1, ?_, ?_⟩
  · rw [h2 (-1) 1 (w 1) (by simp [Means]) rfl]
    simp [after]
  · rw [h2 0 0 (w 0) (by simp [Means]) rfl]
    simp [after]

example : setItem (fromlist [w 0, w 1]) (-3) (w 2) = .error .index :=
  C119_range _ _ _ (by
    rintro k ⟨h1, h2⟩
    simp at h1 h2
    omega)

end

end PyTeN.MpoObj
