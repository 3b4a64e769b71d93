import Verif.Mps.RandInit
import Verif.Props.Access

/-! # C120: random initial tensors -/

namespace PyTeN.RandInit

noncomputable section

/-! ## Specification -/

/-- Contract of `np.random.random_sample`: real numbers from `[0,1)`. -/
def Sample (gen : ℕ → ℕ → ℕ → ℕ → ℂ) : Prop := ∀ k i j s, (gen k i j s).im = 0 ∧ 0 ≤ (gen k i j s).re ∧ (gen k i j s).re < 1

/-- Spec: a number of the interval from which the entries shall be drawn. -/
def InBox (scale shift x : ℝ) : Prop := -shift * scale ≤ x ∧ x < (1 - shift) * scale

/-- Spec: all entries of the tensors are of the requested type and from the interval. -/
def Entries (dtype : DType) (scale shift : ℝ) (ts : List (Ten ℂ)) : Prop :=
  ∀ t ∈ ts, ∀ i j s, InBox scale shift (t.v i j s).re ∧
    (if dtype = .complex then InBox scale shift (t.v i j s).im else (t.v i j s).im = 0)

/-- Spec: the shapes of an open chain, or of a unit cell. -/
def Shapes (length D : ℕ) (ds : List ℕ) (obc : Bool) (ts : List (Ten ℂ)) : Prop :=
  ts.length = length ∧ ts.map Ten.d = ds ∧ Linked (if obc then 1 else D) ts (if obc then 1 else D) ∧
    ∀ k, 0 < k → k < length → ts[k]?.map Ten.l = some D

/-! ## Properties -/

variable {gen : ℕ → ℕ → ℕ → ℕ → ℂ} {scale shift : ℝ} {D length : ℕ} {d : LocDim} {dtype : DType} {obc : Bool}

theorem fill_box (hg : Sample gen) (hs : 0 < scale) (k l r e i j s : ℕ) :
    InBox scale shift ((fillTen gen (decide (dtype = .complex)) scale shift k l r e).v i j s).re ∧
      (if dtype = .complex then InBox scale shift ((fillTen gen (decide (dtype = .complex)) scale shift k l r e).v i j s).im
        else ((fillTen gen (decide (dtype = .complex)) scale shift k l r e).v i j s).im = 0) := by
  by_cases hd : dtype = .complex
  · obtain ⟨h1, h2, h3⟩ := hg (2 * k) i j s
    obtain ⟨g1, g2, g3⟩ := hg (2 * k + 1) i j s
    simp only [fillTen, hd, decide_true, if_true, InBox, Complex.add_re, Complex.add_im, Complex.sub_re, Complex.sub_im, Complex.mul_re, Complex.mul_im,
      Complex.I_re, Complex.I_im, Complex.ofReal_re, Complex.ofReal_im, h1, g1]
    refine ⟨⟨?_, ?_⟩, ?_, ?_⟩ <;> nlinarith
  · obtain ⟨h1, h2, h3⟩ := hg k i j s
    simp only [fillTen, hd, decide_false, Bool.false_eq_true, if_false, InBox, Complex.re_mul_ofReal, Complex.im_mul_ofReal, Complex.sub_re, Complex.sub_im, Complex.ofReal_re, Complex.ofReal_im, h1]
    refine ⟨⟨?_, ?_⟩, ?_⟩
    · nlinarith
    · nlinarith
    · ring

theorem loop_box (hg : Sample gen) (hs : 0 < scale) {ds : List ℕ} {n k : ℕ} {ts : List (Ten ℂ)}
    (h : fillLoop gen (decide (dtype = .complex)) scale shift D ds n k = .ok ts) : Entries dtype scale shift ts := by
  induction k generalizing n ts with
  | zero =>
    cases h
    intro t ht
    cases ht
  | succ k ih =>
    rw [fillLoop] at h
    split at h
    · cases h
    · split at h
      · cases h
      · next h2 =>
        cases h
        intro t ht i j s
        rcases List.mem_cons.1 ht with rfl | ht
        · exact fill_box hg hs _ _ _ _ i j s
        · exact ih h2 t ht i j s

/-- **C120 (entries).**  Whatever `MPSinitializer` returns has entries of the requested type, all of them from the interval. -/
theorem C120_entries (hg : Sample gen) (hs : 0 < scale) {ts : List (Ten ℂ)}
    (h : mpsInitializer gen length D d obc dtype scale shift = .ok ts) : Entries dtype scale shift ts := by
  unfold mpsInitializer at h
  simp only at h
  split at h
  · split at h
    · cases h
    · split at h
      · cases h
        intro t ht
        cases ht
      · split at h
        · cases h
        · split at h
          · cases h
          · next hm =>
            split at h
            · cases h
            · cases h
              intro t ht i j s
              rcases List.mem_append.1 ht with ht | ht
              · rcases List.mem_cons.1 ht with rfl | ht
                · exact fill_box hg hs _ _ _ _ i j s
                · exact loop_box hg hs hm t ht i j s
              · rw [List.mem_singleton.1 ht]
                exact fill_box hg hs _ _ _ _ i j s
  · split at h
    · cases h
      intro t ht
      cases ht
    · exact loop_box hg hs h

/-- **C120 (real tensors).**  For the dtype float `MPSinit` returns tensors of the right shapes, whose entries are real and from the interval. -/
theorem C120_real (hg : Sample gen) (hs : 0 < scale) (hd : (d.toList length).length = length) (h2 : obc = true → 2 ≤ length) :
    ∃ ts, mpsInit gen length D d obc .float scale shift = .ok ts ∧ Shapes length D (d.toList length) obc ts ∧ Entries .float scale shift ts := by
  cases obc with
  | true =>
    obtain ⟨ts, h, g1, g2, g3⟩ := C28_obc gen D d (dtype := .float) scale shift (h2 rfl) hd (by simp)
    refine ⟨ts, h, ⟨?_, g1, g2, g3⟩, C120_entries hg hs h⟩
    rw [← hd, ← g1, List.length_map]
  | false =>
    obtain ⟨ts, h, g1, g2, g3⟩ := C28_pbc gen D d (dtype := .float) scale shift hd (by simp)
    have hl : ts.length = length := by rw [← hd, ← g1, List.length_map]
    refine ⟨ts, h, ⟨hl, g1, g2, fun k _ hk => ?_⟩, C120_entries hg hs h⟩
    rw [List.getElem?_eq_getElem (by omega), Option.map_some, g3 _ (List.getElem_mem _)]

/-- **C120 (violated for complex tensors).**  Asked for complex tensors, `MPSinit` returns the real ones; for a negative shift their
imaginary parts are not in the interval. -/
theorem C120_violated_complex (hg : Sample gen) (hs : 0 < scale) {ts : List (Ten ℂ)}
    (h : mpsInit gen length D d obc .complex scale shift = .ok ts) :
    mpsInit gen length D d obc .float scale shift = .ok ts ∧ (∀ t ∈ ts, ∀ i j s, (t.v i j s).im = 0) ∧
      (shift < 0 → ts ≠ [] → ¬ Entries .complex scale shift ts) := by
  have hr : ∀ t ∈ ts, ∀ i j s, (t.v i j s).im = 0 := fun t ht i j s => by
    have := (C120_entries hg hs (dtype := .float) h t ht i j s).2
    simpa using this
  refine ⟨h, hr, fun hsh hne hE => ?_⟩
  obtain ⟨t, ht⟩ := List.exists_mem_of_ne_nil ts hne
  have := (hE t ht 0 0 0).2
  rw [if_pos rfl, hr t ht 0 0 0] at this
  have h1 := this.1
  nlinarith

/-! ## Witnesses -/

/-- A generator with different values. -/
def g0 : ℕ → ℕ → ℕ → ℕ → ℂ := fun k i j s => ((1 / ((k + i + j + s : ℕ) + 2) : ℝ) : ℂ)

theorem g0_sample : Sample g0 := by
  intro k i j s
  have hp : (0 : ℝ) < ((k + i + j + s : ℕ) : ℝ) + 2 := by positivity
  refine ⟨Complex.ofReal_im _, ?_, ?_⟩
  · rw [g0, Complex.ofReal_re]
    positivity
  · rw [g0, Complex.ofReal_re, div_lt_one hp]
    have : (0 : ℝ) ≤ ((k + i + j + s : ℕ) : ℝ) := by positivity
    linarith

example : ∃ ts, mpsInit g0 3 5 (.list [2, 3, 4]) true .float 2 0.5 = .ok ts ∧ Shapes 3 5 [2, 3, 4] true ts ∧ Entries .float 2 0.5 ts :=
  C120_real g0_sample (by norm_num) rfl (fun _ => by norm_num)

example : ∃ ts, mpsInit g0 3 5 (.int 2) false .complex 2 (-1) = .ok ts ∧ ¬ Entries .complex 2 (-1) ts := by
  obtain ⟨ts, h, hS, -⟩ := C120_real (shift := -1) (scale := 2) (D := 5) (length := 3) (d := .int 2) (obc := false) g0_sample (by norm_num) rfl (fun h => by simp at h)
  have h' : mpsInit g0 3 5 (.int 2) false .complex 2 (-1) = .ok ts := h
  refine ⟨ts, h', (C120_violated_complex g0_sample (by norm_num) h').2.2 (by norm_num) ?_⟩
  rintro rfl
  exact absurd hS.1 (by simp)

end

end PyTeN.RandInit
