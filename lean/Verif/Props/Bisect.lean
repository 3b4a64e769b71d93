import Verif.Utils.Bisect
import Mathlib.Topology.Order.IntermediateValue
import Mathlib.Topology.Algebra.Order.Field
import Mathlib.Topology.Instances.Real.Lemmas

/-! # C108: `bisection` -/

namespace PyTeN.Utils

noncomputable section

/-- The loop only returns points close to a zero. -/
theorem bisectLoop_sound {f : ℝ → ℝ} {tol : ℝ} : ∀ (n : ℕ) {a b : ℝ}, a < b → ContinuousOn f (Set.Icc a b) → f a * f b < 0 →
    ∀ c, bisectLoop f tol n a b = some c → a < c ∧ c < b ∧ ∃ x ∈ Set.Icc a b, f x = 0 ∧ (x = c ∨ |x - c| < tol)
  | 0, _, _, _, _, _, c, h => by cases h
  | n + 1, a, b, hab, hf, hs, c, h => by
    simp only [bisectLoop] at h
    have hm1 : a < (a + b) / 2 := by linarith
    have hm2 : (a + b) / 2 < b := by linarith
    split at h
    · next h1 =>
      cases h
      refine ⟨hm1, hm2, ?_⟩
      rcases h1 with h1 | h1
      · exact ⟨_, ⟨hm1.le, hm2.le⟩, h1, Or.inl rfl⟩
      · have h0 : (0 : ℝ) ∈ Set.uIcc (f a) (f b) := by
          rcases mul_neg_iff.mp hs with ⟨p, q⟩ | ⟨p, q⟩
          · exact Set.mem_uIcc.mpr (Or.inr ⟨q.le, p.le⟩)
          · exact Set.mem_uIcc.mpr (Or.inl ⟨p.le, q.le⟩)
        obtain ⟨x, hx, hx0⟩ := intermediate_value_uIcc (by rwa [Set.uIcc_of_le hab.le]) h0
        rw [Set.uIcc_of_le hab.le] at hx
        have hxa : x ≠ a := by rintro rfl; rw [hx0] at hs; simp at hs
        have hxb : x ≠ b := by rintro rfl; rw [hx0] at hs; simp at hs
        have hx1 := lt_of_le_of_ne hx.1 (Ne.symm hxa)
        have hx2 := lt_of_le_of_ne hx.2 hxb
        exact ⟨x, hx, hx0, Or.inr (lt_of_lt_of_le (abs_lt.mpr ⟨by linarith, by linarith⟩) h1.le)⟩
    · next h1 =>
      push Not at h1
      split at h
      · next h2 =>
        have hs' : f ((a + b) / 2) * f b < 0 := by
          rcases mul_neg_iff.mp hs with ⟨p, q⟩ | ⟨p, q⟩
          · rw [sign_pos p, sign_eq_one_iff] at h2; exact mul_neg_of_pos_of_neg h2 q
          · rw [sign_neg p, sign_eq_neg_one_iff] at h2; exact mul_neg_of_neg_of_pos h2 q
        obtain ⟨k1, k2, x, hx, k3⟩ := bisectLoop_sound n hm2 (hf.mono (Set.Icc_subset_Icc hm1.le le_rfl)) hs' c h
        exact ⟨hm1.trans k1, k2, x, ⟨hm1.le.trans hx.1, hx.2⟩, k3⟩
      · next h2 =>
        have hs' : f a * f ((a + b) / 2) < 0 := by
          rcases mul_neg_iff.mp hs with ⟨p, q⟩ | ⟨p, q⟩
          · refine mul_neg_of_pos_of_neg p (lt_of_le_of_ne (not_lt.mp fun h3 => h2 ?_) h1.1)
            rw [sign_pos p, sign_pos h3]
          · refine mul_neg_of_neg_of_pos p (lt_of_le_of_ne (not_lt.mp fun h3 => h2 ?_) (Ne.symm h1.1))
            rw [sign_neg p, sign_neg h3]
        obtain ⟨k1, k2, x, hx, k3⟩ := bisectLoop_sound n hm1 (hf.mono (Set.Icc_subset_Icc le_rfl hm2.le)) hs' c h
        exact ⟨k1, k2.trans hm2, x, ⟨hx.1, hx.2.trans hm2.le⟩, k3⟩

/-- The loop returns as soon as `maxit` halvings make the interval shorter than the tolerance. -/
theorem bisectLoop_returns {f : ℝ → ℝ} {tol : ℝ} : ∀ (n : ℕ) {a b : ℝ}, 0 < n → b - a < 2 ^ n * tol → ∃ c, bisectLoop f tol n a b = some c
  | 0, _, _, h, _ => by omega
  | n + 1, a, b, _, h => by
    simp only [bisectLoop]
    split
    · exact ⟨_, rfl⟩
    · next h1 =>
      push Not at h1
      have hn : 0 < n := by
        rcases Nat.eq_zero_or_pos n with rfl | hn
        · simp at h; linarith [h1.2]
        · exact hn
      have e : (2 : ℝ) ^ (n + 1) * tol = 2 * (2 ^ n * tol) := by ring
      split
      · exact bisectLoop_returns n hn (by linarith)
      · exact bisectLoop_returns n hn (by linarith)

/-- **C108 (partial:** for the function at line 157, which the module no longer offers under its name**).**  For a continuous function of
different signs at the ends of an interval the result is a point of the interval that is a zero or closer to one than `tol`, and there is
one if `2^maxit*tol` exceeds the length of the interval. -/
theorem C108_root_partial {f : ℝ → ℝ} {a b tol : ℝ} {maxit : ℕ} (hab : a < b) (hf : ContinuousOn f (Set.Icc a b)) (hs : f a * f b ≤ 0) :
    ∃ r, bisectRoot f a b tol maxit = .ok r ∧ (0 < maxit → b - a < 2 ^ maxit * tol → r ≠ none) ∧
      ∀ c, r = some c → c ∈ Set.Icc a b ∧ ∃ x ∈ Set.Icc a b, f x = 0 ∧ (x = c ∨ |x - c| < tol) := by
  unfold bisectRoot
  by_cases ha : f a = 0
  · rw [if_pos ha]
    exact ⟨_, rfl, by simp, fun c hc => by cases hc; exact ⟨⟨le_rfl, hab.le⟩, a, ⟨le_rfl, hab.le⟩, ha, Or.inl rfl⟩⟩
  by_cases hb : f b = 0
  · rw [if_neg ha, if_pos hb]
    exact ⟨_, rfl, by simp, fun c hc => by cases hc; exact ⟨⟨hab.le, le_rfl⟩, b, ⟨hab.le, le_rfl⟩, hb, Or.inl rfl⟩⟩
  have hs' : f a * f b < 0 := lt_of_le_of_ne hs (mul_ne_zero ha hb)
  have h3 : (f a < 0 ∧ 0 < f b) ∨ (0 < f a ∧ f b < 0) := (mul_neg_iff.mp hs').symm
  rw [if_neg ha, if_neg hb, if_neg (not_not.mpr hab), if_neg (not_not.mpr h3)]
  refine ⟨_, rfl, fun h0 hl => ?_, fun c hc => ?_⟩
  · obtain ⟨c, hc⟩ := bisectLoop_returns (f := f) maxit h0 hl
    rw [hc]; simp
  · obtain ⟨k1, k2, k3⟩ := bisectLoop_sound maxit hab hf hs' c hc
    exact ⟨⟨k1.le, k2.le⟩, k3⟩

/-- The square root of two with the default arguments. -/
example : ∃ c, bisectRoot (fun x => x ^ 2 - 2) 0 2 1e-10 1000 = .ok (some c) ∧ |Real.sqrt 2 - c| < 1e-10 := by
  obtain ⟨r, h1, h2, h3⟩ := C108_root_partial (f := fun x => x ^ 2 - 2) (a := 0) (b := 2) (tol := 1e-10) (maxit := 1000) (by norm_num)
    (by fun_prop) (by norm_num)
  cases hr : r with
  | none => exact absurd hr (h2 (by norm_num) (lt_of_lt_of_le (b := 2 ^ 100 * 1e-10) (by norm_num) (by gcongr <;> norm_num)))
  | some c =>
    refine ⟨c, by rw [h1, hr], ?_⟩
    obtain ⟨-, x, hx, hx0, hc⟩ := h3 c hr
    have : x = Real.sqrt 2 := by
      rw [eq_comm, Real.sqrt_eq_iff_mul_self_eq (by norm_num) hx.1]; nlinarith
    rw [← this]
    rcases hc with rfl | hc
    · simp; norm_num
    · exact hc

/-- **C108 is violated**: the name `bisection` stands for the second function, so that every call made by `periodicSmooth` raises. -/
theorem C108_violated_shadowed (f : ℝ → ℝ) (a b tol : ℝ) (maxit : ℕ) : callRoot f a b tol maxit = .error .type := by
  simp [callRoot, bisectionDefs, PySig.accepts]

/-- **C108 is violated**: the second function slices with a float and raises for every grid and position. -/
theorem C108_violated_grid (grid : List ℝ) (x : ℝ) (fuel : ℕ) : callGrid grid x (fuel + 1) = .error .type := by
  simp [callGrid, bisectionDefs, PySig.accepts, bisectGrid, trueDiv, sliceTo, sliceFrom]

theorem getD_some (grid : List ℝ) {i : ℕ} (h : i < grid.length) : grid[i]? = some (grid.getD i 0) := by
  rw [List.getD_eq_getElem _ _ h, List.getElem?_eq_getElem h]

theorem bisectGrid_finds {grid : List ℝ} (hg : grid.Nodup) {x : ℝ} : ∀ {fuel a n : ℕ}, 2 ≤ n → n ≤ fuel → a + n ≤ grid.length →
    grid.getD a 0 ≤ x → x ≤ grid.getD (a + n - 1) 0 →
    ∃ i : ℕ, i + 1 < grid.length ∧ bisectGrid intDiv grid x fuel ((grid.drop a).take n) = .ok (i, i + 1) ∧ grid.getD i 0 ≤ x ∧ x ≤ grid.getD (i + 1) 0
  | 0, _, _, h2, hf, _, _, _ => by omega
  | fuel + 1, a, n, h2, hf, hn, hl, hr => by
    have hlen : ((grid.drop a).take n).length = n := by simp; omega
    obtain ⟨k, hk, hk1, hk2⟩ : ∃ k, (n - n % 2) / 2 = k ∧ 1 ≤ k ∧ k < n := ⟨_, rfl, by omega, by omega⟩
    have e1 : ((grid.drop a).take n).take k = (grid.drop a).take k := by rw [List.take_take, min_eq_left hk2.le]
    have e2 : ((grid.drop a).take n).drop k = (grid.drop (a + k)).take (n - k) := by rw [List.drop_take, List.drop_drop]
    have e3 : ((grid.drop a).take k).getLast? = some (grid.getD (a + k - 1) 0) := by
      have : ((grid.drop a).take k).length = k := by simp; omega
      rw [List.getLast?_eq_getElem?, this, List.getElem?_take_of_lt (by omega), List.getElem?_drop, ← getD_some grid (by omega)]
      congr 1; omega
    have e4 : ((grid.drop (a + k)).take (n - k)).head? = some (grid.getD (a + k) 0) := by
      rw [List.head?_eq_getElem?, List.getElem?_take_of_lt (by omega), List.getElem?_drop, ← getD_some grid (by omega)]
      rfl
    have hidx : ∀ i < grid.length, grid.idxOf (grid.getD i 0) = i := fun i hi => by
      rw [List.getD_eq_getElem _ _ hi]; exact hg.idxOf_getElem i hi
    rw [bisectGrid, hlen]
    simp only [intDiv, hk, sliceTo, sliceFrom, e1, e2, e3, e4]
    by_cases hc : grid.getD (a + k - 1) 0 ≤ x ∧ x ≤ grid.getD (a + k) 0
    · rw [if_pos hc, hidx _ (by omega), hidx _ (by omega)]
      refine ⟨a + k - 1, by omega, ?_, hc.1, ?_⟩
      · rw [show a + k - 1 + 1 = a + k by omega]
      · rw [show a + k - 1 + 1 = a + k by omega]; exact hc.2
    · rw [if_neg hc]
      by_cases hq : grid.getD (a + k) 0 < x
      · rw [if_pos hq]
        have h3 : 2 ≤ n - k := by
          by_contra hno
          rw [show a + n - 1 = a + k by omega] at hr
          exact absurd hr (not_le.2 hq)
        refine bisectGrid_finds hg h3 (by omega) (by omega) hq.le ?_
        rwa [show a + k + (n - k) - 1 = a + n - 1 by omega]
      · rw [if_neg hq]
        have hp : x < grid.getD (a + k - 1) 0 := by
          by_contra hno
          exact hc ⟨not_lt.1 hno, not_lt.1 hq⟩
        rw [if_pos hp]
        have h3 : 2 ≤ k := by
          by_contra hno
          rw [show a + k - 1 = a by omega] at hp
          exact absurd hl (not_le.2 hp)
        exact bisectGrid_finds hg h3 (by omega) (by omega) hl hp.le

/-- **C108 (partial:** the body of the second function with an integer division, which `/` is not in Python 3**).**  For a grid of
different numbers and a position between its ends the loop ends and returns neighbouring indices that enclose the position. -/
theorem C108_grid_partial {grid : List ℝ} (hg : grid.Nodup) (h2 : 2 ≤ grid.length) {x : ℝ} (hl : grid.getD 0 0 ≤ x)
    (hr : x ≤ grid.getD (grid.length - 1) 0) {fuel : ℕ} (hf : grid.length ≤ fuel) :
    ∃ i : ℕ, i + 1 < grid.length ∧ bisectGrid intDiv grid x fuel grid = .ok (i, i + 1) ∧ grid.getD i 0 ≤ x ∧ x ≤ grid.getD (i + 1) 0 := by
  have := bisectGrid_finds hg (fuel := fuel) (a := 0) (n := grid.length) h2 hf (by omega) hl (by simpa using hr)
  simpa using this

example : ∃ i : ℕ, i + 1 < 4 ∧ bisectGrid intDiv [0, 1, 2, 5] (3 : ℝ) 4 [0, 1, 2, 5] = .ok (i, i + 1) ∧ ([0, 1, 2, 5] : List ℝ).getD i 0 ≤ 3 ∧
    (3 : ℝ) ≤ ([0, 1, 2, 5] : List ℝ).getD (i + 1) 0 := by
  have := C108_grid_partial (grid := [0, 1, 2, 5]) (x := 3) (fuel := 4) (by norm_num) (by simp) (by norm_num) (by norm_num) (by simp)
  simpa using this

end

end PyTeN.Utils
