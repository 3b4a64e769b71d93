import Verif.Utils.Smooth
import Mathlib.Algebra.Polynomial.Eval.Defs
import Mathlib.Algebra.Polynomial.Degree.Lemmas
import Mathlib.Algebra.Group.Nat.Even
import Mathlib.Data.Complex.Basic
import Mathlib.Tactic.Linarith

/-! # C122: smoothing of an array of matrices -/

namespace PyTeN.Smooth

noncomputable section

/-! ## Specification -/

/-- Contract of `savgol_filter` for an odd window that is longer than the order of the polynomials and not longer than the array: it returns, and
leaves values of polynomials of that order unchanged. -/
def SavSpec (F : Filter) : Prop := ∀ n w p, Odd w → p < w → w ≤ n → ∀ x, ∃ y, F n w p x = .ok y ∧
  ∀ q : Polynomial ℝ, q.natDegree ≤ p → (∀ k < n, x k = q.eval (k : ℝ)) → ∀ k < n, y k = q.eval (k : ℝ)

/-- Spec: the entries of an array are real for a real dtype. -/
def Typed (A : Arr) : Prop := A.kind = .float → ∀ i j k, (A.v i j k).im = 0

/-! ## Properties -/

theorem mem_pairs {D i j : ℕ} : (i, j) ∈ pairs D ↔ i < D ∧ j < D := by
  simp [pairs]

theorem loop_ok {F : Filter} {A : Arr} {w p : ℕ} {l : List (ℕ × ℕ)} {out v : ℕ → ℕ → ℕ → ℂ} (h : loop F A w p l out = .ok v) (i j : ℕ) :
    ((i, j) ∈ l → ∃ y, entry F A w p i j = .ok y ∧ v i j = y) ∧ ((i, j) ∉ l → v i j = out i j) := by
  induction l generalizing out with
  | nil =>
    cases h
    exact ⟨fun hm => absurd hm List.not_mem_nil, fun _ => rfl⟩
  | cons q l ih =>
    rw [loop] at h
    split at h
    · cases h
    · next y hy =>
      obtain ⟨h1, h2⟩ := ih h
      refine ⟨fun hm => ?_, fun hm => ?_⟩
      · by_cases hl : (i, j) ∈ l
        · exact h1 hl
        · rcases List.mem_cons.1 hm with hq | hq
          · subst hq
            refine ⟨y, hy, ?_⟩
            rw [h2 hl]
            funext k
            simp
          · exact absurd hq hl
      · have hl : (i, j) ∉ l := fun hl => hm (List.mem_cons_of_mem _ hl)
        rw [h2 hl]
        funext k
        rw [if_neg]
        rintro ⟨rfl, rfl⟩
        exact hm (by simp)

theorem loop_total {F : Filter} {A : Arr} {w p : ℕ} {l : List (ℕ × ℕ)} (h : ∀ q ∈ l, ∃ y, entry F A w p q.1 q.2 = .ok y)
    (out : ℕ → ℕ → ℕ → ℂ) : ∃ v, loop F A w p l out = .ok v := by
  induction l generalizing out with
  | nil => exact ⟨out, rfl⟩
  | cons q l ih =>
    obtain ⟨y, hy⟩ := h q (by simp)
    rw [loop, hy]
    exact ih (fun q' hq' => h q' (by simp [hq'])) _

theorem entry_total {F : Filter} (hF : SavSpec F) {A : Arr} {w p : ℕ} (hw : Odd w) (hp : p < w) (hn : w ≤ A.n) (i : ℕ) {j : ℕ} (hj : j < A.b) :
    ∃ y, entry F A w p i j = .ok y := by
  obtain ⟨x, hx, -⟩ := hF A.n w p hw hp hn fun k => (A.v i j k).re
  obtain ⟨y, hy, -⟩ := hF A.n w p hw hp hn fun k => (A.v i j k).im
  rw [entry, if_pos hj, hx]
  simp only
  split_ifs
  · rw [hy]
    exact ⟨_, rfl⟩
  · exact ⟨_, rfl⟩

/-- **C122 (square matrices).**  For an array of square matrices `smoothArray` returns an array of the same shape and type.  Every row of it is the
filtered row of the argument, real and imaginary part separately. -/
theorem C122_square {F : Filter} (hF : SavSpec F) {A : Arr} {w p : ℕ} (hk : A.kind ≠ .other) (hab : A.a = A.b) (hw : Odd w) (hp : p < w)
    (hn : w ≤ A.n) : ∃ B, smoothArray F A w p = .ok (some B) ∧ (B.a, B.b, B.n, B.kind) = (A.a, A.b, A.n, A.kind) ∧ Typed B ∧
      ∀ i < A.a, ∀ j < A.b, F A.n w p (fun k => (A.v i j k).re) = .ok (fun k => (B.v i j k).re) ∧
        (A.kind = .complex → F A.n w p (fun k => (A.v i j k).im) = .ok (fun k => (B.v i j k).im)) := by
  obtain ⟨v, hv⟩ := loop_total (l := pairs A.a) (F := F) (A := A) (w := w) (p := p)
    (fun q hq => entry_total hF hw hp hn q.1 (hab ▸ (mem_pairs.1 hq).2)) fun _ _ _ => 0
  refine ⟨{ A with v := v }, ?_, rfl, ?_, ?_⟩
  · rw [smoothArray, if_neg hk, hv]
  · intro hkf i j k
    have hkf' : A.kind = .float := hkf
    show (v i j k).im = 0
    by_cases hm : (i, j) ∈ pairs A.a
    · obtain ⟨y, hy, e⟩ := (loop_ok hv i j).1 hm
      rw [e]
      rw [entry] at hy
      split at hy
      · split at hy
        · cases hy
        · rw [if_neg (by simp [hkf'])] at hy
          cases hy
          exact Complex.ofReal_im _
      · cases hy
    · rw [(loop_ok hv i j).2 hm]
      rfl
  · intro i hi j hj
    obtain ⟨y, hy, e⟩ := (loop_ok hv i j).1 (mem_pairs.2 ⟨hi, hab ▸ hj⟩)
    show F A.n w p (fun k => (A.v i j k).re) = .ok (fun k => (v i j k).re) ∧
      (A.kind = .complex → F A.n w p (fun k => (A.v i j k).im) = .ok (fun k => (v i j k).im))
    rw [e]
    rw [entry, if_pos hj] at hy
    split at hy
    · cases hy
    · next x hx =>
      split at hy
      · split at hy
        · cases hy
        · next z hz =>
          cases hy
          rw [hx, hz]
          exact ⟨congrArg _ (by funext k; simp), fun _ => congrArg _ (by funext k; simp)⟩
      · next hc =>
        cases hy
        rw [hx]
        exact ⟨congrArg _ (by funext k; simp), fun h => absurd h hc⟩

/-- **C122 (polynomials).**  An array of square matrices whose entries are polynomials of at most the given order is returned unchanged. -/
theorem C122_poly {F : Filter} (hF : SavSpec F) {A : Arr} {w p : ℕ} (hA : Typed A) (hk : A.kind ≠ .other) (hab : A.a = A.b) (hw : Odd w) (hp : p < w)
    (hn : w ≤ A.n) (hq : ∀ i < A.a, ∀ j < A.b, ∃ q r : Polynomial ℝ, q.natDegree ≤ p ∧ r.natDegree ≤ p ∧
      ∀ k < A.n, A.v i j k = ((q.eval (k : ℝ) : ℝ) : ℂ) + Complex.I * ((r.eval (k : ℝ) : ℝ) : ℂ)) :
    ∃ B, smoothArray F A w p = .ok (some B) ∧ (B.a, B.b, B.n) = (A.a, A.b, A.n) ∧ ∀ i < A.a, ∀ j < A.b, ∀ k < A.n, B.v i j k = A.v i j k := by
  obtain ⟨B, hB, hs, hT, h⟩ := C122_square hF hk hab hw hp hn
  simp only [Prod.mk.injEq] at hs
  refine ⟨B, hB, by simp [hs], fun i hi j hj k hkn => ?_⟩
  obtain ⟨q, r, dq, dr, e⟩ := hq i hi j hj
  obtain ⟨h1, h2⟩ := h i hi j hj
  have hre : (B.v i j k).re = (A.v i j k).re := by
    obtain ⟨y, hy, hy'⟩ := hF A.n w p hw hp hn fun k => (A.v i j k).re
    rw [hy] at h1
    have := hy' q dq (fun k hk => by simp [e k hk]) k hkn
    rw [Except.ok.injEq] at h1
    rw [← congrFun h1 k, this, e k hkn]
    simp
  refine Complex.ext hre ?_
  by_cases hc : A.kind = .complex
  · have h3 := h2 hc
    obtain ⟨y, hy, hy'⟩ := hF A.n w p hw hp hn fun k => (A.v i j k).im
    rw [hy] at h3
    have := hy' r dr (fun k hk => by simp [e k hk]) k hkn
    rw [Except.ok.injEq] at h3
    rw [← congrFun h3 k, this, e k hkn]
    simp
  · have hf : A.kind = .float := by
      cases h : A.kind with
      | float => rfl
      | complex => exact absurd h hc
      | other => exact absurd h hk
    rw [hT (by rw [hs.2.2.2, hf]) i j k, hA hf i j k]

/-- **C122 (violated for rectangular matrices).**  With more rows than columns nothing is returned; with more columns than rows the further columns
of what is returned are zero. -/
theorem C122_violated_rect {F : Filter} {A : Arr} {w p : ℕ} (hk : A.kind ≠ .other) :
    (A.b < A.a → ∀ B, smoothArray F A w p ≠ .ok B) ∧
      (A.a < A.b → ∀ B, smoothArray F A w p = .ok (some B) → B.b = A.b ∧ ∀ i j k, A.a ≤ j → B.v i j k = 0) := by
  refine ⟨fun hba B h => ?_, fun hab B h => ?_⟩
  · rw [smoothArray, if_neg hk] at h
    split at h
    · cases h
    · next v hv =>
      obtain ⟨y, hy, -⟩ := (loop_ok hv 0 A.b).1 (mem_pairs.2 ⟨by omega, hba⟩)
      rw [entry, if_neg (lt_irrefl _)] at hy
      cases hy
  · rw [smoothArray, if_neg hk] at h
    split at h
    · cases h
    · next v hv =>
      cases h
      refine ⟨rfl, fun i j k hj => ?_⟩
      show v i j k = 0
      rw [(loop_ok hv i j).2 fun hm => by
        have := (mem_pairs.1 hm).2
        omega]

/-- **C122 (violated for other dtypes).**  For integers or single precision the value is `None`. -/
theorem C122_violated_dtype {F : Filter} {A : Arr} {w p : ℕ} (hk : A.kind = .other) : smoothArray F A w p = .ok none := by
  rw [smoothArray, if_pos hk]

/-! ## Witnesses -/

/-- A filter that meets the contract: for windows of one more than the order nothing is smoothed. -/
def F0 : Filter := fun n w p x => if Odd w ∧ p < w ∧ w ≤ n then .ok x else .error .value

theorem F0_spec : SavSpec F0 := fun _ _ _ h1 h2 h3 x => ⟨x, if_pos ⟨h1, h2, h3⟩, fun _ _ h => h⟩

/-- An array of complex `a × b` matrices on five points. -/
def A0 (a b : ℕ) (t : Kind) : Arr := ⟨a, b, 5, t, fun i j k => (((i + 2 * j + 1 : ℕ) : ℝ) : ℂ) + Complex.I * ((((i : ℕ) : ℝ) * k : ℝ) : ℂ)⟩

example : ∃ B, smoothArray F0 (A0 2 2 .complex) 3 2 = .ok (some B) ∧ ∀ i < 2, ∀ j < 2, ∀ k < 5, B.v i j k = (A0 2 2 .complex).v i j k := by
  obtain ⟨B, h, -, e⟩ := C122_poly F0_spec (A := A0 2 2 .complex) (w := 3) (p := 2) (fun h => by simp [A0] at h) (by simp [A0]) rfl (by decide) (by norm_num)
    (by simp [A0]) (fun i _ j _ => ⟨Polynomial.C ((i + 2 * j + 1 : ℕ) : ℝ), Polynomial.C ((i : ℕ) : ℝ) * Polynomial.X, (Polynomial.natDegree_C _).le.trans (by norm_num),
      (Polynomial.natDegree_C_mul_le _ _).trans (Polynomial.natDegree_X_le.trans (by norm_num)), fun k _ => by simp [A0]⟩)
  exact ⟨B, h, e⟩

example : ∃ B, smoothArray F0 (A0 1 2 .complex) 3 2 = .ok (some B) ∧ B.v 0 1 0 = 0 ∧ (A0 1 2 .complex).v 0 1 0 ≠ 0 := by
  obtain ⟨v, hv⟩ := loop_total (l := pairs 1) (F := F0) (A := A0 1 2 .complex) (w := 3) (p := 2)
    (fun q hq => entry_total F0_spec (by decide) (by norm_num) (by simp [A0]) q.1 (by
      have := ((mem_pairs (i := q.1) (j := q.2)).1 hq).2
      show q.2 < 2
      omega)) fun _ _ _ => 0
  have h : smoothArray F0 (A0 1 2 .complex) 3 2 = .ok (some { A0 1 2 .complex with v := v }) := by
    rw [smoothArray, if_neg (by simp [A0])]
    show (match loop F0 (A0 1 2 .complex) 3 2 (pairs 1) fun _ _ _ => 0 with
      | .error e => Except.error e
      | .ok v => .ok (some { A0 1 2 .complex with v := v })) = _
    rw [hv]
  refine ⟨_, h, ((C122_violated_rect (by simp [A0])).2 (by simp [A0]) _ h).2 0 1 0 le_rfl, ?_⟩
  simp [A0]
  norm_num

example : ∀ B, smoothArray F0 (A0 2 1 .float) 3 2 ≠ .ok B := (C122_violated_rect (by simp [A0])).1 (by simp [A0])

end

end PyTeN.Smooth
