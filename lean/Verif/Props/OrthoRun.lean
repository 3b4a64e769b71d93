import Verif.Props.Ortho

/-!
# C99: what `orthonormalizeQR`, `orthonormalizeSVD`, `prepareTensorSVD` and `truncateMPS` compute
-/

namespace PyTeN
open Finset Ortho

noncomputable section

namespace Ortho

/-- Spec: the four cases of the documentation of `orthonormalizeQR` (and of `orthonormalizeSVD`) for a run over the sites
`a … b` of `ts`. -/
structure Orthonormalized (l r a b : ℕ) (direction : ℤ) (ts ts' : List (Ten ℂ)) (R : Mat ℂ) : Prop where
  right : direction > 0 → b + 1 = ts.length → SweptAllR l r a ts ts' R
  rightPart : direction > 0 → b + 1 < ts.length → SweptPart l r a b LeftOrth ts ts' R
  left : direction < 0 → a = 0 → SweptAllL l r b ts ts' R
  leftPart : direction < 0 → 0 < a → SweptPart l r a b RightOrth ts ts' R

theorem toNat_range {a b : ℕ} (h : a ≤ b) : ((b : ℤ) + 1 - (a : ℤ)).toNat = b - a + 1 := by omega

theorem run_spec {cR cL : Ten ℂ → Res (Ten ℂ × Mat ℂ × ℝ)} (hR : ∀ t a m z, cR t = .ok (a, m, z) → ExactR t a m z)
    (hL : ∀ t a m z, cL t = .ok (a, m, z) → ExactL t a m z) {l r a b : ℕ} {ts ts' : List (Ten ℂ)} {R : Mat ℂ}
    (hl : Linked l ts r) (hab : a ≤ b) (hb : b < ts.length) {direction : ℤ}
    (h : run cR cL ts direction a b = .ok (ts', R)) : Orthonormalized l r a b direction ts ts' R := by
  unfold run at h
  rw [toNat_range hab] at h
  simp only [Nat.add_one_ne_zero, if_false] at h
  split at h
  · cases h
  rename_i w hw
  simp only [Except.ok.injEq, Prod.mk.injEq] at h
  obtain ⟨rfl, rfl⟩ := h
  refine ⟨fun hd hb' => ?_, fun hd hb' => ?_, fun hd ha => ?_, fun hd ha => ?_⟩
  · rw [if_pos hd] at hw
    rw [show b - a + 1 = ts.length - a by omega] at hw
    exact fullR hR hl (by omega) hw
  · rw [if_pos hd] at hw
    have := partR (k := b - a) (n := a) hR hl (by omega) hw
    rwa [show a + (b - a) = b by omega] at this
  · rw [if_neg (by omega)] at hw
    subst ha
    exact fullL hL hl hb hw
  · rw [if_neg (by omega)] at hw
    have := partL (k := b - a) (lo := a) hL hl ha (by omega) hw
    rwa [show a + (b - a) = b by omega] at this

theorem run_total {cR cL : Ten ℂ → Res (Ten ℂ × Mat ℂ × ℝ)} (hR : ∀ t a m z, cR t = .ok (a, m, z) → ExactR t a m z)
    (hL : ∀ t a m z, cL t = .ok (a, m, z) → ExactL t a m z)
    (eR : ∀ t e, cR t = .error e → e = .nan ∧ ∀ i < t.l, ∀ j < t.r, ∀ s < t.d, t.v i j s = 0)
    (eL : ∀ t e, cL t = .error e → e = .nan ∧ ∀ i < t.l, ∀ j < t.r, ∀ s < t.d, t.v i j s = 0)
    {l r a b : ℕ} {ts : List (Ten ℂ)} (hl : Linked l ts r) (hab : a ≤ b) (hb : b < ts.length) (direction : ℤ)
    (hne : ∃ s, Cfg ts s ∧ ∃ i < l, ∃ j, chain ts s i j ≠ 0) :
    ∃ ts' R, run cR cL ts direction a b = .ok (ts', R) := by
  unfold run
  rw [toNat_range hab]
  simp only [Nat.add_one_ne_zero, if_false]
  by_cases hd : direction > 0
  · obtain ⟨w, hw⟩ := loopR_total hR eR hl (n := a) (k := b - a) (by omega) ⟨0, 0, fun _ _ => 0⟩ hne
    rw [if_pos hd, hw]
    exact ⟨_, _, rfl⟩
  · obtain ⟨w, hw⟩ := loopL_total hL eL hl (lo := a) (k := b - a) (by omega) ⟨0, 0, fun _ _ => 0⟩ hne
    rw [if_neg hd, hw]
    exact ⟨_, _, rfl⟩

theorem qrR_exact {O : LinAlg} (hO : O.Spec) (t a : Ten ℂ) (m : Mat ℂ) (z : ℝ) (h : prepareTensor O t 1 = .ok (a, m, z)) :
    ExactR t a m z := prepareTensorR_spec hO (f := .none) (by simpa [prepareTensor] using h)

theorem qrL_exact {O : LinAlg} (hO : O.Spec) (t a : Ten ℂ) (m : Mat ℂ) (z : ℝ)
    (h : prepareTensor O t (-1) = .ok (a, m, z)) : ExactL t a m z :=
  prepareTensorL_spec hO (f := .none) (by simpa [prepareTensor] using h)

theorem qrR_err {O : LinAlg} (hO : O.Spec) (t : Ten ℂ) (e : PyErr) (h : prepareTensor O t 1 = .error e) :
    e = .nan ∧ ∀ i < t.l, ∀ j < t.r, ∀ s < t.d, t.v i j s = 0 :=
  prepareTensorR_err hO (f := .none) (by simpa [prepareTensor] using h)

theorem qrL_err {O : LinAlg} (hO : O.Spec) (t : Ten ℂ) (e : PyErr) (h : prepareTensor O t (-1) = .error e) :
    e = .nan ∧ ∀ i < t.l, ∀ j < t.r, ∀ s < t.d, t.v i j s = 0 :=
  prepareTensorL_err hO (f := .none) (by simpa [prepareTensor] using h)

end Ortho

/-! ## `orthonormalizeQR` -/

/-- **C99.** `orthonormalizeQR(mps,direction,a,b)` makes the sites `a … b` orthonormal, leaves the physical dimensions and
the links alone, and: (right end reached) contracting the returned matrix into the list from the right gives the old
state; (left end reached) the same from the left; (otherwise) the new state is the old one divided by the norm of the
returned matrix. -/
theorem C99_qr {O : LinAlg} (hO : O.Spec) {l r a b : ℕ} {ts ts' : List (Ten ℂ)} {R : Mat ℂ} (hl : Linked l ts r)
    (hab : a ≤ b) (hb : b < ts.length) {direction : ℤ} (h : orthonormalizeQR O ts direction a b = .ok (ts', R)) :
    Orthonormalized l r a b direction ts ts' R := by
  unfold orthonormalizeQR at h
  split at h
  · cases h
  rw [if_neg (by omega), if_neg (by omega), Int.toNat_natCast] at h
  exact run_spec (qrR_exact hO) (qrL_exact hO) hl hab hb h

/-- **C99.** `orthonormalizeQR` returns for every range of sites of a list with a non-zero amplitude. -/
theorem C99_qr_total {O : LinAlg} (hO : O.Spec) {l r a b : ℕ} {ts : List (Ten ℂ)} (hl : Linked l ts r)
    (hab : a ≤ b) (hb : b < ts.length) {direction : ℤ} (hd : direction ≠ 0)
    (hne : ∃ s, Cfg ts s ∧ ∃ i < l, ∃ j, chain ts s i j ≠ 0) :
    ∃ ts' R, orthonormalizeQR O ts direction a b = .ok (ts', R) := by
  unfold orthonormalizeQR
  rw [if_neg hd, if_neg (by omega), if_neg (by omega), Int.toNat_natCast]
  exact run_total (qrR_exact hO) (qrL_exact hO) (qrR_err hO) (qrL_err hO) hl hab hb direction hne

/-- **C99.** The exceptions of `orthonormalizeQR` on a wrong range of sites: `assert` for direction 0, `site2≥len(mps)` or
`site1<0`; an empty range leaves `r` unbound. -/
theorem C99_qr_raises (O : LinAlg) (ts : List (Ten ℂ)) (direction a b : ℤ) :
    (direction = 0 ∨ (ts.length : ℤ) ≤ b ∨ a < 0 → orthonormalizeQR O ts direction a b = .error .assertion)
    ∧ (direction ≠ 0 → b < ts.length → 0 ≤ a → b < a → orthonormalizeQR O ts direction a b = .error .unbound) := by
  constructor
  · intro h
    unfold orthonormalizeQR
    split_ifs <;> first | rfl | omega
  · intro hd hb ha hab
    unfold orthonormalizeQR
    rw [if_neg hd, if_neg (by omega), if_neg (by omega)]
    unfold run
    have : (b + 1 - (a.toNat : ℤ)).toNat = 0 := by omega
    rw [this]
    simp

/-! ## `orthonormalizeSVD` -/

/-- **C99.** `orthonormalizeSVD(mps,direction,a,b)` has the same specification as `orthonormalizeQR`. -/
theorem C99_svd {O : LinAlg} (hO : O.Spec) {l r a b : ℕ} {ts ts' : List (Ten ℂ)} {R : Mat ℂ} (hl : Linked l ts r)
    (hab : a ≤ b) (hb : b < ts.length) {direction : ℤ} (h : orthonormalizeSVD O ts direction a b = .ok (ts', R)) :
    Orthonormalized l r a b direction ts ts' R := by
  unfold orthonormalizeSVD at h
  split at h
  · cases h
  exact run_spec (cutSR_exact hO) (cutSL_exact hO) hl hab hb h

theorem C99_svd_total {O : LinAlg} (hO : O.Spec) {l r a b : ℕ} {ts : List (Ten ℂ)} (hl : Linked l ts r)
    (hab : a ≤ b) (hb : b < ts.length) {direction : ℤ} (hd : direction ≠ 0)
    (hne : ∃ s, Cfg ts s ∧ ∃ i < l, ∃ j, chain ts s i j ≠ 0) :
    ∃ ts' R, orthonormalizeSVD O ts direction a b = .ok (ts', R) := by
  unfold orthonormalizeSVD
  rw [if_neg hd]
  exact run_total (cutSR_exact hO) (cutSL_exact hO) (cutSR_err hO) (cutSL_err hO) hl hab hb direction hne

/-- **C99.** `orthonormalizeSVD` lacks the assertion on `site2`: to the left it raises IndexError on the first site. -/
theorem C99_svd_raises (O : LinAlg) (ts : List (Ten ℂ)) {direction : ℤ} (a b : ℕ) :
    (direction = 0 → orthonormalizeSVD O ts direction a b = .error .assertion)
    ∧ (direction ≠ 0 → b < a → orthonormalizeSVD O ts direction a b = .error .unbound)
    ∧ (direction < 0 → a ≤ b → ts.length ≤ b → orthonormalizeSVD O ts direction a b = .error .index) := by
  refine ⟨fun h => by simp [orthonormalizeSVD, h], fun hd hab => ?_, fun hd hab hb => ?_⟩
  · unfold orthonormalizeSVD
    rw [if_neg hd]
    unfold run
    have : ((b : ℤ) + 1 - (a : ℤ)).toNat = 0 := by omega
    rw [this]
    simp
  · unfold orthonormalizeSVD
    rw [if_neg (by omega)]
    unfold run
    rw [toNat_range hab]
    simp only [Nat.add_one_ne_zero, if_false]
    rw [if_neg (by omega)]
    simp only [loopL, show a + (b - a) = b by omega]
    have : getT ts b = .error .index := by
      unfold getT; rw [List.getElem?_eq_none hb]
    rw [this]

/-! ## The states of the examples -/

/-- A 1×1×1 tensor. -/
def one111 (z : ℂ) : Ten ℂ := ⟨1, 1, 1, fun _ _ _ => z⟩

example : ∃ (O : LinAlg) (ts ts' : List (Ten ℂ)) (R : Mat ℂ), O.Spec ∧ Linked 1 ts 1
    ∧ orthonormalizeQR O ts 1 0 1 = .ok (ts', R) := by
  obtain ⟨O, hO⟩ := exists_linAlg
  have hl : Linked 1 [one111 2, one111 3] 1 := ⟨rfl, rfl, rfl⟩
  obtain ⟨ts', R, h⟩ := C99_qr_total hO hl (a := 0) (b := 1) (by omega) (by simp) (direction := 1) (by norm_num)
    ⟨[0, 0], .cons (by simp [one111]) (.cons (by simp [one111]) .nil), 0, by omega, 0, by simp [chain, one111, delta]⟩
  exact ⟨O, _, ts', R, hO, hl, h⟩

theorem Ortho.ExactR.z_sq {t a : Ten ℂ} {m : Mat ℂ} {z : ℝ} (h : ExactR t a m z) : z ^ 2 = t.sq := by
  have h1 : t.sq = normF (⟨m.r, m.c, fun i j => (z : ℂ) * m.v i j⟩ : Mat ℂ) ^ 2 := by
    have := sq_leftOrth_mul (m := ⟨m.r, m.c, fun i j => (z : ℂ) * m.v i j⟩)
      (f := t) h.orth h.r h.l.symm h.c.symm h.d.symm ?_
    · exact this
    · intro i hi j hj s hs
      rw [h.prod i (by rw [← h.l]; exact hi) j (by rw [← h.c]; exact hj) s (by rw [← h.d]; exact hs), mul_sum, h.r]
      exact sum_congr rfl fun k _ => by ring
  have h2 : normF (⟨m.r, m.c, fun i j => (z : ℂ) * m.v i j⟩ : Mat ℂ) = z := by
    have e : (⟨m.r, m.c, fun i j => (z : ℂ) * m.v i j⟩ : Mat ℂ) = scale m z := by
      unfold scale; congr 1; funext i j; ring
    rw [e, normF_scale, h.norm, mul_one]; simp [abs_of_pos h.zpos]
  rw [h1, h2]

/-- **C99.** The documentation ("for direction>0 and site2<len(mps)-1 the mps is not altered") is wrong: on two sites with
the entry 2, `orthonormalizeQR(mps,1,0,0)` halves the amplitude. -/
theorem C99_violated_partial {O : LinAlg} (hO : O.Spec) :
    ∃ ts' R, orthonormalizeQR O [one111 2, one111 2] 1 0 0 = .ok (ts', R)
      ∧ chain [one111 2, one111 2] [0, 0] 0 0 = 4 ∧ chain ts' [0, 0] 0 0 = 2 := by
  have hl : Linked 1 [one111 2, one111 2] 1 := ⟨rfl, rfl, rfl⟩
  have hcfg : Cfg [one111 2, one111 2] [0, 0] := .cons (by simp [one111]) (.cons (by simp [one111]) .nil)
  have h4 : chain [one111 2, one111 2] [0, 0] 0 0 = 4 := by simp [chain, one111, delta]; norm_num
  obtain ⟨ts', R, h⟩ := C99_qr_total hO hl (a := 0) (b := 0) le_rfl (by simp) (direction := 1) (by norm_num)
    ⟨[0, 0], hcfg, 0, by omega, 0, by rw [h4]; norm_num⟩
  refine ⟨ts', R, h, h4, ?_⟩
  have S := ((C99_qr hO hl le_rfl (by simp) h).rightPart (by norm_num) (by simp)).state [0, 0] hcfg 0 (by omega) 0 (by omega)
  have hR : normF R = 2 := by
    simp only [orthonormalizeQR, run] at h
    simp only [one_ne_zero, if_false, Nat.cast_zero, List.length_cons, List.length_nil] at h
    norm_num [loopR, getT] at h
    split at h
    · cases h
    rename_i w hw
    split at hw
    · cases hw
    rename_i a m z hp
    split at hw
    · cases hw
    simp only [Except.ok.injEq, Prod.mk.injEq] at hw h
    obtain ⟨_, rfl⟩ := h
    subst hw
    have E := qrR_exact hO _ _ _ _ hp
    have hz := Ortho.ExactR.z_sq E
    have : (one111 2).sq = 4 := by simp [Ten.sq, one111]; norm_num
    rw [this] at hz
    rw [normF_scale, E.norm, mul_one]
    have hz2 : z = 2 := by nlinarith [E.zpos]
    simp [hz2]
  rw [h4, hR] at S
  push_cast at S
  linear_combination S / 2

end

end PyTeN
