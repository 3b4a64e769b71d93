import Verif.Mps.LinAlg
import Verif.Chain

/-! # `FinegrainDolfi`, lib/mpslib/mpsfunctions.py:97-124 -/

namespace PyTeN
open Finset

noncomputable section

/-- The tensor `T` of lib/mpslib/mpsfunctions.py:104-107. -/
def dolfiT (s a b : ℕ) : ℂ :=
  if s = 0 ∧ a = 0 ∧ b = 0 then 1
  else if s = 1 ∧ a = 1 ∧ b = 0 then ((1 / Real.sqrt 2 : ℝ) : ℂ)
  else if s = 1 ∧ a = 0 ∧ b = 1 then ((1 / Real.sqrt 2 : ℝ) : ℂ)
  else 0

/-- The matrix of lib/mpslib/mpsfunctions.py:113-114: entry `(i*2+a, j*2+b)`. -/
def fineMat (A : Ten ℂ) : Mat ℂ :=
  ⟨A.l * 2, A.r * 2, fun x y => ∑ s ∈ range 2, A.v (x / 2) (y / 2) s * dolfiT s (x % 2) (y % 2)⟩

/-- One iteration of the loop, lib/mpslib/mpsfunctions.py:109-122.  `np.linalg.svd(matrix)` computes full
square `U` (`2D1×2D1`) and `V` (`2D2×2D2`); the products with the diagonal matrix of the `min(2D1,2D2)`
singular values raise ValueError unless `D1 = D2`, and for a square matrix the full and the reduced
decomposition are the same. -/
def fineSite (O : LinAlg) (A : Ten ℂ) : Res (Ten ℂ × Ten ℂ) :=
  if A.d ≠ 2 then .error .value
  else if A.l ≠ A.r then .error .value
  else
    let u := (O.svd (fineMat A)).1
    let s := (O.svd (fineMat A)).2.1
    let v := (O.svd (fineMat A)).2.2
    .ok (⟨A.l, s.length, 2, fun i k a => u.v (i * 2 + a) k * ((Real.sqrt (s.getD k 0) : ℝ) : ℂ)⟩,
      ⟨s.length, A.l, 2, fun k j b => ((Real.sqrt (s.getD k 0) : ℝ) : ℂ) * v.v k (j * 2 + b)⟩)

/-- The loop of `FinegrainDolfi`, lib/mpslib/mpsfunctions.py:108-123. -/
def fineLoop (O : LinAlg) : List (Ten ℂ) → Res (List (Ten ℂ))
  | [] => .ok []
  | A :: As =>
    match fineSite O A with
    | .error e => .error e
    | .ok (x, y) =>
      match fineLoop O As with
      | .error e => .error e
      | .ok l => .ok (x :: y :: l)

/-- `FinegrainDolfi(mps)`, lib/mpslib/mpsfunctions.py:97-124. -/
def finegrain (O : LinAlg) (mps : List (Ten ℂ)) : Res (List (Ten ℂ)) :=
  match mps with
  | [] => .error .index
  | A :: _ => if A.d ≠ 2 then .error .assertion else fineLoop O mps

/-! ## Specification -/

/-- Spec: product of the splitting isometry over the sites; `t` lists the fine configuration. -/
def splitEl : List ℕ → List ℕ → ℂ
  | [], [] => 1
  | s :: ss, a :: b :: t => dolfiT s a b * splitEl ss t
  | _, _ => 0

theorem fineSite_ok {O : LinAlg} (hO : O.Spec) {A x y : Ten ℂ} (h : fineSite O A = .ok (x, y)) :
    A.d = 2 ∧ A.l = A.r ∧ x.d = 2 ∧ y.d = 2 ∧ x.l = A.l ∧ x.r = y.l ∧ y.r = A.r ∧
      ∀ i < A.l, ∀ j < A.r, ∀ a < 2, ∀ b < 2, ∑ k ∈ range x.r, x.v i k a * y.v k j b =
        ∑ s ∈ range 2, A.v i j s * dolfiT s a b := by
  unfold fineSite at h
  split_ifs at h with h1 h2
  rw [not_not] at h1 h2
  simp only [Except.ok.injEq, Prod.mk.injEq] at h
  obtain ⟨rfl, rfl⟩ := h
  refine ⟨h1, h2, rfl, rfl, rfl, rfl, h2, ?_⟩
  intro i hi j hj a ha b hb
  have S := hO.svd (fineMat A)
  have hm : min (fineMat A).r (fineMat A).c = (O.svd (fineMat A)).2.1.length := S.len.symm
  have hp := S.prod (i * 2 + a) (idx_lt hi ha) (j * 2 + b) (idx_lt hj hb)
  rw [hm] at hp
  have he : (fineMat A).v (i * 2 + a) (j * 2 + b) = ∑ s ∈ range 2, A.v i j s * dolfiT s a b := by
    simp only [fineMat, idx_div ha, idx_mod ha, idx_div hb, idx_mod hb]
  rw [← he, ← hp]
  refine sum_congr rfl fun k hk => ?_
  have hk' := mem_range.mp hk
  have h0 : 0 ≤ (O.svd (fineMat A)).2.1.getD k 0 := by
    rw [List.getD_eq_getElem?_getD, List.getElem?_eq_getElem hk']
    exact S.nonneg _ (List.getElem_mem hk')
  have hsq : ((Real.sqrt ((O.svd (fineMat A)).2.1.getD k 0) : ℝ) : ℂ) *
      ((Real.sqrt ((O.svd (fineMat A)).2.1.getD k 0) : ℝ) : ℂ) = (((O.svd (fineMat A)).2.1.getD k 0 : ℝ) : ℂ) := by
    rw [← Complex.ofReal_mul, Real.mul_self_sqrt h0]
  rw [← hsq]
  ring

theorem fineLoop_spec {O : LinAlg} (hO : O.Spec) : ∀ (ts fs : List (Ten ℂ)) (l r : ℕ), fineLoop O ts = .ok fs →
    Linked l ts r → fs.length = 2 * ts.length ∧ (∀ t ∈ ts, t.d = 2 ∧ t.l = t.r) ∧ (∀ t ∈ fs, t.d = 2) ∧ Linked l fs r ∧
      ∀ t : List ℕ, (∀ x ∈ t, x < 2) → ∀ i < l, ∀ j < r, chain fs t i j =
        sumCfg (ts.map Ten.d) fun s => chain ts s i j * splitEl s t := by
  intro ts
  induction ts with
  | nil =>
    intro fs l r h hl
    simp only [fineLoop, Except.ok.injEq] at h
    subst h
    refine ⟨rfl, by simp, by simp, hl, ?_⟩
    intro t _ i _ j _
    cases t <;> simp [chain, sumCfg, splitEl]
  | cons A ts ih =>
    intro fs l r h hl
    simp only [fineLoop] at h
    split at h
    · cases h
    rename_i x y hxy
    split at h
    · cases h
    rename_i fs' hfs
    simp only [Except.ok.injEq] at h
    subst h
    obtain ⟨d, sq, dx, dy, xl, xr, yr, hv⟩ := fineSite_ok hO hxy
    obtain ⟨g1, g2, g3, g4, g5⟩ := ih fs' A.r r hfs hl.2
    obtain ⟨rfl, -⟩ := hl
    refine ⟨by simp [g1]; ring, ?_, ?_, ⟨xl, xr.symm, by rw [yr]; exact g4⟩, ?_⟩
    · intro t ht
      rcases List.mem_cons.mp ht with rfl | ht
      · exact ⟨d, sq⟩
      · exact g2 t ht
    · intro t ht
      simp only [List.mem_cons] at ht
      rcases ht with rfl | rfl | ht
      · exact dx
      · exact dy
      · exact g3 t ht
    · intro t ht i hi j hj
      cases t with
      | nil => simp [chain, splitEl, sumCfg_zero, sumCfg]
      | cons a t =>
        cases t with
        | nil => simp [chain, splitEl, sumCfg_zero]
        | cons b t =>
          have ha : a < 2 := ht a (by simp)
          have hb : b < 2 := ht b (by simp)
          have ht' : ∀ z ∈ t, z < 2 := fun z hz => ht z (by simp [hz])
          simp only [chain, List.map_cons, sumCfg, splitEl, d]
          have e1 : ∑ k ∈ range x.r, x.v i k a * ∑ q ∈ range y.r, y.v k q b * chain fs' t q j
              = ∑ q ∈ range A.r, ∑ s ∈ range 2, sumCfg (ts.map Ten.d) fun ss =>
                A.v i q s * chain ts ss q j * (dolfiT s a b * splitEl ss t) := by
            simp only [mul_sum]
            rw [sum_comm, yr]
            refine sum_congr rfl fun q hq => ?_
            have hq' := mem_range.mp hq
            have : ∀ k, x.v i k a * (y.v k q b * chain fs' t q j) = x.v i k a * y.v k q b * chain fs' t q j := by
              intro k; ring
            simp only [this]
            rw [← sum_mul, hv i hi q hq' a ha b hb, g5 t ht' q hq' j hj, sum_mul]
            refine sum_congr rfl fun s _ => ?_
            rw [← sumCfg_mul]
            apply sumCfg_congr; intro ss _
            ring
          rw [e1, sum_comm]
          refine sum_congr rfl fun s _ => ?_
          rw [← sumCfg_sum]
          apply sumCfg_congr; intro ss _
          rw [sum_mul]

theorem fineLoop_ok (O : LinAlg) : ∀ (ts : List (Ten ℂ)), (∀ t ∈ ts, t.d = 2 ∧ t.l = t.r) → ∃ fs, fineLoop O ts = .ok fs
  | [], _ => ⟨[], rfl⟩
  | A :: ts, h => by
    obtain ⟨fs, hf⟩ := fineLoop_ok O ts (fun t ht => h t (by simp [ht]))
    have hA := h A (by simp)
    simp only [fineLoop, fineSite, hf, if_neg (not_not.mpr hA.1), if_neg (not_not.mpr hA.2)]
    exact ⟨_, rfl⟩

end

end PyTeN
