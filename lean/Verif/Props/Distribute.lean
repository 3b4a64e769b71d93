import Verif.Mps.RegaugeCore
import Verif.Mps.Distribute
import Mathlib.LinearAlgebra.Matrix.PosDef
import Mathlib.LinearAlgebra.Matrix.Charpoly.Coeff
import Mathlib.LinearAlgebra.Matrix.ToLinearEquiv
import Mathlib.Analysis.SpecialFunctions.Pow.Real
import Mathlib.FieldTheory.IsAlgClosed.Basic
import Mathlib.Analysis.Complex.Polynomial.Basic

/-! # C113: distributing a matrix over a unit cell -/

namespace PyTeN.Distribute
open Finset Transfer Regauge
open scoped ComplexOrder

noncomputable section

/-! ## Specification -/

/-- Contract of `np.linalg.eig` on square matrices: the roots of the characteristic polynomial with their multiplicities, and a normalised
eigenvector for each. -/
structure EigSpec (E : Mat ℂ → List ℂ × Mat ℂ) : Prop where
  rows : ∀ r, r.r = r.c → (E r).2.r = r.r
  cols : ∀ r, r.r = r.c → (E r).2.c = r.r
  len : ∀ r, r.r = r.c → (E r).1.length = r.r
  eig : ∀ r, r.r = r.c → ∀ i < r.r, ∀ k < r.r, ∑ j ∈ range r.r, r.v i j * (E r).2.v j k = (E r).1.getD k 0 * (E r).2.v i k
  unit : ∀ r, r.r = r.c → ∀ k < r.r, ∑ i ∈ range r.r, Complex.normSq ((E r).2.v i k) = 1
  char : ∀ r, r.r = r.c → (toM r.r r.v).charpoly = ((((E r).1 : List ℂ) : Multiset ℂ).map fun e => Polynomial.X - Polynomial.C e).prod

/-- The matrix of one component of a tensor. -/
def compM (D : ℕ) (A : Ten ℂ) (s : ℕ) : Matrix (Fin D) (Fin D) ℂ := toM D fun i j => A.v i j s

/-- Spec: `out` is `mps` with the `N+1`-st root `R` of `r` distributed over the bonds, `R^n·out[n] = mps[n]·R^(n+1)`. -/
structure Spread (D : ℕ) (mps out : List (Ten ℂ)) (R : Matrix (Fin D) (Fin D) ℂ) : Prop where
  len : out.length = mps.length
  shape : ∀ (n : ℕ) A, out[n]? = some A → A.l = D ∧ A.r = D
  comp : ∀ (n : ℕ) A A', mps[n]? = some A → out[n]? = some A' → A'.d = A.d ∧ ∀ s < A.d, R ^ n * compM D A' s = compM D A s * R ^ (n + 1)

/-! ## Algebra -/

theorem toM_diagC {D : ℕ} (s : List ℂ) : toM D (diagC s).v = Matrix.diagonal fun i : Fin D => s.getD i 0 := by
  ext i j
  simp only [toM, diagC, delta, Matrix.diagonal_apply, Fin.ext_iff]
  split_ifs <;> simp

/-- The matrix `U diag(f) U†`. -/
def conjD {D : ℕ} (U : Matrix (Fin D) (Fin D) ℂ) (f : Fin D → ℂ) : Matrix (Fin D) (Fin D) ℂ := U * Matrix.diagonal f * U.conjTranspose

theorem conjD_mul {D : ℕ} {U : Matrix (Fin D) (Fin D) ℂ} (hU : U.conjTranspose * U = 1) (f g : Fin D → ℂ) :
    conjD U f * conjD U g = conjD U fun i => f i * g i := by
  unfold conjD
  calc U * Matrix.diagonal f * U.conjTranspose * (U * Matrix.diagonal g * U.conjTranspose)
      = U * Matrix.diagonal f * (U.conjTranspose * U) * Matrix.diagonal g * U.conjTranspose := by simp only [Matrix.mul_assoc]
    _ = _ := by rw [hU, Matrix.mul_one, Matrix.mul_assoc U, Matrix.diagonal_mul_diagonal]

theorem conjD_one {D : ℕ} {U : Matrix (Fin D) (Fin D) ℂ} (hU : U.conjTranspose * U = 1) : conjD U (fun _ => 1) = 1 := by
  unfold conjD
  rw [Matrix.diagonal_one, Matrix.mul_one, mul_eq_one_comm.mp hU]

theorem conjD_pow {D : ℕ} {U : Matrix (Fin D) (Fin D) ℂ} (hU : U.conjTranspose * U = 1) (f : Fin D → ℂ) (n : ℕ) :
    conjD U f ^ n = conjD U fun i => f i ^ n := by
  induction n with
  | zero => simp only [pow_zero]; rw [conjD_one hU]
  | succ n ih => rw [pow_succ, ih, conjD_mul hU]; simp only [pow_succ]

theorem getD_mapC (l : List ℂ) (f : ℂ → ℂ) {k : ℕ} (hk : k < l.length) : (l.map f).getD k 0 = f (l.getD k 0) := by
  rw [List.getD_eq_getElem _ _ (by simpa using hk), List.getD_eq_getElem _ _ hk, List.getElem_map]

theorem toM_conj {D : ℕ} {U : Mat ℂ} (hc : U.c = D) {l : List ℂ} (hl : l.length = D) (f : ℂ → ℂ) :
    toM D ((U.dot (diagC (l.map f))).dot U.herm).v = conjD (toM D U.v) fun i => f (l.getD i 0) := by
  rw [toM_dot (n := D) _ _ (by simp [Mat.dot, diagC, hl]), toM_dot _ _ hc, toM_herm, toM_diagC]
  unfold conjD
  congr 3
  funext i
  exact getD_mapC l f (by rw [hl]; exact i.2)

theorem stepR_ok {D : ℕ} {temp : List ℂ} {U : Mat ℂ} {n : ℕ} {t t' : Ten ℂ} (hr : U.r = D) (hc : U.c = D) (hl : temp.length = D)
    (h : stepR temp U n t = .ok t') : t.l = D ∧ t.r = D ∧ t'.l = D ∧ t'.r = D ∧ t'.d = t.d ∧ (n ≠ 0 → (0 : ℂ) ∉ temp) ∧
      ∀ s, compM D t' s = conjD (toM D U.v) (fun i => (temp.getD i 0 ^ n)⁻¹) * compM D t s * conjD (toM D U.v) fun i => temp.getD i 0 ^ (n + 1) := by
  unfold stepR at h
  dsimp only at h
  split_ifs at h with h1 h2 h3
  have e1 : ((U.dot (diagC (temp.map fun z => (z ^ n)⁻¹))).dot U.herm).c = D := hr
  have e2 : ((U.dot (diagC (temp.map (· ^ (n + 1))))).dot U.herm).r = D := hr
  have hl' : t.l = D := by rw [e1] at h2; exact (not_not.mp h2).symm
  have hr' : t.r = D := by rw [e2] at h3; exact not_not.mp h3
  cases h
  refine ⟨hl', hr', hr, hr, rfl, fun hn h0 => h1 ⟨hn, h0⟩, fun s => ?_⟩
  rw [← toM_conj hc hl (fun z => (z ^ n)⁻¹), ← toM_conj hc hl (· ^ (n + 1))]
  ext i j
  simp only [compM, toM, Matrix.mul_apply]
  rw [hl', hr', sum_comm, ← Fin.sum_univ_eq_sum_range (fun b => ∑ a ∈ range D,
    ((U.dot (diagC (temp.map fun z => (z ^ n)⁻¹))).dot U.herm).v i a * t.v a b s * ((U.dot (diagC (temp.map (· ^ (n + 1))))).dot U.herm).v b j)]
  refine sum_congr rfl fun b _ => ?_
  rw [sum_mul, ← Fin.sum_univ_eq_sum_range (fun a =>
    ((U.dot (diagC (temp.map fun z => (z ^ n)⁻¹))).dot U.herm).v i a * t.v a b s * ((U.dot (diagC (temp.map (· ^ (n + 1))))).dot U.herm).v b j)]

theorem stepR_total {D : ℕ} {temp : List ℂ} {U : Mat ℂ} (n : ℕ) {t : Ten ℂ} (hr : U.r = D) (h0 : (0 : ℂ) ∉ temp) (htl : t.l = D) (htr : t.r = D) :
    ∃ t', stepR temp U n t = .ok t' := by
  unfold stepR
  dsimp only
  rw [if_neg (fun h => h0 h.2), if_neg (by simp [Mat.dot, Mat.herm, hr, htl]), if_neg (by simp [Mat.dot, hr, htr])]
  exact ⟨_, rfl⟩

theorem loopR_total {D : ℕ} {temp : List ℂ} {U : Mat ℂ} (hr : U.r = D) (h0 : (0 : ℂ) ∉ temp) : ∀ (ts : List (Ten ℂ)) (n : ℕ),
    (∀ t ∈ ts, t.l = D ∧ t.r = D) → ∃ out, loopR temp U n ts = .ok out
  | [], _, _ => ⟨[], rfl⟩
  | t :: ts, n, h => by
    obtain ⟨t', ht⟩ := stepR_total n hr h0 (h t (List.mem_cons_self ..)).1 (h t (List.mem_cons_self ..)).2
    obtain ⟨out, ho⟩ := loopR_total hr h0 ts (n + 1) fun u hu => h u (List.mem_cons_of_mem _ hu)
    exact ⟨t' :: out, by simp only [loopR, ht, ho]⟩

theorem loopR_ok {D : ℕ} {temp : List ℂ} {U : Mat ℂ} (hr : U.r = D) (hc : U.c = D) (hl : temp.length = D) :
    ∀ {ts out : List (Ten ℂ)} {n : ℕ}, loopR temp U n ts = .ok out → out.length = ts.length ∧
      ∀ (k : ℕ) A A', ts[k]? = some A → out[k]? = some A' → stepR temp U (n + k) A = .ok A'
  | [], out, n, h => by cases h; exact ⟨rfl, fun k A A' h => by simp at h⟩
  | t :: ts, out, n, h => by
    simp only [loopR] at h
    split at h
    · cases h
    rename_i t' ht
    split at h
    · cases h
    rename_i ts' hts
    cases h
    obtain ⟨h1, h2⟩ := loopR_ok hr hc hl hts
    refine ⟨by simp [h1], ?_⟩
    intro k A A' hA hA'
    cases k with
    | zero => simp only [List.getElem?_cons_zero, Option.some.injEq] at hA hA'; subst hA hA'; exact ht
    | succ k =>
      have := h2 k A A' (by simpa using hA) (by simpa using hA')
      rwa [show n + (k + 1) = n + 1 + k by ring]

/-- The matrix of a cell. -/
theorem cell_cons {D : ℕ} {t : Ten ℂ} (ts : List (Ten ℂ)) (ht : t.r = D) (x : ℕ) (s : List ℕ) :
    cellM D (t :: ts) (x :: s) = compM D t x * cellM D ts s := by
  ext i j
  simp only [cellM, toM, compM, Matrix.mul_apply, chain]
  rw [ht, ← Fin.sum_univ_eq_sum_range (fun b => t.v i b x * chain ts s b j)]

theorem spread_cell {D : ℕ} {R : Matrix (Fin D) (Fin D) ℂ} : ∀ {mps out : List (Ten ℂ)} {n : ℕ}, out.length = mps.length →
    (∀ t ∈ mps, t.r = D) → (∀ t ∈ out, t.r = D) →
    (∀ (k : ℕ) A A', mps[k]? = some A → out[k]? = some A' → ∀ s < A.d, R ^ (n + k) * compM D A' s = compM D A s * R ^ (n + k + 1)) →
    ∀ s, Cfg mps s → R ^ n * cellM D out s = cellM D mps s * R ^ (n + mps.length)
  | [], out, n, hl, _, _, _, s, hs => by
    have : out = [] := List.length_eq_zero_iff.mp hl
    subst this
    cases hs
    simp only [cellM, List.length_nil, add_zero]
    rw [show chain [] [] = delta ℂ from rfl, toM_delta, Matrix.mul_one, Matrix.one_mul]
  | t :: ts, [], n, hl, _, _, _, s, hs => by simp at hl
  | t :: ts, t' :: ts', n, hl, hm, ho, hk, s, hs => by
    cases hs with
    | cons hx hs =>
      rename_i x s
      rw [cell_cons ts' (ho t' (List.mem_cons_self ..)), cell_cons ts (hm t (List.mem_cons_self ..)), ← Matrix.mul_assoc]
      have h0 := hk 0 t t' (by simp) (by simp) x hx
      rw [add_zero] at h0
      have ih := spread_cell (n := n + 1) (by simpa using hl) (fun u hu => hm u (List.mem_cons_of_mem _ hu))
        (fun u hu => ho u (List.mem_cons_of_mem _ hu)) (fun k A A' hA hA' s hs => by
          have := hk (k + 1) A A' (by simpa using hA) (by simpa using hA') s hs
          rwa [show n + (k + 1) = n + 1 + k by ring] at this) s hs
      rw [h0, Matrix.mul_assoc, ih, ← Matrix.mul_assoc, List.length_cons, show n + (ts.length + 1) = n + 1 + ts.length by ring]

/-! ## Theorems -/

/-- Unfolding a successful run. -/
theorem run_ok {E : Mat ℂ → List ℂ × Mat ℂ} {mps out : List (Ten ℂ)} {x : List ℝ} {L : ℝ} {r : Mat ℂ}
    (h : distributeR E mps x L r = .ok out) : r.r = r.c ∧ loopR ((E r).1.map (· ^ ((mps.length + 1 : ℕ) : ℂ)⁻¹)) (E r).2 0 mps = .ok out := by
  unfold distributeR at h
  split at h
  · cases h
  split at h
  · cases h
  split_ifs at h with h1 h2
  exact ⟨not_not.mp h2, h⟩

theorem eig_mul {E : Mat ℂ → List ℂ × Mat ℂ} (hE : EigSpec E) {r : Mat ℂ} (hr : r.r = r.c) :
    toM r.r r.v * toM r.r (E r).2.v = toM r.r (E r).2.v * Matrix.diagonal fun i : Fin r.r => (E r).1.getD i 0 := by
  ext i k
  rw [Matrix.mul_diagonal, Matrix.mul_apply]
  simp only [toM]
  rw [mul_comm, ← hE.eig r hr i i.2 k k.2, ← Fin.sum_univ_eq_sum_range (fun j => r.v i j * (E r).2.v j k)]

/-- **C113**: if `r` is positive definite and the returned eigenvectors are orthonormal, `distributeR` spreads `r` over the cell: there
is a positive matrix `R` with `R^(N+1)=r` and `R^n·mps'[n]=mps[n]·R^(n+1)`, so the product over the cell gets the factor `R^N` at its end
and the state inside is the same. -/
theorem C113_spread {E : Mat ℂ → List ℂ × Mat ℂ} (hE : EigSpec E) {mps out : List (Ten ℂ)} {x : List ℝ} {L : ℝ} {r : Mat ℂ}
    (hp : (toM r.r r.v).PosDef) (hU : (toM r.r (E r).2.v).conjTranspose * toM r.r (E r).2.v = 1)
    (h : distributeR E mps x L r = .ok out) :
    ∃ R : Matrix (Fin r.r) (Fin r.r) ℂ, R.PosDef ∧ R ^ (mps.length + 1) = toM r.r r.v ∧ Spread r.r mps out R ∧
      ∀ s, Cfg mps s → cellM r.r out s = cellM r.r mps s * R ^ mps.length := by
  obtain ⟨hr, h⟩ := run_ok h
  set U := toM r.r (E r).2.v with hUd
  set N := mps.length with hN
  have hm := eig_mul hE hr
  rw [← hUd] at hm
  have hUU := mul_eq_one_comm.mp hU
  have hrd : toM r.r r.v = conjD U fun i => (E r).1.getD i 0 := by
    unfold conjD
    rw [← hm, Matrix.mul_assoc, hUU, Matrix.mul_one]
  have hpos : ∀ i : Fin r.r, 0 < (E r).1.getD i 0 := by
    have h1 : (U.conjTranspose * toM r.r r.v * U).PosDef := hp.conjTranspose_mul_mul_same (by
      intro a b hab
      have := congrArg (U.conjTranspose.mulVec ·) hab
      simpa only [Matrix.mulVec_mulVec, hU, Matrix.one_mulVec] using this)
    rw [Matrix.mul_assoc, hm, ← Matrix.mul_assoc, hU, Matrix.one_mul, Matrix.posDef_diagonal_iff] at h1
    exact h1
  have hNp : ((N + 1 : ℕ)) ≠ 0 := Nat.succ_ne_zero N
  set f : Fin r.r → ℂ := fun i => (E r).1.getD i 0 ^ ((N + 1 : ℕ) : ℂ)⁻¹ with hf
  have hfpos : ∀ i, 0 < f i := by
    intro i
    have h1 := hpos i
    rw [Complex.pos_iff] at h1
    have h2 : (E r).1.getD i 0 = (((E r).1.getD i 0).re : ℂ) := Complex.ext rfl (by rw [Complex.ofReal_im]; exact h1.2.symm)
    simp only [hf]
    rw [h2, ← Complex.ofReal_natCast, ← Complex.ofReal_inv, ← Complex.ofReal_cpow h1.1.le]
    exact_mod_cast Real.rpow_pos_of_pos h1.1 _
  have hlen : ((E r).1.map (· ^ ((N + 1 : ℕ) : ℂ)⁻¹)).length = r.r := by rw [List.length_map, hE.len r hr]
  have hfD : ∀ i : Fin r.r, ((E r).1.map (· ^ ((N + 1 : ℕ) : ℂ)⁻¹)).getD i 0 = f i := fun i =>
    getD_mapC _ (· ^ ((N + 1 : ℕ) : ℂ)⁻¹) (by rw [hE.len r hr]; exact i.2)
  obtain ⟨hol, hst⟩ := loopR_ok (hE.rows r hr) (hE.cols r hr) hlen h
  have hcomp : ∀ (k : ℕ) A A', mps[k]? = some A → out[k]? = some A' → A.r = r.r ∧ A'.l = r.r ∧ A'.r = r.r ∧ A'.d = A.d ∧
      ∀ s, conjD U f ^ k * compM r.r A' s = compM r.r A s * conjD U f ^ (k + 1) := by
    intro k A A' hA hA'
    have h1 := hst k A A' hA hA'
    rw [Nat.zero_add] at h1
    obtain ⟨a1, a2, a3, a4, a5, -, a7⟩ := stepR_ok (hE.rows r hr) (hE.cols r hr) hlen h1
    refine ⟨a2, a3, a4, a5, fun s => ?_⟩
    rw [a7 s]
    simp only [hfD]
    rw [← hUd, conjD_pow hU, conjD_pow hU, ← Matrix.mul_assoc, ← Matrix.mul_assoc, conjD_mul hU]
    simp only [mul_inv_cancel₀ (pow_ne_zero k (hfpos _).ne')]
    rw [conjD_one hU, Matrix.one_mul]
  have hmem : ∀ {l l' : List (Ten ℂ)}, l.length = l'.length → ∀ t ∈ l, ∃ (k : ℕ) (t' : Ten ℂ), l[k]? = some t ∧ l'[k]? = some t' := by
    intro l l' hll t ht
    obtain ⟨k, hk, rfl⟩ := List.mem_iff_getElem.mp ht
    exact ⟨k, l'[k]'(by omega), List.getElem?_eq_getElem hk, List.getElem?_eq_getElem (by omega)⟩
  refine ⟨conjD U f, ?_, ?_, ⟨hol, ?_, ?_⟩, ?_⟩
  · have h1 : (Matrix.diagonal f).PosDef := Matrix.posDef_diagonal_iff.mpr hfpos
    have h2 := h1.conjTranspose_mul_mul_same (B := U.conjTranspose) (by
      intro a b hab
      have := congrArg (U.mulVec ·) hab
      simpa only [Matrix.mulVec_mulVec, hUU, Matrix.one_mulVec] using this)
    rwa [Matrix.conjTranspose_conjTranspose] at h2
  · rw [conjD_pow hU, hrd]
    congr 1
    funext i
    exact Complex.cpow_nat_inv_pow _ hNp
  · intro n A hA
    obtain ⟨hn, -⟩ := List.getElem?_eq_some_iff.mp hA
    obtain ⟨-, b2, b3, -⟩ := hcomp n _ A (List.getElem?_eq_getElem (by omega)) hA
    exact ⟨b2, b3⟩
  · intro n A A' hA hA'
    obtain ⟨-, -, -, b4, b5⟩ := hcomp n A A' hA hA'
    exact ⟨b4, fun s _ => b5 s⟩
  · intro s hs
    have h1 := spread_cell (R := conjD U f) (n := 0) hol (fun t ht => by
        obtain ⟨k, t', h1, h2⟩ := hmem hol.symm t ht
        exact (hcomp k t t' h1 h2).1) (fun t ht => by
        obtain ⟨k, t', h1, h2⟩ := hmem hol t ht
        exact (hcomp k t' t h2 h1).2.2.1) (fun k A A' hA hA' s _ => by
        rw [Nat.zero_add]; exact (hcomp k A A' hA hA').2.2.2.2 s) s hs
    rwa [pow_zero, Matrix.one_mul, Nat.zero_add] at h1

/-- The eigenvectors of a Hermitian matrix with distinct eigenvalues are orthonormal. -/
theorem ortho_of_distinct {E : Mat ℂ → List ℂ × Mat ℂ} (hE : EigSpec E) {r : Mat ℂ} (hr : r.r = r.c)
    (hh : (toM r.r r.v).IsHermitian) (hd : (toM r.r r.v).charpoly.roots.Nodup) :
    (toM r.r (E r).2.v).conjTranspose * toM r.r (E r).2.v = 1 := by
  set U := toM r.r (E r).2.v with hUd
  have hm := eig_mul hE hr
  rw [← hUd] at hm
  rw [hE.char r hr, Polynomial.roots_multiset_prod_X_sub_C, Multiset.coe_nodup] at hd
  set e : Fin r.r → ℂ := fun i => (E r).1.getD i 0 with he
  have hG : U.conjTranspose * U * Matrix.diagonal e = (Matrix.diagonal e).conjTranspose * (U.conjTranspose * U) := by
    rw [Matrix.mul_assoc, ← hm, ← Matrix.mul_assoc, ← Matrix.mul_assoc, ← Matrix.conjTranspose_mul, ← hm, Matrix.conjTranspose_mul, hh.eq]
  have hent : ∀ i j, (U.conjTranspose * U) i j * e j = star (e i) * (U.conjTranspose * U) i j := by
    intro i j
    have := congrFun (congrFun hG i) j
    rwa [Matrix.mul_diagonal, Matrix.diagonal_conjTranspose, Matrix.diagonal_mul] at this
  have hii : ∀ i, (U.conjTranspose * U) i i = 1 := by
    intro i
    have h1 := hE.unit r hr i i.2
    rw [Matrix.mul_apply, ← Complex.ofReal_one, ← h1, Complex.ofReal_sum, ← Fin.sum_univ_eq_sum_range (fun j => ((Complex.normSq ((E r).2.v j i) : ℝ) : ℂ))]
    exact sum_congr rfl fun j _ => normSq_of.symm
  have hreal : ∀ i, star (e i) = e i := fun i => by
    have := hent i i
    rw [hii, one_mul, mul_one] at this
    exact this.symm
  ext i j
  by_cases hij : i = j
  · subst hij; rw [hii, Matrix.one_apply_eq]
  · rw [Matrix.one_apply_ne hij]
    have h1 := hent i j
    rw [hreal, mul_comm, ← sub_eq_zero, ← sub_mul] at h1
    refine (mul_eq_zero.mp h1).resolve_left fun h2 => hij ?_
    have h3 : (E r).1.getD j 0 = (E r).1.getD i 0 := sub_eq_zero.mp h2
    have hli : (i : ℕ) < (E r).1.length := by rw [hE.len r hr]; exact i.2
    have hlj : (j : ℕ) < (E r).1.length := by rw [hE.len r hr]; exact j.2
    rw [List.getD_eq_getElem _ _ hlj, List.getD_eq_getElem _ _ hli] at h3
    exact Fin.ext ((List.Nodup.getElem_inj_iff hd).mp h3).symm

/-- **C113** for a positive matrix with distinct eigenvalues, where `eig` has no choice. -/
theorem C113_distinct {E : Mat ℂ → List ℂ × Mat ℂ} (hE : EigSpec E) {mps out : List (Ten ℂ)} {x : List ℝ} {L : ℝ} {r : Mat ℂ}
    (hp : (toM r.r r.v).PosDef) (hd : (toM r.r r.v).charpoly.roots.Nodup) (h : distributeR E mps x L r = .ok out) :
    ∃ R : Matrix (Fin r.r) (Fin r.r) ℂ, R.PosDef ∧ R ^ (mps.length + 1) = toM r.r r.v ∧ Spread r.r mps out R ∧
      ∀ s, Cfg mps s → cellM r.r out s = cellM r.r mps s * R ^ mps.length :=
  C113_spread hE hp (ortho_of_distinct hE (run_ok h).1 hp.1 hd) h

/-- **C113**: on a uniform grid and tensors of the dimension of an invertible matrix the call succeeds. -/
theorem C113_succeeds {E : Mat ℂ → List ℂ × Mat ℂ} (hE : EigSpec E) {mps : List (Ten ℂ)} {x dx : List ℝ} {L : ℝ} {r : Mat ℂ}
    (hr : r.r = r.c) (hp : (toM r.r r.v).det ≠ 0) (hne : mps ≠ []) (hs : ∀ t ∈ mps, t.l = r.r ∧ t.r = r.r)
    (hx : Utils.computedx (1 / 10 ^ 12) 0 x L = .ok dx) (hu : ∀ d ∈ dx, |d - dx.headD 0| < 1 / 10 ^ 10) :
    ∃ out, distributeR E mps x L r = .ok out := by
  unfold distributeR
  match mps, hne with
  | t :: ts, _ =>
    simp only
    rw [hx]
    simp only
    rw [if_neg (not_not.mpr hu), if_neg (not_not.mpr hr)]
    refine loopR_total (hE.rows r hr) ?_ _ 0 hs
    intro h0
    obtain ⟨e, he, h1⟩ := List.mem_map.mp h0
    have he0 : e = 0 := (Complex.cpow_eq_zero_iff _ _).mp h1 |>.1
    subst he0
    apply hp
    have h2 : (toM r.r r.v).charpoly.eval 0 = 0 := by
      rw [hE.char r hr, Polynomial.eval_multiset_prod, Multiset.prod_eq_zero_iff, Multiset.map_map, Multiset.mem_map]
      exact ⟨0, he, by simp⟩
    rw [Matrix.det_eq_sign_charpoly_coeff, Polynomial.coeff_zero_eq_eval_zero, h2, mul_zero]

/-- **C113 is violated** on a grid which is not uniform: the message is never printed, as the module has no `sys`. -/
theorem C113_violated_exit {E : Mat ℂ → List ℂ × Mat ℂ} {t : Ten ℂ} {ts : List (Ten ℂ)} {x dx : List ℝ} {L : ℝ} {r : Mat ℂ}
    (hx : Utils.computedx (1 / 10 ^ 12) 0 x L = .ok dx) (hu : ∃ d ∈ dx, 1 / 10 ^ 10 ≤ |d - dx.headD 0|) :
    distributeR E (t :: ts) x L r = .error .name := by
  unfold distributeR
  simp only
  rw [hx]
  simp only
  rw [if_pos]
  obtain ⟨d, hd, h⟩ := hu
  exact fun h' => absurd (h' d hd) (not_lt.mpr h)

/-! ## The contract can be met -/

theorem exists_eig : ∃ E : Mat ℂ → List ℂ × Mat ℂ, EigSpec E := by
  have key : ∀ r : Mat ℂ, ∃ p : List ℂ × Mat ℂ, r.r = r.c → p.2.r = r.r ∧ p.2.c = r.r ∧ p.1.length = r.r ∧
      (∀ i < r.r, ∀ k < r.r, ∑ j ∈ range r.r, r.v i j * p.2.v j k = p.1.getD k 0 * p.2.v i k) ∧
      (∀ k < r.r, ∑ i ∈ range r.r, Complex.normSq (p.2.v i k) = 1) ∧
      (toM r.r r.v).charpoly = (((p.1 : List ℂ) : Multiset ℂ).map fun e => Polynomial.X - Polynomial.C e).prod := by
    intro r
    set M := toM r.r r.v with hM
    set es := M.charpoly.roots.toList with hes
    have hsp : M.charpoly = (M.charpoly.roots.map fun e => Polynomial.X - Polynomial.C e).prod :=
      (IsAlgClosed.splits M.charpoly).eq_prod_roots_of_monic M.charpoly_monic
    have hlen : es.length = r.r := by
      rw [hes, Multiset.length_toList, ← (IsAlgClosed.splits M.charpoly).natDegree_eq_card_roots, Matrix.charpoly_natDegree_eq_dim, Fintype.card_fin]
    have hvec : ∀ k : ℕ, ∃ v : ℕ → ℂ, k < r.r → (∀ i < r.r, ∑ j ∈ range r.r, r.v i j * v j = es.getD k 0 * v i) ∧
        ∑ i ∈ range r.r, Complex.normSq (v i) = 1 := by
      intro k
      by_cases hk : k < r.r
      swap
      · exact ⟨0, fun h => absurd h hk⟩
      have hmem : es.getD k 0 ∈ M.charpoly.roots := by
        rw [List.getD_eq_getElem _ _ (by omega), ← Multiset.mem_toList]
        exact List.getElem_mem _
      have hroot : M.charpoly.eval (es.getD k 0) = 0 := (Polynomial.mem_roots'.mp hmem).2
      rw [Matrix.eval_charpoly] at hroot
      obtain ⟨w, hw0, hw⟩ := Matrix.exists_mulVec_eq_zero_iff.mpr hroot
      have hw' : M.mulVec w = es.getD k 0 • w := by
        rw [Matrix.sub_mulVec, sub_eq_zero] at hw
        rw [← hw]
        ext i
        simp [Matrix.scalar_apply, Matrix.mulVec_diagonal]
      have hpos : 0 < ∑ i, Complex.normSq (w i) := by
        obtain ⟨i, hi⟩ := Function.ne_iff.mp hw0
        exact sum_pos' (fun _ _ => Complex.normSq_nonneg _) ⟨i, mem_univ _, Complex.normSq_pos.mpr hi⟩
      set c : ℝ := (Real.sqrt (∑ i, Complex.normSq (w i)))⁻¹ with hc
      refine ⟨fun i => if h : i < r.r then (c : ℂ) * w ⟨i, h⟩ else 0, fun _ => ⟨fun i hi => ?_, ?_⟩⟩
      · rw [← Fin.sum_univ_eq_sum_range (fun j => r.v i j * if h : j < r.r then (c : ℂ) * w ⟨j, h⟩ else 0)]
        have := congrFun hw' ⟨i, hi⟩
        rw [Pi.smul_apply, smul_eq_mul] at this
        simp only [Fin.is_lt, dite_true, Fin.eta, hi]
        rw [mul_left_comm, ← this, Matrix.mulVec, dotProduct, mul_sum]
        exact sum_congr rfl fun j _ => by simp only [hM, toM]; ring
      · rw [← Fin.sum_univ_eq_sum_range (fun j => Complex.normSq (if h : j < r.r then (c : ℂ) * w ⟨j, h⟩ else 0))]
        simp only [Fin.is_lt, dite_true, Fin.eta, Complex.normSq_mul, Complex.normSq_ofReal]
        rw [← mul_sum, hc, ← mul_inv, Real.mul_self_sqrt hpos.le, inv_mul_cancel₀ hpos.ne']
    choose v hv using hvec
    refine ⟨(es, ⟨r.r, r.r, fun i k => v k i⟩), fun _ => ⟨rfl, rfl, hlen, fun i hi k hk => (hv k hk).1 i hi, fun k hk => (hv k hk).2, ?_⟩⟩
    rw [hes, Multiset.coe_toList]
    exact hsp
  choose E hE using key
  exact ⟨E, fun r h => (hE r h).1, fun r h => (hE r h).2.1, fun r h => (hE r h).2.2.1, fun r h => (hE r h).2.2.2.1,
    fun r h => (hE r h).2.2.2.2.1, fun r h => (hE r h).2.2.2.2.2⟩

theorem grid_two : Utils.computedx (1 / 10 ^ 12 : ℝ) 0 [1 / 2, 3 / 2] 2 = .ok [1, 1] := by
  have : ¬ ((2:ℝ)⁻¹ < 0) := by norm_num
  simp [Utils.computedx, Utils.dxAll, Utils.dxAt, getE, List.range, List.range.loop]
  norm_num

/-- The matrix `[[1,1],[0,2]]`, with distinct positive eigenvalues. -/
def skewR : Mat ℂ := ⟨2, 2, fun i j => if i = 1 then (if j = 1 then 2 else 0) else 1⟩

/-- The identity as a tensor. -/
def idT : Ten ℂ := ⟨2, 2, 1, fun i j _ => delta ℂ i j⟩

/-- **C113 is violated** for a matrix which is not normal, although its eigenvalues are distinct and positive: the conjugate transpose of
the eigenvectors takes the place of the inverse, and the product over the cell of the result is not that of `mps` times a root of `r`. -/
theorem C113_violated_normal {E : Mat ℂ → List ℂ × Mat ℂ} (hE : EigSpec E) : ∃ out, distributeR E [idT] [1 / 2, 3 / 2] 2 skewR = .ok out ∧
    ¬ ∃ R : Matrix (Fin 2) (Fin 2) ℂ, R ^ 2 = toM 2 skewR.v ∧ cellM 2 out [0] = cellM 2 [idT] [0] * R := by
  have hdet : (toM skewR.r skewR.v).det ≠ 0 := by
    change (toM 2 skewR.v).det ≠ 0
    rw [Matrix.det_fin_two]
    simp [toM, skewR]
  obtain ⟨out, ho⟩ := C113_succeeds hE (mps := [idT]) (r := skewR) rfl hdet (by simp) (by simp [idT, skewR]) grid_two (by norm_num)
  refine ⟨out, ho, ?_⟩
  rintro ⟨R, hR, hcell⟩
  obtain ⟨-, hl⟩ := run_ok ho
  have hlen : (E skewR).1.length = 2 := hE.len skewR rfl
  have hlen' : ((E skewR).1.map (· ^ (([idT].length + 1 : ℕ) : ℂ)⁻¹)).length = 2 := by rw [List.length_map, hlen]
  obtain ⟨hol, hst⟩ := loopR_ok (hE.rows skewR rfl) (hE.cols skewR rfl) hlen' hl
  obtain ⟨t', rfl⟩ := List.length_eq_one_iff.mp hol
  have h1 := hst 0 idT t' rfl rfl
  obtain ⟨-, -, -, htr, -, -, hcomp⟩ := stepR_ok (D := 2) (hE.rows skewR rfl) (hE.cols skewR rfl) hlen' h1
  have hid : compM 2 idT 0 = 1 := toM_delta 2
  have hnil : cellM 2 [] [] = 1 := by
    unfold cellM
    rw [show chain [] [] = delta ℂ from rfl, toM_delta]
  rw [cell_cons [] htr, cell_cons (D := 2) (t := idT) [] rfl, hnil, hid, hcomp 0, hid] at hcell
  simp only [Matrix.mul_one, Matrix.one_mul, pow_zero, inv_one, zero_add, pow_one] at hcell
  -- the lower left entry of a root of `r` vanishes
  have hR10 : R 1 0 = 0 := by
    have a1 := congrFun (congrFun hR 1) 0
    have a2 := congrFun (congrFun hR 0) 1
    rw [pow_two, Matrix.mul_apply, Fin.sum_univ_two] at a1 a2
    have e1 : toM 2 skewR.v 1 0 = 0 := by simp [toM, skewR]
    have e2 : toM 2 skewR.v 0 1 = 1 := by simp [toM, skewR]
    rw [e1] at a1
    rw [e2] at a2
    have a3 : R 1 0 * (R 0 0 + R 1 1) = 0 := by rw [← a1]; ring
    have a4 : R 0 1 * (R 0 0 + R 1 1) = 1 := by rw [← a2]; ring
    rcases mul_eq_zero.mp a3 with h | h
    · exact h
    · rw [h, mul_zero] at a4; exact absurd a4 (by norm_num)
  have hent := congrFun (congrFun hcell 1) 0
  rw [hR10] at hent
  set u := (E skewR).2.v with hu
  set es := (E skewR).1 with hes
  have hg : ∀ i : Fin 2, (es.map (· ^ (([idT].length + 1 : ℕ) : ℂ)⁻¹)).getD i 0 = es.getD i 0 ^ (((2 : ℕ) : ℂ)⁻¹) := fun i =>
    getD_mapC _ (· ^ ((2 : ℕ) : ℂ)⁻¹) (by rw [hlen]; exact i.2)
  have hexp : (conjD (toM 2 u) (fun _ => 1) * conjD (toM 2 u) fun i : Fin 2 => (es.map (· ^ (([idT].length + 1 : ℕ) : ℂ)⁻¹)).getD i 0) 1 0
      = (u 1 0 * star (u 0 0) + u 1 1 * star (u 0 1)) * (u 0 0 * es.getD 0 0 ^ (((2 : ℕ) : ℂ)⁻¹) * star (u 0 0) + u 0 1 * es.getD 1 0 ^ (((2 : ℕ) : ℂ)⁻¹) * star (u 0 1))
        + (u 1 0 * star (u 1 0) + u 1 1 * star (u 1 1)) * (u 1 0 * es.getD 0 0 ^ (((2 : ℕ) : ℂ)⁻¹) * star (u 0 0) + u 1 1 * es.getD 1 0 ^ (((2 : ℕ) : ℂ)⁻¹) * star (u 0 1)) := by
    simp only [conjD, hg, Matrix.mul_apply, Fin.sum_univ_two, Matrix.diagonal_apply, Matrix.conjTranspose_apply, toM]
    simp
  rw [hexp] at hent
  -- the eigenvalues
  have hchar := hE.char skewR rfl
  obtain ⟨p, q, hpq⟩ := List.length_eq_two.mp hlen
  rw [← hes, hpq] at hchar
  have hev : ∀ z : ℂ, (z - 1) * (z - 2) = (z - p) * (z - q) := by
    intro z
    have := congrArg (Polynomial.eval z) hchar
    rw [Matrix.eval_charpoly, show skewR.r = 2 from rfl, Matrix.det_fin_two] at this
    simp [toM, skewR, Matrix.scalar_apply] at this
    linear_combination this
  have hp : p = 1 ∧ q = 2 ∨ p = 2 ∧ q = 1 := by
    have e1 := hev p
    rw [sub_self, zero_mul] at e1
    have e0 := hev 0
    have e2 := hev 1
    rcases mul_eq_zero.mp e1 with h | h
    · left
      have : p = 1 := sub_eq_zero.mp h
      subst this
      exact ⟨rfl, by linear_combination -e0⟩
    · right
      have : p = 2 := sub_eq_zero.mp h
      subst this
      exact ⟨rfl, by linear_combination (-1/2 : ℂ) * e0⟩
  have heig := hE.eig skewR rfl
  have hun := hE.unit skewR rfl
  have hsr : skewR.r = 2 := rfl
  have hlow : ∀ k < 2, 2 * u 1 k = es.getD k 0 * u 1 k := fun k hk => by
    have := heig 1 (by norm_num [hsr]) k hk
    rw [hsr, ← hu, ← hes, sum_range_succ, sum_range_succ, sum_range_zero, show skewR.v 1 0 = 0 by simp [skewR],
      show skewR.v 1 1 = 2 by simp [skewR]] at this
    rw [← this]; ring
  have hup : ∀ k < 2, u 0 k + u 1 k = es.getD k 0 * u 0 k := fun k hk => by
    have := heig 0 (by norm_num [hsr]) k hk
    rw [hsr, ← hu, ← hes, sum_range_succ, sum_range_succ, sum_range_zero, show skewR.v 0 0 = 1 by simp [skewR],
      show skewR.v 0 1 = 1 by simp [skewR]] at this
    rw [← this]; ring
  have hnm : ∀ k < 2, star (u 0 k) * u 0 k + star (u 1 k) * u 1 k = 1 := fun k hk => by
    have := hun k hk
    rw [hsr] at this
    simp only [sum_range_succ, range_zero, sum_empty, zero_add] at this
    rw [← normSq_of, ← normSq_of]
    exact_mod_cast this
  have hsq := Complex.cpow_nat_inv_pow (2 : ℂ) (two_ne_zero (α := ℕ))
  have fin : ∀ a b c d s : ℂ, s ^ 2 = 2 → b = 0 → star a * a + star b * b = 1 → c = d → star c * c + star d * d = 1 →
      (b * star a + d * star c) * (a * 1 * star a + c * s * star c) + (b * star b + d * star d) * (b * 1 * star a + d * s * star c) ≠ 0 := by
    rintro a b c d s hs rfl h1 rfl h2 h3
    have h4 : star c * c = 1 / 2 := by linear_combination h2 / 2
    have h5 : star a * a = 1 := by simpa using h1
    have h6 : (1 + s) / 2 = 0 := by
      have : (1 + s) / 2 = (0 * star a + c * star c) * (a * 1 * star a + c * s * star c) + (0 * star (0 : ℂ) + c * star c) * (0 * 1 * star a + c * s * star c) := by
        have e1 : c * star c = 1 / 2 := by rw [mul_comm]; exact h4
        have e2 : a * star a = 1 := by rw [mul_comm]; exact h5
        linear_combination (-(a * star a) - 2 * s * (c * star c) - s) * e1 - (1 / 2) * e2
      rw [this, h3]
    have h7 : s = -1 := by linear_combination 2 * h6
    rw [h7] at hs
    norm_num at hs
  rcases hp with ⟨rfl, rfl⟩ | ⟨rfl, rfl⟩
  · rw [hpq] at hlow hup hent
    have b1 := hlow 0 (by norm_num)
    have b2 := hup 1 (by norm_num)
    simp only [List.getD_cons_zero, List.getD_cons_succ] at b1 b2 hent
    rw [Complex.one_cpow] at hent
    exact fin (u 0 0) (u 1 0) (u 0 1) (u 1 1) _ hsq (by linear_combination b1) (hnm 0 (by norm_num)) (by linear_combination -b2) (hnm 1 (by norm_num)) hent
  · rw [hpq] at hlow hup hent
    have b1 := hlow 1 (by norm_num)
    have b2 := hup 0 (by norm_num)
    simp only [List.getD_cons_zero, List.getD_cons_succ] at b1 b2 hent
    rw [Complex.one_cpow] at hent
    refine fin (u 0 1) (u 1 1) (u 0 0) (u 1 0) _ hsq (by linear_combination b1) (hnm 1 (by norm_num)) (by linear_combination -b2) (hnm 0 (by norm_num)) ?_
    rw [← hent]; ring

/-- The matrix `diag(1,4)`. -/
def posR : Mat ℂ := ⟨2, 2, fun i j => delta ℂ i j * if i = 0 then 1 else 4⟩

theorem toM_posR : toM 2 posR.v = Matrix.diagonal ![1, 4] := by
  ext i j
  fin_cases i <;> fin_cases j <;> simp [toM, posR, delta]

/-- C113 applies to a cell of two tensors and `r=diag(1,4)`. -/
example : ∃ E, EigSpec E ∧ ∃ out, distributeR E [⟨2, 2, 1, fun _ _ _ => 1⟩, idT] [1 / 2, 3 / 2] 2 posR = .ok out ∧
    ∃ R : Matrix (Fin 2) (Fin 2) ℂ, R.PosDef ∧ R ^ 3 = toM 2 posR.v ∧
      cellM 2 out [0, 0] = cellM 2 [⟨2, 2, 1, fun _ _ _ => 1⟩, idT] [0, 0] * R ^ 2 := by
  obtain ⟨E, hE⟩ := exists_eig
  have hpd : (toM posR.r posR.v).PosDef := by
    change (toM 2 posR.v).PosDef
    rw [toM_posR, Matrix.posDef_diagonal_iff]
    intro i; fin_cases i <;> simp
  have hnd : (toM posR.r posR.v).charpoly.roots.Nodup := by
    have : (toM 2 posR.v).charpoly = (({1, 4} : Multiset ℂ).map fun e => Polynomial.X - Polynomial.C e).prod := by
      rw [toM_posR, Matrix.charpoly_fin_two]
      simp only [Matrix.trace_fin_two, Matrix.det_fin_two, Matrix.diagonal_apply]
      simp [Polynomial.C_add]
      ring
    change (toM 2 posR.v).charpoly.roots.Nodup
    rw [this, Polynomial.roots_multiset_prod_X_sub_C]
    simp
  obtain ⟨out, ho⟩ := C113_succeeds hE (mps := [⟨2, 2, 1, fun _ _ _ => 1⟩, idT]) (r := posR) rfl hpd.det_pos.ne' (by simp)
    (by simp [idT, posR]) grid_two (by norm_num)
  obtain ⟨R, h1, h2, -, h4⟩ := C113_distinct hE hpd hnd ho
  exact ⟨E, hE, out, ho, R, h1, h2, h4 [0, 0] (.cons (by norm_num) (.cons (by norm_num [idT]) .nil))⟩

/-- The exit of `C113_violated_exit` is met. -/
example (E : Mat ℂ → List ℂ × Mat ℂ) : distributeR E [idT] [0, 1] 2 posR = .error .name := by
  refine C113_violated_exit (dx := [1 / 2, 3 / 2]) ?_ ⟨3 / 2, by simp, by norm_num⟩
  simp [Utils.computedx, Utils.dxAll, Utils.dxAt, getE, List.range, List.range.loop]
  norm_num

end

end PyTeN.Distribute
