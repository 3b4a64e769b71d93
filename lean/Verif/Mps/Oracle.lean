import Verif.Mps.LinAlg
import Mathlib.Analysis.InnerProductSpace.SingularValues

/-!
# The contract on the external linear algebra is satisfiable

Every complex matrix has a singular value decomposition, hence routines meeting `LinAlg.Spec`
exist and the theorems that assume the contract are not vacuous.
-/

namespace PyTeN
open Finset InnerProductSpace

noncomputable section

/-- Full singular value decomposition of a linear map between Euclidean spaces. -/
theorem exists_svd_linear {r c : ℕ}
    (T : EuclideanSpace ℂ (Fin c) →ₗ[ℂ] EuclideanSpace ℂ (Fin r)) :
    ∃ (σ : ℕ → ℝ) (e : OrthonormalBasis (Fin c) ℂ (EuclideanSpace ℂ (Fin c)))
      (b : OrthonormalBasis (Fin r) ℂ (EuclideanSpace ℂ (Fin r))),
      (∀ i, 0 ≤ σ i) ∧ Antitone σ ∧
      (∀ (k : Fin c) (h : (k : ℕ) < r), T (e k) = ((σ k : ℝ) : ℂ) • b ⟨k, h⟩) ∧
      (∀ k : Fin c, r ≤ (k : ℕ) → T (e k) = 0) := by
  have hn : Module.finrank ℂ (EuclideanSpace ℂ (Fin c)) = c := by simp
  have hm : Module.finrank ℂ (EuclideanSpace ℂ (Fin r)) = r := by simp
  set hT := T.isSymmetric_adjoint_comp_self with hTdef
  set e := hT.eigenvectorBasis hn with he
  set σ : ℕ → ℝ := fun i => T.singularValues i with hσ
  have hin : ∀ i j, inner ℂ (T (e i)) (T (e j)) = ((σ j ^ 2 : ℝ) : ℂ) * (if i = j then 1 else 0) := by
    intro i j
    have h1 : inner ℂ (T (e i)) (T (e j)) = inner ℂ (e i) ((LinearMap.adjoint T ∘ₗ T) (e j)) := by
      rw [LinearMap.comp_apply, LinearMap.adjoint_inner_right]
    rw [h1, hT.apply_eigenvectorBasis hn j, inner_smul_right,
      orthonormal_iff_ite.mp e.orthonormal i j]
    rw [hσ]
    simp only
    rw [T.sq_singularValues_fin hn j]
    rfl
  have hzero : ∀ k : Fin c, σ k = 0 → T (e k) = 0 := by
    intro k hk
    have := hin k k
    rw [hk] at this
    simpa using this
  have hrank : ∀ k : ℕ, σ k ≠ 0 → k < r := by
    intro k hk
    have h1 : 0 < T.singularValues k := (T.singularValues_pos_iff_ne_zero k).mpr hk
    rw [T.singularValues_pos_iff_lt_finrank_range] at h1
    have h2 := Submodule.finrank_le (LinearMap.range T)
    rw [hm] at h2
    omega
  have hlt : ∀ k : ℕ, σ k ≠ 0 → k < c := by
    intro k hk
    by_contra hc
    exact hk (T.singularValues_of_finrank_le (by rw [hn]; omega))
  let v : Fin r → EuclideanSpace ℂ (Fin r) := fun i =>
    if h : (i : ℕ) < c then (((σ i)⁻¹ : ℝ) : ℂ) • T (e ⟨i, h⟩) else 0
  let s : Set (Fin r) := {i | σ i ≠ 0}
  have hv : Orthonormal ℂ (s.domRestrict v) := by
    rw [orthonormal_iff_ite]
    rintro ⟨i, hi⟩ ⟨j, hj⟩
    have hi' : σ i ≠ 0 := hi
    have hj' : σ j ≠ 0 := hj
    have hic := hlt _ hi'
    have hjc := hlt _ hj'
    simp only [Set.domRestrict_apply, v, dif_pos hic, dif_pos hjc]
    rw [inner_smul_left, inner_smul_right, hin]
    by_cases hij : i = j
    · subst hij
      have : ((σ i : ℝ) : ℂ) ≠ 0 := by exact_mod_cast hi'
      simp only [Complex.conj_ofReal, if_true, mul_one]
      push_cast
      field_simp
    · have h1 : ¬ ((⟨i, hic⟩ : Fin c) = ⟨j, hjc⟩) := by
        intro h; apply hij; ext; simpa using h
      have h2 : ¬ ((⟨i, hi⟩ : s) = ⟨j, hj⟩) := by
        intro h; apply hij; simpa using h
      rw [if_neg h1, if_neg h2]; simp
  obtain ⟨b, hb⟩ := hv.exists_orthonormalBasis_extension_of_card_eq (by simp)
  refine ⟨σ, e, b, fun i => T.singularValues_nonneg i, T.singularValues_antitone, ?_, ?_⟩
  · intro k h
    by_cases hk : σ k = 0
    · rw [hk, hzero k hk]; simp
    · rw [hb ⟨k, h⟩ hk]
      simp only [v, dif_pos k.isLt]
      rw [smul_smul, ← Complex.ofReal_mul, mul_inv_cancel₀ hk]
      simp
  · intro k hk
    apply hzero
    by_contra h
    have := hrank _ h
    omega

theorem sum_fin_range {n : ℕ} (f : ℕ → ℂ) : ∑ i : Fin n, f i = ∑ i ∈ range n, f i :=
  Fin.sum_univ_eq_sum_range f n

/-- Every matrix has a singular value decomposition meeting the contract of `np.linalg.svd`. -/
theorem exists_svd (A : Mat ℂ) : ∃ u s v, SVDSpec A u s v := by
  obtain ⟨r, c, a⟩ := A
  let M : Matrix (Fin r) (Fin c) ℂ := fun i j => a i j
  let T : EuclideanSpace ℂ (Fin c) →ₗ[ℂ] EuclideanSpace ℂ (Fin r) := Matrix.toEuclideanLin M
  obtain ⟨σ, e, b, h0, hanti, h1, h2⟩ := exists_svd_linear T
  let n := min r c
  refine ⟨⟨r, n, fun i k => if h : k < r then (if h' : i < r then b ⟨k, h⟩ ⟨i, h'⟩ else 0) else 0⟩,
    (List.range n).map σ,
    ⟨n, c, fun k j => if h : k < c then (if h' : j < c then star (e ⟨k, h⟩ ⟨j, h'⟩) else 0) else 0⟩,
    ⟨rfl, rfl, by simp [n], rfl, rfl, ?_, ?_, ?_, ?_, ?_⟩⟩
  · intro x hx
    simp only [List.mem_map] at hx
    obtain ⟨k, _, rfl⟩ := hx
    exact h0 k
  · rw [List.pairwise_map]
    exact (List.pairwise_lt_range (n := n)).imp fun h => hanti h.le
  · intro i hi j hj
    simp only at hi hj
    have hA : a i j = T (EuclideanSpace.single ⟨j, hj⟩ 1) ⟨i, hi⟩ := by
      have h := Matrix.toLpLin_apply 2 2 M (EuclideanSpace.single ⟨j, hj⟩ 1)
      have h' : T (EuclideanSpace.single ⟨j, hj⟩ 1) = _ := h
      rw [h']
      have h3 : (EuclideanSpace.single (⟨j, hj⟩ : Fin c) (1 : ℂ)).ofLp = Pi.single ⟨j, hj⟩ 1 := by
        ext; simp [Pi.single_apply]
      rw [h3]
      change a i j = (M.mulVec (Pi.single ⟨j, hj⟩ 1)) ⟨i, hi⟩
      rw [Matrix.mulVec_single_one]
      rfl
    have hexp : EuclideanSpace.single (⟨j, hj⟩ : Fin c) (1 : ℂ)
        = ∑ k, (inner ℂ (e k) (EuclideanSpace.single (⟨j, hj⟩ : Fin c) (1 : ℂ))) • e k :=
      (e.sum_repr' _).symm
    have hinner : ∀ k, inner ℂ (e k) (EuclideanSpace.single (⟨j, hj⟩ : Fin c) (1 : ℂ))
        = star (e k ⟨j, hj⟩) := by
      intro k
      rw [EuclideanSpace.inner_single_right]; simp
    simp only
    rw [hA, hexp, map_sum]
    simp only [map_smul, hinner]
    let g : ℕ → ℂ := fun k : ℕ => if k < min r c then
            (if h : k < r then (if h' : i < r then b ⟨k, h⟩ ⟨i, h'⟩ else 0) else 0) *
            ((((List.range n).map σ).getD k 0 : ℝ) : ℂ) *
            (if h : k < c then (if h' : j < c then star (e ⟨k, h⟩ ⟨j, h'⟩) else 0) else 0) else 0
    have key : ∀ k : Fin c, (star (e k ⟨j, hj⟩) • T (e k)) ⟨i, hi⟩ = g k := by
      intro k
      simp only [g]
      by_cases hk : (k : ℕ) < r
      · have hkn : (k : ℕ) < min r c := lt_min hk k.isLt
        rw [h1 k hk]
        simp only [if_pos hkn, dif_pos hk, dif_pos hi, dif_pos hj, dif_pos k.isLt]
        have : ((List.range n).map σ).getD k 0 = σ k := by
          rw [List.getD_eq_getElem?_getD, List.getElem?_map, List.getElem?_range hkn]; rfl
        rw [this]
        simp only [PiLp.smul_apply, smul_eq_mul, Fin.eta]
        ring
      · rw [h2 k (by omega)]
        have hkn : ¬ (k : ℕ) < min r c := fun h => hk (lt_of_lt_of_le h (min_le_left _ _))
        simp only [if_neg hkn]
        simp
    have hsum : (∑ k, star (e k ⟨j, hj⟩) • T (e k)) ⟨i, hi⟩
        = ∑ k, (star (e k ⟨j, hj⟩) • T (e k)) ⟨i, hi⟩ := by
      simp
    rw [hsum, sum_congr rfl (fun k _ => key k)]
    rw [sum_fin_range g]
    simp only [g]
    rw [← sum_filter]
    apply sum_congr
    · ext x; simp only [mem_range, mem_filter]; omega
    · intros; rfl
  · intro k hk k' hk'
    have hk1 : k < r := lt_of_lt_of_le hk (min_le_left _ _)
    have hk2 : k' < r := lt_of_lt_of_le hk' (min_le_left _ _)
    have := orthonormal_iff_ite.mp b.orthonormal ⟨k, hk1⟩ ⟨k', hk2⟩
    rw [PiLp.inner_apply] at this
    simp only [dif_pos hk1, dif_pos hk2]
    rw [← sum_fin_range (fun i => star (if h' : i < r then b ⟨k, hk1⟩ ⟨i, h'⟩ else 0) *
      (if h' : i < r then b ⟨k', hk2⟩ ⟨i, h'⟩ else 0))]
    simp only [Fin.is_lt, dif_pos, Fin.eta]
    have h3 : delta ℂ k k' = if (⟨k, hk1⟩ : Fin r) = ⟨k', hk2⟩ then 1 else 0 := by
      unfold delta; simp
    rw [h3, ← this]
    apply sum_congr rfl; intro i _
    simp [inner, mul_comm]
  · intro k hk k' hk'
    have hk1 : k < c := lt_of_lt_of_le hk (min_le_right _ _)
    have hk2 : k' < c := lt_of_lt_of_le hk' (min_le_right _ _)
    have := orthonormal_iff_ite.mp e.orthonormal ⟨k, hk1⟩ ⟨k', hk2⟩
    rw [PiLp.inner_apply] at this
    simp only [dif_pos hk1, dif_pos hk2]
    rw [← sum_fin_range (fun i => (if h' : i < c then star (e ⟨k, hk1⟩ ⟨i, h'⟩) else 0) *
      star (if h' : i < c then star (e ⟨k', hk2⟩ ⟨i, h'⟩) else 0))]
    simp only [Fin.is_lt, dif_pos, Fin.eta]
    have h3 : delta ℂ k k' = if (⟨k, hk1⟩ : Fin c) = ⟨k', hk2⟩ then 1 else 0 := by
      unfold delta; simp
    rw [h3, ← this]
    apply sum_congr rfl; intro i _
    simp [inner, mul_comm]

/-- A singular value decomposition gives a (not triangular) QR decomposition. -/
theorem SVDSpec.qr {A u v : Mat ℂ} {s : List ℝ} (h : SVDSpec A u s v) :
    QRSpec A u ⟨v.r, v.c, fun k j => ((s.getD k 0 : ℝ) : ℂ) * v.v k j⟩ :=
  ⟨h.u_r, h.u_c, h.v_r, h.v_c, fun i hi j hj => by
    rw [← h.prod i hi j hj]; apply sum_congr rfl; intros; ring, h.isoU⟩

/-- Routines meeting the contract exist. -/
theorem exists_linAlg : ∃ O : LinAlg, O.Spec := by
  choose u s v h using exists_svd
  exact ⟨⟨fun A => (u A, ⟨(v A).r, (v A).c, fun k j => (((s A).getD k 0 : ℝ) : ℂ) * (v A).v k j⟩),
    fun A => (u A, s A, v A)⟩, fun A => (h A).qr, h⟩

end

end PyTeN
