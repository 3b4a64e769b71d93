import Verif.Krylov.Sparse
import Mathlib.Analysis.InnerProductSpace.Spectrum
import Mathlib.Analysis.Matrix.Spectrum
import Mathlib.Data.Fin.Tuple.Sort

/-! # Properties of `eigsh` and `lobpcg` (C82) -/

namespace PyTeN.Sparse

noncomputable section

/-- Contract of scipy's `eigsh` with `which='SA'` for a Hermitian operator and `1 ≤ k`: it succeeds if `k < n`, and if it does not
raise the result consists of `k` orthonormal eigenvectors belonging to the `k` smallest eigenvalues (vectors orthogonal to all of
them have no smaller expectation value), in any order. -/
def ArpackSpec (arp : Arpack) : Prop :=
  ∀ (ι : Type) [Fintype ι] (H : EuclideanSpace ℂ ι →ₗ[ℂ] EuclideanSpace ℂ ι) (k : ℕ) (x0 : EuclideanSpace ℂ ι), H.IsSymmetric → x0 ≠ 0 →
    1 ≤ k → (k < Fintype.card ι → ∃ ps, arp ι H k x0 = .ok ps) ∧ ∀ ps, arp ι H k x0 = .ok ps → ps.length = k ∧
      (ps.map Prod.snd).Pairwise (fun v w => inner ℂ v w = 0) ∧ (∀ p ∈ ps, ‖p.2‖ = 1 ∧ H p.2 = (p.1 : ℂ) • p.2) ∧
      ∀ x, (∀ p ∈ ps, inner ℂ p.2 x = 0) → ∀ p ∈ ps, p.1 * ‖x‖ ^ 2 ≤ (inner ℂ x (H x)).re

/-- Contract of scipy's `lobpcg` for one vector: a normalised vector with its expectation value, not above that of the initial
vector (convergence is not promised). -/
def LobpcgSpec (lob : Lobpcg) : Prop :=
  ∀ (ι : Type) [Fintype ι] (H : EuclideanSpace ℂ ι →ₗ[ℂ] EuclideanSpace ℂ ι) (x0 : EuclideanSpace ℂ ι), H.IsSymmetric → x0 ≠ 0 →
    ∃ w v, lob ι H x0 = .ok [(w, v)] ∧ ‖v‖ = 1 ∧ inner ℂ v (H v) = (w : ℂ) ∧ w * ‖x0‖ ^ 2 ≤ (inner ℂ x0 (H x0)).re

theorem exists_arpack : ∃ arp : Arpack, ArpackSpec arp := by
  classical
  have key : ∀ (ι : Type) (inst : Fintype ι) (f : EuclideanSpace ℂ ι → EuclideanSpace ℂ ι) (k : ℕ), ∃ ps : List (ℝ × EuclideanSpace ℂ ι),
      ∀ H : EuclideanSpace ℂ ι →ₗ[ℂ] EuclideanSpace ℂ ι, (H : EuclideanSpace ℂ ι → EuclideanSpace ℂ ι) = f → H.IsSymmetric → k < Fintype.card ι →
      ps.length = k ∧ (ps.map Prod.snd).Pairwise (fun v w => inner ℂ v w = 0) ∧ (∀ p ∈ ps, ‖p.2‖ = 1 ∧ H p.2 = (p.1 : ℂ) • p.2) ∧
      ∀ x, (∀ p ∈ ps, inner ℂ p.2 x = 0) → ∀ p ∈ ps, p.1 * ‖x‖ ^ 2 ≤ (inner ℂ x (H x)).re := by
    intro ι inst f k
    by_cases hf : ∃ H : EuclideanSpace ℂ ι →ₗ[ℂ] EuclideanSpace ℂ ι, (H : EuclideanSpace ℂ ι → EuclideanSpace ℂ ι) = f ∧ H.IsSymmetric ∧
      k < Fintype.card ι
    · obtain ⟨H, rfl, hH, hk⟩ := hf
      have hn : Module.finrank ℂ (EuclideanSpace ℂ ι) = Fintype.card ι := finrank_euclideanSpace
      let b := hH.eigenvectorBasis hn
      let w := hH.eigenvalues hn
      let s := Tuple.sort w
      have hs : Monotone (w ∘ s) := Tuple.monotone_sort w
      let g : Fin k → Fin (Fintype.card ι) := fun i => s ⟨i, i.2.trans hk⟩
      have hb : ∀ i, H (b i) = (w i : ℂ) • b i := fun i => hH.apply_eigenvectorBasis hn i
      refine ⟨List.ofFn fun i => (w (g i), b (g i)), fun H' hH' _ _ => ?_⟩
      obtain rfl : H' = H := DFunLike.coe_injective hH'
      refine ⟨List.length_ofFn, ?_, ?_, ?_⟩
      · rw [List.map_ofFn, List.pairwise_ofFn]
        intro i j hij
        simp only [Function.comp]
        refine b.orthonormal.2 ?_
        intro h
        have := s.injective h
        simp only [Fin.mk.injEq] at this
        omega
      · intro p hp
        obtain ⟨i, rfl⟩ := List.mem_ofFn.mp hp
        exact ⟨b.orthonormal.1 _, hb _⟩
      · intro x hx p hp
        obtain ⟨i, rfl⟩ := List.mem_ofFn.mp hp
        have hx' : ∀ j : Fin k, inner ℂ (b (g j)) x = 0 := fun j => hx (w (g j), b (g j)) (List.mem_ofFn.mpr ⟨j, rfl⟩)
        have e1 : ‖x‖ ^ 2 = ∑ j, ‖inner ℂ (b j) x‖ ^ 2 := (b.sum_sq_norm_inner_right x).symm
        have e2 : (inner ℂ x (H' x)).re = ∑ j, w j * ‖inner ℂ (b j) x‖ ^ 2 := by
          rw [← b.sum_inner_mul_inner x (H' x), Complex.re_sum]
          refine Finset.sum_congr rfl fun j _ => ?_
          rw [← hH (b j) x, hb, inner_smul_left, Complex.conj_ofReal, ← inner_conj_symm x (b j), ← mul_assoc, mul_comm _ (w j : ℂ), mul_assoc,
            ← Complex.normSq_eq_conj_mul_self, Complex.normSq_eq_norm_sq, ← Complex.ofReal_mul, Complex.ofReal_re]
        rw [e1, e2, Finset.mul_sum]
        refine Finset.sum_le_sum fun j _ => ?_
        by_cases hj : (s.symm j : ℕ) < k
        · have := hx' ⟨s.symm j, hj⟩
          simp only [g, Fin.eta, Equiv.apply_symm_apply] at this
          rw [this]; simp
        · refine mul_le_mul_of_nonneg_right ?_ (sq_nonneg _)
          have : w (s ⟨i, i.2.trans hk⟩) ≤ w (s (s.symm j)) := hs (by
            rw [Fin.le_def]; simp only; have := i.2; omega)
          rwa [Equiv.apply_symm_apply] at this
    · refine ⟨[], fun H h1 h2 h3 => absurd ⟨H, h1, h2, h3⟩ hf⟩
  choose ps hps using key
  refine ⟨fun ι inst f k _ => if k < Fintype.card ι then .ok (ps ι inst f k) else .error .type,
    fun ι inst H k x0 hH _ _ => ⟨fun hk => ⟨_, if_pos hk⟩, fun qs hq => ?_⟩⟩
  by_cases hk : k < Fintype.card ι
  · simp only [if_pos hk, Except.ok.injEq] at hq
    subst hq
    exact hps ι inst H k H rfl hH hk
  · simp only [if_neg hk] at hq
    cases hq

theorem exists_lobpcg : ∃ lob : Lobpcg, LobpcgSpec lob := by
  refine ⟨fun ι _ f x0 => .ok [((inner ℂ x0 (f x0)).re / ‖x0‖ ^ 2, ((1 / ‖x0‖ : ℝ) : ℂ) • x0)], fun ι _ H x0 hH hx => ?_⟩
  have h0 : ‖x0‖ ≠ 0 := norm_ne_zero_iff.mpr hx
  refine ⟨_, _, rfl, ?_, ?_, ?_⟩
  · rw [norm_smul, Complex.norm_real, norm_div, norm_one, norm_norm, one_div_mul_cancel h0]
  · have hre : ((inner ℂ x0 (H x0)).re : ℂ) = inner ℂ x0 (H x0) := by
      rw [← Complex.conj_eq_iff_re, inner_conj_symm]; exact hH x0 x0
    rw [map_smul, inner_smul_left, inner_smul_right, Complex.conj_ofReal, ← hre]
    push_cast
    rw [Complex.ofReal_re]
    field_simp
  · rw [div_mul_cancel₀ _ (pow_ne_zero 2 h0)]

/-! ## What is picked -/

section
variable {α : Type}

theorem pick_spec {ps : List (ℝ × α)} {w : ℝ} (h : w ∈ ps.map Prod.fst) : ∃ p ∈ ps, p.1 = w ∧ pick ps w = .ok p := by
  unfold pick
  cases hf : ps.find? fun p => decide (p.1 = w) with
  | none =>
    obtain ⟨p, hp, rfl⟩ := List.mem_map.mp h
    simpa using List.find?_eq_none.mp hf p hp
  | some p => exact ⟨p, List.mem_of_find?_eq_some hf, by simpa using List.find?_some hf, rfl⟩

theorem pickMin_spec {ps : List (ℝ × α)} (h : ps ≠ []) : ∃ p ∈ ps, pickMin ps = .ok p ∧ ∀ q ∈ ps, p.1 ≤ q.1 := by
  unfold pickMin
  cases hm : (ps.map Prod.fst).min? with
  | none => simp at hm; exact absurd hm h
  | some w =>
    rw [List.min?_eq_some_iff] at hm
    obtain ⟨p, h1, h2, h3⟩ := pick_spec hm.1
    exact ⟨p, h1, h3, fun q hq => h2 ▸ hm.2 _ (List.mem_map_of_mem hq)⟩

theorem pickAll_spec {ps : List (ℝ × α)} : ∀ {ws : List ℝ}, (∀ w ∈ ws, w ∈ ps.map Prod.fst) →
    ∃ qs, pickAll ps ws = .ok qs ∧ qs.map Prod.fst = ws ∧ (∀ q ∈ qs, q ∈ ps) ∧ ∀ q ∈ qs, pick ps q.1 = .ok q
  | [], _ => ⟨[], rfl, rfl, by simp, by simp⟩
  | w :: ws, h => by
    obtain ⟨p, h1, h2, h3⟩ := pick_spec (h w (by simp))
    obtain ⟨qs, i1, i2, i3, i4⟩ := pickAll_spec fun x hx => h x (List.mem_cons_of_mem _ hx)
    have hp : (w, p.2) = p := by rw [← h2]
    refine ⟨(w, p.2) :: qs, by simp only [pickAll, h3, i1], by simp [i2], ?_, ?_⟩
    · rintro q hq
      rcases List.mem_cons.mp hq with rfl | hq
      · rw [hp]; exact h1
      · exact i3 q hq
    · rintro q hq
      rcases List.mem_cons.mp hq with rfl | hq
      · rw [hp, h2]; exact h3
      · exact i4 q hq

end

variable {ι : Type} [Fintype ι] {arp : Arpack} {lob : Lobpcg} {H : EuclideanSpace ℂ ι →ₗ[ℂ] EuclideanSpace ℂ ι}

/-- Eigenpairs of which the rest of the space lies above bound the whole spectrum. -/
theorem global_min {ps : List (ℝ × EuclideanSpace ℂ ι)} {w : ℝ} (hH : H.IsSymmetric)
    (ho : (ps.map Prod.snd).Pairwise fun v w => inner ℂ v w = 0) (he : ∀ p ∈ ps, ‖p.2‖ = 1 ∧ H p.2 = (p.1 : ℂ) • p.2)
    (hw : ∀ p ∈ ps, w ≤ p.1) (hr : ∀ x, (∀ p ∈ ps, inner ℂ p.2 x = 0) → w * ‖x‖ ^ 2 ≤ (inner ℂ x (H x)).re) (x : EuclideanSpace ℂ ι) :
    w * ‖x‖ ^ 2 ≤ (inner ℂ x (H x)).re := by
  induction ps generalizing x with
  | nil => exact hr x (by simp)
  | cons p ps ih =>
    rw [List.map_cons, List.pairwise_cons] at ho
    refine ih ho.2 (fun q hq => he q (List.mem_cons_of_mem _ hq)) (fun q hq => hw q (List.mem_cons_of_mem _ hq)) (fun y hy => ?_) x
    obtain ⟨p1, p2⟩ := he p (by simp)
    set a : ℂ := inner ℂ p.2 y with ha
    have hpp : inner ℂ p.2 p.2 = (1 : ℂ) := by rw [inner_self_eq_norm_sq_to_K, p1]; simp
    set z := y - a • p.2 with hz
    have hpz : inner ℂ p.2 z = (0 : ℂ) := by rw [hz, inner_sub_right, inner_smul_right, hpp, mul_one, ← ha, sub_self]
    have hzp : inner ℂ z p.2 = (0 : ℂ) := by rw [← inner_conj_symm, hpz, map_zero]
    have hzz := hr z (by
      intro q hq
      rcases List.mem_cons.mp hq with rfl | hq
      · exact hpz
      · rw [hz, inner_sub_right, inner_smul_right, hy q hq,
          ← inner_conj_symm, ho.1 _ (List.mem_map_of_mem hq), map_zero, mul_zero, sub_zero])
    have hyz : y = a • p.2 + z := by rw [hz]; abel
    have hHz : inner ℂ p.2 (H z) = (0 : ℂ) := by rw [← hH p.2 z, p2, inner_smul_left, hpz, mul_zero]
    have n1 : ‖y‖ ^ 2 = ‖a‖ ^ 2 + ‖z‖ ^ 2 := by
      have : inner ℂ (a • p.2) z = (0 : ℂ) := by rw [inner_smul_left, hpz, mul_zero]
      rw [hyz, sq, norm_add_sq_eq_norm_sq_add_norm_sq_of_inner_eq_zero _ _ this, norm_smul, p1]; ring
    have n2 : (inner ℂ y (H y)).re = p.1 * ‖a‖ ^ 2 + (inner ℂ z (H z)).re := by
      rw [hyz, map_add, map_smul, p2, inner_add_left, inner_add_right, inner_add_right, inner_smul_left, inner_smul_left, inner_smul_right,
        inner_smul_right, inner_smul_right, inner_smul_right, hHz, hzp, hpp, mul_zero, mul_zero, mul_zero, add_zero, zero_add, mul_one,
        Complex.add_re, mul_left_comm, ← mul_assoc, mul_comm, ← mul_assoc]
      congr 1
      rw [mul_assoc, Complex.mul_conj, Complex.normSq_eq_norm_sq, ← Complex.ofReal_mul, Complex.ofReal_re]
    rw [n1, n2, mul_add]
    exact add_le_add (mul_le_mul_of_nonneg_right (hw p (by simp)) (sq_nonneg _)) hzz

/-- **C82 (ground state).**  With the default `numvecs_returned=1` the result is the lowest eigenvalue with a normalised eigenvector. -/
theorem C82_ground (hA : ArpackSpec arp) (hH : H.IsSymmetric) {k : ℕ} (hk : 1 ≤ k) {x0 : EuclideanSpace ℂ ι} (hx : x0 ≠ 0) :
    (k < Fintype.card ι → ∃ r, eigsh arp H k 1 x0 = .ok r) ∧
    ∀ r, eigsh arp H k 1 x0 = .ok r → ∃ w v, r = some [(w, v)] ∧ ‖v‖ = 1 ∧ H v = (w : ℂ) • v ∧
      ∀ x, w * ‖x‖ ^ 2 ≤ (inner ℂ x (H x)).re := by
  obtain ⟨a1, a2⟩ := hA ι H k x0 hH hx hk
  have hrun : ∀ ps, arp ι H k x0 = .ok ps → ∃ w v, eigsh arp H k 1 x0 = .ok (some [(w, v)]) ∧ ‖v‖ = 1 ∧ H v = (w : ℂ) • v ∧
      ∀ x, w * ‖x‖ ^ 2 ≤ (inner ℂ x (H x)).re := by
    intro ps h1
    obtain ⟨h2, h3, h4, h5⟩ := a2 ps h1
    obtain ⟨p, p1, p2, p3⟩ := pickMin_spec (ps := ps) (by rintro rfl; simp at h2; omega)
    refine ⟨p.1, p.2, ?_, (h4 p p1).1, (h4 p p1).2, fun x => global_min hH h3 h4 p3 (fun y hy => h5 y hy p p1) x⟩
    unfold eigsh
    simp only [h1, p2, if_true]
  constructor
  · intro hn
    obtain ⟨ps, h1⟩ := a1 hn
    obtain ⟨w, v, h, -⟩ := hrun ps h1
    exact ⟨_, h⟩
  · intro r hr
    cases h1 : arp ι H k x0 with
    | error x => unfold eigsh at hr; simp only [h1] at hr; cases hr
    | ok ps =>
      obtain ⟨w, v, h, h'⟩ := hrun ps h1
      rw [h] at hr
      injection hr with hr
      exact ⟨w, v, hr.symm, h'⟩

theorem take_mem_sort {α : Type} {ps : List (ℝ × α)} {n : ℕ} {w : ℝ} (h : w ∈ ((ps.map Prod.fst).insertionSort (· ≤ ·)).take n) :
    w ∈ ps.map Prod.fst := by
  have := List.mem_of_mem_take h
  rwa [List.mem_insertionSort] at this

/-- The run for several vectors. -/
theorem eigsh_many {k : ℕ} {ret : ℤ} (h2 : 2 ≤ ret) (hret : ret ≤ k) {x0 : EuclideanSpace ℂ ι} {ps : List (ℝ × EuclideanSpace ℂ ι)}
    (h1 : arp ι H k x0 = .ok ps) (hl : ps.length = k) : ∃ qs, eigsh arp H k ret x0 = .ok (some qs) ∧
      qs.map Prod.fst = ((ps.map Prod.fst).insertionSort (· ≤ ·)).take ret.toNat ∧ (qs.length : ℤ) = ret ∧ (∀ q ∈ qs, q ∈ ps) ∧
      ∀ q ∈ qs, pick ps q.1 = .ok q := by
  obtain ⟨qs, q1, q2, q3, q4⟩ := pickAll_spec (ps := ps) (ws := ((ps.map Prod.fst).insertionSort (· ≤ ·)).take ret.toNat)
    fun w hw => take_mem_sort hw
  refine ⟨qs, ?_, q2, ?_, q3, q4⟩
  · unfold eigsh
    simp only [h1]
    rw [if_neg (by omega), if_pos (by omega), if_neg (by omega), if_neg (by omega)]
    simp only [q1]
  · have := congrArg List.length q2
    rw [List.length_map, List.length_take, List.length_insertionSort, List.length_map] at this
    omega

/-- **C82 (several vectors).**  For `2 ≤ numvecs_returned ≤ numvecs` the result has `numvecs_returned` eigenpairs in ascending order,
and every other eigenvector is above them.  Missing: orthogonality, which holds if no eigenvalue is degenerate, see
`C82_violated_degenerate`. -/
theorem C82_several_partial (hA : ArpackSpec arp) (hH : H.IsSymmetric) {k : ℕ} (hn : k < Fintype.card ι) {ret : ℤ} (h2 : 2 ≤ ret)
    (hret : ret ≤ k) {x0 : EuclideanSpace ℂ ι} (hx : x0 ≠ 0) : ∃ qs, eigsh arp H k ret x0 = .ok (some qs) ∧ (qs.length : ℤ) = ret ∧
      (qs.map Prod.fst).Pairwise (· ≤ ·) ∧ (∀ q ∈ qs, ‖q.2‖ = 1 ∧ H q.2 = (q.1 : ℂ) • q.2) ∧
      (∀ a : ℝ, ∀ x, x ≠ 0 → H x = (a : ℂ) • x → (∀ q ∈ qs, a ≠ q.1) → ∀ q ∈ qs, q.1 < a) ∧
      ((∀ a : ℂ, ∀ x y, H x = a • x → H y = a • y → inner ℂ x y = (0 : ℂ) → x = 0 ∨ y = 0) →
        (qs.map Prod.snd).Pairwise fun v w => inner ℂ v w = 0) := by
  obtain ⟨b1, b2⟩ := hA ι H k x0 hH hx (by omega)
  obtain ⟨ps, a1⟩ := b1 hn
  obtain ⟨a2, a3, a4, a5⟩ := b2 ps a1
  obtain ⟨qs, q1, q2, q3, q4, q5⟩ := eigsh_many h2 hret a1 a2
  have hsort : ((ps.map Prod.fst).insertionSort (· ≤ ·)).Pairwise (· ≤ ·) := List.pairwise_insertionSort (· ≤ ·) _
  have hdiff : ∀ {a b : ℝ} {x y : EuclideanSpace ℂ ι}, H x = (a : ℂ) • x → H y = (b : ℂ) • y → a ≠ b → inner ℂ x y = (0 : ℂ) := by
    intro a b x y hx hy hab
    have := hH x y
    rw [hx, hy, inner_smul_left, inner_smul_right, Complex.conj_ofReal] at this
    have h : ((a : ℂ) - b) * inner ℂ x y = 0 := by rw [sub_mul, this, sub_self]
    exact (mul_eq_zero.mp h).resolve_left (sub_ne_zero.mpr (by exact_mod_cast hab))
  refine ⟨qs, q1, q3, ?_, fun q hq => a4 q (q4 q hq), ?_, ?_⟩
  · rw [q2]; exact List.Pairwise.take hsort
  · intro a x hx0 hxa hne q hq
    by_cases hin : ∀ p ∈ ps, p.1 ≠ a
    · -- not among the computed ones
      have := a5 x (fun p hp => hdiff (a4 p hp).2 hxa (hin p hp)) q (q4 q hq)
      rw [hxa, inner_smul_right, inner_self_eq_norm_sq_to_K] at this
      have hx2 : 0 < ‖x‖ ^ 2 := by have := norm_pos_iff.mpr hx0; positivity
      have : q.1 * ‖x‖ ^ 2 ≤ a * ‖x‖ ^ 2 := by
        rw [← Complex.coe_algebraMap, ← map_pow, Complex.coe_algebraMap, ← Complex.ofReal_mul, Complex.ofReal_re] at this; exact this
      exact lt_of_le_of_ne (le_of_mul_le_mul_right this hx2) (Ne.symm (hne q hq))
    · -- among the computed ones, but not taken
      push Not at hin
      obtain ⟨p, hp, rfl⟩ := hin
      have hm : p.1 ∈ (ps.map Prod.fst).insertionSort (· ≤ ·) := by
        rw [List.mem_insertionSort]; exact List.mem_map_of_mem hp
      rw [← List.take_append_drop ret.toNat ((ps.map Prod.fst).insertionSort (· ≤ ·)), List.mem_append] at hm
      rcases hm with hm | hm
      · rw [← q2] at hm
        obtain ⟨q', hq', e⟩ := List.mem_map.mp hm
        exact absurd e.symm (hne q' hq')
      · rw [← List.take_append_drop ret.toNat ((ps.map Prod.fst).insertionSort (· ≤ ·)), List.pairwise_append, ← q2] at hsort
        exact lt_of_le_of_ne (hsort.2.2 _ (List.mem_map_of_mem hq) _ hm) (Ne.symm (hne q hq))
  · intro hnd
    -- the eigenvalues of the solver differ
    have hps : (ps.map Prod.fst).Nodup := by
      have h : ps.Pairwise fun p q => inner ℂ p.2 q.2 = (0 : ℂ) := by rwa [List.pairwise_map] at a3
      rw [List.Nodup, List.pairwise_map]
      refine (List.pairwise_iff_forall_sublist.mpr ?_)
      intro p q hpq e
      have h0 := List.pairwise_iff_forall_sublist.mp h hpq
      have hp := a4 p (hpq.subset (by simp))
      have hq := a4 q (hpq.subset (by simp))
      rcases hnd p.1 p.2 q.2 hp.2 (e ▸ hq.2) h0 with h | h
      · rw [h, norm_zero] at hp; exact absurd hp.1 (by norm_num)
      · rw [h, norm_zero] at hq; exact absurd hq.1 (by norm_num)
    have hqs : (qs.map Prod.fst).Nodup := by
      rw [q2]
      exact List.Nodup.sublist (List.take_sublist _ _) ((List.perm_insertionSort (· ≤ ·) _).nodup_iff.mpr hps)
    rw [List.pairwise_map]
    rw [List.Nodup, List.pairwise_map] at hqs
    refine List.Pairwise.imp_of_mem (fun {p q} hp hq hne => ?_) hqs
    exact hdiff (a4 p (q4 p hp)).2 (a4 q (q4 q hq)).2 hne

/-- **C82, violation.**  If the solver finds the lowest eigenvalue twice, `eigsh` returns the same vector twice. -/
theorem C82_violated_same {k : ℕ} {x0 : EuclideanSpace ℂ ι} {ps : List (ℝ × EuclideanSpace ℂ ι)} (h1 : arp ι H k x0 = .ok ps)
    (hl : ps.length = k) (hk : 2 ≤ k) {w : ℝ} (hw : ∀ p ∈ ps, p.1 = w) : ∃ v, eigsh arp H k 2 x0 = .ok (some [(w, v), (w, v)]) := by
  obtain ⟨qs, q1, q2, q3, q4, q5⟩ := eigsh_many (ret := 2) (by omega) (by omega) h1 hl
  have q3 : qs.length = 2 := by omega
  obtain ⟨a, b, rfl⟩ := List.length_eq_two.mp q3
  ·
    have ea : a.1 = w := hw a (q4 a (by simp))
    have eb : b.1 = w := hw b (q4 b (by simp))
    have ha := q5 a (by simp)
    have hb := q5 b (by simp)
    rw [ea] at ha
    rw [eb, ha] at hb
    injection hb with hb
    subst hb
    exact ⟨a.2, by rw [q1, ← ea]⟩

/-- **C82, violation.**  The full statement (orthonormal vectors) fails for a degenerate operator: for the identity on three
dimensions the two returned vectors are equal, whatever the solver returns within its contract. -/
theorem C82_violated_degenerate (hA : ArpackSpec arp) : ∃ v,
    eigsh arp (LinearMap.id : EuclideanSpace ℂ (Fin 3) →ₗ[ℂ] EuclideanSpace ℂ (Fin 3)) 2 2 (EuclideanSpace.single 0 1)
      = .ok (some [(1, v), (1, v)]) ∧ inner ℂ v v = (1 : ℂ) := by
  have hx : (EuclideanSpace.single 0 1 : EuclideanSpace ℂ (Fin 3)) ≠ 0 := by
    intro h; simpa using congrArg (fun v : EuclideanSpace ℂ (Fin 3) => v 0) h
  obtain ⟨b1, b2⟩ := hA (Fin 3) LinearMap.id 2 (EuclideanSpace.single 0 1) (fun _ _ => rfl) hx (by norm_num)
  obtain ⟨ps, h1⟩ := b1 (by simp)
  obtain ⟨h2, h3, h4, h5⟩ := b2 ps h1
  have hw : ∀ p ∈ ps, p.1 = 1 := by
    intro p hp
    obtain ⟨n1, e⟩ := h4 p hp
    have h : ((1 : ℂ) - p.1) • p.2 = 0 := by rw [sub_smul, one_smul, ← e]; simp
    rcases smul_eq_zero.mp h with h | h
    · have : (1 : ℂ) = p.1 := sub_eq_zero.mp h
      exact_mod_cast this.symm
    · rw [h, norm_zero] at n1; exact absurd n1 (by norm_num)
  obtain ⟨v, hv⟩ := C82_violated_same h1 h2 le_rfl hw
  refine ⟨v, hv, ?_⟩
  obtain ⟨qs, q1, -, -, q4, -⟩ := eigsh_many (ret := 2) (by omega) (by omega) h1 h2
  rw [q1] at hv
  simp only [Except.ok.injEq, Option.some.injEq] at hv
  subst hv
  have := (h4 _ (q4 (1, v) (by simp))).1
  rw [inner_self_eq_norm_sq_to_K]
  simp only at this
  rw [this]; simp

/-- **C82, exceptions.**  Asking for more vectors than computed raises an AttributeError instead of the intended warning, and asking
for less than one returns None. -/
theorem C82_violated_more (hA : ArpackSpec arp) (hH : H.IsSymmetric) {k : ℕ} (hk : 1 ≤ k) (hn : k < Fintype.card ι)
    {x0 : EuclideanSpace ℂ ι} (hx : x0 ≠ 0) (ret : ℤ) :
    (1 < ret → k < ret → eigsh arp H k ret x0 = .error .attribute) ∧ (ret < 1 → eigsh arp H k ret x0 = .ok none) := by
  obtain ⟨ps, h1⟩ := (hA ι H k x0 hH hx hk).1 hn
  constructor
  · intro h2 h3
    unfold eigsh
    simp only [h1]
    rw [if_neg (by omega), if_pos (by omega), if_pos (by omega)]
  · intro h2
    unfold eigsh
    simp only [h1]
    rw [if_neg (by omega), if_neg (by omega)]

/-- **C82, `lobpcg`.**  One vector: a normalised vector and its expectation value, not above that of the initial vector. -/
theorem C82_lobpcg (hB : LobpcgSpec lob) (hH : H.IsSymmetric) {x0 : EuclideanSpace ℂ ι} (hx : x0 ≠ 0) (many : Option PyErr) :
    ∃ w v, lobpcg lob many H 1 x0 = .ok [(w, v)] ∧ ‖v‖ = 1 ∧ inner ℂ v (H v) = (w : ℂ) ∧
      w * ‖x0‖ ^ 2 ≤ (inner ℂ x0 (H x0)).re := by
  obtain ⟨w, v, h1, h2, h3, h4⟩ := hB ι H x0 hH hx
  obtain ⟨p, p1, p2, -⟩ := pickMin_spec (ps := [(w, v)]) (by simp)
  obtain rfl : p = (w, v) := by simpa using p1
  refine ⟨w, v, ?_, h2, h3, h4⟩
  unfold lobpcg
  rw [if_neg (by norm_num), if_neg (by norm_num), if_pos rfl]
  simp only [h1, p2]

/-- **C82, `lobpcg`, violation.**  More than one vector is never returned. -/
theorem C82_violated_lobpcg (lob : Lobpcg) (many : Option PyErr) {ret : ℤ} (h : 1 < ret) (x0 : EuclideanSpace ℂ ι) :
    lobpcg lob many H ret x0 = .error (many.getD .name) := by
  unfold lobpcg
  rw [if_neg (by omega), if_neg (by omega), if_neg (by omega)]
  cases many <;> rfl

/-- The diagonal operator `diag(5,3,4)`. -/
def diag3 : EuclideanSpace ℂ (Fin 3) →ₗ[ℂ] EuclideanSpace ℂ (Fin 3) := Matrix.toEuclideanLin (Matrix.diagonal ![5, 3, 4])

theorem diag3_symm : diag3.IsSymmetric := by
  unfold diag3
  rw [Matrix.isSymmetric_toEuclideanLin_iff, Matrix.IsHermitian, Matrix.diagonal_conjTranspose]
  congr 1
  funext i
  fin_cases i <;> simp [Pi.star_apply]

/-- The hypotheses are met: three levels 3, 4, 5, of which the lowest is found. -/
example : ∃ arp, ArpackSpec arp ∧ ∃ v, eigsh arp diag3 2 1 (EuclideanSpace.single 0 1) = .ok (some [(3, v)]) := by
  obtain ⟨arp, hA⟩ := exists_arpack
  have hx : (EuclideanSpace.single 0 1 : EuclideanSpace ℂ (Fin 3)) ≠ 0 := by
    intro h; simpa using congrArg (fun v : EuclideanSpace ℂ (Fin 3) => v 0) h
  obtain ⟨a1, a2⟩ := C82_ground hA diag3_symm (k := 2) (by norm_num) hx
  obtain ⟨r, h1⟩ := a1 (by simp)
  obtain ⟨w, v, rfl, h2, h3, h4⟩ := a2 r h1
  have hd : ∀ (u : EuclideanSpace ℂ (Fin 3)) i, diag3 u i = ![5, 3, 4] i * u i := by
    intro u i
    unfold diag3
    rw [Matrix.toLpLin_apply]
    simp [Matrix.mulVec_diagonal]
  have hle : w ≤ 3 := by
    have := h4 (EuclideanSpace.single 1 1)
    rw [PiLp.norm_single, norm_one, one_pow, mul_one, PiLp.inner_apply] at this
    simpa [hd, Fin.sum_univ_three] using this
  have hin : w = 5 ∨ w = 3 ∨ w = 4 := by
    have hne : v ≠ 0 := by rintro rfl; norm_num at h2
    obtain ⟨i, hi⟩ : ∃ i, v i ≠ 0 := by
      by_contra hcon
      push Not at hcon
      exact hne (by ext i; exact hcon i)
    have := congrArg (fun u : EuclideanSpace ℂ (Fin 3) => u i) h3
    simp only [hd, PiLp.smul_apply, smul_eq_mul] at this
    have := mul_right_cancel₀ hi this
    fin_cases i
    · left; simp at this; exact_mod_cast this.symm
    · right; left; simp at this; exact_mod_cast this.symm
    · right; right; simp at this; exact_mod_cast this.symm
  obtain rfl : w = 3 := by rcases hin with h | h | h <;> linarith
  exact ⟨arp, hA, v, h1⟩

end

end PyTeN.Sparse
