import Verif.Mps.TruncErr

/-! # `MPS.getSchmidt` -/

namespace PyTeN
open Finset

noncomputable section

/-- `MPS.getSchmidt(n)`, lib/mpslib/mps.py:676-687: moves the centre to bond `n` and returns the
singular values of the centre matrix.  The method mutates the object; the model returns the list and the
new object.  `mf.svd` (lib/mpslib/mpsfunctions.py:127-141) is the oracle `O.svd`; its fallback for a
`LinAlgError` is not modelled. -/
def MPS.getSchmidt (O : LinAlg) (m : MPS) (n : ℤ) : Res (List ℝ × MPS) :=
  match m.position O n with
  | .error e => .error e
  | .ok m' => .ok ((O.svd m'.mat).2.1, m')

/-- Two orthonormal families and a coefficient matrix: no sum of `D` products is closer than the tail. -/
theorem bip_best {p q : ℕ} {a b : ℕ → ℕ → ℂ} {A u v : Mat ℂ} {s : List ℝ} (h : SVDSpec A u s v)
    (ha : ∀ k < A.r, ∀ k' < A.r, ∑ x ∈ range p, star (a k x) * a k' x = delta ℂ k k')
    (hb : ∀ k < A.c, ∀ k' < A.c, ∑ y ∈ range q, star (b k y) * b k' y = delta ℂ k k') (D : ℕ) (L R : ℕ → ℕ → ℂ) :
    ((s.drop D).map (fun x => x ^ 2)).sum ≤ ∑ x ∈ range p, ∑ y ∈ range q, Complex.normSq
      (∑ k ∈ range A.r, ∑ k' ∈ range A.c, a k x * A.v k k' * b k' y - ∑ κ ∈ range D, L κ x * R κ y) := by
  have h1 := h.best D (fun κ k => ∑ x ∈ range p, star (a k x) * L κ x) (fun κ k => ∑ y ∈ range q, star (b k y) * R κ y)
  have h2 := bessel (range p ×ˢ range q) (range A.r ×ˢ range A.c) (fun k x => a k.1 x.1 * b k.2 x.2)
    (fun x => ∑ k ∈ range A.r, ∑ k' ∈ range A.c, a k x.1 * A.v k k' * b k' x.2 - ∑ κ ∈ range D, L κ x.1 * R κ x.2) (by
      rintro ⟨k, l⟩ hk ⟨k', l'⟩ hk'
      simp only [mem_product, mem_range] at hk hk'
      rw [sum_product]
      have : ∑ x ∈ range p, ∑ y ∈ range q, star (a k x * b l y) * (a k' x * b l' y)
          = (∑ x ∈ range p, star (a k x) * a k' x) * ∑ y ∈ range q, star (b l y) * b l' y := by
        rw [sum_mul_sum]
        exact sum_congr rfl fun x _ => sum_congr rfl fun y _ => by rw [star_mul']; ring
      rw [this, ha _ hk.1 _ hk'.1, hb _ hk.2 _ hk'.2]
      unfold delta
      by_cases e : k = k' <;> by_cases e' : l = l' <;> simp [e, e'])
  simp only [sum_product] at h2
  refine h1.trans (le_trans (le_of_eq ?_) h2)
  refine sum_congr rfl fun k hk => sum_congr rfl fun l hl => ?_
  congr 1
  have e1 : ∑ x ∈ range p, ∑ y ∈ range q, star (a k x * b l y) * ∑ k' ∈ range A.r, ∑ l' ∈ range A.c, a k' x * A.v k' l' * b l' y
      = A.v k l := by
    have : ∑ x ∈ range p, ∑ y ∈ range q, star (a k x * b l y) * ∑ k' ∈ range A.r, ∑ l' ∈ range A.c, a k' x * A.v k' l' * b l' y
        = ∑ k' ∈ range A.r, ∑ l' ∈ range A.c, (∑ x ∈ range p, star (a k x) * a k' x) * ((∑ y ∈ range q, star (b l y) * b l' y) * A.v k' l') := by
      simp only [mul_sum, sum_mul]
      rw [sum_congr rfl fun x _ => sum_comm, sum_comm]
      refine sum_congr rfl fun k' _ => ?_
      rw [sum_congr rfl fun x _ => sum_comm, sum_comm]
      refine sum_congr rfl fun l' _ => ?_
      rw [sum_comm]
      exact sum_congr rfl fun x _ => sum_congr rfl fun y _ => by rw [star_mul']; ring
    rw [this]
    have e : ∀ k' ∈ range A.r, ∑ l' ∈ range A.c, (∑ x ∈ range p, star (a k x) * a k' x) * ((∑ y ∈ range q, star (b l y) * b l' y) * A.v k' l')
        = delta ℂ k k' * A.v k' l := by
      intro k' hk'
      rw [← mul_sum, ha _ (mem_range.mp hk) _ (mem_range.mp hk')]
      congr 1
      rw [sum_congr rfl fun l' hl' => by rw [hb _ (mem_range.mp hl) _ (mem_range.mp hl')]]
      exact sum_delta_left (mem_range.mp hl) _
    rw [sum_congr rfl e]
    exact sum_delta_left (mem_range.mp hk) _
  have e2 : ∑ x ∈ range p, ∑ y ∈ range q, star (a k x * b l y) * ∑ κ ∈ range D, L κ x * R κ y
      = ∑ κ ∈ range D, (∑ x ∈ range p, star (a k x) * L κ x) * ∑ y ∈ range q, star (b l y) * R κ y := by
    simp only [sum_mul_sum]
    simp only [mul_sum]
    rw [sum_congr rfl fun x _ => sum_comm, sum_comm]
    exact sum_congr rfl fun κ _ => sum_congr rfl fun x _ => sum_congr rfl fun y _ => by rw [star_mul']; ring
  simp only [mul_sub, sum_sub_distrib]
  rw [e1, e2]

/-- ... and the first `D` singular triples reach it. -/
theorem bip_reach {p q : ℕ} {a b : ℕ → ℕ → ℂ} {A u v : Mat ℂ} {s : List ℝ} (h : SVDSpec A u s v)
    (ha : ∀ k < A.r, ∀ k' < A.r, ∑ x ∈ range p, star (a k x) * a k' x = delta ℂ k k')
    (hb : ∀ k < A.c, ∀ k' < A.c, ∑ y ∈ range q, star (b k y) * b k' y = delta ℂ k k') (D : ℕ) :
    ∑ x ∈ range p, ∑ y ∈ range q, Complex.normSq
      (∑ k ∈ range A.r, ∑ k' ∈ range A.c, a k x * A.v k k' * b k' y
        - ∑ κ ∈ range D, (∑ k ∈ range A.r, a k x * u.v k κ * ((s.getD κ 0 : ℝ) : ℂ)) * ∑ k' ∈ range A.c, v.v κ k' * b k' y)
      = ((s.drop D).map (fun x => x ^ 2)).sum := by
  have hT : ∑ i ∈ range A.r, ∑ j ∈ range A.c,
      Complex.normSq (A.v i j - ∑ k ∈ range D, u.v i k * ((s.getD k 0 : ℝ) : ℂ) * v.v k j)
      = ((s.drop D).map (fun x => x ^ 2)).sum := by
    rcases le_or_gt D s.length with hD | hD
    · exact h.truncErr hD
    · rw [List.drop_eq_nil_of_le hD.le]
      simp only [List.map_nil, List.sum_nil]
      refine sum_eq_zero fun i hi => sum_eq_zero fun j hj => ?_
      rw [← h.prod i (mem_range.mp hi) j (mem_range.mp hj), ← h.len, Complex.normSq_eq_zero, sub_eq_zero]
      obtain ⟨t, rfl⟩ := Nat.exists_eq_add_of_le hD.le
      rw [sum_range_add, left_eq_add]
      refine sum_eq_zero fun k _ => ?_
      rw [List.getD_eq_default _ _ (by omega)]; simp
  rw [← hT]
  set X : ℕ → ℕ → ℂ := fun i j => A.v i j - ∑ k ∈ range D, u.v i k * ((s.getD k 0 : ℝ) : ℂ) * v.v k j with hX
  have e : ∀ x y, ∑ k ∈ range A.r, ∑ k' ∈ range A.c, a k x * A.v k k' * b k' y
        - ∑ κ ∈ range D, (∑ k ∈ range A.r, a k x * u.v k κ * ((s.getD κ 0 : ℝ) : ℂ)) * ∑ k' ∈ range A.c, v.v κ k' * b k' y
      = ∑ k ∈ range A.r, a k x * ∑ k' ∈ range A.c, b k' y * X k k' := by
    intro x y
    have : ∑ κ ∈ range D, (∑ k ∈ range A.r, a k x * u.v k κ * ((s.getD κ 0 : ℝ) : ℂ)) * ∑ k' ∈ range A.c, v.v κ k' * b k' y
        = ∑ k ∈ range A.r, ∑ k' ∈ range A.c, a k x * b k' y * ∑ κ ∈ range D, u.v k κ * ((s.getD κ 0 : ℝ) : ℂ) * v.v κ k' := by
      simp only [sum_mul_sum]
      simp only [mul_sum]
      rw [sum_comm]
      refine sum_congr rfl fun k _ => ?_
      rw [sum_comm]
      exact sum_congr rfl fun k' _ => sum_congr rfl fun κ _ => by ring
    rw [this, ← sum_sub_distrib]
    refine sum_congr rfl fun k _ => ?_
    rw [← sum_sub_distrib, mul_sum]
    refine sum_congr rfl fun k' _ => ?_
    rw [hX]; ring
  simp only [e]
  rw [sum_comm]
  rw [sum_congr rfl fun y _ => iso_normSq p A.r (fun x k => a k x) (fun k => ∑ k' ∈ range A.c, b k' y * X k k') ha]
  rw [sum_comm]
  exact sum_congr rfl fun k _ => iso_normSq q A.c (fun y k' => b k' y) (fun k' => X k k') hb

/-- Lists of non-negative numbers are determined, up to trailing zeros, by their tail weights. -/
theorem tails_determine {s s' : List ℝ} (h : ∀ x ∈ s, 0 ≤ x) (h' : ∀ x ∈ s', 0 ≤ x)
    (ht : ∀ D, ((s.drop D).map (fun x => x ^ 2)).sum = ((s'.drop D).map (fun x => x ^ 2)).sum) (k : ℕ) :
    s.getD k 0 = s'.getD k 0 := by
  have key : ∀ l : List ℝ, ((l.drop k).map (fun x => x ^ 2)).sum = (l.getD k 0) ^ 2 + ((l.drop (k + 1)).map (fun x => x ^ 2)).sum := by
    intro l
    rcases lt_or_ge k l.length with hk | hk
    · rw [List.drop_eq_getElem_cons hk, List.getD_eq_getElem _ _ hk, List.map_cons, List.sum_cons]
    · rw [List.drop_eq_nil_of_le hk, List.drop_eq_nil_of_le (by omega), List.getD_eq_default _ _ hk]; simp
  have nn : ∀ l : List ℝ, (∀ x ∈ l, 0 ≤ x) → 0 ≤ l.getD k 0 := by
    intro l hl
    rcases lt_or_ge k l.length with hk | hk
    · rw [List.getD_eq_getElem _ _ hk]; exact hl _ (List.getElem_mem hk)
    · rw [List.getD_eq_default _ _ hk]
  have := ht k
  rw [key s, key s', ht (k + 1), add_left_inj] at this
  exact (pow_left_inj₀ (nn s h) (nn s' h') two_ne_zero).mp this

/-- Bond `m.pos` of an object whose tensors are orthonormal on both sides of it. -/
theorem ortho_bip {m : MPS} (hw : m.WF 1 1) (hl : ∀ t ∈ m.tensors.take m.pos, LeftOrth t)
    (hr : ∀ t ∈ m.tensors.drop m.pos, RightOrth t) {u v : Mat ℂ} {s : List ℝ} (h : SVDSpec m.mat u s v) (D : ℕ) :
    (∀ L R : ℕ → List ℕ → ℂ, Complex.normSq m.Z * ((s.drop D).map (fun x => x ^ 2)).sum ≤ sumCfg m.ds (fun t =>
      Complex.normSq (m.amp t 0 0 - ∑ κ ∈ range D, L κ (t.take m.pos) * R κ (t.drop m.pos)))) ∧
    ∃ L R : ℕ → List ℕ → ℂ, Complex.normSq m.Z * ((s.drop D).map (fun x => x ^ 2)).sum = sumCfg m.ds (fun t =>
      Complex.normSq (m.amp t 0 0 - ∑ κ ∈ range D, L κ (t.take m.pos) * R κ (t.drop m.pos))) := by
  obtain ⟨p, e, he, hec, her⟩ := exists_enum ((m.tensors.take m.pos).map Ten.d)
  obtain ⟨q, f, hf, hfc, hfr⟩ := exists_enum ((m.tensors.drop m.pos).map Ten.d)
  have ha : ∀ k < m.mat.r, ∀ k' < m.mat.r, ∑ x ∈ range p, star (chain (m.tensors.take m.pos) (e x) 0 k) *
      chain (m.tensors.take m.pos) (e x) 0 k' = delta ℂ k k' := by
    intro k hk k' hk'
    have := chain_leftOrth hw.left hl hk hk'
    rw [hec] at this
    simpa only [sum_range_one] using this
  have hb : ∀ k < m.mat.c, ∀ k' < m.mat.c, ∑ y ∈ range q, star (chain (m.tensors.drop m.pos) (f y) k 0) *
      chain (m.tensors.drop m.pos) (f y) k' 0 = delta ℂ k k' := by
    intro k hk k' hk'
    have := chain_rightOrth hw.right hr hk' hk
    rw [hfc, delta_comm] at this
    simp only [sum_range_one] at this
    rw [← this]
    exact sum_congr rfl fun y _ => mul_comm _ _
  have split : ∀ F : List ℕ → List ℕ → ℝ, sumCfg m.ds (fun t => F (t.take m.pos) (t.drop m.pos))
      = ∑ x ∈ range p, ∑ y ∈ range q, F (e x) (f y) := by
    intro F
    rw [ds_split, sumCfg_append]
    have : ∀ sA, List.Forall₂ (fun d x => x < d) ((m.tensors.take m.pos).map Ten.d) sA →
        ∀ sB, F ((sA ++ sB).take m.pos) ((sA ++ sB).drop m.pos) = F sA sB := by
      intro sA hsA sB
      have hlen : sA.length = m.pos := by rw [← List.Forall₂.length_eq hsA]; simp [hw.len, hw.pos_le]
      rw [List.take_left' hlen, List.drop_left' hlen]
    rw [sumCfg_congr (fun sA hA => sumCfg_congr (fun sB _ => this sA hA sB)), her]
    exact sum_congr rfl fun x _ => hfr _
  have amp : ∀ t, m.amp t 0 0 = m.Z * ∑ k ∈ range m.mat.r, ∑ k' ∈ range m.mat.c,
    chain (m.tensors.take m.pos) (t.take m.pos) 0 k * m.mat.v k k' * chain (m.tensors.drop m.pos) (t.drop m.pos) k' 0 := fun t => rfl
  constructor
  · intro L R
    by_cases hZ : m.Z = 0
    · rw [hZ, map_zero, zero_mul]
      exact sumCfg_nonneg _ _ fun _ => Complex.normSq_nonneg _
    have h1 := bip_best h ha hb D (fun κ x => m.Z⁻¹ * L κ (e x)) (fun κ y => R κ (f y))
    have h2 := mul_le_mul_of_nonneg_left h1 (Complex.normSq_nonneg m.Z)
    refine h2.trans (le_of_eq ?_)
    simp only [amp]
    rw [split (fun tA tB => Complex.normSq (m.Z * ∑ k ∈ range m.mat.r, ∑ k' ∈ range m.mat.c,
      chain (m.tensors.take m.pos) tA 0 k * m.mat.v k k' * chain (m.tensors.drop m.pos) tB k' 0 - ∑ κ ∈ range D, L κ tA * R κ tB)), mul_sum]
    refine sum_congr rfl fun x _ => ?_
    rw [mul_sum]
    refine sum_congr rfl fun y _ => ?_
    rw [← Complex.normSq_mul, mul_sub]
    congr 2
    rw [mul_sum]
    exact sum_congr rfl fun κ _ => by rw [mul_assoc, mul_inv_cancel_left₀ hZ]
  · refine ⟨fun κ t => m.Z * ∑ k ∈ range m.mat.r, chain (m.tensors.take m.pos) t 0 k * u.v k κ * ((s.getD κ 0 : ℝ) : ℂ),
      fun κ t => ∑ k' ∈ range m.mat.c, v.v κ k' * chain (m.tensors.drop m.pos) t k' 0, ?_⟩
    rw [← bip_reach h ha hb D]
    simp only [amp]
    rw [split (fun tA tB => Complex.normSq (m.Z * ∑ k ∈ range m.mat.r, ∑ k' ∈ range m.mat.c,
      chain (m.tensors.take m.pos) tA 0 k * m.mat.v k k' * chain (m.tensors.drop m.pos) tB k' 0 - ∑ κ ∈ range D,
        (m.Z * ∑ k ∈ range m.mat.r, chain (m.tensors.take m.pos) tA 0 k * u.v k κ * ((s.getD κ 0 : ℝ) : ℂ)) *
        ∑ k' ∈ range m.mat.c, v.v κ k' * chain (m.tensors.drop m.pos) tB k' 0)), mul_sum]
    refine sum_congr rfl fun x _ => ?_
    rw [mul_sum]
    refine sum_congr rfl fun y _ => ?_
    rw [← Complex.normSq_mul, mul_sub]
    congr 2
    rw [mul_sum]
    exact sum_congr rfl fun κ _ => by ring

/-- Bond `m.pos` of an object in canonical form. -/
theorem canonical_bip {m : MPS} (hw : m.WF 1 1) (hc : m.Canonical) {u v : Mat ℂ} {s : List ℝ} (h : SVDSpec m.mat u s v) (D : ℕ) :
    (∀ L R : ℕ → List ℕ → ℂ, Complex.normSq m.Z * ((s.drop D).map (fun x => x ^ 2)).sum ≤ sumCfg m.ds (fun t =>
      Complex.normSq (m.amp t 0 0 - ∑ κ ∈ range D, L κ (t.take m.pos) * R κ (t.drop m.pos)))) ∧
    ∃ L R : ℕ → List ℕ → ℂ, Complex.normSq m.Z * ((s.drop D).map (fun x => x ^ 2)).sum = sumCfg m.ds (fun t =>
      Complex.normSq (m.amp t 0 0 - ∑ κ ∈ range D, L κ (t.take m.pos) * R κ (t.drop m.pos))) :=
  ortho_bip hw hc.left' hc.right' h D

end

end PyTeN
