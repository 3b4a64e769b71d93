import Verif.Mps.Position

/-! # Isometric parts collapse sums over configurations -/

namespace PyTeN
open Finset

noncomputable section

theorem sumCfg_star (ds : List ℕ) (f : List ℕ → ℂ) :
    star (sumCfg ds f) = sumCfg ds (fun s => star (f s)) := by
  induction ds generalizing f with
  | nil => rfl
  | cons d ds ih => simp only [sumCfg, star_sum, ih]

theorem sumCfg_ofReal (ds : List ℕ) (f : List ℕ → ℝ) :
    ((sumCfg ds f : ℝ) : ℂ) = sumCfg ds (fun s => ((f s : ℝ) : ℂ)) := by
  induction ds generalizing f with
  | nil => rfl
  | cons d ds ih => simp only [sumCfg, Complex.ofReal_sum, ih]

/-- A chain of left-orthonormal tensors is an isometry from the right bond. -/
theorem chain_leftOrth {l m : ℕ} {A : List (Ten ℂ)} (hA : Linked l A m)
    (ho : ∀ t ∈ A, LeftOrth t) {k k' : ℕ} (hk : k < m) (hk' : k' < m) :
    sumCfg (A.map Ten.d) (fun s => ∑ i ∈ range l, star (chain A s i k) * chain A s i k')
      = delta ℂ k k' := by
  induction A generalizing l with
  | nil =>
    simp only [Linked] at hA
    subst hA
    simp only [List.map_nil, sumCfg, chain]
    have : ∀ i ∈ range l, star (delta ℂ i k) * delta ℂ i k' = delta ℂ i k * delta ℂ i k' := by
      intro i _; unfold delta; split <;> simp
    rw [sum_congr rfl this]
    exact sum_delta_left' hk (fun i => delta ℂ i k')
  | cons t A ih =>
    simp only [List.map_cons, sumCfg, chain]
    obtain ⟨rfl, hA⟩ := hA
    have e : ∀ s ∈ range t.d, sumCfg (A.map Ten.d) (fun ss => ∑ i ∈ range t.l,
          star (∑ a ∈ range t.r, t.v i a s * chain A ss a k)
            * ∑ b ∈ range t.r, t.v i b s * chain A ss b k')
        = sumCfg (A.map Ten.d) (fun ss => ∑ a ∈ range t.r, ∑ b ∈ range t.r,
          (∑ i ∈ range t.l, star (t.v i a s) * t.v i b s)
            * (star (chain A ss a k) * chain A ss b k')) := by
      intro s _
      apply sumCfg_congr
      intro ss _
      simp_rw [star_sum, sum_mul_sum, sum_mul]
      rw [sum_comm]
      apply sum_congr rfl; intro a _
      rw [sum_comm]
      apply sum_congr rfl; intro b _
      apply sum_congr rfl; intro i _
      rw [star_mul']; ring
    rw [sum_congr rfl e]
    simp_rw [sumCfg_sum, sumCfg_mul]
    rw [sum_comm]
    have e2 : ∀ a ∈ range t.r, ∑ s ∈ range t.d, ∑ b ∈ range t.r,
          (∑ i ∈ range t.l, star (t.v i a s) * t.v i b s)
            * sumCfg (A.map Ten.d) (fun ss => star (chain A ss a k) * chain A ss b k')
        = sumCfg (A.map Ten.d) (fun ss => star (chain A ss a k) * chain A ss a k') := by
      intro a ha
      rw [sum_comm]
      simp_rw [← sum_mul]
      have : ∀ b ∈ range t.r, (∑ s ∈ range t.d, ∑ i ∈ range t.l, star (t.v i a s) * t.v i b s)
          * sumCfg (A.map Ten.d) (fun ss => star (chain A ss a k) * chain A ss b k')
          = delta ℂ a b * sumCfg (A.map Ten.d) (fun ss => star (chain A ss a k) * chain A ss b k') := by
        intro b hb
        rw [ho t (by simp) a (mem_range.mp ha) b (mem_range.mp hb)]
      rw [sum_congr rfl this]
      exact sum_delta_left (mem_range.mp ha)
        (fun b => sumCfg (A.map Ten.d) (fun ss => star (chain A ss a k) * chain A ss b k'))
    rw [sum_congr rfl e2, ← sumCfg_sum]
    exact ih hA (fun t ht => ho t (by simp [ht]))

/-- A chain of right-orthonormal tensors is an isometry from the left bond. -/
theorem chain_rightOrth {m r : ℕ} {B : List (Ten ℂ)} (hB : Linked m B r)
    (ho : ∀ t ∈ B, RightOrth t) {k k' : ℕ} (hk : k < m) (hk' : k' < m) :
    sumCfg (B.map Ten.d) (fun s => ∑ j ∈ range r, chain B s k j * star (chain B s k' j))
      = delta ℂ k k' := by
  induction B generalizing m k k' with
  | nil =>
    simp only [Linked] at hB
    subst hB
    simp only [List.map_nil, sumCfg, chain]
    have : ∀ i ∈ range m, delta ℂ k i * star (delta ℂ k' i) = delta ℂ k i * delta ℂ i k' := by
      intro i _; rw [delta_comm i k']; unfold delta; split <;> split <;> simp
    rw [sum_congr rfl this]
    exact sum_delta_left hk (fun i => delta ℂ i k')
  | cons t B ih =>
    simp only [List.map_cons, sumCfg, chain]
    obtain ⟨rfl, hB⟩ := hB
    have e : ∀ s ∈ range t.d, sumCfg (B.map Ten.d) (fun ss => ∑ j ∈ range r,
          (∑ a ∈ range t.r, t.v k a s * chain B ss a j)
            * star (∑ b ∈ range t.r, t.v k' b s * chain B ss b j))
        = ∑ a ∈ range t.r, t.v k a s * star (t.v k' a s) := by
      intro s _
      have e1 : sumCfg (B.map Ten.d) (fun ss => ∑ j ∈ range r,
          (∑ a ∈ range t.r, t.v k a s * chain B ss a j)
            * star (∑ b ∈ range t.r, t.v k' b s * chain B ss b j))
          = sumCfg (B.map Ten.d) (fun ss => ∑ a ∈ range t.r, ∑ b ∈ range t.r,
          (t.v k a s * star (t.v k' b s))
            * ∑ j ∈ range r, (chain B ss a j * star (chain B ss b j))) := by
        apply sumCfg_congr
        intro ss _
        simp_rw [star_sum, sum_mul_sum, mul_sum]
        rw [sum_comm]
        apply sum_congr rfl; intro a _
        rw [sum_comm]
        apply sum_congr rfl; intro b _
        apply sum_congr rfl; intro i _
        rw [star_mul']; ring
      rw [e1]
      simp_rw [sumCfg_sum, sumCfg_mul]
      apply sum_congr rfl; intro a ha
      have : ∀ b ∈ range t.r, t.v k a s * star (t.v k' b s) *
          sumCfg (B.map Ten.d) (fun ss => ∑ j ∈ range r, chain B ss a j * star (chain B ss b j))
          = (t.v k a s * star (t.v k' b s)) * delta ℂ a b := by
        intro b hb
        rw [ih hB (fun t ht => ho t (by simp [ht])) (mem_range.mp ha) (mem_range.mp hb)]
      rw [sum_congr rfl this]
      exact sum_delta_right' (mem_range.mp ha) (fun b => t.v k a s * star (t.v k' b s))
    rw [sum_congr rfl e]
    exact ho t (by simp) k hk k' hk'

/-- Spec: mixed canonical form. -/
structure MPS.Canonical (m : MPS) : Prop where
  left : ∀ x t, m.tensors[x]? = some t → x < m.pos → LeftOrth t
  right : ∀ x t, m.tensors[x]? = some t → m.pos ≤ x → RightOrth t
  norm : normF m.mat = 1

theorem MPS.Canonical.left' {m : MPS} (h : m.Canonical) : ∀ t ∈ m.tensors.take m.pos, LeftOrth t := by
  intro t ht
  obtain ⟨x, hx, rfl⟩ := List.mem_iff_getElem.mp ht
  simp only [List.length_take] at hx
  rw [List.getElem_take]
  exact h.left x _ (List.getElem?_eq_getElem (by omega)) (by omega)

theorem MPS.Canonical.right' {m : MPS} (h : m.Canonical) : ∀ t ∈ m.tensors.drop m.pos, RightOrth t := by
  intro t ht
  obtain ⟨x, hx, rfl⟩ := List.mem_iff_getElem.mp ht
  simp only [List.length_drop] at hx
  rw [List.getElem_drop]
  exact h.right (m.pos + x) _ (List.getElem?_eq_getElem (by omega)) (by omega)

/-- Spec: squared norm of the represented state, summed over all configurations and outer bond
indices. -/
def MPS.normSq (m : MPS) (l r : ℕ) : ℝ :=
  sumCfg m.ds (fun s => ∑ i ∈ range l, ∑ j ∈ range r, Complex.normSq (m.amp s i j))

theorem ds_split (m : MPS) : m.ds = (m.tensors.take m.pos).map Ten.d ++ (m.tensors.drop m.pos).map Ten.d := by
  unfold MPS.ds
  rw [← List.map_append, List.take_append_drop]

/-- General collapse: with isometric outer parts, a sesquilinear form in the amplitudes of two centre
matrices is the Frobenius product of the centre matrices. -/
theorem collapse {l n n' r : ℕ} {A B : List (Ten ℂ)} (hA : Linked l A n) (hB : Linked n' B r)
    (hl : ∀ t ∈ A, LeftOrth t) (hr : ∀ t ∈ B, RightOrth t) (f g : ℕ → ℕ → ℂ) :
    sumCfg (A.map Ten.d) (fun sA => sumCfg (B.map Ten.d) (fun sB =>
      ∑ i ∈ range l, ∑ j ∈ range r,
        star (∑ k ∈ range n, ∑ k' ∈ range n', chain A sA i k * f k k' * chain B sB k' j) *
          (∑ k ∈ range n, ∑ k' ∈ range n', chain A sA i k * g k k' * chain B sB k' j)))
      = ∑ k ∈ range n, ∑ k' ∈ range n', star (f k k') * g k k' := by
  have e : ∀ sA sB, (∑ i ∈ range l, ∑ j ∈ range r,
        star (∑ k ∈ range n, ∑ k' ∈ range n', chain A sA i k * f k k' * chain B sB k' j) *
          (∑ k ∈ range n, ∑ k' ∈ range n', chain A sA i k * g k k' * chain B sB k' j))
      = ∑ k ∈ range n, ∑ k' ∈ range n', ∑ q ∈ range n, ∑ q' ∈ range n',
          (star (f k k') * g q q') * ((∑ i ∈ range l, star (chain A sA i k) * chain A sA i q) *
            (∑ j ∈ range r, chain B sB q' j * star (chain B sB k' j))) := by
    intro sA sB
    have e0 : ∀ i ∈ range l, ∀ j ∈ range r,
        star (∑ k ∈ range n, ∑ k' ∈ range n', chain A sA i k * f k k' * chain B sB k' j) *
          (∑ k ∈ range n, ∑ k' ∈ range n', chain A sA i k * g k k' * chain B sB k' j)
        = ∑ k ∈ range n, ∑ k' ∈ range n', ∑ q ∈ range n, ∑ q' ∈ range n',
          (star (f k k') * g q q') * ((star (chain A sA i k) * chain A sA i q) *
            (chain B sB q' j * star (chain B sB k' j))) := by
      intro i _ j _
      rw [star_sum, sum_mul]
      apply sum_congr rfl; intro k _
      rw [star_sum, sum_mul]
      apply sum_congr rfl; intro k' _
      rw [mul_sum]
      apply sum_congr rfl; intro q _
      rw [mul_sum]
      apply sum_congr rfl; intro q' _
      rw [star_mul', star_mul']; ring
    rw [sum_congr rfl fun i hi => sum_congr rfl fun j hj => e0 i hi j hj]
    simp_rw [sum_mul_sum, mul_sum]
    -- move the sums over i, j inside
    have sw : ∀ (F : ℕ → ℕ → ℕ → ℕ → ℕ → ℕ → ℂ),
        ∑ i ∈ range l, ∑ j ∈ range r, ∑ k ∈ range n, ∑ k' ∈ range n', ∑ q ∈ range n,
          ∑ q' ∈ range n', F i j k k' q q'
        = ∑ k ∈ range n, ∑ k' ∈ range n', ∑ q ∈ range n, ∑ q' ∈ range n', ∑ i ∈ range l,
          ∑ j ∈ range r, F i j k k' q q' := by
      intro F
      have h1 : ∀ i ∈ range l, ∑ j ∈ range r, ∑ k ∈ range n, ∑ k' ∈ range n', ∑ q ∈ range n,
          ∑ q' ∈ range n', F i j k k' q q'
          = ∑ k ∈ range n, ∑ k' ∈ range n', ∑ q ∈ range n, ∑ q' ∈ range n',
          ∑ j ∈ range r, F i j k k' q q' := by
        intro i _
        rw [sum_comm]; apply sum_congr rfl; intro k _
        rw [sum_comm]; apply sum_congr rfl; intro k' _
        rw [sum_comm]; apply sum_congr rfl; intro q _
        rw [sum_comm]
      rw [sum_congr rfl h1]
      rw [sum_comm]; apply sum_congr rfl; intro k _
      rw [sum_comm]; apply sum_congr rfl; intro k' _
      rw [sum_comm]; apply sum_congr rfl; intro q _
      rw [sum_comm]
    rw [sw]
  rw [sumCfg_congr (fun sA _ => sumCfg_congr (fun sB _ => e sA sB))]
  simp_rw [sumCfg_sum, sumCfg_mul]
  apply sum_congr rfl; intro k hk
  apply sum_congr rfl; intro k' hk'
  have h1 : ∀ q ∈ range n, ∀ q' ∈ range n',
      star (f k k') * g q q' * sumCfg (A.map Ten.d) (fun sA =>
        (∑ i ∈ range l, star (chain A sA i k) * chain A sA i q) *
          sumCfg (B.map Ten.d) (fun sB => ∑ j ∈ range r, chain B sB q' j * star (chain B sB k' j)))
      = delta ℂ k q * (delta ℂ q' k' * (star (f k k') * g q q')) := by
    intro q hq q' hq'
    rw [sumCfg_mul_right]
    rw [chain_leftOrth hA hl (mem_range.mp hk) (mem_range.mp hq)]
    rw [chain_rightOrth hB hr (mem_range.mp hq') (mem_range.mp hk')]
    ring
  rw [sum_congr rfl fun q hq => sum_congr rfl fun q' hq' => h1 q hq q' hq']
  simp_rw [← mul_sum]
  rw [sum_delta_left (mem_range.mp hk) (fun q => ∑ q' ∈ range n', delta ℂ q' k' * (star (f k k') * g q q'))]
  exact sum_delta_left' (mem_range.mp hk') (fun q' => star (f k k') * g k q')

theorem canonical_normSq {m : MPS} {l r : ℕ} (hw : m.WF l r) (hc : m.Canonical) :
    m.normSq l r = Complex.normSq m.Z := by
  have h := collapse hw.left hw.right hc.left' hc.right' m.mat.v m.mat.v
  have hn : ((∑ k ∈ range m.mat.r, ∑ k' ∈ range m.mat.c, Complex.normSq (m.mat.v k k') : ℝ) : ℂ) = 1 := by
    have := hc.norm
    unfold normF at this
    have h2 := (Real.sqrt_eq_iff_eq_sq (sum_nonneg fun _ _ => sum_nonneg fun _ _ =>
      Complex.normSq_nonneg _) zero_le_one).mp this
    rw [h2]; simp
  have hstar : ∀ z : ℂ, star z * z = ((Complex.normSq z : ℝ) : ℂ) := by
    intro z; rw [Complex.normSq_eq_conj_mul_self]; rfl
  apply Complex.ofReal_injective
  unfold MPS.normSq
  rw [sumCfg_ofReal, ds_split, sumCfg_append]
  have e : ∀ sA sB, List.Forall₂ (fun d x => x < d) ((m.tensors.take m.pos).map Ten.d) sA →
      ((∑ i ∈ range l, ∑ j ∈ range r, Complex.normSq (m.amp (sA ++ sB) i j) : ℝ) : ℂ)
      = (star m.Z * m.Z) * ∑ i ∈ range l, ∑ j ∈ range r,
        star (∑ k ∈ range m.mat.r, ∑ k' ∈ range m.mat.c,
          chain (m.tensors.take m.pos) sA i k * m.mat.v k k' * chain (m.tensors.drop m.pos) sB k' j) *
        (∑ k ∈ range m.mat.r, ∑ k' ∈ range m.mat.c,
          chain (m.tensors.take m.pos) sA i k * m.mat.v k k' * chain (m.tensors.drop m.pos) sB k' j) := by
    intro sA sB hcfg
    have hlen : sA.length = m.pos := by
      rw [← List.Forall₂.length_eq hcfg]
      simp [hw.len, hw.pos_le]
    push_cast
    rw [mul_sum]
    apply sum_congr rfl; intro i _
    rw [mul_sum]
    apply sum_congr rfl; intro j _
    rw [← hstar]
    unfold MPS.amp
    rw [List.take_left' hlen, List.drop_left' hlen, star_mul']
    ring
  rw [sumCfg_congr (fun sA hA => sumCfg_congr (fun sB _ => e sA sB hA))]
  simp_rw [sumCfg_mul]
  rw [h]
  simp_rw [hstar]
  push_cast at hn
  rw [hn, mul_one]

end

end PyTeN
