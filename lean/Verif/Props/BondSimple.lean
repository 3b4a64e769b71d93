import Verif.Engine.BondSimple
import Verif.Props.Vumps

/-! # C118: the ground state of the bond operator -/

namespace PyTeN.BondSimple
open Finset Sparse Vumps

noncomputable section

/-! ## Specification -/

/-- Spec: `M` is a normalised matrix of shape `(n,n)` which `applyHbond` multiplies by the number `w`, and no matrix has a smaller
expectation value. -/
structure Lowest (L R : Env ℂ) (n : ℕ) (M : Mat ℂ) (w : ℝ) : Prop where
  r : M.r = n
  c : M.c = n
  norm : ∑ i ∈ range n, ∑ j ∈ range n, Complex.normSq (M.v i j) = 1
  eig : ∃ Y, applyHbond L R M = .ok Y ∧ Y.r = n ∧ Y.c = n ∧ ∀ i < n, ∀ j < n, Y.v i j = w * M.v i j
  least : ∀ Z Y : Mat ℂ, Z.r = n → Z.c = n → applyHbond L R Z = .ok Y →
    w * ∑ i ∈ range n, ∑ j ∈ range n, Complex.normSq (Z.v i j) ≤ (∑ i ∈ range n, ∑ j ∈ range n, star (Z.v i j) * Y.v i j).re

variable {arp : Arpack} {L R : Env ℂ} {C : Mat ℂ} {n : ℕ}

theorem form_eq {Z Y : Mat ℂ} (hu : L.u = n) (hu' : R.u = n) (z1 : Z.r = n) (z2 : Z.c = n) (hY : applyHbond L R Z = .ok Y) :
    ∑ i ∈ range n, ∑ j ∈ range n, star (Z.v i j) * Y.v i j = bondForm L R Z Z := by
  unfold applyHbond bondH at hY
  split_ifs at hY
  cases hY
  unfold bondForm bondMatEl
  rw [z1, z2, hu, hu']
  conv_rhs => rw [sum_comm]
  dsimp only
  refine sum_congr rfl fun i' _ => ?_
  calc ∑ j' ∈ range n, star (Z.v i' j') * ∑ i ∈ range n, ∑ b ∈ range L.m, ∑ j ∈ range n, L.v i i' b * Z.v i j * R.v j j' b =
      ∑ j' ∈ range n, ∑ i ∈ range n, ∑ j ∈ range n, (∑ b ∈ range L.m, L.v i i' b * R.v j j' b) * Z.v i j * star (Z.v i' j') := by
        refine sum_congr rfl fun j' _ => ?_
        rw [mul_sum]
        refine sum_congr rfl fun i _ => ?_
        rw [sum_comm, mul_sum]
        refine sum_congr rfl fun j _ => ?_
        rw [mul_sum, sum_mul, sum_mul]
        exact sum_congr rfl fun b _ => by ring
    _ = ∑ i ∈ range n, ∑ j' ∈ range n, ∑ j ∈ range n, (∑ b ∈ range L.m, L.v i i' b * R.v j j' b) * Z.v i j * star (Z.v i' j') := sum_comm
    _ = _ := sum_congr rfl fun i _ => sum_comm

theorem lowest_of {M : Mat ℂ} {w : ℝ} (hu : L.u = n) (hu' : R.u = n) (h : GroundBond L R n n M w) : Lowest L R n M w where
  r := h.Cr
  c := h.Cc
  norm := by
    have := h.norm
    rwa [Mat.nsq, h.Cr, h.Cc] at this
  eig := h.eig
  least := by
    intro Z Y z1 z2 hY
    have := h.least Z z1 z2
    rw [Mat.nsq, z1, z2] at this
    rw [form_eq hu hu' z1 z2 hY]
    exact this

/-- **C118 (ground state).**  For square blocks with a Hermitian bond operator and one vector, `eigshbondsimple` returns for every nonzero
square matrix (of more than one entry), with the lowest eigenvalue and a normalised eigenvector. -/
theorem C118_ground (hA : ArpackSpec arp) (hH : BondHerm L R n n) (hr : C.r = n) (hc : C.c = n) (hT : 0 < C.nsq) :
    (1 < n → ∃ r, eigshbondsimple arp 1 L R C = .ok r) ∧ ∀ e M, eigshbondsimple arp 1 L R C = .ok (e, M) → ∃ w, e = [w] ∧ Lowest L R n M w := by
  have hf : BondFits L R C.r C.c := by rw [hr, hc]; exact bond_fits hH
  have hH' : BondHerm L R C.r C.c := by rw [hr, hc]; exact hH
  obtain ⟨h1, h2⟩ := hA _ (bondOp L R C.r C.c) 1 _ (bondOp_symm hH') (matvec_ne hT) le_rfl
  have e0 : C.r * C.c * 1 = L.w * R.w := by rw [hr, hc, hH.Lw, hH.Rw, mul_one]
  have run : ∀ ps, arp (Fin C.r × Fin C.c) (bondOp L R C.r C.c) 1 (C.vec C.r C.c) = .ok ps → ∃ w v, ps = [(w, v)] ∧
      eigshbondsimple arp 1 L R C = .ok ([w], BVec.mat v) ∧ GroundBond L R n n (BVec.mat v) w := by
    intro ps hps
    obtain ⟨g1, g2, g3, g4⟩ := h2 ps hps
    obtain ⟨⟨w, v⟩, rfl⟩ := List.length_eq_one_iff.1 g1
    refine ⟨w, v, rfl, ?_, ?_⟩
    · rw [eigshbondsimple, if_pos hf, haBond_eq hf, hps]
      simp only [List.length_cons, List.length_nil, zero_add]
      rw [if_pos e0]
      rfl
    · have a : ‖v‖ = 1 ∧ bondOp L R C.r C.c v = (w : ℂ) • v := g3 (w, v) (by simp)
      have := ground_bond (w := w) hf a.1 a.2 fun x => global_min (bondOp_symm hH') g2 g3 (w := w) (by simp) (fun y hy => g4 y hy (w, v) (by simp)) x
      generalize BVec.mat v = M at this ⊢
      rwa [hr, hc] at this
  constructor
  · intro hn
    obtain ⟨ps, hps⟩ := h1 (by rw [Fintype.card_prod, Fintype.card_fin, Fintype.card_fin, hr, hc]; nlinarith)
    obtain ⟨w, v, -, h, -⟩ := run ps hps
    exact ⟨_, h⟩
  · intro e M h
    cases hps : arp (Fin C.r × Fin C.c) (bondOp L R C.r C.c) 1 (C.vec C.r C.c) with
    | error x =>
      rw [eigshbondsimple, if_pos hf, haBond_eq hf, hps] at h
      cases h
    | ok ps =>
      obtain ⟨w, v, -, h', hg⟩ := run ps hps
      rw [h'] at h
      cases h
      exact ⟨w, rfl, lowest_of hH.Lu hH.Ru hg⟩

/-- **C118 (violated for rectangular matrices).**  The centre matrix of a bond between spaces of different dimensions is always refused. -/
theorem C118_violated_rect (h : C.r ≠ C.c) (k : ℕ) : eigshbondsimple arp k L R C = .error .value := by
  rw [eigshbondsimple, if_neg fun hf => h hf.2.2.2.2.2]

/-- **C118 (violated for more vectors).**  With `numvecs` larger than one the function never returns. -/
theorem C118_violated_many (hA : ArpackSpec arp) (hH : BondHerm L R n n) (hr : C.r = n) (hc : C.c = n) (hT : 0 < C.nsq) {k : ℕ} (hk : 2 ≤ k) :
    ∃ e, eigshbondsimple arp k L R C = .error e := by
  have hf : BondFits L R C.r C.c := by rw [hr, hc]; exact bond_fits hH
  have hH' : BondHerm L R C.r C.c := by rw [hr, hc]; exact hH
  obtain ⟨-, h2⟩ := hA _ (bondOp L R C.r C.c) k _ (bondOp_symm hH') (matvec_ne hT) (by omega)
  have hn : 0 < n := by
    rw [Nat.pos_iff_ne_zero]
    rintro rfl
    simp [Mat.nsq, hr] at hT
  rw [eigshbondsimple, if_pos hf, haBond_eq hf]
  split
  · exact ⟨_, rfl⟩
  · rename_i ps hps
    rw [if_neg]
    · exact ⟨_, rfl⟩
    · rw [(h2 ps hps).1, hr, hc, hH.Lw, hH.Rw]
      intro h
      have : 0 < n * n := Nat.mul_pos hn hn
      nlinarith

/-! ## Witnesses -/

/-- Blocks with different entries on the diagonal and a matrix. -/
def blkL : Env ℂ := ⟨2, 2, 1, fun i i' _ => if i = i' then (i : ℂ) + 1 else 0⟩
def blkR : Env ℂ := ⟨2, 2, 1, fun j j' _ => if j = j' then 3 * (j : ℂ) + 2 else 1⟩
def matC : Mat ℂ := ⟨2, 2, fun _ _ => 1⟩

theorem blk_herm : BondHerm blkL blkR 2 2 := ⟨rfl, rfl, rfl, rfl, rfl, by
  intro i _ i' _ j _ j' _
  simp only [bondMatEl, blkL, blkR, sum_range_one]
  by_cases h1 : i = i' <;> by_cases h2 : j = j'
  · subst h1 h2; simp
  · have h2' : ¬ j' = j := fun h => h2 h.symm
    subst h1; simp [h2, h2']
  · have h1' : ¬ i' = i := fun h => h1 h.symm
    simp [h1, h1']
  · have h1' : ¬ i' = i := fun h => h1 h.symm
    simp [h1, h1']⟩

theorem matC_pos : 0 < matC.nsq := by
  simp [Mat.nsq, matC]

example : ∃ arp : Arpack, ArpackSpec arp ∧ ∃ w M, eigshbondsimple arp 1 blkL blkR matC = .ok ([w], M) ∧ Lowest blkL blkR 2 M w := by
  obtain ⟨arp, hA⟩ := exists_arpack
  obtain ⟨h1, h2⟩ := C118_ground (C := matC) hA blk_herm rfl rfl matC_pos
  obtain ⟨⟨e, M⟩, h⟩ := h1 one_lt_two
  obtain ⟨w, rfl, hl⟩ := h2 e M h
  exact ⟨arp, hA, w, M, h, hl⟩

example : ∃ arp : Arpack, ArpackSpec arp ∧ ∃ e, eigshbondsimple arp 2 blkL blkR matC = .error e := by
  obtain ⟨arp, hA⟩ := exists_arpack
  exact ⟨arp, hA, C118_violated_many hA blk_herm rfl rfl matC_pos le_rfl⟩

example (arp : Arpack) : eigshbondsimple arp 1 ⟨1, 1, 1, fun _ _ _ => 1⟩ blkR ⟨1, 2, fun _ _ => 1⟩ = .error .value :=
  C118_violated_rect (by decide) 1

end

end PyTeN.BondSimple
