import Verif.Engine.TebdState
import Mathlib.LinearAlgebra.Matrix.ToLin
import Mathlib.LinearAlgebra.Dimension.Finite
import Mathlib.Algebra.BigOperators.Fin
import Mathlib.Algebra.Order.BigOperators.Group.List

/-! # TEBD with a bond dimension that never truncates -/

namespace PyTeN
open Finset

noncomputable section

/-- Orthonormal columns are not longer than many. -/
theorem leftOrth_le {t : Ten ℂ} (h : LeftOrth t) : t.r ≤ t.l * t.d := by
  let A : Matrix (Fin t.d × Fin t.l) (Fin t.r) ℂ := fun p j => t.v p.2 j p.1
  have hA : A.conjTranspose * A = 1 := by
    ext j j'
    rw [Matrix.mul_apply, Fintype.sum_prod_type]
    have := h j j.2 j' j'.2
    rw [← Fin.sum_univ_eq_sum_range (fun s => ∑ i ∈ range t.l, star (t.v i j s) * t.v i j' s)] at this
    simp only [← Fin.sum_univ_eq_sum_range (fun i => star (t.v i j _) * t.v i j' _)] at this
    refine Eq.trans (this : _) ?_
    rw [delta, Matrix.one_apply]
    simp only [Fin.ext_iff]
  have hinj : Function.Injective A.mulVecLin := by
    intro x y hxy
    have := congrArg (A.conjTranspose.mulVec) (show A.mulVec x = A.mulVec y from hxy)
    rwa [Matrix.mulVec_mulVec, Matrix.mulVec_mulVec, hA, Matrix.one_mulVec, Matrix.one_mulVec] at this
  have := LinearMap.finrank_le_finrank_of_injective hinj
  simpa [mul_comm] using this

theorem linked_le {L : ℕ} : ∀ {A : List (Ten ℂ)} {l : ℕ}, Linked l A L → (∀ t ∈ A, LeftOrth t) →
    L ≤ l * (A.map Ten.d).prod := by
  intro A
  induction A with
  | nil => intro l h _; simp only [Linked] at h; simp [h]
  | cons t A ih =>
    intro l h ho
    obtain ⟨h1, h2⟩ := h
    have h3 := ih h2 fun u hu => ho u (by simp [hu])
    have h4 := leftOrth_le (ho t (by simp))
    rw [List.map_cons, List.prod_cons, ← mul_assoc, ← h1]
    exact h3.trans (Nat.mul_le_mul_right _ h4)

variable {gates : GateFn} {ds : List ℕ} {G : ℕ → ℂ → Gate2} {O : LinAlg}

/-- With `tr_thresh=0` and a bond dimension up to the one of the full space nothing is discarded. -/
theorem gate_full (hO : O.Spec) (hG : GateGroup gates ds G) {l r : ℕ} {m p : MPS} {n : ℕ} {tau : ℂ} {D : ℕ}
    {tw : ℝ} {k : ℕ} (hm : Good ds l r m) (hn : n + 1 < ds.length) (hD : l * ds.prod ≤ D)
    (h : m.applyTwoSiteGate O (G n tau) n (some D) 0 = .ok (tw, k, p)) : tw = 0 := by
  have hn' : n + 1 < m.N := by rw [hm.N]; exact hn
  obtain ⟨m1, A, B, L, R, M, U, S, V, z, hM, hcan, hA, hLA, hRB, hMr, hMc, hsv, hk, htw, hz, hzp,
      -, ⟨dA, dB, hds, hdA, hdB⟩, -⟩ := (applyTwoSiteGate_ok hO hm.wf hm.sth hn' h).blocks
  obtain ⟨s, i, j, hs, -, -, -⟩ := canonical_amp hm.toFit hm.can
  have hpos : ∀ d ∈ ds, 1 ≤ d := by
    intro d hd
    obtain ⟨q, hq, rfl⟩ := List.getElem_of_mem hd
    have := hs.get hq
    rw [List.getD_eq_getElem _ _ hq] at this
    omega
  rw [hG.a, hG.b, hm.ds_eq] at hds
  have h1 : S.length ≤ D := by
    rw [hsv.len]
    refine (min_le_left _ _).trans (le_trans ?_ hD)
    rw [hMr, hG.a']
    have h2 := linked_le hLA (hcan hm.can).2.1
    rw [hdA] at h2
    have h3 : 1 ≤ (ds.getD (n + 1) 0 :: dB).prod := List.one_le_prod_of_one_le fun d hd => hpos d (by
      rw [hds]; simp only [List.mem_append, List.mem_cons] at hd ⊢; tauto)
    have h4 : ds.prod = dA.prod * ds.getD n 0 * (ds.getD (n + 1) 0 :: dB).prod := by
      conv_lhs => rw [hds]
      rw [List.prod_append, List.prod_cons, ← mul_assoc]
    calc L * ds.getD n 0 ≤ (l * dA.prod) * ds.getD n 0 := Nat.mul_le_mul_right _ h2
      _ ≤ (l * dA.prod) * ds.getD n 0 * (ds.getD (n + 1) 0 :: dB).prod := Nat.le_mul_of_pos_right _ h3
      _ = l * ds.prod := by rw [h4]; ring
  obtain ⟨-, -, -, -, -, S', z', -, h2, h3, -, -, h6, h7, -⟩ :=
    C23_applyTwoSiteGate_truncation hO hm.wf hm.sth hn' h
  rcases h6 with h6 | h6
  · rw [htw, List.drop_eq_nil_of_le (by omega)]; rfl
  · rw [h7, sum_sq_list]
    refine sum_eq_zero fun q hq => ?_
    rw [mem_range, List.length_drop] at hq
    have h8 := h6 (k + q) (by omega) (by omega)
    have h9 : 0 ≤ S'.getD (k + q) 0 := by
      rw [List.getD_eq_getElem _ _ (by omega)]; exact h2 _ (List.getElem_mem _)
    have h10 : (S'.drop k).getD q 0 = S'.getD (k + q) 0 := by
      simp only [List.getD_eq_getElem?_getD, List.getElem?_drop]
    rw [h10, le_antisymm h8 h9]; norm_num

theorem replay_full (hO : O.Spec) (hG : GateGroup gates ds G) {l r : ℕ} {D : ℕ} (hD : l * ds.prod ≤ D) :
    ∀ (es : List TEv) (m p : MPS) (tw tw' : ℝ), Good ds l r m → (∀ e ∈ es, e.InRange ds.length) →
    replay O gates (some D) 0 es (m, tw) = .ok (p, tw') → tw' = tw := by
  intro es
  induction es with
  | nil => intro m p tw tw' _ _ h; simp only [replay, Except.ok.injEq, Prod.mk.injEq] at h; exact h.2.symm
  | cons e es ih =>
    intro m p tw tw' hm hr h
    have hr' : ∀ e ∈ es, e.InRange ds.length := fun x hx => hr x (by simp [hx])
    cases e with
    | reset => simp only [replay] at h; exact ih _ _ _ _ hm.resetZ hr' h
    | gate n tau =>
      obtain ⟨h0, h1'⟩ : 0 ≤ n ∧ n + 1 < ds.length := hr (.gate n tau) (by simp)
      obtain ⟨n, rfl⟩ := Int.eq_ofNat_of_zero_le h0
      have h2 : n + 1 < ds.length := by omega
      simp only [replay, hG.val n tau h2] at h
      split at h
      · cases h
      rename_i t k q hq
      have ht := gate_full hO hG hm h2 hD hq
      subst ht
      rw [add_zero] at h
      exact ih _ _ _ _ ⟨gate_fit hO hG hm.toFit h2 hq, (gate_alive hO hG hm.toFit hm.can h2 hq (Or.inl rfl)).2⟩ hr' h

end

end PyTeN
