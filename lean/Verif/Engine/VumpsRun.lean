import Verif.Engine.Vumps
import Verif.Env.VumpsCore
import Verif.Props.Steady

/-! # Lemmas for `VUMPSengine`: what the functions return -/

namespace PyTeN.Vumps
open Finset Transfer Regauge Steady
noncomputable section

theorem andThen_ok {α β : Type} {x : Res α} {f : α → Res β} {y : β} : andThen x f = .ok y ↔ ∃ a, x = .ok a ∧ f a = .ok y := by
  cases x with
  | error e => simp [andThen]
  | ok a => simp [andThen]

theorem transfer_unit (dir : Dir) (A : Ten ℂ) : transferOperator dir (.arr A) = unitcellTransferOperator dir [A] := by
  funext x
  cases dir <;> simp only [unitcellTransferOperator, unitLoop, List.reverse_singleton, List.cons_ne_nil, if_false] <;> split <;> simp_all

theorem tmLoop_lead {eigs : ℕ → Eigs} (hE : ∀ i, EigsLR (eigs i)) {N : ℕ} {f : Vec ℂ → Res (Vec ℂ)} {k : ℕ} : ∀ {fuel i : ℕ} {η : ℂ} {v : Vec ℂ},
    tmLoop eigs N f k fuel i = .ok (η, v) → v.n = N ∧ (∃ i < N, v.v i ≠ 0) ∧ (∃ w, f v = .ok w ∧ ∀ i < N, w.v i = η * v.v i) ∧
      ∀ (μ : ℂ) (u : Vec ℂ), u.n = N → (∃ i < N, u.v i ≠ 0) → (∃ w, f u = .ok w ∧ ∀ i < N, w.v i = μ * u.v i) → μ.re ≤ η.re
  | 0, _, _, _, h => by cases h
  | fuel + 1, i, η, v, h => by
    rw [tmLoop] at h
    split at h
    · cases h
    rename_i l hl
    split at h
    · cases h
    rename_i η' v' hm
    split_ifs at h with hc
    · exact tmLoop_lead hE h
    · cases h
      obtain ⟨m1, m2⟩ := argmaxRe_max hm
      obtain ⟨-, l2⟩ := hE i _ _ _ _ hl
      obtain ⟨a1, a2, a3, a4⟩ := l2 _ m1
      refine ⟨a1, a2, a3, fun μ u h1 h2 h3 => ?_⟩
      rcases a4 μ u h1 h2 h3 with h' | ⟨q', hq', h'⟩
      · exact h'
      · rw [← h']; exact m2 q' hq'

section
variable {D : ℕ} {A : Ten ℂ} {dir : Dir} {pinv η : ℝ} {p : ℕ → ℕ → ℂ}

theorem one_linked' (hl : A.l = D) (hr : A.r = D) : Linked D [A] D := ⟨hl, hr⟩

theorem tm_lead {eigs : ℕ → Eigs} (hE : ∀ i, EigsLR (eigs i)) {fuel k : ℕ} (hl : A.l = D) (hr : A.r = D) (hN : Normal dir pinv D [A] η p) {μ : ℂ} {v : Vec ℂ}
    (h : tmEigs eigs fuel dir k A = .ok (μ, v)) :
    μ = η ∧ ∃ (c : ℂ) (f : ℕ → ℕ → ℂ), c ≠ 0 ∧ IsMat v D f ∧ ∀ i < D, ∀ j < D, f i j = c * p i j := by
  unfold tmEigs at h
  rw [if_neg (by rw [hl, hr]; simp)] at h
  split_ifs at h with h0
  rw [transfer_unit, hl] at h
  obtain ⟨a1, a2, a3, a4⟩ := tmLoop_lead hE h
  exact lr_lead (by simp) (one_linked' hl hr) hN a1 a2 a3 a4

/-- Convergence of the eigensolver for transfer operators. -/
def ConvergesK (eigs : Eigs) (k : ℕ) : Prop := ∀ (dir : Dir) (A : Ten ℂ) (n : ℕ), A.l = n → A.r = n → k + 1 < n * n →
  ∃ l, eigs (n * n) (transferOperator dir (.arr A)) k = .ok l

theorem not_tooComplex {η : ℝ} (h : 0 < η) : ¬ tooComplex (η : ℂ) := by
  unfold tooComplex
  rw [Complex.ofReal_re, if_neg h.ne', Complex.ofReal_im]
  norm_num

theorem argmaxRe_total : ∀ {l : List (ℂ × Vec ℂ)}, l ≠ [] → ∃ q, argmaxRe l = .ok q
  | [], h => absurd rfl h
  | x :: l, _ => by
    simp only [argmaxRe]
    split
    · exact ⟨_, rfl⟩
    · split_ifs <;> exact ⟨_, rfl⟩

/-- For a normal tensor the first call of the eigensolver is enough. -/
theorem tm_total {eigs : ℕ → Eigs} (hE : ∀ i, EigsLR (eigs i)) {fuel k : ℕ} (hc : ∀ i, ConvergesK (eigs i) k) (hk : 1 ≤ k) (hkD : k + 1 < D * D) (hf : 1 ≤ fuel)
    (hl : A.l = D) (hr : A.r = D) (hN : Normal dir pinv D [A] η p) : ∃ v, tmEigs eigs fuel dir k A = .ok ((η : ℂ), v) := by
  obtain ⟨F, rfl⟩ : ∃ F, fuel = F + 1 := ⟨fuel - 1, by omega⟩
  obtain ⟨l, hl1⟩ := hc 0 dir A D hl hr hkD
  obtain ⟨l1, l2⟩ := hE 0 _ _ _ _ hl1
  obtain ⟨q, hq⟩ := argmaxRe_total (l := l) (by rintro rfl; simp at l1; omega)
  obtain ⟨m1, m2⟩ := argmaxRe_max hq
  obtain ⟨a1, a2, a3, a4⟩ := l2 _ m1
  rw [transfer_unit] at a3 a4
  obtain ⟨hη, -⟩ := lr_lead (by simp) (one_linked' hl hr) hN (μ := q.1) a1 a2 a3 fun ν u u1 u2 u3 => by
    rcases a4 ν u u1 u2 u3 with h' | ⟨q', hq', h'⟩
    · exact h'
    · rw [← h']; exact m2 q' hq'
  refine ⟨q.2, ?_⟩
  unfold tmEigs
  rw [if_neg (by rw [hl, hr]; simp), if_neg (by rw [hl]; omega), hl, tmLoop, hl1]
  obtain ⟨μ, v⟩ := q
  simp only [hq] at hη ⊢
  rw [hη, if_neg (not_tooComplex hN.pos)]

theorem unitTrace_spec (hp : Density pinv D p) {v : Vec ℂ} {f : ℕ → ℕ → ℂ} (hv : IsMat v D f) {c : ℂ} (hc : c ≠ 0) (hf : ∀ i < D, ∀ j < D, f i j = c * p i j) :
    ∃ M, unitTrace v D = .ok M ∧ IsM M D p := by
  have hv' : ∀ i < D, ∀ j < D, v.v (i * D + j) = c * p i j := fun i hi j hj => by rw [hv.2 i hi j hj, hf i hi j hj]
  have htr : trace ⟨D, D, fun i j => v.v (i * D + j)⟩ = c := by
    unfold trace
    rw [sum_congr rfl fun i hi => hv' i (mem_range.1 hi) i (mem_range.1 hi), ← mul_sum, hp.tr, mul_one]
  refine ⟨⟨D, D, fun i j => v.v (i * D + j) / c⟩, ?_, rfl, rfl, fun i hi j hj => ?_⟩
  · unfold unitTrace reshape2
    rw [if_pos hv.1]
    simp only [andThen, htr, if_neg hc]
  · change v.v (i * D + j) / c = _
    rw [hv' i hi j hj, mul_div_cancel_left₀ _ hc]

theorem hermPart_spec (hp : Density pinv D p) {M : Mat ℂ} (hM : IsM M D p) : IsM (hermPart M) D p := by
  refine ⟨hM.1, hM.2.1, fun i hi j hj => ?_⟩
  simp only [hermPart]
  rw [hM.2.2 i hi j hj, hM.2.2 j hj i hi, hp.herm j hj i hi]
  ring

theorem pairMat_spec {M P : Mat ℂ} {f g : ℕ → ℕ → ℂ} (hM : IsM M D f) (hP : IsM P D g) : Transfer.pairMat M P = .ok (pairing D f g) := by
  unfold Transfer.pairMat
  rw [if_pos ⟨hM.1.trans hP.1.symm, hM.2.1.trans hP.2.1.symm⟩, hM.1, hM.2.1]
  congr 1
  exact sum_congr rfl fun i hi => sum_congr rfl fun j hj => by
    rw [hM.2.2 i (mem_range.1 hi) j (mem_range.1 hj), hP.2.2 i (mem_range.1 hi) j (mem_range.1 hj)]

theorem minusEye_spec {M : Mat ℂ} {f : ℕ → ℕ → ℂ} (hM : IsM M D f) (h : ℂ) : ∃ P, minusEye M h D = .ok P ∧ IsM P D fun i j => f i j - h * delta ℂ i j := by
  refine ⟨_, if_pos ⟨hM.1, hM.2.1⟩, rfl, rfl, fun i hi j hj => ?_⟩
  change M.v i j - _ = _
  rw [hM.2.2 i hi j hj]

theorem flat_spec {M : Mat ℂ} {f : ℕ → ℕ → ℂ} (hM : IsM M D f) : ∃ v, flat M (D * D) = .ok v ∧ IsMat v D f := by
  obtain ⟨r, c, g⟩ := M
  obtain ⟨h1, h2, h3⟩ := hM
  dsimp only at h1 h2 h3
  subst h1 h2
  obtain ⟨v, v1, v2⟩ := flat_isMat (f := g) (r := c) rfl
  exact ⟨v, v1, isMat_congr v2 h3⟩

end

theorem renorm_eq (solve : Lgmres) {D : ℕ} {A : Ten ℂ} (hl : A.l = D) (hr : A.r = D) (dir : Dir) (R L inh : Mat ℂ) (rnd : ℕ → ℂ) :
    renorm solve dir A R L inh rnd = andThen (flat inh (D * D)) fun y =>
      andThen (solve (oneMinusPseudo A A R L dir 0) y ⟨D * D, rnd⟩) fun x => reshape2 x D D := by
  subst hl
  unfold renorm
  rw [if_pos (by rw [hr])]
  cases dir <;> simp only [hr]

/-- The solution of the linear system. -/
theorem renorm_spec {solve : Lgmres} (hS : LgmresSpec solve) {D : ℕ} {A : Ten ℂ} (hl : A.l = D) (hr : A.r = D) {dir : Dir} {R L inh K : Mat ℂ}
    {o t own other y : ℕ → ℕ → ℂ} {rnd : ℕ → ℂ} (hd : Dens dir D [L] [R] o t)
    (h1 : ∀ i < D, ∀ j < D, o i j = own i j) (h2 : ∀ i < D, ∀ j < D, t i j = other i j)
    (hy : IsM inh D y) (hrun : renorm solve dir A R L inh rnd = .ok K) :
    ∃ k, IsM K D k ∧ ∀ i < D, ∀ j < D, k i j - act dir [A] D k i j + pairing D k other * own i j = y i j := by
  obtain ⟨v, v1, v2⟩ := flat_spec hy
  rw [renorm_eq solve hl hr, v1] at hrun
  obtain ⟨_, hv, hrun⟩ := andThen_ok.1 hrun
  cases hv
  obtain ⟨x, hx, hK⟩ := andThen_ok.1 hrun
  obtain ⟨x1, z, z1, z2, z3⟩ := hS _ _ _ _ hx
  rw [C55_single_oneMinus dir A R L x (by norm_num)] at z1
  have hxm : IsMat x D fun i j => x.v (i * D + j) := ⟨by rw [x1, v2.1], fun _ _ _ _ => rfl⟩
  obtain ⟨w, w1, w2⟩ := C55_oneMinus dir (ts := [A]) (by simp) (one_linked' hl hr) hd (by simp) (by simp) hxm
  rw [z1] at w1
  cases w1
  unfold reshape2 at hK
  rw [if_pos hxm.1] at hK
  cases hK
  refine ⟨fun i j => x.v (i * D + j), ⟨rfl, rfl, fun _ _ _ _ => rfl⟩, fun i hi j hj => ?_⟩
  rw [← v2.2 i hi j hj, ← z3 _ (by rw [v2.1]; exact index_lt hi hj), w2.2 i hi j hj]
  dsimp only
  rw [h1 i hi j hj, pair_congr_right h2]

/-- The linear system is solved if the right-hand side has no overlap with the fixed point and the fixed point is unique. -/
theorem renorm_total {solve : Lgmres} (hC : LgmresConverges solve) (hS : LgmresSpec solve) {D : ℕ} {A : Ten ℂ} (hl : A.l = D) (hr : A.r = D) {dir : Dir} {R L inh : Mat ℂ}
    {o t own other p y : ℕ → ℕ → ℂ} {rnd : ℕ → ℂ} (hd : Dens dir D [L] [R] o t)
    (h1 : ∀ i < D, ∀ j < D, o i j = own i j) (h2 : ∀ i < D, ∀ j < D, t i j = other i j)
    (hy : IsM inh D y) (hown : ∀ i < D, ∀ j < D, act dir [A] D own i j = own i j) (hone : pairing D own p = 1) (hone' : pairing D own other = 1)
    (hp : ∀ i < D, ∀ j < D, act (opp dir) [A] D p i j = p i j)
    (huniq : ∀ g : ℕ → ℕ → ℂ, (∀ i < D, ∀ j < D, act (opp dir) [A] D g i j = g i j) → ∃ c, ∀ i < D, ∀ j < D, g i j = c * p i j)
    (h0 : pairing D y p = 0) : ∃ K, renorm solve dir A R L inh rnd = .ok K := by
  obtain ⟨v, v1, v2⟩ := flat_spec hy
  obtain ⟨k, hk⟩ := solvable hown hone huniq y
  have hkp : pairing D k p = 0 := by
    have e := pair_congr (g := p) hk
    rw [pair_add, pair_sub, pair_smul, pair_adj, pair_congr_right hp, hone, h0] at e
    linear_combination e
  obtain ⟨w, -, w2⟩ := flat_isMat (f := fun i j => k i j + -pairing D k other * own i j) (r := D) rfl
  obtain ⟨z, z1, z2⟩ := C55_oneMinus dir (ts := [A]) (by simp) (one_linked' hl hr) hd (by simp) (by simp) w2
  have hz : IsMat z D y := isMat_congr z2 fun i hi j hj => by
    rw [pair_congr_right h2, h1 i hi j hj, act_add, act_smul, pair_add, pair_smul, hone', hown i hi j hj, ← hk i hi j hj, hkp]
    ring
  obtain ⟨x, hx⟩ := hC (oneMinusPseudo A A R L dir 0) v ⟨D * D, rnd⟩ v2.1.symm ⟨w, w2.1.trans v2.1.symm, z, by
    rw [C55_single_oneMinus dir A R L w (by norm_num)]; exact z1, hz.1.trans v2.1.symm, fun i hi => by
      rw [v2.1] at hi
      have hD : 0 < D := Nat.pos_of_ne_zero fun h => by rw [h] at hi; simp at hi
      have e : i = i / D * D + i % D := (Nat.div_add_mod' i D).symm
      have i1 : i / D < D := Nat.div_lt_of_lt_mul hi
      have i2 : i % D < D := Nat.mod_lt _ hD
      rw [e, hz.2 _ i1 _ i2, v2.2 _ i1 _ i2]⟩
  obtain ⟨x1, -⟩ := hS _ _ _ _ hx
  refine ⟨⟨D, D, fun i j => x.v (i * D + j)⟩, ?_⟩
  rw [renorm_eq solve hl hr, v1]
  simp only [andThen, hx, reshape2]
  rw [if_pos (by rw [x1, v2.1])]

end
end PyTeN.Vumps
