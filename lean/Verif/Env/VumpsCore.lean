import Verif.Env.SteadyMirror
import Verif.Env.SteadyTotal

/-! # Lemmas for `VUMPSengine`: the blocks with on-site terms divided by two -/

namespace PyTeN.Vumps
open Finset Transfer Regauge Steady
noncomputable section

/-- Spec: the operator with the on-site term divided by two. -/
def halfW (f s : ℕ) (W : Mpo ℂ) : Mpo ℂ := ⟨W.l, W.r, W.din, W.dout, fun b c x y => if b = s ∧ c = f then W.v b c x y / 2 else W.v b c x y⟩

section
variable {f s B D : ℕ} {b : Ten ℂ} {W : Mpo ℂ}

theorem half_site (h : NNSite f s B W) : NNSite f s B (halfW f s W) where
  l := h.l
  r := h.r
  dd := h.dd
  fB := h.fB
  sB := h.sB
  ne := h.ne
  done c hc x hx y hy := by
    simp only [halfW]; rw [if_neg (fun h' => h.ne h'.1)]; exact h.done c hc x hx y hy
  start c hc x hx y hy := by
    simp only [halfW]; rw [if_neg (fun h' => h.ne h'.2.symm)]; exact h.start c hc x hx y hy
  mid c hc c' hc' h1 h2 h3 h4 x hx y hy := by
    simp only [halfW]; rw [if_neg (fun h' => h2 h'.1)]; exact h.mid c hc c' hc' h1 h2 h3 h4 x hx y hy

theorem one_cell (h : NNSite f s B W) (hd : b.d = W.din) : NNCell f s B [b] [W] := List.Forall₂.cons ⟨h, hd⟩ List.Forall₂.nil

theorem half_cell (h : NNSite f s B W) (hd : b.d = W.din) : NNCell f s B [b] [halfW f s W] := one_cell (half_site h) hd

theorem mchain_one {V : Mpo ℂ} (x y c c' : ℕ) (hc : c' < V.r) : mchain [V] [x] [y] c c' = V.v c c' x y := by
  simp only [mchain]
  rw [sum_eq_single c']
  · simp
  · intro k _ hk; simp [delta, hk]
  · intro h; exact absurd (mem_range.2 hc) h

theorem part_mpo_congr {E : Env ℂ} {V V' : Mpo ℂ} {c c' : ℕ} {q : ℂ} (hc : c' < V.r) (hc' : c' < V'.r) (h : ∀ x y, V'.v c c' x y = q * V.v c c' x y) (j j' : ℕ) :
    part E D [b] [V'] c j j' c' = q * part E D [b] [V] c j j' c' := by
  unfold part
  simp only [List.map_cons, List.map_nil, sumCfg, mul_sum]
  refine sum_congr rfl fun x _ => sum_congr rfl fun y _ => sum_congr rfl fun i _ => sum_congr rfl fun i' _ => ?_
  rw [mchain_one _ _ _ _ hc, mchain_one _ _ _ _ hc', h]
  ring

/-- The part of the on-site term. -/
theorem part_onsite (h : NNSite f s B W) (hl : b.l = D) {E : Env ℂ} (hE : ∀ i < D, ∀ i' < D, E.v i i' s = delta ℂ i i') (j j' : ℕ) :
    part E D [b] [W] s j j' f = onsite D f s B b W j j' := by
  change _ = contrL (openEnv b.l s B) [b] [W] [b] j j' f
  rw [contrL_parts rfl rfl rfl, sum_eq_single s]
  · rw [show (openEnv b.l s B).u = b.l from rfl, hl]
    exact part_congr (fun i hi i' hi' => by rw [hE i hi i' hi', open_start]) _ _ _ _ _
  · intro c _ hc
    unfold part
    simp [openEnv, delta, hc, sumCfg_zero]
  · intro h'; exact absurd (mem_range.2 h.sB) h'

theorem half_onsite (h : NNSite f s B W) (hl : b.l = D) (j j' : ℕ) : onsite D f s B b (halfW f s W) j j' = onsite D f s B b W j j' / 2 := by
  have hE : ∀ i < D, ∀ i' < D, (openEnv D s B).v i i' s = delta ℂ i i' := fun i _ i' _ => open_start i i'
  rw [← part_onsite h hl hE, ← part_onsite (half_site h) hl hE, part_mpo_congr (q := 1 / 2) (V := W) (V' := halfW f s W) (by rw [h.r]; exact h.fB)
    (show f < W.r by rw [h.r]; exact h.fB) (fun x y => by simp only [halfW, and_self, if_true]; ring)]
  ring

/-- The other states are the same. -/
theorem half_mid (h : NNSite f s B W) {c : ℕ} (hc : c < B) (hcf : c ≠ f) (j j' : ℕ) :
    (lastEnv D s B b (halfW f s W)).v j j' c = (lastEnv D s B b W).v j j' c := by
  change contrL (openEnv b.l s B) [b] [halfW f s W] [b] j j' c = contrL (openEnv b.l s B) [b] [W] [b] j j' c
  rw [contrL_parts rfl rfl rfl, contrL_parts rfl rfl rfl]
  refine sum_congr rfl fun a _ => ?_
  rw [part_mpo_congr (q := 1) (V := W) (V' := halfW f s W) (by rw [h.r]; exact hc) (show c < W.r by rw [h.r]; exact hc)
    (fun x y => by simp only [halfW]; rw [if_neg (fun h' => hcf h'.2), one_mul]), one_mul]

/-- The whole on-site term is added to a block with the identity. -/
theorem half_contr (h : NNSite f s B W) (hl : b.l = D) {E : Env ℂ} (hu : E.u = D) (hw : E.w = D) (hm : E.m = B)
    (hE : ∀ i < D, ∀ i' < D, E.v i i' s = delta ℂ i i') (j j' : ℕ) :
    contrL E [b] [W] [b] j j' f = contrL E [b] [halfW f s W] [b] j j' f + onsite D f s B b W j j' / 2 := by
  rw [contrL_parts hu hw hm, contrL_parts hu hw hm, ← add_sum_erase _ _ (mem_range.2 h.sB), ← add_sum_erase (range B) _ (mem_range.2 h.sB),
    part_onsite h hl hE, part_onsite (half_site h) hl hE, half_onsite h hl]
  have : ∑ c ∈ (range B).erase s, part E D [b] [W] c j j' f = ∑ c ∈ (range B).erase s, part E D [b] [halfW f s W] c j j' f := by
    refine sum_congr rfl fun c hc => ?_
    rw [part_mpo_congr (q := 1) (V := W) (V' := halfW f s W) (by rw [h.r]; exact h.fB) (show f < W.r by rw [h.r]; exact h.fB)
      (fun x y => by simp only [halfW]; rw [if_neg (fun h' => (mem_erase.1 hc).1 h'.1), one_mul]), one_mul]
  rw [this]
  ring

/-- Spec: the complete terms of two sites, with half of each on-site term. -/
abbrev twoSites (D f s B : ℕ) (b : Ten ℂ) (W : Mpo ℂ) (j j' : ℕ) : ℂ := (source D s B [] b [] (halfW f s W)).v j j' f

variable (h : NNSite f s B W) (hd : b.d = W.din) (hl : b.l = D) (hr : b.r = D) (ho : LeftOrth b)
include h hd hl hr ho

/-- The energy of a further site. -/
theorem twoSites_energy {r : ℕ → ℕ → ℂ} (hfix : ∀ i < D, ∀ j < D, act .left [b] D r i j = r i j) {n : ℕ} (hn : 1 ≤ n) :
    pairing D (twoSites D f s B b W) r = cellEnergy D f s B [b] [W] r (n + 1) - cellEnergy D f s B [b] [W] r n := by
  have hlk : Linked D ([] ++ [b]) D := ⟨hl, hr⟩
  have h1 := cells_energy (us := []) (Vs := []) List.Forall₂.nil (one_cell h hd) hlk (by simpa using ho) h.fB h.sB hfix hn
  have hls := last_start (one_cell (b := b) h hd) hr ho h.sB
  have h2 : ∀ j < D, ∀ j' < D, twoSites D f s B b W j j' = (source D s B [] b [] W).v j j' f
      - act .right [b] D (fun i i' => onsite D f s B b W i i' / 2) j j' - onsite D f s B b W j j' / 2 := by
    intro j hj j' hj'
    change contrL (lastEnv D s B b (halfW f s W)) [b] [halfW f s W] [b] j j' f = contrL (lastEnv D s B b W) [b] [W] [b] j j' f - _ - _
    rw [half_contr h hl (E := lastEnv D s B b W) rfl rfl rfl hls]
    have := contr_diff (half_cell h hd) h.fB (E := lastEnv D s B b (halfW f s W)) (D := D) rfl rfl rfl (F := lastEnv D s B b W) rfl rfl rfl
      (fun c hc hcf i _ i' _ => half_mid h hc hcf i i') j j'
    have e1 : act .right [b] D (fun i i' => (lastEnv D s B b (halfW f s W)).v i i' f) j j' = act .right [b] D (fun i i' => 1 / 2 * onsite D f s B b W i i') j j' :=
      act_congr .right _ (fun i _ i' _ => by
        have := half_onsite (b := b) h hl i i'
        rw [onsite] at this
        rw [this]; ring) j j'
    have e2 : act .right [b] D (fun i i' => onsite D f s B b W i i' / 2) j j' = act .right [b] D (fun i i' => 1 / 2 * onsite D f s B b W i i') j j' :=
      act_congr .right _ (fun i _ i' _ => by ring) j j'
    rw [e1, act_smul] at this
    rw [e2, act_smul]
    rw [show act .right [b] D (fun i i' => (lastEnv D s B b W).v i i' f) j j' = act .right [b] D (onsite D f s B b W) j j' from rfl] at this
    linear_combination this
  rw [pair_congr h2, pair_sub, pair_sub, pair_fix hfix]
  have e3 : pairing D (fun i i' => onsite D f s B b W i i' / 2) r = 1 / 2 * pairing D (onsite D f s B b W) r := by
    rw [← pair_smul]; exact pair_congr fun i _ i' _ => by ring
  rw [e3]
  simp only [List.nil_append] at h1
  rw [h1]
  ring

/-- The block of the infinite system. -/
theorem block_fixed {r q k : ℕ → ℕ → ℂ} (hfix : ∀ i < D, ∀ j < D, act .left [b] D r i j = r i j) (hone : pairing D (delta ℂ) r = 1) {e : ℂ}
    (he : e = pairing D (twoSites D f s B b W) r)
    (hk : ∀ i < D, ∀ j < D, k i j - act .right [b] D k i j + pairing D k q * delta ℂ i j = twoSites D f s B b W i j - e * delta ℂ i j)
    {E : Env ℂ} (hu : E.u = D) (hw : E.w = D) (hm : E.m = B) (hE : ∀ c < B, c ≠ f → ∀ i < D, ∀ i' < D, E.v i i' c = (lastEnv D s B b W).v i i' c)
    (hEk : ∀ i < D, ∀ i' < D, E.v i i' f = onsite D f s B b W i i' / 2 + k i i') :
    pairing D k q = 0 ∧ ∀ j < D, ∀ j' < D, ∀ c < B, contrL E [b] [W] [b] j j' c = E.v j j' c + if c = f then e * delta ℂ j j' else 0 := by
  have hlk : Linked D ([] ++ [b]) D := ⟨hl, hr⟩
  have hls := last_start (one_cell (b := b) h hd) hr ho h.sB
  have hEs : ∀ i < D, ∀ i' < D, E.v i i' s = delta ℂ i i' := fun i hi i' hi' => by rw [hE s h.sB h.ne.symm i hi i' hi', hls i hi i' hi']
  have hp : pairing D k q = 0 := by
    have h1 := pair_congr (g := r) hk
    rw [pair_add, pair_sub, pair_fix hfix, pair_smul, pair_sub, pair_smul, hone, ← he] at h1
    linear_combination h1
  refine ⟨hp, fun j hj j' hj' c hc => ?_⟩
  by_cases hcf : c = f
  · subst hcf
    rw [if_pos rfl, half_contr h hl hu hw hm hEs]
    have := contr_diff (half_cell h hd) h.fB hu hw hm (F := lastEnv D s B b (halfW c s W)) rfl rfl rfl
      (fun a ha hac i hi i' hi' => by rw [hE a ha hac i hi i' hi', half_mid h ha hac]) j j'
    have e1 : act .right [b] D (fun i i' => E.v i i' c) j j' - act .right [b] D (fun i i' => (lastEnv D s B b (halfW c s W)).v i i' c) j j' = act .right [b] D k j j' := by
      have : act .right [b] D (fun i i' => E.v i i' c) j j' = act .right [b] D (fun i i' => (lastEnv D s B b (halfW c s W)).v i i' c + k i i') j j' :=
        act_congr .right _ (fun i hi i' hi' => by
          have := half_onsite (b := b) h hl i i'
          rw [onsite] at this
          rw [this, hEk i hi i' hi']) j j'
      rw [this, act_add]; ring
    rw [e1] at this
    have h3 := hk j hj j' hj'
    rw [hp] at h3
    rw [hEk j hj j' hj']
    change _ - twoSites D c s B b W j j' = _ at this
    linear_combination this - h3
  · rw [if_neg hcf, add_zero, hE c hc hcf j hj j' hj']
    exact core_mid (us := []) (Vs := []) List.Forall₂.nil (one_cell h hd) hlk (by simp) hu hw hm h.sB hEs hc hcf hj hj'

end
end
end PyTeN.Vumps
