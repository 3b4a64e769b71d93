import Verif.Engine.VumpsEnv
import Verif.Engine.Energy

/-! # Lemmas for `VUMPSengine`: Hermitian environments -/

namespace PyTeN.Vumps
open Finset Transfer Regauge Steady
noncomputable section

/-- Spec: a Hermitian matrix product operator of nearest-neighbour form: taking the adjoint of every matrix exchanges the states with `σ`
and rescales them with `g`. -/
structure Conj (σ : ℕ → ℕ) (g : ℕ → ℂ) (f s B : ℕ) (W : Mpo ℂ) : Prop where
  lt : ∀ b < B, σ b < B
  inv : ∀ b < B, σ (σ b) = b
  σf : σ f = f
  σs : σ s = s
  gf : g f = 1
  gs : g s = 1
  ne : ∀ b < B, g b ≠ 0
  conj : ∀ b < B, ∀ c < B, ∀ x < W.din, ∀ y < W.din, star (W.v b c x y) * g b = g c * W.v (σ b) (σ c) y x

/-- The symmetry of a block. -/
def HermE (σ : ℕ → ℕ) (g : ℕ → ℂ) (D B : ℕ) (v : ℕ → ℕ → ℕ → ℂ) : Prop :=
  ∀ i < D, ∀ i' < D, ∀ b < B, star (v i i' b) = g b * v i' i (σ b)

section
variable {σ : ℕ → ℕ} {g : ℕ → ℂ} {f s B D : ℕ} {b : Ten ℂ} {W : Mpo ℂ}

theorem Conj.mirror (h : Conj σ g f s B W) : Conj σ (fun c => (g c)⁻¹) s f B (rW W) where
  lt := h.lt
  inv := h.inv
  σf := h.σs
  σs := h.σf
  gf := by simp [h.gs]
  gs := by simp [h.gf]
  ne b hb := inv_ne_zero (h.ne b hb)
  conj c hc c' hc' x hx y hy := by
    have := h.conj c' hc' c hc x hx y hy
    change star (W.v c' c x y) * (g c)⁻¹ = (g c')⁻¹ * W.v (σ c') (σ c) y x
    have h1 := h.ne c hc
    have h2 := h.ne c' hc'
    field_simp
    linear_combination this

theorem Conj.σne (h : Conj σ g f s B W) {c : ℕ} (hc : c < B) : σ c = f ↔ c = f :=
  ⟨fun e => by rw [← h.inv c hc, e, h.σf], fun e => by rw [e, h.σf]⟩

theorem Conj.σns (h : Conj σ g f s B W) {c : ℕ} (hc : c < B) : σ c = s ↔ c = s :=
  ⟨fun e => by rw [← h.inv c hc, e, h.σs], fun e => by rw [e, h.σs]⟩

theorem Conj.half (h : Conj σ g f s B W) : Conj σ g f s B (halfW f s W) where
  lt := h.lt
  inv := h.inv
  σf := h.σf
  σs := h.σs
  gf := h.gf
  gs := h.gs
  ne := h.ne
  conj c hc c' hc' x hx y hy := by
    have := h.conj c hc c' hc' x hx y hy
    simp only [halfW, h.σne hc', h.σns hc]
    split_ifs
    · rw [star_div₀, show star (2 : ℂ) = 2 by simp]
      linear_combination this / 2
    · exact this

/-- One site, written out. -/
theorem contr_one (h : NNSite f s B W) (hd : b.d = W.din) (hl : b.l = D) {E : Env ℂ} (hu : E.u = D) (hw : E.w = D) (hm : E.m = B) {j j' c : ℕ}
    (hj : j < b.r) (hj' : j' < b.r) (hc : c < B) : contrL E [b] [W] [b] j j' c =
      ∑ i ∈ range D, ∑ i' ∈ range D, ∑ a ∈ range B, ∑ x ∈ range b.d, ∑ y ∈ range b.d, E.v i i' a * b.v i j x * W.v a c x y * star (b.v i' j' y) := by
  have hF : addLayerR E b W b = .ok _ := if_pos ⟨hu.trans hl.symm, hm.trans h.l.symm, hd, hw.trans hl.symm, h.dd.trans hd.symm⟩
  rw [contrL_cons hF, contrL_nil _ hj hj' (by change c < W.r; rw [h.r]; exact hc)]
  dsimp only
  rw [hu, hw, hm]

/-- The symmetry is inherited. -/
theorem contr_herm (h : NNSite f s B W) (hC : Conj σ g f s B W) (hd : b.d = W.din) (hl : b.l = D) {E : Env ℂ} (hu : E.u = D) (hw : E.w = D) (hm : E.m = B)
    (hE : HermE σ g D B E.v) : HermE σ g b.r B fun j j' c => contrL E [b] [W] [b] j j' c := by
  intro j hj j' hj' c hc
  dsimp only
  rw [contr_one h hd hl hu hw hm hj hj' hc, contr_one h hd hl hu hw hm hj' hj (hC.lt c hc)]
  simp only [star_sum, mul_sum]
  rw [sum_comm]
  refine sum_congr rfl fun i hi => sum_congr rfl fun i' hi' => ?_
  rw [mem_range] at hi hi'
  refine sum_nbij' σ σ (fun a ha => mem_range.2 (hC.lt a (mem_range.1 ha))) (fun a ha => mem_range.2 (hC.lt a (mem_range.1 ha)))
    (fun a ha => hC.inv a (mem_range.1 ha)) (fun a ha => hC.inv a (mem_range.1 ha)) fun a ha => ?_
  rw [mem_range] at ha
  rw [sum_comm]
  refine sum_congr rfl fun x hx => sum_congr rfl fun y hy => ?_
  rw [mem_range] at hx hy
  have e1 := hE i' hi' i hi a ha
  have e2 := hC.conj a ha c hc y (hd ▸ hy) x (hd ▸ hx)
  rw [star_mul', star_mul', star_mul', star_star, e1]
  linear_combination E.v i i' (σ a) * star (b.v i' j y) * b.v i j' x * e2

theorem open_herm (hC : Conj σ g f s B W) : HermE σ g D B (openEnv D s B).v := by
  intro i _ i' _ c hc
  simp only [openEnv, delta, hC.σns hc]
  by_cases h1 : c = s
  · subst h1
    by_cases h2 : i = i'
    · subst h2; simp [hC.gs]
    · simp [h2, Ne.symm h2]
  · simp [h1]

theorem last_herm (h : NNSite f s B W) (hC : Conj σ g f s B W) (hd : b.d = W.din) : HermE σ g b.r B (lastEnv D s B b W).v :=
  contr_herm (D := b.l) (E := openEnv b.l s B) h hC hd rfl rfl rfl rfl (open_herm hC)

theorem two_herm (h : NNSite f s B W) (hC : Conj σ g f s B W) (hd : b.d = W.din) (hl : b.l = D) (hr : b.r = D) :
    ∀ i < D, ∀ i' < D, star (twoSites D f s B b W i i') = twoSites D f s B b W i' i := by
  intro i hi i' hi'
  have h1 := last_herm (D := D) (half_site h) hC.half hd
  rw [hr] at h1
  have h2 := contr_herm (E := lastEnv D s B b (halfW f s W)) (half_site h) hC.half hd hl rfl rfl rfl h1
  rw [hr] at h2
  have := h2 i hi i' hi' f h.fB
  rw [hC.gf, one_mul, hC.σf] at this
  exact this

theorem onsite_herm (h : NNSite f s B W) (hC : Conj σ g f s B W) (hd : b.d = W.din) (hr : b.r = D) :
    ∀ i < D, ∀ i' < D, star (onsite D f s B b W i i') = onsite D f s B b W i' i := by
  intro i hi i' hi'
  have h1 := last_herm (D := D) h hC hd
  rw [hr] at h1
  have := h1 i hi i' hi' f h.fB
  rw [hC.gf, one_mul, hC.σf] at this
  exact this

theorem star_sumCfg (ds : List ℕ) (F : List ℕ → ℂ) : star (sumCfg ds F) = sumCfg ds fun s => star (F s) := by
  induction ds generalizing F with
  | nil => rfl
  | cons d ds ih => simp only [sumCfg, star_sum, ih]

theorem kern_star (ts : List (Ten ℂ)) (i i' j j' : ℕ) : star (kern ts i i' j j') = kern ts i' i j' j := by
  unfold kern
  rw [star_sumCfg]
  simp only [star_mul', star_star]
  congr 1
  funext s
  ring

theorem act_star (dir : Dir) (ts : List (Ten ℂ)) (k : ℕ → ℕ → ℂ) (i j : ℕ) : star (act dir ts D k i j) = act dir ts D (fun a c => star (k c a)) j i := by
  cases dir
  · simp only [act, star_sum, star_mul', kern_star]
    rw [sum_comm]
  · simp only [act, star_sum, star_mul', kern_star]
    rw [sum_comm]

theorem pair_star (k q : ℕ → ℕ → ℂ) (hq : ∀ i < D, ∀ j < D, star (q i j) = q j i) : star (pairing D k q) = pairing D (fun a c => star (k c a)) q := by
  simp only [pairing, star_sum, star_mul']
  rw [sum_comm]
  refine sum_congr rfl fun i hi => sum_congr rfl fun j hj => ?_
  rw [hq j (mem_range.1 hj) i (mem_range.1 hi)]

/-- The system has one solution. -/
theorem sys_unique {p q d : ℕ → ℕ → ℂ} (hl : b.l = D) (hr : b.r = D) (ho : LeftOrth b) (hp : ∑ i ∈ range D, p i i = 1) (hq : ∑ i ∈ range D, q i i = 1)
    (hfix : ∀ i < D, ∀ j < D, act .left [b] D p i j = p i j)
    (huniq : ∀ g : ℕ → ℕ → ℂ, (∀ i < D, ∀ j < D, act .left [b] D g i j = g i j) → ∃ c, ∀ i < D, ∀ j < D, g i j = c * p i j)
    (hd : ∀ i < D, ∀ j < D, d i j - act .right [b] D d i j + pairing D d q * delta ℂ i j = 0) : ∀ i < D, ∀ j < D, d i j = 0 := by
  have hδ : ∀ i < D, ∀ j < D, act .right [b] D (delta ℂ) i j = delta ℂ i j := act_orth (one_linked' hl hr) (by simpa using ho)
  have h0 : pairing D d q = 0 := by
    have h1 := pair_congr (g := p) hd
    rw [pair_add, pair_sub, pair_smul, pair_fix hfix, pair_delta hp, show pairing D (fun _ _ => (0 : ℂ)) p = 0 by simp [pairing]] at h1
    linear_combination h1
  have hinj : Function.Injective (sysMap .left [b] D p (delta ℂ)) := sysMap_inj (dir := .left) hδ (by rw [pair_comm]; exact pair_delta hp) huniq
  have hsurj := LinearMap.injective_iff_surjective.1 hinj
  have key : ∀ y, pairing D d y = pairing D d p * pairing D (delta ℂ) y := by
    intro y
    obtain ⟨M, hM⟩ := hsurj fun i j => y i j
    have hM' : ∀ i < D, ∀ j < D, y i j = ext D M i j - act .left [b] D (ext D M) i j + pairing D (ext D M) (delta ℂ) * p i j := fun i hi j hj =>
      (congrFun (congrFun hM ⟨i, hi⟩) ⟨j, hj⟩).symm
    have e1 : ∀ k : ℕ → ℕ → ℂ, (∀ i < D, ∀ j < D, act .right [b] D k i j = k i j) → pairing D k y = pairing D (ext D M) (delta ℂ) * pairing D k p := by
      intro k hk
      rw [pair_comm, pair_congr hM', pair_add, pair_sub, pair_smul, pair_adj, opp, pair_congr_right hk, pair_comm D p k]
      ring
    rw [e1 d fun i hi j hj => by have := hd i hi j hj; rw [h0] at this; linear_combination -this, e1 _ hδ, pair_delta hp]
    ring
  have hdp : pairing D d p = 0 := by
    have := key q
    rw [h0, pair_delta hq] at this
    linear_combination -this
  intro i hi j hj
  have := key fun i' j' => delta ℂ i i' * delta ℂ j j'
  rw [hdp, zero_mul] at this
  rw [← this]
  unfold pairing
  rw [sum_eq_single i, sum_eq_single j]
  · simp
  · intro j' _ h; simp [delta, h.symm]
  · intro h; exact absurd (mem_range.2 hj) h
  · intro i' _ h; simp [delta, h.symm]
  · intro h; exact absurd (mem_range.2 hi) h

/-- The energy is real. -/
theorem Blk.real (h : NNSite f s B W) (hC : Conj σ g f s B W) (hd : b.d = W.din) (hl : b.l = D) (hr : b.r = D) {p q k : ℕ → ℕ → ℂ} {E : Env ℂ} {e : ℂ}
    (hb : Blk D f s B b W p q E e k) (hp : ∀ i < D, ∀ j < D, star (p i j) = p j i) : star e = e := by
  rw [hb.en, pair_star _ _ hp]
  exact pair_congr fun i hi j hj => two_herm h hC hd hl hr j hj i hi

/-- The block is Hermitian. -/
theorem Blk.herm (h : NNSite f s B W) (hC : Conj σ g f s B W) (hd : b.d = W.din) (hl : b.l = D) (hr : b.r = D) (ho : LeftOrth b) {p q k : ℕ → ℕ → ℂ} {E : Env ℂ} {e : ℂ}
    (hb : Blk D f s B b W p q E e k) (hp : ∀ i < D, ∀ j < D, star (p i j) = p j i) (hq : ∀ i < D, ∀ j < D, star (q i j) = q j i)
    (hp1 : ∑ i ∈ range D, p i i = 1) (hq1 : ∑ i ∈ range D, q i i = 1) (hfix : ∀ i < D, ∀ j < D, act .left [b] D p i j = p i j)
    (huniq : ∀ g : ℕ → ℕ → ℂ, (∀ i < D, ∀ j < D, act .left [b] D g i j = g i j) → ∃ c, ∀ i < D, ∀ j < D, g i j = c * p i j) : HermE σ g D B E.v := by
  have hre := hb.real h hC hd hl hr hp
  have hk : ∀ i < D, ∀ j < D, k i j = star (k j i) := by
    intro i hi j hj
    have := sys_unique (d := fun i j => k i j + -1 * star (k j i)) hl hr ho hp1 hq1 hfix huniq (fun i hi j hj => by
      have e1 := hb.sys i hi j hj
      have e2 := congrArg star (hb.sys j hj i hi)
      rw [star_add, star_sub, star_mul', star_sub, star_mul', act_star, pair_star _ _ hq, two_herm h hC hd hl hr j hj i hi, hre,
        show star (delta ℂ j i) = delta ℂ i j by unfold delta; by_cases h : i = j <;> simp [h, eq_comm]] at e2
      rw [act_add, act_smul, pair_add, pair_smul]
      linear_combination e1 - e2) i hi j hj
    linear_combination this
  intro i hi i' hi' c hc
  by_cases hcf : c = f
  · subst hcf
    rw [hC.gf, hC.σf, one_mul, hb.fin i hi i' hi', hb.fin i' hi' i hi, star_add, star_div₀, onsite_herm h hC hd hr i hi i' hi', ← hk i' hi' i hi,
      show star (2 : ℂ) = 2 by simp]
  · rw [hb.mid c hc hcf i hi i' hi', hb.mid (σ c) (hC.lt c hc) (fun e => hcf ((hC.σne hc).1 e)) i' hi' i hi]
    have := last_herm (D := D) h hC hd
    rw [hr] at this
    exact this i hi i' hi' c hc

/-- The effective Hamiltonian of a site is Hermitian. -/
theorem site_herm (h : NNSite f s B W) (hC : Conj σ g f s B W) {L R : Env ℂ} {l r : ℕ} (l1 : L.u = l) (l2 : L.w = l) (l3 : L.m = B) (r1 : R.u = r) (r2 : R.w = r) (r3 : R.m = B)
    (hL : HermE σ g l B L.v) (hR : HermE σ (fun c => (g c)⁻¹) r B R.v) : SiteHerm L W R l r W.din where
  Lu := l1
  Lw := l2
  Ru := r1
  Rw := r2
  Wi := rfl
  Wo := h.dd
  Wl := h.l.trans l3.symm
  Wr := h.r.trans r3.symm
  herm i hi i' hi' j hj j' hj' x hx y hy := by
    unfold siteEl
    rw [l3, r3]
    simp only [star_sum]
    refine sum_nbij' σ σ (fun a ha => mem_range.2 (hC.lt a (mem_range.1 ha))) (fun a ha => mem_range.2 (hC.lt a (mem_range.1 ha)))
      (fun a ha => hC.inv a (mem_range.1 ha)) (fun a ha => hC.inv a (mem_range.1 ha)) fun a ha => ?_
    refine sum_nbij' σ σ (fun a ha => mem_range.2 (hC.lt a (mem_range.1 ha))) (fun a ha => mem_range.2 (hC.lt a (mem_range.1 ha)))
      (fun a ha => hC.inv a (mem_range.1 ha)) (fun a ha => hC.inv a (mem_range.1 ha)) fun c hc => ?_
    rw [mem_range] at ha hc
    have e1 := hL i hi i' hi' a ha
    have e2 := hR j hj j' hj' c hc
    have e3 := hC.conj a ha c hc x hx y hy
    have n1 := hC.ne a ha
    have n2 := hC.ne c hc
    dsimp only at e2
    have e1' : L.v i i' a = star (g a) * star (L.v i' i (σ a)) := by rw [← star_mul', ← e1, star_star]
    have e2' : R.v j j' c = star (g c)⁻¹ * star (R.v j' j (σ c)) := by rw [← star_mul', ← e2, star_star]
    have e3' : W.v a c x y * star (g a) = star (g c) * star (W.v (σ a) (σ c) y x) := by
      have := congrArg star e3
      rwa [star_mul', star_mul', star_star] at this
    have n2' : star (g c) ≠ 0 := star_ne_zero.2 n2
    rw [star_mul', star_mul', e1', e2', star_inv₀]
    field_simp
    linear_combination star (L.v i' i (σ a)) * star (R.v j' j (σ c)) * e3'

/-- The effective Hamiltonian of a bond is Hermitian. -/
theorem bond_herm (hC : Conj σ g f s B W) {L R : Env ℂ} {l r : ℕ} (l1 : L.u = l) (l2 : L.w = l) (l3 : L.m = B) (r1 : R.u = r) (r2 : R.w = r) (r3 : R.m = B)
    (hL : HermE σ g l B L.v) (hR : HermE σ (fun c => (g c)⁻¹) r B R.v) : BondHerm L R l r where
  Lu := l1
  Lw := l2
  Ru := r1
  Rw := r2
  m := l3.trans r3.symm
  herm i hi i' hi' j hj j' hj' := by
    unfold bondMatEl
    rw [l3]
    simp only [star_sum]
    refine sum_nbij' σ σ (fun a ha => mem_range.2 (hC.lt a (mem_range.1 ha))) (fun a ha => mem_range.2 (hC.lt a (mem_range.1 ha)))
      (fun a ha => hC.inv a (mem_range.1 ha)) (fun a ha => hC.inv a (mem_range.1 ha)) fun c hc => ?_
    rw [mem_range] at hc
    have e1 := hL i hi i' hi' c hc
    have e2 := hR j hj j' hj' c hc
    have n2 := hC.ne c hc
    dsimp only at e2
    have e1' : L.v i i' c = star (g c) * star (L.v i' i (σ c)) := by rw [← star_mul', ← e1, star_star]
    have e2' : R.v j j' c = star (g c)⁻¹ * star (R.v j' j (σ c)) := by rw [← star_mul', ← e2, star_star]
    have n2' : star (g c) ≠ 0 := star_ne_zero.2 n2
    rw [star_mul', e1', e2', star_inv₀]
    field_simp

end
end
end PyTeN.Vumps
