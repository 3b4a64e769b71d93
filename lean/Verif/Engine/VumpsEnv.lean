import Verif.Engine.VumpsRun

/-! # Lemmas for `VUMPSengine`: the environments -/

namespace PyTeN.Vumps
open Finset Transfer Regauge Steady
noncomputable section

/-- What `__init__` stores for the operator `W`. -/
structure Built (D B : ℕ) (W : Mpo ℂ) (e : Eng) : Prop where
  eD : e.D = D
  eW : e.W = W
  eW0 : lastRowMpo (halfW 0 (B - 1) W) = .ok e.W0
  eW2 : firstColMpo (halfW 0 (B - 1) W) (halfW 0 (B - 1) W) = .ok e.W2

/-- The block of the infinite system, one description for both directions. -/
structure Blk (D f s B : ℕ) (b : Ten ℂ) (W : Mpo ℂ) (p q : ℕ → ℕ → ℂ) (E : Env ℂ) (e : ℂ) (k : ℕ → ℕ → ℂ) : Prop where
  u : E.u = D
  w : E.w = D
  m : E.m = B
  mid : ∀ c < B, c ≠ f → ∀ i < D, ∀ i' < D, E.v i i' c = (lastEnv D s B b W).v i i' c
  en : e = pairing D (twoSites D f s B b W) p
  sys : ∀ i < D, ∀ j < D, k i j - act .right [b] D k i j + pairing D k q * delta ℂ i j = twoSites D f s B b W i j - e * delta ℂ i j
  fin : ∀ i < D, ∀ i' < D, E.v i i' f = onsite D f s B b W i i' / 2 + k i i'

theorem rW_half (f s : ℕ) (W : Mpo ℂ) : rW (halfW f s W) = halfW s f (rW W) := by
  unfold rW halfW
  simp only [and_comm]

/-- A layer with the first column of an operator. -/
theorem col_layer {F E : Env ℂ} {A : Ten ℂ} {V w : Mpo ℂ} (hw : firstColMpo V V = .ok w) (h : addLayerR F A w A = .ok E) :
    E.u = A.r ∧ E.w = A.r ∧ E.m = 1 ∧ ∀ j < A.r, ∀ j' < A.r, E.v j j' 0 = contrL F [A] [V] [A] j j' 0 := by
  unfold firstColMpo at hw
  split_ifs at hw with h1 h2
  have hw := Except.ok.inj hw
  subst hw
  unfold addLayerR at h
  split_ifs at h with hc
  have h := Except.ok.inj h
  have hF : addLayerR F A V A = .ok _ := if_pos hc
  subst h
  refine ⟨rfl, rfl, rfl, fun j hj j' hj' => ?_⟩
  rw [contrL_cons hF, contrL_nil _ hj hj' (by exact Nat.pos_of_ne_zero h1)]

/-- A layer with the last row of an operator. -/
theorem row_layer {F E : Env ℂ} {A : Ten ℂ} {V w : Mpo ℂ} (hw : lastRowMpo V = .ok w) (h : addLayerL F A w A = .ok E) :
    E.u = A.l ∧ E.w = A.l ∧ E.m = 1 ∧ ∀ j < A.l, ∀ j' < A.l, E.v j j' 0 = contrR F [A] [V] [A] j j' (V.l - 1) := by
  unfold lastRowMpo at hw
  split_ifs at hw with h1
  have hw := Except.ok.inj hw
  subst hw
  unfold addLayerL at h
  split_ifs at h with hc
  have h := Except.ok.inj h
  subst h
  refine ⟨rfl, rfl, rfl, fun j hj j' hj' => ?_⟩
  rw [contrR_cons]
  dsimp only at hc ⊢
  rw [hc.1, hc.2.1, hc.2.2.2.1]
  refine sum_congr rfl fun i hi => sum_congr rfl fun i' hi' => sum_congr rfl fun c hc' => sum_congr rfl fun x _ => sum_congr rfl fun y _ => ?_
  rw [contrR_nil F (by rw [hc.1]; exact mem_range.1 hi) (by rw [hc.2.2.2.1]; exact mem_range.1 hi') (by rw [hc.2.1]; exact mem_range.1 hc')]

theorem addSlice_ok {E E' : Env ℂ} {b : ℕ} {K : Mat ℂ} (h : addSlice E b K = .ok E') :
    E' = ⟨E.u, E.w, E.m, fun i j c => if c = b then E.v i j c + K.v i j else E.v i j c⟩ := by
  unfold addSlice at h
  split_ifs at h
  exact (Except.ok.inj h).symm

section
variable {D B : ℕ} {X : Ext} {e : Eng} {A : Ten ℂ} {W : Mpo ℂ} {p q : ℕ → ℕ → ℂ} {lh r rh : Mat ℂ}

theorem envLeft_blk (hS : LgmresSpec X.solve) (hW : NNSite 0 (B - 1) B W) (hd : A.d = W.din) (hl : A.l = D) (hr : A.r = D) (he : Built D B W e)
    (hlh : IsM lh D q) (h1 : IsM r D p) (h2 : IsM rh D p) {lb : Env ℂ} {en : ℂ} (hrun : envLeft X e A lh r rh = .ok (lb, en)) :
    ∃ k, Blk D 0 (B - 1) B A W p q lb en k := by
  unfold envLeft at hrun
  rw [he.eD] at hrun
  simp only [andThen_ok] at hrun
  obtain ⟨L0, e1, E, e2, en', e3, h, e4, inh, e5, K, e6, lb', e7, e8⟩ := hrun
  cases e8
  obtain ⟨i1, i2, i3, i4⟩ := init_last (half_cell hW hd) hr he.eW0 (by rw [hl]; exact e1)
  obtain ⟨c1, c2, c3, c4⟩ := col_layer he.eW2 e2
  rw [hr] at c1 c2 c4
  have hE : IsM (slice E 0) D (twoSites D 0 (B - 1) B A W) := ⟨c1, c2, fun i hi j hj => by
    change E.v i j 0 = _
    rw [c4 i hi j hj]
    exact contrL_env_congr i1 i2 i3 rfl rfl rfl i4 _ _ _ _ _⟩
  rw [pairMat_spec hE h2] at e3
  rw [pairMat_spec hE h1] at e4
  cases e3; cases e4
  obtain ⟨P, P1, P2⟩ := minusEye_spec hE (pairing D (twoSites D 0 (B - 1) B A W) p)
  rw [P1] at e5
  cases e5
  obtain ⟨k, k1, k2⟩ := renorm_spec hS hl hr (dir := .right) (o := (eye D).v) (t := lh.v) (own := delta ℂ) (other := q)
    ⟨⟨_, rfl, rfl, rfl, rfl⟩, ⟨_, rfl, hlh.1, hlh.2.1, rfl⟩⟩ (fun i _ j _ => rfl) hlh.2.2 P2 e6
  have h7 := addSlice_ok e7
  subst h7
  refine ⟨k, i1, i2, i3, fun c hc hc0 i hi i' hi' => ?_, rfl, k2, fun i hi i' hi' => ?_⟩
  · dsimp only
    rw [if_neg hc0, i4 i hi i' hi' c hc, half_mid hW hc hc0]
  · dsimp only
    rw [if_pos rfl, i4 i hi i' hi' 0 hW.fB, k1.2.2 i hi i' hi', ← half_onsite hW hl]
    rfl

theorem envRight_blk (hS : LgmresSpec X.solve) (hW : NNSite 0 (B - 1) B W) (hd : A.d = W.din) (hl : A.l = D) (hr : A.r = D) (he : Built D B W e)
    (hrh : IsM rh D p) {l lh : Mat ℂ} (h1 : IsM l D q) (h2 : IsM lh D q) {rb : Env ℂ} {en : ℂ} (hrun : envRight X e A rh l lh = .ok (rb, en)) :
    ∃ k, Blk D (B - 1) 0 B (rT A) (rW W) q p rb en k := by
  unfold envRight at hrun
  rw [he.eD] at hrun
  simp only [andThen_ok] at hrun
  obtain ⟨R0, e1, E, e2, en', e3, h, e4, inh, e5, K, e6, rb', e7, e8⟩ := hrun
  cases e8
  have hne : [A] ≠ [] := by simp
  obtain ⟨i1, i2, i3, i4⟩ := init_first (half_cell hW hd) hl he.eW2 (by rw [hr]; exact e1)
  obtain ⟨c1, c2, c3, c4⟩ := row_layer he.eW0 e2
  rw [hl] at c1 c2 c4
  rw [rW_half] at i4
  have hE : IsM (slice E (E.m - 1)) D (twoSites D (B - 1) 0 B (rT A) (rW W)) := ⟨c1, c2, fun i hi j hj => by
    change E.v i j (E.m - 1) = _
    rw [c3, Nat.sub_self, c4 i hi j hj, show (halfW 0 (B - 1) W).l - 1 = B - 1 by rw [show (halfW 0 (B - 1) W).l = W.l from rfl, hW.l],
      contrR_mirror (half_cell hW hd) (one_linked' hl hr) i1 i2 i3 hi hj hW.sB]
    rw [show rTs [A] = [rT A] from rfl, show rWs [halfW 0 (B - 1) W] = [rW (halfW 0 (B - 1) W)] from rfl, rW_half]
    exact contrL_env_congr i1 i2 i3 rfl rfl rfl i4 _ _ _ _ _⟩
  rw [pairMat_spec hE h2] at e3
  rw [pairMat_spec h1 hE, pair_comm] at e4
  cases e3; cases e4
  obtain ⟨P, P1, P2⟩ := minusEye_spec hE (pairing D (twoSites D (B - 1) 0 B (rT A) (rW W)) q)
  rw [P1] at e5
  cases e5
  obtain ⟨k, k1, k2⟩ := renorm_spec hS hl hr (dir := .left) (o := (eye D).v) (t := rh.v) (own := delta ℂ) (other := p)
    ⟨⟨_, rfl, rfl, rfl, rfl⟩, ⟨_, rfl, hrh.1, hrh.2.1, rfl⟩⟩ (fun i _ j _ => rfl) hrh.2.2 P2 e6
  have h7 := addSlice_ok e7
  subst h7
  refine ⟨k, i1, i2, i3, fun c hc hc0 i hi i' hi' => ?_, rfl, fun i hi j hj => ?_, fun i hi i' hi' => ?_⟩
  · dsimp only
    rw [if_neg (by rw [i3]; exact hc0), i4 i hi i' hi' c hc, half_mid (rW_site hW) hc hc0]
  · rw [← k2 i hi j hj, act_mirror hne (one_linked' hl hr) _ hi hj]
    rfl
  · dsimp only
    rw [i3, if_pos rfl, i4 i hi i' hi' _ hW.sB, k1.2.2 i hi i' hi', ← half_onsite (rW_site hW) (show (rT A).l = D from hr)]
    rfl

/-- The left environment is computed. -/
theorem envLeft_total (hS : LgmresSpec X.solve) (hC : LgmresConverges X.solve) (hW : NNSite 0 (B - 1) B W) (hd : A.d = W.din) (hl : A.l = D) (hr : A.r = D)
    (ho : LeftOrth A) (he : Built D B W e) (hlh : IsM lh D q) (h1 : IsM r D p) (h2 : IsM rh D p) (hp : ∑ i ∈ range D, p i i = 1) (hq : ∑ i ∈ range D, q i i = 1)
    (hfix : ∀ i < D, ∀ j < D, act .left [A] D p i j = p i j)
    (huniq : ∀ g : ℕ → ℕ → ℂ, (∀ i < D, ∀ j < D, act .left [A] D g i j = g i j) → ∃ c, ∀ i < D, ∀ j < D, g i j = c * p i j) :
    ∃ lb en, envLeft X e A lh r rh = .ok (lb, en) := by
  have w0 := he.eW0
  have w2 := he.eW2
  unfold lastRowMpo at w0
  split_ifs at w0 with w01
  have w0 := Except.ok.inj w0
  unfold firstColMpo at w2
  split_ifs at w2 with w21 w22
  have w2 := Except.ok.inj w2
  obtain ⟨L0, e1⟩ : ∃ L0, initializeLayerR A (eye D) A e.W0 = .ok L0 := by
    unfold initializeLayerR
    rw [← w0, if_pos ⟨hl.symm, hl.symm, hd, hd.trans hW.dd.symm, rfl⟩]; exact ⟨_, rfl⟩
  obtain ⟨i1, i2, i3, i4⟩ := init_last (half_cell hW hd) hr he.eW0 (by rw [hl]; exact e1)
  obtain ⟨E, e2⟩ : ∃ E, addLayerR L0 A e.W2 A = .ok E := by
    unfold addLayerR
    rw [← w2, if_pos ⟨i1.trans hl.symm, i3.trans hW.l.symm, hd, i2.trans hl.symm, hW.dd.trans hd.symm⟩]; exact ⟨_, rfl⟩
  obtain ⟨c1, c2, c3, c4⟩ := col_layer he.eW2 e2
  rw [hr] at c1 c2 c4
  have hE : IsM (slice E 0) D (twoSites D 0 (B - 1) B A W) := ⟨c1, c2, fun i hi j hj => by
    change E.v i j 0 = _
    rw [c4 i hi j hj]
    exact contrL_env_congr i1 i2 i3 rfl rfl rfl i4 _ _ _ _ _⟩
  obtain ⟨P, P1, P2⟩ := minusEye_spec hE (pairing D (twoSites D 0 (B - 1) B A W) p)
  obtain ⟨K, hK⟩ := renorm_total (rnd := X.rnd) (L := eye D) hC hS hl hr (dir := .right) (o := (eye D).v) (t := lh.v) (own := delta ℂ) (other := q)
    ⟨⟨_, rfl, rfl, rfl, rfl⟩, ⟨_, rfl, hlh.1, hlh.2.1, rfl⟩⟩ (fun i _ j _ => rfl) hlh.2.2 P2
    (act_orth (one_linked' hl hr) (by simpa using ho)) (pair_delta hp) (pair_delta hq) hfix huniq
    (by rw [pair_sub, pair_smul, pair_delta hp]; ring)
  obtain ⟨k, k1, -⟩ := renorm_spec hS hl hr (dir := .right) (o := (eye D).v) (t := lh.v) (own := delta ℂ) (other := q)
    ⟨⟨_, rfl, rfl, rfl, rfl⟩, ⟨_, rfl, hlh.1, hlh.2.1, rfl⟩⟩ (fun i _ j _ => rfl) hlh.2.2 P2 hK
  unfold envLeft
  simp only [he.eD, andThen, e1, e2, pairMat_spec hE h2, pairMat_spec hE h1, P1, hK, addSlice]
  rw [if_pos ⟨k1.1.trans i1.symm, k1.2.1.trans i2.symm⟩]
  exact ⟨_, _, rfl⟩

/-- The right environment is computed. -/
theorem envRight_total (hS : LgmresSpec X.solve) (hC : LgmresConverges X.solve) (hW : NNSite 0 (B - 1) B W) (hd : A.d = W.din) (hl : A.l = D) (hr : A.r = D)
    (ho : RightOrth A) (he : Built D B W e) (hrh : IsM rh D p) {l lh : Mat ℂ} (h1 : IsM l D q) (h2 : IsM lh D q) (hp : ∑ i ∈ range D, p i i = 1)
    (hq : ∑ i ∈ range D, q i i = 1) (hfix : ∀ i < D, ∀ j < D, act .right [A] D q i j = q i j)
    (huniq : ∀ g : ℕ → ℕ → ℂ, (∀ i < D, ∀ j < D, act .right [A] D g i j = g i j) → ∃ c, ∀ i < D, ∀ j < D, g i j = c * q i j) :
    ∃ rb en, envRight X e A rh l lh = .ok (rb, en) := by
  have hne : [A] ≠ [] := by simp
  have w0 := he.eW0
  have w2 := he.eW2
  unfold lastRowMpo at w0
  split_ifs at w0 with w01
  have w0 := Except.ok.inj w0
  unfold firstColMpo at w2
  split_ifs at w2 with w21 w22
  have w2 := Except.ok.inj w2
  obtain ⟨R0, e1⟩ : ∃ R0, initializeLayerL A (eye D) A e.W2 = .ok R0 := by
    unfold initializeLayerL
    rw [← w2, if_pos ⟨hr.symm, hr.symm, hd, hd.trans hW.dd.symm, rfl⟩]; exact ⟨_, rfl⟩
  obtain ⟨i1, i2, i3, i4⟩ := init_first (half_cell hW hd) hl he.eW2 (by rw [hr]; exact e1)
  obtain ⟨E, e2⟩ : ∃ E, addLayerL R0 A e.W0 A = .ok E := by
    unfold addLayerL
    rw [← w0, if_pos ⟨i1.trans hr.symm, i3.trans hW.r.symm, hd, i2.trans hr.symm, hW.dd.trans hd.symm⟩]; exact ⟨_, rfl⟩
  obtain ⟨c1, c2, c3, c4⟩ := row_layer he.eW0 e2
  rw [hl] at c1 c2
  have hE : IsM (slice E (E.m - 1)) D (slice E (E.m - 1)).v := ⟨c1, c2, fun i hi j hj => rfl⟩
  obtain ⟨P, P1, P2⟩ := minusEye_spec hE (pairing D (slice E (E.m - 1)).v q)
  obtain ⟨K, hK⟩ := renorm_total (rnd := X.rnd) hC hS hl hr (dir := .left) (o := (eye D).v) (t := rh.v) (own := delta ℂ) (other := p)
    ⟨⟨_, rfl, rfl, rfl, rfl⟩, ⟨_, rfl, hrh.1, hrh.2.1, rfl⟩⟩ (fun i _ j _ => rfl) hrh.2.2 P2
    (fun i hi j hj => by
      rw [act_mirror hne (one_linked' hl hr) _ hi hj]
      exact act_orth (rT_linked (one_linked' hl hr)) (rT_orths (by simpa using ho)) i hi j hj) (pair_delta hq) (pair_delta hp) hfix huniq
    (by rw [pair_sub, pair_smul, pair_delta hq]; ring)
  obtain ⟨k, k1, -⟩ := renorm_spec hS hl hr (dir := .left) (o := (eye D).v) (t := rh.v) (own := delta ℂ) (other := p)
    ⟨⟨_, rfl, rfl, rfl, rfl⟩, ⟨_, rfl, hrh.1, hrh.2.1, rfl⟩⟩ (fun i _ j _ => rfl) hrh.2.2 P2 hK
  unfold envRight
  simp only [he.eD, andThen, e1, e2, pairMat_spec hE h2, pairMat_spec h1 hE, pair_comm D q, P1, hK, addSlice]
  rw [if_pos ⟨k1.1.trans i1.symm, k1.2.1.trans i2.symm⟩]
  exact ⟨_, _, rfl⟩

end

end
end PyTeN.Vumps
