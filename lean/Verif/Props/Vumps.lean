import Verif.Engine.VumpsHerm
import Verif.Engine.VumpsMatch
import Verif.Props.DmrgEnergy

/-! # Property C98: `VUMPSengine` -/

namespace PyTeN.Vumps
open Finset Transfer Regauge Steady
noncomputable section

/-! ## Specification -/

/-- Spec: `L` is the left half of the infinite system of tensors `A`, with the energies counted up to an additive constant.  It has the
identity for terms that have not begun.  A further site adds the energy `e` of a site, which is the energy of the terms within `n+1` sites
minus that of `n` sites, `r` being the density matrix to their right.  The constant is such that the energy, without half of the last
on-site term, vanishes for the density matrix `q`. -/
structure InfL (D B : ℕ) (A : Ten ℂ) (W : Mpo ℂ) (r q : ℕ → ℕ → ℂ) (L : Env ℂ) (e : ℂ) : Prop where
  u : L.u = D
  w : L.w = D
  m : L.m = B
  start : ∀ i < D, ∀ j < D, L.v i j (B - 1) = delta ℂ i j
  fixed : ∃ L', addLayerR L A W A = .ok L' ∧ L'.u = D ∧ L'.w = D ∧ L'.m = B ∧
    ∀ j < D, ∀ j' < D, ∀ c < B, L'.v j j' c = L.v j j' c + if c = 0 then e * delta ℂ j j' else 0
  energy : ∀ n ≥ 1, e = energyL D B [A] [W] r (n + 1) - energyL D B [A] [W] r n
  const : ∑ i ∈ range D, ∑ j ∈ range D, (L.v i j 0 - termL A W i j / 2) * q i j = 0

/-- Spec: the right half, mirror image of `InfL`. -/
structure InfR (D B : ℕ) (A : Ten ℂ) (W : Mpo ℂ) (l q : ℕ → ℕ → ℂ) (R : Env ℂ) (e : ℂ) : Prop where
  u : R.u = D
  w : R.w = D
  m : R.m = B
  start : ∀ i < D, ∀ j < D, R.v i j 0 = delta ℂ i j
  fixed : ∃ R', addLayerL R A W A = .ok R' ∧ R'.u = D ∧ R'.w = D ∧ R'.m = B ∧
    ∀ i < D, ∀ i' < D, ∀ c < B, R'.v i i' c = R.v i i' c + if c = B - 1 then e * delta ℂ i i' else 0
  energy : ∀ n ≥ 1, e = energyR D B [A] [W] l (n + 1) - energyR D B [A] [W] l n
  const : ∑ i ∈ range D, ∑ j ∈ range D, (R.v i j (B - 1) - termR A W i j / 2) * q i j = 0

section
variable {D B : ℕ} {A : Ten ℂ} {W : Mpo ℂ} {p q k : ℕ → ℕ → ℂ} {E : Env ℂ} {en : ℂ}

theorem blk_left (hW : NNSite 0 (B - 1) B W) (hd : A.d = W.din) (hl : A.l = D) (hr : A.r = D) (ho : LeftOrth A)
    (hfix : ∀ i < D, ∀ j < D, act .left [A] D p i j = p i j) (htr : ∑ i ∈ range D, p i i = 1) (hb : Blk D 0 (B - 1) B A W p q E en k) :
    InfL D B A W p q E en := by
  obtain ⟨h1, h2⟩ := block_fixed hW hd hl hr ho hfix (pair_delta htr) hb.en hb.sys hb.u hb.w hb.m hb.mid hb.fin
  refine ⟨hb.u, hb.w, hb.m, fun i hi j hj => ?_, ?_, fun n hn => ?_, ?_⟩
  · rw [hb.mid _ hW.sB hW.ne.symm i hi j hj]
    exact last_start (one_cell hW hd) hr ho hW.sB i hi j hj
  · have hF : addLayerR E A W A = .ok _ :=
      if_pos ⟨hb.u.trans hl.symm, hb.m.trans hW.l.symm, hd, hb.w.trans hl.symm, hW.dd.trans hd.symm⟩
    refine ⟨_, hF, hr, hr, hW.r, fun j hj j' hj' c hc => ?_⟩
    rw [← h2 j hj j' hj' c hc, contrL_cons hF, contrL_nil _ (by exact hr.symm ▸ hj) (by exact hr.symm ▸ hj') (by exact hW.r.symm ▸ hc)]
  · rw [hb.en, twoSites_energy hW hd hl hr ho hfix hn]
    rfl
  · rw [← h1]
    unfold pairing
    refine sum_congr rfl fun i hi => sum_congr rfl fun j hj => ?_
    have hi := mem_range.1 hi
    have hj := mem_range.1 hj
    rw [hb.fin i hi j hj, onsite_eq hW hr hi hj, termL, hW.l]
    ring

theorem blk_right (hW : NNSite 0 (B - 1) B W) (hd : A.d = W.din) (hl : A.l = D) (hr : A.r = D) (ho : RightOrth A)
    (hfix : ∀ i < D, ∀ j < D, act .right [A] D q i j = q i j) (htr : ∑ i ∈ range D, q i i = 1) (hb : Blk D (B - 1) 0 B (rT A) (rW W) q p E en k) :
    InfR D B A W q p E en := by
  have hne : [A] ≠ [] := by simp
  have hlk := one_linked' hl hr
  have hc := one_cell (f := 0) (s := B - 1) hW hd
  have hfix' : ∀ i < D, ∀ j < D, act .left [rT A] D q i j = q i j := fun i hi j hj => (act_mirror' hne hlk q hi hj).trans (hfix i hi j hj)
  obtain ⟨h1, h2⟩ := block_fixed (b := rT A) (rW_site hW) hd hr hl (rT_orth ho) hfix' (pair_delta htr) hb.en hb.sys hb.u hb.w hb.m hb.mid hb.fin
  refine ⟨hb.u, hb.w, hb.m, fun i hi j hj => ?_, ?_, fun n hn => ?_, ?_⟩
  · rw [hb.mid _ hW.fB hW.ne i hi j hj]
    exact last_start (b := rT A) (one_cell (rW_site hW) hd) hl (rT_orth ho) hW.fB i hi j hj
  · have hF : addLayerL E A W A = .ok _ :=
      if_pos ⟨hb.u.trans hr.symm, hb.m.trans hW.r.symm, hd, hb.w.trans hr.symm, hW.dd.trans hd.symm⟩
    refine ⟨_, hF, hl, hl, hW.l, fun j hj j' hj' c hcB => ?_⟩
    rw [← h2 j hj j' hj' c hcB]
    refine Eq.trans ?_ (contrR_mirror hc hlk hb.u hb.w hb.m hj hj' hcB)
    rw [contrR_cons]
    dsimp only
    rw [hb.u, hb.w, hb.m, hr, hW.r]
    refine sum_congr rfl fun i hi => sum_congr rfl fun i' hi' => sum_congr rfl fun c hc' => sum_congr rfl fun x _ => sum_congr rfl fun y _ => ?_
    rw [contrR_nil E (by rw [hb.u]; exact mem_range.1 hi) (by rw [hb.w]; exact mem_range.1 hi') (by rw [hb.m]; exact mem_range.1 hc')]
  · rw [hb.en, twoSites_energy (b := rT A) (rW_site hW) hd hr hl (rT_orth ho) hfix' hn]
    have hen : ∀ n, energyR D B [A] [W] q n = cellEnergy D (B - 1) 0 B [rT A] [rW W] q n := fun n => by
      unfold energyR cellEnergy pairing
      change _ = ∑ i ∈ range D, ∑ i' ∈ range D, contrL (openEnv D 0 B) (cells n (rTs [A])) (cells n (rWs [W])) (cells n (rTs [A])) i i' (B - 1) * q i i'
      rw [← rTs_cells, ← rWs_cells]
      refine sum_congr rfl fun i hi => sum_congr rfl fun i' hi' => ?_
      rw [contrR_mirror (cells_nn hc n) (cells_linked hlk n) rfl rfl rfl (mem_range.1 hi) (mem_range.1 hi') hW.sB]
    rw [hen, hen]
  · rw [← h1]
    unfold pairing
    refine sum_congr rfl fun i hi => sum_congr rfl fun j hj => ?_
    have hi := mem_range.1 hi
    have hj := mem_range.1 hj
    rw [hb.fin i hi j hj, onsite_eq (rW_site hW) (show (rT A).r = D from hl) hi hj, termR, hW.l]
    simp only [rT, rW]
    ring

end

/-! ## One step -/

/-- Spec: the state before a step.  The tensors are isometric, and the transfer operators have simple leading eigenvalues with the
density matrices `p` and `q`. -/
structure Ready (D B : ℕ) (pinv : ℝ) (W : Mpo ℂ) (e : Eng) (s : St) (p q : ℕ → ℕ → ℂ) : Prop where
  site : NNSite 0 (B - 1) B W
  built : Built D B W e
  Al : s.A.l = D
  Ar : s.A.r = D
  Ad : s.A.d = W.din
  Bl : s.B.l = D
  Br : s.B.r = D
  Bd : s.B.d = W.din
  left : LeftOrth s.A
  right : RightOrth s.B
  normL : Normal .left pinv D [s.A] 1 p
  normR : Normal .right pinv D [s.B] 1 q

section
variable {D B : ℕ} {pinv : ℝ} {W : Mpo ℂ} {e : Eng} {s : St} {p q : ℕ → ℕ → ℂ} {X : Ext} {o : Opts} {u : Out}

/-- The parts of a step. -/
theorem step_parts (h : step X o e s = .ok u) : ∃ η₁ η₂ vr vl l r en', tmEigs X.eigs X.fuel .left o.numeig s.A = .ok (η₁, vr) ∧
    tmEigs X.eigs X.fuel .right o.numeig s.B = .ok (η₂, vl) ∧ unitTrace vl e.D = .ok l ∧ unitTrace vr e.D = .ok r ∧
    envLeft X e s.A (hermPart l) r (hermPart r) = .ok (u.lb, u.en) ∧ envRight X e s.B (hermPart r) l (hermPart l) = .ok (u.rb, en') ∧
    gradNorm u.lb e.W u.rb s = .ok u.grad ∧ solveBoth X o u.lb e.W u.rb s = .ok ((u.e1, u.st.mps), u.e2, u.st.mat) ∧
    (if o.svd then matchSvd X u.st.mps u.st.mat else matchPolar X u.st.mps u.st.mat) = .ok (u.st.A, u.st.B) ∧
    u.leftn = leftDev s.A ∧ u.rightn = rightDev s.B := by
  unfold step at h
  obtain ⟨⟨η₁, vr⟩, h1, h⟩ := andThen_ok.1 h
  obtain ⟨⟨η₂, vl⟩, h2, h⟩ := andThen_ok.1 h
  obtain ⟨l, h3, h⟩ := andThen_ok.1 h
  obtain ⟨r, h4, h⟩ := andThen_ok.1 h
  obtain ⟨⟨lb, en⟩, h5, h⟩ := andThen_ok.1 h
  obtain ⟨⟨rb, en'⟩, h6, h⟩ := andThen_ok.1 h
  obtain ⟨g, h7, h⟩ := andThen_ok.1 h
  obtain ⟨⟨⟨e1, T⟩, e2, C⟩, h8, h⟩ := andThen_ok.1 h
  obtain ⟨⟨A, B⟩, h9, h⟩ := andThen_ok.1 h
  cases h
  exact ⟨η₁, η₂, vr, vl, l, r, en', h1, h2, h3, h4, h5, h6, h7, h8, h9, rfl, rfl⟩

/-- The environments of a step. -/
theorem step_blk (hE : ∀ i, EigsLR (X.eigs i)) (hS : LgmresSpec X.solve) (hs : Ready D B pinv W e s p q) (h : step X o e s = .ok u) :
    ∃ k k' en', Blk D 0 (B - 1) B s.A W p q u.lb u.en k ∧ Blk D (B - 1) 0 B (rT s.B) (rW W) q p u.rb en' k' := by
  obtain ⟨η₁, η₂, vr, vl, l, r, en', h1, h2, h3, h4, h5, h6, -⟩ := step_parts h
  obtain ⟨-, c, f, c0, f1, f2⟩ := tm_lead hE hs.Al hs.Ar hs.normL h1
  obtain ⟨-, c', f', c0', f1', f2'⟩ := tm_lead hE hs.Bl hs.Br hs.normR h2
  obtain ⟨r', hr', hr⟩ := unitTrace_spec hs.normL.dens f1 c0 f2
  obtain ⟨l', hl', hl⟩ := unitTrace_spec hs.normR.dens f1' c0' f2'
  rw [hs.built.eD] at h3 h4
  rw [h3] at hl'; cases hl'
  rw [h4] at hr'; cases hr'
  obtain ⟨k, hk⟩ := envLeft_blk hS hs.site hs.Ad hs.Al hs.Ar hs.built (hermPart_spec hs.normR.dens hl) hr (hermPart_spec hs.normL.dens hr) h5
  obtain ⟨k', hk'⟩ := envRight_blk hS hs.site hs.Bd hs.Bl hs.Br hs.built (hermPart_spec hs.normL.dens hr) hl (hermPart_spec hs.normR.dens hl) h6
  exact ⟨k, k', en', hk, hk'⟩

/-- **C98 (environments).**  With isometric tensors of simple leading eigenvalues the environments of a step are the two halves of the
infinite system, and the number reported is the energy of a site. -/
theorem C98_environments (hE : ∀ i, EigsLR (X.eigs i)) (hS : LgmresSpec X.solve) (hs : Ready D B pinv W e s p q) (h : step X o e s = .ok u) :
    InfL D B s.A W p q u.lb u.en ∧ ∃ en', InfR D B s.B W q p u.rb en' := by
  obtain ⟨k, k', en', h1, h2⟩ := step_blk hE hS hs h
  exact ⟨blk_left hs.site hs.Ad hs.Al hs.Ar hs.left (normal_fix hs.normL) hs.normL.dens.tr h1,
    en', blk_right hs.site hs.Bd hs.Bl hs.Br hs.right (normal_fix hs.normR) hs.normR.dens.tr h2⟩

/-- The environments of a Hermitian Hamiltonian. -/
theorem env_herm {σ : ℕ → ℕ} {g : ℕ → ℂ} (hC : Conj σ g 0 (B - 1) B W) (hs : Ready D B pinv W e s p q) {lb rb : Env ℂ} {en en' : ℂ} {k k' : ℕ → ℕ → ℂ}
    (h1 : Blk D 0 (B - 1) B s.A W p q lb en k) (h2 : Blk D (B - 1) 0 B (rT s.B) (rW W) q p rb en' k') : star en = en ∧ SiteHerm lb W rb D D W.din ∧
      ∃ L1, addLayerR lb s.A W s.A = .ok L1 ∧ BondHerm L1 rb D D := by
  obtain ⟨-, -, -, -, ⟨L1, l1, l2, l3, l4, l5⟩, -, -⟩ := blk_left hs.site hs.Ad hs.Al hs.Ar hs.left (normal_fix hs.normL) hs.normL.dens.tr h1
  have hre := h1.real hs.site hC hs.Ad hs.Al hs.Ar hs.normL.dens.herm
  have hL := h1.herm hs.site hC hs.Ad hs.Al hs.Ar hs.left hs.normL.dens.herm hs.normR.dens.herm hs.normL.dens.tr hs.normR.dens.tr (normal_fix hs.normL) (normal_uniq hs.normL)
  have hlk := one_linked' hs.Bl hs.Br
  have hR := h2.herm (b := rT s.B) (rW_site hs.site) hC.mirror hs.Bd hs.Br hs.Bl (rT_orth hs.right) hs.normR.dens.herm hs.normL.dens.herm hs.normR.dens.tr hs.normL.dens.tr
    (fun i hi j hj => (act_mirror' (ts := [s.B]) (by simp) hlk q hi hj).trans (normal_fix hs.normR i hi j hj))
    (fun f hf => normal_uniq hs.normR f fun i hi j hj => (act_mirror' (ts := [s.B]) (by simp) hlk f hi hj).symm.trans (hf i hi j hj))
  have hL1 : HermE σ g D B L1.v := by
    intro i hi i' hi' b hb
    rw [l5 i hi i' hi' b hb, l5 i' hi' i hi _ (hC.lt b hb), star_add, hL i hi i' hi' b hb, mul_add]
    congr 1
    by_cases hb0 : b = 0
    · subst hb0
      rw [hC.σf, hC.gf, one_mul, if_pos rfl, if_pos rfl, star_mul', hre]
      unfold delta
      by_cases hii : i = i'
      · simp [hii]
      · rw [if_neg hii, if_neg (Ne.symm hii)]; simp
    · have : σ b ≠ 0 := fun h0 => hb0 (by rw [← hC.inv b hb, h0, hC.σf])
      rw [if_neg hb0, if_neg this, mul_zero, star_zero]
  exact ⟨hre, site_herm hs.site hC h1.u h1.w h1.m h2.u h2.w h2.m hL hR, L1, l1, bond_herm hC l2 l3 l4 h2.u h2.w h2.m hL1 hR⟩

theorem step_herm {σ : ℕ → ℕ} {g : ℕ → ℂ} (hC : Conj σ g 0 (B - 1) B W) (hE : ∀ i, EigsLR (X.eigs i)) (hS : LgmresSpec X.solve) (hs : Ready D B pinv W e s p q)
    (h : step X o e s = .ok u) : star u.en = u.en ∧ SiteHerm u.lb W u.rb D D W.din ∧
      ∃ L1, addLayerR u.lb s.A W s.A = .ok L1 ∧ BondHerm L1 u.rb D D := by
  obtain ⟨k, k', en', h1, h2⟩ := step_blk hE hS hs h
  exact env_herm hC hs h1 h2

end

/-- Spec: `T` is a normalised ground state of the effective Hamiltonian of a site, and `w` its energy. -/
structure GroundSite (L : Env ℂ) (W : Mpo ℂ) (R : Env ℂ) (l r d : ℕ) (T : Ten ℂ) (w : ℂ) : Prop where
  Tl : T.l = l
  Tr : T.r = r
  Td : T.d = d
  real : w.im = 0
  norm : T.nsq = 1
  eig : ∃ Y, contractionH L T W R = .ok Y ∧ Y.l = l ∧ Y.r = r ∧ Y.d = d ∧ ∀ i < l, ∀ j < r, ∀ s < d, Y.v i j s = w * T.v i j s
  least : ∀ Z : Ten ℂ, Z.l = l → Z.r = r → Z.d = d → w.re * Z.nsq ≤ (siteForm L W R Z Z).re

/-- Spec: `C` is a normalised ground state of the effective Hamiltonian of a bond, and `w` its energy. -/
structure GroundBond (L R : Env ℂ) (r c : ℕ) (C : Mat ℂ) (w : ℂ) : Prop where
  Cr : C.r = r
  Cc : C.c = c
  real : w.im = 0
  norm : C.nsq = 1
  eig : ∃ Y, bondH L R C = .ok Y ∧ Y.r = r ∧ Y.c = c ∧ ∀ i < r, ∀ j < c, Y.v i j = w * C.v i j
  least : ∀ Z : Mat ℂ, Z.r = r → Z.c = c → w.re * Z.nsq ≤ (bondForm L R Z Z).re

section
variable {arp : Sparse.Arpack} {L R : Env ℂ} {W : Mpo ℂ}

theorem ground_site {l r d : ℕ} (hf : SiteFits L W R l r d) {v : TVec l r d} {w : ℝ} (h1 : ‖v‖ = 1) (h2 : siteOp L W R l r d v = (w : ℂ) • v)
    (h3 : ∀ x : TVec l r d, w * ‖x‖ ^ 2 ≤ (inner ℂ x (siteOp L W R l r d x)).re) : GroundSite L W R l r d (TVec.ten v) w where
  Tl := rfl
  Tr := rfl
  Td := rfl
  real := Complex.ofReal_im w
  norm := by
    rw [← vec_norm]
    change ‖(TVec.ten v).vec l r d‖ ^ 2 = 1
    rw [ten_vec, h1, one_pow]
  eig := by
    obtain ⟨f1, f2, f3, f4, f5, f6, f7, f8⟩ := hf
    have hY : contractionH L (TVec.ten v) W R = .ok _ := if_pos ⟨f1, f7.symm, f5.symm, f3.symm, f8⟩
    refine ⟨_, hY, f2, f4, f6, fun i hi j hj s hs => ?_⟩
    rw [← haSite_eq ⟨f1, f2, f3, f4, f5, f6, f7, f8⟩] at h2
    unfold haSite at h2
    rw [hY] at h2
    have := congrArg (fun x : TVec l r d => x (⟨i, hi⟩, ⟨j, hj⟩, ⟨s, hs⟩)) h2
    refine this.trans ?_
    change (w : ℂ) * v _ = (w : ℂ) * (TVec.ten v).v i j s
    unfold TVec.ten
    dsimp only
    rw [dif_pos ⟨hi, hj, hs⟩]
  least := by
    intro Z e1 e2 e3
    subst e1 e2 e3
    rw [← vec_norm, ← siteOp_form L W R Z Z ⟨rfl, rfl, rfl⟩, Complex.ofReal_re]
    exact h3 _

theorem ground_bond {r c : ℕ} (hf : BondFits L R r c) {v : BVec r c} {w : ℝ} (h1 : ‖v‖ = 1) (h2 : bondOp L R r c v = (w : ℂ) • v)
    (h3 : ∀ x : BVec r c, w * ‖x‖ ^ 2 ≤ (inner ℂ x (bondOp L R r c x)).re) : GroundBond L R r c (BVec.mat v) w where
  Cr := rfl
  Cc := rfl
  real := Complex.ofReal_im w
  norm := by
    rw [← matvec_norm]
    change ‖(BVec.mat v).vec r c‖ ^ 2 = 1
    rw [mat_vec, h1, one_pow]
  eig := by
    obtain ⟨f1, f2, f3, f4, f5, f6⟩ := hf
    have hY : bondH L R (BVec.mat v) = .ok _ := if_pos ⟨f1, f3.symm, f5⟩
    refine ⟨_, hY, f2, f4, fun i hi j hj => ?_⟩
    rw [← haBond_eq ⟨f1, f2, f3, f4, f5, f6⟩] at h2
    unfold haBond at h2
    rw [hY] at h2
    have := congrArg (fun x : BVec r c => x (⟨i, hi⟩, ⟨j, hj⟩)) h2
    refine this.trans ?_
    change (w : ℂ) * v _ = (w : ℂ) * (BVec.mat v).v i j
    unfold BVec.mat
    dsimp only
    rw [dif_pos ⟨hi, hj⟩]
  least := by
    intro Z e1 e2
    subst e1 e2
    rw [← matvec_norm, ← bondOp_form L R Z Z ⟨rfl, rfl⟩, Complex.ofReal_re]
    exact h3 _

theorem bond_fits {r : ℕ} (h : BondHerm L R r r) : BondFits L R r r := ⟨h.Lu, h.Lw, h.Ru, h.Rw, h.m, rfl⟩

theorem eigshFirst_run (hA : Sparse.ArpackSpec arp) {T : Ten ℂ} (hH : SiteHerm L W R T.l T.r T.d) (hT : 0 < T.nsq) :
    (1 < T.l * T.r * T.d → ∃ r, eigshFirst arp 1 L W R T = .ok r) ∧ ∀ w T', eigshFirst arp 1 L W R T = .ok (w, T') → GroundSite L W R T.l T.r T.d T' w := by
  obtain ⟨h1, h2⟩ := Sparse.C82_ground hA (siteOp_symm hH) le_rfl (vec_ne hT)
  have e : eigshFirst arp 1 L W R T = match Sparse.eigsh arp (siteOp L W R T.l T.r T.d) 1 1 (T.vec T.l T.r T.d) with
      | .error e => .error e
      | .ok (some (q :: _)) => .ok (q.1, TVec.ten q.2)
      | .ok _ => .error .type := by
    unfold eigshFirst
    rw [if_pos hH.fits, haSite_eq hH.fits]
    generalize Sparse.eigsh arp (siteOp L W R T.l T.r T.d) 1 1 (T.vec T.l T.r T.d) = r
    rcases r with _ | (_ | (_ | _)) <;> rfl
  rw [e]
  constructor
  · intro hn
    obtain ⟨r, hr⟩ := h1 (by simpa [mul_assoc] using hn)
    obtain ⟨w, v, rfl, -⟩ := h2 r hr
    rw [hr]
    exact ⟨_, rfl⟩
  · intro w T' hr
    split at hr
    · cases hr
    · rename_i q l hq
      obtain ⟨w, v, hv, a1, a2, a3⟩ := h2 _ hq
      simp only [Option.some.injEq, List.cons.injEq] at hv
      obtain ⟨rfl, rfl⟩ := hv
      simp only [Except.ok.injEq, Prod.mk.injEq] at hr
      obtain ⟨rfl, rfl⟩ := hr
      exact ground_site hH.fits a1 a2 a3
    · cases hr

theorem eigshBond_run (hA : Sparse.ArpackSpec arp) {L1 : Env ℂ} {A : Ten ℂ} {C : Mat ℂ} {n : ℕ} (hL1 : addLayerR L A W A = .ok L1) (hH : BondHerm L1 R n n) (hr : C.r = n)
    (hc : C.c = n) (hw : L.w = n) (hT : 0 < C.nsq) :
    (1 < n * n → ∃ r, eigshBond arp 1 L W A R C = .ok r) ∧ ∀ w C', eigshBond arp 1 L W A R C = .ok (w, C') → GroundBond L1 R n n C' w := by
  have hf : BondFits L1 R C.r C.c := by rw [hr, hc]; exact bond_fits hH
  have hH' : BondHerm L1 R C.r C.c := by rw [hr, hc]; exact hH
  obtain ⟨h1, h2⟩ := Sparse.C82_ground hA (bondOp_symm hH') le_rfl (matvec_ne hT)
  have e : eigshBond arp 1 L W A R C = match Sparse.eigsh arp (bondOp L1 R C.r C.c) 1 1 (C.vec C.r C.c) with
      | .error e => .error e
      | .ok (some (q :: _)) => .ok (q.1, BVec.mat q.2)
      | .ok _ => .error .type := by
    unfold eigshBond
    rw [hL1]
    change (if BondFits L1 R C.r C.c ∧ L.w = C.r then _ else _) = _
    rw [if_pos ⟨hf, hw.trans hr.symm⟩, haBond_eq hf]
    generalize Sparse.eigsh arp (bondOp L1 R C.r C.c) 1 1 (C.vec C.r C.c) = r
    rcases r with _ | (_ | (_ | _)) <;> rfl
  rw [e]
  constructor
  · intro hn
    obtain ⟨r, hr⟩ := h1 (by simpa [hr, hc] using hn)
    obtain ⟨w, v, rfl, -⟩ := h2 r hr
    rw [hr]
    exact ⟨_, rfl⟩
  · intro w T' hr'
    split at hr'
    · cases hr'
    · rename_i q l hq
      obtain ⟨w, v, hv, a1, a2, a3⟩ := h2 _ hq
      simp only [Option.some.injEq, List.cons.injEq] at hv
      obtain ⟨rfl, rfl⟩ := hv
      simp only [Except.ok.injEq, Prod.mk.injEq] at hr'
      obtain ⟨rfl, rfl⟩ := hr'
      have := ground_bond hf a1 a2 a3
      generalize BVec.mat v = M at this ⊢
      rwa [hr, hc] at this
    · cases hr'

end

section
variable {D B : ℕ} {pinv : ℝ} {W : Mpo ℂ} {e : Eng} {s : St} {p q : ℕ → ℕ → ℂ} {X : Ext} {o : Opts} {u : Out} {σ : ℕ → ℕ} {g : ℕ → ℂ}

/-- **C98 (ground states).**  For a Hermitian Hamiltonian, `solver='AR'` and `arnumvecs=1` the energy of a site is a real number, and the
tensor and the matrix after the step are normalised ground states of the effective Hamiltonians. -/
theorem C98_ground (hC : Conj σ g 0 (B - 1) B W) (hE : ∀ i, EigsLR (X.eigs i)) (hS : LgmresSpec X.solve) (hA : Sparse.ArpackSpec X.arp)
    (hs : Ready D B pinv W e s p q) (m1 : s.mps.l = D) (m2 : s.mps.r = D) (m3 : s.mps.d = W.din) (m4 : 0 < s.mps.nsq) (c1 : s.mat.r = D) (c2 : s.mat.c = D)
    (c3 : 0 < s.mat.nsq) (o1 : o.solver = .AR) (o2 : o.arnumvecs = 1) (h : step X o e s = .ok u) :
    u.en.im = 0 ∧ GroundSite u.lb W u.rb D D W.din u.st.mps u.e1 ∧
      ∃ L1, addLayerR u.lb s.A W s.A = .ok L1 ∧ GroundBond L1 u.rb D D u.st.mat u.e2 := by
  obtain ⟨hre, hH, L1, hL1, hB⟩ := step_herm hC hE hS hs h
  obtain ⟨-, -, -, -, -, -, -, -, -, -, -, -, -, -, h8, -⟩ := step_parts h
  unfold solveBoth at h8
  rw [o1, o2, hs.built.eW] at h8
  obtain ⟨t, h9, h8⟩ := andThen_ok.1 h8
  obtain ⟨c, h10, h8⟩ := andThen_ok.1 h8
  cases h8
  refine ⟨?_, ?_, L1, hL1, ?_⟩
  · exact Complex.conj_eq_iff_im.1 hre
  · have := (eigshFirst_run hA (T := s.mps) (by rw [m1, m2, m3]; exact hH) m4).2 _ _ h9
    rwa [m1, m2, m3] at this
  · exact (eigshBond_run hA hL1 hB c1 c2 hH.Lw c3).2 _ _ h10

theorem gradNorm_total {lb rb L1 : Env ℂ} (hH : SiteHerm lb W rb D D W.din) (hL1 : addLayerR lb s.A W s.A = .ok L1) (hB : BondHerm L1 rb D D) (a1 : s.A.l = D) (a2 : s.A.r = D)
    (a3 : s.A.d = W.din) (m1 : s.mps.l = D) (m2 : s.mps.r = D) (m3 : s.mps.d = W.din) (c1 : s.mat.r = D) (c2 : s.mat.c = D) :
    ∃ x, gradNorm lb W rb s = .ok x := by
  have e1 : contractionH lb s.mps W rb = .ok _ := if_pos ⟨hH.Lu.trans m1.symm, hH.Wl.symm, m3, m2.trans hH.Ru.symm, hH.Wr⟩
  have e2 : zeroSiteH lb W s.A rb true s.mat = bondH L1 rb s.mat := by
    unfold zeroSiteH
    rw [if_pos rfl, hL1]
  have e3 : bondH L1 rb s.mat = .ok _ := if_pos ⟨hB.Lu.trans c1.symm, c2.trans hB.Ru.symm, hB.m⟩
  unfold gradNorm
  rw [e1, e2, e3]
  simp only [andThen]
  rw [absorbR_ok (by exact a2.trans hB.Lw.symm)]
  unfold distT
  dsimp only
  rw [if_pos ⟨hH.Lw.trans a1.symm, rfl, hH.Wo.trans a3.symm⟩]
  exact ⟨_, rfl⟩

theorem dotR_ok {M N : Mat ℂ} (h : M.c = N.r) : Mat.dotR M N = .ok ⟨M.r, N.c, fun i j => ∑ k ∈ range M.c, M.v i k * N.v k j⟩ := if_pos h

theorem unrowC_ok {M : Mat ℂ} {l r d : ℕ} (h1 : M.r = l * d) (h2 : M.c = r) : ∃ A, unrowC M l r d = .ok A := ⟨_, if_pos ⟨h1, h2⟩⟩

theorem uncolC_ok {M : Mat ℂ} {l r d : ℕ} (h1 : M.r = l) (h2 : M.c = d * r) : ∃ A, uncolC M l r d = .ok A := ⟨_, if_pos ⟨h1, h2⟩⟩

theorem matchSvd_total {T : Ten ℂ} {C : Mat ℂ} (hO : X.O.Spec) {n : ℕ} (h1 : T.l = n) (h2 : T.r = n) (h3 : C.r = n) (h4 : C.c = n) :
    ∃ A B, matchSvd X T C = .ok (A, B) := by
  have e1 : absorbR T C.herm = .ok _ := absorbR_ok (by exact h2.trans h4.symm)
  have e2 : absorbL C.herm T = .ok _ := absorbL_ok (by exact h3.trans h1.symm)
  generalize hP : (⟨T.l, C.herm.c, T.d, fun i j s => ∑ k ∈ range T.r, T.v i k s * C.herm.v k j⟩ : Ten ℂ) = P at e1
  generalize hQ : (⟨C.herm.r, T.r, T.d, fun i j s => ∑ k ∈ range T.l, C.herm.v i k * T.v k j s⟩ : Ten ℂ) = Q at e2
  have s1 := hO.svd (rowC P)
  have s2 := hO.svd Q.colMat
  have d1 : (X.O.svd (rowC P)).1.c = (X.O.svd (rowC P)).2.2.r := s1.u_c.trans s1.v_r.symm
  have d2 : (X.O.svd Q.colMat).1.c = (X.O.svd Q.colMat).2.2.r := s2.u_c.trans s2.v_r.symm
  obtain ⟨A, hA⟩ := unrowC_ok (l := T.l) (r := T.r) (d := T.d) (M := ⟨(X.O.svd (rowC P)).1.r, (X.O.svd (rowC P)).2.2.c, fun i j => ∑ k ∈ range (X.O.svd (rowC P)).1.c,
    (X.O.svd (rowC P)).1.v i k * (X.O.svd (rowC P)).2.2.v k j⟩) (s1.u_r.trans (by rw [← hP]; rfl)) (s1.v_c.trans (by rw [← hP]; exact h3.trans h2.symm))
  obtain ⟨B, hB⟩ := uncolC_ok (l := T.l) (r := T.r) (d := T.d) (M := ⟨(X.O.svd Q.colMat).1.r, (X.O.svd Q.colMat).2.2.c, fun i j => ∑ k ∈ range (X.O.svd Q.colMat).1.c,
    (X.O.svd Q.colMat).1.v i k * (X.O.svd Q.colMat).2.2.v k j⟩) (s2.u_r.trans (by rw [← hQ]; exact h4.trans h1.symm)) (s2.v_c.trans (by rw [← hQ]; rfl))
  refine ⟨A, B, andThen_ok.2 ⟨P, e1, andThen_ok.2 ⟨Q, e2, ?_⟩⟩⟩
  rw [if_pos ⟨h3.trans h2.symm, h4.trans h1.symm⟩]
  exact andThen_ok.2 ⟨_, dotR_ok d1, andThen_ok.2 ⟨_, dotR_ok d2, andThen_ok.2 ⟨A, hA, andThen_ok.2 ⟨B, hB, rfl⟩⟩⟩⟩

theorem matchPolar_total {T : Ten ℂ} {C : Mat ℂ} (hX : PolarSpec X.polar) {n : ℕ} (h1 : T.l = n) (h2 : T.r = n) (h3 : C.r = n) (h4 : C.c = n) :
    ∃ A B, matchPolar X T C = .ok (A, B) := by
  have p1 := (hX (rowC T)).1
  have p2 := (hX C).1
  have p3 := (hX C).2
  have p4 := (hX T.colMat).2
  have d1 : (X.polar (rowC T) true).1.c = (X.polar C true).1.herm.r := (p1.u_c.trans (h2.trans h4.symm)).trans p2.u_c.symm
  have d2 : (X.polar C false).1.herm.c = (X.polar T.colMat false).1.r := (p3.u_r.trans (h3.trans h1.symm)).trans p4.u_r.symm
  obtain ⟨A, hA⟩ := unrowC_ok (l := T.l) (r := T.r) (d := T.d) (M := ⟨(X.polar (rowC T) true).1.r, (X.polar C true).1.herm.c, fun i j => ∑ k ∈ range (X.polar (rowC T) true).1.c,
    (X.polar (rowC T) true).1.v i k * (X.polar C true).1.herm.v k j⟩) p1.u_r (p2.u_r.trans (h3.trans h2.symm))
  obtain ⟨B, hB⟩ := uncolC_ok (l := T.l) (r := T.r) (d := T.d) (M := ⟨(X.polar C false).1.herm.r, (X.polar T.colMat false).1.c, fun i j => ∑ k ∈ range (X.polar C false).1.herm.c,
    (X.polar C false).1.herm.v i k * (X.polar T.colMat false).1.v k j⟩) (p3.u_c.trans (h4.trans h1.symm)) p4.u_c
  exact ⟨A, B, andThen_ok.2 ⟨_, dotR_ok d1, andThen_ok.2 ⟨A, hA, andThen_ok.2 ⟨_, dotR_ok d2, andThen_ok.2 ⟨B, hB, rfl⟩⟩⟩⟩⟩

/-- **C98 (a step succeeds).**  If the iterative solvers converge, a step with a Hermitian Hamiltonian does not raise, provided the bond
dimension is so large that scipy accepts the number of eigenvalues. -/
theorem C98_step_total (hC : Conj σ g 0 (B - 1) B W) (hE : ∀ i, EigsLR (X.eigs i)) (hcv : ∀ i, ConvergesK (X.eigs i) o.numeig) (hS : LgmresSpec X.solve)
    (hcS : LgmresConverges X.solve) (hA : Sparse.ArpackSpec X.arp) (hO : X.O.Spec) (hP : PolarSpec X.polar) (hf : 1 ≤ X.fuel) (hk : 1 ≤ o.numeig) (hkD : o.numeig + 1 < D * D)
    (hd : 0 < W.din) (hs : Ready D B pinv W e s p q) (m1 : s.mps.l = D) (m2 : s.mps.r = D) (m3 : s.mps.d = W.din) (m4 : 0 < s.mps.nsq) (c1 : s.mat.r = D) (c2 : s.mat.c = D)
    (c3 : 0 < s.mat.nsq) (o1 : o.solver = .AR) (o2 : o.arnumvecs = 1) : ∃ u, step X o e s = .ok u := by
  obtain ⟨vr, hvr⟩ := tm_total hE hcv hk hkD hf hs.Al hs.Ar hs.normL
  obtain ⟨vl, hvl⟩ := tm_total hE hcv hk hkD hf hs.Bl hs.Br hs.normR
  obtain ⟨-, c, f, c0, f1, f2⟩ := tm_lead hE hs.Al hs.Ar hs.normL hvr
  obtain ⟨-, c', f', c0', f1', f2'⟩ := tm_lead hE hs.Bl hs.Br hs.normR hvl
  obtain ⟨r, hr', hr⟩ := unitTrace_spec hs.normL.dens f1 c0 f2
  obtain ⟨l, hl', hl⟩ := unitTrace_spec hs.normR.dens f1' c0' f2'
  have hrh := hermPart_spec hs.normL.dens hr
  have hlh := hermPart_spec hs.normR.dens hl
  obtain ⟨lb, en, hL⟩ := envLeft_total (X := X) hS hcS hs.site hs.Ad hs.Al hs.Ar hs.left hs.built hlh hr hrh hs.normL.dens.tr hs.normR.dens.tr (normal_fix hs.normL) (normal_uniq hs.normL)
  obtain ⟨rb, en', hR⟩ := envRight_total (X := X) hS hcS hs.site hs.Bd hs.Bl hs.Br hs.right hs.built hrh hl hlh hs.normL.dens.tr hs.normR.dens.tr (normal_fix hs.normR) (normal_uniq hs.normR)
  obtain ⟨k, hk1⟩ := envLeft_blk hS hs.site hs.Ad hs.Al hs.Ar hs.built hlh hr hrh hL
  obtain ⟨k', hk2⟩ := envRight_blk hS hs.site hs.Bd hs.Bl hs.Br hs.built hrh hl hlh hR
  obtain ⟨-, hH, L1, hL1, hB⟩ := env_herm hC hs hk1 hk2
  obtain ⟨x, hx⟩ := gradNorm_total hH hL1 hB hs.Al hs.Ar hs.Ad m1 m2 m3 c1 c2
  have hDD : 1 < D * D := by omega
  obtain ⟨t1, t2⟩ := eigshFirst_run hA (T := s.mps) (by rw [m1, m2, m3]; exact hH) m4
  obtain ⟨⟨w1, T⟩, hT⟩ := t1 (by rw [m1, m2, m3]; nlinarith)
  have g1 := t2 _ _ hT
  obtain ⟨b1, b2⟩ := eigshBond_run hA hL1 hB c1 c2 hH.Lw c3
  obtain ⟨⟨w2, C⟩, hCm⟩ := b1 hDD
  have g2 := b2 _ _ hCm
  rw [m1, m2, m3] at g1
  obtain ⟨A, B', hm⟩ : ∃ A B', (if o.svd then matchSvd X T C else matchPolar X T C) = .ok (A, B') := by
    cases o.svd
    · exact matchPolar_total hP g1.Tl g1.Tr g2.Cr g2.Cc
    · exact matchSvd_total hO g1.Tl g1.Tr g2.Cr g2.Cc
  refine ⟨⟨en, leftDev s.A, rightDev s.B, x, lb, rb, w1, w2, ⟨A, B', T, C⟩⟩, ?_⟩
  unfold step
  refine andThen_ok.2 ⟨_, hvr, andThen_ok.2 ⟨_, hvl, andThen_ok.2 ⟨l, by rw [hs.built.eD]; exact hl', andThen_ok.2 ⟨r, by rw [hs.built.eD]; exact hr',
    andThen_ok.2 ⟨_, hL, andThen_ok.2 ⟨_, hR, andThen_ok.2 ⟨x, by rw [hs.built.eW]; exact hx, andThen_ok.2 ⟨((w1, T), w2, C), ?_, andThen_ok.2 ⟨_, hm, rfl⟩⟩⟩⟩⟩⟩⟩⟩⟩
  unfold solveBoth
  rw [o1, o2, hs.built.eW]
  exact andThen_ok.2 ⟨_, hT, andThen_ok.2 ⟨_, hCm, rfl⟩⟩

/-! ## The gauge matching -/

/-- The shape of the new tensor. -/
theorem solve_shape {lb rb : Env ℂ} {w1 w2 : ℂ} {T : Ten ℂ} {C : Mat ℂ} (h : solveBoth X o lb W rb s = .ok ((w1, T), w2, C)) :
    T.l = s.mps.l ∧ T.r = s.mps.r ∧ T.d = s.mps.d ∧ C.r = s.mat.r ∧ C.c = s.mat.c := by
  have a1 : ∀ {ar k w T'}, eigshFirst ar k lb W rb s.mps = .ok (w, T') → T'.l = s.mps.l ∧ T'.r = s.mps.r ∧ T'.d = s.mps.d := by
    intro ar k w T' h
    unfold eigshFirst at h
    split_ifs at h
    split at h <;> cases h
    exact ⟨rfl, rfl, rfl⟩
  have a2 : ∀ {ar k w C'}, eigshBond ar k lb W s.A rb s.mat = .ok (w, C') → C'.r = s.mat.r ∧ C'.c = s.mat.c := by
    intro ar k w T' h
    obtain ⟨L1, -, h⟩ := andThen_ok.1 h
    split_ifs at h
    split at h <;> cases h
    exact ⟨rfl, rfl⟩
  have a3 : ∀ {ei p k w T'}, lanczosFirst ei p k lb W rb s.mps = .ok (w, T') → T'.l = s.mps.l ∧ T'.r = s.mps.r ∧ T'.d = s.mps.d := by
    intro ei p k w T' h
    unfold lanczosFirst at h
    split_ifs at h
    split at h <;> cases h
    exact ⟨rfl, rfl, rfl⟩
  have a4 : ∀ {ei p k w C'}, lanczosBond ei p k lb W s.A rb s.mat = .ok (w, C') → C'.r = s.mat.r ∧ C'.c = s.mat.c := by
    intro ei p k w T' h
    obtain ⟨L1, -, h⟩ := andThen_ok.1 h
    split_ifs at h
    split at h <;> cases h
    exact ⟨rfl, rfl⟩
  unfold solveBoth at h
  split at h
  · obtain ⟨t, h1, h⟩ := andThen_ok.1 h
    obtain ⟨c, h2, h⟩ := andThen_ok.1 h
    cases h
    exact ⟨(a1 h1).1, (a1 h1).2.1, (a1 h1).2.2, a2 h2⟩
  · obtain ⟨t, h1, h⟩ := andThen_ok.1 h
    obtain ⟨c, h2, h⟩ := andThen_ok.1 h
    cases h
    exact ⟨(a3 h1).1, (a3 h1).2.1, (a3 h1).2.2, a4 h2⟩
  · cases h

/-- Spec: the matched tensors: if the tensor is a product of an isometric one with the matrix, which is invertible, the result is the
isometric one. -/
def Exact (T : Ten ℂ) (C : Mat ℂ) (A B : Ten ℂ) : Prop := Invertible' C →
  (∀ A' : Ten ℂ, A'.l = T.l → A'.r = T.r → A'.d = T.d → LeftOrth A' → FactL T A' C → SameOn T A A') ∧
  ∀ B' : Ten ℂ, B'.l = T.l → B'.r = T.r → B'.d = T.d → RightOrth B' → FactR T B' C → SameOn T B B'

/-- **C98 (gauge).**  Whatever the solvers return, the new tensors are isometric, have the shape of the tensor before the step, and are
those which the new tensor and matrix determine, if there are any. -/
theorem C98_isometric (hO : X.O.Spec) (hP : PolarSpec X.polar) (hd : 0 < s.mps.d) (h : step X o e s = .ok u) :
    Gauged s.mps u.st.A u.st.B ∧ s.mps.r = s.mps.l ∧ u.st.mps.l = s.mps.l ∧ u.st.mps.r = s.mps.r ∧ u.st.mps.d = s.mps.d ∧ u.st.mat.r = s.mps.l ∧ u.st.mat.c = s.mps.l ∧
      Exact u.st.mps u.st.mat u.st.A u.st.B := by
  obtain ⟨-, -, -, -, -, -, -, -, -, -, -, -, -, -, h8, h9, -⟩ := step_parts h
  obtain ⟨t1, t2, t3, t4, t5⟩ := solve_shape h8
  have : u.st.mps.r = u.st.mps.l ∧ u.st.mat.r = u.st.mps.l ∧ u.st.mat.c = u.st.mps.l ∧ Gauged u.st.mps u.st.A u.st.B ∧ Exact u.st.mps u.st.mat u.st.A u.st.B := by
    cases hsv : o.svd
    · rw [hsv] at h9
      exact matchPolar_spec hP (by rw [t3]; exact hd) h9
    · rw [hsv] at h9
      obtain ⟨r1, r2, r3, r4, -⟩ := matchSvd_spec hO (by rw [t3]; exact hd) h9
      exact ⟨r1, r2, r3, r4, fun hi => matchSvd_exact hO (by rw [t3]; exact hd) h9 hi⟩
  obtain ⟨r1, r2, r3, r4, r5⟩ := this
  exact ⟨⟨r4.Al.trans t1, r4.Ar.trans t2, r4.Ad.trans t3, r4.Bl.trans t1, r4.Br.trans t2, r4.Bd.trans t3, r4.left, r4.right⟩, by rw [← t1, ← t2, r1], t1, t2, t3,
    r2.trans t1, r3.trans t1, r5⟩

/-- **C98 (closest tensors).**  With `svd=True` no isometric tensor comes closer to the new tensor, times the new matrix, than the
one chosen. -/
theorem C98_closest (hO : X.O.Spec) (hd : 0 < s.mps.d) (ho : o.svd = true) (h : step X o e s = .ok u) :
    (∀ A' : Ten ℂ, A'.l = u.st.mps.l → A'.r = u.st.mps.r → A'.d = u.st.mps.d → LeftOrth A' → misfitL u.st.mps u.st.A u.st.mat ≤ misfitL u.st.mps A' u.st.mat) ∧
    ∀ B' : Ten ℂ, B'.l = u.st.mps.l → B'.r = u.st.mps.r → B'.d = u.st.mps.d → RightOrth B' → misfitR u.st.mps u.st.B u.st.mat ≤ misfitR u.st.mps B' u.st.mat := by
  obtain ⟨-, -, -, -, -, -, -, -, -, -, -, -, -, -, h8, h9, -⟩ := step_parts h
  obtain ⟨-, -, t3, -⟩ := solve_shape h8
  rw [ho] at h9
  exact (matchSvd_spec hO (by rw [t3]; exact hd) h9).2.2.2.2

end

end
end PyTeN.Vumps
