import Verif.Engine.TwoSiteSim
import Verif.Props.DmrgEnergy

/-! # Two-site DMRG (C83, C84) -/

namespace PyTeN
open Finset

noncomputable section

variable {O : LinAlg} {solve : Solve} {sv : Solver} {trunc : ℝ}

/-! ## The effective Hamiltonian of a pair -/

theorem FusedOp.merge {W w V : Mpo ℂ} (h : FusedOp W w V) (h1 : 0 < w.din) (h2 : 0 < w.dout) : mergeW W w = .ok V := by
  unfold mergeW
  rw [if_pos h.bond]
  obtain ⟨vl, vr, vi, vo, vv⟩ := V
  obtain ⟨-, k1, k2, k3, k4, k5⟩ := h
  simp only at k1 k2 k3 k4 k5
  subst k1 k2 k3 k4
  have : vv = fun b b' s s' => ∑ c ∈ range W.r, W.v b c (s / w.din) (s' / w.dout) * w.v c b' (s % w.din) (s' % w.dout) := by
    funext b b' s s'
    rw [← k5 b b' (s / w.din) (s' / w.dout) (s % w.din) (s' % w.dout) (Nat.mod_lt _ h1) (Nat.mod_lt _ h2), Nat.div_add_mod',
      Nat.div_add_mod']
  rw [this]

section
variable {lb rb : Env ℂ} {mpo : List (Mpo ℂ)} {ds : List ℕ} {c : Call2}

/-- The pair of a call as a site of the chain in which the two sites are fused. -/
theorem pair_ctx (hlb : lb.u = lb.w) (hrb : rb.u = rb.w) (hml : MLinked lb.m mpo rb.m) (hin : mpo.map Mpo.din = ds)
    (hout : mpo.map Mpo.dout = ds) (h : c.OK lb rb mpo ds) (hd : 0 < ds.getD (c.n + 1) 0) :
    ∃ W w d d', mpo = mpo.take c.n ++ W :: w :: mpo.drop (c.n + 2) ∧ ds = ds.take c.n ++ d :: d' :: ds.drop (c.n + 2) ∧
      (ds.take c.n).length = c.n ∧ (mpo.take c.n).length = (ds.take c.n).length ∧
      (mpo.drop (c.n + 2)).length = (ds.drop (c.n + 2)).length ∧ w.din = d' ∧ w.dout = d' ∧ ds.getD (c.n + 1) 0 = d' ∧ c.T.d = d * d' ∧
      mergeW W w = .ok c.W ∧
      SiteCtx lb rb (mpo.take c.n ++ c.W :: mpo.drop (c.n + 2)) (ds.take c.n ++ d * d' :: ds.drop (c.n + 2))
        (c.mps.tensors.take c.n ++ c.T :: c.mps.tensors.drop (c.n + 2)) c.n c.L c.W c.R c.T.l c.T.r c.T.d := by
  obtain ⟨W, w, hW, hw, hF⟩ := h.op
  have hlen : c.mps.tensors.length = ds.length := by rw [← h.dims, MPS.ds, List.length_map]
  have hlenW : mpo.length = ds.length := by rw [← hin, List.length_map]
  have hN : c.n + 1 < ds.length := by have := h.lt; rw [← h.wf.len, hlen] at this; exact this
  have hd0 : ds[c.n]? = some (ds.getD c.n 0) := by rw [List.getD_eq_getElem?_getD, List.getElem?_eq_getElem (by omega)]; rfl
  have hd1 : ds[c.n + 1]? = some (ds.getD (c.n + 1) 0) := by
    rw [List.getD_eq_getElem?_getD, List.getElem?_eq_getElem hN]; rfl
  have get : ∀ (f : Mpo ℂ → ℕ), mpo.map f = ds → ∀ (k : ℕ) X, mpo[k]? = some X → ds[k]? = some (f X) := by
    intro f hf k X hX; rw [← hf, List.getElem?_map, hX]; rfl
  have i0 := get _ hin _ _ hW
  have i1 := get _ hin _ _ hw
  have o0 := get _ hout _ _ hW
  have o1 := get _ hout _ _ hw
  rw [hd0, Option.some.injEq] at i0 o0
  rw [hd1, Option.some.injEq] at i1 o1
  have hA : (c.mps.tensors.take c.n).length = c.n := by rw [List.length_take]; omega
  have hAm : (mpo.take c.n).length = c.n := by rw [List.length_take]; omega
  have hAd : (ds.take c.n).length = c.n := by rw [List.length_take]; omega
  have smpo : mpo = mpo.take c.n ++ W :: w :: mpo.drop (c.n + 2) := by
    rw [← drop_getElem? hw, ← drop_getElem? hW, List.take_append_drop]
  have hm := hml
  rw [smpo, mlinked_append] at hm
  obtain ⟨q, m1, m2, m3, m4⟩ := hm
  have hl := h.link
  rw [linked_append] at hl
  obtain ⟨p, l1, l2, l3⟩ := hl
  have l4 := h.left.w
  rw [← hlb] at l4
  have l5 := h.right.w
  rw [← hrb] at l5
  have t1 : ∀ {α : Type} {X : List α} {x : α} {Y : List α}, X.length = c.n → (X ++ x :: Y).take c.n = X := by
    intro α X x Y hX; rw [← hX]; simp
  have t2 : ∀ {α : Type} {X : List α} {x : α} {Y : List α}, X.length = c.n → (X ++ x :: Y).drop (c.n + 1) = Y := by
    intro α X x Y hX; rw [← hX]; simp
  have t3 : ∀ {α : Type} {X : List α} {x : α} {Y : List α}, X.length = c.n → (X ++ x :: Y)[c.n]? = some x := by
    intro α X x Y hX; rw [← hX]; simp
  refine ⟨W, w, ds.getD c.n 0, ds.getD (c.n + 1) 0, smpo, ?_, hAd, by rw [hAm, hAd], by simp; omega, i1.symm, o1.symm, rfl, h.dim,
    hF.merge (by omega) (by omega), ⟨by simp; omega, t3 hAm, ?_, ?_, ?_, ?_, ?_, (linked_rdim_unique h.left.u l1).trans l2.symm,
      (linked_rdim_unique l4 l1).trans l2.symm, linked_ldim_unique h.right.u l3, linked_ldim_unique l5 l3, ?_, ?_, ?_, ?_⟩⟩
  · rw [← drop_getElem? hd1, ← drop_getElem? hd0, List.take_append_drop]
  · rw [t1 hA, t1 hAm]; exact h.left
  · rw [t2 hA, t2 hAm]; exact h.right
  · rw [t1 hA, t1 hAd, ← h.dims, MPS.ds, List.map_take]
  · rw [t2 hA, t2 hAd, ← h.dims, MPS.ds, List.map_drop]
  · rw [t3 hAd, h.dim]
  · rw [hF.din, ← i0, ← i1, h.dim]
  · rw [hF.dout, ← o0, ← o1, h.dim]
  · rw [hF.l, m2]; exact mlinked_rdim m1 h.left.m
  · rw [hF.r]; exact mlinked_ldim m4 h.right.m

/-- The effective Hamiltonian of a pair gives the matrix elements of the operator, and norms are those of the two-site tensors. -/
theorem pair_spec (hlb : lb.u = lb.w) (hrb : rb.u = rb.w) (hml : MLinked lb.m mpo rb.m) (hin : mpo.map Mpo.din = ds)
    (hout : mpo.map Mpo.dout = ds) (h : c.OK lb rb mpo ds) (hd : 0 < ds.getD (c.n + 1) 0) :
    (∀ X Y : Ten ℂ, (X.l = c.T.l ∧ X.r = c.T.r ∧ X.d = c.T.d) → (Y.l = c.T.l ∧ Y.r = c.T.r ∧ Y.d = c.T.d) →
      hform lb mpo rb ds (pairAmp c.mps.tensors c.n (ds.getD (c.n + 1) 0) X) (pairAmp c.mps.tensors c.n (ds.getD (c.n + 1) 0) Y)
        = siteForm c.L c.W c.R X Y) ∧
    (c.mps.Canonical → ∀ X : Ten ℂ, (X.l = c.T.l ∧ X.r = c.T.r ∧ X.d = c.T.d) →
      nsq ds lb.u rb.u (pairAmp c.mps.tensors c.n (ds.getD (c.n + 1) 0) X) = X.nsq) ∧
    (HermH lb mpo rb ds → SiteHerm c.L c.W c.R c.T.l c.T.r c.T.d) := by
  obtain ⟨W, w, d, d', smpo, sds, hAd, e1, e2, w1, w2, w3, hT, hM, C⟩ := pair_ctx hlb hrb hml hin hout h hd
  have hlen : c.mps.tensors.length = ds.length := by rw [← h.dims, MPS.ds, List.length_map]
  have hN : c.n + 1 < ds.length := by have := h.lt; rw [← h.wf.len, hlen] at this; exact this
  have hA : (c.mps.tensors.take c.n).length = c.n := by rw [List.length_take]; omega
  have hset : ∀ X : Ten ℂ, (c.mps.tensors.take c.n ++ c.T :: c.mps.tensors.drop (c.n + 2)).set c.n X
      = c.mps.tensors.take c.n ++ X :: c.mps.tensors.drop (c.n + 2) := by
    intro X
    rw [List.set_append_right _ _ (by rw [hA]), hA, Nat.sub_self, List.set_cons_zero]
  have hfuse : ∀ (X : Ten ℂ) s, Conf (ds.take c.n ++ d * d' :: ds.drop (c.n + 2)) s → ∀ i j,
      (pairAmp c.mps.tensors c.n d' X).fuse d' (ds.take c.n).length s i j
        = chain ((c.mps.tensors.take c.n ++ c.T :: c.mps.tensors.drop (c.n + 2)).set c.n X) s i j := by
    intro X s hs i j
    unfold Amp.fuse pairAmp
    have hl : c.n < s.length := by
      rw [← hs.length_eq, List.length_append, hAd, List.length_cons]; omega
    rw [hAd, mergeIdx_unmerge hl, hset]
  rw [w3]
  refine ⟨fun X Y hX hY => ?_, fun hc X hX => ?_, fun hH => ?_⟩
  · have key := hform_fuse (lb := lb) (rb := rb) (d := d) hM e1 e2 w1 w2 (pairAmp c.mps.tensors c.n d' X) (pairAmp c.mps.tensors c.n d' Y)
    rw [← smpo, ← sds] at key
    rw [← key, ← C.form hX hY]
    exact hform_congr (fun s hs i _ j _ => hfuse X s hs i j) (fun s hs i _ j _ => hfuse Y s hs i j)
  · have key := nsq_fuse (dA := ds.take c.n) (dB := ds.drop (c.n + 2)) (d := d) (d' := d') (l := lb.u) (r := rb.u)
      (pairAmp c.mps.tensors c.n d' X)
    rw [← sds] at key
    rw [← key, nsq_congr (fun s hs i _ j _ => hfuse X s hs i j)]
    refine C.nsq hX (fun x t hx hl => ?_) fun x t hx hl => ?_
    · rw [List.getElem?_append_left (by omega), List.getElem?_take, if_pos hl] at hx
      exact hc.left x t hx (by rw [h.pos]; omega)
    · obtain ⟨y, rfl⟩ : ∃ y, x = c.n + 1 + y := ⟨x - (c.n + 1), by omega⟩
      rw [List.getElem?_append_right (by omega), hA, show c.n + 1 + y - c.n = y + 1 by omega, List.getElem?_cons_succ,
        List.getElem?_drop] at hx
      exact hc.right _ t hx (by rw [h.pos]; omega)
  · rw [smpo, sds] at hH
    exact C.herm (herm_fuse hM e1 e2 w1 w2 hH)

/-- Spec: the weight of the singular values that were cut off. -/
def Call2.lost (c : Call2) : ℝ := ∑ q ∈ Ico c.kept c.S.length, c.S.getD q 0 ^ 2

/-- Energies and norms around one call. -/
theorem call2_low (hV : solve.Var sv) (hlb : lb.u = lb.w) (hrb : rb.u = rb.w) (hml : MLinked lb.m mpo rb.m)
    (hin : mpo.map Mpo.din = ds) (hout : mpo.map Mpo.dout = ds) (hH : HermH lb mpo rb ds) (h : c.OK lb rb mpo ds)
    (hD : c.Done lb rb trunc) (hsol : solve sv c.L c.W c.R c.T = .ok (c.energy, c.opt)) (hc : c.mps.Canonical)
    (hnz : 0 < nsq ds lb.u rb.u c.mps.amp) :
    c.energy.im = 0 ∧ c.energy.re ≤ (energy lb mpo rb ds c.mps.amp).re ∧ 0 < c.opt.nsq ∧
    nsq ds lb.u rb.u (pairAmp c.mps.tensors c.n (ds.getD (c.n + 1) 0) c.opt) = c.opt.nsq ∧
    energy lb mpo rb ds (pairAmp c.mps.tensors c.n (ds.getD (c.n + 1) 0) c.opt) = c.energy ∧
    (c.kept ≠ 0 → nsq ds lb.u rb.u c.after.amp = nsq ds lb.u rb.u c.mps.amp ∧
      (c.lost = 0 → energy lb mpo rb ds c.after.amp = c.energy)) := by
  have hlen : c.mps.tensors.length = ds.length := by rw [← h.dims, MPS.ds, List.length_map]
  have hN : c.n + 1 < ds.length := by have := h.lt; rw [← h.wf.len, hlen] at this; exact this
  have hd : 0 < ds.getD (c.n + 1) 0 := by
    by_contra h0
    have h0 : ds.getD (c.n + 1) 0 = 0 := by omega
    have hnone : ∀ s, ¬ Conf ds s := by
      intro s hs
      have := List.forall₂_iff_get.mp hs
      have h2 := this.2 (c.n + 1) hN (by rw [← this.1]; exact hN)
      simp only [List.get_eq_getElem] at h2
      rw [List.getD_eq_getElem _ _ hN] at h0
      omega
    rw [nsq_congr (g := fun s i j => 0 * c.mps.amp s i j) (fun s hs => absurd hs (hnone s)), nsq_smul, map_zero, zero_mul] at hnz
    exact lt_irrefl _ hnz
  obtain ⟨p1, p2, p3⟩ := pair_spec hlb hrb hml hin hout h hd
  have hZn : nsq ds lb.u rb.u c.mps.amp = Complex.normSq c.mps.Z := by
    have := canonical_nsq h.wf hc; rwa [h.dims] at this
  have hz : c.mps.Z ≠ 0 := by rw [hZn] at hnz; exact Complex.normSq_pos.mp hnz
  have hT1 : c.T.nsq = 1 := by
    have h1 : nsq ds lb.u rb.u c.mps.amp = Complex.normSq c.mps.Z * c.T.nsq := by
      rw [nsq_congr fun s hs i hi j _ => h.centre s hs i hi j, nsq_smul, p2 hc c.T ⟨rfl, rfl, rfl⟩]
    rw [hZn] at h1
    have h0 := (Complex.normSq_pos.mpr hz).ne'
    exact (mul_left_cancel₀ h0 (by rw [← h1, mul_one])).symm
  have ht : 0 < c.T.nsq := by rw [hT1]; exact one_pos
  have heb : energy lb mpo rb ds c.mps.amp = siteForm c.L c.W c.R c.T c.T / c.T.nsq := by
    rw [energy_congr hlb.symm h.centre, energy_smul hz, energy, p1 _ _ ⟨rfl, rfl, rfl⟩ ⟨rfl, rfl, rfl⟩, p2 hc c.T ⟨rfl, rfl, rfl⟩]
  obtain ⟨v1, v2, v3⟩ := hV _ _ _ _ _ _ (p3 hH) ht hsol
  have hx' : (c.opt.nsq : ℂ) ≠ 0 := by exact_mod_cast v1.ne'
  have hea : energy lb mpo rb ds (pairAmp c.mps.tensors c.n (ds.getD (c.n + 1) 0) c.opt) = c.energy := by
    rw [energy, p1 _ _ hD.shape hD.shape, p2 hc _ hD.shape, ← v2, mul_div_cancel_right₀ _ hx']
  refine ⟨?_, ?_, v1, p2 hc _ hD.shape, hea, fun hk => ⟨?_, fun hl => ?_⟩⟩
  · rw [← hea, energy, Complex.div_ofReal_im, ← hform_real hH, Complex.ofReal_im, zero_div]
  · rw [heb, Complex.div_ofReal_re, le_div_iff₀ ht]; exact v3
  · have := canonical_nsq hD.wf (hD.can hc hk)
    rw [hD.ds, h.dims, hD.Z] at this
    rw [this, hZn]
  · obtain ⟨X, x1, x2, x3, x4, x5, x6, x7⟩ := hD.cut
    rw [← Call2.lost, hl] at x4
    have hsame : ∀ i < c.opt.l, ∀ j < c.opt.r, ∀ q < c.opt.d, c.opt.v i j q = X.v i j q := by
      intro i hi j hj q hq
      have a1 := (sum_eq_zero_iff_of_nonneg (fun i _ => sum_nonneg fun j _ => sum_nonneg fun q _ => Complex.normSq_nonneg _)).mp x4 i
        (mem_range.mpr hi)
      have a2 := (sum_eq_zero_iff_of_nonneg (fun j _ => sum_nonneg fun q _ => Complex.normSq_nonneg _)).mp a1 j (mem_range.mpr hj)
      have a3 := (sum_eq_zero_iff_of_nonneg (fun q _ => Complex.normSq_nonneg _)).mp a2 q (mem_range.mpr hq)
      exact sub_eq_zero.mp (Complex.normSq_eq_zero.mp a3)
    have xs : X.l = c.T.l ∧ X.r = c.T.r ∧ X.d = c.T.d := by rw [x1, x2, x3]; exact hD.shape
    have hn0 : X.nsq = c.opt.nsq := by
      unfold Ten.nsq
      rw [x1, x2, x3]
      exact sum_congr rfl fun i hi => sum_congr rfl fun j hj => sum_congr rfl fun q hq => by
        rw [hsame i (mem_range.mp hi) j (mem_range.mp hj) q (mem_range.mp hq)]
    have hf0 : siteForm c.L c.W c.R X X = siteForm c.L c.W c.R c.opt c.opt := by
      unfold siteForm
      rw [x1, x2, x3]
      refine sum_congr rfl fun i hi => sum_congr rfl fun i' hi' => sum_congr rfl fun j hj => sum_congr rfl fun j' hj' =>
        sum_congr rfl fun q hq => sum_congr rfl fun q' hq' => ?_
      rw [hsame i (mem_range.mp hi) j (mem_range.mp hj) q (mem_range.mp hq),
        hsame i' (mem_range.mp hi') j' (mem_range.mp hj') q' (mem_range.mp hq')]
    have hsq : (Real.sqrt X.nsq : ℂ) ≠ 0 := by
      rw [Complex.ofReal_ne_zero]; exact (Real.sqrt_pos.mpr (x6 hk)).ne'
    have hamp : ∀ s, Conf ds s → ∀ i < lb.u, ∀ j, c.after.amp s i j
        = (c.mps.Z / Real.sqrt X.nsq) * pairAmp c.mps.tensors c.n (ds.getD (c.n + 1) 0) X s i j := by
      intro s hs i hi j
      have := x7 s (by rw [h.dims]; exact hs) i hi j
      rw [h.dims] at this
      rw [div_mul_eq_mul_div, eq_div_iff hsq, mul_comm, this]
    rw [energy_congr hlb.symm hamp, energy_smul (div_ne_zero hz hsq), energy, p1 _ _ xs xs, p2 hc _ xs, hn0, hf0, ← v2,
      mul_div_cancel_right₀ _ hx']

end

/-! ## C83: the simulation -/

/-- Spec: an engine on which a two-site simulation can be started: `L[0]` and the right environments of the sites from 2 on are those
of the current tensors, and the centre is not further right than that.  (The MPS may be an object with a cleared centre matrix, as a
single-site simulation leaves it.) -/
structure Eng.Start2 (e : Eng) : Prop where
  mps : e.mps.WF e.lb.u e.rb.u ∨ (e.mps.Loose e.lb.u e.rb.u ∧ 0 ≠ e.mps.pos)
  pos : e.mps.pos ≤ 2
  val : e.Val 0 2

/-- **C83 (fresh engine).**  A new engine can be used. -/
theorem C83_fresh (hO : O.Spec) {m : MPS} {mpo : List (Mpo ℂ)} {lb rb : Option (Env ℂ)} {e : Eng} {l r : ℕ}
    (hi : Eng.init O m mpo lb rb = .ok e) (hW : mpo.length = m.N) (hw : m.WF l r) (hsq : m.mat.r = m.mat.c) (hs : m.sth < 1e-15) :
    e.Start2 := by
  obtain ⟨-, M, -, rfl, rfl, V, -⟩ := init_spec hO hi hW hw hsq hs
  exact ⟨Or.inl M.wf, by rw [M.pos]; omega, V.mono (by omega) (by omega)⟩

/-- **C83 (after a single-site simulation).**  So can an engine after a single-site simulation. -/
theorem C83_after_single (hO : O.Spec) (hsv : solve.Shape) {e : Eng} (hlb : e.lb.u = e.lb.w) (hrb : e.rb.u = e.rb.w)
    (hw : e.mps.WF e.lb.u e.rb.u) (hv : e.Val 0 1) (hp : e.mps.pos = 0) (hs : e.mps.sth < 1e-15) (hN : 2 ≤ e.mps.N) {Nmax : ℤ}
    {Econv : ℝ} {cp : Option ℤ} {res : SimRes} (h : e.simulate O solve sv Nmax Econv cp = .ok res) : res.eng.Start2 := by
  unfold Eng.simulate at h
  split_ifs at h with hso
  have hr : e.Ready False 0 0 :=
    ⟨0, 1, Or.inl hw, hv, fun h => by omega, fun h => by omega, fun _ => by omega, fun h => h.elim⟩
  obtain ⟨new, saved, -, -, -, -, P⟩ := simLoop_spec (flag := False) hO hsv _ _ _ _ _ _ _ h (by omega) hlb hrb hs hr hN
  exact ⟨Or.inr ⟨P.loose, by rw [P.pos]; omega⟩, by rw [P.pos], P.val.mono (by omega) (by omega)⟩

/-- **C83 (two-site DMRG).**  In every two-site simulation that returns: each sweep visits the pairs `(0,1)…(N-3,N-2)` and then
`(N-2,N-1)…(0,1)`; every eigensolver call gets the environments of the current tensors, the operator of the pair and the two-site
tensor of the current state; its result is cut to at most `D` singular values above the threshold and becomes the state, the other
tensors being unchanged; nothing else changes the state.  The stopping rule, checkpoints, returned energy and final engine are as
stated in `SimSpec2`; the engine can be used again. -/
theorem C83_two_site (hO : O.Spec) {e : Eng} (hst : e.Start2) (hs : e.mps.sth < 1e-15) (hN : 2 ≤ e.mps.N) {Nmax : ℤ} {Econv : ℝ}
    {cp : Option ℤ} {res : SimRes2} (h : e.simulateTwoSite O solve sv Nmax Econv cp trunc = .ok res) :
    sv ≠ .other ∧ ∃ e0 fin : Eng, e.Same2 e0 ∧ e0.mps.pos = 0 ∧ SameState e.lb.u e.mps e0.mps ∧
      SimSpec2 solve sv trunc Nmax Econv cp 1 100000 e0 res.sweeps res.saved res.energy fin ∧
      res.eng = { fin with mps := { fin.mps with Z := 1 } } ∧ res.eng.Start2 ∧ ∀ c ∈ res.sweeps.flatten, c.kept ≤ e.mps.Dmax := by
  unfold Eng.simulateTwoSite at h
  split_ifs at h with hso
  refine ⟨hso, ?_⟩
  split at h
  · cases h
  rename_i m hm
  have hw : e.mps.WF e.lb.u e.rb.u := by
    rcases hst.mps with h1 | ⟨h1, h2⟩
    · exact h1
    · exact loose_wf (n := 0) h1 hm h2
  obtain ⟨-, -, M, hcan⟩ := position_one hO hs hw hm
  simp only [Int.toNat_zero] at M
  have hv := hst.val
  have hp := hst.pos
  have V : Eng.Val { e with mps := m } 0 2 := by
    refine ⟨by simp only [M.N]; exact hv.lenL, by simp only [M.N]; exact hv.lenR, by simp only [M.N]; exact hv.lenW, ?_, ?_⟩
    · intro k hk E hE
      obtain rfl : k = 0 := by omega
      simpa using hv.left 0 le_rfl E hE
    · intro k hk hkN E hE
      simp only [M.N] at hkN hE
      simp only
      rw [drop_congr_getElem? (l' := m.tensors) (l := e.mps.tensors) fun x hx => M.same x (by omega)]
      exact hv.right k hk hkN E hE
  obtain ⟨new, saved, fin, i1, i2, i3, I⟩ := simLoop2_spec hO _ _ _ _ _ _ _ h (by omega) M.wf (by simp only [M.sth]; exact hs) V M.pos
    (by simp only [M.N]; exact hN)
  rw [List.nil_append] at i1 i2
  subst i1 i2
  refine ⟨{ e with mps := m }, fin, ⟨⟨rfl, rfl, rfl, M.N, M.sth⟩, M.Dmax, M.ds⟩, M.pos, M.sameState hcan, I, i3, ?_, ?_⟩
  · rw [i3]
    have hw := I.wf
    refine ⟨Or.inl ?_, by simp only [I.pos]; omega, ?_⟩
    · simp only [I.same.lb, I.same.rb]
      exact ⟨hw.len, hw.pos_le, hw.left, hw.right⟩
    · have V := I.val.mono le_rfl (show 1 ≤ 2 by omega)
      exact ⟨V.lenL, V.lenR, V.lenW, V.left, V.right⟩
  · intro c hc
    obtain ⟨cs, h1, h2⟩ := List.mem_flatten.mp hc
    have G := I.good cs h1 c h2
    rw [G.done.kept, G.Dmax]
    exact (min_le_right _ _).trans (by simp only [M.Dmax]; exact le_rfl)

/-- **C83 (one site).**  On a chain of one site the function raises an UnboundLocalError. -/
theorem C83_one_site {e : Eng} (hN : e.mps.N ≤ 1) (hso : sv ≠ .other) {m m' : MPS} (hm : e.mps.position O 0 = .ok m)
    (hmN : m.N = e.mps.N) (hm' : m.position O 0 = .ok m') (Nmax : ℤ) (Econv : ℝ) (cp : Option ℤ) :
    e.simulateTwoSite O solve sv Nmax Econv cp trunc = .error .unbound := by
  unfold Eng.simulateTwoSite
  rw [if_neg hso, hm]
  simp only
  obtain ⟨k, hk⟩ : ∃ k, max 1 Nmax.toNat = k + 1 := ⟨max 1 Nmax.toNat - 1, by omega⟩
  rw [hk]
  simp only [Eng.simLoop2, Eng.sweep2, hmN, show e.mps.N - 2 = 0 by omega, show e.mps.N - 1 = 0 by omega, Eng.sweepR2, Eng.sweepL2, hm',
    List.getLast?_nil]

/-- **C83 (unknown solver).**  For an unknown solver the error is a KeyError. -/
theorem C83_solver (e : Eng) (Nmax : ℤ) (Econv : ℝ) (cp : Option ℤ) :
    e.simulateTwoSite O solve .other Nmax Econv cp trunc = .error .key := by
  unfold Eng.simulateTwoSite
  rw [if_pos rfl]

/-- **C83 (checkpoints).**  A checkpoint period of zero raises a ZeroDivisionError after the first sweep. -/
theorem C83_cp {e : Eng} (hso : sv ≠ .other) {m : MPS} (hm : e.mps.position O 0 = .ok m) {r : Eng × List Call2 × Call2}
    (hr : Eng.sweep2 O solve sv trunc { e with mps := m } = .ok r) (Nmax : ℤ) (Econv : ℝ) :
    e.simulateTwoSite O solve sv Nmax Econv (some 0) trunc = .error .zerodiv := by
  unfold Eng.simulateTwoSite
  rw [if_neg hso, hm]
  simp only
  obtain ⟨k, hk⟩ : ∃ k, max 1 Nmax.toNat = k + 1 := ⟨max 1 Nmax.toNat - 1, by omega⟩
  rw [hk]
  simp only [Eng.simLoop2, hr]
  simp [cpDue]

/-! ## C84: truncation and energies -/

/-- A chain is linear in each tensor. -/
theorem chain_sub {X Y : Ten ℂ} (hr : Y.r = X.r) (B : List (Ten ℂ)) : ∀ (A : List (Ten ℂ)) (s : List ℕ) (i j : ℕ),
    chain (A ++ X :: B) s i j - chain (A ++ Y :: B) s i j
      = chain (A ++ ⟨X.l, X.r, X.d, fun a b p => X.v a b p - Y.v a b p⟩ :: B) s i j
  | [], [], i, j => by simp [chain]
  | [], x :: s, i, j => by
    simp only [List.nil_append, chain, hr]
    rw [← sum_sub_distrib]
    exact sum_congr rfl fun k _ => by ring
  | a :: A, [], i, j => by simp [chain]
  | a :: A, x :: s, i, j => by
    simp only [List.cons_append, chain]
    rw [← sum_sub_distrib]
    refine sum_congr rfl fun k _ => ?_
    rw [← chain_sub hr B A s k j]
    ring

section
variable {lb rb : Env ℂ} {mpo : List (Mpo ℂ)} {ds : List ℕ}

/-- **C84 (truncation).**  The state after a step is, up to a factor, at the squared distance `lost` (the sum of the squares of the
singular values that were cut off) from the state optimised by the eigensolver, whose squared norm is the sum over all. -/
theorem C84_truncation {c : Call2} (hlb : lb.u = lb.w) (hrb : rb.u = rb.w) (hml : MLinked lb.m mpo rb.m)
    (hin : mpo.map Mpo.din = ds) (hout : mpo.map Mpo.dout = ds) (h : c.OK lb rb mpo ds) (hd : 0 < ds.getD (c.n + 1) 0)
    (hD : c.Done lb rb trunc) (hc : c.mps.Canonical) (hZ : c.mps.Z ≠ 0) :
    ∃ z : ℂ, (c.kept ≠ 0 → z ≠ 0) ∧
      nsq ds lb.u rb.u (fun s i j => pairAmp c.mps.tensors c.n (ds.getD (c.n + 1) 0) c.opt s i j - z * c.after.amp s i j) = c.lost ∧
      nsq ds lb.u rb.u (pairAmp c.mps.tensors c.n (ds.getD (c.n + 1) 0) c.opt) = ∑ q ∈ range c.S.length, c.S.getD q 0 ^ 2 := by
  obtain ⟨p1, p2, p3⟩ := pair_spec hlb hrb hml hin hout h hd
  obtain ⟨X, x1, x2, x3, x4, x5, x6, x7⟩ := hD.cut
  refine ⟨(Real.sqrt X.nsq : ℂ) / c.mps.Z, fun hk => div_ne_zero ?_ hZ, ?_, by rw [p2 hc _ hD.shape, hD.total]⟩
  · rw [Complex.ofReal_ne_zero]; exact (Real.sqrt_pos.mpr (x6 hk)).ne'
  · let Y : Ten ℂ := ⟨c.opt.l, c.opt.r, c.opt.d, fun i j p => c.opt.v i j p - X.v i j p⟩
    have hY : Y.nsq = c.lost := x4
    rw [← hY, ← p2 hc Y hD.shape]
    refine nsq_congr fun s hs i hi j _ => ?_
    have := x7 s (by rw [h.dims]; exact hs) i hi j
    rw [h.dims] at this
    rw [div_mul_eq_mul_div, this, mul_div_cancel_left₀ _ hZ]
    exact chain_sub x2 _ _ _ _ _

/-- Canonical form and norm along a run. -/
theorem chained_can {e : Eng} : ∀ {cs : List Call2} {m m' : MPS}, Chained e.lb.u m cs m' → m.ds = e.mps.ds →
    (∀ c ∈ cs, c.Good e solve sv trunc) → (∀ c ∈ cs, c.kept ≠ 0) → m.Canonical →
    (∀ c ∈ cs, c.mps.Canonical ∧ c.after.Canonical ∧
      nsq e.mps.ds e.lb.u e.rb.u c.mps.amp = nsq e.mps.ds e.lb.u e.rb.u m.amp) ∧ m'.Canonical ∧
      nsq e.mps.ds e.lb.u e.rb.u m'.amp = nsq e.mps.ds e.lb.u e.rb.u m.amp
  | [], m, m', h, hd, _, _, hc => by
    refine ⟨by simp, h.can hc, ?_⟩
    exact nsq_congr fun s hs i hi j _ => h.amp s (by rw [hd]; exact hs) i hi j
  | c :: cs, m, m', h, hd, hg, hk, hc => by
    have G := hg c (by simp)
    have hc1 := h.1.can hc
    have hn1 : nsq e.mps.ds e.lb.u e.rb.u c.mps.amp = nsq e.mps.ds e.lb.u e.rb.u m.amp :=
      nsq_congr fun s hs i hi j _ => h.1.amp s (by rw [hd]; exact hs) i hi j
    have hc2 := G.done.can hc1 (hk c (by simp))
    have hd2 : c.after.ds = e.mps.ds := by rw [G.done.ds, G.ok.dims]
    have hn2 : nsq e.mps.ds e.lb.u e.rb.u c.after.amp = nsq e.mps.ds e.lb.u e.rb.u c.mps.amp := by
      have a1 := canonical_nsq G.done.wf hc2
      have a2 := canonical_nsq G.ok.wf hc1
      rw [hd2, G.done.Z] at a1
      rw [G.ok.dims] at a2
      rw [a1, a2]
    obtain ⟨i1, i2, i3⟩ := chained_can h.2 hd2 (fun x hx => hg x (by simp [hx])) (fun x hx => hk x (by simp [hx])) hc2
    refine ⟨?_, i2, by rw [i3, hn2, hn1]⟩
    intro x hx
    rcases List.mem_cons.mp hx with rfl | hx
    · exact ⟨hc1, hc2, hn1⟩
    · obtain ⟨j1, j2, j3⟩ := i1 x hx
      exact ⟨j1, j2, by rw [j3, hn2, hn1]⟩

/-- Without truncation the energies descend. -/
theorem chained_descends {e : Eng} (hlb : e.lb.u = e.lb.w) : ∀ {cs : List Call2} {m m' : MPS}, Chained e.lb.u m cs m' →
    m.ds = e.mps.ds → (∀ c ∈ cs, c.after.ds = e.mps.ds ∧ c.energy.re ≤ (energy e.lb e.mpo e.rb e.mps.ds c.mps.amp).re ∧
      energy e.lb e.mpo e.rb e.mps.ds c.after.amp = c.energy) →
    ((energy e.lb e.mpo e.rb e.mps.ds m.amp).re :: cs.map fun c => c.energy.re).Pairwise (· ≥ ·) ∧
      (∀ c, cs.getLast? = some c → energy e.lb e.mpo e.rb e.mps.ds m'.amp = c.energy)
  | [], _, _, _, _, _ => ⟨by simp, by simp⟩
  | c :: cs, m, m', h, hd, hg => by
    obtain ⟨g1, g2, g3⟩ := hg c (by simp)
    obtain ⟨i1, i2⟩ := chained_descends hlb h.2 g1 fun x hx => hg x (by simp [hx])
    have he : energy e.lb e.mpo e.rb e.mps.ds c.mps.amp = energy e.lb e.mpo e.rb e.mps.ds m.amp :=
      energy_congr hlb.symm fun s hs i hi j => h.1.amp s (by rw [hd]; exact hs) i hi j
    rw [g3] at i1
    rw [he] at g2
    refine ⟨?_, ?_⟩
    · rw [List.map_cons, List.pairwise_cons]
      refine ⟨?_, i1⟩
      intro x hx
      rcases List.mem_cons.mp hx with rfl | hx
      · exact g2
      · exact ((List.pairwise_cons.mp i1).1 x hx).le.trans g2
    · intro c' hc'
      cases cs with
      | nil =>
        simp only [List.getLast?_singleton, Option.some.injEq] at hc'
        subst hc'
        have := h.2
        rw [← g3]
        exact energy_congr hlb.symm fun s hs i hi j => this.amp s (by rw [g1]; exact hs) i hi j
      | cons b cs => rw [List.getLast?_cons_cons] at hc'; exact i2 c' hc'

/-- **C84 (energies).**  For a Hermitian MPO and a canonical initial state, in exact arithmetic, with an eigensolver that does not raise
the energy of its local problem, if every step keeps at least one singular value: every energy found in a two-site simulation is real,
not above the energy of the state before the step, and is the energy of the optimised state before truncation; the returned energy is
the last of them and is not below a lower bound of the operator; the final state is canonical and normalised.  If no weight is ever
truncated, the energies never rise, starting from that of the initial state, and the returned energy is that of the final state. -/
theorem C84_energy (hO : O.Spec) (hV : solve.Var sv) {e : Eng} (hst : e.Start2) (hs : e.mps.sth < 1e-15) (hN : 2 ≤ e.mps.N)
    (hf : e.Fit) (hH : HermH e.lb e.mpo e.rb e.mps.ds) (hc : e.mps.Canonical) (hZ : e.mps.Z ≠ 0) {Nmax : ℤ} {Econv : ℝ} {cp : Option ℤ}
    {res : SimRes2} (h : e.simulateTwoSite O solve sv Nmax Econv cp trunc = .ok res)
    (hk : ∀ c ∈ res.sweeps.flatten, c.kept ≠ 0) :
    (∀ c ∈ res.sweeps.flatten, c.energy.im = 0 ∧ c.energy.re ≤ (energy e.lb e.mpo e.rb e.mps.ds c.mps.amp).re ∧
      0 < nsq e.mps.ds e.lb.u e.rb.u (pairAmp c.mps.tensors c.n (e.mps.ds.getD (c.n + 1) 0) c.opt) ∧
      energy e.lb e.mpo e.rb e.mps.ds (pairAmp c.mps.tensors c.n (e.mps.ds.getD (c.n + 1) 0) c.opt) = c.energy ∧
      (c.lost = 0 → energy e.lb e.mpo e.rb e.mps.ds c.after.amp = c.energy)) ∧
    (∃ c, res.sweeps.flatten.getLast? = some c ∧ res.energy = c.energy) ∧
    (∀ lam : ℝ, (∀ f, lam * nsq e.mps.ds e.lb.u e.rb.u f ≤ (hform e.lb e.mpo e.rb e.mps.ds f f).re) → lam ≤ res.energy.re) ∧
    res.eng.mps.Canonical ∧ nsq e.mps.ds e.lb.u e.rb.u res.eng.mps.amp = 1 ∧
    ((∀ c ∈ res.sweeps.flatten, c.lost = 0) →
      ((energy e.lb e.mpo e.rb e.mps.ds e.mps.amp).re :: res.sweeps.flatten.map fun c => c.energy.re).Pairwise (· ≥ ·) ∧
      energy e.lb e.mpo e.rb e.mps.ds res.eng.mps.amp = res.energy) := by
  obtain ⟨hso, e0, fin, S, hp0, st0, I, hfin, -, -⟩ := C83_two_site hO hst hs hN h
  have hc0 := st0.can hc
  have hgood : ∀ c ∈ res.sweeps.flatten, c.Good e0 solve sv trunc := by
    intro c hc
    obtain ⟨cs, h1, h2⟩ := List.mem_flatten.mp hc
    exact I.good cs h1 c h2
  have hchain := I.chain
  obtain ⟨k1, k2, k3⟩ := chained_can hchain rfl hgood hk hc0
  have hlast : ∃ c, res.sweeps.flatten.getLast? = some c ∧ res.energy = c.energy := by
    obtain ⟨cs, c, l1, l2, -, -, l3⟩ := I.last
    refine ⟨c, ?_, l3⟩
    rw [← List.dropLast_append_getLast? cs l1, List.flatten_append, List.flatten_singleton, List.getLast?_append, l2]
    rfl
  have hn0 : 0 < nsq e0.mps.ds e0.lb.u e0.rb.u e0.mps.amp := by
    -- the initial state is not zero
    obtain ⟨c, c1, -⟩ := hlast
    have hm := List.mem_of_getLast? c1
    obtain ⟨j1, -, j3⟩ := k1 c hm
    have hw0 : e.mps.WF e.lb.u e.rb.u := by
      unfold Eng.simulateTwoSite at h
      rw [if_neg hso] at h
      split at h
      · cases h
      rename_i m hm
      rcases hst.mps with h1 | ⟨h1, h2⟩
      · exact h1
      · exact loose_wf (n := 0) h1 hm h2
    rw [S.lb, S.rb, S.ds, nsq_congr (fun s hs i hi j _ => st0.amp s hs i hi j), canonical_nsq hw0 hc]
    exact Complex.normSq_pos.mpr hZ
  have hlow : ∀ c ∈ res.sweeps.flatten, _ := fun c hc' =>
    call2_low (trunc := trunc) hV (lb := e.lb) (rb := e.rb) (mpo := e.mpo) (ds := e.mps.ds) hf.lb hf.rb hf.mlink hf.ins hf.outs hH
      (by have := (hgood c hc').ok; rwa [S.lb, S.rb, S.mpo, S.ds] at this)
      (by have := (hgood c hc').done; rwa [S.lb, S.rb] at this) (hgood c hc').sol (k1 c hc').1
      (by have := (k1 c hc').2.2; rw [← S.lb, ← S.rb, ← S.ds, this]; exact hn0)
  have hZf : fin.mps.Z ≠ 0 := by
    have := canonical_nsq I.wf k2
    rw [I.same.ds, k3] at this
    rw [this] at hn0
    exact Complex.normSq_pos.mp hn0
  have hampf : ∀ s i j, fin.mps.amp s i j = fin.mps.Z * res.eng.mps.amp s i j := by
    intro s i j
    rw [hfin, amp_eq_split, amp_eq_split, one_mul]
  have hcf : res.eng.mps.Canonical := by
    rw [hfin]
    exact ⟨k2.left, k2.right, k2.norm⟩
  refine ⟨?_, hlast, ?_, hcf, ?_, ?_⟩
  · intro c hc'
    obtain ⟨a1, a2, a3, a4, a5, a6⟩ := hlow c hc'
    exact ⟨a1, a2, by rw [a4]; exact a3, a5, (a6 (hk c hc')).2⟩
  · intro lam hlam
    obtain ⟨c, c1, c2⟩ := hlast
    obtain ⟨a1, a2, a3, a4, a5, -⟩ := hlow c (List.mem_of_getLast? c1)
    rw [c2, ← a5, energy, Complex.div_ofReal_re, le_div_iff₀ (by rw [a4]; exact a3)]
    exact hlam _
  · have hw : res.eng.mps.WF e.lb.u e.rb.u := by
      have := I.wf
      rw [S.lb, S.rb] at this
      rw [hfin]
      exact ⟨this.len, this.pos_le, this.left, this.right⟩
    have := canonical_nsq hw hcf
    rw [show res.eng.mps.ds = e.mps.ds by rw [hfin]; exact I.same.ds.trans S.ds, show res.eng.mps.Z = 1 by rw [hfin], map_one] at this
    exact this
  · intro hl
    obtain ⟨d1, d2⟩ := chained_descends (e := e) hf.lb (m := e0.mps) (m' := fin.mps) (cs := res.sweeps.flatten)
      (by rw [← S.lb]; exact hchain) S.ds (fun c hc' => by
        obtain ⟨a1, a2, a3, a4, a5, a6⟩ := hlow c hc'
        have G := hgood c hc'
        exact ⟨by rw [G.done.ds, G.ok.dims, S.ds], a2, (a6 (hk c hc')).2 (hl c hc')⟩)
    rw [energy_congr hf.lb.symm (fun s hs i hi j => st0.amp s hs i hi j)] at d1
    refine ⟨d1, ?_⟩
    obtain ⟨c, c1, c2⟩ := hlast
    have := d2 c c1
    rw [energy_congr hf.lb.symm (fun s _ i _ j => hampf s i j), energy_smul hZf] at this
    rw [c2]; exact this

end

end

end PyTeN
