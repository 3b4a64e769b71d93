import Verif.Engine.TdvpInfGauge
import Verif.Ham.Spin
import Mathlib.Analysis.Matrix.Order
import Mathlib.Analysis.SpecialFunctions.ContinuousFunctionalCalculus.Rpow.Basic

/-! # C101: `TDVPupdate` computes the tangent-space projection of `H|ψ⟩` for a uniform matrix product state -/

namespace PyTeN.TdvpInf
open Finset Transfer Regauge Vumps Steady Matrix Filter Topology
open scoped ComplexOrder
noncomputable section

/-- The eigenvalues are between two positive numbers whose ratio is below the square of the cutoff of `pinv`. -/
def WellConditioned {D : ℕ} (M : Matrix (Fin D) (Fin D) ℂ) : Prop :=
  ∃ lo hi : ℝ, 0 < lo ∧ hi * 1e-30 < lo ∧ (M - (lo : ℂ) • 1).PosSemidef ∧ ((hi : ℂ) • 1 - M).PosSemidef

/-- Contract of `sp.linalg.sqrtm` and `np.linalg.pinv(.,rcond=1E-15)` on well-conditioned positive matrices. -/
def RootSpec (sqrtm pinv : Mat ℂ → Mat ℂ) : Prop :=
  ∀ (D : ℕ) (M : Mat ℂ), M.r = D → M.c = D → WellConditioned (toM D M.v) →
    ((sqrtm M).r = D ∧ (sqrtm M).c = D ∧ (toM D (sqrtm M).v).PosSemidef ∧ toM D (sqrtm M).v * toM D (sqrtm M).v = toM D M.v)
      ∧ (pinv (sqrtm M)).r = D ∧ (pinv (sqrtm M)).c = D ∧ toM D (pinv (sqrtm M)).v * toM D (sqrtm M).v = 1

/-- Contract of the external routines. -/
structure ExtSpec (X : Ext) : Prop where
  lin : X.O.Spec
  solve : LgmresSpec X.solve
  conv : LgmresConverges X.solve
  root : RootSpec X.sqrtm X.pinv

theorem root_one {D : ℕ} {S : Matrix (Fin D) (Fin D) ℂ} (h1 : S.PosSemidef) (h2 : S * S = 1) : S = 1 := by
  have hu : IsUnit (S + 1) := add_comm (1 : Matrix (Fin D) (Fin D) ℂ) S ▸ (PosDef.one.add_posSemidef h1).isUnit
  have h0 : (S - 1) * (S + 1) = 0 := by
    rw [Matrix.sub_mul, Matrix.mul_add, h2, Matrix.mul_one, Matrix.one_mul, add_comm, sub_self]
  exact sub_eq_zero.1 (hu.mul_left_eq_zero.1 h0)

theorem well_one (D : ℕ) : WellConditioned (1 : Matrix (Fin D) (Fin D) ℂ) := by
  refine ⟨1, 1, one_pos, by norm_num, ?_, ?_⟩ <;> simpa using PosSemidef.zero

theorem posDef_of_well {D : ℕ} {M : Matrix (Fin D) (Fin D) ℂ} (h : WellConditioned M) : M.PosDef := by
  obtain ⟨lo, hi, h1, -, h3, -⟩ := h
  have h4 : ((lo : ℂ) • (1 : Matrix (Fin D) (Fin D) ℂ)).PosDef := PosDef.one.smul (by exact_mod_cast h1)
  simpa using h4.add_posSemidef h3

section
open scoped MatrixOrder

/-- The contract of the square root and its inverse can be met. -/
theorem exists_roots : ∃ sqrtm pinv, RootSpec sqrtm pinv := by
  classical
  refine ⟨fun M => ⟨M.r, M.r, (fromM (CFC.sqrt (toM M.r M.v)))⟩, fun M => ⟨M.r, M.r, fromM (toM M.r M.v)⁻¹⟩, fun D M h1 h2 hw => ?_⟩
  subst h1
  have hp := posDef_of_well hw
  have hn : 0 ≤ toM M.r M.v := hp.posSemidef.nonneg
  have hss := CFC.sqrt_mul_sqrt_self (toM M.r M.v) hn
  refine ⟨⟨rfl, rfl, ?_, ?_⟩, rfl, rfl, ?_⟩
  · dsimp only
    rw [toM_fromM]
    exact (CFC.sqrt_nonneg _).posSemidef
  · dsimp only
    rw [toM_fromM]
    exact hss
  · dsimp only
    rw [toM_fromM, toM_fromM]
    refine Matrix.nonsing_inv_mul _ ?_
    have hd : IsUnit (toM M.r M.v).det := (Matrix.isUnit_iff_isUnit_det _).1 hp.isUnit
    rw [← hss, Matrix.det_mul] at hd
    exact isUnit_of_mul_isUnit_left hd

end

theorem exists_ext (rnd : ℕ → ℂ) (rand : ℕ → ℕ → ℝ) : ∃ X : Ext, ExtSpec X ∧ X.rand = rand ∧ X.rnd = rnd := by
  obtain ⟨O, hO⟩ := exists_linAlg
  obtain ⟨f, h1, h2⟩ := exists_lgmres
  obtain ⟨a, b, h⟩ := exists_roots
  exact ⟨⟨O, f, rnd, a, b, rand⟩, ⟨hO, h1, h2, h⟩, rfl, rfl⟩

/-- Shapes: a square tensor, a density matrix, and the two tensors of the MPO of one bond. -/
structure Shapes (D : ℕ) (r : Mat ℂ) (A : Ten ℂ) (W0 W1 : Mpo ℂ) : Prop where
  al : A.l = D
  ar : A.r = D
  ad : A.d = 2
  rr : r.r = D
  rc : r.c = D
  wl : W0.l = 1
  wr : W1.r = 1
  wm : W0.r = W1.l
  w0 : W0.din = 2
  w0' : W0.dout = 2
  w1 : W1.din = 2
  w1' : W1.dout = 2

/-- Spec: a left-orthogonal tensor with its right density matrix; the latter is unique. -/
structure State (D : ℕ) (r : Mat ℂ) (A : Ten ℂ) : Prop where
  orth : ∑ s ∈ range 2, (mat D A s)ᴴ * mat D A s = 1
  fixed : ∑ s ∈ range 2, mat D A s * toM D r.v * (mat D A s)ᴴ = toM D r.v
  trace : (toM D r.v).trace = 1
  well : WellConditioned (toM D r.v)
  uniq : ∀ F : Matrix (Fin D) (Fin D) ℂ, ∑ s ∈ range 2, mat D A s * F * (mat D A s)ᴴ = F → ∃ c : ℂ, F = c • toM D r.v

theorem State.cap {D : ℕ} {r : Mat ℂ} {A : Ten ℂ} (h : State D r A) : cap 2 (mat D A) (mat D A) 1 = 1 := by
  have := h.orth
  simpa only [TdvpInf.cap, Matrix.mul_one] using this

/-- Spec: a tensor `B` whose tangent vector is in the left gauge. -/
def LeftGauge (D : ℕ) (A B : Ten ℂ) : Prop := ∑ s ∈ range 2, (mat D B s)ᴴ * mat D A s = 0

theorem leftGauge_iff {D : ℕ} {A B : Ten ℂ} : LeftGauge D A B ↔ cap 2 (mat D A) (mat D B) 1 = 0 := by
  simp only [LeftGauge, TdvpInf.cap, Matrix.mul_one]

/-- The sum of the squares of the random numbers that complete the tensor to a square matrix. -/
def noise (D : ℕ) (rand : ℕ → ℕ → ℝ) : ℝ := ∑ k ∈ range (D * 2), ∑ c ∈ range D, (rand k c * 0.0001) ^ 2

theorem noise_eq (D : ℕ) (rand : ℕ → ℕ → ℝ) : fro (rest D rand) = noise D rand := by
  simp only [fro, rest, noise, Finset.sum_range, Complex.normSq_ofReal, pow_two]

theorem noise_le {D : ℕ} {rand : ℕ → ℕ → ℝ} (h : ∀ k c, 0 ≤ rand k c ∧ rand k c ≤ 1) : noise D rand ≤ 2 * D ^ 2 * 1e-8 := by
  have : noise D rand ≤ ∑ k ∈ range (D * 2), ∑ c ∈ range D, (1e-8 : ℝ) := by
    refine sum_le_sum fun k _ => sum_le_sum fun c _ => ?_
    obtain ⟨h1, h2⟩ := h k c
    nlinarith
  refine this.trans (le_of_eq ?_)
  simp only [sum_const, card_range, nsmul_eq_mul, Nat.cast_mul, Nat.cast_ofNat]
  ring

section main
variable {X : Ext} {D : ℕ} {r : Mat ℂ} {A : Ten ℂ} {W0 W1 : Mpo ℂ}

/-- All that the proofs use about a run. -/
theorem run_spec (hX : ExtSpec X) (hS : Shapes D r A W0 W1) (hA : State D r A) :
    ∃ (Adot VL : Ten ℂ) (e : ℂ) (nx : ℝ) (k x : Mat ℂ), tdvpUpdate X r A [W0, W1] = .ok (Adot, e, nx, k)
      ∧ nullTen X.O X.rand A = .ok VL
      ∧ k.r = D ∧ k.c = D ∧ e = (capH 2 (bondH W0 W1) (mat D A) (mat D A) (mat D A) 1 * toM D r.v).trace
      ∧ (toM D k.v)ᵀ - TdvpInf.cap 2 (mat D A) (mat D A) (toM D k.v)ᵀ + ((toM D k.v)ᵀ * toM D r.v).trace • (1 : Matrix (Fin D) (Fin D) ℂ)
        = capH 2 (bondH W0 W1) (mat D A) (mat D A) (mat D A) 1 - e • (1 : Matrix (Fin D) (Fin D) ℂ)
      ∧ toM D x.v = xopt 2 (bondH W0 W1) (mat D A) (mat D VL) (toM D r.v) (toM D (X.sqrtm r).v) (toM D (X.pinv (X.sqrtm r)).v) (toM D k.v)ᵀ
      ∧ Adot.l = D ∧ Adot.r = D ∧ Adot.d = 2 ∧ (∀ s, mat D Adot s = mat D VL s * toM D x.v * toM D (X.pinv (X.sqrtm r)).v)
      ∧ ((nx ^ 2 : ℝ) : ℂ) = ((toM D x.v)ᴴ * toM D x.v).trace ∧ 0 ≤ nx := by
  have w4 : A.d = W0.din := hS.ad.trans hS.w0.symm
  have w5 : A.d = W0.dout := hS.ad.trans hS.w0'.symm
  have w6 : A.d = W1.din := hS.ad.trans hS.w1.symm
  have w7 : A.d = W1.dout := hS.ad.trans hS.w1'.symm
  have hd := hS.ad
  obtain ⟨⟨E, e, k⟩, hrun⟩ := solveK_total hX.solve hX.conv hS.al hS.ar hS.rr hS.rc hS.wl hS.wr hS.wm w4 w5 w6 w7 (hd ▸ hA.cap) (hd ▸ hA.fixed) hA.trace
    (hd ▸ hA.uniq)
  obtain ⟨hE, k1, k2, he, hk⟩ := solveK_spec hX.solve hS.al hS.ar hS.rr hS.rc hS.wl hS.wr hS.wm w4 w5 w6 w7 hrun
  obtain ⟨VL, hV, -⟩ := null_spec hX.lin hS.al hS.ar hd hA.cap X.rand
  obtain ⟨⟨s1, s2, s3, s4⟩, i1, i2, i3⟩ := hX.root D (eye D) rfl rfl (by rw [toM_eye]; exact well_one D)
  rw [toM_eye] at s4
  have s5 := root_one s3 s4
  rw [s5, Matrix.mul_one] at i3
  obtain ⟨⟨t1, t2, -, -⟩, u1, u2, -⟩ := hX.root D r hS.rr hS.rc hA.well
  obtain ⟨x, Adot, a1, a2, a3, a4, a5, a6, a7, a8⟩ := assemble_spec (k := k) hS.al hS.ar hS.rr hS.rc k1 k2 hS.wl hS.wr hS.wm w4 w5 w6 w7 hE hV s1 s2 s5 i1 i2 i3 t1 t2 u1 u2
  rw [hd] at he hk a4 a7
  refine ⟨Adot, VL, e, _, k, x, ?_, hV, k1, k2, he, hk, a4, a5, a6, a7, a8, ?_, Real.sqrt_nonneg (∑ i ∈ range x.r, ∑ j ∈ range x.c, Complex.normSq (x.v i j))⟩
  · rw [tdvpUpdate, hrun]
    simp only [andThen, List.getLast_singleton, a1]
  · rw [Real.sq_sqrt (sum_nonneg fun _ _ => sum_nonneg fun _ _ => Complex.normSq_nonneg _), a2, a3]
    simp only [Matrix.trace, Matrix.diag, Matrix.mul_apply, conjTranspose_apply, toM, Complex.ofReal_sum, Finset.sum_range]
    rw [Finset.sum_comm]
    exact sum_congr rfl fun i _ => sum_congr rfl fun j _ => by rw [Complex.normSq_eq_conj_mul_self]; rfl

theorem root_facts (hX : ExtSpec X) (hS : Shapes D r A W0 W1) (hA : State D r A) :
    toM D r.v * (toM D (X.pinv (X.sqrtm r)).v)ᴴ = toM D (X.sqrtm r).v
      ∧ toM D (X.pinv (X.sqrtm r)).v * toM D r.v * (toM D (X.pinv (X.sqrtm r)).v)ᴴ = 1
      ∧ toM D (X.sqrtm r).v * toM D (X.pinv (X.sqrtm r)).v = 1 := by
  obtain ⟨⟨-, -, t3, t4⟩, -, -, u3⟩ := hX.root D r hS.rr hS.rc hA.well
  set S := toM D (X.sqrtm r).v
  set I := toM D (X.pinv (X.sqrtm r)).v
  have u4 : S * I = 1 := mul_eq_one_comm.1 u3
  have hSI : S * Iᴴ = 1 := by
    have := congrArg conjTranspose u3
    rwa [conjTranspose_mul, t3.isHermitian.eq, conjTranspose_one] at this
  refine ⟨?_, ?_, u4⟩
  · rw [← t4, Matrix.mul_assoc, hSI, Matrix.mul_one]
  · rw [← t4, ← Matrix.mul_assoc, u3, Matrix.one_mul, hSI]

/-- C101: with two states per site and the two-site MPO the update returns; `Adot` has the shape of the tensor. -/
theorem C101_returns (hX : ExtSpec X) (hS : Shapes D r A W0 W1) (hA : State D r A) :
    ∃ Adot e nx k, tdvpUpdate X r A [W0, W1] = .ok (Adot, e, nx, k) ∧ Adot.l = D ∧ Adot.r = D ∧ Adot.d = 2 ∧ 0 ≤ nx := by
  obtain ⟨Adot, VL, e, nx, k, x, h1, -, -, -, -, -, -, h2, h3, h4, -, -, h5⟩ := run_spec hX hS hA
  exact ⟨Adot, e, nx, k, h1, h2, h3, h4, h5⟩

theorem sumH_uniform {d : ℕ} {h : ℕ → ℕ → ℕ → ℕ → ℂ} {A : ℕ → Matrix (Fin D) (Fin D) ℂ} {r : Matrix (Fin D) (Fin D) ℂ} (h1 : TdvpInf.cap d A A 1 = 1)
    (hr : ∑ s ∈ range d, A s * r * (A s)ᴴ = r) (n : ℕ) :
    (sumH d h A (List.replicate (n + 1) A) 1 * r).trace = n * (capH d h A A A 1 * r).trace := by
  induction n with
  | zero => simp [sumH]
  | succ n ih =>
    rw [show List.replicate (n + 1 + 1) A = A :: A :: List.replicate n A from rfl, sumH, h1, show A :: List.replicate n A = List.replicate (n + 1) A from rfl,
      Matrix.add_mul, Matrix.trace_add, ih, caps_rep, trace_caps hr]
    push_cast
    ring

/-- C101: the second value is the energy per bond: on any `n + 1` neighbouring sites the `n` bonds have the energy `n·h`. -/
theorem C101_energy (hX : ExtSpec X) (hS : Shapes D r A W0 W1) (hA : State D r A) {Adot : Ten ℂ} {e : ℂ} {nx : ℝ} {k : Mat ℂ}
    (h : tdvpUpdate X r A [W0, W1] = .ok (Adot, e, nx, k)) (n : ℕ) :
    (sumH 2 (bondH W0 W1) (mat D A) (List.replicate (n + 1) (mat D A)) 1 * toM D r.v).trace = n * e := by
  obtain ⟨Adot', VL, e', nx', k', x, h1, -, -, -, h2, -⟩ := run_spec hX hS hA
  have h3 := Except.ok.inj (h.symm.trans h1)
  simp only [Prod.mk.injEq] at h3
  rw [sumH_uniform hA.cap hA.fixed, h3.2.1, h2]

/-- Spec: `⟨…A B A…|H|…A A A…⟩` with `p` sites to the left of `B` and `q` to the right. -/
def element (D : ℕ) (W0 W1 : Mpo ℂ) (r : Mat ℂ) (A : Ten ℂ) (p q : ℕ) (B : Ten ℂ) : ℂ :=
  chainH 2 (bondH W0 W1) (mat D A) (toM D r.v) p q (mat D B)

/-- Spec: the overlap of the tangent vectors of `B` and `C`. -/
def overlap (D : ℕ) (r : Mat ℂ) (B C : Ten ℂ) : ℂ := metric 2 (toM D r.v) (mat D B) (mat D C)

/-- C101, for every outcome of the random numbers: `Adot` belongs to a subspace `{VL·x·r^(-1/2)}` given by an isometry `VL`, on which it represents the limits
of the matrix elements of `H` in the left gauge; how far the subspace is from the left gauge is bounded by the random numbers, and vectors of this
subspace that are in the left gauge exactly have exactly the limit. -/
theorem C101_subspace (hX : ExtSpec X) (hS : Shapes D r A W0 W1) (hA : State D r A) (hg : Gapped 2 (mat D A)) {Adot : Ten ℂ} {e : ℂ} {nx : ℝ} {k : Mat ℂ}
    (h : tdvpUpdate X r A [W0, W1] = .ok (Adot, e, nx, k)) :
    ∃ VL : Ten ℂ, (∑ s ∈ range 2, (mat D VL s)ᴴ * mat D VL s = 1)
      ∧ (noise D X.rand < 1 → ∀ j, ∑ i, Complex.normSq ((∑ s ∈ range 2, (mat D VL s)ᴴ * mat D A s) j i) ≤ (noise D X.rand / (1 - noise D X.rand)) ^ 2)
      ∧ (∃ x, ∀ s < 2, mat D Adot s * toM D (X.sqrtm r).v = mat D VL s * x)
      ∧ ((nx ^ 2 : ℝ) : ℂ) = overlap D r Adot Adot
      ∧ ∀ B : Ten ℂ, (∃ x, ∀ s < 2, mat D B s * toM D (X.sqrtm r).v = mat D VL s * x) → LeftGauge D A B →
          ∀ q, Tendsto (fun p : ℕ => element D W0 W1 r A (p + 1) (q + 1) B) atTop (𝓝 (overlap D r B Adot)) := by
  obtain ⟨Adot', VL, e', nx', k', x, h1, hV, -, -, he, hk, hx, -, -, -, hAd, hn, -⟩ := run_spec hX hS hA
  have h3 := Except.ok.inj (h.symm.trans h1)
  simp only [Prod.mk.injEq] at h3
  obtain ⟨rfl, rfl, rfl, rfl⟩ := h3
  obtain ⟨VL', hV', -, -, -, b1, b2, -, -⟩ := null_spec hX.lin hS.al hS.ar hS.ad hA.cap X.rand
  obtain rfl := Except.ok.inj (hV.symm.trans hV')
  obtain ⟨r1, r2, r3⟩ := root_facts hX hS hA
  have r3' := mul_eq_one_comm.1 r3
  have hfun : mat D Adot = fun s => mat D VL s * toM D x.v * toM D (X.pinv (X.sqrtm r)).v := funext hAd
  refine ⟨VL, ?_, ?_, ⟨toM D x.v, fun s _ => ?_⟩, ?_, fun B hB hL q => ?_⟩
  · simpa only [TdvpInf.cap, Matrix.mul_one] using b1
  · rw [← noise_eq]
    simpa only [TdvpInf.cap, Matrix.mul_one] using b2
  · rw [hAd, Matrix.mul_assoc, r3', Matrix.mul_one]
  · rw [hn, overlap, hfun, metric_tangent b1 r2]
  · obtain ⟨y, hy⟩ := hB
    have hB' : ∀ s < 2, mat D B s = mat D VL s * y * toM D (X.pinv (X.sqrtm r)).v := fun s hs => by
      rw [← hy s hs, Matrix.mul_assoc, r3, Matrix.mul_one]
    have hlim := chainH_tendsto (h := bondH W0 W1) hA.cap hA.fixed hA.trace hg (leftGauge_iff.1 hL) (he ▸ hk) q
    have hval : overlap D r B Adot = (capH 2 (bondH W0 W1) (mat D A) (mat D B) (mat D A) 1 * toM D r.v).trace
        + (capH 2 (bondH W0 W1) (mat D A) (mat D A) (mat D B) 1 * toM D r.v).trace + (TdvpInf.cap 2 (mat D A) (mat D B) (toM D k.v)ᵀ * toM D r.v).trace := by
      rw [capH_congr hB' (fun _ _ => rfl), capH_congr (fun _ _ => rfl) hB', cap_congr hB', ← xopt_pair r1, ← hx, overlap, metric, cap_congr hB', hfun]
      exact metric_tangent b1 r2 y _
    rw [hval]
    exact hlim

/-- C101: the first value is the projection of `H|ψ⟩` to the tangent space: `Adot` is in the left gauge and its overlap with every tangent vector in
the left gauge is the limit of the matrix elements of `H` for long chains, the third value is its norm.  What is missing: this is for random numbers that
are orthogonal to the tensor (`C101_subspace` is for all of them, `C101_violated_gauge` shows that it fails otherwise) and for two states per site. -/
theorem C101_tangent_partial (hX : ExtSpec X) (hS : Shapes D r A W0 W1) (hA : State D r A) (hg : Gapped 2 (mat D A)) {Adot : Ten ℂ} {e : ℂ} {nx : ℝ} {k : Mat ℂ}
    (hR : noise D X.rand < 1) (h0 : ∀ c < D, ∀ j < D, ∑ s ∈ range 2, ∑ i ∈ range D, star (A.v i j s) * ((X.rand (s * D + i) c * 0.0001 : ℝ) : ℂ) = 0)
    (h : tdvpUpdate X r A [W0, W1] = .ok (Adot, e, nx, k)) :
    LeftGauge D A Adot ∧ ((nx ^ 2 : ℝ) : ℂ) = overlap D r Adot Adot
      ∧ ∀ B, LeftGauge D A B → ∀ q, Tendsto (fun p : ℕ => element D W0 W1 r A (p + 1) (q + 1) B) atTop (𝓝 (overlap D r B Adot)) := by
  obtain ⟨Adot', VL, e', nx', k', x, h1, hV, -, -, he, hk, hx, -, -, -, hAd, hn, -⟩ := run_spec hX hS hA
  have h3 := Except.ok.inj (h.symm.trans h1)
  simp only [Prod.mk.injEq] at h3
  obtain ⟨rfl, rfl, rfl, rfl⟩ := h3
  obtain ⟨VL', hV', -, -, -, b1, -, b3, -⟩ := null_spec hX.lin hS.al hS.ar hS.ad hA.cap X.rand
  obtain rfl := Except.ok.inj (hV.symm.trans hV')
  obtain ⟨r1, r2, r3⟩ := root_facts hX hS hA
  have hfun : mat D Adot = fun s => mat D VL s * toM D x.v * toM D (X.pinv (X.sqrtm r)).v := funext hAd
  have hz : (tall D A)ᴴ * rest D X.rand = 0 := by
    ext j c
    have := h0 c c.2 j j.2
    rw [Matrix.mul_apply, Matrix.zero_apply, ← this]
    simp only [conjTranspose_apply, tall, rest]
    rw [← Finset.sum_range (fun k => star (A.v (k % D) j (k / D)) * ((X.rand k c * 0.0001 : ℝ) : ℂ)), show D * 2 = 2 * D from mul_comm _ _, sum_range_mul]
    exact sum_congr rfl fun s _ => sum_congr rfl fun i hi => by rw [idx_mod (mem_range.1 hi), idx_div (mem_range.1 hi)]
  have hgau := b3 (by rw [noise_eq]; exact hR) hz
  refine ⟨?_, ?_, fun B hL q => ?_⟩
  · rw [leftGauge_iff, hfun, cap_tangent, hgau, Matrix.mul_zero]
  · rw [hn, overlap, hfun, metric_tangent b1 r2]
  · obtain ⟨y, hB'⟩ := tangent_exists hA.cap b1 hgau (leftGauge_iff.1 hL) r3
    have hlim := chainH_tendsto (h := bondH W0 W1) hA.cap hA.fixed hA.trace hg (leftGauge_iff.1 hL) (he ▸ hk) q
    have hval : overlap D r B Adot = (capH 2 (bondH W0 W1) (mat D A) (mat D B) (mat D A) 1 * toM D r.v).trace
        + (capH 2 (bondH W0 W1) (mat D A) (mat D A) (mat D B) 1 * toM D r.v).trace + (TdvpInf.cap 2 (mat D A) (mat D B) (toM D k.v)ᵀ * toM D r.v).trace := by
      rw [capH_congr hB' (fun _ _ => rfl), capH_congr (fun _ _ => rfl) hB', cap_congr hB', ← xopt_pair r1, ← hx, overlap, metric, cap_congr hB', hfun]
      exact metric_tangent b1 r2 y _
    rw [hval]
    exact hlim

/-- C101: if the third value is zero, the matrix elements of `H` with all tangent vectors in the left gauge vanish in the limit (same random numbers as in
`C101_tangent_partial`). -/
theorem C101_stationary_partial (hX : ExtSpec X) (hS : Shapes D r A W0 W1) (hA : State D r A) (hg : Gapped 2 (mat D A)) {Adot : Ten ℂ} {e : ℂ} {k : Mat ℂ}
    (hR : noise D X.rand < 1) (h0 : ∀ c < D, ∀ j < D, ∑ s ∈ range 2, ∑ i ∈ range D, star (A.v i j s) * ((X.rand (s * D + i) c * 0.0001 : ℝ) : ℂ) = 0)
    (h : tdvpUpdate X r A [W0, W1] = .ok (Adot, e, 0, k)) (B : Ten ℂ) (hB : LeftGauge D A B) (q : ℕ) :
    Tendsto (fun p : ℕ => element D W0 W1 r A (p + 1) (q + 1) B) atTop (𝓝 0) := by
  obtain ⟨-, -, h2⟩ := C101_tangent_partial hX hS hA hg hR h0 h
  obtain ⟨Adot', VL, e', nx', k', x, h1, -, -, -, -, -, -, -, -, -, hAd, hn, -⟩ := run_spec hX hS hA
  have h3 := Except.ok.inj (h.symm.trans h1)
  simp only [Prod.mk.injEq] at h3
  obtain ⟨rfl, rfl, h4, rfl⟩ := h3
  rw [← h4] at hn
  have hx : toM D x.v = 0 := by
    refine Matrix.trace_conjTranspose_mul_self_eq_zero_iff.1 ?_
    rw [← hn]; norm_num
  have hz : overlap D r B Adot = 0 := by
    rw [overlap, metric, cap_congr' (l' := fun _ => 0) (fun s _ => by rw [hAd, hx, Matrix.mul_zero, Matrix.zero_mul])]
    simp [TdvpInf.cap]
  rw [← hz]
  exact h2 B hB q

/-- C101: the matrix elements in finite chains, with the exact remainder. -/
theorem C101_finite (hX : ExtSpec X) (hS : Shapes D r A W0 W1) (hA : State D r A) {Adot : Ten ℂ} {e : ℂ} {nx : ℝ} {k : Mat ℂ}
    (h : tdvpUpdate X r A [W0, W1] = .ok (Adot, e, nx, k)) (B : Ten ℂ) (hB : LeftGauge D A B) (p q : ℕ) :
    element D W0 W1 r A (p + 1) (q + 1) B = (capH 2 (bondH W0 W1) (mat D A) (mat D B) (mat D A) 1 * toM D r.v).trace
        + (capH 2 (bondH W0 W1) (mat D A) (mat D A) (mat D B) 1 * toM D r.v).trace + (TdvpInf.cap 2 (mat D A) (mat D B) (toM D k.v)ᵀ * toM D r.v).trace
        - (TdvpInf.cap 2 (mat D A) (mat D B) ((TdvpInf.cap 2 (mat D A) (mat D A))^[p] (toM D k.v)ᵀ) * toM D r.v).trace := by
  obtain ⟨Adot', VL, e', nx', k', x, h1, -, -, -, he, hk, -⟩ := run_spec hX hS hA
  have h3 := Except.ok.inj (h.symm.trans h1)
  simp only [Prod.mk.injEq] at h3
  obtain ⟨rfl, rfl, rfl, rfl⟩ := h3
  exact chainH_solved hA.cap hA.fixed hA.trace (leftGauge_iff.1 hB) (he ▸ hk) p q

end main

/-! ## What does not hold -/

/-- C101 fails for every other number of states per site: the update never returns. -/
theorem C101_violated_dim {X : Ext} (hO : X.O.Spec) {r : Mat ℂ} {A : Ten ℂ} (hD : 0 < A.l) (hr : A.r = A.l) (h0 : A.d ≠ 0) (h2 : A.d ≠ 2) (mpo : List (Mpo ℂ)) :
    ∀ q, tdvpUpdate X r A mpo ≠ .ok q := by
  have hn : nullTen X.O X.rand A = .error .value := by
    unfold nullTen
    have hs := hO.svd (stacked X.rand A)
    refine if_neg ?_
    have e1 := hs.u_r
    have e2 := hs.u_c
    have e3 : (stacked X.rand A).r = A.l * A.d := rfl
    have e4 : (stacked X.rand A).c = A.l * A.d := by
      show A.r + A.r * (A.d - 1) = A.l * A.d
      obtain ⟨d, hd⟩ := Nat.exists_eq_succ_of_ne_zero h0
      rw [hr, hd]; simp; ring
    rw [e3, e4, min_self] at e2
    rw [e1, e2, e3, hr]
    intro h
    have h3 : A.l * A.d - A.l = A.l * (A.d - 1) := by rw [Nat.mul_sub, mul_one]
    rw [h3] at h
    have h4 : (A.l * A.l) * (A.d * (A.d - 1)) = (A.l * A.l) * (A.d * 1) := by
      rw [mul_one]; linarith
    have h5 := Nat.eq_of_mul_eq_mul_left (Nat.mul_pos hD hD) h4
    have h6 := Nat.eq_of_mul_eq_mul_left (Nat.pos_of_ne_zero h0) h5
    omega
  intro q hq
  match mpo, hq with
  | [], hq => cases hq
  | [W0], hq =>
    obtain ⟨_, _, h⟩ := andThen_ok.1 hq
    cases h
  | W0 :: W1 :: Ws, hq =>
    obtain ⟨⟨E, e, k⟩, _, h⟩ := andThen_ok.1 hq
    obtain ⟨_, ha, _⟩ := andThen_ok.1 h
    unfold assemble at ha
    rw [hn] at ha
    cases ha

/-- C101 fails for an MPO "of any length": if the second tensor has more than one right index the update never returns. -/
theorem C101_violated_length {X : Ext} {r : Mat ℂ} {A : Ten ℂ} {W0 W1 : Mpo ℂ} (h : W1.r ≠ 1) (Ws : List (Mpo ℂ)) :
    ∀ q, tdvpUpdate X r A (W0 :: W1 :: Ws) ≠ .ok q := by
  intro q hq
  obtain ⟨⟨E, e, k⟩, h1, _⟩ := andThen_ok.1 hq
  obtain ⟨E0, _, h2⟩ := andThen_ok.1 h1
  obtain ⟨E1, h3, h4⟩ := andThen_ok.1 h2
  obtain ⟨lb, h5, _⟩ := andThen_ok.1 h4
  unfold squeeze at h5
  split_ifs at h5 with h6
  have : E1.m = W1.r := by
    unfold addLayerR at h3
    split_ifs at h3
    rw [← Except.ok.inj h3]
  exact h (this ▸ h6.2.2)

/-- C101 fails for an MPO of one tensor: it raises an `IndexError`. -/
theorem C101_violated_single {X : Ext} {D : ℕ} {r : Mat ℂ} {A : Ten ℂ} {W0 W1 : Mpo ℂ} (hS : Shapes D r A W0 W1) : tdvpUpdate X r A [W0] = .error .index := by
  obtain ⟨E, hE, -⟩ := initR (D := D) A A (eye A.l) W0 hS.al hS.ar hS.al hS.ar (hS.ad.trans hS.w0.symm) (hS.ad.trans hS.w0'.symm) hS.al hS.al hS.wl
  show andThen (initializeLayerR A (eye A.l) A W0) (fun _ => .error .index) = _
  rw [hE]
  rfl


/-- The product state with all spins in the first state. -/
def upTen : Ten ℂ := ⟨1, 1, 2, fun _ _ s => if s = 0 then 1 else 0⟩

/-- The operator of a bond in `TFI([J],[B,B],obc=True)`: the field acts on both sites of every bond. -/
theorem tfi_bond (J B : ℂ) : ∀ s1 < 2, ∀ s2 < 2, ∀ t1 < 2, ∀ t2 < 2, bondH (tfiFirst J B) (tfiLast B) s1 s2 t1 t2
    = (if s1 ≠ t1 ∧ s2 ≠ t2 then J else 0) + (if s1 = t1 ∧ s2 = t2 then (if s1 = 0 then -B else B) + (if s2 = 0 then -B else B) else 0) := by
  intro s1 h1 s2 h2 t1 h3 t2 h4
  interval_cases s1 <;> interval_cases s2 <;> interval_cases t1 <;> interval_cases t2 <;>
    simp [bondH, tfiFirst, tfiLast, Mpo.put, Mpo.zeros, sum_range_succ]

theorem up_shapes (J B : ℂ) : Shapes 1 (eye 1) upTen (tfiFirst J B) (tfiLast B) := ⟨rfl, rfl, rfl, rfl, rfl, rfl, rfl, rfl, rfl, rfl, rfl, rfl⟩

theorem up_zero : mat 1 upTen 0 = 1 := by ext i j; fin_cases i; fin_cases j; simp [mat, upTen]

theorem up_one : mat 1 upTen 1 = 0 := by ext i j; simp [mat, upTen]

theorem up_state : State 1 (eye 1) upTen := by
  refine ⟨?_, ?_, ?_, ?_, fun F _ => ⟨F 0 0, ?_⟩⟩
  · simp [sum_range_succ, up_zero, up_one]
  · simp [sum_range_succ, up_zero, up_one]
  · rw [toM_eye]; simp
  · rw [toM_eye]; exact well_one 1
  · rw [toM_eye]; ext i j; fin_cases i; fin_cases j; simp

theorem up_capH (J B : ℂ) (l1 l2 : ℕ → Matrix (Fin 1) (Fin 1) ℂ) : capH 2 (bondH (tfiFirst J B) (tfiLast B)) (mat 1 upTen) l1 l2 1
    = (-2 * B) • (l1 0 * l2 0)ᴴ + J • (l1 1 * l2 1)ᴴ := by
  simp only [capH, sum_range_succ, range_zero, sum_empty, zero_add, up_zero, up_one, Matrix.mul_one, Matrix.mul_zero, smul_zero, add_zero]
  rw [tfi_bond J B 0 (by omega) 0 (by omega) 0 (by omega) 0 (by omega), tfi_bond J B 0 (by omega) 0 (by omega) 0 (by omega) 1 (by omega),
    tfi_bond J B 0 (by omega) 0 (by omega) 1 (by omega) 0 (by omega), tfi_bond J B 0 (by omega) 0 (by omega) 1 (by omega) 1 (by omega)]
  simp only [ne_eq, not_true_eq_false, and_self, if_true, if_false, false_and, and_false, zero_ne_one, zero_add, add_zero, zero_smul, not_false_eq_true]
  rw [show -B + -B = -2 * B by ring]

/-- C101 fails for random numbers that are not orthogonal to the tensor: for the product state with all spins in the first state and `TFI` with a field the
matrix elements of `H` with all tangent vectors in the left gauge vanish, but the update returns an `Adot` which is not in the left gauge and a norm
which is not zero.  Also the energy is `-2B` (the field of every site is counted by two bonds). -/
theorem C101_violated_gauge {X : Ext} (hX : ExtSpec X) (hr : X.rand = fun _ _ => 1 / 2) {J B : ℂ} (hB : B ≠ 0) :
    (∀ C : Ten ℂ, LeftGauge 1 upTen C → ∀ p q, element 1 (tfiFirst J B) (tfiLast B) (eye 1) upTen (p + 1) (q + 1) C = 0)
      ∧ ∃ Adot nx k, tdvpUpdate X (eye 1) upTen [tfiFirst J B, tfiLast B] = .ok (Adot, -2 * B, nx, k) ∧ ¬LeftGauge 1 upTen Adot ∧ nx ≠ 0 := by
  have hS := up_shapes J B
  have hA := up_state
  have h11 : ∀ M N : Matrix (Fin 1) (Fin 1) ℂ, M = N ↔ M 0 0 = N 0 0 := fun M N => ⟨fun h => by rw [h], fun h => by ext i j; fin_cases i; fin_cases j; exact h⟩
  have hcap : ∀ (l : ℕ → Matrix (Fin 1) (Fin 1) ℂ) Y, TdvpInf.cap 2 (mat 1 upTen) l Y = (l 0)ᴴ * Y := by
    intro l Y
    simp only [TdvpInf.cap, sum_range_succ, range_zero, sum_empty, zero_add, up_zero, up_one, Matrix.mul_one, Matrix.mul_zero, add_zero]
  refine ⟨fun C hC p q => ?_, ?_⟩
  · have hC' := leftGauge_iff.1 hC
    have h0 : (mat 1 C 0)ᴴ = 0 := by rw [hcap, Matrix.mul_one] at hC'; exact hC'
    rw [element, chainH_eq hA.cap hA.fixed hC', up_capH, up_capH]
    simp only [hcap, h0, up_zero, up_one, conjTranspose_mul, Matrix.zero_mul, Matrix.mul_zero, smul_zero, conjTranspose_zero, add_zero, Matrix.trace_zero, sum_const_zero]
  · obtain ⟨Adot, VL, e, nx, k, x, h1, hV, -, -, he, hk, hx, -, -, -, hAd, hn, -⟩ := run_spec hX hS hA
    obtain ⟨VL', hV', -, -, -, b1, -, -, b4⟩ := null_spec hX.lin hS.al hS.ar hS.ad hA.cap X.rand
    obtain rfl := Except.ok.inj (hV.symm.trans hV')
    obtain ⟨r1, r2, r3⟩ := root_facts hX hS hA
    obtain ⟨⟨-, -, s3, s4⟩, -, -, s5⟩ := hX.root 1 (eye 1) rfl rfl (by rw [toM_eye]; exact well_one 1)
    rw [toM_eye] at s4
    have s6 := root_one s3 s4
    rw [s6, Matrix.mul_one] at s5
    have hv0 : mat 1 VL 0 0 0 ≠ 0 := by
      intro hz
      have hz' : mat 1 VL 0 = 0 := (h11 _ _).2 hz
      have h2 := b4 (by rw [hcap, hz']; simp)
      have h3 := congrFun (congrFun h2 0) 0
      simp only [Matrix.mul_apply, Finset.univ_unique, Finset.sum_singleton, Fin.default_eq_zero, Matrix.zero_apply, conjTranspose_apply] at h3
      rw [Fin.sum_univ_two] at h3
      rw [Fin.sum_univ_two] at h3
      have h5 : tall 1 VL 0 0 = 0 := hz
      have h6 : tall 1 upTen 0 0 = 1 := rfl
      have h7 : tall 1 upTen 1 0 = 0 := by simp [tall, upTen]
      have h8 : ∀ i, rest 1 X.rand i 0 = 0.00005 := by intro i; rw [rest, hr]; norm_num
      have h9 : tall 1 VL 1 0 = mat 1 VL 1 0 0 := rfl
      rw [h5, h6, h7, h8, h8, h9] at h3
      have h10 : mat 1 VL 1 0 0 = 0 := by
        have hstar : star (0.00005 : ℂ) ≠ 0 := star_ne_zero.2 (by norm_num)
        have h55 : (0.00005 : ℂ) ≠ 0 := by norm_num
        simpa [hstar, h55] using h3
      have h12 := congrFun (congrFun b1 0) 0
      have hz1 : mat 1 VL 1 = 0 := (h11 _ _).2 h10
      simp only [TdvpInf.cap, sum_range_succ, range_zero, sum_empty, hz', hz1, Matrix.mul_zero, add_zero, Matrix.zero_apply, Matrix.one_apply_eq] at h12
      exact zero_ne_one h12
    have hk0 : toM 1 k.v = 0 := by
      have h2 := hk
      rw [hcap, up_zero, conjTranspose_one, Matrix.one_mul, sub_self, zero_add, up_capH, up_zero, up_one, he, up_capH, up_zero, up_one, toM_eye] at h2
      simp only [conjTranspose_one, Matrix.mul_zero, conjTranspose_zero, smul_zero, add_zero, Matrix.trace_smul, Matrix.trace_one, Fintype.card_fin,
        Nat.cast_one, smul_eq_mul, mul_one, sub_self] at h2
      have h3 := congrFun (congrFun h2 0) 0
      simpa [Matrix.trace, (h11 _ _)] using h3
    have he' : e = -2 * B := by
      rw [he, up_capH, up_zero, up_one, toM_eye]
      simp
    have hxv : toM 1 x.v = (-4 * B) • (mat 1 VL 0)ᴴ := by
      rw [hx, xopt, up_capH, hk0, toM_eye, s5, s6, up_zero, up_one]
      simp only [transpose_zero, hcap, Matrix.mul_zero, Matrix.zero_mul, add_zero, Matrix.one_mul, Matrix.mul_one, smul_zero, conjTranspose_one,
        conjTranspose_zero, sum_range_succ, range_zero, sum_empty, zero_add, up_zero, up_one]
      rw [tfi_bond J B 0 (by omega) 0 (by omega) 0 (by omega) 0 (by omega), tfi_bond J B 0 (by omega) 0 (by omega) 1 (by omega) 0 (by omega)]
      simp only [ne_eq, not_true_eq_false, and_self, if_true, if_false, and_false, zero_ne_one, zero_add, zero_smul, add_zero, and_true]
      rw [← add_smul]
      congr 1
      ring
    have hx0 : toM 1 x.v 0 0 ≠ 0 := by
      rw [hxv, Matrix.smul_apply, smul_eq_mul, conjTranspose_apply]
      exact mul_ne_zero (mul_ne_zero (by norm_num) hB) (star_ne_zero.2 hv0)
    refine ⟨Adot, nx, k, he' ▸ h1, ?_, ?_⟩
    · rw [leftGauge_iff, hcap, hAd, s5, Matrix.mul_one, Matrix.mul_one]
      intro hz
      have := congrFun (congrFun hz 0) 0
      rw [conjTranspose_apply, Matrix.mul_apply] at this
      simp only [Finset.univ_unique, Finset.sum_singleton, Fin.default_eq_zero, Matrix.zero_apply, star_eq_zero, mul_eq_zero] at this
      exact this.elim hv0 hx0
    · rintro rfl
      have h2 : ((toM 1 x.v)ᴴ * toM 1 x.v).trace = 0 := by rw [← hn]; norm_num
      exact hx0 (by rw [Matrix.trace_conjTranspose_mul_self_eq_zero_iff.1 h2]; rfl)

/-! ## Examples -/

/-- An entangled state: the site index copies the left index, then a Hadamard rotation. -/
def hadTen : Ten ℂ := ⟨2, 2, 2, fun i j s => if s = i then (if i = 1 ∧ j = 1 then -1 else 1) * ((Real.sqrt 2)⁻¹ : ℝ) else 0⟩

/-- Half the unit matrix. -/
def halfMat : Mat ℂ := ⟨2, 2, fun i j => if i = j then 1 / 2 else 0⟩

theorem half_eq : toM 2 halfMat.v = (1 / 2 : ℂ) • 1 := by
  ext i j; fin_cases i <;> fin_cases j <;> simp [toM, halfMat]

theorem had_sq : (((Real.sqrt 2)⁻¹ : ℝ) : ℂ) * ((Real.sqrt 2)⁻¹ : ℝ) = 1 / 2 := by
  rw [← Complex.ofReal_mul, ← mul_inv, Real.mul_self_sqrt (by norm_num)]; norm_num

theorem had_zero : mat 2 hadTen 0 = (((Real.sqrt 2)⁻¹ : ℝ) : ℂ) • !![1, 1; 0, 0] := by
  ext i j; fin_cases i <;> fin_cases j <;> simp [mat, hadTen]

theorem had_one : mat 2 hadTen 1 = (((Real.sqrt 2)⁻¹ : ℝ) : ℂ) • !![0, 0; 1, -1] := by
  ext i j; fin_cases i <;> fin_cases j <;> simp [mat, hadTen]

theorem had_star : star (((Real.sqrt 2)⁻¹ : ℝ) : ℂ) = ((Real.sqrt 2)⁻¹ : ℝ) := Complex.conj_ofReal _

theorem had_left (Y : Matrix (Fin 2) (Fin 2) ℂ) : TdvpInf.cap 2 (mat 2 hadTen) (mat 2 hadTen) Y
    = !![(Y 0 0 + Y 1 1) / 2, (Y 0 0 - Y 1 1) / 2; (Y 0 0 - Y 1 1) / 2, (Y 0 0 + Y 1 1) / 2] := by
  simp only [TdvpInf.cap, sum_range_succ, range_zero, sum_empty, zero_add, had_zero, had_one, conjTranspose_smul, had_star, Matrix.smul_mul, Matrix.mul_smul, smul_smul, had_sq]
  ext i j; fin_cases i <;> fin_cases j <;> simp [Matrix.mul_apply, Fin.sum_univ_two] <;> ring

theorem had_right (F : Matrix (Fin 2) (Fin 2) ℂ) : ∑ s ∈ range 2, mat 2 hadTen s * F * (mat 2 hadTen s)ᴴ
    = !![(F 0 0 + F 0 1 + F 1 0 + F 1 1) / 2, 0; 0, (F 0 0 - F 0 1 - F 1 0 + F 1 1) / 2] := by
  simp only [sum_range_succ, range_zero, sum_empty, zero_add, had_zero, had_one, conjTranspose_smul, had_star, Matrix.smul_mul, Matrix.mul_smul, smul_smul, had_sq]
  ext i j; fin_cases i <;> fin_cases j <;> simp [Matrix.mul_apply, Matrix.vecMul, dotProduct, Fin.sum_univ_two] <;> ring

theorem had_state : State 2 halfMat hadTen := by
  refine ⟨?_, ?_, ?_, ?_, fun F hF => ⟨2 * F 0 0, ?_⟩⟩
  · have := had_left 1
    simp only [TdvpInf.cap, Matrix.mul_one] at this
    rw [this]
    ext i j; fin_cases i <;> fin_cases j <;> simp
  · rw [had_right, half_eq]
    ext i j; fin_cases i <;> fin_cases j <;> simp
  · rw [half_eq]; simp
  · refine ⟨1 / 4, 1, by norm_num, by norm_num, ?_, ?_⟩
    · rw [half_eq, ← sub_smul]
      exact PosSemidef.one.smul (by rw [Complex.le_def]; norm_num)
    · rw [half_eq, ← sub_smul]
      exact PosSemidef.one.smul (by rw [Complex.le_def]; norm_num)
  · rw [had_right] at hF
    have e00 := congrFun (congrFun hF 0) 0
    have e01 := congrFun (congrFun hF 0) 1
    have e10 := congrFun (congrFun hF 1) 0
    simp at e00 e01 e10
    rw [half_eq]
    ext i j; fin_cases i <;> fin_cases j
    · simp; ring
    · simp [← e01]
    · simp [← e10]
    · simp
      rw [← e01, ← e10] at e00
      linear_combination 2 * e00

theorem had_gapped : Gapped 2 (mat 2 hadTen) := by
  intro μ Y _ h hμ
  rw [had_left] at h
  have e00 := congrFun (congrFun h 0) 0
  have e01 := congrFun (congrFun h 0) 1
  have e10 := congrFun (congrFun h 1) 0
  have e11 := congrFun (congrFun h 1) 1
  simp at e00 e01 e10 e11
  have h0 : μ ≠ 0 := by rintro rfl; simp at hμ; linarith
  have h1 : Y 0 0 = Y 1 1 := mul_left_cancel₀ h0 (e00.symm.trans e11)
  rw [h1, sub_self, zero_div] at e01 e10
  have h2 := (mul_eq_zero.1 e01.symm).resolve_left h0
  have h3 := (mul_eq_zero.1 e10.symm).resolve_left h0
  refine ⟨Y 1 1, ?_⟩
  ext i j; fin_cases i <;> fin_cases j <;> simp [h1, h2, h3]

theorem had_shapes (J B : ℂ) : Shapes 2 halfMat hadTen (tfiFirst J B) (tfiLast B) := ⟨rfl, rfl, rfl, rfl, rfl, rfl, rfl, rfl, rfl, rfl, rfl, rfl⟩

/-- Random numbers that are orthogonal to this tensor. -/
def hadRand (k _ : ℕ) : ℝ := if k = 1 ∨ k = 2 then 1 / 2 else 0

/-- All hypotheses of the theorems about C101 can be met with an entangled state and the transverse-field Ising model. -/
example : ∃ X : Ext, ExtSpec X ∧ Shapes 2 halfMat hadTen (tfiFirst 1 (1 / 2)) (tfiLast (1 / 2)) ∧ State 2 halfMat hadTen ∧ Gapped 2 (mat 2 hadTen)
    ∧ noise 2 X.rand < 1
    ∧ (∀ c < 2, ∀ j < 2, ∑ s ∈ range 2, ∑ i ∈ range 2, star (hadTen.v i j s) * ((X.rand (s * 2 + i) c * 0.0001 : ℝ) : ℂ) = 0)
    ∧ ∃ q, tdvpUpdate X halfMat hadTen [tfiFirst 1 (1 / 2), tfiLast (1 / 2)] = .ok q := by
  obtain ⟨X, hX, hr, -⟩ := exists_ext (fun _ => 0) hadRand
  obtain ⟨Adot, e, nx, k, h, -⟩ := C101_returns hX (had_shapes 1 (1 / 2)) had_state
  refine ⟨X, hX, had_shapes _ _, had_state, had_gapped, ?_, ?_, _, h⟩
  · rw [hr]; simp [noise, hadRand, sum_range_succ]; norm_num
  · intro c _ j _
    rw [hr]; simp [hadRand, hadTen, sum_range_succ]

example (B : ℂ) (hB : B ≠ 0) : ∃ X : Ext, ExtSpec X ∧ ∃ Adot nx k, tdvpUpdate X (eye 1) upTen [tfiFirst 1 B, tfiLast B] = .ok (Adot, -2 * B, nx, k) ∧ ¬LeftGauge 1 upTen Adot ∧ nx ≠ 0 := by
  obtain ⟨X, hX, hr, -⟩ := exists_ext (fun _ => 0) (fun _ _ => 1 / 2)
  exact ⟨X, hX, (C101_violated_gauge hX hr (J := 1) hB).2⟩

/-- Three states per site. -/
example {X : Ext} (hO : X.O.Spec) (mpo : List (Mpo ℂ)) : ∀ q, tdvpUpdate X (eye 1) ⟨1, 1, 3, fun _ _ s => if s = 0 then 1 else 0⟩ mpo ≠ .ok q :=
  C101_violated_dim hO (by norm_num) rfl (by norm_num) (by norm_num) mpo

/-- Any MPO of `TFI` for three sites. -/
example {X : Ext} (J B : ℂ) : ∀ q, tdvpUpdate X (eye 1) upTen [tfiFirst J B, tfiBulk J B, tfiLast B] ≠ .ok q :=
  C101_violated_length (by show (3 : ℕ) ≠ 1; norm_num) _

end
end PyTeN.TdvpInf
