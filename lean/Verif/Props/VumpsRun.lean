import Verif.Props.Vumps
import Verif.Props.RegaugeImps

/-! # Property C98, continued: `VUMPSengine.__init__`, `regauge` and `simulate` -/

namespace PyTeN.Vumps
open Finset Transfer Regauge Steady Matrix
noncomputable section

/-! ## `regauge` -/

section
variable {D : ℕ} {T : Ten ℂ} {pinv η : ℝ} {q p : ℕ → ℕ → ℂ}

theorem chain_one (t : Ten ℂ) (s i j : ℕ) (hj : j < t.r) : chain [t] [s] i j = t.v i j s := by
  simp only [chain]
  rw [sum_eq_single j]
  · simp [delta]
  · intro k _ hk; simp [delta, hk]
  · intro h; simp at h; omega

theorem cell_one (hr : T.r = D) (s : ℕ) : cellM D [T] [s] = toM D fun i j => T.v i j s := by
  ext i j
  exact chain_one T s i j (by rw [hr]; exact j.2)

theorem one_core (hl : T.l = D) (hr : T.r = D) {X Y : Mat ℂ} (hXr : X.r = D) (hXc : X.c = D) (hYr : Y.r = D) (hYc : Y.c = D) :
    ∃ T1 out, absorbL X T = .ok T1 ∧ absorbR T1 Y = .ok out ∧ out.l = D ∧ out.r = D ∧ out.d = T.d ∧
      ∀ s, cellM D [out] [s] = toM D X.v * cellM D [T] [s] * toM D Y.v := by
  refine ⟨_, _, absorbL_ok (hXc.trans hl.symm), absorbR_ok (hr.trans hYr.symm), hXr, hYc, rfl, fun s => ?_⟩
  rw [cell_one hr, cell_one (by exact hYc), ← toM_mmul, ← toM_mmul]
  refine toM_ext.2 fun i hi j hj => ?_
  simp only [mmul, hl, hr]

theorem sum_one (d n : ℕ) (F : List ℕ → Matrix (Fin n) (Fin n) ℂ) (i j : Fin n) : sumM [d] F i j = ∑ s ∈ range d, F [s] i j := by
  simp [sumM, sumCfg]

theorem left_one (hl : T.l = D) (hr : T.r = D) (h : sumM [T.d] (fun s => (cellM D [T] s)ᴴ * cellM D [T] s) = 1) : LeftOrth T := by
  intro j hj j' hj'
  rw [hr] at hj hj'
  have := congrFun (congrFun h ⟨j, hj⟩) ⟨j', hj'⟩
  rw [sum_one] at this
  rw [hl]
  refine Eq.trans (sum_congr rfl fun s _ => ?_) (this.trans ?_)
  · rw [cell_one hr, Matrix.mul_apply, Finset.sum_range]; rfl
  · simp [delta, Matrix.one_apply]

theorem right_one (hl : T.l = D) (hr : T.r = D) (h : sumM [T.d] (fun s => cellM D [T] s * (cellM D [T] s)ᴴ) = 1) : RightOrth T := by
  intro j hj j' hj'
  rw [hl] at hj hj'
  have := congrFun (congrFun h ⟨j, hj⟩) ⟨j', hj'⟩
  rw [sum_one] at this
  rw [hr]
  refine Eq.trans (sum_congr rfl fun s _ => ?_) (this.trans ?_)
  · rw [cell_one hr, Matrix.mul_apply, Finset.sum_range]; rfl
  · simp [delta, Matrix.one_apply]

theorem root_normal {dir : Dir} (h : Normal dir pinv D [T] η q) : Normal dir pinv D [divT (Real.sqrt η) T] 1 q := by
  have := h.scale (Real.sqrt_pos.2 h.pos)
  simp only [List.map_cons, List.map_nil, List.length_singleton, mul_one, Real.sq_sqrt h.pos.le, div_self h.pos.ne'] at this
  exact this

variable {eigh : Lanczos.Eigh} {eigs : ℕ → Eigs} {fuel k : ℕ}

theorem regaugeL_core (he : EighSpec eigh) (hp : 0 ≤ pinv) (hl : T.l = D) (hr : T.r = D) (hN : Normal .right pinv D [T] 1 q) {v : Vec ℂ} {f : ℕ → ℕ → ℂ}
    {c : ℂ} (hc : c ≠ 0) (hv : IsMat v D f) (hf : ∀ i < D, ∀ j < D, f i j = c * q i j) :
    ∃ w wi u T1 out, density eigh pinv D v = .ok (w, wi, u) ∧ absorbL (transp (u.dot (diagMat (w.map Real.sqrt)))) T = .ok T1 ∧
      absorbR T1 (transp ((diagMat (wi.map Real.sqrt)).dot u.herm)) = .ok out ∧ out.l = D ∧ out.r = D ∧ out.d = T.d ∧ LeftOrth out ∧
      toM D (u.dot (diagMat (w.map Real.sqrt))).v * (toM D (u.dot (diagMat (w.map Real.sqrt))).v)ᴴ = toM D q ∧
      toM D (transp (u.dot (diagMat (w.map Real.sqrt)))).v * toM D (transp ((diagMat (wi.map Real.sqrt)).dot u.herm)).v = 1 ∧
      ∀ s, cellM D [out] [s] = toM D (transp (u.dot (diagMat (w.map Real.sqrt)))).v * cellM D [T] [s] *
        toM D (transp ((diagMat (wi.map Real.sqrt)).dot u.herm)).v := by
  obtain ⟨w, wi, u, hw, hS⟩ := density_spec he hp hc hv hf hN.dens
  obtain ⟨S, Si, s1, s2, s3, s4, s5, s6, s7, s8, s9⟩ := hS.roots hp
  have hX : toM D (transp (u.dot (diagMat (w.map Real.sqrt)))).v = (toM D u.v * S)ᵀ := by
    rw [toM_transp, toM_dot _ _ hS.c, s1]
  have hY : toM D (transp ((diagMat (wi.map Real.sqrt)).dot u.herm)).v = (Si * (toM D u.v)ᴴ)ᵀ := by
    rw [toM_transp, toM_dot _ _ (by simp [diagMat, hS.inv, hS.len]), s2, toM_herm]
  have hXY : toM D (transp (u.dot (diagMat (w.map Real.sqrt)))).v * toM D (transp ((diagMat (wi.map Real.sqrt)).dot u.herm)).v = 1 := by
    rw [hX, hY, ← transpose_mul, Matrix.mul_assoc, ← Matrix.mul_assoc _ _ S, hS.iso, Matrix.one_mul, s8, transpose_one]
  have hXX : (toM D (transp (u.dot (diagMat (w.map Real.sqrt)))).v)ᴴ * toM D (transp (u.dot (diagMat (w.map Real.sqrt)))).v
      = (1 : ℂ) • (toM D q)ᵀ := by
    rw [hX, s9, one_smul]
    rw [transpose_mul, s5, conjTranspose_mul, s3, transpose_mul, transpose_mul, transpose_mul, s5]
    have : (toM D u.v)ᵀᴴ = (toM D u.v)ᴴᵀ := rfl
    rw [this]
    simp only [Matrix.mul_assoc]
  obtain ⟨T1, out, r1, r2, r3, r4, r5, r6⟩ := one_core (T := T) hl hr
    (X := transp (u.dot (diagMat (w.map Real.sqrt)))) (Y := transp ((diagMat (wi.map Real.sqrt)).dot u.herm))
    (by simp [transp, Mat.dot, diagMat, hS.len]) (by simp [transp, Mat.dot, hS.r]) (by simp [transp, Mat.dot, Mat.herm, hS.r])
    (by simp [transp, Mat.dot, diagMat, hS.inv, hS.len])
  refine ⟨w, wi, u, T1, out, hw, r1, r2, r3, r4, r5, left_one r3 r4 ?_, ?_, hXY, r6⟩
  · have := gauge_left (d := 1) hN.fixL hXX (by rw [hXY, one_smul])
    rw [star_one, mul_one, one_smul] at this
    rw [← this, r5]
    refine sumM_congr fun s hs => ?_
    obtain ⟨x, rfl⟩ : ∃ x, s = [x] := List.length_eq_one_iff.1 hs.length_eq.symm
    rw [r6]
  · rw [toM_dot _ _ hS.c, s1, s9, conjTranspose_mul, s3]
    simp only [Matrix.mul_assoc]

theorem regaugeR_core (he : EighSpec eigh) (hp : 0 ≤ pinv) (hl : T.l = D) (hr : T.r = D) (hN : Normal .left pinv D [T] 1 p) {v : Vec ℂ} {f : ℕ → ℕ → ℂ}
    {c : ℂ} (hc : c ≠ 0) (hv : IsMat v D f) (hf : ∀ i < D, ∀ j < D, f i j = c * p i j) :
    ∃ w wi u T1 out, density eigh pinv D v = .ok (w, wi, u) ∧ absorbL ((diagMat (wi.map Real.sqrt)).dot u.herm) T = .ok T1 ∧
      absorbR T1 (u.dot (diagMat (w.map Real.sqrt))) = .ok out ∧ out.l = D ∧ out.r = D ∧ out.d = T.d ∧ RightOrth out ∧
      toM D (u.dot (diagMat (w.map Real.sqrt))).v * (toM D (u.dot (diagMat (w.map Real.sqrt))).v)ᴴ = toM D p ∧
      toM D ((diagMat (wi.map Real.sqrt)).dot u.herm).v * toM D (u.dot (diagMat (w.map Real.sqrt))).v = 1 ∧
      ∀ s, cellM D [out] [s] = toM D ((diagMat (wi.map Real.sqrt)).dot u.herm).v * cellM D [T] [s] *
        toM D (u.dot (diagMat (w.map Real.sqrt))).v := by
  obtain ⟨w, wi, u, hw, hS⟩ := density_spec he hp hc hv hf hN.dens
  obtain ⟨S, Si, s1, s2, s3, s4, s5, s6, s7, s8, s9⟩ := hS.roots hp
  have hY : toM D (u.dot (diagMat (w.map Real.sqrt))).v = toM D u.v * S := by
    rw [toM_dot _ _ hS.c, s1]
  have hX : toM D ((diagMat (wi.map Real.sqrt)).dot u.herm).v = Si * (toM D u.v)ᴴ := by
    rw [toM_dot _ _ (by simp [diagMat, hS.inv, hS.len]), s2, toM_herm]
  have hXY : toM D ((diagMat (wi.map Real.sqrt)).dot u.herm).v * toM D (u.dot (diagMat (w.map Real.sqrt))).v = 1 := by
    rw [hX, hY, Matrix.mul_assoc, ← Matrix.mul_assoc _ _ S, hS.iso, Matrix.one_mul, s8]
  have hYY : toM D (u.dot (diagMat (w.map Real.sqrt))).v * (toM D (u.dot (diagMat (w.map Real.sqrt))).v)ᴴ = toM D p := by
    rw [hY, s9, conjTranspose_mul, s3]
    simp only [Matrix.mul_assoc]
  obtain ⟨T1, out, r1, r2, r3, r4, r5, r6⟩ := one_core (T := T) hl hr
    (X := (diagMat (wi.map Real.sqrt)).dot u.herm) (Y := u.dot (diagMat (w.map Real.sqrt)))
    (by simp [Mat.dot, diagMat, hS.inv, hS.len]) (by simp [Mat.dot, Mat.herm, hS.r]) (by simp [Mat.dot, hS.r])
    (by simp [Mat.dot, diagMat, hS.len])
  refine ⟨w, wi, u, T1, out, hw, r1, r2, r3, r4, r5, right_one r3 r4 ?_, hYY, hXY, r6⟩
  have := gauge_right (R := 1) (c := 1) (d := 1) hN.fixR (by rw [Matrix.mul_one, hYY, one_smul]) (by rw [hXY, one_smul])
  rw [star_one, mul_one, one_smul] at this
  rw [← this, r5]
  refine sumM_congr fun s hs => ?_
  obtain ⟨x, rfl⟩ : ∃ x, s = [x] := List.length_eq_one_iff.1 hs.length_eq.symm
  rw [r6, Matrix.mul_one]

/-- The matrices of a tensor, for the statements below. -/
def mat (D : ℕ) (T : Ten ℂ) (s : ℕ) : Matrix (Fin D) (Fin D) ℂ := fun i j => T.v i j s

theorem cell_mat (hr : T.r = D) (s : ℕ) : cellM D [T] [s] = mat D T s := cell_one hr s

/-- Spec: `T` and `out` are the tensor before, divided by the root of the eigenvalue, and after the transformation to the left gauge by
`g`, which diagonalises the dominant eigenmatrix `q`. -/
structure LeftGauge (D : ℕ) (A T out : Ten ℂ) (g : Mat ℂ) (η : ℝ) (q : ℕ → ℕ → ℂ) : Prop where
  resc : T = ⟨A.l, A.r, A.d, fun i j s => A.v i j s / (Real.sqrt η : ℂ)⟩
  l : out.l = D
  r : out.r = D
  d : out.d = A.d
  orth : LeftOrth out
  gauge : ∀ s, (toM D g.v)ᵀ * mat D T s = mat D out s * (toM D g.v)ᵀ
  inv : IsUnit (toM D g.v)
  dens : toM D g.v * (toM D g.v)ᴴ = toM D q

/-- Spec: mirror image of `LeftGauge`. -/
structure RightGauge (D : ℕ) (A T out : Ten ℂ) (g : Mat ℂ) (η : ℝ) (q : ℕ → ℕ → ℂ) : Prop where
  resc : T = ⟨A.l, A.r, A.d, fun i j s => A.v i j s / (Real.sqrt η : ℂ)⟩
  l : out.l = D
  r : out.r = D
  d : out.d = A.d
  orth : RightOrth out
  gauge : ∀ s, mat D T s * toM D g.v = toM D g.v * mat D out s
  inv : IsUnit (toM D g.v)
  dens : toM D g.v * (toM D g.v)ᴴ = toM D q

theorem regaugeL_run (he : EighSpec eigh) (hE : ∀ i, EigsLR (eigs i)) (hp : 0 ≤ pinv) {A : Ten ℂ} (hl : A.l = D) (hr : A.r = D)
    (hN : Normal .right pinv D [A] η q) {μ : ℂ} {v : Vec ℂ} (h : tmEigs eigs fuel .right k A = .ok (μ, v)) :
    ∃ out y T, regaugeL eigh eigs fuel k pinv A = .ok (out, y, T) ∧ LeftGauge D A T out y η q := by
  obtain ⟨rfl, c, f, hc, hv, hf⟩ := tm_lead hE hl hr hN h
  have hN1 := root_normal hN
  obtain ⟨w, wi, u, T1, out, a1, a2, a3, a4, a5, a6, a7, a8, a9, a10⟩ := regaugeL_core (T := divT (Real.sqrt η) A) he hp hl hr hN1 hc hv hf
  refine ⟨out, _, divT (Real.sqrt η) A, ?_, rfl, a4, a5, a6, a7, fun s => ?_, ?_, a8⟩
  · simp only [regaugeL, andThen, h, unitEta, Complex.ofReal_re, if_neg (not_le.2 hN.pos), hl, a1, a2, a3]
  · rw [← cell_mat a5, a10, cell_mat (T := divT (Real.sqrt η) A) hr, ← toM_transp, Matrix.mul_assoc _ _ (toM D (transp _).v), mul_eq_one_comm.1 a9, Matrix.mul_one]
  · rw [← isUnit_transpose, ← toM_transp]
    exact IsUnit.of_mul_eq_one _ a9

theorem regaugeR_run (he : EighSpec eigh) (hE : ∀ i, EigsLR (eigs i)) (hp : 0 ≤ pinv) {A : Ten ℂ} (hl : A.l = D) (hr : A.r = D)
    (hN : Normal .left pinv D [A] η p) {μ : ℂ} {v : Vec ℂ} (h : tmEigs eigs fuel .left k A = .ok (μ, v)) :
    ∃ out x, regaugeR eigh eigs fuel k pinv A = .ok (out, x) ∧ RightGauge D A (divT (Real.sqrt η) A) out x η p := by
  obtain ⟨rfl, c, f, hc, hv, hf⟩ := tm_lead hE hl hr hN h
  have hN1 := root_normal hN
  obtain ⟨w, wi, u, T1, out, a1, a2, a3, a4, a5, a6, a7, a8, a9, a10⟩ := regaugeR_core (T := divT (Real.sqrt η) A) he hp hl hr hN1 hc hv hf
  refine ⟨out, _, ?_, rfl, a4, a5, a6, a7, fun s => ?_, ?_, a8⟩
  · simp only [regaugeR, andThen, h, unitEta, Complex.ofReal_re, if_neg (not_le.2 hN.pos), hr, a1, a2, a3]
  · rw [← cell_mat a5, a10, cell_mat (T := divT (Real.sqrt η) A) hr, ← Matrix.mul_assoc, ← Matrix.mul_assoc, mul_eq_one_comm.1 a9, Matrix.one_mul]
  · exact IsUnit.of_mul_eq_one _ (mul_eq_one_comm.1 a9)

/-- **C98, `regauge(gauge='left')`**: a tensor with a unique dominant eigenmatrix `q` of its transfer operator is divided by the root of
the eigenvalue and transformed to the left gauge by the matrix that is returned. -/
theorem C98_regauge_left (he : EighSpec eigh) (hE : ∀ i, EigsLR (eigs i)) (hp : 0 ≤ pinv) {A : Ten ℂ} (hl : A.l = D) (hr : A.r = D)
    (hN : Normal .right pinv D [A] η q) {out y T} (h : regaugeL eigh eigs fuel k pinv A = .ok (out, y, T)) : LeftGauge D A T out y η q := by
  obtain ⟨⟨μ, v⟩, h1, -⟩ := andThen_ok.1 h
  obtain ⟨out', y', T', h2, h3⟩ := regaugeL_run he hE hp hl hr hN h1
  obtain ⟨rfl, rfl, rfl⟩ : out' = out ∧ y' = y ∧ T' = T := by
    have := h2.symm.trans h
    simpa using this
  exact h3

/-- **C98, `regauge(gauge='right')`**. -/
theorem C98_regauge_right (he : EighSpec eigh) (hE : ∀ i, EigsLR (eigs i)) (hp : 0 ≤ pinv) {A : Ten ℂ} (hl : A.l = D) (hr : A.r = D)
    (hN : Normal .left pinv D [A] η p) {out x} (h : regaugeR eigh eigs fuel k pinv A = .ok (out, x)) :
    RightGauge D A (divT (Real.sqrt η) A) out x η p := by
  obtain ⟨⟨μ, v⟩, h1, -⟩ := andThen_ok.1 h
  obtain ⟨out', x', h2, h3⟩ := regaugeR_run he hE hp hl hr hN h1
  obtain ⟨rfl, rfl⟩ : out' = out ∧ x' = x := by
    have := h2.symm.trans h
    simpa using this
  exact h3

end

/-! ## `__init__` -/

/-- **C98, `__init__`**: for one tensor and one MPO matrix the constructor gives the engine that the other theorems are about. -/
theorem C98_init {B : ℕ} {A : Ten ℂ} {W : Mpo ℂ} (hl : W.l = B) (hr : W.r = B) (hB : 0 < B) :
    ∃ e, init [A] [W] = .ok e ∧ Built A.l B W e ∧ e.mps = A ∧ e.it = 1 := by
  subst hl
  have h0 : ¬ (W.l = 0 ∨ W.r = 0) := by omega
  have h : init [A] [W] = if W.l = 0 ∨ W.r = 0 then .error .index else .ok _ := rfl
  rw [if_neg h0] at h
  refine ⟨_, h, ⟨rfl, rfl, ?_, ?_⟩, rfl, rfl⟩
  · simp only [lastRowMpo, halfW]
    rw [if_neg hB.ne']
    congr 2
    funext a c s t
    simp
  · simp only [firstColMpo, halfW]
    rw [if_neg (by omega), if_pos ⟨trivial, trivial, trivial⟩]
    congr 2
    funext a c s t
    simp

/-- **C98, `__init__`**: longer unit cells are refused. -/
theorem C98_init_raises {mps : List (Ten ℂ)} {mpo : List (Mpo ℂ)} (h : 1 < mps.length ∨ 1 < mpo.length) : init mps mpo = .error .value := by
  unfold init
  split_ifs with h1 h2
  · rfl
  · rfl
  · omega

/-! ## `simulate` -/

section
variable {o : Opts} {e : Eng}

/-- The state before the step with number `i`. -/
def stateAt (s : St) (us : List Out) : ℕ → St
  | 0 => s
  | i + 1 => ((us[i]?).map Out.st).getD s

/-- Spec: what a run of at most `k+1` steps does: each step starts from the state which the one before has left, it goes on as long as the
norm of the gradient, which is measured at the beginning of a step, is not less than `epsilon`, and it stops then or after `k+1` steps. -/
structure Runs (X : ℕ → Ext) (o : Opts) (e : Eng) (k : ℕ) (s : St) (us : List Out) : Prop where
  one : 1 ≤ us.length
  most : us.length ≤ k + 1
  steps : ∀ i (h : i < us.length), step (X i) o e (stateAt s us i) = .ok us[i]
  goes : ∀ i (h : i + 1 < us.length), o.epsilon ≤ us[i].grad
  stops : us.length ≤ k → ∃ u, us.getLast? = some u ∧ u.grad < o.epsilon

theorem loop_runs : ∀ {k : ℕ} {X : ℕ → Ext} {it : ℤ} {s : St} {us : List Out} {it' : ℤ}, loop o e X k it s = .ok (us, it') →
    Runs X o e k s us ∧ it' = it + (min us.length k : ℕ) := by
  intro k
  induction k with
  | zero =>
    intro X it s us it' h
    unfold loop at h
    split at h
    · cases h
    · rename_i u hu
      cases h
      refine ⟨⟨by simp, by simp, fun i hi => ?_, fun i hi => by simp at hi, fun h => by simp at h⟩, by simp⟩
      obtain rfl : i = 0 := by simpa using hi
      exact hu
  | succ k ih =>
    intro X it s us it' h
    unfold loop at h
    split at h
    · cases h
    · rename_i u hu
      split_ifs at h with hg
      · cases h
        refine ⟨⟨by simp, by simp, fun i hi => ?_, fun i hi => by simp at hi, fun _ => ⟨u, rfl, hg⟩⟩, by simp⟩
        obtain rfl : i = 0 := by simpa using hi
        exact hu
      · split at h
        · cases h
        · rename_i us1 it1 h1
          cases h
          obtain ⟨r, rfl⟩ := ih h1
          refine ⟨⟨by simp, by simp [r.most], fun i hi => ?_, fun i hi => ?_, fun h => ?_⟩, ?_⟩
          · cases i with
            | zero => exact hu
            | succ i =>
              have h2 : i < us1.length := by simpa using hi
              have := r.steps i h2
              rw [List.getElem_cons_succ, ← this]
              congr 1
              cases i with
              | zero => simp [stateAt]
              | succ i =>
                simp only [stateAt, List.getElem?_cons_succ, List.getElem?_eq_getElem (show i < us1.length by omega), Option.map_some, Option.getD_some]
          · cases i with
            | zero => exact not_lt.1 hg
            | succ i => exact r.goes i (by simpa using hi)
          · obtain ⟨w, h2, h3⟩ := r.stops (by simpa using h)
            refine ⟨w, ?_, h3⟩
            rw [List.getLast?_cons, h2]; rfl
          · have := r.most
            have := r.one
            rw [List.length_cons]
            push_cast
            omega

theorem Runs.shape {X : ℕ → Ext} {k : ℕ} {s : St} {us : List Out} (r : Runs X o e k s us) (hO : ∀ i, (X i).O.Spec) (hP : ∀ i, PolarSpec (X i).polar)
    (hd : 0 < s.mps.d) : ∀ i (h : i < us.length), Gauged s.mps us[i].st.A us[i].st.B ∧ us[i].st.mps.l = s.mps.l ∧ us[i].st.mps.r = s.mps.r ∧
      us[i].st.mps.d = s.mps.d ∧ us[i].st.mat.r = s.mps.l ∧ us[i].st.mat.c = s.mps.l := by
  intro i
  induction i with
  | zero =>
    intro h
    obtain ⟨a1, -, a2, a3, a4, a5, a6, -⟩ := C98_isometric (hO 0) (hP 0) hd (r.steps 0 h)
    exact ⟨a1, a2, a3, a4, a5, a6⟩
  | succ i ih =>
    intro h
    obtain ⟨-, b2, b3, b4, -, -⟩ := ih (by omega)
    have hst : stateAt s us (i + 1) = us[i].st := by
      simp only [stateAt, List.getElem?_eq_getElem (show i < us.length by omega), Option.map_some, Option.getD_some]
    have := r.steps (i + 1) h
    rw [hst] at this
    obtain ⟨a1, -, a2, a3, a4, a5, a6, -⟩ := C98_isometric (hO (i + 1)) (hP (i + 1)) (by rw [b4]; exact hd) this
    exact ⟨⟨a1.Al.trans b2, a1.Ar.trans b3, a1.Ad.trans b4, a1.Bl.trans b2, a1.Br.trans b3, a1.Bd.trans b4, a1.left, a1.right⟩, a2.trans b2, a3.trans b3,
      a4.trans b4, a5.trans b2, a6.trans b2⟩

variable {D : ℕ} {η : ℝ} {p q : ℕ → ℕ → ℂ} {X : ℕ → Ext} {Nmax : ℤ} {s : St} {us : List Out} {e' : Eng}

/-- **C98, `simulate`**: the run begins with the tensor of the engine in the left and in the right gauge and the identity; every step
leaves tensors of the same shape, isometric in the two directions; the run stops as soon as the gradient is below `epsilon`, or when the
counter has reached `Nmax`; the energy of the last step is returned and its tensor is kept. -/
theorem C98_simulate (he : EighSpec (X 0).eigh) (hE : ∀ i, EigsLR ((X 0).eigs i)) (hO : ∀ i, (X i).O.Spec) (hP : ∀ i, PolarSpec (X i).polar)
    (hl : e.mps.l = D) (hr : e.mps.r = D) (hd : 0 < e.mps.d) (hR : Normal .right 1e-14 D [e.mps] η q) (hL : Normal .left 1e-14 D [e.mps] η p)
    (h : simulate X o e Nmax = .ok (s, us, e')) :
    (∃ y x, LeftGauge D e.mps s.mps s.A y η q ∧ RightGauge D s.mps s.mps s.B x 1 p) ∧ s.mat.r = D ∧ s.mat.c = D ∧ (∀ i j, s.mat.v i j = delta ℂ i j) ∧
    Runs (fun i => X (i + 1)) o e (Nmax - e.it).toNat s us ∧
    (∀ u ∈ us, u.st.mps.l = D ∧ u.st.mps.r = D ∧ u.st.mps.d = e.mps.d ∧ Gauged u.st.mps u.st.A u.st.B ∧ u.st.mat.r = D ∧ u.st.mat.c = D) ∧
    ∃ u, us.getLast? = some u ∧ returned us = some u.en ∧ e' = { e with mps := u.st.mps, it := e.it + (min us.length (Nmax - e.it).toNat : ℕ) } := by
  obtain ⟨⟨A, y, T⟩, h1, h⟩ := andThen_ok.1 h
  obtain ⟨⟨B, x⟩, h2, h⟩ := andThen_ok.1 h
  obtain ⟨⟨us', it'⟩, h3, h⟩ := andThen_ok.1 h
  simp only [Except.ok.injEq, Prod.mk.injEq] at h
  obtain ⟨rfl, rfl, rfl⟩ := h
  have g1 := C98_regauge_left he hE (by norm_num) hl hr hR h1
  have hT : T = divT (Real.sqrt η) e.mps := g1.resc
  have hL1 : Normal .left 1e-14 D [T] 1 p := by rw [hT]; exact root_normal hL
  have hTl : T.l = D := by rw [hT]; exact hl
  have hTr : T.r = D := by rw [hT]; exact hr
  have hTd : T.d = e.mps.d := by rw [hT]; rfl
  have hone : divT (Real.sqrt 1) T = T := by simp [divT]
  have g2 := C98_regauge_right he hE (by norm_num) hTl hTr hL1 h2
  rw [hone] at g2
  obtain ⟨r, rfl⟩ := loop_runs h3
  have hsh := r.shape (fun i => hO (i + 1)) (fun i => hP (i + 1)) (by rw [hTd]; exact hd)
  refine ⟨⟨y, x, g1, g2⟩, g1.r, g1.r, fun _ _ => rfl, r, fun u hu => ?_, ?_⟩
  · obtain ⟨i, hi, rfl⟩ := List.getElem_of_mem hu
    obtain ⟨a1, a2, a3, a4, a5, a6⟩ := hsh i hi
    exact ⟨a2.trans hTl, a3.trans hTr, a4.trans hTd, ⟨a1.Al.trans a2.symm, a1.Ar.trans a3.symm, a1.Ad.trans a4.symm, a1.Bl.trans a2.symm, a1.Br.trans a3.symm,
      a1.Bd.trans a4.symm, a1.left, a1.right⟩, a5.trans hTl, a6.trans hTl⟩
  · have hne : us' ≠ [] := by
      intro h0
      have := r.one
      simp [h0] at this
    refine ⟨us'.getLast hne, List.getLast?_eq_getLast_of_ne_nil hne, ?_, ?_⟩
    · rw [returned, List.getLast?_eq_getLast_of_ne_nil hne]; rfl
    · rw [List.getLast?_eq_getLast_of_ne_nil hne]; rfl

/-- **C98, `simulate`** after a run that has stopped because of `Nmax`: with the same `Nmax` one step is done, whatever its gradient. -/
theorem C98_again {s' : St} {us' : List Out} {e'' : Eng} {X' : ℕ → Ext} {o' : Opts} (h : simulate X o e Nmax = .ok (s, us, e')) (hn : (Nmax - e.it).toNat < us.length)
    (h' : simulate X' o' e' Nmax = .ok (s', us', e'')) : us'.length = 1 := by
  obtain ⟨⟨A, y, T⟩, h1, h⟩ := andThen_ok.1 h
  obtain ⟨⟨B, x⟩, h2, h⟩ := andThen_ok.1 h
  obtain ⟨⟨us1, it1⟩, h3, h⟩ := andThen_ok.1 h
  simp only [Except.ok.injEq, Prod.mk.injEq] at h
  obtain ⟨rfl, rfl, rfl⟩ := h
  obtain ⟨r, rfl⟩ := loop_runs h3
  obtain ⟨⟨A', y', T'⟩, h1', h'⟩ := andThen_ok.1 h'
  obtain ⟨⟨B', x'⟩, h2', h'⟩ := andThen_ok.1 h'
  obtain ⟨⟨us2, it2⟩, h3', h'⟩ := andThen_ok.1 h'
  simp only [Except.ok.injEq, Prod.mk.injEq] at h'
  obtain ⟨rfl, rfl, rfl⟩ := h'
  obtain ⟨r', -⟩ := loop_runs h3'
  have a := r'.one
  have b := r'.most
  dsimp only at b
  have : (Nmax - (e.it + (min us1.length (Nmax - e.it).toNat : ℕ))).toNat = 0 := by
    rw [min_eq_right hn.le]
    omega
  omega

end

/-! ## The solver `LAN` -/

/-- Spec: `T` is a normalised tensor whose energy `w` is not larger than that of `T₀`. -/
structure LowerSite (L : Env ℂ) (W : Mpo ℂ) (R : Env ℂ) (T₀ T : Ten ℂ) (w : ℂ) : Prop where
  Tl : T.l = T₀.l
  Tr : T.r = T₀.r
  Td : T.d = T₀.d
  real : w.im = 0
  norm : T.nsq = 1
  value : siteForm L W R T T = w
  less : w.re * T₀.nsq ≤ (siteForm L W R T₀ T₀).re

/-- Spec: the same for the matrix of a bond. -/
structure LowerBond (L R : Env ℂ) (C₀ C : Mat ℂ) (w : ℂ) : Prop where
  Cr : C.r = C₀.r
  Cc : C.c = C₀.c
  real : w.im = 0
  norm : C.nsq = 1
  value : bondForm L R C C = w
  less : w.re * C₀.nsq ≤ (bondForm L R C₀ C₀).re

section
open Lanczos
variable {eigh : Lanczos.Eigh} {pr : Params}

theorem lanczos_one {V : Type} [NormedAddCommGroup V] [InnerProductSpace ℂ V] [FiniteDimensional ℂ V] {H : V →ₗ[ℂ] V} (hS : H.IsSymmetric) (hE : EighSpec eigh)
    (hd : 0 < pr.delta) (hd1 : pr.delta ≤ 1) (hN : 0 < pr.Ndiag) (hn : 1 ≤ pr.ncv) {x : V} (hx : x ≠ 0) :
    ∃ (w : ℝ) (v : V), lanczosFn H eigh { pr with numeig := 1 } x = .ok [(w, v)] ∧ ‖v‖ = 1 ∧ inner ℂ v (H v) = (w : ℂ) ∧ w * ‖x‖ ^ 2 ≤ (inner ℂ x (H x)).re := by
  obtain ⟨o, ho, -, h2⟩ := (C52_lanczos (p := { pr with numeig := 1 }) hS hE hd hd1 hx).2 hn hN
  have hl : 1 ≤ o.st.vecs.length := run_pos (p := { pr with numeig := 1 }) hd1 (C52_run (p := { pr with numeig := 1 }) hS hE hN hx ho)
  obtain ⟨h2, h3⟩ := h2 hl
  obtain ⟨l1, l2, -, s4, s5, -⟩ := C52_pairs (p := { pr with numeig := 1 }) hS hE hN hx ho
  have e1 : o.eta.length = 1 := by rw [l1]; exact min_eq_left hl
  obtain ⟨w, hw⟩ := List.length_eq_one_iff.mp e1
  obtain ⟨v, hv⟩ := List.length_eq_one_iff.mp (l2.trans e1)
  have g := C52_variational (p := { pr with numeig := 1 }) hS hE hN hx ho (w := w) (by rw [hw]; rfl)
  have t4 := s4 0 (by rw [l2, e1]; exact one_pos) 0 (by rw [l2, e1]; exact one_pos)
  have t5 := s5 0 (by rw [l2, e1]; exact one_pos) 0 (by rw [l2, e1]; exact one_pos)
  rw [hv] at t4 t5
  rw [hw] at t5
  simp only [List.getD_cons_zero, delta, if_true, mul_one] at t4 t5
  refine ⟨w, v, ?_, ?_, t5, g.2⟩
  · rw [h2, hw, hv]
    rfl
  · rw [inner_self_eq_norm_sq_to_K] at t4
    have : ‖v‖ ^ 2 = 1 := Complex.ofReal_injective (by rw [Complex.ofReal_pow]; exact t4)
    exact (pow_eq_one_iff_of_nonneg (norm_nonneg v) two_ne_zero).mp this

theorem lanczosFirst_run (hE : EighSpec eigh) (hd : 0 < pr.delta) (hd1 : pr.delta ≤ 1) (hN : 0 < pr.Ndiag) (hn : 1 ≤ pr.ncv) {L R : Env ℂ} {W : Mpo ℂ} {T : Ten ℂ}
    (hH : SiteHerm L W R T.l T.r T.d) (hT : 0 < T.nsq) : ∃ w T', lanczosFirst eigh pr 1 L W R T = .ok (w, T') ∧ LowerSite L W R T T' w := by
  obtain ⟨w, v, h1, h2, h3, h4⟩ := lanczos_one (siteOp_symm hH) hE hd hd1 hN hn (vec_ne hT)
  refine ⟨w, TVec.ten v, ?_, rfl, rfl, rfl, Complex.ofReal_im w, ?_, ?_, ?_⟩
  · unfold lanczosFirst
    rw [if_pos hH.fits, haSite_eq hH.fits, h1]
  · rw [← vec_norm]
    change ‖(TVec.ten v).vec T.l T.r T.d‖ ^ 2 = 1
    rw [ten_vec, h2, one_pow]
  · rw [← siteOp_form L W R (TVec.ten v) (TVec.ten v) ⟨rfl, rfl, rfl⟩]
    change inner ℂ ((TVec.ten v).vec T.l T.r T.d) (siteOp L W R T.l T.r T.d ((TVec.ten v).vec T.l T.r T.d)) = _
    rw [ten_vec, h3]
  · rw [← vec_norm, ← siteOp_form L W R T T ⟨rfl, rfl, rfl⟩, Complex.ofReal_re]
    exact h4

theorem lanczosBond_run (hE : EighSpec eigh) (hd : 0 < pr.delta) (hd1 : pr.delta ≤ 1) (hN : 0 < pr.Ndiag) (hn : 1 ≤ pr.ncv) {L R L1 : Env ℂ} {W : Mpo ℂ} {A : Ten ℂ}
    {C : Mat ℂ} (hL1 : addLayerR L A W A = .ok L1) (hH : BondHerm L1 R C.r C.c) (hf : BondFits L1 R C.r C.c) (hw : L.w = C.r) (hT : 0 < C.nsq) :
    ∃ w C', lanczosBond eigh pr 1 L W A R C = .ok (w, C') ∧ LowerBond L1 R C C' w := by
  obtain ⟨w, v, h1, h2, h3, h4⟩ := lanczos_one (bondOp_symm hH) hE hd hd1 hN hn (matvec_ne hT)
  refine ⟨w, BVec.mat v, ?_, rfl, rfl, Complex.ofReal_im w, ?_, ?_, ?_⟩
  · unfold lanczosBond
    rw [hL1]
    change (if BondFits L1 R C.r C.c ∧ L.w = C.r then _ else _) = _
    rw [if_pos ⟨hf, hw⟩, haBond_eq hf, h1]
  · rw [← matvec_norm]
    change ‖(BVec.mat v).vec C.r C.c‖ ^ 2 = 1
    rw [mat_vec, h2, one_pow]
  · rw [← bondOp_form L1 R (BVec.mat v) (BVec.mat v) ⟨rfl, rfl⟩]
    change inner ℂ ((BVec.mat v).vec C.r C.c) (bondOp L1 R C.r C.c ((BVec.mat v).vec C.r C.c)) = _
    rw [mat_vec, h3]
  · rw [← matvec_norm, ← bondOp_form L1 R C C ⟨rfl, rfl⟩, Complex.ofReal_re]
    exact h4

end

section
variable {D B : ℕ} {pinv : ℝ} {W : Mpo ℂ} {e : Eng} {s : St} {p q : ℕ → ℕ → ℂ} {X : Ext} {o : Opts} {u : Out} {σ : ℕ → ℕ} {g : ℕ → ℂ}

/-- **C98 (solver `LAN`).**  With the Lanczos method the tensor and the matrix after the step are normalised, the eigenvalues are their
energies, and these have not grown. -/
theorem C98_lanczos (hC : Conj σ g 0 (B - 1) B W) (hE : ∀ i, EigsLR (X.eigs i)) (hS : LgmresSpec X.solve) (hA : EighSpec X.eigh) (hd : 0 < o.lan.delta)
    (hd1 : o.lan.delta ≤ 1) (hN : 0 < o.lan.Ndiag) (hn : 1 ≤ o.lan.ncv)
    (hs : Ready D B pinv W e s p q) (m1 : s.mps.l = D) (m2 : s.mps.r = D) (m3 : s.mps.d = W.din) (m4 : 0 < s.mps.nsq) (c1 : s.mat.r = D) (c2 : s.mat.c = D)
    (c3 : 0 < s.mat.nsq) (o1 : o.solver = .LAN) (o2 : o.arnumvecs = 1) (h : step X o e s = .ok u) :
    u.en.im = 0 ∧ LowerSite u.lb W u.rb s.mps u.st.mps u.e1 ∧ ∃ L1, addLayerR u.lb s.A W s.A = .ok L1 ∧ LowerBond L1 u.rb s.mat u.st.mat u.e2 := by
  obtain ⟨hre, hH, L1, hL1, hB⟩ := step_herm hC hE hS hs h
  obtain ⟨-, -, -, -, -, -, -, -, -, -, -, -, -, -, h8, -⟩ := step_parts h
  unfold solveBoth at h8
  rw [o1, o2, hs.built.eW] at h8
  obtain ⟨t, h9, h8⟩ := andThen_ok.1 h8
  obtain ⟨c, h10, h8⟩ := andThen_ok.1 h8
  cases h8
  obtain ⟨w, T, a1, a2⟩ := lanczosFirst_run hA hd hd1 hN hn (T := s.mps) (by rw [m1, m2, m3]; exact hH) m4
  obtain ⟨w', C, b1, b2⟩ := lanczosBond_run hA hd hd1 hN hn (C := s.mat) hL1 (by rw [c1, c2]; exact hB) (by rw [c1, c2]; exact bond_fits hB)
    (by rw [c1]; exact hH.Lw) c3
  have e1 := a1.symm.trans h9
  have e2 := b1.symm.trans h10
  simp only [Except.ok.injEq, Prod.mk.injEq] at e1 e2
  obtain ⟨rfl, rfl⟩ := e1
  obtain ⟨rfl, rfl⟩ := e2
  exact ⟨Complex.conj_eq_iff_im.1 hre, a2, L1, hL1, b2⟩

/-- **C98 (a step with the solver `LAN` succeeds).** -/
theorem C98_step_total_lanczos (hC : Conj σ g 0 (B - 1) B W) (hE : ∀ i, EigsLR (X.eigs i)) (hcv : ∀ i, ConvergesK (X.eigs i) o.numeig) (hS : LgmresSpec X.solve)
    (hcS : LgmresConverges X.solve) (hA : EighSpec X.eigh) (hld : 0 < o.lan.delta) (hl1 : o.lan.delta ≤ 1) (hN : 0 < o.lan.Ndiag) (hn : 1 ≤ o.lan.ncv) (hO : X.O.Spec) (hP : PolarSpec X.polar) (hf : 1 ≤ X.fuel) (hk : 1 ≤ o.numeig) (hkD : o.numeig + 1 < D * D)
    (hs : Ready D B pinv W e s p q) (m1 : s.mps.l = D) (m2 : s.mps.r = D) (m3 : s.mps.d = W.din) (m4 : 0 < s.mps.nsq) (c1 : s.mat.r = D) (c2 : s.mat.c = D)
    (c3 : 0 < s.mat.nsq) (o1 : o.solver = .LAN) (o2 : o.arnumvecs = 1) : ∃ u, step X o e s = .ok u := by
  obtain ⟨vr, hvr⟩ := tm_total hE hcv hk hkD hf hs.Al hs.Ar hs.normL
  obtain ⟨vl, hvl⟩ := tm_total hE hcv hk hkD hf hs.Bl hs.Br hs.normR
  obtain ⟨-, c, f, c0, f1, f2⟩ := tm_lead hE hs.Al hs.Ar hs.normL hvr
  obtain ⟨-, c', f', c0', f1', f2'⟩ := tm_lead hE hs.Bl hs.Br hs.normR hvl
  obtain ⟨r, hr', hr⟩ := unitTrace_spec hs.normL.dens f1 c0 f2
  obtain ⟨l, hl', hl⟩ := unitTrace_spec hs.normR.dens f1' c0' f2'
  have hrh := hermPart_spec hs.normL.dens hr
  have hlh := hermPart_spec hs.normR.dens hl
  obtain ⟨lb, en, hL⟩ := envLeft_total (X := X) hS hcS hs.site hs.Ad hs.Al hs.Ar hs.left hs.built hlh hr hrh hs.normL.dens.tr hs.normR.dens.tr (normal_fix hs.normL) (normal_uniq hs.normL)
  obtain ⟨rb, en', hR⟩ := envRight_total (X := X) hS hcS hs.site hs.Bd hs.Bl hs.Br hs.right hs.built hrh hl hlh hs.normL.dens.tr hs.normR.dens.tr (normal_fix hs.normR) (normal_uniq hs.normR)
  obtain ⟨k, hk1⟩ := envLeft_blk hS hs.site hs.Ad hs.Al hs.Ar hs.built hlh hr hrh hL
  obtain ⟨k', hk2⟩ := envRight_blk hS hs.site hs.Bd hs.Bl hs.Br hs.built hrh hl hlh hR
  obtain ⟨-, hH, L1, hL1, hB⟩ := env_herm hC hs hk1 hk2
  obtain ⟨x, hx⟩ := gradNorm_total hH hL1 hB hs.Al hs.Ar hs.Ad m1 m2 m3 c1 c2
  obtain ⟨w1, T, hT, g1⟩ := lanczosFirst_run hA hld hl1 hN hn (T := s.mps) (by rw [m1, m2, m3]; exact hH) m4
  obtain ⟨w2, C, hCm, g2⟩ := lanczosBond_run hA hld hl1 hN hn (C := s.mat) hL1 (by rw [c1, c2]; exact hB) (by rw [c1, c2]; exact bond_fits hB)
    (by rw [c1]; exact hH.Lw) c3
  have g1l := g1.Tl.trans m1
  have g1r := g1.Tr.trans m2
  have g2r := g2.Cr.trans c1
  have g2c := g2.Cc.trans c2
  obtain ⟨A, B', hm⟩ : ∃ A B', (if o.svd then matchSvd X T C else matchPolar X T C) = .ok (A, B') := by
    cases o.svd
    · exact matchPolar_total hP g1l g1r g2r g2c
    · exact matchSvd_total hO g1l g1r g2r g2c
  refine ⟨⟨en, leftDev s.A, rightDev s.B, x, lb, rb, w1, w2, ⟨A, B', T, C⟩⟩, ?_⟩
  unfold step
  refine andThen_ok.2 ⟨_, hvr, andThen_ok.2 ⟨_, hvl, andThen_ok.2 ⟨l, by rw [hs.built.eD]; exact hl', andThen_ok.2 ⟨r, by rw [hs.built.eD]; exact hr',
    andThen_ok.2 ⟨_, hL, andThen_ok.2 ⟨_, hR, andThen_ok.2 ⟨x, by rw [hs.built.eW]; exact hx, andThen_ok.2 ⟨((w1, T), w2, C), ?_, andThen_ok.2 ⟨_, hm, rfl⟩⟩⟩⟩⟩⟩⟩⟩⟩
  unfold solveBoth
  rw [o1, o2, hs.built.eW]
  exact andThen_ok.2 ⟨_, hT, andThen_ok.2 ⟨_, hCm, rfl⟩⟩

/-! ## What is reported -/

/-- **C98 (stationary states).**  The norm reported is that of the difference of the two sides of the fixed-point equation: it vanishes
exactly if the effective Hamiltonian of the site maps the tensor to the product of the isometric one with the image of the matrix under
the effective Hamiltonian of the bond. -/
theorem C98_gradient (h : step X o e s = .ok u) : 0 ≤ u.grad ∧ ∃ Y C, contractionH u.lb s.mps e.W u.rb = .ok Y ∧
    (∃ L1, addLayerR u.lb s.A e.W s.A = .ok L1 ∧ bondH L1 u.rb s.mat = .ok C) ∧ Y.l = s.A.l ∧ Y.r = C.c ∧ Y.d = s.A.d ∧ s.A.r = C.r ∧
    (u.grad ^ 2 = ∑ i ∈ range Y.l, ∑ j ∈ range Y.r, ∑ x ∈ range Y.d, Complex.normSq (Y.v i j x - ∑ k ∈ range C.r, s.A.v i k x * C.v k j)) ∧
    (u.grad = 0 ↔ ∀ i < Y.l, ∀ j < Y.r, ∀ x < Y.d, Y.v i j x = ∑ k ∈ range C.r, s.A.v i k x * C.v k j) := by
  obtain ⟨-, -, -, -, -, -, -, -, -, -, -, -, -, h7, -⟩ := step_parts h
  obtain ⟨Y, h1, h7⟩ := andThen_ok.1 h7
  obtain ⟨C, h2, h7⟩ := andThen_ok.1 h7
  obtain ⟨Z, h3, h7⟩ := andThen_ok.1 h7
  obtain ⟨z1, rfl⟩ := absorbR_eq h3
  unfold distT at h7
  split_ifs at h7 with hd
  obtain ⟨d1, d2, d3⟩ := hd
  have hg := Except.ok.inj h7
  have hsum : ∀ i j x, 0 ≤ Complex.normSq (Y.v i j x - ∑ k ∈ range s.A.r, s.A.v i k x * C.v k j) := fun _ _ _ => Complex.normSq_nonneg _
  have h0 : 0 ≤ ∑ i ∈ range Y.l, ∑ j ∈ range Y.r, ∑ x ∈ range Y.d, Complex.normSq (Y.v i j x - ∑ k ∈ range s.A.r, s.A.v i k x * C.v k j) :=
    sum_nonneg fun i _ => sum_nonneg fun j _ => sum_nonneg fun x _ => hsum i j x
  refine ⟨by rw [← hg]; exact Real.sqrt_nonneg _, Y, C, h1, ?_, d1, d2, d3, z1, ?_, ?_⟩
  · unfold zeroSiteH at h2
    rw [if_pos rfl] at h2
    split at h2
    · cases h2
    · rename_i L1 h4
      exact ⟨L1, h4, h2⟩
  · rw [← hg, ← z1]; exact Real.sq_sqrt h0
  · rw [← hg, ← z1, Real.sqrt_eq_zero h0, sum_eq_zero_iff_of_nonneg fun i _ => sum_nonneg fun j _ => sum_nonneg fun x _ => hsum i j x]
    simp only [mem_range]
    refine forall₂_congr fun i _ => ?_
    rw [sum_eq_zero_iff_of_nonneg fun j _ => sum_nonneg fun x _ => hsum i j x]
    simp only [mem_range]
    refine forall₂_congr fun j _ => ?_
    rw [sum_eq_zero_iff_of_nonneg fun x _ => hsum i j x]
    simp only [mem_range]
    refine forall₂_congr fun x _ => ?_
    rw [Complex.normSq_eq_zero, sub_eq_zero]

/-- **C98 (the norms reported).**  In the state the other theorems are about, the deviations from the two gauges are zero. -/
theorem C98_norms (hs : Ready D B pinv W e s p q) (h : step X o e s = .ok u) : u.leftn = 0 ∧ u.rightn = 0 := by
  obtain ⟨-, -, -, -, -, -, -, -, -, -, -, -, -, -, -, -, h1, h2⟩ := step_parts h
  rw [h1, h2]
  constructor
  · unfold leftDev normF
    rw [Real.sqrt_eq_zero']
    refine le_of_eq (sum_eq_zero fun j hj => sum_eq_zero fun j' hj' => ?_)
    rw [mem_range] at hj hj'
    have := hs.left j' hj' j hj
    rw [Complex.normSq_eq_zero, sub_eq_zero, sum_comm]
    rw [show delta ℂ j j' = delta ℂ j' j by simp [delta, eq_comm], ← this]
    exact sum_congr rfl fun _ _ => sum_congr rfl fun _ _ => mul_comm _ _
  · unfold rightDev normF
    rw [Real.sqrt_eq_zero']
    refine le_of_eq (sum_eq_zero fun j hj => sum_eq_zero fun j' hj' => ?_)
    rw [mem_range] at hj hj'
    rw [Complex.normSq_eq_zero, sub_eq_zero, sum_comm]
    exact hs.right j hj j' hj'

/-! ## Exceptions -/

/-- **C98, disagreement**: the documented option `arnumvecs>1` (the gap to the second eigenvalue is printed) never works with the default
solver: only one eigenvalue is computed, and asking for more raises an AttributeError. -/
theorem C98_violated_gap (o1 : o.solver = .AR) (o2 : 1 < o.arnumvecs) : step X o e s ≠ .ok u := by
  intro h
  obtain ⟨-, -, -, -, -, -, -, -, -, -, -, -, -, -, h8, -⟩ := step_parts h
  unfold solveBoth at h8
  rw [o1] at h8
  obtain ⟨t, h9, -⟩ := andThen_ok.1 h8
  unfold eigshFirst at h9
  split_ifs at h9
  have key : ∀ {l r d : ℕ} (m : TVec l r d → TVec l r d) (x : TVec l r d) (y), Sparse.eigsh X.arp m 1 o.arnumvecs x ≠ .ok y := by
    intro l r d m x y hy
    unfold Sparse.eigsh at hy
    split at hy
    · cases hy
    · rw [if_neg (by omega), if_pos (by omega), if_pos (by omega)] at hy
      cases hy
  split at h9
  · cases h9
  · rename_i h10
    exact key _ _ _ h10
  · cases h9

/-- **C98, disagreement**: with the default `numeig=3` a state of bond dimension 2 is refused by scipy. -/
theorem C98_violated_two {Y : ℕ → Ext} {N : ℤ} (hl : e.mps.l = D) (hr : e.mps.r = D) (hD : D ≤ 2) (ho : 3 ≤ o.numeig) : simulate Y o e N = .error .type := by
  unfold simulate regaugeL tmEigs
  rw [if_neg (by rw [hl, hr]; simp), if_pos (by rw [hl]; nlinarith)]
  rfl

/-- **C98, exceptions**: an unknown solver raises. -/
theorem C98_solver (o1 : o.solver ≠ .AR) (o2 : o.solver ≠ .LAN) : step X o e s ≠ .ok u := by
  intro h
  obtain ⟨-, -, -, -, -, -, -, -, -, -, -, -, -, -, h8, -⟩ := step_parts h
  unfold solveBoth at h8
  split at h8
  · exact o1 ‹_›
  · exact o2 ‹_›
  · cases h8

end

end
end PyTeN.Vumps
