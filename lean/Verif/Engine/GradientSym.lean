import Verif.Engine.Gradient
import Verif.Props.VumpsFirst
import Verif.Props.RegaugeImps

/-! # Lemmas for `HomogeneousIMPSengine`: `regauge(gauge='symmetric')` -/

namespace PyTeN.GradOpt
open Finset Transfer Regauge Vumps Steady Matrix
noncomputable section

theorem cleanLe_pos {pinv : ℝ} (hp : 0 ≤ pinv) {w : List ℝ} (h : ∀ x ∈ w, pinv < x) (hs : w.sum = 1) :
    cleanLe pinv w = .ok (w, w.map fun x => 1 / x) := by
  have e1 : (w.map fun x => |x|) = w := by
    conv_rhs => rw [← List.map_id w]
    exact List.map_congr_left fun x hx => abs_of_pos (hp.trans_lt (h x hx))
  have e2 : (w.map fun x => if x ≤ pinv then 0 else x) = w := by
    conv_rhs => rw [← List.map_id w]
    exact List.map_congr_left fun x hx => by rw [if_neg (not_le.2 (h x hx))]; rfl
  have e3 : (w.map fun x => if x > pinv then 1 / x else 0) = w.map fun x => 1 / x :=
    List.map_congr_left fun x hx => by rw [if_pos (h x hx)]
  simp only [cleanLe, e1, unitSum_one hs, e2, e3]

theorem densityLe_spec {eigh : Lanczos.Eigh} (he : EighSpec eigh) {pinv : ℝ} (hp0 : 0 ≤ pinv) {n : ℕ} {v : Vec ℂ} {f p : ℕ → ℕ → ℂ} {c : ℂ} (hc : c ≠ 0)
    (hv : IsMat v n f) (hf : ∀ i < n, ∀ j < n, f i j = c * p i j) (hp : Density pinv n p) :
    ∃ w wi u, densityLe eigh pinv n v = .ok (w, wi, u) ∧ Spectral pinv n p w wi u := by
  have htr : ∑ i ∈ range n, v.v (i * n + i) = c := by
    rw [sum_congr rfl fun i hi => by rw [hv.2 i (mem_range.1 hi) i (mem_range.1 hi), hf i (mem_range.1 hi) i (mem_range.1 hi)], ← mul_sum, hp.tr, mul_one]
  unfold densityLe reshape2
  rw [if_pos hv.1]
  simp only [htr, if_neg hc]
  set h : Mat ℂ := ⟨n, n, fun i j => (v.v (i * n + j) / c + star (v.v (j * n + i) / c)) / 2⟩ with hh
  have hent : ∀ i < n, ∀ j < n, h.v i j = p i j := by
    intro i hi j hj
    simp only [hh]
    rw [hv.2 i hi j hj, hv.2 j hj i hi, hf i hi j hj, hf j hj i hi, mul_div_cancel_left₀ _ hc, mul_div_cancel_left₀ _ hc, hp.herm j hj i hi]
    ring
  obtain ⟨e1, -, e3, e4, e5, e6⟩ := he h rfl (fun i hi j hj => by
    rw [hent i hi j hj, hent j hj i hi]; exact hp.herm i hi j hj)
  have e1 : (eigh h).1.length = n := e1
  have hiso : (toM n (eigh h).2.v)ᴴ * toM n (eigh h).2.v = 1 := by
    ext i j
    rw [Matrix.mul_apply, ← toM_delta]
    have := e5 i i.2 j j.2
    rw [show h.r = n from rfl, Finset.sum_range] at this
    exact this
  have heq : toM n p = toM n (eigh h).2.v * diagonal (fun k : Fin n => (((eigh h).1.getD k 0 : ℝ) : ℂ)) * (toM n (eigh h).2.v)ᴴ := by
    have : toM n p * toM n (eigh h).2.v = toM n (eigh h).2.v * diagonal (fun k : Fin n => (((eigh h).1.getD k 0 : ℝ) : ℂ)) := by
      ext i k
      rw [Matrix.mul_diagonal, Matrix.mul_apply]
      have := e6 k k.2 i i.2
      rw [show h.r = n from rfl, Finset.sum_range] at this
      simp only [toM]
      rw [mul_comm, ← this]
      exact sum_congr rfl fun j _ => by rw [hent i i.2 j j.2]
    rw [← this, Matrix.mul_assoc, mul_eq_one_comm.1 hiso, Matrix.mul_one]
  have hsum : (eigh h).1.sum = 1 := by
    have h1 : (toM n p).trace = 1 := by
      rw [← hp.tr, Finset.sum_range]; rfl
    rw [heq, Matrix.trace_mul_comm, ← Matrix.mul_assoc, hiso, Matrix.one_mul, Matrix.trace_diagonal] at h1
    rw [← sum_getD, e1, Finset.sum_range]
    exact_mod_cast h1
  have hbig : ∀ x ∈ (eigh h).1, pinv < x := by
    intro x hx
    obtain ⟨k, hk, rfl⟩ := List.getElem_of_mem hx
    have hkn : k < n := by rw [← e1]; exact hk
    have h1 : ∑ i ∈ range n, Complex.normSq ((eigh h).2.v i k) = 1 := by
      have := e5 k hkn k hkn
      rw [show delta ℂ k k = 1 by simp [delta]] at this
      have h2 : ∀ i, (starRingEnd ℂ) ((eigh h).2.v i k) * (eigh h).2.v i k = ((Complex.normSq ((eigh h).2.v i k) : ℝ) : ℂ) := fun i =>
        (Complex.normSq_eq_conj_mul_self).symm
      simp_rw [h2] at this
      exact_mod_cast this
    have h2 := hp.pos (fun i => (eigh h).2.v i k) h1
    have h3 : ∑ i ∈ range n, ∑ j ∈ range n, star ((eigh h).2.v i k) * p i j * (eigh h).2.v j k = (((eigh h).1.getD k 0 : ℝ) : ℂ) := by
      have : ∀ i ∈ range n, ∑ j ∈ range n, star ((eigh h).2.v i k) * p i j * (eigh h).2.v j k
          = (((eigh h).1.getD k 0 : ℝ) : ℂ) * ((Complex.normSq ((eigh h).2.v i k) : ℝ) : ℂ) := by
        intro i hi
        have h4 := e6 k hkn i (mem_range.1 hi)
        rw [normSq_of]
        simp_rw [mul_assoc, ← mul_sum]
        rw [sum_congr rfl fun j hj => by rw [← hent i (mem_range.1 hi) j (mem_range.1 hj)]]
        rw [show ∑ j ∈ range n, h.v i j * (eigh h).2.v j k = _ from h4]
        ring
      rw [sum_congr rfl this, ← mul_sum]
      have h5 : (∑ i ∈ range n, ((Complex.normSq ((eigh h).2.v i k) : ℝ) : ℂ)) = 1 := by exact_mod_cast h1
      rw [h5, mul_one]
    rw [h3, Complex.ofReal_re] at h2
    simpa [List.getD_eq_getElem?_getD, hk] using h2
  rw [cleanLe_pos hp0 hbig hsum]
  exact ⟨_, _, _, rfl, e1, hbig, hsum, rfl, e3, e4, hiso, heq⟩

/-! ## The matrices -/

section
variable {n D : ℕ} {pinv : ℝ} {p q : ℕ → ℕ → ℂ} {x xi y yi U V : Matrix (Fin n) (Fin n) ℂ} {σ lam : Fin n → ℝ} {ν : ℝ}

/-- The matrix on the left bond. -/
theorem sym_left (R : Roots n p q x xi y yi) (hU : Uᴴ * U = 1) (h : y * x = U * diagonal (fun k => ((σ k : ℝ) : ℂ)) * V) :
    diagonal (fun k => ((σ k : ℝ) : ℂ)) * (V * xi) = Uᴴ * y := by
  have h1 : Uᴴ * (y * x) * xi = Uᴴ * y := by rw [← Matrix.mul_assoc, Matrix.mul_assoc _ x, R.x1, Matrix.mul_one]
  rw [← h1, h]
  rw [show Uᴴ * (U * diagonal (fun k => ((σ k : ℝ) : ℂ)) * V) * xi = (Uᴴ * U) * (diagonal (fun k => ((σ k : ℝ) : ℂ)) * (V * xi)) by simp only [Matrix.mul_assoc], hU,
    Matrix.one_mul]

/-- The matrix on the right bond. -/
theorem sym_right (R : Roots n p q x xi y yi) (hV : V * Vᴴ = 1) (h : y * x = U * diagonal (fun k => ((σ k : ℝ) : ℂ)) * V) :
    yi * U * diagonal (fun k => ((σ k : ℝ) : ℂ)) = x * Vᴴ := by
  have h1 : yi * (y * x) * Vᴴ = x * Vᴴ := by rw [← Matrix.mul_assoc yi, R.y2, Matrix.one_mul]
  rw [← h1, h]
  rw [show yi * (U * diagonal (fun k => ((σ k : ℝ) : ℂ)) * V) * Vᴴ = yi * U * diagonal (fun k => ((σ k : ℝ) : ℂ)) * (V * Vᴴ) by simp only [Matrix.mul_assoc], hV,
    Matrix.mul_one]

theorem sym_orthL (R : Roots n p q x xi y yi) (hU : Uᴴ * U = 1) {d : ℕ} {T : ℕ → Matrix (Fin n) (Fin n) ℂ}
    (hT : ∑ s ∈ range d, (T s)ᴴ * (toM n q)ᵀ * T s = (toM n q)ᵀ) :
    ∑ s ∈ range d, (Uᴴ * y * T s * (yi * U))ᴴ * (Uᴴ * y * T s * (yi * U)) = 1 := by
  have hUU : U * Uᴴ = 1 := mul_eq_one_comm.1 hU
  have e : ∀ s, (Uᴴ * y * T s * (yi * U))ᴴ * (Uᴴ * y * T s * (yi * U)) = (yi * U)ᴴ * ((T s)ᴴ * (toM n q)ᵀ * T s) * (yi * U) := by
    intro s
    rw [R.q]
    simp only [conjTranspose_mul, conjTranspose_conjTranspose, R.yh]
    rw [show Uᴴ * yiᴴ * ((T s)ᴴ * (y * U)) * (Uᴴ * y * T s * (yi * U)) = Uᴴ * yiᴴ * ((T s)ᴴ * (y * (U * Uᴴ) * y) * T s) * (yi * U) by simp only [Matrix.mul_assoc],
      hUU, Matrix.mul_one]
  simp_rw [e]
  rw [← Matrix.sum_mul, ← Matrix.mul_sum, hT, R.q, conjTranspose_mul]
  have h2 : yiᴴ * y = 1 := by rw [← R.yh, ← conjTranspose_mul, R.y1, conjTranspose_one]
  rw [show Uᴴ * yiᴴ * (y * y) * (yi * U) = Uᴴ * (yiᴴ * y) * (y * yi) * U by simp only [Matrix.mul_assoc], h2, R.y1, Matrix.mul_one, Matrix.mul_one, hU]

theorem sym_orthR (R : Roots n p q x xi y yi) (hV : V * Vᴴ = 1) {d : ℕ} {T : ℕ → Matrix (Fin n) (Fin n) ℂ}
    (hT : ∑ s ∈ range d, T s * toM n p * (T s)ᴴ = toM n p) :
    ∑ s ∈ range d, (V * xi * T s * (x * Vᴴ)) * (V * xi * T s * (x * Vᴴ))ᴴ = 1 := by
  have hVV : Vᴴ * V = 1 := mul_eq_one_comm.1 hV
  have e : ∀ s, (V * xi * T s * (x * Vᴴ)) * (V * xi * T s * (x * Vᴴ))ᴴ = V * xi * (T s * toM n p * (T s)ᴴ) * (V * xi)ᴴ := by
    intro s
    rw [R.p]
    simp only [conjTranspose_mul, conjTranspose_conjTranspose, R.xh]
    rw [show V * xi * T s * (x * Vᴴ) * (V * x * ((T s)ᴴ * (xiᴴ * Vᴴ))) = V * xi * (T s * (x * (Vᴴ * V) * x) * (T s)ᴴ) * (xiᴴ * Vᴴ) by simp only [Matrix.mul_assoc],
      hVV, Matrix.mul_one]
  simp_rw [e]
  rw [← Matrix.sum_mul, ← Matrix.mul_sum, hT, R.p, conjTranspose_mul]
  have h2 : x * xiᴴ = 1 := by rw [← R.xh, ← conjTranspose_mul, R.x2, conjTranspose_one]
  rw [show V * xi * (x * x) * (xiᴴ * Vᴴ) = V * (xi * x) * (x * xiᴴ) * Vᴴ by simp only [Matrix.mul_assoc], h2, R.x2, Matrix.mul_one, Matrix.mul_one, hV]

end

/-- Spec: `gamma` and `lam` are the canonical form of the tensor `A`, whose transfer operator has the leading eigenvalue `η`. -/
structure SymGauge (D : ℕ) (A G : Ten ℂ) (lam : List ℝ) (η : ℝ) : Prop where
  l : G.l = D
  r : G.r = D
  d : G.d = A.d
  len : lam.length = D
  pos : ∀ x ∈ lam, 0 < x
  sorted : lam.Pairwise (· ≥ ·)
  norm : ∑ k ∈ range D, lam.getD k 0 ^ 2 = 1
  gaugeL : ∃ X Y : Matrix (Fin D) (Fin D) ℂ, X * Y = 1 ∧ ∀ s, (Real.sqrt η : ℂ) • (toM D (diagMat lam).v * mat D G s) = X * mat D A s * Y
  gaugeR : ∃ X Y : Matrix (Fin D) (Fin D) ℂ, X * Y = 1 ∧ ∀ s, (Real.sqrt η : ℂ) • (mat D G s * toM D (diagMat lam).v) = X * mat D A s * Y
  orthL : ∑ s ∈ range A.d, (toM D (diagMat lam).v * mat D G s)ᴴ * (toM D (diagMat lam).v * mat D G s) = 1
  orthR : ∑ s ∈ range A.d, mat D G s * toM D (diagMat lam).v * (mat D G s * toM D (diagMat lam).v)ᴴ = 1

theorem mat_absorbL {D : ℕ} {X : Mat ℂ} {T T' : Ten ℂ} (h : absorbL X T = .ok T') (hX : X.c = D) (s : ℕ) : mat D T' s = toM D X.v * mat D T s := by
  have e := absorbL_eq h
  ext i j
  rw [Matrix.mul_apply, e.2]
  simp only [mat, toM]
  rw [← e.1, hX, Finset.sum_range]

theorem mat_absorbR {D : ℕ} {Y : Mat ℂ} {T T' : Ten ℂ} (h : absorbR T Y = .ok T') (hT : T.r = D) (s : ℕ) : mat D T' s = mat D T s * toM D Y.v := by
  have e := absorbR_eq h
  ext i j
  rw [Matrix.mul_apply, e.2]
  simp only [mat, toM]
  rw [hT, Finset.sum_range]

theorem sq_trace {D : ℕ} {T : Ten ℂ} (hl : T.l = D) (hr : T.r = D) : ((T.sq : ℝ) : ℂ) = (∑ s ∈ range T.d, (mat D T s)ᴴ * mat D T s).trace := by
  unfold Ten.sq
  rw [hl, hr]
  simp only [Matrix.trace, diag_apply, Matrix.sum_apply, Matrix.mul_apply, conjTranspose_apply, mat, Finset.sum_range]
  push_cast
  rw [sum_comm]
  refine sum_congr rfl fun j _ => ?_
  rw [sum_comm]
  exact sum_congr rfl fun s _ => sum_congr rfl fun i _ => normSq_of

/-! ## The run -/

theorem diag_smul {D : ℕ} (s : List ℝ) (ν : ℝ) : toM D (diagMat (s.map (· / ν))).v = ((1 / ν : ℝ) : ℂ) • toM D (diagMat s).v := by
  rw [toM_diag, toM_diag]
  ext i j
  rw [Matrix.smul_apply]
  by_cases h : i = j
  · subst h
    simp only [diagonal_apply_eq, List.getD_eq_getElem?_getD, List.getElem?_map]
    cases s[(i : ℕ)]? with
    | none => simp
    | some a => simp [div_eq_inv_mul]
  · simp [diagonal_apply_ne _ h]

theorem getD_div (s : List ℝ) (ν : ℝ) (k : ℕ) : (s.map (· / ν)).getD k 0 = s.getD k 0 / ν := by
  simp only [List.getD_eq_getElem?_getD, List.getElem?_map]
  cases s[k]? <;> simp

theorem normalise_pos {s : List ℝ} (h : 0 < norm2 s) : normalise s = .ok (s.map (· / norm2 s)) := by
  unfold normalise
  have hs : s ≠ [] := by rintro rfl; simp [norm2] at h
  rw [if_neg hs, if_neg h.ne']

section
variable {O : LinAlg} {eigh : Lanczos.Eigh} {eigs : ℕ → Eigs} {fuel k D Dmax : ℕ} {pinv trunc η η' : ℝ} {p q : ℕ → ℕ → ℂ} {A : Ten ℂ}

theorem fixM_right {T : Ten ℂ} (hr : T.r = D) (h : Normal .right pinv D [T] 1 q) : ∑ s ∈ range T.d, (mat D T s)ᴴ * (toM D q)ᵀ * mat D T s = (toM D q)ᵀ := by
  have := act_rightM hr q
  simp only [conjTranspose_conjTranspose] at this
  rw [this]
  congr 1
  exact toM_ext.2 fun i hi j hj => by rw [h.eig i hi j hj]; simp

theorem fixM_left {T : Ten ℂ} (hr : T.r = D) (h : Normal .left pinv D [T] 1 p) : ∑ s ∈ range T.d, mat D T s * toM D p * (mat D T s)ᴴ = toM D p := by
  rw [act_leftM hr p]
  exact toM_ext.2 fun i hi j hj => by rw [h.eig i hi j hj]; simp

theorem regaugeSym_run (hO : O.Spec) (he : EighSpec eigh) (hE : ∀ i, EigsLR (eigs i)) (hp : 0 ≤ pinv) (ht : trunc ≤ 1e-15) (hl : A.l = D) (hr : A.r = D)
    (hR : Normal .right pinv D [A] η q) (hL : Normal .left pinv D [A] η' p) {μ μ' : ℂ} {v v' : Vec ℂ}
    (h : tmEigs eigs fuel .right k A = .ok (μ, v)) (h' : tmEigs eigs fuel .left k (divT (Real.sqrt η) A) = .ok (μ', v')) :
    η' = η ∧ ∃ G lam, regaugeSym O eigh eigs fuel k pinv trunc Dmax A = .ok (G, lam, 0) ∧ SymGauge D A G lam η := by
  obtain ⟨rfl, c, f, hc, hv, hf⟩ := tm_lead hE hl hr hR h
  have hD : 0 < D := by
    obtain ⟨i, hi, -⟩ := hL.dens.ne
    omega
  obtain ⟨w, wi, u, hw, hS⟩ := densityLe_spec he hp hc hv hf hR.dens
  set T := divT (Real.sqrt η) A with hT
  have hTl : T.l = D := hl
  have hTr : T.r = D := hr
  have hTd : T.d = A.d := rfl
  have hη0 : 0 < Real.sqrt η := Real.sqrt_pos.2 hR.pos
  have hR1 : Normal .right pinv D [T] 1 q := root_normal hR
  have hL2 : Normal .left pinv D [T] (η' / Real.sqrt η ^ (2 * 1)) p := hL.scale hη0
  obtain ⟨-, c', f', hc', hv', hf'⟩ := tm_lead hE hTl hTr hL2 h'
  obtain ⟨w', wi', u', hw', hS'⟩ := density_spec he hp hc' hv' hf' hL.dens
  obtain ⟨x, xi, x1, x2, -, x4, x5, x6, x7⟩ := hS'.sqrt hp
  obtain ⟨y, yi, y1, -, y3, y4, y5, y6, y7⟩ := hS.sqrt hp
  have hyT : yᵀᴴ = yᵀ := by
    calc yᵀᴴ = yᴴᵀ := rfl
      _ = yᵀ := by rw [y4]
  have R : Roots D p q x xi yᵀ yiᵀ := ⟨x4, hyT, x5, x6, by rw [← transpose_mul, y6, transpose_one], by rw [← transpose_mul, y5, transpose_one], x7,
    by rw [y7, transpose_mul]⟩
  have hηη : η = η' := by
    have h1 := root_normal hL
    have h2 : Normal .right pinv D [divT (Real.sqrt η') A] (η / Real.sqrt η' ^ (2 * 1)) q := hR.scale (Real.sqrt_pos.2 hL.pos)
    have := eig_same hD R.xh R.yh R.x1 R.y1 R.p R.q h1 h2
    rw [mul_one, Real.sq_sqrt hL.pos.le, div_eq_one_iff_eq hL.pos.ne'] at this
    exact this
  have hL1 : Normal .left pinv D [T] 1 p := by
    rw [← hηη, mul_one, Real.sq_sqrt hR.pos.le, div_self hR.pos.ne'] at hL2
    exact hL2
  have fR := fixM_right hTr hR1
  have fL := fixM_left hTr hL1
  set X : Mat ℂ := (u'.dot (diagMat (w'.map Real.sqrt))).dot u'.herm with hX
  set Y : Mat ℂ := transp ((u.dot (diagMat (w.map Real.sqrt))).dot u.herm) with hY
  set Xi : Mat ℂ := (u'.dot (diagMat (wi'.map Real.sqrt))).dot u'.herm with hXi
  set Yi : Mat ℂ := ((transp u.herm).dot (diagMat (wi.map Real.sqrt))).dot (transp u) with hYi
  have hm : min (Y.dot X).r (Y.dot X).c = D := by
    simp [hX, hY, Mat.dot, Mat.herm, transp, hS.r, hS'.r]
  have hXr : (Y.dot X).r = D := by simp [hY, Mat.dot, Mat.herm, transp, hS.r]
  have hXc : (Y.dot X).c = D := by simp [hX, Mat.dot, Mat.herm, hS'.r]
  obtain ⟨v1, v2, v3, v4, v5, v6, v7, v8, v9, v10⟩ := hO.svd (Y.dot X)
  rw [hm] at v2 v3 v4 v8 v9 v10
  rw [hXr] at v1 v8 v9
  rw [hXc] at v5 v8 v10
  set U := (O.svd (Y.dot X)).1 with hUd
  set s := (O.svd (Y.dot X)).2.1 with hsd
  set V := (O.svd (Y.dot X)).2.2 with hVd
  have hU : (toM D U.v)ᴴ * toM D U.v = 1 := by
    rw [← toM_delta]
    ext i j
    rw [Matrix.mul_apply]
    simp only [conjTranspose_apply, toM]
    rw [← Finset.sum_range fun k => star (U.v k i) * U.v k j]
    exact v9 i i.2 j j.2
  have hV : toM D V.v * (toM D V.v)ᴴ = 1 := by
    rw [← toM_delta]
    ext i j
    rw [Matrix.mul_apply]
    simp only [conjTranspose_apply, toM]
    rw [← Finset.sum_range fun k => V.v i k * star (V.v j k)]
    exact v10 i i.2 j j.2
  have hyx : yᵀ * x = toM D U.v * diagonal (fun k : Fin D => ((s.getD k 0 : ℝ) : ℂ)) * toM D V.v := by
    have : toM D (Y.dot X).v = yᵀ * x := by
      rw [toM_dot _ _ (by simp [hY, Mat.dot, transp, hS.r]), hY, toM_transp, y1, x1]
    rw [← this]
    ext i j
    rw [Matrix.mul_apply]
    simp only [mul_diagonal, toM]
    rw [← Finset.sum_range fun k => U.v i k * ((s.getD k 0 : ℝ) : ℂ) * V.v k j]
    exact (v8 i i.2 j j.2).symm
  have hleft := sym_left R hU hyx
  have hright := sym_right R hV hyx
  have hpos : ∀ a ∈ s, 0 < a := by
    intro a ha
    refine lt_of_le_of_ne (v6 a ha) fun h0 => ?_
    obtain ⟨m, hm', rfl⟩ := List.mem_iff_getElem.1 ha
    have hmD : m < D := by rw [← v3]; exact hm'
    have h1 : diagonal (fun k : Fin D => ((s.getD k 0 : ℝ) : ℂ)) * (toM D V.v * xi) * (yiᵀ * toM D U.v) = 1 := by
      rw [hleft, Matrix.mul_assoc, ← Matrix.mul_assoc yᵀ, R.y1, Matrix.one_mul, hU]
    rw [Matrix.mul_assoc] at h1
    have h2 := congrFun (congrFun h1 ⟨m, hmD⟩) ⟨m, hmD⟩
    rw [diagonal_mul, one_apply_eq] at h2
    simp only [List.getD_eq_getElem?_getD, List.getElem?_eq_getElem hm', Option.getD_some, ← h0, Complex.ofReal_zero, zero_mul] at h2
    exact zero_ne_one h2
  set ν := norm2 s with hν
  have hν2 : ν ^ 2 = ∑ k ∈ range D, s.getD k 0 ^ 2 := by rw [hν, norm2_sq, v3]
  have hνp : 0 < ν := by
    have : 0 < ν ^ 2 := by
      rw [hν2]
      refine sum_pos (fun k hk => ?_) ⟨0, mem_range.2 hD⟩
      have hk' : k < s.length := by rw [v3]; exact mem_range.1 hk
      simp only [List.getD_eq_getElem?_getD, List.getElem?_eq_getElem hk', Option.getD_some]
      exact pow_pos (hpos _ (List.getElem_mem hk')) 2
    exact lt_of_le_of_ne (norm2_nonneg _) fun h0 => by rw [← h0] at this; simp at this
  set lam := s.map (· / ν) with hlam
  have hlen : lam.length = D := by rw [hlam, List.length_map, v3]
  have hkeep : keep trunc Dmax s = .ok (lam, 0) := by
    unfold keep
    rw [normalise_pos hνp]
    simp only [andThen]
    rw [if_neg (not_lt.2 ht)]
  have hVt : takeRows V lam.length = V := by
    unfold takeRows
    rw [hlen, v4, min_self]
    conv_rhs => rw [show V = ⟨V.r, V.c, V.v⟩ from rfl, v4]
  have hUt : takeCols U lam.length = U := by
    unfold takeCols
    rw [hlen, v2, min_self]
    conv_rhs => rw [show U = ⟨U.r, U.c, U.v⟩ from rfl, v2]
  have hXir : Xi.r = D := by simp [hXi, Mat.dot, hS'.r]
  have hXic : Xi.c = D := by simp [hXi, Mat.dot, Mat.herm, hS'.r]
  have hYir : Yi.r = D := by simp [hYi, Mat.dot, Mat.herm, transp, hS.r]
  have hYic : Yi.c = D := by simp [hYi, Mat.dot, transp, hS.r]
  have g1 := absorbL_ok (m := (V.dot Xi)) (t := T) (by rw [show (V.dot Xi).c = Xi.c from rfl, hXic, hTl])
  obtain ⟨G1, hG1⟩ : ∃ G1, absorbL (V.dot Xi) T = .ok G1 := ⟨_, g1⟩
  have e1 := absorbL_eq hG1
  obtain ⟨G, hG⟩ : ∃ G, absorbR G1 (Yi.dot U) = .ok G := ⟨_, absorbR_ok (by rw [e1.2, show (Yi.dot U).r = Yi.r from rfl, hYir]; exact hTr)⟩
  have e2 := absorbR_eq hG
  have hG1r : G1.r = D := by rw [e1.2]; exact hTr
  have hGl : G.l = D := by rw [e2.2]; dsimp only; rw [e1.2]; exact v4
  have hGr : G.r = D := by rw [e2.2]; exact v2
  have hGd : G.d = A.d := by rw [e2.2]; dsimp only; rw [e1.2, hTd]
  have hGm : ∀ t, mat D G t = toM D V.v * xi * mat D T t * (yiᵀ * toM D U.v) := by
    intro t
    rw [mat_absorbR hG hG1r, mat_absorbL hG1 hXic, toM_dot _ _ v5, toM_dot _ _ hYic, x2, y3]
  obtain ⟨A', hA'⟩ : ∃ A', absorbL (diagMat lam) G = .ok A' := ⟨_, absorbL_ok (by rw [show (diagMat lam).c = lam.length from rfl, hlen, hGl])⟩
  have e3 := absorbL_eq hA'
  have hA'l : A'.l = D := by rw [e3.2]; exact hlen
  have hA'r : A'.r = D := by rw [e3.2]; exact hGr
  have hA'd : A'.d = A.d := by rw [e3.2]; exact hGd
  have hlM : toM D (diagMat lam).v = ((1 / ν : ℝ) : ℂ) • diagonal (fun k : Fin D => ((s.getD k 0 : ℝ) : ℂ)) := by
    rw [hlam, diag_smul, toM_diag]
  have hlG : ∀ t, toM D (diagMat lam).v * mat D G t = ((1 / ν : ℝ) : ℂ) • ((toM D U.v)ᴴ * yᵀ * mat D T t * (yiᵀ * toM D U.v)) := by
    intro t
    rw [hGm, hlM, Matrix.smul_mul]
    congr 1
    rw [← hleft]
    simp only [Matrix.mul_assoc]
  have hGlam : ∀ t, mat D G t * toM D (diagMat lam).v = ((1 / ν : ℝ) : ℂ) • (toM D V.v * xi * mat D T t * (x * (toM D V.v)ᴴ)) := by
    intro t
    rw [hGm, hlM, Matrix.mul_smul]
    congr 1
    rw [← hright]
    simp only [Matrix.mul_assoc]
  have hoL := sym_orthL R hU (d := A.d) (T := mat D T) fR
  have hoR := sym_orthR R hV (d := A.d) (T := mat D T) fL
  have hstν : star (((1 / ν : ℝ) : ℂ)) = ((1 / ν : ℝ) : ℂ) := Complex.conj_ofReal _
  have hsq : A'.sq / lam.length = (1 / ν) ^ 2 := by
    have h1 := sq_trace hA'l hA'r
    have h2 : ∑ t ∈ range A'.d, (mat D A' t)ᴴ * mat D A' t = (((1 / ν) ^ 2 : ℝ) : ℂ) • (1 : Matrix (Fin D) (Fin D) ℂ) := by
      rw [← hoL, Finset.smul_sum, hA'd]
      refine sum_congr rfl fun t _ => ?_
      rw [mat_absorbL hA' hlen, hlG, conjTranspose_smul, hstν, Matrix.smul_mul, Matrix.mul_smul, smul_smul]
      push_cast
      ring_nf
    rw [h2, trace_smul, trace_one, Fintype.card_fin, smul_eq_mul] at h1
    have h3 : A'.sq = (1 / ν) ^ 2 * D := by exact_mod_cast h1
    have hD' : (D : ℝ) ≠ 0 := by exact_mod_cast hD.ne'
    rw [h3, hlen, mul_div_assoc, div_self hD', mul_one]
  have hunit : unitGamma lam A' G = .ok (divT (1 / ν) G) := by
    unfold unitGamma
    rw [hsq, if_neg (by positivity), Real.sqrt_sq (by positivity)]
  have hfin : ∀ t, mat D (divT (1 / ν) G) t = (ν : ℂ) • mat D G t := by
    intro t
    ext i j
    rw [Matrix.smul_apply]
    simp only [mat, divT, smul_eq_mul]
    push_cast
    rw [one_div, div_inv_eq_mul, mul_comm]
  have hνc : (ν : ℂ) * ((1 / ν : ℝ) : ℂ) = 1 := by
    push_cast
    rw [mul_one_div_cancel]
    exact_mod_cast hνp.ne'
  have hlF : ∀ t, toM D (diagMat lam).v * mat D (divT (1 / ν) G) t = (toM D U.v)ᴴ * yᵀ * mat D T t * (yiᵀ * toM D U.v) := by
    intro t
    rw [hfin, Matrix.mul_smul, hlG, smul_smul, hνc, one_smul]
  have hFl : ∀ t, mat D (divT (1 / ν) G) t * toM D (diagMat lam).v = toM D V.v * xi * mat D T t * (x * (toM D V.v)ᴴ) := by
    intro t
    rw [hfin, Matrix.smul_mul, hGlam, smul_smul, hνc, one_smul]
  have hTA : ∀ t, (Real.sqrt η : ℂ) • mat D T t = mat D A t := by
    intro t
    ext i j
    rw [Matrix.smul_apply]
    simp only [mat, hT, divT, smul_eq_mul]
    rw [mul_div_cancel₀]
    exact_mod_cast hη0.ne'
  refine ⟨hηη.symm, divT (1 / ν) G, lam, ?_, hGl, hGr, hGd, hlen, ?_, ?_, ?_, ⟨(toM D U.v)ᴴ * yᵀ, yiᵀ * toM D U.v, ?_, ?_⟩, ⟨toM D V.v * xi, x * (toM D V.v)ᴴ, ?_, ?_⟩, ?_, ?_⟩
  · have hη1 : unitEta (η : ℂ) A = .ok T := by
      unfold unitEta
      rw [Complex.ofReal_re, if_neg (not_le.2 hR.pos)]
    simp only [regaugeSym, andThen, h, hη1, hl, hw, h', hr, hw']
    simp only [← hX, ← hY, ← hXi, ← hYi, ← hsd, ← hUd, ← hVd, hkeep, hVt, hUt, hG1, hG, hA', hunit]
  · intro a ha
    obtain ⟨b, hb, rfl⟩ := List.mem_map.1 ha
    exact div_pos (hpos b hb) hνp
  · rw [hlam, List.pairwise_map]
    exact v7.imp fun hab => div_le_div_of_nonneg_right hab hνp.le
  · rw [sum_congr rfl fun j _ => by rw [hlam, getD_div, div_pow], ← sum_div, ← hν2, div_self (pow_pos hνp 2).ne']
  · rw [Matrix.mul_assoc, ← Matrix.mul_assoc yᵀ, R.y1, Matrix.one_mul, hU]
  · intro t
    rw [hlF, ← hTA, Matrix.mul_smul, Matrix.smul_mul]
  · rw [Matrix.mul_assoc, ← Matrix.mul_assoc xi, R.x2, Matrix.one_mul, hV]
  · intro t
    rw [hFl, ← hTA, Matrix.mul_smul, Matrix.smul_mul]
  · simp_rw [hlF]; exact hoL
  · simp_rw [hFl]; exact hoR

end

end
end PyTeN.GradOpt
