import Verif.Mps.RegaugeSym
import Mathlib.Analysis.Complex.Polynomial.Basic
import Mathlib.LinearAlgebra.Eigenspace.Minpoly
import Mathlib.LinearAlgebra.Eigenspace.Triangularizable

/-! # C91: `regaugeIMPS` brings a normal unit cell into the desired gauge -/

namespace PyTeN.Regauge
open Finset Transfer Lanczos Idmrg Matrix
noncomputable section

variable {O : LinAlg} {eigh : Eigh} {eigs : Eigs} {pinv : ℝ} {n : ℕ} {ts : List (Ten ℂ)}

/-- Spec: the cell `A` has the bond dimension and the local dimensions of `ts`, represents the same uniform state, and no bond has
become larger. -/
structure Regauged (n : ℕ) (ts A : List (Ten ℂ)) : Prop where
  link : Linked n A n
  ds : A.map Ten.d = ts.map Ten.d
  gauge : ∃ (X Y : ℕ → ℕ → ℂ) (ζ : ℝ), 0 < ζ ∧ GaugeOf ts A n n X Y ζ
  bond : ∀ b, (∀ u ∈ ts, u.l ≤ b ∧ u.r ≤ b) → ∀ u ∈ A, u.l ≤ b ∧ u.r ≤ b

theorem Normal.fixL {q : ℕ → ℕ → ℂ} (h : Normal .right pinv n ts 1 q) :
    sumM (ts.map Ten.d) (fun s => (cellM n ts s)ᴴ * (toM n q)ᵀ * cellM n ts s) = (toM n q)ᵀ := by
  rw [act_right]
  congr 1
  exact toM_ext.2 fun i hi j hj => by rw [h.eig i hi j hj]; simp

theorem Normal.fixR {p : ℕ → ℕ → ℂ} (h : Normal .left pinv n ts 1 p) :
    sumM (ts.map Ten.d) (fun s => cellM n ts s * toM n p * (cellM n ts s)ᴴ) = toM n p := by
  rw [act_left]
  exact toM_ext.2 fun i hi j hj => by rw [h.eig i hi j hj]; simp

theorem cellM_scale (z : ℝ) (s : List ℕ) : cellM n (ts.map (divT z)) s = ((1 / z ^ ts.length : ℝ) : ℂ) • cellM n ts s := by
  ext i j
  simp only [cellM, toM, chain_scale, Matrix.smul_apply, smul_eq_mul]
  push_cast
  ring

theorem Normal.unit {dir : Dir} {η : ℝ} {p : ℕ → ℕ → ℂ} (h : Normal dir pinv n ts η p) (hne : ts ≠ []) :
    Normal dir pinv n (ts.map (divT (η ^ (1 / (2 * (ts.length : ℝ)))))) 1 p := by
  have := h.scale (root_pos h.pos ts.length)
  rwa [root_pow h.pos (List.length_pos_iff.2 hne), div_self h.pos.ne'] at this

/-- The result of the common core, stated for the tensors before rescaling. -/
theorem regauged_of {A : List (Ten ℂ)} {X Y : Mat ℂ} {d z : ℝ} (hne : ts ≠ []) (hl : Linked n ts n) (hd : 0 < d) (hz : 0 < z) (h1 : Linked n A n)
    (h2 : A.map Ten.d = (ts.map (divT z)).map Ten.d) (hXY : toM n X.v * toM n Y.v = (d : ℂ) • 1)
    (h3 : ∀ s, Cfg (ts.map (divT z)) s → toM n X.v * cellM n (ts.map (divT z)) s * toM n Y.v = (d : ℂ) • cellM n A s)
    (h4 : ∀ b, n ≤ b → (∀ u ∈ ts.map (divT z), u.l ≤ b ∧ u.r ≤ b) → ∀ u ∈ A, u.l ≤ b ∧ u.r ≤ b) : Regauged n ts A := by
  have hd' : (d : ℂ) ≠ 0 := by exact_mod_cast hd.ne'
  refine ⟨h1, h2.trans (ds_scale z ts), ⟨fun i j => (1 / d : ℂ) * X.v i j, Y.v, 1 / z ^ ts.length, by positivity, ?_, ?_⟩, ?_⟩
  · intro i hi j hj
    have hYX : toM n Y.v * ((1 / d : ℂ) • toM n X.v) = 1 := by
      rw [mul_eq_one_comm]
      rw [Matrix.smul_mul, hXY, smul_smul, one_div_mul_cancel hd', one_smul]
    rw [← toM_delta] at hYX
    have : toM n (mmul n Y.v fun i j => (1 / d : ℂ) * X.v i j) = toM n (delta ℂ) := by
      rw [toM_mmul, ← hYX]; rfl
    exact toM_ext.1 this i hi j hj
  · intro s hs i hi j hj
    have e := h3 s (by rw [cfg_map, ds_scale]; exact cfg_map.1 hs)
    rw [cellM_scale] at e
    have : toM n (chain A s) = toM n fun i j => (((1 / z ^ ts.length : ℝ)) : ℂ) * mmul n (fun i j => (1 / d : ℂ) * X.v i j) (mmul n (chain ts s) Y.v) i j := by
      have e1 : toM n (fun i j => (((1 / z ^ ts.length : ℝ)) : ℂ) * mmul n (fun i j => (1 / d : ℂ) * X.v i j) (mmul n (chain ts s) Y.v) i j)
          = (((1 / z ^ ts.length : ℝ)) : ℂ) • (((1 / d : ℂ) • toM n X.v) * (cellM n ts s * toM n Y.v)) := by
        rw [cellM, ← toM_mmul, show (1 / d : ℂ) • toM n X.v = toM n (fun i j => (1 / d : ℂ) * X.v i j) from rfl, ← toM_mmul]; rfl
      rw [e1]
      have e2 : toM n (chain A s) = (1 / d : ℂ) • ((d : ℂ) • cellM n A s) := by rw [smul_smul, one_div_mul_cancel hd', one_smul]; rfl
      rw [e2, ← e]
      simp only [Matrix.smul_mul, Matrix.mul_smul, smul_smul, Matrix.mul_assoc]
      congr 1
      ring
    exact toM_ext.1 this i hi j hj
  · intro b hb
    refine h4 b ?_ ?_
    · obtain ⟨t, Q, rfl⟩ := List.exists_cons_of_ne_nil hne
      rw [← hl.1]; exact (hb t (by simp)).1
    · intro u hu
      obtain ⟨t, ht, rfl⟩ := List.mem_map.1 hu
      exact hb t ht

theorem last_r {A : List (Ten ℂ)} (hne : A ≠ []) {l r : ℕ} (h : Linked l A r) : (A.getLast?.map Ten.r).getD 0 = r := by
  obtain ⟨a, b, -, h2, -, h4⟩ := linked_ends hne h
  rw [h2]; exact h4

theorem head_l {A : List (Ten ℂ)} (hne : A ≠ []) {l r : ℕ} (h : Linked l A r) : (A.head?.map Ten.l).getD 0 = l := by
  obtain ⟨a, b, h1, -, h3, -⟩ := linked_ends hne h
  rw [h1]; exact h3

theorem ne_of_ds {A : List (Ten ℂ)} (hne : ts ≠ []) (h : A.map Ten.d = ts.map Ten.d) : A ≠ [] := by
  rintro rfl
  simp at h
  exact hne h

theorem gaugeLeft_run (hO : O.Spec) (he : EighSpec eigh) (hE : EigsSpec eigs) (hp : 0 ≤ pinv) (hne : ts ≠ []) (hl : Linked n ts n) {η : ℝ}
    {q : ℕ → ℕ → ℂ} (hN : Normal .right pinv n ts η q) {μ : ℂ} {v : Vec ℂ} (h : unitcellTMeigs eigs .right ts = .ok (μ, v)) :
    ∃ A, gaugeLeft O eigh eigs pinv n ts = .ok (A, flatDiag n) ∧ Regauged n ts A ∧ ∀ a ∈ A, LeftOrth a := by
  obtain ⟨hn2, rfl, c, f, hc, hv, hf⟩ := tm_spec hE hne hl hN h
  obtain ⟨w, wi, u, hw, hS⟩ := density_spec he hp hc hv hf hN.dens
  obtain ⟨S, Si, s1, s2, s3, s4, s5, s6, s7, s8, s9⟩ := hS.roots hp
  set z := η ^ (1 / (2 * (ts.length : ℝ)))
  have hres : rescale (η : ℂ) ts = .ok (ts.map (divT z)) := rescale_ok hN.pos ts
  have hN1 := hN.unit hne
  have hne1 : ts.map (divT z) ≠ [] := by simpa using hne
  have hX : toM n (transp (u.dot (diagMat (w.map Real.sqrt)))).v = (toM n u.v * S)ᵀ := by
    rw [toM_transp, toM_dot _ _ hS.c, s1]
  have hY : toM n (transp ((diagMat (wi.map Real.sqrt)).dot u.herm)).v = (Si * (toM n u.v)ᴴ)ᵀ := by
    rw [toM_transp, toM_dot _ _ (by simp [diagMat, hS.inv, hS.len]), s2, toM_herm]
  have hXY : toM n (transp (u.dot (diagMat (w.map Real.sqrt)))).v * toM n (transp ((diagMat (wi.map Real.sqrt)).dot u.herm)).v = ((1 : ℝ) : ℂ) • 1 := by
    rw [hX, hY, ← transpose_mul, Matrix.mul_assoc, ← Matrix.mul_assoc _ _ S, hS.iso, Matrix.one_mul, s8, transpose_one]
    simp
  obtain ⟨ts1, ts2, ts3, A, r1, r2, r3, r4, r5, r6, r7, r8, r9⟩ := left_core hO (by omega) (linked_scale (z := z) hl) hne1
    (X := transp (u.dot (diagMat (w.map Real.sqrt)))) (Y := transp ((diagMat (wi.map Real.sqrt)).dot u.herm))
    (by simp [transp, Mat.dot, diagMat, hS.len]) (by simp [transp, Mat.dot, hS.r]) (by simp [transp, Mat.dot, Mat.herm, hS.r])
    (by simp [transp, Mat.dot, diagMat, hS.inv, hS.len]) (c := 1) one_pos hN1.fixL (by
      rw [hX, s9, one_smul]
      rw [transpose_mul, s5, conjTranspose_mul, s3, transpose_mul, transpose_mul, transpose_mul, s5]
      have : (toM n u.v)ᵀᴴ = (toM n u.v)ᴴᵀ := rfl
      rw [this]
      simp only [Matrix.mul_assoc]) hXY
  refine ⟨A, ?_, regauged_of hne hl one_pos (root_pos hN.pos _) r5 r6 hXY r8 r9, r7⟩
  simp only [gaugeLeft, andThen, h, hres, hw, r1, r2, r3, r4]
  rw [last_r (ne_of_ds hne (r6.trans (ds_scale z ts))) r5]

theorem gaugeRight_run (hO : O.Spec) (he : EighSpec eigh) (hE : EigsSpec eigs) (hp : 0 ≤ pinv) (hne : ts ≠ []) (hl : Linked n ts n) {η : ℝ}
    {p : ℕ → ℕ → ℂ} (hN : Normal .left pinv n ts η p) {μ : ℂ} {v : Vec ℂ} (h : unitcellTMeigs eigs .left ts = .ok (μ, v)) :
    ∃ A, gaugeRight O eigh eigs pinv n ts = .ok (A, flatDiag n) ∧ Regauged n ts A ∧ ∀ a ∈ A, RightOrth a := by
  obtain ⟨hn2, rfl, c, f, hc, hv, hf⟩ := tm_spec hE hne hl hN h
  obtain ⟨w, wi, u, hw, hS⟩ := density_spec he hp hc hv hf hN.dens
  obtain ⟨S, Si, s1, s2, s3, s4, s5, s6, s7, s8, s9⟩ := hS.roots hp
  set z := η ^ (1 / (2 * (ts.length : ℝ)))
  have hres : rescale (η : ℂ) ts = .ok (ts.map (divT z)) := rescale_ok hN.pos ts
  have hN1 := hN.unit hne
  have hne1 : ts.map (divT z) ≠ [] := by simpa using hne
  have hY : toM n (u.dot (diagMat (w.map Real.sqrt))).v = toM n u.v * S := by
    rw [toM_dot _ _ hS.c, s1]
  have hX : toM n ((diagMat (wi.map Real.sqrt)).dot u.herm).v = Si * (toM n u.v)ᴴ := by
    rw [toM_dot _ _ (by simp [diagMat, hS.inv, hS.len]), s2, toM_herm]
  have hXY : toM n ((diagMat (wi.map Real.sqrt)).dot u.herm).v * toM n (u.dot (diagMat (w.map Real.sqrt))).v = ((1 : ℝ) : ℂ) • 1 := by
    rw [hX, hY, Matrix.mul_assoc, ← Matrix.mul_assoc _ _ S, hS.iso, Matrix.one_mul, s8]
    simp
  obtain ⟨ts1, ts2, ts3, A, r1, r2, r3, r4, r5, r6, r7, r8, r9⟩ := right_core hO (by omega) (linked_scale (z := z) hl) hne1
    (X := (diagMat (wi.map Real.sqrt)).dot u.herm) (Y := u.dot (diagMat (w.map Real.sqrt)))
    (by simp [Mat.dot, diagMat, hS.inv, hS.len]) (by simp [Mat.dot, Mat.herm, hS.r]) (by simp [Mat.dot, hS.r])
    (by simp [Mat.dot, diagMat, hS.len]) (c := 1) one_pos hN1.fixR (by
      rw [hY, s9, one_smul, conjTranspose_mul, s3]
      simp only [Matrix.mul_assoc]) hXY
  refine ⟨A, ?_, regauged_of hne hl one_pos (root_pos hN.pos _) r5 r6 hXY r8 r9, r7⟩
  simp only [gaugeRight, andThen, h, hres, hw, r1, r2, r3, r4]
  rw [head_l (ne_of_ds hne (r6.trans (ds_scale z ts))) r5]

/-! ## The symmetric gauge -/

theorem trace_ne {n : ℕ} (hn : 0 < n) {M Mi : Matrix (Fin n) (Fin n) ℂ} (h : M * Mi = 1) : frob M ≠ 0 := by
  intro h0
  have hz : M = 0 := by
    ext i j
    have h1 := (sum_eq_zero_iff_of_nonneg fun i _ => sum_nonneg fun j _ => Complex.normSq_nonneg (M i j)).1 h0 i (mem_univ i)
    exact Complex.normSq_eq_zero.1 ((sum_eq_zero_iff_of_nonneg fun j _ => Complex.normSq_nonneg (M i j)).1 h1 j (mem_univ j))
  rw [hz, Matrix.zero_mul] at h
  have := congrFun (congrFun h ⟨0, hn⟩) ⟨0, hn⟩
  simp at this

/-- The leading eigenvalues in both directions agree. -/
theorem eig_same {x y xi yi : Matrix (Fin n) (Fin n) ℂ} (hn : 0 < n) {p q : ℕ → ℕ → ℂ} {η : ℝ} (hxh : xᴴ = x) (hyh : yᴴ = y)
    (hx : x * xi = 1) (hy : y * yi = 1) (hp : toM n p = x * x) (hq : (toM n q)ᵀ = y * y)
    (h1 : Normal .left pinv n ts 1 p) (h2 : Normal .right pinv n ts η q) : η = 1 := by
  have e1 := h1.fixR
  have e2 : sumM (ts.map Ten.d) (fun s => (cellM n ts s)ᴴ * (toM n q)ᵀ * cellM n ts s) = (η : ℂ) • (toM n q)ᵀ := by
    rw [act_right, ← transpose_smul]
    congr 1
    ext i j
    exact h2.eig i i.2 j j.2
  have tr : ∀ s, ((toM n q)ᵀ * (cellM n ts s * toM n p * (cellM n ts s)ᴴ)).trace = ((cellM n ts s)ᴴ * (toM n q)ᵀ * cellM n ts s * toM n p).trace := by
    intro s
    rw [Matrix.trace_mul_comm]
    rw [show cellM n ts s * toM n p * (cellM n ts s)ᴴ * (toM n q)ᵀ = (cellM n ts s * toM n p) * ((cellM n ts s)ᴴ * (toM n q)ᵀ) by simp only [Matrix.mul_assoc]]
    rw [Matrix.trace_mul_comm]
    simp only [Matrix.mul_assoc]
  have trs : ∀ F : List ℕ → Matrix (Fin n) (Fin n) ℂ, (sumM (ts.map Ten.d) F).trace = sumCfg (ts.map Ten.d) fun s => (F s).trace := by
    intro F
    simp only [Matrix.trace, diag_apply, sumM]
    rw [sumCfg_fin]
  have e3 : ((toM n q)ᵀ * toM n p).trace = (η : ℂ) * ((toM n q)ᵀ * toM n p).trace := by
    conv_lhs => rw [← e1, ← mul_sumM, trs]
    simp_rw [tr]
    rw [← trs, sumM_mul, e2, Matrix.smul_mul, Matrix.trace_smul, smul_eq_mul]
  have e4 : ((toM n q)ᵀ * toM n p).trace = ((frob (y * x) : ℝ) : ℂ) := by
    rw [frob_trace, hp, hq, conjTranspose_mul, hxh, hyh]
    rw [show y * y * (x * x) = y * (y * x * x) by simp only [Matrix.mul_assoc], Matrix.trace_mul_comm]
    simp only [Matrix.mul_assoc]
  have h0 : frob (y * x) ≠ 0 := trace_ne hn (Mi := xi * yi) (by
    rw [Matrix.mul_assoc, ← Matrix.mul_assoc x, hx, Matrix.one_mul, hy])
  rw [e4] at e3
  have : frob (y * x) = η * frob (y * x) := by exact_mod_cast e3
  have : (1 - η) * frob (y * x) = 0 := by linear_combination this
  rcases mul_eq_zero.1 this with h | h
  · linarith
  · exact absurd h h0

/-- The matrices entering the singular value decomposition. -/
structure Roots (n : ℕ) (p q : ℕ → ℕ → ℂ) (x xi y yi : Matrix (Fin n) (Fin n) ℂ) : Prop where
  xh : xᴴ = x
  yh : yᴴ = y
  x1 : x * xi = 1
  x2 : xi * x = 1
  y1 : y * yi = 1
  y2 : yi * y = 1
  p : toM n p = x * x
  q : (toM n q)ᵀ = y * y

theorem Spectral.sqrt (hp : 0 ≤ pinv) {p : ℕ → ℕ → ℂ} {w wi : List ℝ} {u : Mat ℂ} (h : Spectral pinv n p w wi u) :
    ∃ x xi : Matrix (Fin n) (Fin n) ℂ, toM n ((u.dot (diagMat (w.map Real.sqrt))).dot u.herm).v = x ∧
      toM n ((u.dot (diagMat (wi.map Real.sqrt))).dot u.herm).v = xi ∧
      toM n (((Regauge.transp u.herm).dot (diagMat (wi.map Real.sqrt))).dot (Regauge.transp u)).v = xiᵀ ∧
      xᴴ = x ∧ x * xi = 1 ∧ xi * x = 1 ∧ toM n p = x * x := by
  obtain ⟨S, Si, s1, s2, s3, s4, s5, s6, s7, s8, s9⟩ := h.roots hp
  set U := toM n u.v
  have hU : Uᴴ * U = 1 := h.iso
  have hU' : U * Uᴴ = 1 := mul_eq_one_comm.1 hU
  have hlw : (diagMat (w.map Real.sqrt)).c = n := by simp [diagMat, h.len]
  have hlwi : (diagMat (wi.map Real.sqrt)).c = n := by simp [diagMat, h.inv, h.len]
  have key : ∀ A B : Matrix (Fin n) (Fin n) ℂ, U * A * Uᴴ * (U * B * Uᴴ) = U * (A * B) * Uᴴ := by
    intro A B
    calc U * A * Uᴴ * (U * B * Uᴴ) = U * A * (Uᴴ * U) * B * Uᴴ := by simp only [Matrix.mul_assoc]
      _ = _ := by rw [hU]; simp only [Matrix.mul_assoc, Matrix.one_mul]
  refine ⟨U * S * Uᴴ, U * Si * Uᴴ, ?_, ?_, ?_, ?_, ?_, ?_, ?_⟩
  · rw [toM_dot _ _ (by exact hlw), toM_dot _ _ h.c, s1, toM_herm]
  · rw [toM_dot _ _ (by exact hlwi), toM_dot _ _ h.c, s2, toM_herm]
  · rw [toM_dot _ _ (by exact hlwi), toM_dot _ _ (by exact h.c), s2, toM_transp, toM_transp, toM_herm]
    rw [transpose_mul, transpose_mul, s6, Matrix.mul_assoc]
  · simp only [conjTranspose_mul, conjTranspose_conjTranspose, s3, Matrix.mul_assoc]
  · rw [key, s7, Matrix.mul_one, hU']
  · rw [key, s8, Matrix.mul_one, hU']
  · rw [key, s9]

theorem schmidt_keep {m : ℕ} {s : List ℝ} {ε : ℝ} (hs : s.length = m) (hm : 0 < m) (hε : 0 ≤ ε) (h1 : ∀ x ∈ s, ε < x) (h2 : norm2 s ≤ 1) :
    0 < norm2 s ∧ schmidt (fun l => l.filter (ε < ·)) s = .ok (s.map (· / norm2 s)) ∧ norm2 (s.map (· / norm2 s)) = 1 := by
  have hne : s ≠ [] := by rintro rfl; simp at hs; omega
  obtain ⟨a, Q, hs'⟩ := List.exists_cons_of_ne_nil hne
  have ha : ε < a := h1 a (by simp [hs'])
  have hpos : 0 < norm2 s := by
    unfold norm2
    refine Real.sqrt_pos.2 ?_
    rw [hs', List.map_cons, List.sum_cons]
    have : 0 ≤ (Q.map fun x => x ^ 2).sum := List.sum_nonneg (by simp only [List.mem_map]; rintro _ ⟨x, _, rfl⟩; positivity)
    have : 0 < a ^ 2 := pow_pos (hε.trans_lt ha) 2
    linarith
  have e1 : normalise s = .ok (s.map (· / norm2 s)) := by
    unfold normalise
    rw [if_neg hne, if_neg hpos.ne']
  have e2 := (normalise_ok e1).2.1 hne
  have e3 : (s.map (· / norm2 s)).filter (ε < ·) = s.map (· / norm2 s) := by
    rw [List.filter_eq_self]
    intro x hx
    obtain ⟨y, hy, rfl⟩ := List.mem_map.1 hx
    simp only [decide_eq_true_eq]
    have hy' := h1 y hy
    rw [lt_div_iff₀ hpos]
    calc ε * norm2 s ≤ ε * 1 := mul_le_mul_of_nonneg_left h2 hε
      _ < y := by rw [mul_one]; exact hy'
  refine ⟨hpos, ?_, e2.1⟩
  simp only [schmidt, e1, e3]
  unfold normalise
  rw [if_neg (by simpa using hne), e2.1, if_neg one_ne_zero]
  simp

/-- The gauge transformation made of the singular vectors. -/
theorem sym_alg {p q : ℕ → ℕ → ℂ} {x xi y yi U V : Matrix (Fin n) (Fin n) ℂ} (R : Roots n p q x xi y yi) {lam : Fin n → ℝ} {ν : ℝ} (hν : 0 < ν)
    (hU : Uᴴ * U = 1) (hV : V * Vᴴ = 1) (h : y * x = (ν : ℂ) • (U * diagonal (fun k => ((lam k : ℝ) : ℂ)) * V)) :
    (diagonal (fun k => ((lam k : ℝ) : ℂ)) * V * xi) * (yi * U) = ((1 / ν : ℝ) : ℂ) • 1 ∧
    (diagonal (fun k => ((lam k : ℝ) : ℂ)) * V * xi)ᴴ * (diagonal (fun k => ((lam k : ℝ) : ℂ)) * V * xi) = ((1 / ν ^ 2 : ℝ) : ℂ) • (toM n q)ᵀ ∧
    (yi * U) * (diagonal (fun k => ((lam k ^ 2 : ℝ) : ℂ))) * (yi * U)ᴴ = ((1 / ν ^ 2 : ℝ) : ℂ) • toM n p := by
  have hν' : (ν : ℂ) ≠ 0 := by exact_mod_cast hν.ne'
  have hUU : U * Uᴴ = 1 := mul_eq_one_comm.1 hU
  have hVV : Vᴴ * V = 1 := mul_eq_one_comm.1 hV
  set Λ : Matrix (Fin n) (Fin n) ℂ := diagonal (fun k => ((lam k : ℝ) : ℂ)) with hΛ
  have hΛh : Λᴴ = Λ := by
    rw [hΛ, diagonal_conjTranspose]
    congr 1
    funext k
    exact Complex.conj_ofReal _
  have hΛ2 : (diagonal (fun k => ((lam k ^ 2 : ℝ) : ℂ)) : Matrix (Fin n) (Fin n) ℂ) = Λ * Λ := by
    rw [hΛ, diagonal_mul_diagonal]
    congr 1
    funext k
    push_cast
    ring
  have hinv : (1 / ν : ℂ) * ν = 1 := one_div_mul_cancel hν'
  -- X = (1/ν) Uᴴ y
  have hX : Λ * V * xi = (1 / ν : ℂ) • (Uᴴ * y) := by
    have : Uᴴ * (y * x) * xi = (ν : ℂ) • (Λ * V * xi) := by
      rw [h, Matrix.mul_smul, Matrix.smul_mul]
      congr 1
      calc Uᴴ * (U * Λ * V) * xi = (Uᴴ * U) * (Λ * V * xi) := by simp only [Matrix.mul_assoc]
        _ = _ := by rw [hU, Matrix.one_mul]
    rw [show Uᴴ * (y * x) * xi = Uᴴ * y * (x * xi) by simp only [Matrix.mul_assoc], R.x1, Matrix.mul_one] at this
    rw [this, smul_smul, hinv, one_smul]
  -- YΛ = (1/ν) x Vᴴ
  have hY : yi * U * Λ = (1 / ν : ℂ) • (x * Vᴴ) := by
    have : yi * (y * x) * Vᴴ = (ν : ℂ) • (yi * U * Λ) := by
      rw [h, Matrix.mul_smul, Matrix.smul_mul]
      congr 1
      calc yi * (U * Λ * V) * Vᴴ = (yi * U * Λ) * (V * Vᴴ) := by simp only [Matrix.mul_assoc]
        _ = _ := by rw [hV, Matrix.mul_one]
    rw [show yi * (y * x) * Vᴴ = yi * y * (x * Vᴴ) by simp only [Matrix.mul_assoc], R.y2, Matrix.one_mul] at this
    rw [this, smul_smul, hinv, one_smul]
  have hst : star (1 / ν : ℂ) = 1 / ν := by
    rw [star_div₀, star_one, show star (ν : ℂ) = ν from Complex.conj_ofReal _]
  refine ⟨?_, ?_, ?_⟩
  · rw [hX, Matrix.smul_mul, show Uᴴ * y * (yi * U) = Uᴴ * (y * yi) * U by simp only [Matrix.mul_assoc], R.y1, Matrix.mul_one, hU]
    push_cast; rfl
  · rw [hX, conjTranspose_smul, conjTranspose_mul, conjTranspose_conjTranspose, R.yh, Matrix.smul_mul, Matrix.mul_smul, smul_smul, hst, R.q,
      show y * U * (Uᴴ * y) = y * (U * Uᴴ) * y by simp only [Matrix.mul_assoc], hUU, Matrix.mul_one]
    push_cast
    congr 1
    ring
  · rw [hΛ2, show yi * U * (Λ * Λ) * (yi * U)ᴴ = (yi * U * Λ) * (yi * U * Λ)ᴴ by
      rw [conjTranspose_mul (yi * U), hΛh]; simp only [Matrix.mul_assoc]]
    rw [hY, conjTranspose_smul, conjTranspose_mul, conjTranspose_conjTranspose, R.xh, Matrix.smul_mul, Matrix.mul_smul, smul_smul, hst, R.p,
      show x * Vᴴ * (V * x) = x * (Vᴴ * V) * x by simp only [Matrix.mul_assoc], hVV, Matrix.mul_one]
    push_cast
    congr 1
    ring

theorem divT_one (ts : List (Ten ℂ)) : ts.map (divT 1) = ts := by
  conv_rhs => rw [← List.map_id ts]
  refine List.map_congr_left fun t _ => ?_
  simp [divT]

theorem frob_svd {U V : Matrix (Fin n) (Fin n) ℂ} {σ : Fin n → ℝ} (hU : Uᴴ * U = 1) (hV : V * Vᴴ = 1) :
    frob (U * diagonal (fun k => ((σ k : ℝ) : ℂ)) * V) = ∑ k, σ k ^ 2 := by
  have : ((frob (U * diagonal (fun k => ((σ k : ℝ) : ℂ)) * V) : ℝ) : ℂ) = ((∑ k, σ k ^ 2 : ℝ) : ℂ) := by
    rw [frob_trace]
    set Λ : Matrix (Fin n) (Fin n) ℂ := diagonal (fun k => ((σ k : ℝ) : ℂ)) with hΛ
    have hΛh : Λᴴ = Λ := by
      rw [hΛ, diagonal_conjTranspose]
      congr 1
      funext k
      exact Complex.conj_ofReal _
    rw [conjTranspose_mul, conjTranspose_mul, hΛh]
    rw [show U * Λ * V * (Vᴴ * (Λ * Uᴴ)) = U * (Λ * (V * Vᴴ) * Λ * Uᴴ) by simp only [Matrix.mul_assoc], hV, Matrix.mul_one, Matrix.trace_mul_comm,
      Matrix.mul_assoc, hU, Matrix.mul_one, hΛ, diagonal_mul_diagonal, trace_diagonal]
    push_cast
    exact sum_congr rfl fun k _ => by ring
  exact_mod_cast this

theorem frob_density {p : ℕ → ℕ → ℂ} (h : Density pinv n p) {x : Matrix (Fin n) (Fin n) ℂ} (hx : xᴴ = x) (hp : toM n p = x * x) : frob x = 1 := by
  have : ((frob x : ℝ) : ℂ) = ((1 : ℝ) : ℂ) := by
    rw [frob_trace, hx, ← hp, Complex.ofReal_one, ← h.tr, Finset.sum_range]
    rfl
  exact_mod_cast this

theorem symParts_run (hO : O.Spec) (he : EighSpec eigh) (hE : EigsSpec eigs) (hp : 0 ≤ pinv) (hne : ts ≠ []) (hl : Linked n ts n) {η η' z : ℝ}
    (hz : z = η ^ (1 / (2 * (ts.length : ℝ))))
    {p q : ℕ → ℕ → ℂ} (hN : Normal .left pinv n ts η p) (hN' : Normal .right pinv n ts η' q) {μ μ' : ℂ} {v v' : Vec ℂ}
    (h : unitcellTMeigs eigs .left ts = .ok (μ, v)) (h' : unitcellTMeigs eigs .right (ts.map (divT z)) = .ok (μ', v')) :
    ∃ (invx invy U Vd : Mat ℂ) (s : List ℝ) (x xi y yi : Matrix (Fin n) (Fin n) ℂ),
      symParts O eigh eigs pinv n ts = .ok (ts.map (divT z), invx, invy, U, s, Vd) ∧ Roots n p q x xi y yi ∧
      (invx.r = n ∧ invx.c = n ∧ invy.r = n ∧ invy.c = n ∧ U.r = n ∧ U.c = n ∧ Vd.r = n ∧ Vd.c = n ∧ s.length = n) ∧
      toM n invx.v = xi ∧ toM n invy.v = yi ∧ (toM n U.v)ᴴ * toM n U.v = 1 ∧ toM n Vd.v * (toM n Vd.v)ᴴ = 1 ∧
      y * x = toM n U.v * diagonal (fun k : Fin n => ((s.getD k 0 : ℝ) : ℂ)) * toM n Vd.v ∧ (∀ x ∈ s, pinv ≤ x) ∧ norm2 s ≤ 1 ∧
      Normal .left pinv n (ts.map (divT z)) 1 p ∧ Normal .right pinv n (ts.map (divT z)) 1 q ∧ 2 ≤ n := by
  obtain ⟨hn2, rfl, c, f, hc, hv, hf⟩ := tm_spec hE hne hl hN h
  obtain ⟨w, wi, u, hw, hS⟩ := density_spec he hp hc hv hf hN.dens
  have hres : rescale (η : ℂ) ts = .ok (ts.map (divT z)) := by rw [hz]; exact rescale_ok hN.pos ts
  have hz0 : 0 < z := by rw [hz]; exact root_pos hN.pos _
  have hN1 : Normal .left pinv n (ts.map (divT z)) 1 p := by rw [hz]; exact hN.unit hne
  have hN2 := hN'.scale hz0
  have hne1 : ts.map (divT z) ≠ [] := by simpa using hne
  have hl1 : Linked n (ts.map (divT z)) n := linked_scale hl
  obtain ⟨-, rfl, c', f', hc', hv', hf'⟩ := tm_spec hE hne1 hl1 hN2 h'
  obtain ⟨w', wi', u', hw', hS'⟩ := density_spec he hp hc' hv' hf' hN2.dens
  obtain ⟨x, xi, x1, x2, -, x4, x5, x6, x7⟩ := hS.sqrt hp
  obtain ⟨y, yi, y1, -, y3, y4, y5, y6, y7⟩ := hS'.sqrt hp
  have hyT : yᵀᴴ = yᵀ := by
    calc yᵀᴴ = yᴴᵀ := rfl
      _ = yᵀ := by rw [y4]
  have hR : Roots n p q x xi yᵀ yiᵀ := ⟨x4, hyT, x5, x6, by rw [← transpose_mul, y6, transpose_one], by rw [← transpose_mul, y5, transpose_one], x7,
    by rw [y7, transpose_mul]⟩
  have hη : η' / z ^ (2 * ts.length) = 1 := eig_same (by omega) hR.xh hR.yh hR.x1 hR.y1 hR.p hR.q hN1 hN2
  rw [hη] at hN2
  have hres' : rescale (((η' / z ^ (2 * ts.length) : ℝ)) : ℂ) (ts.map (divT z)) = .ok (ts.map (divT z)) := by
    rw [hη, rescale_ok one_pos, Real.one_rpow, divT_one]
  set X : Mat ℂ := (u.dot (diagMat (w.map Real.sqrt))).dot u.herm with hX
  set Y : Mat ℂ := transp ((u'.dot (diagMat (w'.map Real.sqrt))).dot u'.herm) with hY
  have hsvd := hO.svd (Y.dot X)
  have hm : min (Y.dot X).r (Y.dot X).c = n := by
    simp [hX, hY, Mat.dot, Mat.herm, transp, hS.r, hS'.r]
  have hXr : (Y.dot X).r = n := by simp [hY, Mat.dot, Mat.herm, transp, hS'.r]
  have hXc : (Y.dot X).c = n := by simp [hX, Mat.dot, Mat.herm, hS.r]
  obtain ⟨v1, v2, v3, v4, v5, v6, -, v8, v9, v10⟩ := hsvd
  rw [hm] at v2 v3 v4 v8 v9 v10
  rw [hXr] at v1 v8 v9
  rw [hXc] at v5 v8 v10
  have hU : (toM n (O.svd (Y.dot X)).1.v)ᴴ * toM n (O.svd (Y.dot X)).1.v = 1 := by
    rw [← toM_delta]
    ext i j
    rw [Matrix.mul_apply]
    simp only [conjTranspose_apply, toM]
    rw [← Finset.sum_range fun k => star ((O.svd (Y.dot X)).1.v k i) * (O.svd (Y.dot X)).1.v k j]
    exact v9 i i.2 j j.2
  have hV : toM n (O.svd (Y.dot X)).2.2.v * (toM n (O.svd (Y.dot X)).2.2.v)ᴴ = 1 := by
    rw [← toM_delta]
    ext i j
    rw [Matrix.mul_apply]
    simp only [conjTranspose_apply, toM]
    rw [← Finset.sum_range fun k => (O.svd (Y.dot X)).2.2.v i k * star ((O.svd (Y.dot X)).2.2.v j k)]
    exact v10 i i.2 j j.2
  have hyx : yᵀ * x = toM n (O.svd (Y.dot X)).1.v * diagonal (fun k : Fin n => (((O.svd (Y.dot X)).2.1.getD k 0 : ℝ) : ℂ)) * toM n (O.svd (Y.dot X)).2.2.v := by
    have : toM n (Y.dot X).v = yᵀ * x := by
      rw [toM_dot _ _ (by simp [hY, Mat.dot, transp, hS'.r]), hY, toM_transp, y1, x1]
    rw [← this]
    ext i j
    rw [Matrix.mul_apply]
    simp only [mul_diagonal, toM]
    rw [← Finset.sum_range fun k => (O.svd (Y.dot X)).1.v i k * (((O.svd (Y.dot X)).2.1.getD k 0 : ℝ) : ℂ) * (O.svd (Y.dot X)).2.2.v k j]
    exact (v8 i i.2 j j.2).symm
  refine ⟨(u.dot (diagMat (wi.map Real.sqrt))).dot u.herm, ((transp u'.herm).dot (diagMat (wi'.map Real.sqrt))).dot (transp u'), (O.svd (Y.dot X)).1,
    (O.svd (Y.dot X)).2.2, (O.svd (Y.dot X)).2.1, x, xi, yᵀ, yiᵀ, ?_, hR, ⟨?_, ?_, ?_, ?_, v1, v2, v4, v5, v3⟩, x2, y3, hU, hV, hyx, ?_, ?_, hN1, hN2, hn2⟩
  · simp only [symParts, andThen, h, hres, hw, h', hres', hw']
    rfl
  · simp [Mat.dot, hS.r]
  · simp [Mat.dot, Mat.herm, hS.r]
  · simp [Mat.dot, Mat.herm, transp, hS'.r]
  · simp [Mat.dot, transp, hS'.r]
  · intro t ht
    obtain ⟨k, hk, rfl⟩ := List.mem_iff_getElem.1 ht
    have hk' : k < n := by rw [← v3]; exact hk
    have := sing_big hp (σ := fun k : Fin n => (O.svd (Y.dot X)).2.1.getD k 0) (fun k => by
      have hk : (k : ℕ) < (O.svd (Y.dot X)).2.1.length := by rw [v3]; exact k.2
      simp only [List.getD_eq_getElem?_getD, List.getElem?_eq_getElem hk, Option.getD_some]
      exact v6 _ (List.getElem_mem hk)) hyx hU hV (by rw [x4, ← x7]; exact hN.dens.form)
      (by rw [hyT, ← hR.q]; exact hN2.dens.transp.form) ⟨k, hk'⟩
    simpa [List.getD_eq_getElem?_getD, List.getElem?_eq_getElem hk] using this
  · have h1 : norm2 (O.svd (Y.dot X)).2.1 ^ 2 = frob (yᵀ * x) := by
      rw [hyx, frob_svd hU hV, norm2_sq, v3, Finset.sum_range]
    have h2 := frob_mul yᵀ x
    rw [frob_density hN.dens x4 x7, frob_density hN2.dens.transp hyT hR.q, ← h1, mul_one] at h2
    exact (sq_le_one_iff₀ (norm2_nonneg _)).1 h2

/-- For a normal cell nothing is discarded and the result is in the symmetric gauge. -/
theorem gaugeSym_run (hO : O.Spec) (he : EighSpec eigh) (hE : EigsSpec eigs) (hp : 1e-15 < pinv) (hne : ts ≠ []) (hl : Linked n ts n) {η η' z : ℝ}
    (hz : z = η ^ (1 / (2 * (ts.length : ℝ)))) (fuel : ℕ) {truncate : ℝ} (ht : truncate ≤ 1e-15) (D : Option ℕ)
    {p q : ℕ → ℕ → ℂ} (hN : Normal .left pinv n ts η p) (hN' : Normal .right pinv n ts η' q) {μ μ' : ℂ} {v v' : Vec ℂ}
    (h : unitcellTMeigs eigs .left ts = .ok (μ, v)) (h' : unitcellTMeigs eigs .right (ts.map (divT z)) = .ok (μ', v')) :
    ∃ A lam, gaugeSym O eigh eigs pinv (fuel + 1) truncate D ts = .ok (A, lam) ∧ Regauged n ts A ∧ Symmetric n A (lam.map Complex.ofReal) := by
  have hp0 : 0 ≤ pinv := le_trans (by norm_num) hp.le
  obtain ⟨invx, invy, U, Vd, s, x, xi, y, yi, a1, hR, ⟨b1, b2, b3, b4, b5, b6, b7, b8, b9⟩, c1, c2, hU, hV, hyx, hs, hs1, hN1, hN2, hn2⟩ :=
    symParts_run hO he hE hp0 hne hl hz hN hN' h h'
  have hz0 : 0 < z := by rw [hz]; exact root_pos hN.pos _
  obtain ⟨hν, d1, d2⟩ := schmidt_keep (ε := 1e-15) b9 (by omega) (by norm_num) (fun x hx => hp.trans_le (hs x hx)) hs1
  set ν := norm2 s
  set lam := s.map (· / ν) with hlam
  have hlen : lam.length = n := by rw [hlam, List.length_map, b9]
  have hg : ∀ k : Fin n, lam.getD k 0 = s.getD k 0 / ν := fun k => by
    rw [hlam]; exact getD_map_of_lt (a := 0) _ _ (by rw [b9]; exact k.2) _
  have hνc : (ν : ℂ) ≠ 0 := by exact_mod_cast hν.ne'
  have hyx' : y * x = (ν : ℂ) • (toM n U.v * diagonal (fun k : Fin n => ((lam.getD k 0 : ℝ) : ℂ)) * toM n Vd.v) := by
    rw [hyx, ← Matrix.smul_mul, ← Matrix.mul_smul]
    congr 2
    ext i j
    rw [Matrix.smul_apply, diagonal_apply, diagonal_apply]
    split
    · rw [hg, smul_eq_mul]
      push_cast
      rw [mul_div_cancel₀ _ hνc]
    · simp
  obtain ⟨g1, g2, g3⟩ := sym_alg hR hν hU hV hyx'
  set X : Mat ℂ := ((diagMat lam).dot (takeRows Vd lam.length)).dot invx with hX
  set Y : Mat ℂ := invy.dot (takeCols U lam.length) with hY
  have hXm : toM n X.v = diagonal (fun k : Fin n => ((lam.getD k 0 : ℝ) : ℂ)) * toM n Vd.v * xi := by
    rw [hX, toM_dot _ _ (by simp [Mat.dot, takeRows, b8]), toM_dot _ _ (by simp [diagMat, hlen]), toM_diag, c1]
    rfl
  have hYm : toM n Y.v = yi * toM n U.v := by
    rw [hY, toM_dot _ _ b4, c2]; rfl
  rw [← hXm, ← hYm] at g1
  rw [← hXm] at g2
  rw [← hYm] at g3
  have hne1 : ts.map (divT z) ≠ [] := by simpa using hne
  obtain ⟨ts1, ts2, ts3, A, r1, r2, r3, r4, r5, r6, r7, r8, r9⟩ := left_core hO (by omega) (linked_scale (z := z) hl) hne1 (X := X) (Y := Y)
    (by simp [hX, Mat.dot, diagMat, hlen]) (by simp [hX, Mat.dot, b2]) (by simp [hY, Mat.dot, b3]) (by simp [hY, Mat.dot, takeCols, hlen, b6])
    (one_div_pos.2 hν) hN2.fixL g2 g1
  have hd : A.map Ten.d = ts.map Ten.d := r6.trans (ds_scale z ts)
  have hpos : ∀ k < n, 0 < lam.getD k 0 := by
    intro k hk
    have hk' : k < lam.length := by rw [hlen]; exact hk
    have : lam.getD k 0 ∈ lam := by
      rw [List.getD_eq_getElem?_getD, List.getElem?_eq_getElem hk']; exact List.getElem_mem hk'
    rw [hlam] at this
    obtain ⟨t, ht, e⟩ := List.mem_map.1 this
    rw [← hlam] at e
    rw [← e]
    exact div_pos ((by norm_num : (0 : ℝ) < 1e-15).trans (hp.trans_le (hs t ht))) hν
  have hgetC : ∀ k < n, (lam.map Complex.ofReal).getD k 0 = ((lam.getD k 0 : ℝ) : ℂ) := fun k hk => by
    have hk' : k < lam.length := by rw [hlen]; exact hk
    exact getD_map_of_lt _ _ hk' _ _
  refine ⟨A, lam, ?_, regauged_of hne hl (one_div_pos.2 hν) hz0 r5 r6 g1 r8 r9, r5, by rw [List.length_map, hlen], ?_, ?_, r7, ?_⟩
  · have hse : symEnds O (ts.map (divT z)) invx invy U lam Vd = .ok ts3 := by
      simp only [symEnds, andThen, ← hX, ← hY, r1, r2, r3]
    simp only [gaugeSym, head_l hne hl, andThen, a1, if_pos ht, d1, hse]
    rw [if_neg (by rw [b9, hlen]; simp), r4]
  · intro t ht
    obtain ⟨t', ht', rfl⟩ := List.mem_map.1 ht
    refine ⟨t', ?_, rfl⟩
    obtain ⟨k, hk, rfl⟩ := List.mem_iff_getElem.1 ht'
    have := hpos k (by rw [← hlen]; exact hk)
    rwa [List.getD_eq_getElem?_getD, List.getElem?_eq_getElem hk] at this
  · have : norm2 lam ^ 2 = 1 := by rw [d2]; norm_num
    rw [norm2_sq, hlen] at this
    rw [sum_congr rfl fun k hk => by rw [hgetC k (mem_range.1 hk)]]
    exact_mod_cast this
  · have hfix := gauge_right (R := diagonal fun k : Fin n => ((lam.getD k 0 ^ 2 : ℝ) : ℂ)) hN1.fixR g3 g1
    have hc : ((1 / ν : ℝ) : ℂ) ≠ 0 := by exact_mod_cast (one_div_pos.2 hν).ne'
    have hst : star ((1 / ν : ℝ) : ℂ) = ((1 / ν : ℝ) : ℂ) := Complex.conj_ofReal _
    rw [sumM_congr (G := fun s => (((1 / ν : ℝ) : ℂ) * star ((1 / ν : ℝ) : ℂ)) •
      (cellM n A s * (diagonal fun k : Fin n => ((lam.getD k 0 ^ 2 : ℝ) : ℂ)) * (cellM n A s)ᴴ)) (fun s hs => by
        rw [r8 s (cfg_map.2 hs)]
        simp only [conjTranspose_smul, Matrix.smul_mul, Matrix.mul_smul, smul_smul]
        rw [mul_comm]), sumM_smul] at hfix
    have hfix' := smul_right_injective _ (mul_ne_zero hc (by rw [hst]; exact hc)) hfix
    intro i hi i' hi'
    have e := congrFun (congrFun hfix' ⟨i, hi⟩) ⟨i', hi'⟩
    simp only [sumM] at e
    rw [ds_scale, ← hd] at e
    rw [hgetC i hi]
    have e2 : delta ℂ i i' * ((lam.getD i 0 : ℝ) : ℂ) ^ 2 = (diagonal fun k : Fin n => ((lam.getD k 0 ^ 2 : ℝ) : ℂ)) ⟨i, hi⟩ ⟨i', hi'⟩ := by
      rw [diagonal_apply]
      simp only [delta, Fin.mk.injEq]
      split <;> simp
    rw [e2, ← e]
    refine sumCfg_congr fun s _ => ?_
    rw [Matrix.mul_apply]
    simp only [mul_diagonal, conjTranspose_apply, cellM, toM]
    rw [Finset.sum_range]
    refine sum_congr rfl fun k _ => ?_
    rw [hgetC k k.2]
    push_cast
    rfl

/-! ## C91 -/

theorem imps_unfold (hne : ts ≠ []) (hl : Linked n ts n) (gauge : String) (truncate : ℝ) (D : Option ℕ) :
    regaugeImps O eigh eigs gauge truncate D pinv ts =
      if gauge = "left" then andThen (gaugeLeft O eigh eigs pinv n ts) fun x => .ok (some x)
      else if gauge = "right" then andThen (gaugeRight O eigh eigs pinv n ts) fun x => .ok (some x)
      else if gauge = "symmetric" then andThen (gaugeSym O eigh eigs pinv (n + 2) truncate D ts) fun x => .ok (some x)
      else .ok none := by
  obtain ⟨a, b, h1, h2, h3, h4⟩ := linked_ends hne hl
  simp only [regaugeImps, h1, h2, h3, h4, ne_eq, not_true_eq_false, if_false]

theorem andThen_ok {α β : Type*} {x : Res α} {f : α → Res β} {b : β} (h : andThen x f = .ok b) : ∃ a, x = .ok a ∧ f a = .ok b := by
  cases x with
  | error e => cases h
  | ok a => exact ⟨a, rfl, h⟩

/-- **C91 (left).**  For a cell whose transfer operator has a simple leading eigenvalue with a density matrix of full rank,
`regaugeIMPS(mps,'left')`, if it returns, leaves left-orthonormal tensors that represent the same uniform state, with the same bond
dimension at the ends and no larger one inside; it returns the matrix `11/sqrt(D)`. -/
theorem C91_left (hO : O.Spec) (he : EighSpec eigh) (hE : EigsSpec eigs) (hp : 0 ≤ pinv) (hne : ts ≠ []) (hl : Linked n ts n) {η : ℝ}
    {q : ℕ → ℕ → ℂ} (hN : Normal .right pinv n ts η q) {truncate : ℝ} {D : Option ℕ} {r : Option (List (Ten ℂ) × List ℝ)}
    (h : regaugeImps O eigh eigs "left" truncate D pinv ts = .ok r) :
    ∃ A, r = some (A, List.replicate n (1 / Real.sqrt n)) ∧ Regauged n ts A ∧ ∀ a ∈ A, LeftOrth a := by
  rw [imps_unfold hne hl, if_pos rfl] at h
  obtain ⟨x, h1, h2⟩ := andThen_ok h
  obtain ⟨⟨μ, v⟩, h3, -⟩ := andThen_ok h1
  obtain ⟨A, e1, e2, e3⟩ := gaugeLeft_run hO he hE hp hne hl hN h3
  rw [e1] at h1
  cases h1
  cases h2
  exact ⟨A, rfl, e2, e3⟩

/-- **C91 (right).** -/
theorem C91_right (hO : O.Spec) (he : EighSpec eigh) (hE : EigsSpec eigs) (hp : 0 ≤ pinv) (hne : ts ≠ []) (hl : Linked n ts n) {η : ℝ}
    {p : ℕ → ℕ → ℂ} (hN : Normal .left pinv n ts η p) {truncate : ℝ} {D : Option ℕ} {r : Option (List (Ten ℂ) × List ℝ)}
    (h : regaugeImps O eigh eigs "right" truncate D pinv ts = .ok r) :
    ∃ A, r = some (A, List.replicate n (1 / Real.sqrt n)) ∧ Regauged n ts A ∧ ∀ a ∈ A, RightOrth a := by
  rw [imps_unfold hne hl, if_neg (by decide), if_pos rfl] at h
  obtain ⟨x, h1, h2⟩ := andThen_ok h
  obtain ⟨⟨μ, v⟩, h3, -⟩ := andThen_ok h1
  obtain ⟨A, e1, e2, e3⟩ := gaugeRight_run hO he hE hp hne hl hN h3
  rw [e1] at h1
  cases h1
  cases h2
  exact ⟨A, rfl, e2, e3⟩

/-- **C91 (symmetric).**  Without truncation, the result is in the symmetric gauge: left-orthonormal tensors of the same uniform state
and positive, normalised Schmidt values, whose squares are the right fixed point of the transfer operator.  In particular no state is
discarded. -/
theorem C91_symmetric (hO : O.Spec) (he : EighSpec eigh) (hE : EigsSpec eigs) (hp : 1e-15 < pinv) (hne : ts ≠ []) (hl : Linked n ts n)
    {η η' : ℝ} {p q : ℕ → ℕ → ℂ} (hN : Normal .left pinv n ts η p) (hN' : Normal .right pinv n ts η' q) {truncate : ℝ} (ht : truncate ≤ 1e-15)
    {D : Option ℕ} {r : Option (List (Ten ℂ) × List ℝ)} (h : regaugeImps O eigh eigs "symmetric" truncate D pinv ts = .ok r) :
    ∃ A lam, r = some (A, lam) ∧ Regauged n ts A ∧ Symmetric n A (lam.map Complex.ofReal) := by
  rw [imps_unfold hne hl, if_neg (by decide), if_neg (by decide), if_pos rfl] at h
  obtain ⟨x, h1, h2⟩ := andThen_ok h
  have h1' := h1
  rw [gaugeSym, head_l hne hl] at h1'
  obtain ⟨_, h3, _⟩ := andThen_ok h1'
  obtain ⟨⟨μ, v⟩, h4, h5⟩ := andThen_ok h3
  obtain ⟨ts1, h6, h7⟩ := andThen_ok h5
  obtain ⟨_, _, h8⟩ := andThen_ok h7
  obtain ⟨⟨μ', v'⟩, h9, -⟩ := andThen_ok h8
  obtain ⟨-, rfl, -⟩ := tm_spec hE hne hl hN h4
  rw [rescale_ok hN.pos] at h6
  cases h6
  obtain ⟨A, lam, e1, e2, e3⟩ := gaugeSym_run hO he hE hp hne hl rfl (n + 1) ht D hN hN' h4 h9
  rw [e1] at h1
  cases h1
  cases h2
  exact ⟨A, lam, rfl, e2, e3⟩

/-- **C91 (total).**  If the eigensolver converges and there are at least two states on the outer bond, the three calls return. -/
theorem C91_total (hO : O.Spec) (he : EighSpec eigh) (hE : EigsSpec eigs) (hcv : Converges eigs) (hp : 1e-15 < pinv) (hne : ts ≠ [])
    (hl : Linked n ts n) (hn : 2 ≤ n) {η η' : ℝ} {p q : ℕ → ℕ → ℂ} (hN : Normal .left pinv n ts η p) (hN' : Normal .right pinv n ts η' q)
    {gauge : String} (hg : gauge ∈ ["left", "right", "symmetric"]) {truncate : ℝ} (ht : truncate ≤ 1e-15) (D : Option ℕ) :
    ∃ r, regaugeImps O eigh eigs gauge truncate D pinv ts = .ok (some r) := by
  have hp0 : 0 ≤ pinv := le_trans (by norm_num) hp.le
  obtain ⟨v, h1⟩ := tm_total hE hcv hne hl hN hn
  obtain ⟨v', h2⟩ := tm_total hE hcv hne hl hN' hn
  have hz : 0 < η ^ (1 / (2 * (ts.length : ℝ))) := root_pos hN.pos _
  obtain ⟨v'', h3⟩ := tm_total hE hcv (ts := ts.map (divT (η ^ (1 / (2 * (ts.length : ℝ)))))) (by simpa using hne) (linked_scale hl) (hN'.scale hz) hn
  obtain ⟨A1, e1, -⟩ := gaugeLeft_run hO he hE hp0 hne hl hN' h2
  obtain ⟨A2, e2, -⟩ := gaugeRight_run hO he hE hp0 hne hl hN h1
  obtain ⟨A3, lam, e3, -⟩ := gaugeSym_run hO he hE hp hne hl rfl (n + 1) ht D hN hN' h1 h3
  rw [imps_unfold hne hl]
  simp only [List.mem_cons, List.not_mem_nil, or_false] at hg
  rcases hg with rfl | rfl | rfl
  · rw [if_pos rfl, e1]; exact ⟨_, rfl⟩
  · rw [if_neg (by decide), if_pos rfl, e2]; exact ⟨_, rfl⟩
  · rw [if_neg (by decide), if_neg (by decide), if_pos rfl, e3]; exact ⟨_, rfl⟩

/-- **C91 (arguments).**  Cells whose outer bonds differ are rejected, and for any other name of a gauge nothing is done. -/
theorem C91_arguments {a b : Ten ℂ} (ha : ts.head? = some a) (hb : ts.getLast? = some b) (gauge : String) (truncate : ℝ) (D : Option ℕ) :
    (a.l ≠ b.r → regaugeImps O eigh eigs gauge truncate D pinv ts = .error .assertion) ∧
    (a.l = b.r → gauge ∉ ["left", "right", "symmetric"] → regaugeImps O eigh eigs gauge truncate D pinv ts = .ok none) := by
  constructor
  · intro h
    simp only [regaugeImps, ha, hb, if_pos h]
  · intro h hg
    simp only [List.mem_cons, List.not_mem_nil, or_false, not_or] at hg
    simp only [regaugeImps, ha, hb, h, ne_eq, not_true_eq_false, if_false, hg.1, hg.2.1, hg.2.2]

/-- **C91 is violated for product states.**  With one state on the outer bond every gauge raises TypeError, because scipy does not
compute eigenvalues of one-dimensional operators. -/
theorem C91_violated_one (hne : ts ≠ []) (hl : Linked 1 ts 1) {gauge : String} (hg : gauge ∈ ["left", "right", "symmetric"]) (truncate : ℝ)
    (D : Option ℕ) : regaugeImps O eigh eigs gauge truncate D pinv ts = .error .type := by
  rw [imps_unfold hne hl]
  simp only [List.mem_cons, List.not_mem_nil, or_false] at hg
  rcases hg with rfl | rfl | rfl
  · rw [if_pos rfl, gaugeLeft, tm_one hne hl]; rfl
  · rw [if_neg (by decide), if_pos rfl, gaugeRight, tm_one hne hl]; rfl
  · rw [if_neg (by decide), if_neg (by decide), if_pos rfl, gaugeSym, head_l hne hl, symParts, tm_one hne hl]; rfl

/-- **C91 is violated for the returned matrix.**  The docstring of `MPS.__regauge__` (lib/mpslib/mps.py:1086-1087) promises the
identity for the gauges left and right; what is returned is the identity only for one state on the bond, where the call fails. -/
theorem C91_violated_identity (hO : O.Spec) (he : EighSpec eigh) (hE : EigsSpec eigs) (hp : 0 ≤ pinv) (hne : ts ≠ []) (hl : Linked n ts n) {η : ℝ}
    {q : ℕ → ℕ → ℂ} (hN : Normal .right pinv n ts η q) {truncate : ℝ} {D : Option ℕ} {A : List (Ten ℂ)} {lam : List ℝ}
    (h : regaugeImps O eigh eigs "left" truncate D pinv ts = .ok (some (A, lam))) : ∀ x ∈ lam, x < 1 := by
  obtain ⟨A', e, -⟩ := C91_left hO he hE hp hne hl hN h
  rw [imps_unfold hne hl, if_pos rfl] at h
  obtain ⟨x, h1, h2⟩ := andThen_ok h
  obtain ⟨⟨μ, v⟩, h3, -⟩ := andThen_ok h1
  obtain ⟨hn, -⟩ := tm_spec hE hne hl hN h3
  cases e
  intro x hx
  rw [List.eq_of_mem_replicate hx, div_lt_one (Real.sqrt_pos.2 (by exact_mod_cast (by omega : 0 < n)))]
  rw [Real.lt_sqrt (by norm_num)]
  have : (2 : ℝ) ≤ n := by exact_mod_cast hn
  linarith

/-! ### Use in the infinite-system engines -/

/-- Spec: a cell for which the symmetric gauge is well defined. -/
def IsNormal (pinv : ℝ) (ts : List (Ten ℂ)) : Prop :=
  ts ≠ [] ∧ ∃ n η η' p q, Linked n ts n ∧ Normal .left pinv n ts η p ∧ Normal .right pinv n ts η' q

open Classical in
/-- The kernel `sym` of the infinite-system engines, computed by `regaugeIMPS(tensors,'symmetric',truncate=...,D=...,pinv=...)` for the
cells for which it is well defined. -/
def symOf (O : LinAlg) (eigh : Eigh) (eigs : Eigs) (truncate : ℝ) (D : Option ℕ) (pinv : ℝ) (ts : List (Ten ℂ)) : Res (List (Ten ℂ) × List ℂ) :=
  if IsNormal pinv ts then
    match regaugeImps O eigh eigs "symmetric" truncate D pinv ts with
    | .error e => .error e
    | .ok none => .error .type
    | .ok (some (A, lam)) => .ok (A, lam.map Complex.ofReal)
  else .error .value

theorem linked_det {l l' r r' : ℕ} {A : List (Ten ℂ)} (hne : A ≠ []) (h : Linked l A r) (h' : Linked l' A r') : l = l' ∧ r = r' :=
  ⟨(head_l hne h).symm.trans (head_l hne h'), (last_r hne h).symm.trans (last_r hne h')⟩

/-- **C91 (kernel).**  `regaugeIMPS` meets the contracts that C90 asks of the regauging kernel: symmetric gauge, same local dimensions,
same uniform state. -/
theorem C91_kernel (hO : O.Spec) (he : EighSpec eigh) (hE : EigsSpec eigs) (hp : 1e-15 < pinv) {truncate : ℝ} (ht : truncate ≤ 1e-15) (D : Option ℕ)
    (left right : List (Ten ℂ) → List (Mpo ℂ) → Res (Env ℂ × ℂ)) :
    SymKernel ⟨symOf O eigh eigs truncate D pinv, left, right⟩ ∧
    ∀ ts A lam n D', symOf O eigh eigs truncate D pinv ts = .ok (A, lam) → Linked n ts n → Linked D' A D' →
      ∃ X Y η, η ≠ 0 ∧ GaugeOf ts A n D' X Y η := by
  have key : ∀ ts A lam, symOf O eigh eigs truncate D pinv ts = .ok (A, lam) → ∃ n, ts ≠ [] ∧ Linked n ts n ∧ Regauged n ts A ∧ Symmetric n A lam := by
    intro ts A lam h
    unfold symOf at h
    split at h
    · rename_i hN
      obtain ⟨hne, n, η, η', p, q, hl, h1, h2⟩ := hN
      split at h
      · cases h
      · cases h
      · rename_i A' lam' hr
        obtain ⟨A'', lam'', e1, e2, e3⟩ := C91_symmetric hO he hE hp hne hl h1 h2 ht hr
        cases e1
        cases h
        exact ⟨n, hne, hl, e2, e3⟩
    · cases h
  constructor
  · intro ts A lam h
    obtain ⟨n, -, -, h1, h2⟩ := key ts A lam h
    exact ⟨h1.ds, n, h2⟩
  · intro ts A lam n D' h hl hl'
    obtain ⟨n', hne, h1, h2, h3⟩ := key ts A lam h
    have hA : A ≠ [] := ne_of_ds hne h2.ds
    obtain ⟨rfl, -⟩ := linked_det hne hl h1
    obtain ⟨rfl, -⟩ := linked_det hA hl' h2.link
    obtain ⟨X, Y, ζ, hζ, hg⟩ := h2.gauge
    exact ⟨X, Y, ζ, by exact_mod_cast hζ.ne', hg⟩

/-! ### The contract of the eigensolver can be met -/

theorem exists_lead (key : ℂ → ℝ) (dir : Dir) (hne : ts ≠ []) (hl : Linked n ts n) (hn : 0 < n) : ∃ q : ℂ × Vec ℂ, q.2.n = n * n ∧ (∃ i < n * n, q.2.v i ≠ 0) ∧
    (∃ w, unitcellTransferOperator dir ts q.2 = .ok w ∧ ∀ i < n * n, w.v i = q.1 * q.2.v i) ∧
    ∀ (μ : ℂ) (u : Vec ℂ), u.n = n * n → (∃ i < n * n, u.v i ≠ 0) → (∃ w, unitcellTransferOperator dir ts u = .ok w ∧ ∀ i < n * n, w.v i = μ * u.v i) →
      key μ ≤ key q.1 := by
  let ext : (Fin n → Fin n → ℂ) → ℕ → ℕ → ℂ := fun M i j => if h : i < n ∧ j < n then M ⟨i, h.1⟩ ⟨j, h.2⟩ else 0
  let T : (Fin n → Fin n → ℂ) →ₗ[ℂ] (Fin n → Fin n → ℂ) :=
    { toFun := fun M i j => act dir ts n (ext M) i j
      map_add' := by
        intro M M'
        have e : ext (M + M') = fun i j => ext M i j + ext M' i j := by
          funext i j
          simp only [ext]
          split <;> simp
        funext i j
        simp only [Pi.add_apply, e]
        cases dir
        · simp only [act, mul_add, sum_add_distrib]
        · simp only [act, add_mul, sum_add_distrib]
      map_smul' := by
        intro c M
        have e : ext (c • M) = fun i j => c * ext M i j := by
          funext i j
          simp only [ext]
          split <;> simp
        funext i j
        simp only [Pi.smul_apply, e, RingHom.id_apply, smul_eq_mul]
        exact act_smul dir ts n c _ _ _ }
  have : Nonempty (Fin n) := ⟨⟨0, hn⟩⟩
  have : Nontrivial (Fin n → Fin n → ℂ) := Function.nontrivial
  obtain ⟨μ0, h0⟩ := Module.End.exists_eigenvalue T
  obtain ⟨μ, hμ, hmax⟩ := Set.exists_max_image {μ | Module.End.HasEigenvalue T μ} key (Module.End.finite_hasEigenvalue T) ⟨μ0, h0⟩
  obtain ⟨M, hM, hM0⟩ := hμ.exists_hasEigenvector
  have idx : ∀ k < n * n, k / n < n ∧ k % n < n ∧ k / n * n + k % n = k := fun k hk =>
    ⟨Nat.div_lt_of_lt_mul hk, Nat.mod_lt _ hn, Nat.div_add_mod' k n⟩
  refine ⟨(μ, ⟨n * n, fun k => ext M (k / n) (k % n)⟩), rfl, ?_, ?_, ?_⟩
  · by_contra hno
    push Not at hno
    refine hM0 (funext fun i => funext fun j => ?_)
    have := hno (i * n + j) (index_lt i.2 j.2)
    simp only at this
    rw [show ((i : ℕ) * n + j) / n = i by rw [Nat.mul_comm, Nat.mul_add_div hn, Nat.div_eq_of_lt j.2, add_zero],
      show ((i : ℕ) * n + j) % n = j by rw [Nat.mul_comm, Nat.mul_add_mod, Nat.mod_eq_of_lt j.2]] at this
    simpa [ext] using this
  · have hmat : IsMat (⟨n * n, fun k => ext M (k / n) (k % n)⟩ : Vec ℂ) n (ext M) := by
      refine ⟨rfl, fun i hi j hj => ?_⟩
      simp only
      rw [show (i * n + j) / n = i by rw [Nat.mul_comm, Nat.mul_add_div hn, Nat.div_eq_of_lt hj, add_zero],
        show (i * n + j) % n = j by rw [Nat.mul_comm, Nat.mul_add_mod, Nat.mod_eq_of_lt hj]]
    obtain ⟨w, w1, w2⟩ := unit_act dir hne hl hmat
    refine ⟨w, w1, fun k hk => ?_⟩
    obtain ⟨h1, h2, h3⟩ := idx k hk
    have e := w2.2 (k / n) h1 (k % n) h2
    rw [h3] at e
    rw [e]
    have e2 := congrFun (congrFun (Module.End.mem_eigenspace_iff.1 hM) ⟨k / n, h1⟩) ⟨k % n, h2⟩
    simp only [Pi.smul_apply, smul_eq_mul] at e2
    simp only [ext, h1, h2, and_self, dif_pos]
    exact e2
  · rintro ν u hu ⟨k, hk, hk0⟩ ⟨w, w1, w2⟩
    refine hmax ν ?_
    have hmat : IsMat u n (ext fun i j => u.v (i * n + j)) := by
      refine ⟨hu, fun i hi j hj => ?_⟩
      simp only [ext, hi, hj, and_self, dif_pos]
    obtain ⟨w', w1', w2'⟩ := unit_act dir hne hl hmat
    rw [w1] at w1'
    cases w1'
    refine Module.End.hasEigenvalue_of_hasEigenvector (x := fun i j => u.v (i * n + j)) ⟨Module.End.mem_eigenspace_iff.2 ?_, ?_⟩
    · funext i j
      show act dir ts n _ i j = ν * u.v (i * n + j)
      rw [← w2'.2 i i.2 j j.2, w2 _ (index_lt i.2 j.2)]
    · intro h
      obtain ⟨h1, h2, h3⟩ := idx k hk
      have := congrFun (congrFun h ⟨k / n, h1⟩) ⟨k % n, h2⟩
      simp only [h3] at this
      exact hk0 this

theorem exists_eigs : ∃ eigs : Eigs, EigsSpec eigs ∧ Converges eigs := by
  classical
  let Q : ℕ → (Vec ℂ → Res (Vec ℂ)) → ℂ × Vec ℂ → Prop := fun N f q => q.2.n = N ∧ (∃ i < N, q.2.v i ≠ 0) ∧
    (∃ w, f q.2 = .ok w ∧ ∀ i < N, w.v i = q.1 * q.2.v i) ∧
    ∀ (μ : ℂ) (u : Vec ℂ), u.n = N → (∃ i < N, u.v i ≠ 0) → (∃ w, f u = .ok w ∧ ∀ i < N, w.v i = μ * u.v i) → ‖μ‖ ≤ ‖q.1‖
  refine ⟨fun N f k => if h : k = 1 ∧ ∃ q, Q N f q then .ok [h.2.choose] else .error .value, ?_, ?_⟩
  · intro N f k l h
    simp only at h
    split at h
    · rename_i hk
      cases h
      refine ⟨by simp [hk.1], fun q hq => ?_⟩
      rw [List.mem_singleton] at hq
      subst hq
      obtain ⟨h1, h2, h3, h4⟩ := hk.2.choose_spec
      exact ⟨h1, h2, h3, fun μ u a b c => Or.inl (h4 μ u a b c)⟩
    · cases h
  · intro dir ts n hne hl hn
    have : 1 = 1 ∧ ∃ q, Q (n * n) (unitcellTransferOperator dir ts) q := ⟨rfl, exists_lead (‖·‖) dir hne hl (by omega)⟩
    exact ⟨_, dif_pos this⟩

/-! ### Witness -/

/-- The cell whose four matrices are the matrix units of dimension two. -/
def unitsTen : Ten ℂ := ⟨2, 2, 4, fun i j s => if s = 2 * i + j then 1 else 0⟩

theorem units_left (f : ℕ → ℕ → ℂ) : ∀ i < 2, ∀ i' < 2, act .left [unitsTen] 2 f i i' = if i = i' then f 0 0 + f 1 1 else 0 := by
  intro i hi i' hi'
  interval_cases i <;> interval_cases i' <;>
    simp [act, kern, chain, unitsTen, sumCfg, sum_range_succ, delta]

theorem units_right (f : ℕ → ℕ → ℂ) : ∀ i < 2, ∀ i' < 2, act .right [unitsTen] 2 f i i' = if i = i' then f 0 0 + f 1 1 else 0 := by
  intro i hi i' hi'
  interval_cases i <;> interval_cases i' <;>
    simp [act, kern, chain, unitsTen, sumCfg, sum_range_succ, delta]

theorem units_normal {dir : Dir} (h : ∀ (f : ℕ → ℕ → ℂ), ∀ i < 2, ∀ i' < 2, act dir [unitsTen] 2 f i i' = if i = i' then f 0 0 + f 1 1 else 0) :
    Normal dir 1e-12 2 [unitsTen] 2 fun i j => if i = j then 1 / 2 else 0 := by
  refine ⟨two_pos, ⟨?_, ?_, ?_⟩, ?_, ?_⟩
  · intro i _ j _
    by_cases hij : i = j
    · subst hij; simp
    · rw [if_neg hij, if_neg (Ne.symm hij), star_zero]
  · simp
  · intro x hx
    have : (∑ i ∈ range 2, ∑ j ∈ range 2, star (x i) * (if i = j then 1 / 2 else 0) * x j) = ((1 / 2 : ℝ) : ℂ) := by
      have hx' : ((∑ i ∈ range 2, Complex.normSq (x i) : ℝ) : ℂ) = 1 := by rw [hx]; simp
      simp only [sum_range_succ, sum_range_zero, zero_add] at hx' ⊢
      push_cast at hx' ⊢
      rw [normSq_of, normSq_of] at hx'
      linear_combination (1 / 2 : ℂ) * hx'
    rw [this, Complex.ofReal_re]
    norm_num
  · intro i hi j hj
    rw [h _ i hi j hj]
    by_cases hij : i = j
    · simp [hij]; norm_num
    · simp [hij]
  · intro μ f _ h2 h3
    have hμ : μ ≠ 0 := by
      rintro rfl
      rw [norm_zero] at h3
      linarith
    refine ⟨2 * (f 0 0 + f 1 1) / μ, fun i hi j hj => ?_⟩
    have e := h2 i hi j hj
    rw [h f i hi j hj] at e
    by_cases hij : i = j
    · rw [if_pos hij] at e ⊢
      field_simp
      rw [e]; ring
    · rw [if_neg hij] at e ⊢
      rw [mul_zero]
      exact (mul_eq_zero.1 e.symm).resolve_left hμ

example : ∃ (O : LinAlg) (eigh : Eigh) (eigs : Eigs), O.Spec ∧ EighSpec eigh ∧ EigsSpec eigs ∧ Converges eigs ∧ Linked 2 [unitsTen] 2 ∧
    ∃ A lam, regaugeImps O eigh eigs "symmetric" 1e-16 none 1e-12 [unitsTen] = .ok (some (A, lam)) ∧ Symmetric 2 A (lam.map Complex.ofReal) := by
  obtain ⟨O, hO⟩ := exists_linAlg
  obtain ⟨eigh, he⟩ := exists_eigh
  obtain ⟨eigs, hE, hC⟩ := exists_eigs
  have hl : Linked 2 [unitsTen] 2 := ⟨rfl, rfl⟩
  obtain ⟨r, hr⟩ := C91_total (gauge := "symmetric") (truncate := 1e-16) hO he hE hC (by norm_num) (by simp) hl le_rfl (units_normal units_left) (units_normal units_right)
    (by simp) (by norm_num) none
  obtain ⟨A, lam, e, -, hS⟩ := C91_symmetric hO he hE (by norm_num) (by simp) hl (units_normal units_left) (units_normal units_right) (by norm_num) hr
  cases e
  exact ⟨O, eigh, eigs, hO, he, hE, hC, hl, A, lam, hr, hS⟩

end
end PyTeN.Regauge
