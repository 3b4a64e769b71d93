import Verif.Props.RegaugeImps

/-! # A normal cell stays normal when it is brought into the symmetric gauge -/

namespace PyTeN.Regauge
open Finset Transfer Lanczos Idmrg Matrix
noncomputable section

variable {pinv P : ℝ} {n : ℕ} {ts A : List (Ten ℂ)}

/-- Eigenvectors of two maps related by a similarity transformation and a factor. -/
theorem uniq_transport {Φ Ψ : Matrix (Fin n) (Fin n) ℂ → Matrix (Fin n) (Fin n) ℂ} {X Y P0 G0 : Matrix (Fin n) (Fin n) ℂ} {ζ η : ℝ} (hη : 0 < η)
    (hYX : Y * X = 1) (h : ∀ F, Φ F = ((ζ ^ 2 : ℝ) : ℂ) • (X * Ψ (Y * F * Yᴴ) * Xᴴ)) (hP : Ψ P0 = (η : ℂ) • P0)
    (hu : ∀ (μ : ℂ) (F : Matrix (Fin n) (Fin n) ℂ), F ≠ 0 → Ψ F = μ • F → η ≤ ‖μ‖ → ∃ c : ℂ, F = c • P0) (hG : Φ G0 = G0) (hG0 : G0 ≠ 0)
    (τ : Matrix (Fin n) (Fin n) ℂ → ℂ) (hτ : ∀ (c : ℂ) F, τ (c • F) = c * τ F) (hτΦ : ∀ F, τ (Φ F) = τ F) (hτ0 : τ (X * P0 * Xᴴ) ≠ 0) :
    ∀ (μ : ℂ) (F : Matrix (Fin n) (Fin n) ℂ), F ≠ 0 → Φ F = μ • F → 1 ≤ ‖μ‖ → ∃ c : ℂ, F = c • G0 := by
  have hXY : X * Y = 1 := mul_eq_one_comm.1 hYX
  have hXYs : Yᴴ * Xᴴ = 1 := by rw [← conjTranspose_mul, hXY, conjTranspose_one]
  have hYXs : Xᴴ * Yᴴ = 1 := by rw [← conjTranspose_mul, hYX, conjTranspose_one]
  have back : ∀ F : Matrix (Fin n) (Fin n) ℂ, X * (Y * F * Yᴴ) * Xᴴ = F := fun F => by
    rw [show X * (Y * F * Yᴴ) * Xᴴ = (X * Y) * F * (Yᴴ * Xᴴ) by simp only [Matrix.mul_assoc], hXY, hXYs, Matrix.one_mul, Matrix.mul_one]
  have forth : ∀ F : Matrix (Fin n) (Fin n) ℂ, Y * (X * F * Xᴴ) * Yᴴ = F := fun F => by
    rw [show Y * (X * F * Xᴴ) * Yᴴ = (Y * X) * F * (Xᴴ * Yᴴ) by simp only [Matrix.mul_assoc], hYX, hYXs, Matrix.one_mul, Matrix.mul_one]
  have hζ : ζ ^ 2 * η = 1 := by
    have h1 : Φ (X * P0 * Xᴴ) = ((ζ ^ 2 * η : ℝ) : ℂ) • (X * P0 * Xᴴ) := by
      rw [h, forth, hP, Matrix.mul_smul, Matrix.smul_mul, smul_smul]
      push_cast; rfl
    have h2 := hτΦ (X * P0 * Xᴴ)
    rw [h1, hτ] at h2
    have h3 : ((ζ ^ 2 * η : ℝ) : ℂ) = 1 := mul_right_cancel₀ hτ0 (by rw [h2, one_mul])
    exact_mod_cast h3
  have hζ0 : ζ ^ 2 ≠ 0 := fun h0 => by rw [h0, zero_mul] at hζ; exact zero_ne_one hζ
  have hζc : ((ζ ^ 2 : ℝ) : ℂ) ≠ 0 := by exact_mod_cast hζ0
  have key : ∀ (μ : ℂ) (F : Matrix (Fin n) (Fin n) ℂ), F ≠ 0 → Φ F = μ • F → 1 ≤ ‖μ‖ → ∃ c : ℂ, F = c • (X * P0 * Xᴴ) := by
    intro μ F hF hμ h1
    have e1 : Ψ (Y * F * Yᴴ) = (μ * η) • (Y * F * Yᴴ) := by
      have e := h F
      rw [hμ] at e
      have e2 : Y * (μ • F) * Yᴴ = ((ζ ^ 2 : ℝ) : ℂ) • Ψ (Y * F * Yᴴ) := by
        rw [e, Matrix.mul_smul, Matrix.smul_mul, forth]
      have e3 : ((ζ ^ 2 : ℝ) : ℂ) * η = 1 := by exact_mod_cast hζ
      calc Ψ (Y * F * Yᴴ) = (η : ℂ) • (((ζ ^ 2 : ℝ) : ℂ) • Ψ (Y * F * Yᴴ)) := by rw [smul_smul, mul_comm, e3, one_smul]
        _ = _ := by rw [← e2, Matrix.mul_smul, Matrix.smul_mul, smul_smul, mul_comm]
    obtain ⟨c, hc⟩ := hu (μ * η) (Y * F * Yᴴ) (fun h0 => hF (by rw [← back F, h0]; simp)) e1 (by
      rw [norm_mul, Complex.norm_real, Real.norm_eq_abs, abs_of_pos hη]
      nlinarith)
    exact ⟨c, by rw [← back F, hc, Matrix.mul_smul, Matrix.smul_mul]⟩
  obtain ⟨c0, hc0⟩ := key 1 G0 hG0 (by rw [hG, one_smul]) (by simp)
  have hc0' : c0 ≠ 0 := fun h0 => hG0 (by rw [hc0, h0, zero_smul])
  intro μ F hF hμ h1
  obtain ⟨c, hc⟩ := key μ F hF hμ h1
  exact ⟨c / c0, by rw [hc0, smul_smul, div_mul_cancel₀ _ hc0', hc]⟩

theorem Density.tr_pos {p : ℕ → ℕ → ℂ} (h : Density pinv n p) (hp : 0 < pinv) (hn : 0 < n) {W Wi : Matrix (Fin n) (Fin n) ℂ} (hW : W * Wi = 1) :
    (W * toM n p * Wᴴ).trace ≠ 0 := by
  have e : (W * toM n p * Wᴴ).trace = ∑ i, (star (fun b => star (W i b)) ⬝ᵥ (toM n p *ᵥ fun b => star (W i b))) := by
    simp only [Matrix.trace, diag_apply, Matrix.mul_apply, conjTranspose_apply, dotProduct, mulVec, Pi.star_apply, star_star, sum_mul, mul_sum]
    refine sum_congr rfl fun i _ => ?_
    rw [sum_comm]
    exact sum_congr rfl fun a _ => sum_congr rfl fun b _ => by ring
  have h1 : pinv * frob W ≤ ((W * toM n p * Wᴴ).trace).re := by
    rw [e, Complex.re_sum, frob, mul_sum]
    refine sum_le_sum fun i _ => ?_
    have := h.form fun b => star (W i b)
    refine le_trans (le_of_eq ?_) this
    congr 1
    exact sum_congr rfl fun b _ => (Complex.normSq_conj _).symm
  have h2 : 0 < frob W := lt_of_le_of_ne (sum_nonneg fun i _ => sum_nonneg fun j _ => Complex.normSq_nonneg _) (Ne.symm (trace_ne hn hW))
  intro h0
  rw [h0] at h1
  have := mul_pos hp h2
  simp at h1
  linarith

/-- Every matrix is the matrix of a function. -/
theorem toM_surj (M : Matrix (Fin n) (Fin n) ℂ) : ∃ f : ℕ → ℕ → ℂ, toM n f = M :=
  ⟨fun i j => if h : i < n ∧ j < n then M ⟨i, h.1⟩ ⟨j, h.2⟩ else 0, by ext i j; simp [toM]⟩

/-- The transformation of a cell in matrix form. -/
theorem Regauged.mat (h : Regauged n ts A) : ∃ (X Y : Matrix (Fin n) (Fin n) ℂ) (ζ : ℝ), Y * X = 1 ∧
    ∀ s, Cfg ts s → cellM n A s = (ζ : ℂ) • (X * cellM n ts s * Y) := by
  obtain ⟨X, Y, ζ, -, h1, h2⟩ := h.gauge
  refine ⟨toM n X, toM n Y, ζ, ?_, fun s hs => ?_⟩
  · rw [← toM_mmul, ← toM_delta]
    exact toM_ext.2 h1
  · rw [Matrix.mul_assoc, cellM, cellM, ← toM_mmul, ← toM_mmul]
    ext i j
    exact h2 s hs i i.2 j j.2

theorem density_diag {a : ℕ → ℝ} (ha : ∀ i < n, pinv < a i) (h1 : ∑ i ∈ range n, a i = 1) : Density pinv n fun i j => delta ℂ i j * ((a i : ℝ) : ℂ) := by
  refine ⟨fun i _ j _ => ?_, ?_, fun x hx => ?_⟩
  · by_cases hij : i = j
    · subst hij; simp [delta]
    · simp [delta, hij, Ne.symm hij]
  · simp only [delta, if_true, one_mul]
    exact_mod_cast h1
  · have e : ∑ i ∈ range n, ∑ j ∈ range n, star (x i) * (delta ℂ i j * ((a i : ℝ) : ℂ)) * x j = ((∑ i ∈ range n, a i * Complex.normSq (x i) : ℝ) : ℂ) := by
      push_cast
      refine sum_congr rfl fun i hi => ?_
      rw [sum_congr rfl fun j _ => show star (x i) * (delta ℂ i j * ((a i : ℝ) : ℂ)) * x j = delta ℂ i j * (star (x i) * ((a i : ℝ) : ℂ) * x j) by ring,
        sum_delta_left (mem_range.1 hi), normSq_of]
      ring
    rw [e, Complex.ofReal_re, ← mul_one pinv, ← hx, mul_sum]
    refine sum_lt_sum (fun i hi => mul_le_mul_of_nonneg_right (ha i (mem_range.1 hi)).le (Complex.normSq_nonneg _)) ?_
    by_contra hno
    push Not at hno
    have : ∑ i ∈ range n, Complex.normSq (x i) = 0 := sum_eq_zero fun i hi => by
      have h2 := hno i hi
      have h3 := ha i (mem_range.1 hi)
      have h4 := Complex.normSq_nonneg (x i)
      by_contra h5
      have h6 : 0 < Complex.normSq (x i) := lt_of_le_of_ne h4 (Ne.symm h5)
      nlinarith
    rw [this] at hx
    exact zero_ne_one hx

theorem trace_sumM (ds : List ℕ) (F : List ℕ → Matrix (Fin n) (Fin n) ℂ) : (sumM ds F).trace = sumCfg ds fun s => (F s).trace := by
  simp only [Matrix.trace, diag_apply, sumM]
  rw [sumCfg_fin]

/-- A normal cell in the symmetric gauge is normal, with the squared Schmidt values as the one fixed point and the identity as the
other one. -/
theorem normal_symmetric (hp : 0 < P) (hn : 0 < n) {η η' : ℝ} {p q : ℕ → ℕ → ℂ} (hN : Normal .left P n ts η p) (hN' : Normal .right P n ts η' q)
    (hR : Regauged n ts A) {lam : List ℝ} (hS : Symmetric n A (lam.map Complex.ofReal)) (hl : ∀ i < n, pinv < lam.getD i 0 ^ 2) (hpn : pinv < 1 / n) :
    Normal .left pinv n A 1 (fun i j => delta ℂ i j * ((lam.getD i 0 ^ 2 : ℝ) : ℂ)) ∧ Normal .right pinv n A 1 (fun i j => delta ℂ i j * ((1 / n : ℝ) : ℂ)) := by
  obtain ⟨X, Y, ζ, hYX, hA⟩ := hR.mat
  have hXY : X * Y = 1 := mul_eq_one_comm.1 hYX
  have hds := hR.ds
  have hlen : lam.length = n := by simpa using hS.len
  have hn' : (n : ℝ) ≠ 0 := by exact_mod_cast hn.ne'
  have hget : ∀ k < n, (lam.map Complex.ofReal).getD k 0 = ((lam.getD k 0 : ℝ) : ℂ) := fun k hk =>
    getD_map_of_lt _ _ (by rw [hlen]; exact hk) _ _
  have hpos : ∀ k < n, 0 < lam.getD k 0 := fun k hk => by
    obtain ⟨y, hy, e⟩ := hS.real hk
    rw [hget k hk] at e
    have : lam.getD k 0 = y := by exact_mod_cast e
    rw [this]; exact hy
  have hnorm : ∑ i ∈ range n, lam.getD i 0 ^ 2 = 1 := by
    have := hS.norm
    rw [sum_congr rfl fun k hk => by rw [hget k (mem_range.1 hk)]] at this
    exact_mod_cast this
  set Λ : Matrix (Fin n) (Fin n) ℂ := diagonal fun k : Fin n => ((lam.getD k 0 : ℝ) : ℂ) with hΛ
  set Λi : Matrix (Fin n) (Fin n) ℂ := diagonal fun k : Fin n => ((1 / lam.getD k 0 : ℝ) : ℂ) with hΛi
  have hΛh : Λᴴ = Λ := by
    rw [hΛ, diagonal_conjTranspose]
    congr 1
    funext k
    exact Complex.conj_ofReal _
  have hΛΛ : Λ * Λi = 1 := by
    rw [hΛ, hΛi, diagonal_mul_diagonal, ← diagonal_one]
    congr 1
    funext k
    rw [← Complex.ofReal_mul, mul_one_div_cancel (hpos k k.2).ne', Complex.ofReal_one]
  have hG0 : toM n (fun i j => delta ℂ i j * ((lam.getD i 0 ^ 2 : ℝ) : ℂ)) = Λ * Λ := by
    rw [hΛ, diagonal_mul_diagonal]
    ext i j
    rw [diagonal_apply]
    simp only [toM, delta, Fin.ext_iff]
    split
    · push_cast; ring
    · simp
  have hG1 : (toM n (fun i j => delta ℂ i j * ((1 / n : ℝ) : ℂ)))ᵀ = ((1 / n : ℝ) : ℂ) • (1 : Matrix (Fin n) (Fin n) ℂ) := by
    ext i j
    rw [transpose_apply, Matrix.smul_apply, ← toM_delta]
    simp only [toM, delta, smul_eq_mul, eq_comm (a := (j : ℕ)), mul_comm]
  -- the two maps
  have hL : ∀ F : Matrix (Fin n) (Fin n) ℂ, sumM (A.map Ten.d) (fun s => cellM n A s * F * (cellM n A s)ᴴ)
      = ((ζ ^ 2 : ℝ) : ℂ) • (X * sumM (ts.map Ten.d) (fun s => cellM n ts s * (Y * F * Yᴴ) * (cellM n ts s)ᴴ) * Xᴴ) := by
    intro F
    rw [hds, ← mul_sumM, ← sumM_mul, ← sumM_smul]
    refine sumM_congr fun s hs => ?_
    rw [hA s (cfg_map.2 hs)]
    have hst : star (ζ : ℂ) = ζ := Complex.conj_ofReal _
    simp only [conjTranspose_smul, conjTranspose_mul, Matrix.smul_mul, Matrix.mul_smul, smul_smul, hst, Matrix.mul_assoc]
    congr 1
    push_cast; ring
  have hRt : ∀ F : Matrix (Fin n) (Fin n) ℂ, sumM (A.map Ten.d) (fun s => (cellM n A s)ᴴ * F * cellM n A s)
      = ((ζ ^ 2 : ℝ) : ℂ) • (Yᴴ * sumM (ts.map Ten.d) (fun s => (cellM n ts s)ᴴ * (Xᴴ * F * Xᴴᴴ) * cellM n ts s) * Yᴴᴴ) := by
    intro F
    rw [hds, ← mul_sumM, ← sumM_mul, ← sumM_smul]
    refine sumM_congr fun s hs => ?_
    rw [hA s (cfg_map.2 hs)]
    have hst : star (ζ : ℂ) = ζ := Complex.conj_ofReal _
    simp only [conjTranspose_smul, conjTranspose_mul, Matrix.smul_mul, Matrix.mul_smul, smul_smul, hst, Matrix.mul_assoc, conjTranspose_conjTranspose]
    congr 1
    push_cast; ring
  -- fixed points of the new cell
  have hgram : sumM (A.map Ten.d) (fun s => (cellM n A s)ᴴ * cellM n A s) = 1 := by
    have : GramL n A 1 := fun j hj j' hj' => by
      rw [Complex.ofReal_one, one_mul]
      exact chain_leftOrth hS.link hS.left hj hj'
    rw [gramL_iff] at this
    rw [this, Complex.ofReal_one, one_smul]
  have hfixL : sumM (A.map Ten.d) (fun s => cellM n A s * (Λ * Λ) * (cellM n A s)ᴴ) = Λ * Λ := by
    rw [← hG0]
    ext i i'
    have e := hS.fix i i.2 i' i'.2
    rw [hget i i.2] at e
    rw [show toM n (fun i j => delta ℂ i j * ((lam.getD i 0 ^ 2 : ℝ) : ℂ)) i i' = delta ℂ (i : ℕ) i' * ((lam.getD i 0 : ℝ) : ℂ) ^ 2 by
      simp only [toM]; push_cast; rfl, ← e]
    simp only [sumM]
    refine sumCfg_congr fun s _ => ?_
    rw [hG0, hΛ, diagonal_mul_diagonal, Matrix.mul_apply]
    simp only [mul_diagonal, conjTranspose_apply, cellM, toM]
    rw [Finset.sum_range]
    refine sum_congr rfl fun k _ => ?_
    rw [hget k k.2]
    ring
  have hfixR : sumM (A.map Ten.d) (fun s => (cellM n A s)ᴴ * (((1 / n : ℝ) : ℂ) • 1) * cellM n A s) = ((1 / n : ℝ) : ℂ) • 1 := by
    have : ∀ s, (cellM n A s)ᴴ * (((1 / n : ℝ) : ℂ) • 1) * cellM n A s = ((1 / n : ℝ) : ℂ) • ((cellM n A s)ᴴ * cellM n A s) := fun s => by
      rw [Matrix.mul_smul, Matrix.mul_one, Matrix.smul_mul]
    simp_rw [this]
    rw [sumM_smul, hgram]
  have hcyc : ∀ F G : Matrix (Fin n) (Fin n) ℂ, (G * sumM (A.map Ten.d) (fun s => cellM n A s * F * (cellM n A s)ᴴ)).trace
      = (F * sumM (A.map Ten.d) (fun s => (cellM n A s)ᴴ * G * cellM n A s)).trace := by
    intro F G
    rw [← mul_sumM, ← mul_sumM, trace_sumM, trace_sumM]
    refine sumCfg_congr fun s _ => ?_
    rw [← Matrix.mul_assoc, Matrix.trace_mul_comm, show (cellM n A s)ᴴ * (G * (cellM n A s * F)) = ((cellM n A s)ᴴ * G * cellM n A s) * F by
      simp only [Matrix.mul_assoc], Matrix.trace_mul_comm]
  have h1n : ((1 / n : ℝ) : ℂ) ≠ 0 := by exact_mod_cast (one_div_ne_zero hn')
  have hne1 : (1 : Matrix (Fin n) (Fin n) ℂ) ≠ 0 := fun h0 => by
    have := congrFun (congrFun h0 ⟨0, hn⟩) ⟨0, hn⟩
    simp at this
  refine ⟨⟨one_pos, density_diag hl hnorm, fun i hi j hj => ?_, fun μ f hf hμ h1 => ?_⟩, ⟨one_pos, density_diag (fun _ _ => hpn) ?_, fun i hi j hj => ?_, fun μ f hf hμ h1 => ?_⟩⟩
  · have := hfixL
    rw [← hG0, act_left] at this
    rw [toM_ext.1 this i hi j hj]
    simp
  · obtain ⟨c, hc⟩ := uniq_transport (Φ := fun F => sumM (A.map Ten.d) (fun s => cellM n A s * F * (cellM n A s)ᴴ))
      (Ψ := fun F => sumM (ts.map Ten.d) (fun s => cellM n ts s * F * (cellM n ts s)ᴴ)) (P0 := toM n p) (G0 := Λ * Λ) hN.pos hYX hL
      (by rw [act_left]; ext i j; exact hN.eig i i.2 j j.2)
      (fun μ F hF hμ hn => by
        obtain ⟨g, rfl⟩ := toM_surj F
        rw [act_left] at hμ
        obtain ⟨c, hc⟩ := hN.uniq μ g (by
          by_contra hno
          push Not at hno
          exact hF (by ext i j; exact hno i i.2 j j.2)) (fun i hi j hj => congrFun (congrFun hμ ⟨i, hi⟩) ⟨j, hj⟩) hn
        exact ⟨c, by ext i j; exact hc i i.2 j j.2⟩)
      hfixL (fun h0 => hne1 (by
        have hii : Λi * Λ = 1 := mul_eq_one_comm.1 hΛΛ
        calc (1 : Matrix (Fin n) (Fin n) ℂ) = Λi * (Λ * Λ) * Λi := by rw [← Matrix.mul_assoc, hii, Matrix.one_mul, hΛΛ]
          _ = 0 := by rw [h0]; simp))
      (fun F => F.trace) (fun c F => Matrix.trace_smul c F) (fun F => by
        have := hcyc F 1
        simp only [Matrix.one_mul, Matrix.mul_one, hgram] at this
        exact this)
      (hN.dens.tr_pos hp hn hXY) μ (toM n f) (fun h0 => by
        obtain ⟨i, hi, j, hj, h⟩ := hf
        exact h (congrFun (congrFun h0 ⟨i, hi⟩) ⟨j, hj⟩)) (by rw [act_left]; ext i j; exact hμ i i.2 j j.2) h1
    refine ⟨c, fun i hi j hj => ?_⟩
    rw [← hG0] at hc
    exact congrFun (congrFun hc ⟨i, hi⟩) ⟨j, hj⟩
  · rw [sum_const, card_range, nsmul_eq_mul, mul_one_div_cancel hn']
  · have := hfixR
    rw [← hG1, act_right] at this
    rw [toM_ext.1 (transpose_injective this) i hi j hj]
    simp
  · have hWW : (Λ * Yᴴ) * (Xᴴ * Λi) = 1 := by
      rw [show Λ * Yᴴ * (Xᴴ * Λi) = Λ * (Yᴴ * Xᴴ) * Λi by simp only [Matrix.mul_assoc], ← conjTranspose_mul, hXY, conjTranspose_one, Matrix.mul_one, hΛΛ]
    obtain ⟨c, hc⟩ := uniq_transport (Φ := fun F => sumM (A.map Ten.d) (fun s => (cellM n A s)ᴴ * F * cellM n A s))
      (Ψ := fun F => sumM (ts.map Ten.d) (fun s => (cellM n ts s)ᴴ * F * cellM n ts s)) (X := Yᴴ) (Y := Xᴴ) (P0 := (toM n q)ᵀ)
      (G0 := ((1 / n : ℝ) : ℂ) • 1) hN'.pos (by rw [← conjTranspose_mul, hYX, conjTranspose_one]) hRt
      (by rw [act_right]; ext i j; exact hN'.eig j j.2 i i.2)
      (fun μ F hF hμ hn => by
        obtain ⟨g, hg⟩ := toM_surj Fᵀ
        have hg : F = (toM n g)ᵀ := by rw [hg, transpose_transpose]
        subst hg
        rw [act_right] at hμ
        obtain ⟨c, hc⟩ := hN'.uniq μ g (by
          by_contra hno
          push Not at hno
          exact hF (by ext i j; exact hno j j.2 i i.2)) (fun i hi j hj => congrFun (congrFun hμ ⟨j, hj⟩) ⟨i, hi⟩) hn
        exact ⟨c, by ext i j; exact hc j j.2 i i.2⟩)
      hfixR (fun h0 => hne1 (by
        rcases smul_eq_zero.1 h0 with h | h
        · exact absurd h h1n
        · exact h))
      (fun F => (Λ * Λ * F).trace) (fun c F => by rw [Matrix.mul_smul, Matrix.trace_smul, smul_eq_mul]) (fun F => by
        rw [← hcyc (Λ * Λ) F, hfixL, Matrix.trace_mul_comm])
      (by
        have := hN'.dens.transp.tr_pos hp hn hWW
        have e : (toM n fun i j => q j i) = (toM n q)ᵀ := rfl
        rw [e] at this
        intro h0
        refine this ?_
        rw [← h0, conjTranspose_mul, conjTranspose_conjTranspose, hΛh]
        rw [show Λ * Yᴴ * (toM n q)ᵀ * (Y * Λ) = (Λ * Yᴴ * (toM n q)ᵀ * Y) * Λ by simp only [Matrix.mul_assoc], Matrix.trace_mul_comm]
        simp only [Matrix.mul_assoc]) μ ((toM n f)ᵀ) (fun h0 => by
        obtain ⟨i, hi, j, hj, h⟩ := hf
        exact h (congrFun (congrFun h0 ⟨j, hj⟩) ⟨i, hi⟩)) (by rw [act_right]; ext i j; exact hμ j j.2 i i.2) h1
    refine ⟨c, fun i hi j hj => ?_⟩
    rw [← hG1] at hc
    exact congrFun (congrFun hc ⟨j, hj⟩) ⟨i, hi⟩

end
end PyTeN.Regauge
