import Verif.Mps.RegaugeFix

/-! # Lemmas for `regaugeIMPS`: the leading eigenvector of the transfer operator -/

namespace PyTeN.Regauge
open Finset Transfer Lanczos Idmrg Matrix
noncomputable section

/-- Contract of `scipy.sparse.linalg.eigs(LOP,k,which='LM')`: `k` pairs of eigenvalues and eigenvectors of the operator, and no
eigenvalue of larger modulus is missing. -/
def EigsSpec (eigs : Eigs) : Prop := ∀ N f k l, eigs N f k = .ok l → l.length = k ∧ ∀ q ∈ l, q.2.n = N ∧ (∃ i < N, q.2.v i ≠ 0) ∧
  (∃ w, f q.2 = .ok w ∧ ∀ i < N, w.v i = q.1 * q.2.v i) ∧
  ∀ (μ : ℂ) (u : Vec ℂ), u.n = N → (∃ i < N, u.v i ≠ 0) → (∃ w, f u = .ok w ∧ ∀ i < N, w.v i = μ * u.v i) → ‖μ‖ ≤ ‖q.1‖ ∨ ∃ q' ∈ l, q'.1 = μ

/-- Convergence of the eigensolver for the transfer operators of unit cells. -/
def Converges (eigs : Eigs) : Prop := ∀ (dir : Dir) (ts : List (Ten ℂ)) (n : ℕ), ts ≠ [] → Linked n ts n → 2 ≤ n →
  ∃ l, eigs (n * n) (unitcellTransferOperator dir ts) 1 = .ok l

/-- Spec: the transfer operator of the cell has the simple leading eigenvalue `η>0`, and its eigenvector is a density matrix `p` with
eigenvalues larger than `pinv`. -/
structure Normal (dir : Dir) (pinv : ℝ) (n : ℕ) (ts : List (Ten ℂ)) (η : ℝ) (p : ℕ → ℕ → ℂ) : Prop where
  pos : 0 < η
  dens : Density pinv n p
  eig : ∀ i < n, ∀ j < n, act dir ts n p i j = η * p i j
  uniq : ∀ (μ : ℂ) (f : ℕ → ℕ → ℂ), (∃ i < n, ∃ j < n, f i j ≠ 0) → (∀ i < n, ∀ j < n, act dir ts n f i j = μ * f i j) → η ≤ ‖μ‖ →
    ∃ c : ℂ, ∀ i < n, ∀ j < n, f i j = c * p i j

theorem Density.ne {pinv : ℝ} {n : ℕ} {p : ℕ → ℕ → ℂ} (h : Density pinv n p) : ∃ i < n, p i i ≠ 0 := by
  by_contra hno
  push Not at hno
  have := h.tr
  rw [sum_eq_zero fun i hi => hno i (mem_range.1 hi)] at this
  exact zero_ne_one this

theorem act_congr (dir : Dir) (ts : List (Ten ℂ)) {n : ℕ} {f g : ℕ → ℕ → ℂ} (h : ∀ i < n, ∀ j < n, f i j = g i j) (i j : ℕ) :
    act dir ts n f i j = act dir ts n g i j := by
  cases dir
  · exact sum_congr rfl fun k hk => sum_congr rfl fun k' hk' => by rw [h k (mem_range.1 hk) k' (mem_range.1 hk')]
  · exact sum_congr rfl fun k hk => sum_congr rfl fun k' hk' => by rw [h k (mem_range.1 hk) k' (mem_range.1 hk')]

theorem act_smul (dir : Dir) (ts : List (Ten ℂ)) (n : ℕ) (c : ℂ) (f : ℕ → ℕ → ℂ) (i j : ℕ) :
    act dir ts n (fun a b => c * f a b) i j = c * act dir ts n f i j := by
  cases dir
  · simp only [act, mul_sum]
    exact sum_congr rfl fun k _ => sum_congr rfl fun k' _ => by ring
  · simp only [act, mul_sum]
    exact sum_congr rfl fun k _ => sum_congr rfl fun k' _ => by ring

theorem index_lt {n i j : ℕ} (hi : i < n) (hj : j < n) : i * n + j < n * n := by
  calc i * n + j < i * n + n := by omega
    _ = (i + 1) * n := by ring
    _ ≤ n * n := Nat.mul_le_mul_right _ hi

/-- What the eigensolver returns for a normal cell. -/
theorem eigs_lead {eigs : Eigs} (hE : EigsSpec eigs) {dir : Dir} {pinv : ℝ} {n : ℕ} {ts : List (Ten ℂ)} {η : ℝ} {p : ℕ → ℕ → ℂ}
    (hne : ts ≠ []) (hl : Linked n ts n) (hN : Normal dir pinv n ts η p) {l : List (ℂ × Vec ℂ)}
    (h : eigs (n * n) (unitcellTransferOperator dir ts) 1 = .ok l) :
    ∃ v, l = [((η : ℂ), v)] ∧ ∃ (c : ℂ) (f : ℕ → ℕ → ℂ), c ≠ 0 ∧ IsMat v n f ∧ ∀ i < n, ∀ j < n, f i j = c * p i j := by
  obtain ⟨h1, h2⟩ := hE _ _ _ _ h
  obtain ⟨⟨μ, v⟩, rfl⟩ := List.length_eq_one_iff.1 h1
  obtain ⟨a1, ⟨k, hk, hk0⟩, ⟨w, w1, w2⟩, a4⟩ := h2 (μ, v) (by simp)
  simp only at a1 hk0 w1 w2 a4
  have hn : 0 < n := Nat.pos_of_ne_zero fun h0 => by rw [h0] at hk; simp at hk
  have hv : IsMat v n fun i j => v.v (i * n + j) := ⟨a1, fun _ _ _ _ => rfl⟩
  have heig : ∀ i < n, ∀ j < n, act dir ts n (fun i j => v.v (i * n + j)) i j = μ * v.v (i * n + j) := by
    intro i hi j hj
    obtain ⟨y, y1, y2⟩ := unit_act dir hne hl hv
    rw [w1] at y1
    cases y1
    rw [← y2.2 i hi j hj, w2 _ (index_lt hi hj)]
  have hnz : ∃ i < n, ∃ j < n, v.v (i * n + j) ≠ 0 :=
    ⟨k / n, Nat.div_lt_of_lt_mul hk, k % n, Nat.mod_lt _ hn, by rw [Nat.div_add_mod']; exact hk0⟩
  obtain ⟨i0, hi0, hp0⟩ := hN.dens.ne
  have hle : η ≤ ‖μ‖ := by
    have hu : IsMat (⟨n * n, fun k => p (k / n) (k % n)⟩ : Vec ℂ) n p := ⟨rfl, fun i hi j hj => by
      show p ((i * n + j) / n) ((i * n + j) % n) = p i j
      rw [Nat.mul_comm i n, Nat.mul_add_div hn, Nat.div_eq_of_lt hj, Nat.add_zero, Nat.mul_add_mod, Nat.mod_eq_of_lt hj]⟩
    obtain ⟨y, y1, y2⟩ := unit_act dir hne hl hu
    have := a4 (η : ℂ) ⟨n * n, fun k => p (k / n) (k % n)⟩ rfl ⟨i0 * n + i0, index_lt hi0 hi0, by rw [hu.2 i0 hi0 i0 hi0]; exact hp0⟩
      ⟨y, y1, fun q hq => by
        have e1 : q / n < n := Nat.div_lt_of_lt_mul hq
        have e2 : q % n < n := Nat.mod_lt _ hn
        have := y2.2 _ e1 _ e2
        rw [Nat.div_add_mod'] at this
        rw [this, hN.eig _ e1 _ e2]⟩
    have hη : ‖(η : ℂ)‖ = η := by rw [Complex.norm_real]; exact abs_of_pos hN.pos
    rcases this with h' | ⟨q', hq', h'⟩
    · rwa [hη] at h'
    · rw [List.mem_singleton.1 hq'] at h'
      simp only at h'
      rw [h', hη]
  obtain ⟨c, hc⟩ := hN.uniq μ _ hnz heig hle
  have hc0 : c ≠ 0 := by
    rintro rfl
    obtain ⟨i, hi, j, hj, h0⟩ := hnz
    exact h0 (by rw [hc i hi j hj, zero_mul])
  have hμ : μ = η := by
    have e := heig i0 hi0 i0 hi0
    rw [act_congr dir ts hc, act_smul, hN.eig i0 hi0 i0 hi0, hc i0 hi0 i0 hi0] at e
    have : c * p i0 i0 * (μ - η) = 0 := by linear_combination -e
    rcases mul_eq_zero.1 this with h' | h'
    · exact absurd h' (mul_ne_zero hc0 hp0)
    · exact sub_eq_zero.1 h'
  exact ⟨v, by rw [hμ], c, _, hc0, hv, hc⟩

theorem not_largeImag {η : ℝ} (h : 0 < η) : ¬ largeImag (η : ℂ) := by
  unfold largeImag
  rw [Complex.ofReal_re, if_neg h.ne', Complex.ofReal_im]
  norm_num

theorem tm_unfold {eigs : Eigs} {dir : Dir} {n : ℕ} {ts : List (Ten ℂ)} (hne : ts ≠ []) (hl : Linked n ts n) :
    unitcellTMeigs eigs dir ts = tmLoop eigs (n * n) (unitcellTransferOperator dir ts) (n * n) 1 := by
  obtain ⟨a, b, h1, h2, h3, h4⟩ := linked_ends hne hl
  simp only [unitcellTMeigs, h1, h2, h3, h4, ne_eq, not_true_eq_false, if_false]

/-- For a normal cell `UnitcellTMeigs` returns the leading eigenvalue and a multiple of the density matrix. -/
theorem tm_spec {eigs : Eigs} (hE : EigsSpec eigs) {dir : Dir} {pinv : ℝ} {n : ℕ} {ts : List (Ten ℂ)} {η : ℝ} {p : ℕ → ℕ → ℂ}
    (hne : ts ≠ []) (hl : Linked n ts n) (hN : Normal dir pinv n ts η p) {μ : ℂ} {v : Vec ℂ} (h : unitcellTMeigs eigs dir ts = .ok (μ, v)) :
    2 ≤ n ∧ μ = η ∧ ∃ (c : ℂ) (f : ℕ → ℕ → ℂ), c ≠ 0 ∧ IsMat v n f ∧ ∀ i < n, ∀ j < n, f i j = c * p i j := by
  rw [tm_unfold hne hl] at h
  generalize hF : n * n = F at h
  cases F with
  | zero => cases h
  | succ F =>
    rw [tmLoop, ← hF] at h
    by_cases h2 : n * n ≤ 1 + 1
    · rw [if_pos h2] at h; cases h
    rw [if_neg h2] at h
    have hn2 : 2 ≤ n := by
      by_contra hno
      apply h2
      have : n ≤ 1 := by omega
      calc n * n ≤ 1 * 1 := Nat.mul_le_mul this this
        _ ≤ 2 := by norm_num
    split at h
    · cases h
    rename_i l hq
    obtain ⟨v', rfl, c, f, k1, k2, k3⟩ := eigs_lead hE hne hl hN hq
    simp only [argmaxRe, if_neg (not_largeImag hN.pos)] at h
    cases h
    exact ⟨hn2, rfl, c, f, k1, k2, k3⟩

theorem tm_total {eigs : Eigs} (hE : EigsSpec eigs) (hcv : Converges eigs) {dir : Dir} {pinv : ℝ} {n : ℕ} {ts : List (Ten ℂ)} {η : ℝ} {p : ℕ → ℕ → ℂ}
    (hne : ts ≠ []) (hl : Linked n ts n) (hN : Normal dir pinv n ts η p) (hn : 2 ≤ n) : ∃ v, unitcellTMeigs eigs dir ts = .ok ((η : ℂ), v) := by
  rw [tm_unfold hne hl]
  obtain ⟨l, hq⟩ := hcv dir ts n hne hl hn
  obtain ⟨v', rfl, -⟩ := eigs_lead hE hne hl hN hq
  have h4 : 4 ≤ n * n := Nat.mul_le_mul hn hn
  obtain ⟨F, hF⟩ : ∃ F, n * n = F + 1 := ⟨n * n - 1, by omega⟩
  refine ⟨v', ?_⟩
  rw [hF, tmLoop, ← hF, if_neg (by omega), hq]
  simp only [argmaxRe, if_neg (not_largeImag hN.pos)]

/-- scipy refuses to compute an eigenvalue of an operator of dimension one. -/
theorem tm_one {eigs : Eigs} {dir : Dir} {ts : List (Ten ℂ)} (hne : ts ≠ []) (hl : Linked 1 ts 1) : unitcellTMeigs eigs dir ts = .error .type := by
  rw [tm_unfold hne hl]
  simp [tmLoop]

/-! ## Rescaling -/

theorem kern_scale (z : ℝ) (ts : List (Ten ℂ)) (i i' j j' : ℕ) :
    kern (ts.map (divT z)) i i' j j' = kern ts i i' j j' / ((z ^ (2 * ts.length) : ℝ) : ℂ) := by
  unfold kern
  rw [show (ts.map (divT z)).map (·.d) = ts.map (·.d) from ds_scale z ts, div_eq_mul_inv, ← sumCfg_mul_right]
  congr 1
  funext s
  have hz : star ((z : ℂ)) = z := Complex.conj_ofReal _
  rw [chain_scale, chain_scale, star_div₀, star_pow, hz]
  push_cast
  rw [two_mul, pow_add, ← div_eq_mul_inv, div_mul_div_comm]

theorem act_scale (dir : Dir) (z : ℝ) (ts : List (Ten ℂ)) (n : ℕ) (f : ℕ → ℕ → ℂ) (i j : ℕ) :
    act dir (ts.map (divT z)) n f i j = act dir ts n f i j / ((z ^ (2 * ts.length) : ℝ) : ℂ) := by
  cases dir
  · simp only [act, kern_scale, sum_div]
    exact sum_congr rfl fun k _ => sum_congr rfl fun k' _ => by ring
  · simp only [act, kern_scale, sum_div]
    exact sum_congr rfl fun k _ => sum_congr rfl fun k' _ => by ring

theorem Normal.scale {dir : Dir} {pinv : ℝ} {n : ℕ} {ts : List (Ten ℂ)} {η : ℝ} {p : ℕ → ℕ → ℂ} (h : Normal dir pinv n ts η p) {z : ℝ} (hz : 0 < z) :
    Normal dir pinv n (ts.map (divT z)) (η / z ^ (2 * ts.length)) p := by
  have hw : 0 < z ^ (2 * ts.length) := pow_pos hz _
  have hw' : ((z ^ (2 * ts.length) : ℝ) : ℂ) ≠ 0 := by exact_mod_cast hw.ne'
  refine ⟨div_pos h.pos hw, h.dens, fun i hi j hj => ?_, fun μ f h1 h2 h3 => ?_⟩
  · rw [act_scale, h.eig i hi j hj]
    push_cast; ring
  · refine h.uniq (μ * ((z ^ (2 * ts.length) : ℝ) : ℂ)) f h1 (fun i hi j hj => ?_) ?_
    · have := h2 i hi j hj
      rw [act_scale, div_eq_iff hw'] at this
      rw [this]; ring
    · rw [norm_mul, Complex.norm_real, Real.norm_of_nonneg hw.le]
      exact (div_le_iff₀ hw).1 h3

theorem rescale_ok {η : ℝ} (h : 0 < η) (ts : List (Ten ℂ)) :
    rescale (η : ℂ) ts = .ok (ts.map (divT (η ^ (1 / (2 * (ts.length : ℝ)))))) := by
  unfold rescale
  rw [Complex.ofReal_re, if_neg (not_le.2 h)]

theorem root_pow {η : ℝ} (h : 0 < η) {N : ℕ} (hN : 0 < N) : (η ^ (1 / (2 * (N : ℝ)))) ^ (2 * N) = η := by
  rw [← Real.rpow_natCast, ← Real.rpow_mul h.le]
  push_cast
  rw [one_div_mul_cancel (by positivity), Real.rpow_one]

theorem root_pos {η : ℝ} (h : 0 < η) (N : ℕ) : 0 < η ^ (1 / (2 * (N : ℝ))) := Real.rpow_pos_of_pos h _

end
end PyTeN.Regauge
