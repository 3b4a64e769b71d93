import Verif.Mps.RegaugeEig
import Verif.Props.IdmrgRun

/-! # Lemmas for `regaugeIMPS`: the gauge transformation -/

namespace PyTeN.Regauge
open Finset Transfer Lanczos Idmrg Matrix
noncomputable section

/-- The matrix of a configuration. -/
def cellM (n : ℕ) (ts : List (Ten ℂ)) (s : List ℕ) : Matrix (Fin n) (Fin n) ℂ := toM n (chain ts s)

theorem act_left (n : ℕ) (ts : List (Ten ℂ)) (f : ℕ → ℕ → ℂ) :
    sumM (ts.map Ten.d) (fun s => cellM n ts s * toM n f * (cellM n ts s)ᴴ) = toM n (act .left ts n f) := by
  ext i i'
  simp only [sumM, toM, act, kern]
  have e : ∀ s, (cellM n ts s * toM n f * (cellM n ts s)ᴴ) i i' = ∑ j : Fin n, ∑ j' : Fin n, (chain ts s i j * star (chain ts s i' j')) * f j j' := by
    intro s
    rw [Matrix.mul_apply]
    simp only [Matrix.mul_apply, cellM, toM, conjTranspose_apply, sum_mul]
    rw [sum_comm]
    exact sum_congr rfl fun j _ => sum_congr rfl fun j' _ => by ring
  simp_rw [e]
  rw [sumCfg_fin, Finset.sum_range]
  refine sum_congr rfl fun j _ => ?_
  rw [sumCfg_fin, Finset.sum_range]
  exact sum_congr rfl fun j' _ => sumCfg_mul_right _ _ _

theorem act_right (n : ℕ) (ts : List (Ten ℂ)) (f : ℕ → ℕ → ℂ) :
    sumM (ts.map Ten.d) (fun s => (cellM n ts s)ᴴ * (toM n f)ᵀ * cellM n ts s) = (toM n (act .right ts n f))ᵀ := by
  ext j' j
  simp only [sumM]
  rw [transpose_apply]
  show _ = act .right ts n f j j'
  simp only [act, kern]
  have e : ∀ s, ((cellM n ts s)ᴴ * (toM n f)ᵀ * cellM n ts s) j' j = ∑ i : Fin n, ∑ i' : Fin n, f i i' * (chain ts s i j * star (chain ts s i' j')) := by
    intro s
    rw [Matrix.mul_apply]
    simp only [Matrix.mul_apply, cellM, toM, conjTranspose_apply, transpose_apply, sum_mul]
    exact sum_congr rfl fun j _ => sum_congr rfl fun j' _ => by ring
  simp_rw [e]
  rw [sumCfg_fin, Finset.sum_range]
  refine sum_congr rfl fun i _ => ?_
  rw [sumCfg_fin, Finset.sum_range]
  exact sum_congr rfl fun i' _ => sumCfg_mul _ _ _

theorem gramL_iff (n : ℕ) (ts : List (Ten ℂ)) (c : ℝ) :
    GramL n ts c ↔ sumM (ts.map Ten.d) (fun s => (cellM n ts s)ᴴ * cellM n ts s) = (c : ℂ) • 1 := by
  have e : ∀ j j' : Fin n, sumM (ts.map Ten.d) (fun s => (cellM n ts s)ᴴ * cellM n ts s) j j'
      = sumCfg (ts.map Ten.d) (fun s => ∑ i ∈ range n, star (chain ts s i j) * chain ts s i j') := by
    intro j j'
    simp only [sumM, Matrix.mul_apply, conjTranspose_apply, cellM, toM, Finset.sum_range]
  have e' : ∀ j j' : Fin n, ((c : ℂ) • (1 : Matrix (Fin n) (Fin n) ℂ)) j j' = (c : ℂ) * delta ℂ (j : ℕ) j' := by
    intro j j'
    rw [← toM_delta]; rfl
  constructor
  · intro h
    ext j j'
    rw [e, e', h j j.2 j' j'.2]
  · intro h j hj j' hj'
    have := congrFun (congrFun h ⟨j, hj⟩) ⟨j', hj'⟩
    rw [e, e'] at this
    exact this

theorem gramR_iff (n : ℕ) (ts : List (Ten ℂ)) (c : ℝ) :
    GramR n ts c ↔ sumM (ts.map Ten.d) (fun s => cellM n ts s * (cellM n ts s)ᴴ) = (c : ℂ) • 1 := by
  have e : ∀ j j' : Fin n, sumM (ts.map Ten.d) (fun s => cellM n ts s * (cellM n ts s)ᴴ) j j'
      = sumCfg (ts.map Ten.d) (fun s => ∑ i ∈ range n, chain ts s j i * star (chain ts s j' i)) := by
    intro j j'
    simp only [sumM, Matrix.mul_apply, conjTranspose_apply, cellM, toM, Finset.sum_range]
  have e' : ∀ j j' : Fin n, ((c : ℂ) • (1 : Matrix (Fin n) (Fin n) ℂ)) j j' = (c : ℂ) * delta ℂ (j : ℕ) j' := by
    intro j j'
    rw [← toM_delta]; rfl
  constructor
  · intro h
    ext j j'
    rw [e, e', h j j.2 j' j'.2]
  · intro h j hj j' hj'
    have := congrFun (congrFun h ⟨j, hj⟩) ⟨j', hj'⟩
    rw [e, e'] at this
    exact this

theorem Same.cell {n : ℕ} {ts A : List (Ten ℂ)} {z : ℝ} (h : Same n n ts A z) {s : List ℕ} (hs : Cfg ts s) : cellM n ts s = (z : ℂ) • cellM n A s := by
  ext i j
  exact h.eq s hs i i.2 j j.2

theorem Same.trans {l r : ℕ} {ts A B : List (Ten ℂ)} {z z' : ℝ} (h : Same l r ts A z) (h' : Same l r A B z') : Same l r ts B (z * z') :=
  ⟨h'.link, h'.ds.trans h.ds, mul_pos h.zpos h'.zpos, fun s hs i hi j hj => by
    rw [h.eq s hs i hi j hj, h'.eq s (cfg_congr h.ds hs) i hi j hj]; push_cast; ring⟩

theorem Same.gramL {n : ℕ} {ts A : List (Ten ℂ)} {z c : ℝ} (h : Same n n ts A z) (hg : GramL n ts c) : GramL n A (c / z ^ 2) := by
  rw [gramL_iff] at hg ⊢
  have hz : ((z : ℂ)) ≠ 0 := by exact_mod_cast h.zpos.ne'
  have : ∀ s, List.Forall₂ (fun d x => x < d) (ts.map Ten.d) s → (cellM n A s)ᴴ * cellM n A s = (1 / (z : ℂ) ^ 2) • ((cellM n ts s)ᴴ * cellM n ts s) := by
    intro s hs
    rw [h.cell (cfg_map.2 hs)]
    simp only [conjTranspose_smul, Matrix.smul_mul, Matrix.mul_smul, smul_smul]
    rw [show star ((z : ℂ)) = z from Complex.conj_ofReal _, show 1 / (z : ℂ) ^ 2 * ((z : ℂ) * z) = 1 by field_simp, one_smul]
  rw [h.ds, sumM_congr this, sumM_smul, hg, smul_smul]
  push_cast
  congr 1
  field_simp

theorem Same.gramR {n : ℕ} {ts A : List (Ten ℂ)} {z c : ℝ} (h : Same n n ts A z) (hg : GramR n ts c) : GramR n A (c / z ^ 2) := by
  rw [gramR_iff] at hg ⊢
  have hz : ((z : ℂ)) ≠ 0 := by exact_mod_cast h.zpos.ne'
  have : ∀ s, List.Forall₂ (fun d x => x < d) (ts.map Ten.d) s → cellM n A s * (cellM n A s)ᴴ = (1 / (z : ℂ) ^ 2) • (cellM n ts s * (cellM n ts s)ᴴ) := by
    intro s hs
    rw [h.cell (cfg_map.2 hs)]
    simp only [conjTranspose_smul, Matrix.smul_mul, Matrix.mul_smul, smul_smul]
    rw [show star ((z : ℂ)) = z from Complex.conj_ofReal _, show 1 / (z : ℂ) ^ 2 * ((z : ℂ) * z) = 1 by field_simp, one_smul]
  rw [h.ds, sumM_congr this, sumM_smul, hg, smul_smul]
  push_cast
  congr 1
  field_simp

theorem bonds_of_map {A B : List (Ten ℂ)} (h : A.map (fun t => (t.l, t.r)) = B.map fun t => (t.l, t.r)) {b : ℕ} (hb : ∀ u ∈ B, u.l ≤ b ∧ u.r ≤ b) :
    ∀ u ∈ A, u.l ≤ b ∧ u.r ≤ b := by
  intro u hu
  have : (u.l, u.r) ∈ B.map fun t => (t.l, t.r) := by rw [← h]; exact List.mem_map_of_mem hu
  obtain ⟨w, hw, e⟩ := List.mem_map.1 this
  simp only [Prod.mk.injEq] at e
  rw [← e.1, ← e.2]; exact hb w hw

/-- Sweep to the right and normalisation of the last tensor. -/
theorem sweepR_unit {O : LinAlg} (hO : O.Spec) {n : ℕ} (hn : 0 < n) {ts : List (Ten ℂ)} {c : ℝ} (hc : 0 < c) (hl : Linked n ts n) (hne : ts ≠ [])
    (hg : GramL n ts c) : ∃ ts' A, fromFirst (sweepR O) ts = .ok ts' ∧ onLast unitLast ts' = .ok A ∧ Same n n ts A (Real.sqrt c) ∧
      (∀ a ∈ A, LeftOrth a) ∧ ∀ b, (∀ u ∈ ts, u.l ≤ b ∧ u.r ≤ b) → ∀ u ∈ A, u.l ≤ b ∧ u.r ≤ b := by
  obtain ⟨t, Q, rfl⟩ := List.exists_cons_of_ne_nil hne
  obtain ⟨ts', h1⟩ : ∃ A, sweepR O t Q = .ok A := by
    refine sweepR_total hO hl ?_
    by_contra hno
    push Not at hno
    have h0 := hg 0 hn 0 hn
    have : sumCfg ((t :: Q).map Ten.d) (fun s => ∑ i ∈ range n, star (chain (t :: Q) s i 0) * chain (t :: Q) s i 0)
        = sumCfg ((t :: Q).map Ten.d) fun _ => 0 :=
      sumCfg_congr fun s hs => sum_eq_zero fun i hi => by rw [hno s (cfg_map.2 hs) i (mem_range.1 hi) 0 hn, mul_zero]
    rw [this, sumCfg_zero] at h0
    simp [delta] at h0
    exact hc.ne (by exact_mod_cast h0)
  obtain ⟨⟨z, S⟩, ho, hb⟩ := sweepR_spec hO hl h1
  have hne' : ts' ≠ [] := by
    intro h0
    have := S.ds
    simp [h0] at this
  have hz2 : 0 < z ^ 2 := pow_pos S.zpos 2
  obtain ⟨A, k1, k2, k3, k4⟩ := finishL hn (div_pos hc hz2) S.link hne' ho (S.gramL hg)
  refine ⟨ts', A, h1, k1, ?_, k3, fun b hb' => bonds_of_map k4 (hb b hb')⟩
  have := S.trans k2
  rwa [Real.sqrt_div hc.le, Real.sqrt_sq S.zpos.le, mul_div_cancel₀ _ S.zpos.ne'] at this

/-- Sweep to the left and normalisation of the first tensor. -/
theorem sweepL_unit {O : LinAlg} (hO : O.Spec) {n : ℕ} (hn : 0 < n) {ts : List (Ten ℂ)} {c : ℝ} (hc : 0 < c) (hl : Linked n ts n) (hne : ts ≠ [])
    (hg : GramR n ts c) : ∃ ts' A, fromLast (fun t l => sweepL O t l []) ts = .ok ts' ∧ onFirst unitFirst ts' = .ok A ∧ Same n n ts A (Real.sqrt c) ∧
      (∀ a ∈ A, RightOrth a) ∧ ∀ b, (∀ u ∈ ts, u.l ≤ b ∧ u.r ≤ b) → ∀ u ∈ A, u.l ≤ b ∧ u.r ≤ b := by
  obtain ⟨P, t, rfl⟩ : ∃ P t, ts = P ++ [t] := by
    rcases List.eq_nil_or_concat ts with h0 | ⟨a, y, h0⟩
    · exact absurd h0 hne
    · exact ⟨a, y, by rw [h0, List.concat_eq_append]⟩
  have hl' : Linked n (P.reverse.reverse ++ t :: []) n := by rwa [List.reverse_reverse]
  obtain ⟨ts', h1⟩ : ∃ A, sweepL O t P.reverse [] = .ok A := by
    refine sweepL_total hO hl' ?_
    rw [List.reverse_reverse]
    by_contra hno
    push Not at hno
    have h0 := hg 0 hn 0 hn
    have : sumCfg ((P ++ [t]).map Ten.d) (fun s => ∑ j ∈ range n, chain (P ++ [t]) s 0 j * star (chain (P ++ [t]) s 0 j))
        = sumCfg ((P ++ [t]).map Ten.d) fun _ => 0 :=
      sumCfg_congr fun s hs => sum_eq_zero fun i hi => by rw [hno s (cfg_map.2 hs) 0 hn i (mem_range.1 hi), zero_mul]
    rw [this, sumCfg_zero] at h0
    simp [delta] at h0
    exact hc.ne (by exact_mod_cast h0)
  obtain ⟨⟨z, S⟩, ho, hb⟩ := sweepL_spec hO hl' (by simp) h1
  rw [List.reverse_reverse] at S hb
  have hne' : ts' ≠ [] := by
    intro h0
    have := S.ds
    simp [h0] at this
  have hz2 : 0 < z ^ 2 := pow_pos S.zpos 2
  obtain ⟨A, k1, k2, k3, k4⟩ := finishR hn (div_pos hc hz2) S.link hne' ho (S.gramR hg)
  refine ⟨ts', A, by simp only [fromLast, List.reverse_append, List.reverse_singleton, List.singleton_append, fromFirst]; exact h1, k1, ?_, k3,
    fun b hb' => bonds_of_map k4 (hb b hb')⟩
  have := S.trans k2
  rwa [Real.sqrt_div hc.le, Real.sqrt_sq S.zpos.le, mul_div_cancel₀ _ S.zpos.ne'] at this

/-- Multiplication of the end tensors, sweep to the right, and normalisation, for a transformation compatible with the left fixed point `L`. -/
theorem left_core {O : LinAlg} (hO : O.Spec) {n : ℕ} (hn : 0 < n) {ts : List (Ten ℂ)} (hl : Linked n ts n) (hne : ts ≠ []) {X Y : Mat ℂ}
    (hXr : X.r = n) (hXc : X.c = n) (hYr : Y.r = n) (hYc : Y.c = n) {L : Matrix (Fin n) (Fin n) ℂ} {c : ℂ} {d : ℝ} (hd : 0 < d)
    (hL : sumM (ts.map Ten.d) (fun s => (cellM n ts s)ᴴ * L * cellM n ts s) = L) (hX : (toM n X.v)ᴴ * toM n X.v = c • L)
    (hXY : toM n X.v * toM n Y.v = (d : ℂ) • 1) :
    ∃ ts1 ts2 ts3 A, onFirst (absorbL X) ts = .ok ts1 ∧ onLast (fun t => absorbR t Y) ts1 = .ok ts2 ∧ fromFirst (sweepR O) ts2 = .ok ts3 ∧
      onLast unitLast ts3 = .ok A ∧ Linked n A n ∧ A.map Ten.d = ts.map Ten.d ∧ (∀ a ∈ A, LeftOrth a) ∧
      (∀ s, Cfg ts s → toM n X.v * cellM n ts s * toM n Y.v = (d : ℂ) • cellM n A s) ∧
      ∀ b, n ≤ b → (∀ u ∈ ts, u.l ≤ b ∧ u.r ≤ b) → ∀ u ∈ A, u.l ≤ b ∧ u.r ≤ b := by
  obtain ⟨ts1, a1, a2, a3, a4, a5, a6⟩ := first_absorb hl hne hXc
  rw [hXr] at a2
  obtain ⟨ts2, b1, b2, b3, b4, b5, b6⟩ := last_absorb a2 a3 hYr
  rw [hYc] at b2
  have hds : ts2.map Ten.d = ts.map Ten.d := b4.trans a4
  have hlen : ts1.length = ts.length := by simpa using congrArg List.length a4
  have hcell : ∀ s, Cfg ts s → cellM n ts2 s = toM n X.v * cellM n ts s * toM n Y.v := by
    intro s hs
    rw [cellM, cellM, ← toM_mmul, ← toM_mmul]
    refine toM_ext.2 fun i hi j hj => ?_
    rw [b5 s (by rw [hlen]; exact hs.length_eq) i hi j (by rw [hYc]; exact hj)]
    exact mmul_congr (fun k _ => a5 s i k hs.length_eq) fun _ _ => rfl
  have hg : GramL n ts2 (d * d) := by
    rw [gramL_iff, hds, sumM_congr fun s hs => by rw [hcell s (cfg_map.2 hs)], gauge_left hL hX hXY]
    rw [show star (d : ℂ) = d from Complex.conj_ofReal _]
    push_cast; rfl
  obtain ⟨ts3, A, c1, c2, S, c4, c5⟩ := sweepR_unit hO hn (mul_pos hd hd) b2 b3 hg
  rw [Real.sqrt_mul_self hd.le] at S
  refine ⟨ts1, ts2, ts3, A, a1, b1, c1, c2, S.link, S.ds.trans hds, c4, fun s hs => ?_, fun b hb h0 => c5 b (b6 b (by rw [hYc]; exact hb)
    (a6 b (by rw [hXr]; exact hb) h0))⟩
  rw [← hcell s hs, S.cell (cfg_congr hds hs)]

/-- Multiplication of the end tensors, sweep to the left, and normalisation, for a transformation compatible with the right fixed point `r`. -/
theorem right_core {O : LinAlg} (hO : O.Spec) {n : ℕ} (hn : 0 < n) {ts : List (Ten ℂ)} (hl : Linked n ts n) (hne : ts ≠ []) {X Y : Mat ℂ}
    (hXr : X.r = n) (hXc : X.c = n) (hYr : Y.r = n) (hYc : Y.c = n) {r : Matrix (Fin n) (Fin n) ℂ} {c : ℂ} {d : ℝ} (hd : 0 < d)
    (hr : sumM (ts.map Ten.d) (fun s => cellM n ts s * r * (cellM n ts s)ᴴ) = r) (hY : toM n Y.v * (toM n Y.v)ᴴ = c • r)
    (hXY : toM n X.v * toM n Y.v = (d : ℂ) • 1) :
    ∃ ts1 ts2 ts3 A, onLast (fun t => absorbR t Y) ts = .ok ts1 ∧ onFirst (absorbL X) ts1 = .ok ts2 ∧
      fromLast (fun t l => sweepL O t l []) ts2 = .ok ts3 ∧
      onFirst unitFirst ts3 = .ok A ∧ Linked n A n ∧ A.map Ten.d = ts.map Ten.d ∧ (∀ a ∈ A, RightOrth a) ∧
      (∀ s, Cfg ts s → toM n X.v * cellM n ts s * toM n Y.v = (d : ℂ) • cellM n A s) ∧
      ∀ b, n ≤ b → (∀ u ∈ ts, u.l ≤ b ∧ u.r ≤ b) → ∀ u ∈ A, u.l ≤ b ∧ u.r ≤ b := by
  obtain ⟨ts1, a1, a2, a3, a4, a5, a6⟩ := last_absorb hl hne hYr
  rw [hYc] at a2
  obtain ⟨ts2, b1, b2, b3, b4, b5, b6⟩ := first_absorb a2 a3 hXc
  rw [hXr] at b2
  have hds : ts2.map Ten.d = ts.map Ten.d := b4.trans a4
  have hlen : ts1.length = ts.length := by simpa using congrArg List.length a4
  have hcell : ∀ s, Cfg ts s → cellM n ts2 s = toM n X.v * cellM n ts s * toM n Y.v := by
    intro s hs
    rw [Matrix.mul_assoc, cellM, cellM, ← toM_mmul, ← toM_mmul]
    refine toM_ext.2 fun i hi j hj => ?_
    rw [b5 s i j (by rw [hlen]; exact hs.length_eq)]
    exact mmul_congr (fun _ _ => rfl) fun k hk => a5 s hs.length_eq k hk j (by rw [hYc]; exact hj)
  have hg : GramR n ts2 (d * d) := by
    have := gauge_right (R := 1) hr (by rw [Matrix.mul_one]; exact hY) hXY
    simp only [Matrix.mul_one] at this
    rw [gramR_iff, hds, sumM_congr fun s hs => by rw [hcell s (cfg_map.2 hs)], this]
    rw [show star (d : ℂ) = d from Complex.conj_ofReal _]
    push_cast; rfl
  obtain ⟨ts3, A, c1, c2, S, c4, c5⟩ := sweepL_unit hO hn (mul_pos hd hd) b2 b3 hg
  rw [Real.sqrt_mul_self hd.le] at S
  refine ⟨ts1, ts2, ts3, A, a1, b1, c1, c2, S.link, S.ds.trans hds, c4, fun s hs => ?_, fun b hb h0 => c5 b (b6 b (by rw [hXr]; exact hb)
    (a6 b (by rw [hYc]; exact hb) h0))⟩
  rw [← hcell s hs, S.cell (cfg_congr hds hs)]

end
end PyTeN.Regauge
