import Verif.Env.SteadyMirror
import Verif.Env.Steady

/-! # Lemmas for steady-state Hamiltonians: what the functions return -/

namespace PyTeN.Steady
open Finset Transfer Regauge
noncomputable section

/-- Contract of `scipy.sparse.linalg.lgmres`, idealised: the returned vector solves the linear system. -/
def LgmresSpec (solve : Lgmres) : Prop := ∀ f y x0 x, solve f y x0 = .ok x → x.n = y.n ∧
  ∃ z, f x = .ok z ∧ z.n = y.n ∧ ∀ k < y.n, z.v k = y.v k

/-- Convergence of the solver: it returns a vector if the system has a solution. -/
def LgmresConverges (solve : Lgmres) : Prop := ∀ f y x0, x0.n = y.n →
  (∃ x, x.n = y.n ∧ ∃ z, f x = .ok z ∧ z.n = y.n ∧ ∀ k < y.n, z.v k = y.v k) → ∃ x, solve f y x0 = .ok x

theorem exists_lgmres : ∃ solve, LgmresSpec solve ∧ LgmresConverges solve := by
  classical
  refine ⟨fun f y _ => if h : ∃ x, x.n = y.n ∧ ∃ z, f x = .ok z ∧ z.n = y.n ∧ ∀ k < y.n, z.v k = y.v k then .ok h.choose else .error .value,
    fun f y x0 x h => ?_, fun f y x0 _ h => ⟨_, dif_pos h⟩⟩
  simp only at h
  split_ifs at h with h0
  cases h
  exact h0.choose_spec

theorem contrL_env_congr {E F : Env ℂ} {D B : ℕ} (hu : E.u = D) (hw : E.w = D) (hm : E.m = B) (hu' : F.u = D) (hw' : F.w = D) (hm' : F.m = B)
    (h : ∀ i < D, ∀ i' < D, ∀ c < B, E.v i i' c = F.v i i' c) (ts : List (Ten ℂ)) (Ws : List (Mpo ℂ)) (j j' c : ℕ) :
    contrL E ts Ws ts j j' c = contrL F ts Ws ts j j' c := by
  rw [contrL_parts hu hw hm, contrL_parts hu' hw' hm']
  exact sum_congr rfl fun b hb => part_congr (fun i hi i' hi' => h i hi i' hi' b (mem_range.1 hb)) _ _ _ _ _

/-- What the common end of the branches returns. -/
theorem steadyEnd_ok {solve : Lgmres} (hS : LgmresSpec solve) {dir : Dir} {ts : List (Ten ℂ)} {ldens rdens : List (Mat ℂ)} {bd : Vec ℂ} {E L : Env ℂ} {c D : ℕ}
    {x : Mat ℂ} {h : ℂ} (hxc : x.c = D) (hr : steadyEnd solve dir ts ldens rdens bd E c x D D D = .ok (L, h)) :
    E.u = D ∧ E.w = D ∧ h = ∑ i ∈ range D, ∑ j ∈ range D, E.v i j c * x.v j i ∧
    ∃ k y, k.n = D * D ∧ L = setSlice E c ⟨D, D, fun i j => k.v (i * D + j)⟩ ∧ oneMinusPseudoUnitcell dir ts ldens rdens k = .ok y ∧
      IsMat y D fun i j => E.v i j c - h * delta ℂ i j := by
  unfold steadyEnd at hr
  split at hr
  · cases hr
  rename_i h0 e1
  split at hr
  · cases hr
  rename_i M e2
  split at hr
  · cases hr
  rename_i inhom e3
  by_cases hbd : bd.n ≠ D * D
  · rw [if_pos hbd] at hr; cases hr
  rw [if_neg hbd] at hr
  split at hr
  · cases hr
  rename_i k e4
  split at hr
  · cases hr
  rename_i K e5
  split_ifs at hr with hE
  obtain ⟨hu, hw⟩ := hE
  have hL := (Prod.mk.inj (Except.ok.inj hr)).1
  have hh := (Prod.mk.inj (Except.ok.inj hr)).2
  subst hh
  unfold traceProd at e1
  split_ifs at e1
  have e1 := Except.ok.inj e1
  unfold minusEye at e2
  split_ifs at e2
  have e2 := Except.ok.inj e2
  unfold reshape2 at e5
  split_ifs at e5 with hk
  have e5 := Except.ok.inj e5
  subst e5
  unfold tdvpGmresUC at e4
  split at e4
  swap
  · cases e4
  split_ifs at e4
  obtain ⟨k1, y, y1, y2, y3⟩ := hS _ _ _ _ e4
  obtain ⟨v, v1, v2⟩ := flat_isMat (f := fun i j => (slice E c).v i j - h0 * delta ℂ i j) (r := D) rfl
  rw [← e2, v1] at e3
  have e3 := Except.ok.inj e3
  subst e3
  refine ⟨hu, hw, ?_, k, y, hk, hL.symm, y1, ?_⟩
  · rw [← e1]
    simp only [slice, hu, hw, hxc, min_self]
  · refine ⟨by rw [y2, v2.1], fun i hi j hj => ?_⟩
    rw [y3 _ (by rw [v2.1]; exact index_lt hi hj), v2.2 i hi j hj]
    rfl

section right
variable {B D : ℕ} {us : List (Ten ℂ)} {b : Ten ℂ} {Vs : List (Mpo ℂ)} {W : Mpo ℂ}

/-- The last site alone, computed with the last row of its tensor. -/
theorem init_last (hb : NNCell 0 (B - 1) B [b] [W]) (hbr : b.r = D) {w : Mpo ℂ} (hw : lastRowMpo W = .ok w) {L0 : Env ℂ}
    (h0 : initializeLayerR b (eye b.l) b w = .ok L0) : L0.u = D ∧ L0.w = D ∧ L0.m = B ∧
      ∀ j < D, ∀ j' < D, ∀ c < B, L0.v j j' c = (lastEnv D (B - 1) B b W).v j j' c := by
  obtain ⟨hW, hd⟩ : NNSite 0 (B - 1) B W ∧ b.d = W.din := by cases hb with | cons h _ => exact h
  unfold lastRowMpo at hw
  split_ifs at hw
  have hw := Except.ok.inj hw
  subst hw
  obtain ⟨E', e1, e2, e3, e4, e5⟩ := initializeLayerR_eq _ _ _ _ _ h0
  have hc : (openEnv b.l (B - 1) B).u = b.l ∧ (openEnv b.l (B - 1) B).m = W.l ∧ b.d = W.din ∧ (openEnv b.l (B - 1) B).w = b.l ∧ W.dout = b.d :=
    ⟨rfl, hW.l.symm, hd, rfl, by rw [hW.dd, hd]⟩
  obtain ⟨F, hF⟩ : ∃ F, addLayerR (openEnv b.l (B - 1) B) b W b = .ok F := by unfold addLayerR; rw [if_pos hc]; exact ⟨_, rfl⟩
  have hlast : ∀ j < D, ∀ j' < D, ∀ c < B, (lastEnv D (B - 1) B b W).v j j' c = F.v j j' c := by
    intro j hj j' hj' c hcB
    change contrL (openEnv b.l (B - 1) B) [b] [W] [b] j j' c = _
    rw [contrL_cons hF]
    unfold addLayerR at hF
    rw [if_pos hc] at hF
    have hF := Except.ok.inj hF
    exact contrL_nil F (by rw [← hF]; exact hbr ▸ hj) (by rw [← hF]; exact hbr ▸ hj') (by rw [← hF]; exact hW.r ▸ hcB)
  unfold addLayerR at e1 hF
  rw [if_pos hc] at hF
  split_ifs at e1
  have e1 := Except.ok.inj e1
  have hF := Except.ok.inj hF
  refine ⟨by rw [← e2, ← e1]; exact hbr, by rw [← e3, ← e1]; exact hbr, by rw [← e4, ← e1]; exact hW.r, fun j hj j' hj' c hcB => ?_⟩
  rw [hlast j hj j' hj' c hcB, ← e5, ← e1, ← hF]
  dsimp only
  refine sum_congr rfl fun i _ => sum_congr rfl fun i' _ => ?_
  have hB : (openEnv b.l (B - 1) B).m = B := rfl
  rw [hB, sum_range_one]
  symm
  rw [sum_eq_single (B - 1)]
  · simp only [openEnv, delta_self, mul_one, eye, hW.l]
  · intro c' _ hc'
    refine sum_eq_zero fun _ _ => sum_eq_zero fun _ _ => ?_
    simp [openEnv, delta, hc']
  · intro hno; exact absurd (mem_range.2 hW.sB) hno

/-- What `computeUCsteadyStateHamiltonianGMRES(...,direction>0)` returns. -/
theorem steady_right {solve : Lgmres} (hS : LgmresSpec solve) (h : NNCell 0 (B - 1) B us Vs) (hb : NNCell 0 (B - 1) B [b] [W])
    (hl : Linked D (us ++ [b]) D) {bd : Vec ℂ} {ldens rdens : List (Mat ℂ)} {r1 : Mat ℂ} (hr : rdens.getLast? = some r1) (hr2 : r1.c = D)
    {L : Env ℂ} {e : ℂ} (hrun : steadyState solve .right (us ++ [b]) (Vs ++ [W]) bd ldens rdens = .ok (L, e)) :
    ∃ k y, IsMat k D (fun i j => k.v (i * D + j)) ∧ oneMinusPseudoUnitcell .right (us ++ [b]) ldens rdens k = .ok y ∧
      IsMat y D (fun i j => (source D (B - 1) B us b Vs W).v i j 0 - e * delta ℂ i j) ∧
      e = ∑ i ∈ range D, ∑ j ∈ range D, (source D (B - 1) B us b Vs W).v i j 0 * r1.v j i ∧
      L.u = D ∧ L.w = D ∧ L.m = B ∧ (∀ c < B, c ≠ 0 → ∀ i < D, ∀ i' < D, L.v i i' c = (source D (B - 1) B us b Vs W).v i i' c) ∧
      ∀ i < D, ∀ j < D, L.v i j 0 = k.v (i * D + j) := by
  have hc := h.append hb
  have hlen := h.length_eq
  have hbr : b.r = D := by obtain ⟨q, h1, h2⟩ := linked_append.1 hl; exact h2.2
  obtain ⟨a, b', ha, hb', hal, -⟩ := linked_ends (by simp) hl
  have hbb : (us ++ [b]).getLast? = some b := by simp
  have hWW : (Vs ++ [W])[(us ++ [b]).length - 1]? = some W := by simp [hlen]
  obtain ⟨hW, hd⟩ : NNSite 0 (B - 1) B W ∧ b.d = W.din := by cases hb with | cons h _ => exact h
  unfold steadyState at hrun
  rw [ha, hbb, hr, hWW] at hrun
  cases hl0 : ldens.head? with
  | none => rw [hl0] at hrun; cases hrun
  | some l0 =>
  cases hV0 : (Vs ++ [W]).head? with
  | none => rw [hl0, hV0] at hrun; cases hrun
  | some V0 =>
  rw [hl0, hV0] at hrun
  simp only at hrun
  split at hrun
  · cases hrun
  rename_i w hw
  split at hrun
  · cases hrun
  rename_i L0 hL0
  split at hrun
  · cases hrun
  rename_i L1 hL1
  split_ifs at hrun with hm
  rw [hbr, hal] at hrun
  obtain ⟨i1, i2, i3, i4⟩ := init_last hb hbr hw hL0
  have hIs := layersR_isL _ _ _ _ _ _ _ hL1
  simp only [List.drop_zero] at hIs
  rw [List.take_of_length_le (l := us ++ [b]) le_rfl, List.take_of_length_le (l := Vs ++ [W]) (by simp [hlen])] at hIs
  have hLm : L1.m = B := by
    have := hIs.m
    rw [i3] at this
    have h2 := hc.mlinked
    clear * - this h2
    generalize hX : L1.m = X at this
    have key : ∀ (l : List (Mpo ℂ)) (p x y : ℕ), MLinked p l x → MLinked p l y → x = y := by
      intro l
      induction l with
      | nil => intro p x y h1 h2; exact h1.symm.trans h2
      | cons a l ih => intro p x y h1 h2; exact ih _ _ _ h1.2 h2.2
    exact key _ _ _ _ this h2
  obtain ⟨k1, k2, k3, k, y, k4, k5, k6, k7⟩ := steadyEnd_ok hS hr2 hrun
  have hsrc : ∀ i < D, ∀ j < D, ∀ c < B, L1.v i j c = (source D (B - 1) B us b Vs W).v i j c := by
    intro i hi j hj c hcB
    rw [hIs.v i (by rw [k1]; exact hi) j (by rw [k2]; exact hj) c (by rw [hLm]; exact hcB)]
    exact contrL_env_congr i1 i2 i3 rfl rfl rfl i4 _ _ _ _ _
  have hB0 : 0 < B := hW.fB
  refine ⟨k, y, ⟨k4, fun _ _ _ _ => rfl⟩, k6, isMat_congr k7 fun i hi j hj => by rw [hsrc i hi j hj 0 hB0], ?_, ?_, ?_, ?_, ?_, ?_⟩
  · rw [k3]
    exact sum_congr rfl fun i hi => sum_congr rfl fun j hj => by rw [hsrc i (mem_range.1 hi) j (mem_range.1 hj) 0 hB0]
  · rw [k5]; exact k1
  · rw [k5]; exact k2
  · rw [k5]; exact hLm
  · intro c hcB hc0 i hi i' hi'
    rw [k5, ← hsrc i hi i' hi' c hcB]
    simp [setSlice, hc0]
  · intro i hi j hj
    rw [k5]; simp [setSlice]

end right

section left
variable {B D : ℕ} {us : List (Ten ℂ)} {a : Ten ℂ} {Us : List (Mpo ℂ)} {V : Mpo ℂ}

/-- The first site alone, computed with the first column of its tensor. -/
theorem init_first (ha : NNCell 0 (B - 1) B [a] [V]) (hal : a.l = D) {W w : Mpo ℂ} (hw : firstColMpo W V = .ok w) {R0 : Env ℂ}
    (h0 : initializeLayerL a (eye a.r) a w = .ok R0) : R0.u = D ∧ R0.w = D ∧ R0.m = B ∧
      ∀ j < D, ∀ j' < D, ∀ c < B, R0.v j j' c = (lastEnv D 0 B (rT a) (rW V)).v j j' c := by
  obtain ⟨hV, hd⟩ : NNSite 0 (B - 1) B V ∧ a.d = V.din := by cases ha with | cons h _ => exact h
  unfold firstColMpo at hw
  split_ifs at hw with h1 h2
  have hw := Except.ok.inj hw
  subst hw
  obtain ⟨E', e1, e2, e3, e4, e5⟩ := initializeLayerL_eq _ _ _ _ _ h0
  have hc : (openEnv (rT a).l 0 B).u = (rT a).l ∧ (openEnv (rT a).l 0 B).m = (rW V).l ∧ (rT a).d = (rW V).din ∧
      (openEnv (rT a).l 0 B).w = (rT a).l ∧ (rW V).dout = (rT a).d :=
    ⟨rfl, hV.r.symm, hd, rfl, hV.dd.trans hd.symm⟩
  obtain ⟨F, hF⟩ : ∃ F, addLayerR (openEnv (rT a).l 0 B) (rT a) (rW V) (rT a) = .ok F := by unfold addLayerR; rw [if_pos hc]; exact ⟨_, rfl⟩
  have hlast : ∀ j < D, ∀ j' < D, ∀ c < B, (lastEnv D 0 B (rT a) (rW V)).v j j' c = F.v j j' c := by
    intro j hj j' hj' c hcB
    change contrL (openEnv (rT a).l 0 B) [rT a] [rW V] [rT a] j j' c = _
    rw [contrL_cons hF]
    unfold addLayerR at hF
    rw [if_pos hc] at hF
    have hF := Except.ok.inj hF
    exact contrL_nil F (by rw [← hF]; change j < a.l; rw [hal]; exact hj)
      (by rw [← hF]; change j' < a.l; rw [hal]; exact hj') (by rw [← hF]; change c < V.l; rw [hV.l]; exact hcB)
  unfold addLayerR at hF
  unfold addLayerL at e1
  rw [if_pos hc] at hF
  split_ifs at e1
  have e1 := Except.ok.inj e1
  have hF := Except.ok.inj hF
  refine ⟨by rw [← e2, ← e1]; exact hal, by rw [← e3, ← e1]; exact hal, by rw [← e4, ← e1]; exact h2.1 ▸ hV.l, fun j hj j' hj' c hcB => ?_⟩
  rw [hlast j hj j' hj' c hcB, ← e5, ← e1, ← hF]
  dsimp only
  refine sum_congr rfl fun i _ => sum_congr rfl fun i' _ => ?_
  have hB : (openEnv (rT a).l 0 B).m = B := rfl
  rw [hB, sum_range_one]
  symm
  rw [sum_eq_single 0]
  · simp only [openEnv, delta_self, mul_one, eye]; rfl
  · intro c' _ hc'
    refine sum_eq_zero fun _ _ => sum_eq_zero fun _ _ => ?_
    simp [openEnv, delta, hc']
  · intro hno; exact absurd (mem_range.2 hV.fB) hno

/-- What `computeUCsteadyStateHamiltonianGMRES(...,direction<0)` returns. -/
theorem steady_left {solve : Lgmres} (hS : LgmresSpec solve) (h : NNCell 0 (B - 1) B us Us) (ha : NNCell 0 (B - 1) B [a] [V])
    (hl : Linked D (a :: us) D) {bd : Vec ℂ} {ldens rdens : List (Mat ℂ)} {l0 : Mat ℂ} (hr : ldens.head? = some l0) (hr2 : l0.c = D)
    {R : Env ℂ} {e : ℂ} (hrun : steadyState solve .left (a :: us) (V :: Us) bd ldens rdens = .ok (R, e)) :
    ∃ k y, IsMat k D (fun i j => k.v (i * D + j)) ∧ oneMinusPseudoUnitcell .left (a :: us) ldens rdens k = .ok y ∧
      IsMat y D (fun i j => (source D 0 B (rTs us) (rT a) (rWs Us) (rW V)).v i j (B - 1) - e * delta ℂ i j) ∧
      e = ∑ i ∈ range D, ∑ j ∈ range D, (source D 0 B (rTs us) (rT a) (rWs Us) (rW V)).v i j (B - 1) * l0.v j i ∧
      R.u = D ∧ R.w = D ∧ R.m = B ∧
      (∀ c < B, c ≠ B - 1 → ∀ i < D, ∀ i' < D, R.v i i' c = (source D 0 B (rTs us) (rT a) (rWs Us) (rW V)).v i i' c) ∧
      ∀ i < D, ∀ j < D, R.v i j (B - 1) = k.v (i * D + j) := by
  have hc : NNCell 0 (B - 1) B (a :: us) (V :: Us) := ha.append h
  have hlen := h.length_eq
  have hal : a.l = D := hl.1
  obtain ⟨a', b, -, hb', -, hbr⟩ := linked_ends (by simp) hl
  obtain ⟨hV, hd⟩ : NNSite 0 (B - 1) B V ∧ a.d = V.din := by cases ha with | cons h _ => exact h
  unfold steadyState at hrun
  cases hr1 : rdens.getLast? with
  | none => rw [hr1] at hrun; simp [hb', hr] at hrun
  | some r1 =>
  cases hW : (V :: Us)[(a :: us).length - 1]? with
  | none => rw [hW] at hrun; simp [hb', hr, hr1] at hrun
  | some W =>
  rw [hb', hr, hr1, hW, List.head?_cons, List.head?_cons] at hrun
  simp only at hrun
  split at hrun
  · cases hrun
  rename_i w hw
  split at hrun
  · cases hrun
  rename_i R0 hR0
  split at hrun
  · cases hrun
  rename_i R1 hR1
  split_ifs at hrun with hm
  rw [hbr, hal] at hrun
  obtain ⟨i1, i2, i3, i4⟩ := init_first ha hal hw hR0
  have hIs := layersL_isR _ _ _ _ _ _ _ hR1
  simp only [List.drop_zero] at hIs
  rw [List.take_of_length_le (l := a :: us) le_rfl, List.take_of_length_le (l := V :: Us) (by simp [hlen])] at hIs
  have hRm : R1.m = B := by have := hIs.m.1; rw [← this]; exact hV.l
  obtain ⟨k1, k2, k3, k, y, k4, k5, k6, k7⟩ := steadyEnd_ok hS hr2 hrun
  rw [hRm] at k3 k5 k7
  have hm1 : rTs (a :: us) = rTs us ++ [rT a] := by simp [rTs]
  have hm2 : rWs (V :: Us) = rWs Us ++ [rW V] := by simp [rWs]
  have hsrc : ∀ i < D, ∀ j < D, ∀ c < B, R1.v i j c = (source D 0 B (rTs us) (rT a) (rWs Us) (rW V)).v i j c := by
    intro i hi j hj c hcB
    rw [hIs.v i (by rw [k1]; exact hi) j (by rw [k2]; exact hj) c (by rw [hRm]; exact hcB), contrR_mirror hc hl i1 i2 i3 hi hj hcB, hm1, hm2]
    exact contrL_env_congr i1 i2 i3 rfl rfl rfl i4 _ _ _ _ _
  have hB0 : B - 1 < B := hV.sB
  refine ⟨k, y, ⟨k4, fun _ _ _ _ => rfl⟩, k6, isMat_congr k7 fun i hi j hj => by rw [hsrc i hi j hj _ hB0], ?_, ?_, ?_, ?_, ?_, ?_⟩
  · rw [k3]
    exact sum_congr rfl fun i hi => sum_congr rfl fun j hj => by rw [hsrc i (mem_range.1 hi) j (mem_range.1 hj) _ hB0]
  · rw [k5]; exact k1
  · rw [k5]; exact k2
  · rw [k5]; exact hRm
  · intro c hcB hc0 i hi i' hi'
    rw [k5, ← hsrc i hi i' hi' c hcB]
    simp [setSlice, hc0]
  · intro i hi j hj
    rw [k5]; simp [setSlice]

end left

end

end PyTeN.Steady
