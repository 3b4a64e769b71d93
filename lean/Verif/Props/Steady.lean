import Verif.Env.SteadyTotal
import Verif.Props.RegaugeImps

/-! # Property C92: steady-state Hamiltonians of infinite systems -/

namespace PyTeN.Steady
open Finset Transfer Regauge
noncomputable section

/-- Spec: the on-site term of the last site of the cell, a matrix of the states to the right of it. -/
def termL (b : Ten ℂ) (W : Mpo ℂ) (j j' : ℕ) : ℂ :=
  ∑ x ∈ range b.d, ∑ y ∈ range b.d, ∑ i ∈ range b.l, b.v i j x * W.v (W.l - 1) 0 x y * star (b.v i j' y)

/-- Spec: the on-site term of the first site of the cell, a matrix of the states to the left of it. -/
def termR (a : Ten ℂ) (V : Mpo ℂ) (i i' : ℕ) : ℂ :=
  ∑ x ∈ range a.d, ∑ y ∈ range a.d, ∑ j ∈ range a.r, a.v i j x * V.v (V.l - 1) 0 x y * star (a.v i' j y)

/-- Spec: energy of all terms within `n` cells at the left end, with the density matrix `r` to the right of them. -/
def energyL (D B : ℕ) (ts : List (Ten ℂ)) (Ws : List (Mpo ℂ)) (r : ℕ → ℕ → ℂ) (n : ℕ) : ℂ :=
  ∑ j ∈ range D, ∑ j' ∈ range D, contrL (openEnv D (B - 1) B) (cells n ts) (cells n Ws) (cells n ts) j j' 0 * r j j'

/-- Spec: energy of all terms within `n` cells at the right end, with the density matrix `l` to the left of them. -/
def energyR (D B : ℕ) (ts : List (Ten ℂ)) (Ws : List (Mpo ℂ)) (l : ℕ → ℕ → ℂ) (n : ℕ) : ℂ :=
  ∑ i ∈ range D, ∑ i' ∈ range D, contrR (openEnv D 0 B) (cells n ts) (cells n Ws) (cells n ts) i i' (B - 1) * l i i'

/-- Spec: the complete terms within `n` cells at the left end. -/
def blockL (D B : ℕ) (ts : List (Ten ℂ)) (Ws : List (Mpo ℂ)) (n j j' : ℕ) : ℂ :=
  contrL (openEnv D (B - 1) B) (cells n ts) (cells n Ws) (cells n ts) j j' 0

/-- Spec: the complete terms within `n` cells at the right end. -/
def blockR (D B : ℕ) (ts : List (Ten ℂ)) (Ws : List (Mpo ℂ)) (n i i' : ℕ) : ℂ :=
  contrR (openEnv D 0 B) (cells n ts) (cells n Ws) (cells n ts) i i' (B - 1)

/-- Spec: the left environment `L` with the number `e` and the density matrix `r`.  It has the identity for terms that have not begun;
absorbing the cell adds `E`, the energy of a cell and once more that of the last on-site term, and subtracts this term.  The matrix `S`
contains the terms that end in a cell, and once more those of the last site of the cell before; `E` is its overlap with `r`, and `e` that
with the transposed matrix. -/
def SteadyL (D B : ℕ) (us : List (Ten ℂ)) (b : Ten ℂ) (Vs : List (Mpo ℂ)) (W : Mpo ℂ) (r : ℕ → ℕ → ℂ) (L : Env ℂ) (e : ℂ) : Prop :=
  L.u = D ∧ L.w = D ∧ L.m = B ∧ (∀ i < D, ∀ j < D, L.v i j (B - 1) = delta ℂ i j) ∧
  ∃ L' S, contractMPO (us ++ [b]) (us ++ [b]) (Vs ++ [W]) L 0 us.length true = .ok L' ∧ L'.u = D ∧ L'.w = D ∧ L'.m = B ∧
    (∀ n ≥ 1, ∀ j < D, ∀ j' < D, S j j' = blockL D B (us ++ [b]) (Vs ++ [W]) (n + 1) j j' -
      act .right (us ++ [b]) D (blockL D B (us ++ [b]) (Vs ++ [W]) n) j j' + act .right (us ++ [b]) D (termL b W) j j') ∧
    (∀ n ≥ 1, pairing D S r = energyL D B (us ++ [b]) (Vs ++ [W]) r (n + 1) - energyL D B (us ++ [b]) (Vs ++ [W]) r n + pairing D (termL b W) r) ∧
    (∀ j < D, ∀ j' < D, ∀ c < B, L'.v j j' c = L.v j j' c +
      if c = 0 then pairing D S r * delta ℂ j j' - act .right (us ++ [b]) D (termL b W) j j' else 0) ∧
    ∑ i ∈ range D, ∑ j ∈ range D, L.v i j 0 * r i j = pairing D S r - e ∧
    e = ∑ i ∈ range D, ∑ j ∈ range D, S i j * r j i

/-- Spec: the right environment `R` with the number `e` and the density matrix `l`, mirror image of `SteadyL`. -/
def SteadyR (D B : ℕ) (a : Ten ℂ) (us : List (Ten ℂ)) (V : Mpo ℂ) (Vs : List (Mpo ℂ)) (l : ℕ → ℕ → ℂ) (R : Env ℂ) (e : ℂ) : Prop :=
  R.u = D ∧ R.w = D ∧ R.m = B ∧ (∀ i < D, ∀ j < D, R.v i j 0 = delta ℂ i j) ∧
  ∃ R' S, contractMPO (a :: us) (a :: us) (V :: Vs) R 0 us.length false = .ok R' ∧ R'.u = D ∧ R'.w = D ∧ R'.m = B ∧
    (∀ n ≥ 1, ∀ i < D, ∀ i' < D, S i i' = blockR D B (a :: us) (V :: Vs) (n + 1) i i' -
      act .left (a :: us) D (blockR D B (a :: us) (V :: Vs) n) i i' + act .left (a :: us) D (termR a V) i i') ∧
    (∀ n ≥ 1, pairing D S l = energyR D B (a :: us) (V :: Vs) l (n + 1) - energyR D B (a :: us) (V :: Vs) l n + pairing D (termR a V) l) ∧
    (∀ i < D, ∀ i' < D, ∀ c < B, R'.v i i' c = R.v i i' c +
      if c = B - 1 then pairing D S l * delta ℂ i i' - act .left (a :: us) D (termR a V) i i' else 0) ∧
    ∑ i ∈ range D, ∑ j ∈ range D, R.v i j (B - 1) * l i j = pairing D S l - e ∧
    e = ∑ i ∈ range D, ∑ j ∈ range D, S i j * l j i

/-- Spec: the nearest-neighbour form of the matrix product operators: `0` is the state in which all terms are complete, `B-1` the one in
which none has begun. -/
abbrev NN (B : ℕ) (ts : List (Ten ℂ)) (Ws : List (Mpo ℂ)) : Prop := NNCell 0 (B - 1) B ts Ws

theorem onsite_eq {f s B D : ℕ} {b : Ten ℂ} {W : Mpo ℂ} (hW : NNSite f s B W) (hr : b.r = D) {j j' : ℕ} (hj : j < D) (hj' : j' < D) :
    onsite D f s B b W j j' = ∑ x ∈ range b.d, ∑ y ∈ range b.d, ∑ i ∈ range b.l, b.v i j x * W.v s f x y * star (b.v i j' y) := by
  change contrL (openEnv b.l s B) [b] [W] [b] j j' f = _
  rw [contrL_parts rfl rfl rfl, sum_eq_single s]
  · unfold part
    simp only [List.map_cons, List.map_nil, sumCfg]
    refine sum_congr rfl fun x _ => sum_congr rfl fun y _ => sum_congr rfl fun i hi => ?_
    have hc : ∀ (i j x : ℕ), j < D → chain [b] [x] i j = b.v i j x := fun i j x hj => by
      simp only [chain]
      rw [sum_eq_single j]
      · simp
      · intro k _ hk; simp [delta, hk]
      · intro h; exact absurd (mem_range.2 (by rw [hr]; exact hj)) h
    have hm : mchain [W] [x] [y] s f = W.v s f x y := by
      simp only [mchain]
      rw [sum_eq_single f]
      · simp
      · intro k _ hk; simp [delta, hk]
      · intro h; exact absurd (mem_range.2 (by rw [hW.r]; exact hW.fB)) h
    rw [sum_eq_single i]
    · rw [hc _ _ _ hj, hc _ _ _ hj', hm]; simp [openEnv]
    · intro k _ hk; simp [openEnv, delta, hk.symm]
    · intro h; exact absurd hi h
  · intro c _ hc
    unfold part
    simp [openEnv, delta, hc, sumCfg_zero]
  · intro h; exact absurd (mem_range.2 hW.sB) h

section
variable {B D : ℕ} {us : List (Ten ℂ)} {Vs : List (Mpo ℂ)} {b a : Ten ℂ} {W V : Mpo ℂ} {solve : Lgmres} {bd : Vec ℂ} {ldens rdens : List (Mat ℂ)}
  {r l : ℕ → ℕ → ℂ} {M P : Mat ℂ} {e : ℂ}

/-- **C92 (left environment).**  For a nearest-neighbour Hamiltonian and a cell of left-orthonormal tensors with fixed point `r` the
block and the number returned are those of `SteadyL`. -/
theorem C92_left (hS : LgmresSpec solve) (h : NN B us Vs) (hb : NN B [b] [W]) (hl : Linked D (us ++ [b]) D) (ho : ∀ t ∈ us ++ [b], LeftOrth t)
    (hM : ldens.getLast? = some M) (hM1 : IsM M D (delta ℂ)) (hP : rdens.getLast? = some P) (hP1 : IsM P D r)
    (hr : ∀ i < D, ∀ j < D, act .left (us ++ [b]) D r i j = r i j) (htr : ∑ i ∈ range D, r i i = 1) {L : Env ℂ}
    (hrun : steadyState solve .right (us ++ [b]) (Vs ++ [W]) bd ldens rdens = .ok (L, e)) :
    SteadyL D B us b Vs W r L e := by
  have hc := h.append hb
  have hlen := h.length_eq
  have hbr : b.r = D := by obtain ⟨q, h1, h2⟩ := linked_append.1 hl; exact h2.2
  obtain ⟨hW, hd⟩ : NNSite 0 (B - 1) B W ∧ b.d = W.din := by cases hb with | cons h _ => exact h
  obtain ⟨k, y, k1, k2, k3, k4, L1, L2, L3, L4, L5⟩ := steady_right hS h hb hl hP hP1.2.1 hrun
  have hterm : ∀ j < D, ∀ j' < D, onsite D 0 (B - 1) B b W j j' = termL b W j j' := fun j hj j' hj' => by
    rw [onsite_eq hW hbr hj hj', termL, hW.l]
  obtain ⟨z, z1, z2⟩ := C55_oneMinus .right (ts := us ++ [b]) (by simp) hl (own := M.v) (other := P.v)
    ⟨⟨M, hM, hM1.1, hM1.2.1, rfl⟩, ⟨P, hP, hP1.1, hP1.2.1, rfl⟩⟩ (by rintro rfl; simp at hM) (by rintro rfl; simp at hP) k1
  rw [k2] at z1; cases z1
  have hk : ∀ i < D, ∀ j < D, k.v (i * D + j) - act .right (us ++ [b]) D (fun i j => k.v (i * D + j)) i j +
      pairing D (fun i j => k.v (i * D + j)) r * delta ℂ i j = (source D (B - 1) B us b Vs W).v i j 0 - e * delta ℂ i j := by
    intro i hi j hj
    have h1 := z2.2 i hi j hj
    have h2 := k3.2 i hi j hj
    dsimp only at h1 h2
    rw [hM1.2.2 i hi j hj] at h1
    rw [← pair_congr_right hP1.2.2, ← h1, h2]
  have hone : pairing D (delta ℂ) r = 1 := by
    rw [← htr]
    refine sum_congr rfl fun i hi => ?_
    rw [sum_eq_single i, delta_self, one_mul]
    · intro j _ hj; simp [delta, hj.symm]
    · intro h; exact absurd hi h
  obtain ⟨f1, f2⟩ := core_fixed h hb hl ho hW.fB hW.sB (k := fun i j => k.v (i * D + j)) hr hone hk L1 L2 L3 L4 L5
  have hLs : ∀ i < D, ∀ j < D, L.v i j (B - 1) = delta ℂ i j := by
    intro i hi j hj
    rw [L4 _ hW.sB hW.ne.symm i hi j hj]
    exact core_start hc hl ho rfl rfl rfl hW.sB (last_start hb hbr (ho b (by simp)) hW.sB) i hi j hj
  obtain ⟨L', l1, l2, l3, l4⟩ := layersR_ok hc (us.length + 1) 0 L L1 L2 L3 (r := D) (by
    rw [List.drop_zero, List.take_of_length_le (by simp)]; exact hl) (by simp)
  have hcon : contractMPO (us ++ [b]) (us ++ [b]) (Vs ++ [W]) L 0 us.length true = .ok L' := by
    unfold contractMPO
    rw [if_neg (by omega), if_pos rfl]; exact l1
  have hisL := contractMPO_right hcon
  rw [List.drop_zero, List.drop_zero, List.take_of_length_le (by simp), List.take_of_length_le (by simp [hlen])] at hisL
  refine ⟨L1, L2, L3, hLs, L', fun j j' => (source D (B - 1) B us b Vs W).v j j' 0, hcon, l2, l3, l4, fun n hn j hj j' hj' => ?_, fun n hn => ?_,
    fun j hj j' hj' c hcB => ?_, ?_, ?_⟩
  · have := cells_step h hb hl ho hW.fB hW.sB hn hj hj'
    rw [act_congr .right _ hterm] at this
    unfold blockL
    linear_combination -this
  · rw [cells_energy h hb hl ho hW.fB hW.sB hr hn, pair_congr hterm]; rfl
  · rw [hisL.v j (by rw [l2]; exact hj) j' (by rw [l3]; exact hj') c (by rw [l4]; exact hcB), f2 j hj j' hj' c hcB, act_congr .right _ hterm]
  · rw [← f1]
    exact sum_congr rfl fun i hi => sum_congr rfl fun j hj => by rw [L5 i (mem_range.1 hi) j (mem_range.1 hj)]
  · rw [k4]
    refine sum_congr rfl fun i hi => sum_congr rfl fun j hj => ?_
    rw [hP1.2.2 j (mem_range.1 hj) i (mem_range.1 hi)]

/-- **C92 (right environment).**  For a nearest-neighbour Hamiltonian and a cell of right-orthonormal tensors with fixed point `l` the
block and the number returned are those of `SteadyR`. -/
theorem C92_right (hS : LgmresSpec solve) (h : NN B us Vs) (ha : NN B [a] [V]) (hl : Linked D (a :: us) D) (ho : ∀ t ∈ a :: us, RightOrth t)
    (hM : rdens.head? = some M) (hM1 : IsM M D (delta ℂ)) (hP : ldens.head? = some P) (hP1 : IsM P D l)
    (hr : ∀ i < D, ∀ j < D, act .right (a :: us) D l i j = l i j) (htr : ∑ i ∈ range D, l i i = 1) {R : Env ℂ}
    (hrun : steadyState solve .left (a :: us) (V :: Vs) bd ldens rdens = .ok (R, e)) :
    SteadyR D B a us V Vs l R e := by
  have hc : NN B (a :: us) (V :: Vs) := ha.append h
  have hlen := h.length_eq
  have hal : a.l = D := hl.1
  have eT : rTs (a :: us) = rTs us ++ [rT a] := by simp [rTs]
  have eW : rWs (V :: Vs) = rWs Vs ++ [rW V] := by simp [rWs]
  have h' : NNCell (B - 1) 0 B (rTs us) (rWs Vs) := rW_cell h
  have ha' : NNCell (B - 1) 0 B [rT a] [rW V] := rW_cell ha
  have hl' : Linked D (rTs us ++ [rT a]) D := by rw [← eT]; exact rT_linked hl
  have ho' : ∀ t ∈ rTs us ++ [rT a], LeftOrth t := by rw [← eT]; exact rT_orths ho
  have hne : a :: us ≠ [] := by simp
  obtain ⟨hV, hd⟩ : NNSite 0 (B - 1) B V ∧ a.d = V.din := by cases ha with | cons h _ => exact h
  have hr' : ∀ i < D, ∀ j < D, act .left (rTs us ++ [rT a]) D l i j = l i j := fun i hi j hj => by
    rw [← eT, act_mirror' hne hl l hi hj, hr i hi j hj]
  obtain ⟨k, y, k1, k2, k3, k4, L1, L2, L3, L4, L5⟩ := steady_left hS h ha hl hP hP1.2.1 hrun
  have hterm : ∀ j < D, ∀ j' < D, onsite D (B - 1) 0 B (rT a) (rW V) j j' = termR a V j j' := fun j hj j' hj' => by
    rw [onsite_eq (rW_site hV) (show (rT a).r = D from hal) hj hj', termR, hV.l]; rfl
  obtain ⟨z, z1, z2⟩ := C55_oneMinus .left (ts := a :: us) hne hl (own := M.v) (other := P.v)
    ⟨⟨M, hM, hM1.1, hM1.2.1, rfl⟩, ⟨P, hP, hP1.1, hP1.2.1, rfl⟩⟩ (by rintro rfl; simp at hP) (by rintro rfl; simp at hM) k1
  rw [k2] at z1; cases z1
  have hk : ∀ i < D, ∀ j < D, k.v (i * D + j) - act .right (rTs us ++ [rT a]) D (fun i j => k.v (i * D + j)) i j +
      pairing D (fun i j => k.v (i * D + j)) l * delta ℂ i j = (source D 0 B (rTs us) (rT a) (rWs Vs) (rW V)).v i j (B - 1) - e * delta ℂ i j := by
    intro i hi j hj
    have h1 := z2.2 i hi j hj
    have h2 := k3.2 i hi j hj
    dsimp only at h1 h2
    rw [hM1.2.2 i hi j hj] at h1
    rw [← eT, ← act_mirror hne hl _ hi hj, ← pair_congr_right hP1.2.2, ← h1, h2]
  have hone : pairing D (delta ℂ) l = 1 := by
    rw [← htr]
    refine sum_congr rfl fun i hi => ?_
    rw [sum_eq_single i, delta_self, one_mul]
    · intro j _ hj; simp [delta, hj.symm]
    · intro h; exact absurd hi h
  obtain ⟨f1, f2⟩ := core_fixed h' ha' hl' ho' hV.sB hV.fB (k := fun i j => k.v (i * D + j)) hr' hone hk L1 L2 L3 L4 L5
  have hLs : ∀ i < D, ∀ j < D, R.v i j 0 = delta ℂ i j := by
    intro i hi j hj
    rw [L4 _ hV.fB hV.ne i hi j hj]
    exact core_start (h'.append ha') hl' ho' rfl rfl rfl hV.fB (last_start ha' hal (ho' (rT a) (by simp)) hV.fB) i hi j hj
  obtain ⟨R', l1, l2, l3, l4⟩ := layersL_ok hc (us.length + 1) R L1 L2 L3 (l := D) (by
    rw [List.take_of_length_le (by simp)]; exact hl) (by simp)
  have hcon : contractMPO (a :: us) (a :: us) (V :: Vs) R 0 us.length false = .ok R' := by
    unfold contractMPO
    rw [if_neg (by omega), if_neg (by simp)]; exact l1
  have hisR := contractMPO_left hcon
  rw [List.drop_zero, List.drop_zero, List.take_of_length_le (by simp), List.take_of_length_le (by simp [hlen])] at hisR
  have hen : ∀ n, energyR D B (a :: us) (V :: Vs) l n = cellEnergy D (B - 1) 0 B (rTs us ++ [rT a]) (rWs Vs ++ [rW V]) l n := fun n => by
    unfold energyR cellEnergy pairing
    rw [← eT, ← eW, ← rTs_cells, ← rWs_cells]
    refine sum_congr rfl fun i hi => sum_congr rfl fun i' hi' => ?_
    rw [contrR_mirror (cells_nn hc n) (cells_linked hl n) rfl rfl rfl (mem_range.1 hi) (mem_range.1 hi') hV.sB]
  have hblk : ∀ n, ∀ i < D, ∀ i' < D, blockR D B (a :: us) (V :: Vs) n i i' =
      contrL (openEnv D 0 B) (cells n (rTs us ++ [rT a])) (cells n (rWs Vs ++ [rW V])) (cells n (rTs us ++ [rT a])) i i' (B - 1) := fun n i hi i' hi' => by
    unfold blockR
    rw [← eT, ← eW, ← rTs_cells, ← rWs_cells, contrR_mirror (cells_nn hc n) (cells_linked hl n) rfl rfl rfl hi hi' hV.sB]
  refine ⟨L1, L2, L3, hLs, R', fun j j' => (source D 0 B (rTs us) (rT a) (rWs Vs) (rW V)).v j j' (B - 1), hcon, l2, l3, l4, fun n hn j hj j' hj' => ?_, fun n hn => ?_,
    fun j hj j' hj' c hcB => ?_, ?_, ?_⟩
  · have := cells_step h' ha' hl' ho' hV.sB hV.fB hn hj hj'
    rw [act_congr .right _ hterm, ← hblk (n + 1) j hj j' hj', act_congr .right _ fun i hi i' hi' => (hblk n i hi i' hi').symm, ← eT,
      ← act_mirror hne hl _ hj hj', ← act_mirror hne hl _ hj hj'] at this
    linear_combination -this
  · rw [cells_energy h' ha' hl' ho' hV.sB hV.fB hr' hn, pair_congr hterm, hen, hen]
  · rw [hisR.v j (by rw [l2]; exact hj) j' (by rw [l3]; exact hj') c (by rw [l4]; exact hcB), contrR_mirror hc hl L1 L2 L3 hj hj' hcB, eT, eW,
      f2 j hj j' hj' c hcB, act_congr .right _ hterm, ← eT, act_mirror hne hl _ hj hj']
  · rw [← f1]
    exact sum_congr rfl fun i hi => sum_congr rfl fun j hj => by rw [L5 i (mem_range.1 hi) j (mem_range.1 hj)]
  · rw [k4]
    refine sum_congr rfl fun i hi => sum_congr rfl fun j hj => ?_
    rw [hP1.2.2 j (mem_range.1 hj) i (mem_range.1 hi)]

/-- The linear system has a solution if the other fixed point is unique. -/
theorem system_solvable {dir : Dir} {ts : List (Ten ℂ)} (hne : ts ≠ []) (hl : Linked D ts D) {own other : ℕ → ℕ → ℂ}
    (hD : Dens dir D ldens rdens M.v P.v) (hl0 : ldens ≠ []) (hr0 : rdens ≠ []) (hM1 : IsM M D own) (hP1 : IsM P D other)
    (hown : ∀ i < D, ∀ j < D, act dir ts D own i j = own i j) (hone : pairing D own other = 1)
    (huniq : ∀ g : ℕ → ℕ → ℂ, (∀ i < D, ∀ j < D, act (opp dir) ts D g i j = g i j) → ∃ c, ∀ i < D, ∀ j < D, g i j = c * other i j) (y : ℕ → ℕ → ℂ) :
    ∃ k z : Vec ℂ, k.n = D * D ∧ oneMinusPseudoUnitcell dir ts ldens rdens k = .ok z ∧ IsMat z D y := by
  obtain ⟨k, hk⟩ := solvable hown hone huniq y
  obtain ⟨v, -, v2⟩ := flat_isMat (f := k) (r := D) rfl
  obtain ⟨z, z1, z2⟩ := C55_oneMinus dir hne hl hD hl0 hr0 v2
  refine ⟨v, z, v2.1, z1, isMat_congr z2 fun i hi j hj => ?_⟩
  rw [pair_congr_right hP1.2.2, hM1.2.2 i hi j hj, hk i hi j hj]

theorem pair_delta (htr : ∑ i ∈ range D, r i i = 1) : pairing D (delta ℂ) r = 1 := by
  rw [← htr]
  refine sum_congr rfl fun i hi => ?_
  rw [sum_eq_single i, delta_self, one_mul]
  · intro j _ hj; simp [delta, hj.symm]
  · intro h; exact absurd hi h

/-- **C92 (the left environment is computed).**  If the fixed points of the transfer operator to the left are the multiples of `r`, the
function returns a block. -/
theorem C92_total_left (hS : LgmresSpec solve) (hC : LgmresConverges solve) (h : NN B us Vs) (hb : NN B [b] [W]) (hl : Linked D (us ++ [b]) D)
    (ho : ∀ t ∈ us ++ [b], LeftOrth t) (hM : ldens.getLast? = some M) (hM1 : IsM M D (delta ℂ)) (hP : rdens.getLast? = some P) (hP1 : IsM P D r)
    (htr : ∑ i ∈ range D, r i i = 1)
    (huniq : ∀ g : ℕ → ℕ → ℂ, (∀ i < D, ∀ j < D, act .left (us ++ [b]) D g i j = g i j) → ∃ c, ∀ i < D, ∀ j < D, g i j = c * r i j)
    (hbd : bd.n = D * D) : ∃ L e, steadyState solve .right (us ++ [b]) (Vs ++ [W]) bd ldens rdens = .ok (L, e) := by
  have hc := h.append hb
  have hlen := h.length_eq
  have hbr : b.r = D := by obtain ⟨q, h1, h2⟩ := linked_append.1 hl; exact h2.2
  obtain ⟨a, b', ha, hb', hal, -⟩ := linked_ends (by simp) hl
  have hbb : (us ++ [b]).getLast? = some b := by simp
  have hWW : (Vs ++ [W])[(us ++ [b]).length - 1]? = some W := by simp [hlen]
  obtain ⟨hW, hd⟩ : NNSite 0 (B - 1) B W ∧ b.d = W.din := by cases hb with | cons h _ => exact h
  obtain ⟨l0, hl0⟩ : ∃ m, ldens.head? = some m := Option.isSome_iff_exists.1 (by
    cases ldens with
    | nil => simp at hM
    | cons _ _ => rfl)
  obtain ⟨V0, hV0⟩ : ∃ m, (Vs ++ [W]).head? = some m := Option.isSome_iff_exists.1 (by simp)
  have hB0 := hW.fB
  have hw : lastRowMpo W = .ok ⟨1, W.r, W.din, W.dout, fun _ b s s' => W.v (W.l - 1) b s s'⟩ := by
    unfold lastRowMpo; rw [if_neg (by rw [hW.l]; omega)]
  obtain ⟨L0, hL0⟩ : ∃ L0, initializeLayerR b (eye b.l) b ⟨1, W.r, W.din, W.dout, fun _ b s s' => W.v (W.l - 1) b s s'⟩ = .ok L0 := by
    unfold initializeLayerR
    rw [if_pos ⟨rfl, rfl, hd, hd.trans hW.dd.symm, rfl⟩]; exact ⟨_, rfl⟩
  obtain ⟨i1, i2, i3, -⟩ := init_last hb hbr hw hL0
  obtain ⟨L1, l1, l2, l3, l4⟩ := layersR_ok hc (us ++ [b]).length 0 L0 i1 i2 i3 (r := D) (by
    rw [List.drop_zero, List.take_of_length_le le_rfl]; exact hl) (by simp)
  obtain ⟨L, e, he⟩ := steadyEnd_total hC hS (dir := .right) (by simp) (c := 0) (E := L1) hl l2 l3 hP1.1 hbd
    (system_solvable (dir := .right) (by simp) hl ⟨⟨M, hM, hM1.1, hM1.2.1, rfl⟩, ⟨P, hP, hP1.1, hP1.2.1, rfl⟩⟩ (by rintro rfl; simp at hM) (by rintro rfl; simp at hP) hM1 hP1 (act_orth hl ho) (pair_delta htr) huniq)
  refine ⟨L, e, ?_⟩
  unfold steadyState
  rw [ha, hbb, hl0, hP, hWW, hV0]
  simp only [hw, hL0, l1]
  rw [if_neg (by rw [l4]; omega), hbr, hal]
  exact he

/-- **C92 (the right environment is computed).**  If the fixed points of the transfer operator to the right are the multiples of `l` and
the first and last site of the cell have the same number of states, the function returns a block. -/
theorem C92_total_right (hS : LgmresSpec solve) (hC : LgmresConverges solve) (h : NN B us Vs) (ha : NN B [a] [V]) (hl : Linked D (a :: us) D)
    (ho : ∀ t ∈ a :: us, RightOrth t) (hd0 : ∀ t, (a :: us).getLast? = some t → t.d = a.d)
    (hM : rdens.head? = some M) (hM1 : IsM M D (delta ℂ)) (hP : ldens.head? = some P) (hP1 : IsM P D l) (htr : ∑ i ∈ range D, l i i = 1)
    (huniq : ∀ g : ℕ → ℕ → ℂ, (∀ i < D, ∀ j < D, act .right (a :: us) D g i j = g i j) → ∃ c, ∀ i < D, ∀ j < D, g i j = c * l i j)
    (hbd : bd.n = D * D) : ∃ R e, steadyState solve .left (a :: us) (V :: Vs) bd ldens rdens = .ok (R, e) := by
  have hc : NN B (a :: us) (V :: Vs) := ha.append h
  have hlen := h.length_eq
  have hal : a.l = D := hl.1
  have hne : a :: us ≠ [] := by simp
  obtain ⟨a', b, -, hb', -, hbr⟩ := linked_ends hne hl
  obtain ⟨hV, hd⟩ : NNSite 0 (B - 1) B V ∧ a.d = V.din := by cases ha with | cons h _ => exact h
  obtain ⟨t, W, t1, t2, t3, t4⟩ := nn_get hc (n := (a :: us).length - 1) (by simp)
  obtain rfl : t = b := by
    rw [List.getLast?_eq_getElem?] at hb'
    exact Option.some.inj (t1.symm.trans hb')
  obtain ⟨r1, hr1⟩ : ∃ m, rdens.getLast? = some m := Option.isSome_iff_exists.1 (by
    cases rdens with
    | nil => simp at hM
    | cons _ _ => simp)
  have hB0 := hV.fB
  have hw : firstColMpo W V = .ok ⟨W.l, 1, W.din, W.dout, fun b _ s s' => V.v b 0 s s'⟩ := by
    unfold firstColMpo
    rw [if_neg (by rw [hV.r]; omega), if_pos ⟨by rw [hV.l, t3.l], by rw [← hd, ← t4, hd0 t hb'], by rw [hV.dd, t3.dd, ← hd, ← t4, hd0 t hb']⟩]
  obtain ⟨R0, hR0⟩ : ∃ R0, initializeLayerL a (eye a.r) a ⟨W.l, 1, W.din, W.dout, fun b _ s s' => V.v b 0 s s'⟩ = .ok R0 := by
    unfold initializeLayerL
    rw [if_pos ⟨rfl, rfl, (hd0 t hb').symm.trans t4, ((hd0 t hb').symm.trans t4).trans t3.dd.symm, rfl⟩]; exact ⟨_, rfl⟩
  obtain ⟨i1, i2, i3, -⟩ := init_first ha hal hw hR0
  obtain ⟨R1, l1, l2, l3, l4⟩ := layersL_ok hc (a :: us).length R0 (r := D) (l := D) i1 i2 i3 (by
    rw [List.take_of_length_le le_rfl]; exact hl) le_rfl
  · obtain ⟨R, e, he⟩ := steadyEnd_total hC hS (dir := .left) hne (c := R1.m - 1) (E := R1) hl l2 l3 hP1.1 hbd
      (system_solvable (dir := .left) hne hl ⟨⟨M, hM, hM1.1, hM1.2.1, rfl⟩, ⟨P, hP, hP1.1, hP1.2.1, rfl⟩⟩ (by rintro rfl; simp at hP) (by rintro rfl; simp at hM) hM1 hP1 (fun i hi j hj => by
        rw [act_mirror hne hl _ hi hj]; exact act_orth (rT_linked hl) (rT_orths ho) i hi j hj) (pair_delta htr) huniq)
    refine ⟨R, e, ?_⟩
    unfold steadyState
    rw [hb', hP, hr1, t2, List.head?_cons, List.head?_cons]
    simp only [hw, hR0, l1]
    rw [if_neg (by rw [l4]; omega), hbr, hal]
    exact he

/-- **C92 (energy and fixed point, left).**  If the density matrix is symmetric and the last site has no on-site term, the number returned
is the energy of a cell, absorbing the cell adds this energy, and the complete terms have no overlap with the density matrix. -/
theorem C92_fixed_point_left_partial {L : Env ℂ} (h : SteadyL D B us b Vs W r L e) (hsym : ∀ i < D, ∀ j < D, r i j = r j i)
    (h0 : ∀ j < D, ∀ j' < D, termL b W j j' = 0) :
    (∀ n ≥ 1, e = energyL D B (us ++ [b]) (Vs ++ [W]) r (n + 1) - energyL D B (us ++ [b]) (Vs ++ [W]) r n) ∧
    (∑ i ∈ range D, ∑ j ∈ range D, L.v i j 0 * r i j = 0) ∧
    ∃ L', contractMPO (us ++ [b]) (us ++ [b]) (Vs ++ [W]) L 0 us.length true = .ok L' ∧
      ∀ j < D, ∀ j' < D, ∀ c < B, L'.v j j' c = L.v j j' c + if c = 0 then e * delta ℂ j j' else 0 := by
  obtain ⟨-, -, -, -, L', S, c1, -, -, -, -, c2, c3, c4, c5⟩ := h
  have he : e = pairing D S r := by
    rw [c5]
    exact sum_congr rfl fun i hi => sum_congr rfl fun j hj => by rw [hsym i (mem_range.1 hi) j (mem_range.1 hj)]
  have hz : pairing D (termL b W) r = 0 := sum_eq_zero fun i hi => sum_eq_zero fun j hj => by
    rw [h0 i (mem_range.1 hi) j (mem_range.1 hj), zero_mul]
  have ha : ∀ j j', act .right (us ++ [b]) D (termL b W) j j' = 0 := fun j j' => by
    rw [act_congr .right _ (g := fun _ _ => 0) h0]; simp [act]
  refine ⟨fun n hn => by rw [he, c2 n hn, hz, add_zero], by rw [c4, ← he, sub_self], L', c1, fun j hj j' hj' c hc => ?_⟩
  rw [c3 j hj j' hj' c hc, ← he, ha, sub_zero]

/-- **C92 (energy and fixed point, right).** -/
theorem C92_fixed_point_right_partial {R : Env ℂ} (h : SteadyR D B a us V Vs l R e) (hsym : ∀ i < D, ∀ j < D, l i j = l j i)
    (h0 : ∀ i < D, ∀ i' < D, termR a V i i' = 0) :
    (∀ n ≥ 1, e = energyR D B (a :: us) (V :: Vs) l (n + 1) - energyR D B (a :: us) (V :: Vs) l n) ∧
    (∑ i ∈ range D, ∑ j ∈ range D, R.v i j (B - 1) * l i j = 0) ∧
    ∃ R', contractMPO (a :: us) (a :: us) (V :: Vs) R 0 us.length false = .ok R' ∧
      ∀ i < D, ∀ i' < D, ∀ c < B, R'.v i i' c = R.v i i' c + if c = B - 1 then e * delta ℂ i i' else 0 := by
  obtain ⟨-, -, -, -, R', S, c1, -, -, -, -, c2, c3, c4, c5⟩ := h
  have he : e = pairing D S l := by
    rw [c5]
    exact sum_congr rfl fun i hi => sum_congr rfl fun j hj => by rw [hsym i (mem_range.1 hi) j (mem_range.1 hj)]
  have hz : pairing D (termR a V) l = 0 := sum_eq_zero fun i hi => sum_eq_zero fun j hj => by
    rw [h0 i (mem_range.1 hi) j (mem_range.1 hj), zero_mul]
  have ha : ∀ j j', act .left (a :: us) D (termR a V) j j' = 0 := fun j j' => by
    rw [act_congr .left _ (g := fun _ _ => 0) h0]; simp [act]
  refine ⟨fun n hn => by rw [he, c2 n hn, hz, add_zero], by rw [c4, ← he, sub_self], R', c1, fun j hj j' hj' c hc => ?_⟩
  rw [c3 j hj j' hj' c hc, ← he, ha, sub_zero]

/-! ### The density matrices and the eigensolver -/

/-- **C92 (`computeDensity`, direction>0).**  The list has one matrix more than sites; the `n`-th one is the given matrix carried over the
first `n` sites. -/
theorem C92_density_right {ts : List (Ten ℂ)} (hne : ts ≠ []) {n₁ n₂ : ℕ} (hl : Linked n₁ ts n₂) {x : Mat ℂ} {g : ℕ → ℕ → ℂ} (hx : IsM x n₁ g) :
    ∃ ds, computeDensity .right x ts = .ok ds ∧ ds.length = ts.length + 1 ∧ ∀ n ≤ ts.length, ∃ m M, ds[n]? = some M ∧
      Linked n₁ (ts.take n) m ∧ IsM M m fun j j' => ∑ i ∈ range n₁, ∑ i' ∈ range n₁, g i i' * kern (ts.take n) i i' j j' := density_right hne hl hx

/-- **C92 (`computeDensity`, direction<0).**  The `n`-th matrix is the given one carried over the sites from `n` on. -/
theorem C92_density_left {ts : List (Ten ℂ)} (hne : ts ≠ []) {n₁ n₂ : ℕ} (hl : Linked n₁ ts n₂) {x : Mat ℂ} {g : ℕ → ℕ → ℂ} (hx : IsM x n₂ g) :
    ∃ ds, computeDensity .left x ts = .ok ds ∧ ds.length = ts.length + 1 ∧ ∀ n ≤ ts.length, ∃ m M, ds[n]? = some M ∧
      Linked m (ts.drop n) n₂ ∧ IsM M m fun i i' => ∑ j ∈ range n₂, ∑ j' ∈ range n₂, kern (ts.drop n) i i' j j' * g j j' := density_left hne hl hx

/-- **C92 (`UnitcellTMeigs`).**  With the eigenvalues of largest real part from the eigensolver the function returns an eigenvalue of the
transfer operator of the largest real part, whatever number of eigenvalues it has asked for, and an eigenvector. -/
theorem C92_eigs {eigs : Eigs} (hE : EigsLR eigs) {dir : Dir} {ts : List (Ten ℂ)} (hne : ts ≠ []) (hl : Linked D ts D) {η : ℂ} {v : Vec ℂ}
    (h : unitcellTMeigs eigs dir ts = .ok (η, v)) : ∃ f, IsMat v D f ∧ (∃ i < D, ∃ j < D, f i j ≠ 0) ∧
      (∀ i < D, ∀ j < D, act dir ts D f i j = η * f i j) ∧
      ∀ (μ : ℂ) (g : ℕ → ℕ → ℂ), (∃ i < D, ∃ j < D, g i j ≠ 0) → (∀ i < D, ∀ j < D, act dir ts D g i j = μ * g i j) → μ.re ≤ η.re := by
  rw [tm_unfold hne hl] at h
  obtain ⟨a1, ⟨k, hk, hk0⟩, ⟨w, w1, w2⟩, a4⟩ := tmLoop_max hE h
  have hn : 0 < D := Nat.pos_of_ne_zero fun h0 => by rw [h0] at hk; simp at hk
  have hv : IsMat v D fun i j => v.v (i * D + j) := ⟨a1, fun _ _ _ _ => rfl⟩
  refine ⟨_, hv, ⟨k / D, Nat.div_lt_of_lt_mul hk, k % D, Nat.mod_lt _ hn, by rwa [Nat.div_add_mod' k D]⟩, fun i hi j hj => ?_, fun μ g hg hμ => ?_⟩
  · obtain ⟨y, y1, y2⟩ := unit_act dir hne hl hv
    rw [w1] at y1
    cases y1
    rw [← w2 _ (index_lt hi hj), y2.2 i hi j hj]
  · obtain ⟨x, -, hx⟩ := flat_isMat (f := g) (r := D) rfl
    obtain ⟨z, z1, z2⟩ := unit_act dir hne hl hx
    obtain ⟨i0, hi0, j0, hj0, hg0⟩ := hg
    refine a4 μ x hx.1 ⟨i0 * D + j0, index_lt hi0 hj0, by rwa [hx.2 _ hi0 _ hj0]⟩ ⟨z, z1, fun i hi => ?_⟩
    have e : i = i / D * D + i % D := (Nat.div_add_mod' i D).symm
    have h1 : i / D < D := Nat.div_lt_of_lt_mul hi
    have h2 : i % D < D := Nat.mod_lt _ hn
    rw [e, z2.2 _ h1 _ h2, hx.2 _ h1 _ h2, hμ _ h1 _ h2]

/-! ### The boundaries of `getBoundaryHams` -/

theorem eye_isM (D : ℕ) : IsM (eye D) D (delta ℂ) := ⟨rfl, rfl, fun _ _ _ _ => rfl⟩

/-- The two lists of density matrices for the left environment. -/
theorem dens_right {ts : List (Ten ℂ)} (hne : ts ≠ []) (hl : Linked D ts D) (ho : ∀ t ∈ ts, LeftOrth t) {x : Mat ℂ} (hx : IsM x D r) :
    ∃ de dx M P, computeDensity .right (eye D) ts = .ok de ∧ computeDensity .left x ts = .ok dx ∧
      de.getLast? = some M ∧ IsM M D (delta ℂ) ∧ dx.getLast? = some P ∧ IsM P D r := by
  obtain ⟨de, e1, e2, e3⟩ := density_right hne hl (eye_isM D)
  obtain ⟨dx, x1, x2, x3⟩ := density_left hne hl hx
  obtain ⟨m, M, m1, m2, m3⟩ := e3 _ le_rfl
  obtain ⟨q, P, p1, p2, p3⟩ := x3 _ le_rfl
  rw [List.take_of_length_le le_rfl] at m2 m3
  rw [List.drop_of_length_le le_rfl] at p2 p3
  have hm : D = m := by
    obtain ⟨_, b1, _, h1, _, h2⟩ := linked_ends hne hl
    obtain ⟨_, b2, _, h3, _, h4⟩ := linked_ends hne m2
    rw [h1] at h3; cases h3; rw [← h2, h4]
  subst hm
  have hq : q = D := p2
  subst hq
  refine ⟨de, dx, M, P, e1, x1, by rw [List.getLast?_eq_getElem?, e2]; exact m1, ⟨m3.1, m3.2.1, fun i hi j hj => ?_⟩,
    by rw [List.getLast?_eq_getElem?, x2]; exact p1, ⟨p3.1, p3.2.1, fun i hi j hj => ?_⟩⟩
  · rw [m3.2.2 i hi j hj, carried_act, act_orth hl ho i hi j hj]
  · rw [p3.2.2 i hi j hj, carried_nil .left _ hi hj]

/-- The two lists of density matrices for the right environment. -/
theorem dens_left {ts : List (Ten ℂ)} (hne : ts ≠ []) (hl : Linked D ts D) (ho : ∀ t ∈ ts, RightOrth t) {x : Mat ℂ} (hx : IsM x D l) :
    ∃ de dx M P, computeDensity .left (eye D) ts = .ok de ∧ computeDensity .right x ts = .ok dx ∧
      de.head? = some M ∧ IsM M D (delta ℂ) ∧ dx.head? = some P ∧ IsM P D l := by
  obtain ⟨de, e1, e2, e3⟩ := density_left hne hl (eye_isM D)
  obtain ⟨dx, x1, x2, x3⟩ := density_right hne hl hx
  obtain ⟨m, M, m1, m2, m3⟩ := e3 0 (Nat.zero_le _)
  obtain ⟨q, P, p1, p2, p3⟩ := x3 0 (Nat.zero_le _)
  rw [List.drop_zero] at m2 m3
  rw [List.take_zero] at p2 p3
  have hm : D = m := by
    obtain ⟨a1, _, h1, _, h2, _⟩ := linked_ends hne hl
    obtain ⟨a2, _, h3, _, h4, _⟩ := linked_ends hne m2
    rw [h1] at h3; cases h3; rw [← h2, h4]
  subst hm
  have hq : D = q := p2
  subst hq
  refine ⟨de, dx, M, P, e1, x1, by rw [List.head?_eq_getElem?]; exact m1, ⟨m3.1, m3.2.1, fun i hi j hj => ?_⟩,
    by rw [List.head?_eq_getElem?]; exact p1, ⟨p3.1, p3.2.1, fun i hi j hj => ?_⟩⟩
  · rw [m3.2.2 i hi j hj, carried_act, act_mirror hne hl _ hi hj]
    exact act_orth (rT_linked hl) (rT_orths ho) i hi j hj
  · rw [p3.2.2 i hi j hj, carried_nil .right _ hi hj]

variable {eigs : Eigs} {pinv : ℝ}

theorem normal_fix {dir : Dir} {ts : List (Ten ℂ)} (hN : Normal dir pinv D ts 1 r) : ∀ i < D, ∀ j < D, act dir ts D r i j = r i j := fun i hi j hj => by
  rw [hN.eig i hi j hj]; simp

theorem normal_uniq {dir : Dir} {ts : List (Ten ℂ)} (hN : Normal dir pinv D ts 1 r) (g : ℕ → ℕ → ℂ)
    (hg : ∀ i < D, ∀ j < D, act dir ts D g i j = g i j) : ∃ c, ∀ i < D, ∀ j < D, g i j = c * r i j := by
  by_cases h0 : ∃ i < D, ∃ j < D, g i j ≠ 0
  · exact hN.uniq 1 g h0 (fun i hi j hj => by rw [hg i hi j hj, one_mul]) (by simp)
  · push Not at h0
    exact ⟨0, fun i hi j hj => by rw [h0 i hi j hj, zero_mul]⟩

/-- **C92 (`getBoundaryHams`, left environment).**  For a normal cell of left-orthonormal tensors the density matrix is the fixed point,
and the environment and the number are those of `SteadyL` with it. -/
theorem C92_boundary_left (hE : EigsLR eigs) (hS : LgmresSpec solve) (h : NN B us Vs) (hb : NN B [b] [W]) (hl : Linked D (us ++ [b]) D)
    (ho : ∀ t ∈ us ++ [b], LeftOrth t) (hN : Normal .left pinv D (us ++ [b]) 1 r) {L : Env ℂ} {x : Mat ℂ}
    (hrun : boundary eigs solve .right (us ++ [b]) (Vs ++ [W]) = .ok (L, e, x)) : IsM x D r ∧ SteadyL D B us b Vs W r L e := by
  have hne : us ++ [b] ≠ [] := by simp
  obtain ⟨a, b', ha, hb', hal, hbr⟩ := linked_ends hne hl
  unfold boundary at hrun
  rw [ha, hb'] at hrun
  simp only [hbr] at hrun
  split at hrun
  · cases hrun
  rename_i μ v hv
  obtain ⟨-, c, f, c1, c2, c3⟩ := tm_lr hE hne hl hN hv
  obtain ⟨x', x1, x2⟩ := boundOf_spec hN.dens c2 c1 c3
  obtain ⟨de, dx, M, P, d1, d2, d3, d4, d5, d6⟩ := dens_right hne hl ho x2
  simp only [x1, d1, d2] at hrun
  split at hrun
  · cases hrun
  rename_i E h' hrun'
  cases hrun
  exact ⟨x2, C92_left hS h hb hl ho d3 d4 d5 d6 (normal_fix hN) hN.dens.tr hrun'⟩

/-- **C92 (`getBoundaryHams`, right environment).** -/
theorem C92_boundary_right (hE : EigsLR eigs) (hS : LgmresSpec solve) (h : NN B us Vs) (ha : NN B [a] [V]) (hl : Linked D (a :: us) D)
    (ho : ∀ t ∈ a :: us, RightOrth t) (hN : Normal .right pinv D (a :: us) 1 l) {R : Env ℂ} {x : Mat ℂ}
    (hrun : boundary eigs solve .left (a :: us) (V :: Vs) = .ok (R, e, x)) : IsM x D l ∧ SteadyR D B a us V Vs l R e := by
  have hne : a :: us ≠ [] := by simp
  obtain ⟨a', b', ha', hb', hal, hbr⟩ := linked_ends hne hl
  unfold boundary at hrun
  rw [ha', hb'] at hrun
  simp only [hal] at hrun
  split at hrun
  · cases hrun
  rename_i μ v hv
  obtain ⟨-, c, f, c1, c2, c3⟩ := tm_lr hE hne hl hN hv
  obtain ⟨x', x1, x2⟩ := boundOf_spec hN.dens c2 c1 c3
  obtain ⟨de, dx, M, P, d1, d2, d3, d4, d5, d6⟩ := dens_left hne hl ho x2
  simp only [x1, d1, d2] at hrun
  split at hrun
  · cases hrun
  rename_i E h' hrun'
  cases hrun
  exact ⟨x2, C92_right hS h ha hl ho d3 d4 d5 d6 (normal_fix hN) hN.dens.tr hrun'⟩

/-- **C92 (the left boundary is computed).** -/
theorem C92_boundary_left_total (hE : EigsLR eigs) (hcv : Converges eigs) (hS : LgmresSpec solve) (hC : LgmresConverges solve) (h : NN B us Vs)
    (hb : NN B [b] [W]) (hl : Linked D (us ++ [b]) D) (hD : 2 ≤ D) (ho : ∀ t ∈ us ++ [b], LeftOrth t) (hN : Normal .left pinv D (us ++ [b]) 1 r) :
    ∃ L e x, boundary eigs solve .right (us ++ [b]) (Vs ++ [W]) = .ok (L, e, x) := by
  have hne : us ++ [b] ≠ [] := by simp
  obtain ⟨a, b', ha, hb', hal, hbr⟩ := linked_ends hne hl
  obtain ⟨v, hv⟩ := tm_lr_total hE hcv hne hl hN hD
  obtain ⟨-, c, f, c1, c2, c3⟩ := tm_lr hE hne hl hN hv
  obtain ⟨x', x1, x2⟩ := boundOf_spec hN.dens c2 c1 c3
  obtain ⟨de, dx, M, P, d1, d2, d3, d4, d5, d6⟩ := dens_right hne hl ho x2
  obtain ⟨L, e, he⟩ := C92_total_left (bd := ⟨D * D, fun _ => 0⟩) hS hC h hb hl ho d3 d4 d5 d6 hN.dens.tr (normal_uniq hN) rfl
  refine ⟨L, e, x', ?_⟩
  unfold boundary
  rw [ha, hb']
  simp only [hbr, hv, x1, d1, d2, he]

/-- **C92 (the right boundary is computed).** -/
theorem C92_boundary_right_total (hE : EigsLR eigs) (hcv : Converges eigs) (hS : LgmresSpec solve) (hC : LgmresConverges solve) (h : NN B us Vs)
    (ha : NN B [a] [V]) (hl : Linked D (a :: us) D) (hD : 2 ≤ D) (ho : ∀ t ∈ a :: us, RightOrth t) (hN : Normal .right pinv D (a :: us) 1 l)
    (hd0 : ∀ t, (a :: us).getLast? = some t → t.d = a.d) : ∃ R e x, boundary eigs solve .left (a :: us) (V :: Vs) = .ok (R, e, x) := by
  have hne : a :: us ≠ [] := by simp
  obtain ⟨a', b', ha', hb', hal, hbr⟩ := linked_ends hne hl
  obtain ⟨v, hv⟩ := tm_lr_total hE hcv hne hl hN hD
  obtain ⟨-, c, f, c1, c2, c3⟩ := tm_lr hE hne hl hN hv
  obtain ⟨x', x1, x2⟩ := boundOf_spec hN.dens c2 c1 c3
  obtain ⟨de, dx, M, P, d1, d2, d3, d4, d5, d6⟩ := dens_left hne hl ho x2
  obtain ⟨L, e, he⟩ := C92_total_right (bd := ⟨D * D, fun _ => 0⟩) hS hC h ha hl ho hd0 d3 d4 d5 d6 hN.dens.tr (normal_uniq hN) rfl
  refine ⟨L, e, x', ?_⟩
  unfold boundary
  rw [ha', hb']
  simp only [hal, hv, x1, d1, d2, he]

end

/-! ### The kernels of IDMRG -/

/-- The steady-state environments as a kernel of the IDMRG model. -/
def steadyKernel (eigs : Eigs) (solve : Lgmres) (dir : Dir) (ts : List (Ten ℂ)) (Ws : List (Mpo ℂ)) : Res (Env ℂ × ℂ) :=
  match boundary eigs solve dir ts Ws with
  | .error e => .error e
  | .ok (E, h, _) => .ok (E, h)

theorem mlinked_right : ∀ {l : List (Mpo ℂ)} {p x y : ℕ}, MLinked p l x → MLinked p l y → x = y
  | [], _, _, _, h1, h2 => h1.symm.trans h2
  | _ :: _, _, _, _, h1, h2 => mlinked_right h1.2 h2.2

theorem mlinked_left {l : List (Mpo ℂ)} (hne : l ≠ []) {x y z z' : ℕ} (h1 : MLinked x l z) (h2 : MLinked y l z') : x = y := by
  cases l with
  | nil => exact absurd rfl hne
  | cons a l => exact h1.1.symm.trans h2.1

theorem mlinked_last : ∀ {l : List (Mpo ℂ)} {x y : ℕ} {W : Mpo ℂ}, MLinked x l y → l.getLast? = some W → W.r = y
  | [], _, _, _, _, h => by cases h
  | [a], _, _, _, h, hW => by cases hW; exact h.2
  | a :: b :: l, _, _, _, h, hW => mlinked_last (l := b :: l) h.2 (by simpa using hW)

theorem steadyEnd_shape {solve : Lgmres} {dir : Dir} {ts : List (Ten ℂ)} {ldens rdens : List (Mat ℂ)} {bd : Vec ℂ} {E F : Env ℂ} {c : ℕ} {x : Mat ℂ} {D D' Dk : ℕ}
    {h : ℂ} (hrun : steadyEnd solve dir ts ldens rdens bd E c x D D' Dk = .ok (F, h)) : F.u = Dk ∧ F.w = Dk ∧ F.m = E.m := by
  unfold steadyEnd at hrun
  split at hrun
  · cases hrun
  split at hrun
  · cases hrun
  split at hrun
  · cases hrun
  split at hrun
  · cases hrun
  split at hrun
  · cases hrun
  split at hrun
  · cases hrun
  split at hrun
  · rename_i hu
    cases hrun
    exact ⟨hu.1, hu.2, rfl⟩
  · cases hrun

/-- **C92 (shapes).**  Whatever the operators, tensors, solver and eigensolver, the environments have the dimensions of the cell. -/
theorem C92_shape {eigs : Eigs} {solve : Lgmres} {dir : Dir} {ts : List (Ten ℂ)} {Ws : List (Mpo ℂ)} {n y : ℕ} (hl : Linked n ts n) (hm : MLinked y Ws y)
    (hlen : ts.length = Ws.length) {E : Env ℂ} {e : ℂ} {x : Mat ℂ} (hrun : boundary eigs solve dir ts Ws = .ok (E, e, x)) : E.u = n ∧ E.w = n ∧ E.m = y := by
  have hne : ts ≠ [] := by rintro rfl; cases hrun
  have hneW : Ws ≠ [] := by rintro rfl; exact hne (List.length_eq_zero_iff.1 hlen)
  obtain ⟨a, b, ha, hb, hal, hbr⟩ := linked_ends hne hl
  unfold boundary at hrun
  rw [ha, hb] at hrun
  simp only at hrun
  split at hrun
  · cases hrun
  split at hrun
  · cases hrun
  split at hrun
  · split at hrun
    · cases hrun
    rename_i E' h' hst
    cases hrun
    unfold steadyState at hst
    rw [ha, hb, hlen] at hst
    split at hst
    · rename_i a' b' l0 r1 W V ea eb el er eW eV
      cases ea; cases eb
      rw [← List.getLast?_eq_getElem?] at eW
      cases dir with
      | right =>
        simp only at hst
        split at hst
        · cases hst
        rename_i w hw
        split at hst
        · cases hst
        rename_i L0 hL0
        split at hst
        · cases hst
        rename_i L hL
        split_ifs at hst
        obtain ⟨f1, f2, f3⟩ := steadyEnd_shape hst
        have hIs := (layersR_isL _ _ _ _ _ _ _ hL).m
        simp only [List.drop_zero] at hIs
        rw [List.take_of_length_le le_rfl] at hIs
        have h0 : L0.m = y := by
          unfold lastRowMpo at hw
          split_ifs at hw
          cases hw
          unfold initializeLayerR at hL0
          split_ifs at hL0
          cases hL0
          exact mlinked_last hm eW
        rw [h0] at hIs
        exact ⟨by rw [f1, hbr], by rw [f2, hbr], by rw [f3, mlinked_right hIs hm]⟩
      | left =>
        simp only at hst
        split at hst
        · cases hst
        rename_i w hw
        split at hst
        · cases hst
        rename_i L0 hL0
        split at hst
        · cases hst
        rename_i L hL
        split_ifs at hst
        obtain ⟨f1, f2, f3⟩ := steadyEnd_shape hst
        have hIs := (layersL_isR _ _ _ _ _ _ _ hL).m
        simp only [List.drop_zero] at hIs
        rw [List.take_of_length_le le_rfl] at hIs
        exact ⟨by rw [f1, hbr], by rw [f2, hbr], by rw [f3, mlinked_left hneW hIs hm]⟩
    · cases hst
  · cases hrun
  · cases hrun

/-- **C92 (kernels of IDMRG).**  The model of `getBoundaryHams` meets the contract on shapes that C90 assumes of it. -/
theorem C92_kernel (eigs : Eigs) (solve : Lgmres) (sym : List (Ten ℂ) → Res (List (Ten ℂ) × List ℂ)) {Ws : List (Mpo ℂ)} {y : ℕ} {ds : List ℕ}
    (hm : MLinked y Ws y) (hlen : ds.length = Ws.length) :
    Idmrg.ShapeKernel ⟨sym, steadyKernel eigs solve .right, steadyKernel eigs solve .left⟩ Ws ds y := by
  intro ts n E x hd hl hrun
  have hlen' : ts.length = Ws.length := by rw [← hlen, ← hd, List.length_map]
  rcases hrun with h | h
  · simp only [steadyKernel] at h
    split at h
    · cases h
    · rename_i hb; cases h; exact C92_shape hl hm hlen' hb
  · simp only [steadyKernel] at h
    split at h
    · cases h
    · rename_i hb; cases h; exact C92_shape hl hm hlen' hb

/-! ### The contract of the eigensolver can be met -/

theorem exists_eigs_lr : ∃ eigs : Eigs, EigsLR eigs ∧ Converges eigs := by
  classical
  let Q : ℕ → (Vec ℂ → Res (Vec ℂ)) → ℂ × Vec ℂ → Prop := fun N f q => q.2.n = N ∧ (∃ i < N, q.2.v i ≠ 0) ∧
    (∃ w, f q.2 = .ok w ∧ ∀ i < N, w.v i = q.1 * q.2.v i) ∧
    ∀ (μ : ℂ) (u : Vec ℂ), u.n = N → (∃ i < N, u.v i ≠ 0) → (∃ w, f u = .ok w ∧ ∀ i < N, w.v i = μ * u.v i) → μ.re ≤ q.1.re
  refine ⟨fun N f k => if h : k = 1 ∧ ∃ q, Q N f q then .ok [h.2.choose] else .error .value, ?_, ?_⟩
  · intro N f k l h
    simp only at h
    split at h
    · rename_i hk
      cases h
      refine ⟨by simp [hk.1], fun q hq => ?_⟩
      rw [List.mem_singleton] at hq
      subst hq
      obtain ⟨h1, h2, h3, h4⟩ := hk.2.choose_spec
      exact ⟨h1, h2, h3, fun μ u a b c => Or.inl (h4 μ u a b c)⟩
    · cases h
  · intro dir ts n hne hl hn
    have : 1 = 1 ∧ ∃ q, Q (n * n) (unitcellTransferOperator dir ts) q := ⟨rfl, exists_lead Complex.re dir hne hl (by omega)⟩
    exact ⟨_, dif_pos this⟩

/-! ### Witnesses -/

/-- The normalised cell of the four matrix units of dimension two. -/
def unitsN : Ten ℂ := ⟨2, 2, 4, fun i j s => if s = 2 * i + j then (1 : ℂ) / ((√2 : ℝ) : ℂ) else 0⟩

theorem sqrt_two_sq : (((√2 : ℝ) : ℂ)) * ((√2 : ℝ) : ℂ) = 2 := by
  rw [← Complex.ofReal_mul, Real.mul_self_sqrt (by norm_num)]; norm_num

theorem unitsN_eq : unitsN = divT (√2) unitsTen := by
  unfold unitsN divT unitsTen
  congr 1
  funext i j s
  by_cases h : s = 2 * i + j
  · simp [h]
  · simp [h]

theorem unitsN_left : LeftOrth unitsN := by
  have h2 : ((√2 : ℝ) : ℂ) ≠ 0 := fun h => by have := sqrt_two_sq; rw [h] at this; norm_num at this
  intro j hj j' hj'
  change j < 2 at hj
  change j' < 2 at hj'
  interval_cases j <;> interval_cases j' <;> simp [unitsN, sum_range_succ, delta] <;> rw [← mul_inv, sqrt_two_sq] <;> norm_num

theorem unitsN_right : RightOrth unitsN := by
  have h2 : ((√2 : ℝ) : ℂ) ≠ 0 := fun h => by have := sqrt_two_sq; rw [h] at this; norm_num at this
  intro j hj j' hj'
  change j < 2 at hj
  change j' < 2 at hj'
  interval_cases j <;> interval_cases j' <;> simp [unitsN, sum_range_succ, delta] <;> rw [← mul_inv, sqrt_two_sq] <;> norm_num

theorem unitsN_normal {dir : Dir} : Normal dir 1e-12 2 [unitsN] 1 fun i j => if i = j then 1 / 2 else 0 := by
  have h : Normal dir 1e-12 2 [unitsTen] 2 fun i j => if i = j then 1 / 2 else 0 := by
    cases dir
    · exact units_normal units_left
    · exact units_normal units_right
  have := h.scale (z := √2) (by positivity)
  simp only [List.map_cons, List.map_nil, List.length_singleton, mul_one, Real.sq_sqrt (show (0 : ℝ) ≤ 2 by norm_num)] at this
  rw [div_self two_ne_zero, ← unitsN_eq] at this
  exact this

/-- The operator with one at every site. -/
def oneMpo : Mpo ℂ := ⟨2, 2, 4, 4, fun b c x y => if b = 0 ∧ c = 1 then 0 else delta ℂ x y⟩

/-- The operator with a nearest-neighbour term only. -/
def bondMpo : Mpo ℂ := ⟨3, 3, 4, 4, fun b c x y => if b = c ∧ b ≠ 1 then delta ℂ x y else if (b = 2 ∧ c = 1) ∨ (b = 1 ∧ c = 0) then delta ℂ x y else 0⟩

theorem one_site : NNSite 0 (2 - 1) 2 oneMpo where
  l := rfl
  r := rfl
  dd := rfl
  fB := by norm_num
  sB := by norm_num
  ne := by norm_num
  done c hc x _ y _ := by interval_cases c <;> simp [oneMpo, delta]
  start b hb x _ y _ := by interval_cases b <;> simp [oneMpo, delta]
  mid b hb c hc h1 h2 := by interval_cases b <;> simp at h1 h2

theorem bond_site : NNSite 0 (3 - 1) 3 bondMpo where
  l := rfl
  r := rfl
  dd := rfl
  fB := by norm_num
  sB := by norm_num
  ne := by norm_num
  done c hc x _ y _ := by interval_cases c <;> simp [bondMpo, delta]
  start b hb x _ y _ := by interval_cases b <;> simp [bondMpo, delta]
  mid b hb c hc h1 h2 h3 h4 x _ y _ := by interval_cases b <;> interval_cases c <;> simp_all [bondMpo]

/-- The hypotheses of the theorems can be met: the environments of a nearest-neighbour Hamiltonian. -/
example : ∃ (eigs : Eigs) (solve : Lgmres), EigsLR eigs ∧ Converges eigs ∧ LgmresSpec solve ∧ LgmresConverges solve ∧
    ∃ L R e e' x y, boundary eigs solve .right [unitsN] [bondMpo] = .ok (L, e, x) ∧ boundary eigs solve .left [unitsN] [bondMpo] = .ok (R, e', y) ∧
      (∀ n ≥ 1, e = energyL 2 3 [unitsN] [bondMpo] (fun i j => if i = j then 1 / 2 else 0) (n + 1) -
        energyL 2 3 [unitsN] [bondMpo] (fun i j => if i = j then 1 / 2 else 0) n) ∧
      ∀ n ≥ 1, e' = energyR 2 3 [unitsN] [bondMpo] (fun i j => if i = j then 1 / 2 else 0) (n + 1) -
        energyR 2 3 [unitsN] [bondMpo] (fun i j => if i = j then 1 / 2 else 0) n := by
  obtain ⟨eigs, hE, hcv⟩ := exists_eigs_lr
  obtain ⟨solve, hS, hC⟩ := exists_lgmres
  have hb : NN 3 [unitsN] [bondMpo] := List.Forall₂.cons ⟨bond_site, rfl⟩ List.Forall₂.nil
  have hl : Linked 2 [unitsN] 2 := ⟨rfl, rfl⟩
  have ho : ∀ t ∈ ([] : List (Ten ℂ)) ++ [unitsN], LeftOrth t := by
    intro t ht
    simp only [List.nil_append, List.mem_singleton] at ht
    subst ht; exact unitsN_left
  have ho' : ∀ t ∈ [unitsN], RightOrth t := by
    intro t ht
    simp only [List.mem_singleton] at ht
    subst ht; exact unitsN_right
  have hsym : ∀ i < 2, ∀ j < 2, (fun i j : ℕ => if i = j then (1 / 2 : ℂ) else 0) i j = (fun i j : ℕ => if i = j then (1 / 2 : ℂ) else 0) j i :=
    fun i _ j _ => by simp only [eq_comm]
  obtain ⟨L, e, x, h1⟩ := C92_boundary_left_total (us := []) (Vs := []) hE hcv hS hC List.Forall₂.nil hb hl le_rfl ho unitsN_normal
  obtain ⟨R, e', y, h2⟩ := C92_boundary_right_total hE hcv hS hC List.Forall₂.nil hb hl le_rfl ho' unitsN_normal (by simp)
  have g1 := (C92_boundary_left (us := []) (Vs := []) hE hS List.Forall₂.nil hb hl ho unitsN_normal h1).2
  have g2 := (C92_boundary_right hE hS List.Forall₂.nil hb hl ho' unitsN_normal h2).2
  exact ⟨eigs, solve, hE, hcv, hS, hC, L, R, e, e', x, y, h1, h2,
    (C92_fixed_point_left_partial g1 hsym fun j _ j' _ => by simp [termL, bondMpo]).1,
    (C92_fixed_point_right_partial g2 hsym fun j _ j' _ => by simp [termR, bondMpo]).1⟩

/-- **C92, violated (on-site terms are counted twice).** -/
theorem C92_violated_onsite : ∃ (eigs : Eigs) (solve : Lgmres), EigsLR eigs ∧ LgmresSpec solve ∧
    ∃ L L' e x, boundary eigs solve .right [unitsN] [oneMpo] = .ok (L, e, x) ∧ IsM x 2 (fun i j => if i = j then 1 / 2 else 0) ∧
      (∀ n ≥ 1, e = energyL 2 2 [unitsN] [oneMpo] (fun i j => if i = j then 1 / 2 else 0) (n + 1) -
        energyL 2 2 [unitsN] [oneMpo] (fun i j => if i = j then 1 / 2 else 0) n + 1) ∧
      contractMPO [unitsN] [unitsN] [oneMpo] L 0 0 true = .ok L' ∧ L'.v 0 0 0 = L.v 0 0 0 + (e - 1) := by
  obtain ⟨eigs, hE, hcv⟩ := exists_eigs_lr
  obtain ⟨solve, hS, hC⟩ := exists_lgmres
  have hb : NN 2 [unitsN] [oneMpo] := List.Forall₂.cons ⟨one_site, rfl⟩ List.Forall₂.nil
  have hl : Linked 2 [unitsN] 2 := ⟨rfl, rfl⟩
  have ho : ∀ t ∈ ([] : List (Ten ℂ)) ++ [unitsN], LeftOrth t := by
    intro t ht
    simp only [List.nil_append, List.mem_singleton] at ht
    subst ht; exact unitsN_left
  obtain ⟨L, e, x, hrun⟩ := C92_boundary_left_total (us := []) (Vs := []) hE hcv hS hC List.Forall₂.nil hb hl le_rfl ho unitsN_normal
  obtain ⟨hx, -, -, -, -, L', S, c1, -, -, -, -, c2, c3, -, c5⟩ := C92_boundary_left (us := []) (Vs := []) hE hS List.Forall₂.nil hb hl ho unitsN_normal hrun
  have he : e = pairing 2 S fun i j => if i = j then 1 / 2 else 0 := by
    rw [c5]
    exact sum_congr rfl fun i _ => sum_congr rfl fun j _ => by simp only [eq_comm]
  have ht : ∀ j < 2, ∀ j' < 2, termL unitsN oneMpo j j' = delta ℂ j j' := by
    intro j hj j' hj'
    interval_cases j <;> interval_cases j' <;> simp [termL, unitsN, oneMpo, sum_range_succ, delta] <;> rw [← mul_inv, sqrt_two_sq] <;> norm_num
  refine ⟨eigs, solve, hE, hS, L, L', e, x, hrun, hx, fun n hn => ?_, c1, ?_⟩
  · rw [he]
    refine (c2 n hn).trans ?_
    rw [pair_congr ht, pair_delta (by simp)]; rfl
  · rw [c3 0 two_pos 0 two_pos 0 two_pos, if_pos rfl, ← he, act_congr .right _ ht]
    have := act_orth hl ho 0 two_pos 0 two_pos
    change L.v 0 0 0 + (e * delta ℂ 0 0 - act Dir.right [unitsN] 2 (delta ℂ) 0 0) = _
    rw [this, delta_self]; ring

/-- A left-orthonormal cell whose density matrix is not symmetric. -/
def twist : Ten ℂ := ⟨2, 2, 4, fun i j s => if j = s % 2 then (if s < 2 ∧ i = 1 then Complex.I / 2 else 1 / 2) else 0⟩

/-- Its density matrix. -/
def twistDens (i j : ℕ) : ℂ := if i = j then 1 / 2 else if i < j then (1 - Complex.I) / 4 else (1 + Complex.I) / 4

/-- A hermitian on-site term on the second factor of the physical space. -/
def twistMpo : Mpo ℂ := ⟨2, 2, 4, 4, fun b c x y => if b = 0 ∧ c = 1 then 0 else if b = c then delta ℂ x y
  else if x / 2 = y / 2 then (if x % 2 < y % 2 then -Complex.I else if y % 2 < x % 2 then Complex.I else 0) else 0⟩

theorem twist_site : NNSite 0 (2 - 1) 2 twistMpo where
  l := rfl
  r := rfl
  dd := rfl
  fB := by norm_num
  sB := by norm_num
  ne := by norm_num
  done c hc x _ y _ := by interval_cases c <;> simp [twistMpo, delta]
  start b hb x _ y _ := by interval_cases b <;> simp [twistMpo, delta]
  mid b hb c hc h1 h2 := by interval_cases b <;> simp at h1 h2

theorem conj_two : (starRingEnd ℂ) 2 = 2 := map_ofNat (starRingEnd ℂ) 2

theorem twist_orth : LeftOrth twist := by
  intro j hj j' hj'
  change j < 2 at hj
  change j' < 2 at hj'
  interval_cases j <;> interval_cases j' <;> simp [twist, sum_range_succ, delta, conj_two] <;> ring_nf <;> simp <;> norm_num

theorem twist_left (f : ℕ → ℕ → ℂ) : ∀ i < 2, ∀ i' < 2, act .left [twist] 2 f i i' = (f 0 0 + f 1 1) * twistDens i i' := by
  intro i hi i' hi'
  interval_cases i <;> interval_cases i' <;>
    (simp [act, kern, chain, twist, twistDens, sumCfg, sum_range_succ, delta, conj_two]; try ring_nf; try simp; try ring)

theorem twist_right (f : ℕ → ℕ → ℂ) : ∀ i < 2, ∀ i' < 2, act .right [twist] 2 f i i' = pairing 2 f twistDens * delta ℂ i i' := by
  intro i hi i' hi'
  interval_cases i <;> interval_cases i' <;>
    simp [act, kern, chain, twist, twistDens, pairing, sumCfg, sum_range_succ, delta, conj_two] <;> ring_nf <;> simp <;> ring

theorem twist_normal : Normal .left 1e-12 2 [twist] 1 twistDens := by
  refine ⟨one_pos, ⟨?_, ?_, ?_⟩, ?_, ?_⟩
  · intro i hi j hj
    interval_cases i <;> interval_cases j <;> simp [twistDens]
    ring
  · simp [twistDens]
  · intro x hx
    simp only [sum_range_succ, sum_range_zero, zero_add, Complex.normSq_apply] at hx
    simp only [twistDens, sum_range_succ, sum_range_zero, zero_add]
    simp
    nlinarith [sq_nonneg (7 * (x 0).re + 5 * ((x 1).re + (x 1).im)), sq_nonneg (7 * (x 0).im + 5 * ((x 1).im - (x 1).re))]
  · intro i hi j hj
    rw [twist_left _ i hi j hj, show twistDens 0 0 + twistDens 1 1 = 1 by simp [twistDens]; norm_num]
    simp
  · intro μ f _ h2 h3
    have hμ : μ ≠ 0 := by
      rintro rfl
      rw [norm_zero] at h3
      linarith
    refine ⟨(f 0 0 + f 1 1) / μ, fun i hi j hj => ?_⟩
    have e := h2 i hi j hj
    rw [twist_left f i hi j hj] at e
    field_simp
    rw [e]; ring

theorem twist_term : ∀ j < 2, ∀ j' < 2, termL twist twistMpo j j' = if j < j' then -Complex.I else if j' < j then Complex.I else 0 := by
  intro j hj j' hj'
  interval_cases j <;> interval_cases j' <;> simp [termL, twist, twistMpo, sum_range_succ, delta, conj_two] <;> ring_nf <;> simp <;> ring

/-- **C92, violated (the density matrix is transposed).**  The energy of a cell is `-1/2`, that of the last on-site term, too, but the
number returned is neither the energy of a cell nor this with the on-site term counted twice, and the complete terms of the environment
have an overlap with the density matrix. -/
theorem C92_violated_energy : ∃ (eigs : Eigs) (solve : Lgmres), EigsLR eigs ∧ LgmresSpec solve ∧
    ∃ L e x, boundary eigs solve .right [twist] [twistMpo] = .ok (L, e, x) ∧ IsM x 2 twistDens ∧ e = 0 ∧
      (∀ n ≥ 1, energyL 2 2 [twist] [twistMpo] twistDens (n + 1) - energyL 2 2 [twist] [twistMpo] twistDens n = -1 / 2) ∧
      ∑ i ∈ range 2, ∑ j ∈ range 2, L.v i j 0 * twistDens i j = -1 := by
  obtain ⟨eigs, hE, hcv⟩ := exists_eigs_lr
  obtain ⟨solve, hS, hC⟩ := exists_lgmres
  have hb : NN 2 [twist] [twistMpo] := List.Forall₂.cons ⟨twist_site, rfl⟩ List.Forall₂.nil
  have hl : Linked 2 [twist] 2 := ⟨rfl, rfl⟩
  have ho' : ∀ t ∈ [twist], LeftOrth t := by
    intro t ht
    simp only [List.mem_singleton] at ht
    subst ht; exact twist_orth
  have ho : ∀ t ∈ ([] : List (Ten ℂ)) ++ [twist], LeftOrth t := ho'
  obtain ⟨L, e, x, hrun⟩ := C92_boundary_left_total (us := []) (Vs := []) hE hcv hS hC List.Forall₂.nil hb hl le_rfl ho twist_normal
  obtain ⟨hx, -, -, -, -, L', S, -, -, -, -, c1, c2, -, c4, c5⟩ := C92_boundary_left (us := []) (Vs := []) hE hS List.Forall₂.nil hb hl ho twist_normal hrun
  have hp : pairing 2 (termL twist twistMpo) twistDens = -1 / 2 := by
    rw [pair_congr twist_term]
    simp [pairing, twistDens, sum_range_succ]
    ring_nf; simp; ring
  have hblk : ∀ j < 2, ∀ j' < 2, blockL 2 2 [twist] [twistMpo] 1 j j' = termL twist twistMpo j j' := fun j hj j' hj' =>
    (onsite_eq (D := 2) twist_site rfl hj hj' : onsite 2 0 (2 - 1) 2 twist twistMpo j j' = _)
  have hblk2 : ∀ j < 2, ∀ j' < 2, blockL 2 2 [twist] [twistMpo] 2 j j' = termL twist twistMpo j j' + act .right [twist] 2 (termL twist twistMpo) j j' := by
    intro j hj j' hj'
    change contrL (openEnv 2 (2 - 1) 2) ([twist] ++ [twist]) ([twistMpo] ++ [twistMpo]) ([twist] ++ [twist]) j j' 0 = _
    rw [contr_append hb hb (D := 2) rfl rfl rfl hl hl hj hj' two_pos]
    have h1 := contr_diff hb two_pos (E := after (openEnv 2 (2 - 1) 2) 2 2 [twist] [twistMpo]) (F := openEnv 2 (2 - 1) 2) (D := 2) rfl rfl rfl rfl rfl rfl
      (fun c hc hc0 i hi i' hi' => by
        obtain rfl : c = 2 - 1 := by omega
        rw [open_start]
        exact core_start hb hl ho' rfl rfl rfl (by norm_num) (fun i _ i' _ => open_start i i') i hi i' hi') j j'
    have h2 : contrL (openEnv 2 (2 - 1) 2) [twist] [twistMpo] [twist] j j' 0 = termL twist twistMpo j j' := hblk j hj j' hj'
    have h3 : act .right [twist] 2 (fun i i' => (after (openEnv 2 (2 - 1) 2) 2 2 [twist] [twistMpo]).v i i' 0) j j' =
        act .right [twist] 2 (termL twist twistMpo) j j' := act_congr .right _ hblk j j'
    have h4 : act .right [twist] 2 (fun i i' => (openEnv 2 (2 - 1) 2).v i i' 0) j j' = 0 := by simp [act, openEnv, delta]
    rw [h2, h3, h4] at h1
    linear_combination h1
  have hSv : ∀ j < 2, ∀ j' < 2, S j j' = termL twist twistMpo j j' + act .right [twist] 2 (termL twist twistMpo) j j' := by
    intro j hj j' hj'
    have := c1 1 le_rfl j hj j' hj'
    change S j j' = blockL 2 2 [twist] [twistMpo] 2 j j' - act .right [twist] 2 (blockL 2 2 [twist] [twistMpo] 1) j j' +
      act .right [twist] 2 (termL twist twistMpo) j j' at this
    rw [this, hblk2 j hj j' hj', act_congr .right _ hblk]; ring
  have hSw : ∀ j < 2, ∀ j' < 2, S j j' = (if j < j' then -Complex.I else if j' < j then Complex.I else 0) - 1 / 2 * delta ℂ j j' := by
    intro j hj j' hj'
    rw [hSv j hj j' hj', twist_term j hj j' hj', twist_right _ j hj j' hj', hp]; ring
  have he : e = 0 := by
    rw [c5, sum_congr rfl fun i hi => sum_congr rfl fun j hj => by rw [hSw i (mem_range.1 hi) j (mem_range.1 hj)]]
    simp [twistDens, sum_range_succ, delta]
    ring_nf; simp
  have hS1 : pairing 2 S twistDens = -1 := by
    rw [pair_congr hSw]
    simp [pairing, twistDens, sum_range_succ, delta]
    ring_nf; simp; ring
  refine ⟨eigs, solve, hE, hS, L, e, x, hrun, hx, he, fun n hn => ?_, by rw [c4, hS1, he, sub_zero]⟩
  have := c2 n hn
  rw [hS1, hp] at this
  change _ = energyL 2 2 [twist] [twistMpo] twistDens (n + 1) - energyL 2 2 [twist] [twistMpo] twistDens n + _ at this
  linear_combination -this

end

end PyTeN.Steady
