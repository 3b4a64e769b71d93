import Verif.Env.SteadyAlg
import Verif.Mps.RegaugeEig

/-! # Lemmas for steady-state Hamiltonians: the block after a unit cell -/

namespace PyTeN.Steady
open Finset Transfer Regauge
noncomputable section

/-- Spec: the block of the sites of a cell. -/
def after (E : Env ℂ) (r B : ℕ) (ts : List (Ten ℂ)) (Ws : List (Mpo ℂ)) : Env ℂ := ⟨r, r, B, fun j j' b => contrL E ts Ws ts j j' b⟩

/-- Spec: the empty block to the left (right) of the chain: the identity in the state in which no term has begun. -/
def openEnv (D s B : ℕ) : Env ℂ := ⟨D, D, B, fun i i' b => delta ℂ i i' * delta ℂ b s⟩

section
variable {f s B D : ℕ} {ts us : List (Ten ℂ)} {Ws Vs : List (Mpo ℂ)}

theorem isL_after (h : NNCell f s B ts Ws) {E : Env ℂ} {r : ℕ} (hu : E.u = D) (hw : E.w = D) (hm : E.m = B) (hl : Linked D ts r) :
    IsL E ts Ws ts (after E r B ts Ws) := by
  refine ⟨by rw [hu]; exact hl, by rw [hm]; exact h.mlinked, by rw [hw]; exact hl, h.fits, fun _ _ _ _ _ _ => rfl⟩

theorem contr_append (h : NNCell f s B ts Ws) (h' : NNCell f s B us Vs) {E : Env ℂ} {q r : ℕ} (hu : E.u = D) (hw : E.w = D) (hm : E.m = B)
    (hl : Linked D ts q) (hl' : Linked q us r) {j j' b : ℕ} (hj : j < r) (hj' : j' < r) (hb : b < B) :
    contrL E (ts ++ us) (Ws ++ Vs) (ts ++ us) j j' b = contrL (after E q B ts Ws) us Vs us j j' b := by
  have h1 := isL_after h hu hw hm hl
  have h2 := isL_after h' (E := after E q B ts Ws) (D := q) (r := r) rfl rfl rfl hl'
  exact ((isL_append h1 h2).v j hj j' hj' b hb).symm

/-- A left-orthonormal tensor fixes the identity. -/
theorem act_orth {l r : ℕ} (hl : Linked l ts r) (ho : ∀ t ∈ ts, LeftOrth t) :
    ∀ j < r, ∀ j' < r, act .right ts l (delta ℂ) j j' = delta ℂ j j' := by
  induction ts generalizing l with
  | nil =>
    intro j hj j' hj'
    simp only [Linked] at hl; subst hl
    simp only [act, kern_nil]
    rw [sum_eq_single j, sum_eq_single j']
    · simp
    · intro b _ hb; simp [delta, hb]
    · intro hb; exact absurd (mem_range.2 hj') hb
    · intro b _ hb; exact sum_eq_zero fun c _ => by simp [delta, hb]
    · intro hb; exact absurd (mem_range.2 hj) hb
  | cons t ts ih =>
    intro j hj j' hj'
    obtain ⟨h1, h2⟩ := hl
    subst h1
    rw [← ih h2 (fun u hu => ho u (List.mem_cons_of_mem _ hu)) j hj j' hj']
    simp only [act, kern_cons]
    rw [← sum_assoc4]
    refine sum_congr rfl fun k hk => sum_congr rfl fun k' hk' => ?_
    congr 1
    have := ho t (by simp) k' (mem_range.1 hk') k (mem_range.1 hk)
    calc _ = ∑ i ∈ range t.l, ∑ x ∈ range t.d, t.v i k x * star (t.v i k' x) := by
            refine sum_congr rfl fun i hi => ?_
            rw [sum_eq_single i, delta_self, one_mul]
            · intro b _ hb; simp [delta, hb.symm]
            · intro hb; exact absurd hi hb
      _ = ∑ x ∈ range t.d, ∑ i ∈ range t.l, star (t.v i k' x) * t.v i k x := by
            rw [sum_comm]; exact sum_congr rfl fun _ _ => sum_congr rfl fun _ _ => mul_comm _ _
      _ = _ := by rw [this]; unfold delta; simp [eq_comm]

theorem open_start (i i' : ℕ) : (openEnv D s B).v i i' s = delta ℂ i i' := by simp [openEnv]

/-- Spec: the block of the last site of the cell alone. -/
def lastEnv (D s B : ℕ) (b : Ten ℂ) (W : Mpo ℂ) : Env ℂ := after (openEnv b.l s B) D B [b] [W]

variable {b : Ten ℂ} {W : Mpo ℂ}

/-- The states with terms that have begun are those of the last site. -/
theorem core_mid (h : NNCell f s B us Vs) (hb : NNCell f s B [b] [W]) (hl : Linked D (us ++ [b]) D) (ho : ∀ t ∈ us, LeftOrth t)
    {E : Env ℂ} (hu : E.u = D) (hw : E.w = D) (hm : E.m = B) (hs : s < B) (hE : ∀ i < D, ∀ i' < D, E.v i i' s = delta ℂ i i')
    {c : ℕ} (hcB : c < B) (hc : c ≠ f) {j j' : ℕ} (hj : j < D) (hj' : j' < D) :
    contrL E (us ++ [b]) (Vs ++ [W]) (us ++ [b]) j j' c = (lastEnv D s B b W).v j j' c := by
  obtain ⟨q, h1, h2⟩ := linked_append.1 hl
  have hq : q = b.l := h2.1.symm
  rw [contr_append h hb hu hw hm h1 h2 hj hj' hcB, contr_mid hb (by simp) hs (D := q) rfl rfl rfl _ _ hc]
  change _ = contrL (openEnv b.l s B) [b] [W] [b] j j' c
  rw [contr_mid hb (by simp) hs (E := openEnv b.l s B) (D := q) hq.symm hq.symm rfl _ _ hc]
  refine part_congr (fun i hi i' hi' => ?_) _ _ _ _ _
  rw [open_start]
  change contrL E us Vs us i i' s = _
  rw [contr_start h hs hu hw hm, act_congr .right us hE, act_orth h1 ho i hi i' hi']

/-- No term has begun: the identity. -/
theorem core_start (h : NNCell f s B ts Ws) (hl : Linked D ts D) (ho : ∀ t ∈ ts, LeftOrth t)
    {E : Env ℂ} (hu : E.u = D) (hw : E.w = D) (hm : E.m = B) (hs : s < B) (hE : ∀ i < D, ∀ i' < D, E.v i i' s = delta ℂ i i') :
    ∀ j < D, ∀ j' < D, contrL E ts Ws ts j j' s = delta ℂ j j' := by
  intro j hj j' hj'
  rw [contr_start h hs hu hw hm, act_congr .right ts hE, act_orth hl ho j hj j' hj']

theorem last_start (hb : NNCell f s B [b] [W]) (hl : b.r = D) (ho : LeftOrth b) (hs : s < B) :
    ∀ j < D, ∀ j' < D, (lastEnv D s B b W).v j j' s = delta ℂ j j' := by
  intro j hj j' hj'
  change contrL (openEnv b.l s B) [b] [W] [b] j j' s = _
  rw [contr_start hb hs (D := b.l) rfl rfl rfl, act_congr .right [b] (g := delta ℂ) fun i _ i' _ => open_start i i']
  exact act_orth (ts := [b]) (l := b.l) (r := D) ⟨rfl, hl⟩ (by simpa using ho) j hj j' hj'

/-- Spec: the on-site terms of the last site, as a block. -/
def onsite (D f s B : ℕ) (b : Ten ℂ) (W : Mpo ℂ) (j j' : ℕ) : ℂ := (lastEnv D s B b W).v j j' f

/-- Spec: `n` copies of a unit cell. -/
def cells {α : Type*} (n : ℕ) (l : List α) : List α := (List.replicate n l).flatten

theorem cells_succ {α : Type*} (n : ℕ) (l : List α) : cells (n + 1) l = cells n l ++ l := by
  simp [cells, List.replicate_succ']

theorem cells_nn (h : NNCell f s B ts Ws) (n : ℕ) : NNCell f s B (cells n ts) (cells n Ws) := by
  induction n with
  | zero => exact List.Forall₂.nil
  | succ n ih => rw [cells_succ, cells_succ]; exact ih.append h

theorem cells_linked (hl : Linked D ts D) (n : ℕ) : Linked D (cells n ts) D := by
  induction n with
  | zero => rfl
  | succ n ih => rw [cells_succ]; exact linked_append.2 ⟨D, ih, hl⟩

theorem cells_mem {α : Type*} {n : ℕ} {l : List α} {x : α} (h : x ∈ cells n l) : x ∈ l := by
  simp only [cells, List.mem_flatten, List.mem_replicate] at h
  obtain ⟨_, ⟨_, rfl⟩, h⟩ := h; exact h

/-- Spec: the expectation value of the terms within `n` neighbouring cells of the infinite state with left density matrix the identity
and right density matrix `r`. -/
def cellEnergy (D f s B : ℕ) (ts : List (Ten ℂ)) (Ws : List (Mpo ℂ)) (r : ℕ → ℕ → ℂ) (n : ℕ) : ℂ :=
  pairing D (fun j j' => contrL (openEnv D s B) (cells n ts) (cells n Ws) (cells n ts) j j' f) r

theorem pair_add (D : ℕ) (f g r : ℕ → ℕ → ℂ) : pairing D (fun i j => f i j + g i j) r = pairing D f r + pairing D g r := by
  simp only [pairing, add_mul, sum_add_distrib]

theorem pair_sub (D : ℕ) (f g r : ℕ → ℕ → ℂ) : pairing D (fun i j => f i j - g i j) r = pairing D f r - pairing D g r := by
  simp only [pairing, sub_mul, sum_sub_distrib]

theorem pair_smul (D : ℕ) (c : ℂ) (f r : ℕ → ℕ → ℂ) : pairing D (fun i j => c * f i j) r = c * pairing D f r := by
  simp only [pairing, mul_sum, mul_assoc]

/-- The transfer operator does not change the pairing with its fixed point. -/
theorem pair_fix {r : ℕ → ℕ → ℂ} (hr : ∀ i < D, ∀ j < D, act .left ts D r i j = r i j) (g : ℕ → ℕ → ℂ) :
    pairing D (act .right ts D g) r = pairing D g r := by
  rw [pair_act, pair_comm, pair_comm D g]; exact pair_congr hr

variable (h : NNCell f s B us Vs) (hb : NNCell f s B [b] [W]) (hl : Linked D (us ++ [b]) D) (ho : ∀ t ∈ us ++ [b], LeftOrth t)
include h hb hl ho

/-- Spec: the complete terms of the cell that begin in it or on the last site of the cell before. -/
abbrev source (D s B : ℕ) (us : List (Ten ℂ)) (b : Ten ℂ) (Vs : List (Mpo ℂ)) (W : Mpo ℂ) : Env ℂ :=
  after (lastEnv D s B b W) D B (us ++ [b]) (Vs ++ [W])

omit hl ho in
/-- A block with the states of the last site. -/
theorem core_done (hf : f < B) {E : Env ℂ} (hu : E.u = D) (hw : E.w = D) (hm : E.m = B)
    (hE : ∀ c < B, c ≠ f → ∀ i < D, ∀ i' < D, E.v i i' c = (lastEnv D s B b W).v i i' c) (j j' : ℕ) :
    contrL E (us ++ [b]) (Vs ++ [W]) (us ++ [b]) j j' f = (source D s B us b Vs W).v j j' f + act .right (us ++ [b]) D (fun i i' => E.v i i' f) j j'
      - act .right (us ++ [b]) D (onsite D f s B b W) j j' := by
  have := contr_diff (h.append hb) hf hu hw hm (F := lastEnv D s B b W) rfl rfl rfl hE j j'
  change contrL E (us ++ [b]) (Vs ++ [W]) (us ++ [b]) j j' f = contrL (lastEnv D s B b W) (us ++ [b]) (Vs ++ [W]) (us ++ [b]) j j' f + _ - _
  unfold onsite
  linear_combination this

theorem cells_block (hs : s < B) (n : ℕ) : (∀ j < D, ∀ j' < D, contrL (openEnv D s B) (cells n (us ++ [b])) (cells n (Vs ++ [W])) (cells n (us ++ [b])) j j' s = delta ℂ j j') :=
  core_start (cells_nn (h.append hb) n) (cells_linked hl n) (fun t ht => ho t (cells_mem ht)) rfl rfl rfl hs
    fun i _ i' _ => open_start i i'

theorem cells_step (hf : f < B) (hs : s < B) {n : ℕ} (hn : 1 ≤ n) {j j' : ℕ} (hj : j < D) (hj' : j' < D) :
    contrL (openEnv D s B) (cells (n + 1) (us ++ [b])) (cells (n + 1) (Vs ++ [W])) (cells (n + 1) (us ++ [b])) j j' f =
      (source D s B us b Vs W).v j j' f +
      act .right (us ++ [b]) D (fun i i' => contrL (openEnv D s B) (cells n (us ++ [b])) (cells n (Vs ++ [W])) (cells n (us ++ [b])) i i' f) j j'
      - act .right (us ++ [b]) D (onsite D f s B b W) j j' := by
  have hc := h.append hb
  rw [cells_succ, cells_succ, contr_append (cells_nn hc n) hc (D := D) rfl rfl rfl (cells_linked hl n) hl hj hj' hf]
  refine core_done h hb hf rfl rfl rfl (fun c hcB hcf i hi i' hi' => ?_) j j'
  obtain ⟨m, rfl⟩ : ∃ m, n = m + 1 := ⟨n - 1, by omega⟩
  change contrL (openEnv D s B) (cells (m + 1) (us ++ [b])) (cells (m + 1) (Vs ++ [W])) (cells (m + 1) (us ++ [b])) i i' c = _
  rw [cells_succ, cells_succ, contr_append (cells_nn hc m) hc (D := D) rfl rfl rfl (cells_linked hl m) hl hi hi' hcB]
  exact core_mid h hb hl (fun t ht => ho t (List.mem_append_left _ ht)) rfl rfl rfl hs (cells_block h hb hl ho hs m) hcB hcf hi hi'

/-- The energy of a further cell. -/
theorem cells_energy (hf : f < B) (hs : s < B) {r : ℕ → ℕ → ℂ} (hr : ∀ i < D, ∀ j < D, act .left (us ++ [b]) D r i j = r i j) {n : ℕ} (hn : 1 ≤ n) :
    pairing D (fun j j' => (source D s B us b Vs W).v j j' f) r =
      cellEnergy D f s B (us ++ [b]) (Vs ++ [W]) r (n + 1) - cellEnergy D f s B (us ++ [b]) (Vs ++ [W]) r n + pairing D (onsite D f s B b W) r := by
  unfold cellEnergy
  rw [pair_congr fun j hj j' hj' => cells_step h hb hl ho hf hs hn hj hj', pair_sub, pair_add, pair_fix hr, pair_fix hr]
  ring

/-- The steady-state block. -/
theorem core_fixed (hf : f < B) (hs : s < B) {r k : ℕ → ℕ → ℂ} (hr : ∀ i < D, ∀ j < D, act .left (us ++ [b]) D r i j = r i j) {e : ℂ}
    (hone : pairing D (delta ℂ) r = 1)
    (hk : ∀ i < D, ∀ j < D, k i j - act .right (us ++ [b]) D k i j + pairing D k r * delta ℂ i j =
      (source D s B us b Vs W).v i j f - e * delta ℂ i j) {E : Env ℂ} (hu : E.u = D) (hw : E.w = D) (hm : E.m = B)
    (hE : ∀ c < B, c ≠ f → ∀ i < D, ∀ i' < D, E.v i i' c = (source D s B us b Vs W).v i i' c) (hEk : ∀ i < D, ∀ i' < D, E.v i i' f = k i i') :
    pairing D k r = pairing D (fun j j' => (source D s B us b Vs W).v j j' f) r - e ∧
    ∀ j < D, ∀ j' < D, ∀ c < B, contrL E (us ++ [b]) (Vs ++ [W]) (us ++ [b]) j j' c = E.v j j' c +
      (if c = f then pairing D (fun j j' => (source D s B us b Vs W).v j j' f) r * delta ℂ j j' - act .right (us ++ [b]) D (onsite D f s B b W) j j'
        else 0) := by
  have ho' : ∀ t ∈ us, LeftOrth t := fun t ht => ho t (List.mem_append_left _ ht)
  have hbr : b.r = D := by obtain ⟨q, h1, h2⟩ := linked_append.1 hl; exact h2.2
  have hls := last_start hb hbr (ho b (by simp)) hs
  have hmid : ∀ c < B, c ≠ f → ∀ i < D, ∀ i' < D, (source D s B us b Vs W).v i i' c = (lastEnv D s B b W).v i i' c :=
    fun c hcB hcf i hi i' hi' => core_mid h hb hl ho' rfl rfl rfl hs hls hcB hcf hi hi'
  have hp : pairing D k r = pairing D (fun j j' => (source D s B us b Vs W).v j j' f) r - e := by
    have h1 := pair_congr (g := r) hk
    rw [pair_add, pair_sub, pair_fix hr, pair_smul, pair_sub, pair_smul, hone] at h1
    linear_combination h1
  refine ⟨hp, fun j hj j' hj' c hc => ?_⟩
  have hEl : ∀ c < B, c ≠ f → ∀ i < D, ∀ i' < D, E.v i i' c = (lastEnv D s B b W).v i i' c :=
    fun c hcB hcf i hi i' hi' => by rw [hE c hcB hcf i hi i' hi', hmid c hcB hcf i hi i' hi']
  by_cases hcf : c = f
  · subst hcf
    rw [if_pos rfl, core_done h hb hf hu hw hm hEl, act_congr .right (us ++ [b]) hEk, hEk j hj j' hj']
    have := hk j hj j' hj'
    rw [hp] at this
    linear_combination -this
  · rw [if_neg hcf, add_zero, hEl c hc hcf j hj j' hj']
    refine core_mid h hb hl ho' hu hw hm hs (fun i hi i' hi' => ?_) hc hcf hj hj'
    by_cases hsf : s = f
    · exact absurd hsf.symm (by
        have := hb; unfold NNCell at this
        cases this with | cons h _ => exact h.1.ne)
    · rw [hEl s hs hsf i hi i' hi', hls i hi i' hi']

end

end

end PyTeN.Steady
