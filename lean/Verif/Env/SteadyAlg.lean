import Verif.Engine.Grow
import Verif.Props.Transfer

/-! # Lemmas for steady-state Hamiltonians: unit cells of nearest-neighbour matrix product operators -/

namespace PyTeN.Steady
open Finset Transfer
noncomputable section

/-- Spec: a tensor of a nearest-neighbour matrix product operator with bond dimension `B`.  In state `f` all terms are complete, in
state `s` none has begun; from any other state one can go only to `f`. -/
structure NNSite (f s B : ℕ) (W : Mpo ℂ) : Prop where
  l : W.l = B
  r : W.r = B
  dd : W.dout = W.din
  fB : f < B
  sB : s < B
  ne : f ≠ s
  done : ∀ c < B, ∀ x < W.din, ∀ y < W.din, W.v f c x y = delta ℂ f c * delta ℂ x y
  start : ∀ b < B, ∀ x < W.din, ∀ y < W.din, W.v b s x y = delta ℂ b s * delta ℂ x y
  mid : ∀ b < B, ∀ c < B, b ≠ f → b ≠ s → c ≠ f → c ≠ s → ∀ x < W.din, ∀ y < W.din, W.v b c x y = 0

/-- Spec: a unit cell of tensors `ts` with a nearest-neighbour matrix product operator. -/
def NNCell (f s B : ℕ) (ts : List (Ten ℂ)) (Ws : List (Mpo ℂ)) : Prop :=
  List.Forall₂ (fun t W => NNSite f s B W ∧ t.d = W.din) ts Ws

theorem NNCell.fits {f s B : ℕ} {ts : List (Ten ℂ)} {Ws : List (Mpo ℂ)} (h : NNCell f s B ts Ws) : Fits ts Ws ts := by
  induction h with
  | nil => trivial
  | cons h _ ih => exact ⟨h.2, by rw [h.1.dd, h.2], ih⟩

theorem NNCell.mlinked {f s B : ℕ} {ts : List (Ten ℂ)} {Ws : List (Mpo ℂ)} (h : NNCell f s B ts Ws) : MLinked B Ws B := by
  induction h with
  | nil => rfl
  | cons h _ ih => exact ⟨h.1.l, by rw [h.1.r]; exact ih⟩

theorem NNCell.append {f s B : ℕ} {ts us : List (Ten ℂ)} {Ws Vs : List (Mpo ℂ)} (h : NNCell f s B ts Ws) (h' : NNCell f s B us Vs) :
    NNCell f s B (ts ++ us) (Ws ++ Vs) := List.rel_append h h'

/-- Spec: equality of configurations as a number. -/
def same (s t : List ℕ) : ℂ := if t = s then 1 else 0

theorem same_cons (x y : ℕ) (s t : List ℕ) : delta ℂ x y * same s t = same (x :: s) (y :: t) := by
  unfold same delta
  by_cases h : x = y
  · subst h; simp
  · rw [if_neg h, if_neg (fun h' => h (List.cons.inj h').1.symm)]; simp

/-- Once all terms are complete they stay so. -/
theorem mchain_done {f s B : ℕ} {ts : List (Ten ℂ)} {Ws : List (Mpo ℂ)} (h : NNCell f s B ts Ws) : ∀ {x y : List ℕ},
    Conf (ts.map Ten.d) x → Conf (ts.map Ten.d) y → ∀ c, mchain Ws x y f c = delta ℂ f c * same x y := by
  induction h with
  | nil => intro x y hx hy c; cases hx; cases hy; simp [mchain, same]
  | @cons t W ts Ws h _ ih =>
    intro x y hx hy c
    cases hx with
    | cons hx hx' =>
      cases hy with
      | cons hy hy' =>
        rw [h.2] at hx hy
        simp only [mchain]
        rw [h.1.r, sum_congr rfl fun c' hc' => by rw [h.1.done c' (mem_range.1 hc') _ hx _ hy]]
        rw [sum_eq_single f, delta_self, ih hx' hy' c, one_mul, ← same_cons]
        · ring
        · intro b _ hb; simp [delta, hb.symm]
        · intro hb; exact absurd (mem_range.2 h.1.fB) hb

/-- No term has begun at the end: none has begun before. -/
theorem mchain_start {f s B : ℕ} {ts : List (Ten ℂ)} {Ws : List (Mpo ℂ)} (h : NNCell f s B ts Ws) : ∀ {x y : List ℕ},
    Conf (ts.map Ten.d) x → Conf (ts.map Ten.d) y → ∀ b < B, mchain Ws x y b s = delta ℂ b s * same x y := by
  induction h with
  | nil => intro x y hx hy c; cases hx; cases hy; simp [mchain, same]
  | @cons t W ts Ws h _ ih =>
    intro x y hx hy b hb
    cases hx with
    | cons hx hx' =>
      cases hy with
      | cons hy hy' =>
        rw [h.2] at hx hy
        simp only [mchain]
        rw [h.1.r, sum_congr rfl fun c' hc' => by rw [ih hx' hy' c' (mem_range.1 hc')]]
        rw [sum_eq_single s, delta_self, h.1.start b hb _ hx _ hy, one_mul, ← same_cons]
        · ring
        · intro c _ hc; simp [delta, hc]
        · intro hb; exact absurd (mem_range.2 h.1.sB) hb

/-- A term that has begun is complete after one site. -/
theorem mchain_mid {f s B : ℕ} {ts : List (Ten ℂ)} {Ws : List (Mpo ℂ)} (h : NNCell f s B ts Ws) (hne : ts ≠ []) {x y : List ℕ}
    (hx : Conf (ts.map Ten.d) x) (hy : Conf (ts.map Ten.d) y) {b c : ℕ} (hb : b < B) (hbs : b ≠ s) (hc : c ≠ f) : mchain Ws x y b c = 0 := by
  by_cases hbf : b = f
  · subst hbf
    rw [mchain_done h hx hy]; simp [delta, hc.symm]
  cases h with
  | nil => exact absurd rfl hne
  | @cons t W ts Ws h h' =>
    cases hx with
    | cons hx hx' =>
      cases hy with
      | cons hy hy' =>
        rw [h.2] at hx hy
        simp only [mchain]
        refine sum_eq_zero fun e he => ?_
        have he' : e < B := by rw [← h.1.r]; exact mem_range.1 he
        by_cases h1 : e = f
        · subst h1; rw [mchain_done h' hx' hy']; simp [delta, hc.symm]
        by_cases h2 : e = s
        · subst h2; rw [h.1.start b hb _ hx _ hy]; simp [delta, hbs]
        · rw [h.1.mid b hb e he' hbf hbs h1 h2 _ hx _ hy]; simp

/-- Spec: the part of the contraction that begins in state `b`. -/
def part (E : Env ℂ) (D : ℕ) (ts : List (Ten ℂ)) (Ws : List (Mpo ℂ)) (b j j' c : ℕ) : ℂ :=
  sumCfg (ts.map Ten.d) fun x => sumCfg (ts.map Ten.d) fun y => ∑ i ∈ range D, ∑ i' ∈ range D,
    E.v i i' b * chain ts x i j * mchain Ws x y b c * star (chain ts y i' j')

theorem contrL_parts {E : Env ℂ} {D B : ℕ} (hu : E.u = D) (hw : E.w = D) (hm : E.m = B) (ts : List (Ten ℂ)) (Ws : List (Mpo ℂ)) (j j' c : ℕ) :
    contrL E ts Ws ts j j' c = ∑ b ∈ range B, part E D ts Ws b j j' c := by
  unfold contrL part
  rw [hu, hw, hm, ← sumCfg_sum]
  refine sumCfg_congr fun x _ => ?_
  rw [← sumCfg_sum]
  refine sumCfg_congr fun y _ => ?_
  rw [sum_comm (s := range B)]
  exact sum_congr rfl fun i _ => by rw [sum_comm (s := range B)]

/-- A diagonal matrix product operator leaves the transfer operator. -/
theorem part_same {E : Env ℂ} {D : ℕ} {ts : List (Ten ℂ)} {Ws : List (Mpo ℂ)} {b c j j' : ℕ} {q : ℂ}
    (h : ∀ x y, Conf (ts.map Ten.d) x → Conf (ts.map Ten.d) y → mchain Ws x y b c = q * same x y) :
    part E D ts Ws b j j' c = q * act .right ts D (fun i i' => E.v i i' b) j j' := by
  have e1 : ∀ x, Conf (ts.map Ten.d) x → (sumCfg (ts.map Ten.d) fun y => ∑ i ∈ range D, ∑ i' ∈ range D,
      E.v i i' b * chain ts x i j * mchain Ws x y b c * star (chain ts y i' j')) =
      ∑ i ∈ range D, ∑ i' ∈ range D, q * (E.v i i' b * (chain ts x i j * star (chain ts x i' j'))) := by
    intro x hx
    rw [← sumCfg_if hx fun y => ∑ i ∈ range D, ∑ i' ∈ range D, q * (E.v i i' b * (chain ts x i j * star (chain ts y i' j')))]
    refine sumCfg_congr fun y hy => ?_
    split_ifs with hxy
    · refine sum_congr rfl fun i _ => sum_congr rfl fun i' _ => ?_
      rw [h x y hx hy, same, if_pos hxy]; ring
    · refine sum_eq_zero fun i _ => sum_eq_zero fun i' _ => ?_
      rw [h x y hx hy, same, if_neg hxy]; ring
  unfold part
  rw [sumCfg_congr e1, sumCfg_sum]
  simp only [act, mul_sum, kern]
  refine sum_congr rfl fun i _ => ?_
  rw [sumCfg_sum]
  refine sum_congr rfl fun i' _ => ?_
  rw [sumCfg_mul, sumCfg_mul]

theorem part_zero {E : Env ℂ} {D : ℕ} {ts : List (Ten ℂ)} {Ws : List (Mpo ℂ)} {b c j j' : ℕ}
    (h : ∀ x y, Conf (ts.map Ten.d) x → Conf (ts.map Ten.d) y → mchain Ws x y b c = 0) : part E D ts Ws b j j' c = 0 := by
  rw [part_same (q := 0) fun x y hx hy => by rw [h x y hx hy]; ring]; ring

theorem part_congr {E F : Env ℂ} {D : ℕ} {b : ℕ} (h : ∀ i < D, ∀ i' < D, E.v i i' b = F.v i i' b) (ts : List (Ten ℂ)) (Ws : List (Mpo ℂ))
    (j j' c : ℕ) : part E D ts Ws b j j' c = part F D ts Ws b j j' c :=
  sumCfg_congr fun _ _ => sumCfg_congr fun _ _ => sum_congr rfl fun i hi => sum_congr rfl fun i' hi' => by
    rw [h i (mem_range.1 hi) i' (mem_range.1 hi')]

section cell
variable {f s B D : ℕ} {ts : List (Ten ℂ)} {Ws : List (Mpo ℂ)}

/-- The state in which no term has begun is propagated by the transfer operator. -/
theorem contr_start (h : NNCell f s B ts Ws) (hs : s < B) {E : Env ℂ} (hu : E.u = D) (hw : E.w = D) (hm : E.m = B) (j j' : ℕ) :
    contrL E ts Ws ts j j' s = act .right ts D (fun i i' => E.v i i' s) j j' := by
  rw [contrL_parts hu hw hm, sum_eq_single s]
  · rw [part_same (q := 1), one_mul]
    intro x y hx hy; rw [mchain_start h hx hy s hs]; simp
  · intro b hb hbs
    apply part_zero
    intro x y hx hy; rw [mchain_start h hx hy b (mem_range.1 hb)]; simp [delta, hbs]
  · intro hb; exact absurd (mem_range.2 hs) hb

/-- The states with terms that have begun depend on the state in which none had. -/
theorem contr_mid (h : NNCell f s B ts Ws) (hne : ts ≠ []) (hs : s < B) {E : Env ℂ} (hu : E.u = D) (hw : E.w = D) (hm : E.m = B) (j j' : ℕ)
    {c : ℕ} (hc : c ≠ f) : contrL E ts Ws ts j j' c = part E D ts Ws s j j' c := by
  rw [contrL_parts hu hw hm, sum_eq_single s]
  · intro b hb hbs
    exact part_zero fun x y hx hy => mchain_mid h hne hx hy (mem_range.1 hb) hbs hc
  · intro hb; exact absurd (mem_range.2 hs) hb

/-- The complete terms are propagated by the transfer operator, and the others are added. -/
theorem contr_done (h : NNCell f s B ts Ws) (hf : f < B) {E : Env ℂ} (hu : E.u = D) (hw : E.w = D) (hm : E.m = B) (j j' : ℕ) :
    contrL E ts Ws ts j j' f = act .right ts D (fun i i' => E.v i i' f) j j' + ∑ b ∈ (range B).erase f, part E D ts Ws b j j' f := by
  rw [contrL_parts hu hw hm, ← add_sum_erase _ _ (mem_range.2 hf)]
  congr 1
  rw [part_same (q := 1), one_mul]
  intro x y hx hy; rw [mchain_done h hx hy]; simp

/-- Two blocks that differ in the complete terms only. -/
theorem contr_diff (h : NNCell f s B ts Ws) (hf : f < B) {E F : Env ℂ} (hu : E.u = D) (hw : E.w = D) (hm : E.m = B)
    (hu' : F.u = D) (hw' : F.w = D) (hm' : F.m = B) (hE : ∀ b < B, b ≠ f → ∀ i < D, ∀ i' < D, E.v i i' b = F.v i i' b) (j j' : ℕ) :
    contrL E ts Ws ts j j' f - contrL F ts Ws ts j j' f =
      act .right ts D (fun i i' => E.v i i' f) j j' - act .right ts D (fun i i' => F.v i i' f) j j' := by
  rw [contr_done h hf hu hw hm, contr_done h hf hu' hw' hm', sum_congr rfl fun b hb =>
    part_congr (hE b (mem_range.1 (mem_of_mem_erase hb)) (ne_of_mem_erase hb)) ts Ws j j' f]
  ring

end cell

end

end PyTeN.Steady
