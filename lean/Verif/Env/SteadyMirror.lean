import Verif.Env.SteadyCore

/-! # Lemmas for steady-state Hamiltonians: reflection of the chain -/

namespace PyTeN.Steady
open Finset Transfer Regauge
noncomputable section

/-- The reflected tensor. -/
def rT (t : Ten ℂ) : Ten ℂ := ⟨t.r, t.l, t.d, fun i j s => t.v j i s⟩

/-- The reflected tensor of a matrix product operator. -/
def rW (W : Mpo ℂ) : Mpo ℂ := ⟨W.r, W.l, W.din, W.dout, fun b c s t => W.v c b s t⟩

/-- The reflected unit cells. -/
def rTs (ts : List (Ten ℂ)) : List (Ten ℂ) := (ts.map rT).reverse
def rWs (Ws : List (Mpo ℂ)) : List (Mpo ℂ) := (Ws.map rW).reverse

theorem rTs_rTs (ts : List (Ten ℂ)) : rTs (rTs ts) = ts := by
  simp only [rTs, List.map_reverse, List.reverse_reverse, List.map_map]
  conv_rhs => rw [← List.map_id ts]
  rfl

theorem rTs_append (ts us : List (Ten ℂ)) : rTs (ts ++ us) = rTs us ++ rTs ts := by simp [rTs]
theorem rWs_append (ts us : List (Mpo ℂ)) : rWs (ts ++ us) = rWs us ++ rWs ts := by simp [rWs]

theorem rTs_cells (ts : List (Ten ℂ)) (n : ℕ) : rTs (cells n ts) = cells n (rTs ts) := by
  induction n with
  | zero => rfl
  | succ n ih => rw [cells_succ, rTs_append, ih]; simp [cells, List.replicate_succ]

theorem rWs_cells (ts : List (Mpo ℂ)) (n : ℕ) : rWs (cells n ts) = cells n (rWs ts) := by
  induction n with
  | zero => rfl
  | succ n ih => rw [cells_succ, rWs_append, ih]; simp [cells, List.replicate_succ]

theorem rT_linked {l r : ℕ} {ts : List (Ten ℂ)} (h : Linked l ts r) : Linked r (rTs ts) l := by
  induction ts generalizing l with
  | nil => exact Eq.symm h
  | cons t ts ih =>
    have : rTs (t :: ts) = rTs ts ++ [rT t] := by simp [rTs]
    rw [this]
    exact linked_append.2 ⟨t.r, ih h.2, rfl, h.1⟩

theorem rT_orth {t : Ten ℂ} (h : RightOrth t) : LeftOrth (rT t) := by
  intro j hj j' hj'
  have := h j' hj' j hj
  rw [show delta ℂ j j' = delta ℂ j' j by unfold delta; simp [eq_comm], ← this]
  exact sum_congr rfl fun s _ => sum_congr rfl fun i _ => mul_comm _ _

theorem rT_orths {ts : List (Ten ℂ)} (h : ∀ t ∈ ts, RightOrth t) : ∀ t ∈ rTs ts, LeftOrth t := by
  intro t ht
  simp only [rTs, List.mem_reverse, List.mem_map] at ht
  obtain ⟨u, hu, rfl⟩ := ht
  exact rT_orth (h u hu)

theorem rW_site {f s B : ℕ} {W : Mpo ℂ} (h : NNSite f s B W) : NNSite s f B (rW W) where
  l := h.r
  r := h.l
  dd := h.dd
  fB := h.sB
  sB := h.fB
  ne := h.ne.symm
  done c hc x hx y hy := by
    have := h.start c hc x hx y hy
    rw [show delta ℂ s c = delta ℂ c s by unfold delta; simp [eq_comm]]; exact this
  start b hb x hx y hy := by
    have := h.done b hb x hx y hy
    rw [show delta ℂ b f = delta ℂ f b by unfold delta; simp [eq_comm]]; exact this
  mid b hb c hc h1 h2 h3 h4 x hx y hy := h.mid c hc b hb h4 h3 h2 h1 x hx y hy

theorem rW_cell {f s B : ℕ} {ts : List (Ten ℂ)} {Ws : List (Mpo ℂ)} (h : NNCell f s B ts Ws) : NNCell s f B (rTs ts) (rWs Ws) := by
  induction h with
  | nil => exact List.Forall₂.nil
  | @cons t W ts Ws h _ ih =>
    rw [show rTs (t :: ts) = rTs ts ++ [rT t] by simp [rTs], show rWs (W :: Ws) = rWs Ws ++ [rW W] by simp [rWs]]
    exact NNCell.append ih (List.Forall₂.cons ⟨rW_site h.1, h.2⟩ List.Forall₂.nil)

/-- The contraction from the right is that of the reflected chain from the left. -/
theorem contrR_mirror {f s B : ℕ} {ts : List (Ten ℂ)} {Ws : List (Mpo ℂ)} (h : NNCell f s B ts Ws) {l r : ℕ} (hl : Linked l ts r)
    {E : Env ℂ} (hu : E.u = r) (hw : E.w = r) (hm : E.m = B) {i i' b : ℕ} (hi : i < l) (hi' : i' < l) (hb : b < B) :
    contrR E ts Ws ts i i' b = contrL E (rTs ts) (rWs Ws) (rTs ts) i i' b := by
  induction ts using List.reverseRecOn generalizing Ws E r with
  | nil =>
    cases h
    simp only [Linked] at hl; subst hl
    rw [contrR_nil E (by rw [hu]; exact hi) (by rw [hw]; exact hi') (by rw [hm]; exact hb)]
    exact (contrL_nil E (by rw [hu]; exact hi) (by rw [hw]; exact hi') (by rw [hm]; exact hb)).symm
  | append_singleton X A ih =>
    obtain ⟨V, U, hV, hU, rfl⟩ : ∃ V U, NNCell f s B X V ∧ NNCell f s B [A] U ∧ Ws = V ++ U := by
      have h1 := List.forall₂_take_append Ws X [A] (List.Forall₂.flip h) 
      have h2 := List.forall₂_drop_append Ws X [A] (List.Forall₂.flip h)
      exact ⟨_, _, List.Forall₂.flip h1, List.Forall₂.flip h2, (List.take_append_drop _ _).symm⟩
    obtain ⟨W, rfl, hW⟩ : ∃ W, U = [W] ∧ NNSite f s B W ∧ A.d = W.din := by
      cases hU with | cons h1 h2 => cases h2; exact ⟨_, rfl, h1⟩
    obtain ⟨q, l1, l2⟩ := linked_append.1 hl
    obtain ⟨e1, e2⟩ := l2
    have hAr : A.r = r := e2
    have hc : E.u = A.r ∧ E.m = W.r ∧ A.d = W.din ∧ E.w = A.r ∧ W.dout = A.d :=
      ⟨by rw [hu, hAr], by rw [hm, hW.1.r], hW.2, by rw [hw, hAr], by rw [hW.1.dd, hW.2]⟩
    obtain ⟨F, hF⟩ : ∃ F, addLayerL E A W A = .ok F := by unfold addLayerL; rw [if_pos hc]; exact ⟨_, rfl⟩
    obtain ⟨f1, f2, f3, -, -, -, -, -, f9⟩ := addLayerL_v hF
    have hF' : addLayerR E (rT A) (rW W) (rT A) = .ok F := hF
    have hlen := hV.length_eq
    rw [contrR_append (F := F) (fun q _ q' _ c _ => f9 q q' c) (by rw [f1, e1]; exact l1) (by rw [f2, e1]; exact l1)
      (by rw [f3, hW.1.l]; exact hV.mlinked) hlen hlen.symm hi hi' hb, rTs_append, rWs_append]
    rw [show rTs [A] = [rT A] from rfl, show rWs [W] = [rW W] from rfl, List.singleton_append, List.singleton_append, contrL_cons hF']
    exact ih hV l1 (by rw [f1, e1]) (by rw [f2, e1]) (by rw [f3, hW.1.l])

/-- The same for the transfer operator. -/
theorem act_mirror {D : ℕ} {ts : List (Ten ℂ)} (hne : ts ≠ []) (hl : Linked D ts D) (g : ℕ → ℕ → ℂ) {i i' : ℕ} (hi : i < D) (hi' : i' < D) :
    act .left ts D g i i' = act .right (rTs ts) D g i i' := by
  obtain ⟨x, -, hx⟩ := flat_isMat (f := g) (r := D) rfl
  obtain ⟨y, y1, y2⟩ := unit_act .left hne hl hx
  have hne' : rTs ts ≠ [] := by simp [rTs, hne]
  obtain ⟨z, z1, z2⟩ := unit_act .right hne' (rT_linked hl) hx
  have e : ∀ (us : List (Ten ℂ)) (x : Vec ℂ), unitLoop .left us x = unitLoop .right (us.map rT) x := by
    intro us
    induction us with
    | nil => intro x; rfl
    | cons u us ih =>
      intro x
      simp only [unitLoop, List.map_cons]
      have : transferOperator .left (.arr u) x = transferOperator .right (.arr (rT u)) x := rfl
      rw [this]
      split
      · rfl
      · exact ih _
  have h1 : unitcellTransferOperator .left ts x = unitcellTransferOperator .right (rTs ts) x := by
    unfold unitcellTransferOperator
    rw [if_neg hne, if_neg hne']
    change unitLoop .left ts.reverse x = unitLoop .right (rTs ts) x
    rw [e, rTs, List.map_reverse]
  rw [h1, z1] at y1
  cases y1
  rw [← y2.2 i hi i' hi', ← z2.2 i hi i' hi']

theorem act_mirror' {D : ℕ} {ts : List (Ten ℂ)} (hne : ts ≠ []) (hl : Linked D ts D) (g : ℕ → ℕ → ℂ) {i i' : ℕ} (hi : i < D) (hi' : i' < D) :
    act .left (rTs ts) D g i i' = act .right ts D g i i' := by
  rw [act_mirror (by simp [rTs, hne]) (rT_linked hl) g hi hi', rTs_rTs]

end

end PyTeN.Steady
