import Verif.Ncon.Model

/-! # Specification of `ncon`: sums over label assignments, and lemmas about them -/

namespace PyTeN.Ncon
open Finset

set_option linter.unusedSectionVars false

variable {K : Type*} [CommSemiring K]

/-- Sum over all values of the labels `cs` within their dimensions; the other labels keep the value given by `σ`. -/
def sumOver (dim : ℤ → ℕ) : List ℤ → ((ℤ → ℕ) → K) → (ℤ → ℕ) → K
  | [], f, σ => f σ
  | c :: cs, f, σ => ∑ i ∈ range (dim c), sumOver dim cs f (Function.update σ c i)

/-- Product of the entries of all tensors at a label assignment. -/
def netVal (net : List (Node K)) (σ : ℤ → ℕ) : K := (net.map fun x => x.1.val (x.2.map σ)).prod

variable {dim : ℤ → ℕ}

theorem sumOver_congr {cs : List ℤ} {f g : (ℤ → ℕ) → K} {σ : ℤ → ℕ}
    (h : ∀ τ : ℤ → ℕ, (∀ x, x ∉ cs → τ x = σ x) → f τ = g τ) : sumOver dim cs f σ = sumOver dim cs g σ := by
  induction cs generalizing σ with
  | nil => exact h σ fun _ _ => rfl
  | cons c cs ih =>
    refine sum_congr rfl fun i _ => ih fun τ hτ => h τ fun x hx => ?_
    rw [hτ x fun h => hx (by simp [h]), Function.update_of_ne]
    rintro rfl; exact hx (by simp)

theorem sumOver_append (as bs : List ℤ) (f : (ℤ → ℕ) → K) (σ : ℤ → ℕ) :
    sumOver dim (as ++ bs) f σ = sumOver dim as (sumOver dim bs f) σ := by
  induction as generalizing σ with
  | nil => rfl
  | cons a as ih => exact sum_congr rfl fun i _ => ih _

theorem sumOver_perm {as bs : List ℤ} (h : as.Perm bs) (hn : as.Nodup) (f : (ℤ → ℕ) → K) (σ : ℤ → ℕ) :
    sumOver dim as f σ = sumOver dim bs f σ := by
  induction h generalizing σ with
  | nil => rfl
  | cons a h ih => exact sum_congr rfl fun i _ => ih hn.of_cons _
  | swap a b l =>
    have hab : b ≠ a := by
      rintro rfl; simp at hn
    simp only [sumOver]
    rw [sum_comm]
    exact sum_congr rfl fun i _ => sum_congr rfl fun j _ => by rw [Function.update_comm hab]
  | trans h1 _ ih1 ih2 => rw [ih1 hn, ih2 (h1.nodup_iff.mp hn)]

theorem sumOver_mul {cs : List ℤ} {f g : (ℤ → ℕ) → K} {σ : ℤ → ℕ}
    (h : ∀ τ : ℤ → ℕ, (∀ x, x ∉ cs → τ x = σ x) → f τ = f σ) :
    sumOver dim cs (fun τ => f τ * g τ) σ = f σ * sumOver dim cs g σ := by
  rw [sumOver_congr (g := fun τ => f σ * g τ) fun τ hτ => by rw [h τ hτ]]
  clear h
  generalize f σ = c
  induction cs generalizing σ with
  | nil => rfl
  | cons a as ih =>
    simp only [sumOver, mul_sum]
    exact sum_congr rfl fun i _ => ih

theorem sumIdx_eq {icon : List ℤ} (hn : icon.Nodup) (F : List ℕ → K) (σ : ℤ → ℕ) :
    sumIdx (icon.map dim) F = sumOver dim icon (fun τ => F (icon.map τ)) σ := by
  induction icon generalizing F σ with
  | nil => rfl
  | cons e es ih =>
    simp only [List.map_cons, sumIdx, sumOver]
    refine sum_congr rfl fun i _ => ?_
    rw [ih hn.of_cons (fun ks => F (i :: ks)) (Function.update σ e i)]
    refine sumOver_congr fun τ hτ => ?_
    have : τ e = i := by
      rw [hτ e (List.nodup_cons.mp hn).1, Function.update_self]
    simp [this]

theorem netVal_perm {net net' : List (Node K)} (h : net.Perm net') (σ : ℤ → ℕ) : netVal net σ = netVal net' σ :=
  (h.map _).prod_eq

/-- All labels of a network. -/
def labels (net : List (Node K)) : List ℤ := net.flatMap Prod.snd

theorem netVal_indep {net : List (Node K)} {σ τ : ℤ → ℕ} (h : ∀ x ∈ labels net, τ x = σ x) :
    netVal net τ = netVal net σ := by
  unfold netVal
  congr 1
  refine List.map_congr_left fun x hx => ?_
  rw [List.map_congr_left fun e he => h e (List.mem_flatMap.mpr ⟨x, hx, he⟩)]

/-! ## Axes and labels -/

theorem getD_map_idxOf {α β : Type*} [DecidableEq α] {l : List α} {q : α} (h : q ∈ l) (f : α → β) (d : β) :
    (l.map f).getD (l.idxOf q) d = f q := by
  have := List.idxOf_lt_length_iff.mpr h
  rw [List.getD_eq_getElem _ _ (by simpa using this), List.getElem_map, List.getElem_idxOf]

theorem map_range_getD (ls : List ℤ) : (List.range ls.length).map (fun i => ls.getD i 0) = ls := by
  apply List.ext_getElem
  · simp
  · intro i h1 h2
    rw [List.getElem_map, List.getElem_range, List.getD_eq_getElem _ _ h2]

theorem filter_eq_map (ls : List ℤ) (p : ℤ → Bool) :
    ls.filter p = ((List.range ls.length).filter fun i => p (ls.getD i 0)).map fun i => ls.getD i 0 := by
  conv_lhs => rw [← map_range_getD ls, List.filter_map]
  rfl

theorem mem_getPos {ls icon : List ℤ} {q : ℕ} (hq : q < ls.length) : q ∈ getPos ls icon ↔ ls.getD q 0 ∈ icon := by
  simp only [getPos, List.mem_flatMap, List.mem_filter, List.mem_range, decide_eq_true_eq]
  constructor
  · rintro ⟨e, he, -, rfl⟩; exact he
  · intro h; exact ⟨_, h, hq, rfl⟩

theorem restAxes_map {ls icon : List ℤ} {pos : List ℕ} (hp : ∀ q < ls.length, q ∈ pos ↔ ls.getD q 0 ∈ icon) :
    (restAxes ls.length pos).map (fun i => ls.getD i 0) = ls.filter fun l => !icon.contains l := by
  rw [filter_eq_map]
  unfold restAxes
  congr 1
  refine List.filter_congr fun q hq => ?_
  have := hp q (List.mem_range.mp hq)
  simp only [List.contains_eq_mem, this]

/-- The full index tuple is the tuple of label values. -/
theorem fullIdx_eq {ls icon : List ℤ} {pos ks : List ℕ} {τ : ℤ → ℕ}
    (hp : ∀ q < ls.length, q ∈ pos ↔ ls.getD q 0 ∈ icon)
    (hk : ∀ q < ls.length, q ∈ pos → ks.getD (pos.idxOf q) 0 = τ (ls.getD q 0)) :
    fullIdx ls.length pos ks ((ls.filter fun l => !icon.contains l).map τ) = ls.map τ := by
  conv_rhs => rw [← map_range_getD ls, List.map_map]
  unfold fullIdx
  refine List.map_congr_left fun q hq => ?_
  have hq' := List.mem_range.mp hq
  by_cases h : q ∈ pos
  · rw [if_pos h, hk q hq' h]; rfl
  · rw [if_neg h, ← restAxes_map hp, List.map_map, getD_map_idxOf]
    unfold restAxes
    simp [hq', h]

theorem shape_getD {A : Arr K} {ls : List ℤ} (h : A.shape = ls.map dim) {q : ℕ} (hq : q < ls.length) :
    A.shape.getD q 0 = dim (ls.getD q 0) := by
  rw [h, List.getD_eq_getElem _ _ (by simpa using hq), List.getD_eq_getElem _ _ hq, List.getElem_map]

theorem restAxes_shape {A : Arr K} {ls icon : List ℤ} {pos : List ℕ} (h : A.shape = ls.map dim)
    (hp : ∀ q < ls.length, q ∈ pos ↔ ls.getD q 0 ∈ icon) :
    (restAxes ls.length pos).map (fun a => A.shape.getD a 0) = (ls.filter fun l => !icon.contains l).map dim := by
  rw [← restAxes_map hp, List.map_map]
  refine List.map_congr_left fun q hq => ?_
  have : q < ls.length := List.mem_range.mp (List.mem_filter.mp hq).1
  exact shape_getD h this

/-! ## Trace -/

theorem getPos_two {ls : List ℤ} {e : ℤ} (h : ls.count e = 2) : ∃ p q, p ≠ q ∧ getPos ls [e] = [p, q] := by
  have hl : (getPos ls [e]).length = 2 := by
    rw [← h]
    simp only [getPos, List.flatMap_cons, List.flatMap_nil, List.append_nil]
    rw [← List.length_map (f := fun i => ls.getD i 0), ← filter_eq_map ls fun x => decide (x = e), List.count_eq_length_filter]
    congr 1
  have hn : (getPos ls [e]).Nodup := by
    simp only [getPos, List.flatMap_cons, List.flatMap_nil, List.append_nil]
    exact List.nodup_range.filter _
  match getPos ls [e], hl, hn with
  | [p, q], _, hn => exact ⟨p, q, by simpa using hn, rfl⟩

theorem trace_val {A : Arr K} {ls : List ℤ} {e : ℤ} {p q : ℕ} (hA : A.shape = ls.map dim) (hpq : p ≠ q)
    (hp : getPos ls [e] = [p, q]) (σ : ℤ → ℕ) :
    (trace A p q).val ((ls.filter fun l => !([e] : List ℤ).contains l).map σ)
      = sumOver dim [e] (fun τ => A.val (ls.map τ)) σ := by
  have hl : A.shape.length = ls.length := by rw [hA, List.length_map]
  have hm : ∀ x < ls.length, x ∈ [p, q] ↔ ls.getD x 0 ∈ [e] := fun x hx => by rw [← hp]; exact mem_getPos hx
  have hlt : ∀ x ∈ [p, q], x < ls.length := by
    intro x hx
    rw [← hp] at hx
    simp only [getPos, List.mem_flatMap, List.mem_filter, List.mem_range] at hx
    obtain ⟨_, _, h, _⟩ := hx
    exact h
  have hpl := hlt p (by simp)
  have hql := hlt q (by simp)
  have hpe : ls.getD p 0 = e := by simpa using (hm p hpl).mp (by simp)
  have hqe : ls.getD q 0 = e := by simpa using (hm q hql).mp (by simp)
  simp only [trace, sumOver, shape_getD hA hpl, shape_getD hA hql, hpe, hqe, min_self, hl]
  refine sum_congr rfl fun k _ => ?_
  have e1 : (ls.filter fun l => !([e] : List ℤ).contains l).map σ
      = (ls.filter fun l => !([e] : List ℤ).contains l).map (Function.update σ e k) := by
    refine List.map_congr_left fun x hx => ?_
    rw [Function.update_of_ne]
    rintro rfl
    simp at hx
  rw [e1, fullIdx_eq hm]
  intro x hx hxp
  have hxe : ls.getD x 0 = e := by simpa using (hm x hx).mp hxp
  rw [hxe, Function.update_self]
  simp only [List.mem_cons, List.not_mem_nil, or_false] at hxp
  rcases hxp with rfl | rfl
  · simp
  · rw [List.idxOf_cons_ne _ hpq]; simp

theorem trace_shape {A : Arr K} {ls : List ℤ} {e : ℤ} {p q : ℕ} (hA : A.shape = ls.map dim)
    (hp : getPos ls [e] = [p, q]) :
    (trace A p q).shape = (ls.filter fun l => !([e] : List ℤ).contains l).map dim := by
  have hl : A.shape.length = ls.length := by rw [hA, List.length_map]
  have hm : ∀ x < ls.length, x ∈ [p, q] ↔ ls.getD x 0 ∈ [e] := fun x hx => by rw [← hp]; exact mem_getPos hx
  simp only [trace, hl]
  exact restAxes_shape hA hm

/-! ## Contraction of two tensors -/

theorem getPos_one {ls icon : List ℤ} (h : ∀ e ∈ icon, ls.count e = 1) :
    getPos ls icon = icon.map fun e => ls.idxOf e := by
  induction icon with
  | nil => rfl
  | cons e es ih =>
    have e1 : getPos ls (e :: es) = getPos ls [e] ++ getPos ls es := by simp [getPos]
    rw [e1, ih fun x hx => h x (by simp [hx]), List.map_cons, ← List.singleton_append]
    have hc := h e (by simp)
    have hmem : e ∈ ls := List.count_pos_iff.mp (by omega)
    have hl : (getPos ls [e]).length = 1 := by
      rw [← hc]
      simp only [getPos, List.flatMap_cons, List.flatMap_nil, List.append_nil]
      rw [← List.length_map (f := fun i => ls.getD i 0), ← filter_eq_map ls fun x => decide (x = e), List.count_eq_length_filter]
      congr 1
    have hi : ls.idxOf e ∈ getPos ls [e] := by
      have := List.idxOf_lt_length_iff.mpr hmem
      rw [mem_getPos this, List.getD_eq_getElem _ _ this, List.getElem_idxOf]; simp
    match getPos ls [e], hl, hi with
    | [p], _, hi => simp at hi; rw [hi]; rfl

theorem pos_idx {ls icon : List ℤ} (h : ∀ e ∈ icon, ls.count e = 1) {τ : ℤ → ℕ} {q : ℕ} (hq : q < ls.length)
    (hqp : q ∈ getPos ls icon) : (icon.map τ).getD ((getPos ls icon).idxOf q) 0 = τ (ls.getD q 0) := by
  have he := (mem_getPos hq).mp hqp
  have hidx : ls.idxOf (ls.getD q 0) = q := by
    have hpos : getPos ls [ls.getD q 0] = [ls.idxOf (ls.getD q 0)] := by
      simpa using getPos_one (ls := ls) (icon := [ls.getD q 0]) (by simpa using h _ he)
    have : q ∈ getPos ls [ls.getD q 0] := by rw [mem_getPos hq]; simp
    rw [hpos] at this
    exact (List.mem_singleton.mp this).symm
  have key : (getPos ls icon).idxOf q = icon.idxOf (ls.getD q 0) := by
    rw [getPos_one h]
    generalize hE : ls.getD q 0 = e at *
    clear hqp
    have hmem : e ∈ ls := List.count_pos_iff.mp (by rw [h e he]; omega)
    clear hE
    induction icon with
    | nil => simp at he
    | cons a as ih =>
      by_cases hae : a = e
      · subst hae; simp [hidx]
      · have hne : ls.idxOf a ≠ q := by
          intro h'
          apply hae
          have ha : a ∈ ls := List.count_pos_iff.mp (by rw [h a (by simp)]; omega)
          have h1 := List.getElem_idxOf (List.idxOf_lt_length_iff.mpr ha)
          have h2 := List.getElem_idxOf (List.idxOf_lt_length_iff.mpr hmem)
          simp only [h', hidx] at h1 h2
          rw [← h1, ← h2]
        rw [List.map_cons, List.idxOf_cons_ne _ hne, List.idxOf_cons_ne _ hae,
          ih (fun x hx => h x (by simp [hx])) (by
            rcases List.mem_cons.mp he with h' | h'
            · exact absurd h'.symm hae
            · exact h')]
  rw [key, getD_map_idxOf he]

theorem tensordot_ok {A B : Arr K} {ls ms icon : List ℤ} (hA : A.shape = ls.map dim) (hB : B.shape = ms.map dim)
    (hn : icon.Nodup) (h1 : ∀ e ∈ icon, ls.count e = 1) (h2 : ∀ e ∈ icon, ms.count e = 1) :
    ∃ C, tensordot A B (getPos ls icon) (getPos ms icon) = .ok C ∧
      C.shape = ((ls ++ ms).filter fun l => !icon.contains l).map dim ∧
      ∀ σ, C.val (((ls ++ ms).filter fun l => !icon.contains l).map σ)
        = sumOver dim icon (fun τ => A.val (ls.map τ) * B.val (ms.map τ)) σ := by
  have hl : A.shape.length = ls.length := by rw [hA, List.length_map]
  have hl' : B.shape.length = ms.length := by rw [hB, List.length_map]
  have d1 : ∀ (ls : List ℤ) (A : Arr K), A.shape = ls.map dim → (∀ e ∈ icon, ls.count e = 1) →
      (getPos ls icon).map (fun a => A.shape.getD a 0) = icon.map dim := by
    intro ls A hA h1
    rw [getPos_one h1, List.map_map]
    refine List.map_congr_left fun e he => ?_
    have hmem : e ∈ ls := List.count_pos_iff.mp (by rw [h1 e he]; omega)
    have hlt := List.idxOf_lt_length_iff.mpr hmem
    simp only [Function.comp]
    rw [shape_getD hA hlt, List.getD_eq_getElem _ _ hlt, List.getElem_idxOf]
  have m1 : ∀ q < ls.length, q ∈ getPos ls icon ↔ ls.getD q 0 ∈ icon := fun q hq => mem_getPos hq
  have m2 : ∀ q < ms.length, q ∈ getPos ms icon ↔ ms.getD q 0 ∈ icon := fun q hq => mem_getPos hq
  unfold tensordot
  simp only [hl, hl']
  rw [if_pos ((d1 ls A hA h1).trans (d1 ms B hB h2).symm)]
  refine ⟨_, rfl, ?_, fun σ => ?_⟩
  · simp only [restAxes_shape hA m1, restAxes_shape hB m2, List.filter_append, List.map_append]
  · simp only [d1 ls A hA h1]
    rw [sumIdx_eq hn _ σ]
    refine sumOver_congr fun τ hτ => ?_
    have e1 : ((ls ++ ms).filter fun l => !icon.contains l).map σ
        = ((ls ++ ms).filter fun l => !icon.contains l).map τ := by
      refine List.map_congr_left fun x hx => (hτ x ?_).symm
      simpa using (List.mem_filter.mp hx).2
    have e2 : (restAxes ls.length (getPos ls icon)).length = ((ls.filter fun l => !icon.contains l).map τ).length := by
      rw [← restAxes_map m1]; simp
    rw [e1, List.filter_append, List.map_append, e2, List.take_left, List.drop_left,
      fullIdx_eq m1 fun q hq hqp => pos_idx h1 hq hqp, fullIdx_eq m2 fun q hq hqp => pos_idx h2 hq hqp]

end PyTeN.Ncon
