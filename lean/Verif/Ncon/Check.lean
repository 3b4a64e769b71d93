import Verif.Ncon.Graph

/-! # Index check, default orders and final transposition of `ncon` -/

namespace PyTeN.Ncon
open Finset

set_option linter.unusedSectionVars false

variable {K : Type*} [CommSemiring K] {dim : ℤ → ℕ}

/-! ## Final transposition -/

theorem permuteFinal_ok {x : Node K} {forder : List ℤ} (hw : WF dim [x] [] forder) (hn : forder.Nodup) :
    ∃ R, permuteFinal x.1 x.2 forder = .ok R ∧ R.shape = forder.map dim ∧
      ∀ σ : ℤ → ℕ, R.val (forder.map σ) = x.1.val (x.2.map σ) := by
  obtain ⟨A, ls⟩ := x
  have hl : labels [((A, ls) : Node K)] = ls := by simp [labels]
  have hs : A.shape = ls.map dim := hw.shape (A, ls) (by simp)
  have hfree := hw.free
  have hall := hw.all
  rw [hl] at hfree hall
  have hmem : ∀ f ∈ forder, f ∈ ls := fun f hf => List.count_pos_iff.mp (by rw [hfree f hf]; omega)
  have hall' : ∀ e ∈ ls, e ∈ forder := fun e he => (hall e he).resolve_left (by simp)
  have hls : ls.Nodup := List.nodup_iff_count_eq_one.mpr fun e he => hfree e (hall' e he)
  have hperm : ls.Perm forder := (List.perm_ext_iff_of_nodup hls hn).mpr fun e => ⟨hall' e, hmem e⟩
  have hpn : (forder.map fun f => ls.idxOf f).Nodup := by
    refine hn.map_on ?_
    intro a ha b hb hab
    exact (List.idxOf_inj (hmem a ha)).mp hab
  simp only [permuteFinal]
  rw [if_pos (by simpa using hmem), if_pos ⟨by rw [List.length_map, hs, List.length_map, hperm.length_eq], hpn⟩]
  refine ⟨_, rfl, ?_, ?_⟩
  · rw [List.map_map]
    refine List.map_congr_left fun f hf => ?_
    have hlt := List.idxOf_lt_length_of_mem (hmem f hf)
    simp only [Function.comp, hs]
    rw [List.getD_eq_getElem _ _ (by simpa using hlt), List.getElem_map, List.getElem_idxOf hlt]
  · intro σ
    refine congrArg A.val (List.ext_getElem (by simp [hs]) fun q h1 h2 => ?_)
    have hq : q < ls.length := by simpa using h2
    have hf := hall' ls[q] (List.getElem_mem hq)
    have hp := List.idxOf_lt_length_of_mem hf
    simp only [List.getElem_map, List.getElem_range]
    have e1 : (forder.map fun f => ls.idxOf f).idxOf q = forder.idxOf ls[q] := by
      have h3 : (forder.map fun f => ls.idxOf f)[forder.idxOf ls[q]]'(by simpa using hp) = q := by
        rw [List.getElem_map, List.getElem_idxOf hp, hls.idxOf_getElem]
      conv_lhs => rw [← h3]
      exact hpn.idxOf_getElem _ _
    rw [e1, List.getD_eq_getElem _ _ (by simpa using hp), List.getElem_map, List.getElem_idxOf hp]

/-! ## Default orders -/

theorem mem_createOrder {v : List (List ℤ)} {e : ℤ} : e ∈ createOrder v ↔ e ∈ v.flatten ∧ 0 < e := by
  simp only [createOrder, List.mem_mergeSort, List.mem_dedup, List.mem_filter, decide_eq_true_eq]

theorem mem_createForder {v : List (List ℤ)} {e : ℤ} : e ∈ createForder v ↔ e ∈ v.flatten ∧ e < 0 := by
  simp only [createForder, List.mem_mergeSort, List.mem_dedup, List.mem_filter, decide_eq_true_eq]

theorem nodup_createOrder (v : List (List ℤ)) : (createOrder v).Nodup :=
  (List.mergeSort_perm _ _).nodup_iff.mpr (List.nodup_dedup _)

theorem nodup_createForder (v : List (List ℤ)) : (createForder v).Nodup :=
  (List.mergeSort_perm _ _).nodup_iff.mpr (List.nodup_dedup _)

theorem sorted_createOrder (v : List (List ℤ)) : (createOrder v).Pairwise (· < ·) := by
  have h1 : (createOrder v).Pairwise fun a b => decide (a ≤ b) = true :=
    List.pairwise_mergeSort (fun a b c h1 h2 => by simp at *; omega) (fun a b => by simp; omega) _
  have h2 := nodup_createOrder v
  refine (h1.and h2).imp fun {a b} h => ?_
  have := h.1
  have := h.2
  simp at *
  omega

theorem sorted_createForder (v : List (List ℤ)) : (createForder v).Pairwise (· > ·) := by
  have h1 : (createForder v).Pairwise fun a b => decide (b ≤ a) = true :=
    List.pairwise_mergeSort (fun a b c h1 h2 => by simp at *; omega) (fun a b => by simp; omega) _
  have h2 := nodup_createForder v
  refine (h1.and h2).imp fun {a b} h => ?_
  have := h.1
  have := h.2
  simp at *
  omega

/-! ## Index check -/

theorem labels_zip {AA : List (Arr K)} {v : List (List ℤ)} (h : AA.length = v.length) : labels (AA.zip v) = v.flatten := by
  induction AA generalizing v with
  | nil =>
    obtain rfl : v = [] := List.eq_nil_of_length_eq_zero (by simpa using h.symm)
    rfl
  | cons A AA ih =>
    match v, h with
    | l :: v, h =>
      rw [List.zip_cons_cons, labels_cons, ih (by simpa using h)]
      simp

theorem zip_count (ls : List ℤ) (s : List ℕ) (e : ℤ) (h : ls.length = s.length) :
    (((ls.zip s).filter fun y => decide (y.1 = e)).map Prod.snd).length = ls.count e := by
  induction ls generalizing s with
  | nil => simp
  | cons a ls ih =>
    match s, h with
    | n :: s, h =>
      have := ih s (by simpa using h)
      rw [List.zip_cons_cons, List.filter_cons, List.count_cons]
      by_cases hae : a = e
      · simp [hae, ← this]
      · simp [hae, ← this]

theorem legDims_length {net : List (Node K)} (h : ∀ x ∈ net, x.2.length = x.1.shape.length) (e : ℤ) :
    (legDims net e).length = (labels net).count e := by
  induction net with
  | nil => rfl
  | cons x net ih =>
    have := ih fun y hy => h y (by simp [hy])
    simp only [legDims, List.flatMap_cons, List.length_append, labels_cons, List.count_append] at *
    rw [zip_count _ _ _ (h x (by simp)), this]

theorem mem_legDims {net : List (Node K)} {x : Node K} (hx : x ∈ net) {j : ℕ} (h1 : j < x.2.length) (h2 : j < x.1.shape.length) :
    x.1.shape[j] ∈ legDims net x.2[j] := by
  refine List.mem_flatMap.mpr ⟨x, hx, List.mem_map.mpr ⟨(x.2[j], x.1.shape[j]), List.mem_filter.mpr ⟨?_, by simp⟩, rfl⟩⟩
  have hj : j < (x.2.zip x.1.shape).length := by simp [h1, h2]
  have := List.getElem_mem hj
  rwa [List.getElem_zip] at this

/-- What the index check tests, in terms of positions: the tensor and label counts agree, every tensor has as many labels
as axes, every label of `order` occurs exactly twice and any two legs with it have the same dimension, every label of `forder`
occurs exactly once. -/
structure Checked (AA : List (Arr K)) (v : List (List ℤ)) (order forder : List ℤ) : Prop where
  len : AA.length = v.length
  rank : ∀ (i : ℕ) (A : Arr K) (l : List ℤ), AA[i]? = some A → v[i]? = some l → l.length = A.shape.length
  two : ∀ e ∈ order, v.flatten.count e = 2
  dims : ∀ e ∈ order, ∀ (i j i' j' : ℕ) (A A' : Arr K) (l l' : List ℤ) (m m' : ℕ), AA[i]? = some A → v[i]? = some l →
    AA[i']? = some A' → v[i']? = some l' → l[j]? = some e → l'[j']? = some e → A.shape[j]? = some m → A'.shape[j']? = some m' →
    m = m'
  one : ∀ e ∈ forder, v.flatten.count e = 1

theorem mem_zip_iff {AA : List (Arr K)} {v : List (List ℤ)} {x : Node K} :
    x ∈ AA.zip v ↔ ∃ i : ℕ, AA[i]? = some x.1 ∧ v[i]? = some x.2 := by
  constructor
  · intro h
    obtain ⟨i, hi⟩ := List.getElem?_of_mem h
    rw [List.getElem?_zip_eq_some] at hi
    exact ⟨i, hi⟩
  · rintro ⟨i, h⟩
    exact List.mem_of_getElem? (List.getElem?_zip_eq_some.mpr h)

theorem mem_legDims_iff {AA : List (Arr K)} {v : List (List ℤ)} {e : ℤ} {m : ℕ} :
    m ∈ legDims (AA.zip v) e ↔ ∃ (i j : ℕ) (A : Arr K) (l : List ℤ), AA[i]? = some A ∧ v[i]? = some l ∧ l[j]? = some e ∧
      A.shape[j]? = some m := by
  constructor
  · intro h
    obtain ⟨x, hx, h0⟩ := List.mem_flatMap.mp h
    obtain ⟨⟨e', m'⟩, h1, rfl⟩ := List.mem_map.mp h0
    obtain ⟨h2, h'⟩ := List.mem_filter.mp h1
    obtain ⟨i, h3, h4⟩ := mem_zip_iff.mp hx
    obtain ⟨j, hj⟩ := List.getElem?_of_mem h2
    rw [List.getElem?_zip_eq_some] at hj
    simp only [decide_eq_true_eq] at h'
    exact ⟨i, j, x.1, x.2, h3, h4, by rw [hj.1]; exact congrArg some h', hj.2⟩
  · rintro ⟨i, j, A, l, h1, h2, h3, h4⟩
    refine List.mem_flatMap.mpr ⟨(A, l), mem_zip_iff.mpr ⟨i, h1, h2⟩, List.mem_map.mpr ⟨(e, m), List.mem_filter.mpr ⟨?_, by simp⟩, rfl⟩⟩
    exact List.mem_of_getElem? (List.getElem?_zip_eq_some.mpr ⟨h3, h4⟩)

theorem checkIndices_iff {AA : List (Arr K)} {v : List (List ℤ)} {order forder : List ℤ} :
    (checkIndices AA v order forder = .ok () ↔ Checked AA v order forder) ∧
      (checkIndices AA v order forder = .error .value ↔ ¬ Checked AA v order forder) := by
  have key : (checkIndices AA v order forder = .ok () ∧ Checked AA v order forder) ∨
      (checkIndices AA v order forder = .error .value ∧ ¬ Checked AA v order forder) := by
    unfold checkIndices
    by_cases h1 : AA.length ≠ v.length
    · rw [if_pos h1]
      exact Or.inr ⟨rfl, fun h => h1 h.len⟩
    rw [if_neg h1]
    have h1' : AA.length = v.length := not_not.mp h1
    by_cases h2 : ((AA.zip v).any fun x => decide (x.2.length ≠ x.1.shape.length)) = true
    · rw [if_pos h2]
      refine Or.inr ⟨rfl, fun h => ?_⟩
      obtain ⟨x, hx, hx'⟩ := List.any_eq_true.mp h2
      obtain ⟨i, a1, a2⟩ := mem_zip_iff.mp hx
      exact (of_decide_eq_true hx') (h.rank i _ _ a1 a2)
    rw [if_neg h2]
    have h2' : ∀ x ∈ AA.zip v, x.2.length = x.1.shape.length := by
      intro x hx
      by_contra hne
      exact h2 (List.any_eq_true.mpr ⟨x, hx, decide_eq_true hne⟩)
    have hcnt : ∀ e, (legDims (AA.zip v) e).length = v.flatten.count e := fun e => by
      rw [legDims_length h2', labels_zip h1']
    by_cases h3 : (order.any fun e => badLegs (legDims (AA.zip v) e)) = true
    · rw [if_pos h3]
      refine Or.inr ⟨rfl, fun h => ?_⟩
      obtain ⟨e, he, he'⟩ := List.any_eq_true.mp h3
      have hl : (legDims (AA.zip v) e).length = 2 := by rw [hcnt, h.two e he]
      obtain ⟨a, b, hab⟩ := List.length_eq_two.mp hl
      rw [hab] at he'
      obtain ⟨i, j, A, l, b1, b2, b3, b4⟩ := mem_legDims_iff.mp (show a ∈ legDims (AA.zip v) e by rw [hab]; simp)
      obtain ⟨i', j', A', l', c1, c2, c3, c4⟩ := mem_legDims_iff.mp (show b ∈ legDims (AA.zip v) e by rw [hab]; simp)
      exact (of_decide_eq_true he') (h.dims e he i j i' j' A A' l l' a b b1 b2 c1 c2 b3 c3 b4 c4)
    rw [if_neg h3]
    have h3' : ∀ e ∈ order, ∃ a, legDims (AA.zip v) e = [a, a] := by
      intro e he
      by_contra hno
      refine h3 (List.any_eq_true.mpr ⟨e, he, ?_⟩)
      unfold badLegs
      split
      · next a b hab =>
        rw [decide_eq_true_eq]
        rintro rfl
        exact hno ⟨a, hab⟩
      · rfl
    by_cases h4 : (forder.any fun e => decide (v.flatten.count e ≠ 1)) = true
    · rw [if_pos h4]
      refine Or.inr ⟨rfl, fun h => ?_⟩
      obtain ⟨e, he, he'⟩ := List.any_eq_true.mp h4
      exact (of_decide_eq_true he') (h.one e he)
    rw [if_neg h4]
    refine Or.inl ⟨rfl, h1', ?_, ?_, ?_, ?_⟩
    · intro i A l a1 a2
      exact h2' (A, l) (mem_zip_iff.mpr ⟨i, a1, a2⟩)
    · intro e he
      obtain ⟨a, ha⟩ := h3' e he
      rw [← hcnt, ha]; rfl
    · intro e he i j i' j' A A' l l' m m' b1 b2 c1 c2 b3 c3 b4 c4
      obtain ⟨a, ha⟩ := h3' e he
      have q1 := mem_legDims_iff.mpr ⟨i, j, A, l, b1, b2, b3, b4⟩
      have q2 := mem_legDims_iff.mpr ⟨i', j', A', l', c1, c2, c3, c4⟩
      rw [ha] at q1 q2
      simp at q1 q2
      omega
    · intro e he
      by_contra hne
      exact h4 (List.any_eq_true.mpr ⟨e, he, decide_eq_true hne⟩)
  rcases key with ⟨h1, h2⟩ | ⟨h1, h2⟩
  · rw [h1]
    simp [h2]
  · rw [h1]
    simp [h2]

/-- The check gives every label a dimension, provided `order` and `forder` cover all labels. -/
theorem checked_wf {AA : List (Arr K)} {v : List (List ℤ)} {order forder : List ℤ} (h : Checked AA v order forder)
    (hn : order.Nodup) (hall : ∀ e ∈ v.flatten, e ∈ order ∨ e ∈ forder) :
    ∃ dim : ℤ → ℕ, WF dim (AA.zip v) order forder := by
  have hr : ∀ x ∈ AA.zip v, x.2.length = x.1.shape.length := by
    intro x hx
    obtain ⟨i, h1, h2⟩ := mem_zip_iff.mp hx
    exact h.rank i _ _ h1 h2
  have hl := labels_zip h.len
  have hcnt : ∀ e, (legDims (AA.zip v) e).length = v.flatten.count e := fun e => by rw [legDims_length hr, hl]
  have huniq : ∀ e ∈ v.flatten, ∀ m ∈ legDims (AA.zip v) e, m = (legDims (AA.zip v) e).headD 0 := by
    intro e he m hm
    rcases hall e he with ho | ho
    · have hh : (legDims (AA.zip v) e).headD 0 ∈ legDims (AA.zip v) e := by
        match hd : legDims (AA.zip v) e, hm with
        | a :: l, _ => simp
      obtain ⟨i, j, A, l, b1, b2, b3, b4⟩ := mem_legDims_iff.mp hm
      obtain ⟨i', j', A', l', c1, c2, c3, c4⟩ := mem_legDims_iff.mp hh
      exact h.dims e ho i j i' j' A A' l l' _ _ b1 b2 c1 c2 b3 c3 b4 c4
    · have : (legDims (AA.zip v) e).length = 1 := by rw [hcnt, h.one e ho]
      obtain ⟨a, ha⟩ := List.length_eq_one_iff.mp this
      rw [ha] at hm ⊢
      simpa using hm
  refine ⟨fun e => (legDims (AA.zip v) e).headD 0, ?_, hn, ?_, ?_, ?_⟩
  · intro x hx
    refine List.ext_getElem (by simp [hr x hx]) fun j h1 h2 => ?_
    have h3 : j < x.2.length := by simpa using h2
    rw [List.getElem_map]
    refine huniq _ ?_ _ (mem_legDims hx h3 h1)
    rw [← hl]
    exact List.mem_flatMap.mpr ⟨x, hx, List.getElem_mem h3⟩
  · rw [hl]; exact h.two
  · rw [hl]; exact h.one
  · rw [hl]; exact hall

/-- Conversely a well-formed network passes the check. -/
theorem wf_checked {AA : List (Arr K)} {v : List (List ℤ)} {order forder : List ℤ} (hlen : AA.length = v.length)
    (h : WF dim (AA.zip v) order forder) : Checked AA v order forder := by
  have hl := labels_zip hlen
  have hs : ∀ (i : ℕ) (A : Arr K) (l : List ℤ), AA[i]? = some A → v[i]? = some l → A.shape = l.map dim :=
    fun i A l h1 h2 => h.shape (A, l) (mem_zip_iff.mpr ⟨i, h1, h2⟩)
  refine ⟨hlen, ?_, ?_, ?_, ?_⟩
  · intro i A l h1 h2; rw [hs i A l h1 h2]; simp
  · intro e he; rw [← hl]; exact h.two e he
  · intro e he i j i' j' A A' l l' m m' b1 b2 c1 c2 b3 c3 b4 c4
    rw [hs i A l b1 b2, List.getElem?_map, b3] at b4
    rw [hs i' A' l' c1 c2, List.getElem?_map, c3] at c4
    exact (Option.some.inj b4).symm.trans (Option.some.inj c4)
  · intro e he; rw [← hl]; exact h.free e he

/-! ## The whole function -/

theorem ncon_ok {so : SetOrder} (hso : so.Spec) {AA : List (Arr K)} {v : List (List ℤ)} {order forder : Option (List ℤ)}
    {os fs : List ℤ} (hos : order.getD (createOrder v) = os) (hfs : forder.getD (createForder v) = fs) (hv : v ≠ [])
    (hlen : AA.length = v.length) (hw : WF dim (AA.zip v) os fs) (ho : ∀ x ∈ os, 0 < x) (hf : ∀ x ∈ fs, x < 0) (hfn : fs.Nodup) :
    ∃ R extra, ncon so AA v order forder = .ok (R, order.map fun _ => os ++ extra) ∧
      ((extra = [] ↔ Conn (AA.zip v)) ∧ (os ++ extra).Nodup ∧ ∀ e ∈ extra, e ∉ fs) ∧
      R.shape = fs.map dim ∧ ∀ σ : ℤ → ℕ, R.val (fs.map σ) = sumOver dim os (netVal (AA.zip v)) σ := by
  have hne : AA.zip v ≠ [] := by
    refine List.ne_nil_of_length_pos ?_
    rw [List.length_zip, hlen, min_self]
    exact List.length_pos_iff.mpr hv
  obtain ⟨net2, extra, dim', h1, h2, h3, h4, h5, h6, h7⟩ := connectGraph_ok hso hw ho hf hne
  obtain ⟨x, q1, q2, q3⟩ := loop_ok hso le_rfl h3 h4 h2
  obtain ⟨R, r1, r2, r3⟩ := permuteFinal_ok q2 hfn
  refine ⟨R, extra, ?_, ⟨h6, h2.nodup, fun e he hfe => ?_⟩, ?_, ?_⟩
  · simp only [ncon]
    rw [if_neg hv, hos, hfs, checkIndices_iff.1.mpr (wf_checked hlen hw)]
    simp only [h1, q1, r1]
  · have a1 := h2.two e (by simp [he])
    have a2 := h2.free e hfe
    omega
  · rw [r2]
    exact List.map_congr_left fun e he => h5 e (by simp [he])
  · intro σ
    rw [r3, q3, h7]

end PyTeN.Ncon
