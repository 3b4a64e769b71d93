import Verif.Ncon.Loop
import Mathlib.Data.List.Perm.Subperm

/-! # `connect_graph`: components and trivial links -/

namespace PyTeN.Ncon
open Finset

set_option linter.unusedSectionVars false

variable {K : Type*} [CommSemiring K] {dim : ℤ → ℕ}

/-- `col` is constant along edges. -/
def Respects (vs : List (List ℤ)) (col : ℕ → Bool) : Prop :=
  ∀ i < vs.length, ∀ j < vs.length, shares (vs.getD i []) (vs.getD j []) = true → col i = col j

theorem length_le_of {l : List ℕ} {n : ℕ} (hn : l.Nodup) (h : ∀ x ∈ l, x < n) : l.length ≤ n := by
  have := (hn.subperm (l₂ := List.range n) fun x hx => List.mem_range.mpr (h x hx)).length_le
  simpa using this

theorem bfs_ok {so : SetOrder} (hso : so.Spec) {vs : List (List ℤ)} {fuel : ℕ} {tv unv vis0 comp : List ℕ}
    (hf : vs.length ≤ (vis0 ++ comp).length + fuel) (htn : tv.Nodup) (htl : ∀ x ∈ tv, x < vs.length)
    (htd : ∀ x ∈ tv, x ∉ vis0 ++ comp) (hvn : (vis0 ++ comp).Nodup) (hvl : ∀ x ∈ vis0 ++ comp, x < vs.length)
    (hun : unv.Nodup) (hud : ∀ x ∈ unv, x ∉ vis0 ++ comp)
    (hcl : ∀ i ∈ comp, ∀ j < vs.length, shares (vs.getD i []) (vs.getD j []) = true → j ∈ vis0 ++ comp ∨ j ∈ tv) :
    ∃ unv' comp', bfs so vs fuel tv unv (vis0 ++ comp) comp = .ok (unv', vis0 ++ comp', comp') ∧ (vis0 ++ comp').Nodup ∧
      (∀ x ∈ vis0 ++ comp', x < vs.length) ∧ unv'.Nodup ∧ (∀ x, x ∈ unv' ↔ x ∈ unv ∧ x ∉ vis0 ++ comp') ∧
      comp ⊆ comp' ∧ tv ⊆ comp' ∧
      (∀ i ∈ comp', ∀ j < vs.length, shares (vs.getD i []) (vs.getD j []) = true → j ∈ vis0 ++ comp') ∧
      ∀ col b, Respects vs col → (∀ i ∈ comp, col i = b) → (∀ i ∈ tv, col i = b) → ∀ i ∈ comp', col i = b := by
  induction fuel generalizing tv unv comp with
  | zero =>
    match tv with
    | [] =>
      exact ⟨unv, comp, rfl, hvn, hvl, hun, fun x => ⟨fun h => ⟨h, hud x h⟩, fun h => h.1⟩, by simp, by simp,
        fun i hi j hj h => (hcl i hi j hj h).resolve_right (by simp), fun _ _ _ h _ => h⟩
    | t :: ts =>
      exfalso
      have h1 : ((vis0 ++ comp) ++ [t]).length ≤ vs.length := by
        refine length_le_of ?_ ?_
        · rw [List.nodup_append]
          refine ⟨hvn, by simp, ?_⟩
          rintro a ha b hb rfl
          obtain rfl : a = t := by simpa using hb
          exact htd a (by simp) ha
        · intro x hx
          rcases List.mem_append.mp hx with hx | hx
          · exact hvl x hx
          · exact htl x (by simp at hx; simp [hx])
      rw [List.length_append, List.length_singleton] at h1
      omega
  | succ fuel ih =>
    match tv, htn, htl, htd, hcl with
    | [], _, _, _, hcl =>
      exact ⟨unv, comp, rfl, hvn, hvl, hun, fun x => ⟨fun h => ⟨h, hud x h⟩, fun h => h.1⟩, by simp, by simp,
        fun i hi j hj h => (hcl i hi j hj h).resolve_right (by simp), fun _ _ _ h _ => h⟩
    | t :: ts, htn, htl, htd, hcl =>
      have hi := hso.pop_mem (t :: ts) (by simp)
      simp only [bfs]
      generalize so.pop (t :: ts) = i at hi ⊢
      have hil := htl i hi
      have hiv := htd i hi
      have hte : ∀ x, x ∈ (t :: ts).erase i ↔ x ≠ i ∧ x ∈ t :: ts := fun x => htn.mem_erase_iff
      have hue : ∀ x, x ∈ unv.erase i ↔ x ≠ i ∧ x ∈ unv := fun x => hun.mem_erase_iff
      generalize hnew : ((List.range vs.length).filter fun j =>
        shares (vs.getD i []) (vs.getD j []) && !(vis0 ++ comp ++ [i]).contains j && !((t :: ts).erase i).contains j) = new
      have hnm : ∀ x, x ∈ new ↔ x < vs.length ∧ shares (vs.getD i []) (vs.getD x []) = true ∧
          x ∉ vis0 ++ comp ++ [i] ∧ x ∉ (t :: ts).erase i := by
        intro x
        rw [← hnew, List.mem_filter]
        simp [and_assoc]
      have hassoc : vis0 ++ comp ++ [i] = vis0 ++ (comp ++ [i]) := List.append_assoc ..
      rw [hassoc] at hnm ⊢
      have hin : ∀ x, x ∈ vis0 ++ (comp ++ [i]) ↔ x ∈ vis0 ++ comp ∨ x = i := by
        intro x; simp [or_assoc]
      obtain ⟨unv', comp', h1, h2, h3, h4, h5, h6, h7, h8, h9⟩ := ih (tv := (t :: ts).erase i ++ new) (unv := unv.erase i)
        (comp := comp ++ [i]) (by
          rw [← hassoc, List.length_append, List.length_singleton]; omega)
        (by
          rw [List.nodup_append]
          refine ⟨htn.erase i, by rw [← hnew]; exact List.nodup_range.filter _, ?_⟩
          rintro a ha b hb rfl
          exact ((hnm a).mp hb).2.2.2 ha)
        (by
          intro x hx
          rcases List.mem_append.mp hx with hx | hx
          · exact htl x ((hte x).mp hx).2
          · exact ((hnm x).mp hx).1)
        (by
          intro x hx
          rcases List.mem_append.mp hx with hx | hx
          · rw [hin]
            rintro (h | h)
            · exact htd x ((hte x).mp hx).2 h
            · exact ((hte x).mp hx).1 h
          · exact ((hnm x).mp hx).2.2.1)
        (by
          rw [← hassoc, List.nodup_append]
          refine ⟨hvn, by simp, ?_⟩
          rintro a ha b hb rfl
          obtain rfl : a = i := by simpa using hb
          exact hiv ha)
        (by
          intro x hx
          rcases (hin x).mp hx with h | rfl
          · exact hvl x h
          · exact hil)
        (hun.erase i)
        (by
          intro x hx
          rw [hin]
          rintro (h | h)
          · exact hud x ((hue x).mp hx).2 h
          · exact ((hue x).mp hx).1 h)
        (by
          intro a ha j hj hs
          rcases List.mem_append.mp ha with ha | ha
          · rcases hcl a ha j hj hs with h | h
            · exact Or.inl ((hin j).mpr (Or.inl h))
            · by_cases hji : j = i
              · exact Or.inl ((hin j).mpr (Or.inr hji))
              · exact Or.inr (List.mem_append.mpr (Or.inl ((hte j).mpr ⟨hji, h⟩)))
          · obtain rfl : a = i := by simpa using ha
            by_cases h1 : j ∈ vis0 ++ (comp ++ [a])
            · exact Or.inl h1
            · by_cases h2 : j ∈ (t :: ts).erase a
              · exact Or.inr (List.mem_append.mpr (Or.inl h2))
              · exact Or.inr (List.mem_append.mpr (Or.inr ((hnm j).mpr ⟨hj, hs, h1, h2⟩))))
      refine ⟨unv', comp', h1, h2, h3, h4, ?_, fun x hx => h6 (by simp [hx]), ?_, h8, ?_⟩
      · intro x
        rw [h5, hue]
        constructor
        · rintro ⟨⟨-, a⟩, b⟩; exact ⟨a, b⟩
        · rintro ⟨a, b⟩
          refine ⟨⟨?_, a⟩, b⟩
          rintro rfl
          exact b (List.mem_append.mpr (Or.inr (h6 (by simp))))
      · intro x hx
        by_cases hxi : x = i
        · exact h6 (by simp [hxi])
        · exact h7 (List.mem_append.mpr (Or.inl ((hte x).mpr ⟨hxi, hx⟩)))
      · intro col b hr hc ht
        refine h9 col b hr ?_ ?_
        · intro x hx
          rcases List.mem_append.mp hx with hx | hx
          · exact hc x hx
          · obtain rfl : x = i := by simpa using hx
            exact ht x hi
        · intro x hx
          rcases List.mem_append.mp hx with hx | hx
          · exact ht x ((hte x).mp hx).2
          · have := (hnm x).mp hx
            rw [← hr i hil x this.1 this.2.1]
            exact ht i hi

/-- What `connect_graph` knows about the components. -/
structure Comps (vs : List (List ℤ)) (comps : List (List ℕ)) : Prop where
  nodup : comps.flatten.Nodup
  lt : ∀ x ∈ comps.flatten, x < vs.length
  ne : ∀ c ∈ comps, c ≠ []
  mono : ∀ col, Respects vs col → ∀ c ∈ comps, ∀ i ∈ c, ∀ j ∈ c, col i = col j
  closed : ∀ c ∈ comps, ∀ i ∈ c, ∀ j < vs.length, shares (vs.getD i []) (vs.getD j []) = true → j ∈ c

theorem shares_iff {a b : List ℤ} : shares a b = true ↔ ∃ e, e ∈ a ∧ e ∈ b := by simp [shares]

theorem shares_comm {a b : List ℤ} (h : shares a b = true) : shares b a = true := by
  rw [shares_iff] at *; obtain ⟨e, h1, h2⟩ := h; exact ⟨e, h2, h1⟩

theorem components_ok {so : SetOrder} (hso : so.Spec) {vs : List (List ℤ)} {fuel : ℕ} {unv : List ℕ} {acc : List (List ℕ)}
    (hf : unv.length ≤ fuel) (hun : unv.Nodup) (hul : ∀ x ∈ unv, x < vs.length) (hud : ∀ x ∈ unv, x ∉ acc.flatten)
    (hacc : Comps vs acc) :
    ∃ comps, components so vs fuel unv acc.flatten acc = .ok comps ∧ Comps vs comps ∧
      (∀ x, x ∈ unv ∨ x ∈ acc.flatten → x ∈ comps.flatten) := by
  induction fuel generalizing unv acc with
  | zero =>
    obtain rfl : unv = [] := by simpa using hf
    exact ⟨acc, rfl, hacc, by simp⟩
  | succ fuel ih =>
    match unv, hf, hun, hul, hud with
    | [], _, _, _, _ => exact ⟨acc, rfl, hacc, by simp⟩
    | u :: us, hf, hun, hul, hud =>
      have hr := hso.pop_mem (u :: us) (by simp)
      simp only [components]
      generalize so.pop (u :: us) = r at hr ⊢
      have hue : ∀ x, x ∈ (u :: us).erase r ↔ x ≠ r ∧ x ∈ u :: us := fun x => hun.mem_erase_iff
      obtain ⟨unv', comp, h1, h2, h3, h4, h5, -, h7, h8, h9⟩ := bfs_ok hso (vs := vs) (fuel := vs.length) (tv := [r])
        (unv := (u :: us).erase r) (vis0 := acc.flatten) (comp := []) (by omega) (by simp) (by simpa using hul r hr)
        (by simpa using hud r hr) (by simpa using hacc.nodup) (by simpa using hacc.lt) (hun.erase r)
        (by intro x hx; simpa using hud x ((hue x).mp hx).2) (by simp)
      rw [List.append_nil] at h1
      rw [h1]
      have hflat : (acc ++ [comp]).flatten = acc.flatten ++ comp := by simp
      have hrc : r ∈ comp := h7 (by simp)
      have hcomps : Comps vs (acc ++ [comp]) := by
        refine ⟨by rw [hflat]; exact h2, by rw [hflat]; exact h3, ?_, ?_, ?_⟩
        · intro c hc
          rcases List.mem_append.mp hc with hc | hc
          · exact hacc.ne c hc
          · obtain rfl : c = comp := by simpa using hc
            exact List.ne_nil_of_mem hrc
        · intro col hcol c hc i hi j hj
          rcases List.mem_append.mp hc with hc | hc
          · exact hacc.mono col hcol c hc i hi j hj
          · obtain rfl : c = comp := by simpa using hc
            have := h9 col (col r) hcol (by simp) (by simp)
            rw [this i hi, this j hj]
        · intro c hc i hi j hj hs
          rcases List.mem_append.mp hc with hc | hc
          · exact hacc.closed c hc i hi j hj hs
          · obtain rfl : c = comp := by simpa using hc
            rcases List.mem_append.mp (h8 i hi j hj hs) with h | h
            · exfalso
              obtain ⟨c', hc', hjc⟩ := List.mem_flatten.mp h
              have hic := hacc.closed c' hc' j hjc i (h3 i (by simp [hi])) (shares_comm hs)
              exact (List.nodup_append.mp h2).2.2 i (List.mem_flatten.mpr ⟨c', hc', hic⟩) i hi rfl
            · exact h
      have hlen : unv'.length ≤ fuel := by
        have : unv'.length ≤ ((u :: us).erase r).length :=
          (h4.subperm fun x hx => ((h5 x).mp hx).1).length_le
        rw [List.length_erase_of_mem hr] at this
        simp at hf this
        omega
      obtain ⟨comps, q1, q2, q3⟩ := ih (unv := unv') (acc := acc ++ [comp]) hlen h4
        (fun x hx => hul x ((hue x).mp ((h5 x).mp hx).1).2) (fun x hx => by rw [hflat]; exact ((h5 x).mp hx).2) hcomps
      rw [hflat] at q1 q3
      refine ⟨comps, q1, q2, fun x hx => q3 x ?_⟩
      rw [h5, hue]
      by_cases hxc : x ∈ comp
      · simp [hxc]
      · by_cases hx2 : x ∈ acc.flatten
        · exact Or.inr (List.mem_append.mpr (Or.inl hx2))
        · have hxr : x ≠ r := by rintro rfl; exact hxc hrc
          exact Or.inl ⟨⟨hxr, hx.resolve_right hx2⟩, by simpa [List.mem_append, hxc] using hx2⟩

/-! ## Fresh labels -/

theorem le_foldl_max (l : List ℤ) (a : ℤ) : a ≤ l.foldl max a ∧ ∀ x ∈ l, x ≤ l.foldl max a := by
  induction l generalizing a with
  | nil => simp
  | cons b l ih =>
    have := ih (max a b)
    refine ⟨(le_max_left a b).trans this.1, ?_⟩
    intro x hx
    rcases List.mem_cons.mp hx with rfl | hx
    · exact (le_max_right a x).trans this.1
    · exact this.2 x hx

theorem lt_fresh {l : List ℤ} {x : ℤ} (h : x ∈ l) : x < fresh l := by
  match l, h with
  | a :: l, h =>
    have := le_foldl_max l a
    simp only [fresh]
    rcases List.mem_cons.mp h with rfl | h
    · omega
    · have := this.2 x h; omega

theorem fresh_pos {l : List ℤ} (h : ∀ x ∈ l, 0 < x) : 0 < fresh l := by
  match l, h with
  | [], _ => simp [fresh]
  | a :: l, h => exact (h a (by simp)).trans (lt_fresh (by simp))

/-! ## Links -/

theorem expand_val {A : Arr K} {ls : List ℤ} (h : A.shape = ls.map dim) (k : ℤ) (τ : ℤ → ℕ) :
    A.expand.val ((ls ++ [k]).map τ) = A.val (ls.map τ) := by
  have : A.shape.length = (ls.map τ).length := by rw [h]; simp
  simp only [Arr.expand, List.map_append, this, List.take_left]

theorem netVal_set {net : List (Node K)} {i : ℕ} {x x' : Node K} (h : net[i]? = some x) {σ : ℤ → ℕ}
    (hv : x'.1.val (x'.2.map σ) = x.1.val (x.2.map σ)) : netVal (net.set i x') σ = netVal net σ := by
  obtain ⟨hi, rfl⟩ := List.getElem?_eq_some_iff.mp h
  unfold netVal
  rw [List.map_set, hv]
  congr 1
  have := List.set_getElem_self (as := net.map fun x => x.1.val (x.2.map σ)) (i := i) (by simpa using hi)
  rw [List.getElem_map] at this
  exact this

theorem labels_set {net : List (Node K)} {i : ℕ} {x x' : Node K} {k : ℤ} (h : net[i]? = some x) (hl : x'.2 = x.2 ++ [k]) :
    (labels (net.set i x')).Perm (k :: labels net) := by
  obtain ⟨hi, rfl⟩ := List.getElem?_eq_some_iff.mp h
  have e1 : net = net.take i ++ net[i] :: net.drop (i + 1) := by simp
  rw [List.set_eq_take_append_cons_drop, if_pos hi]
  conv_rhs => rw [e1]
  simp only [labels_append, labels_cons, hl]
  rw [List.append_assoc, List.singleton_append, ← List.append_assoc]
  refine List.perm_middle.trans (List.Perm.cons _ ?_)
  rw [List.append_assoc]

theorem sumOver_dim {dim dim' : ℤ → ℕ} {cs : List ℤ} (h : ∀ e ∈ cs, dim' e = dim e) (f : (ℤ → ℕ) → K) (σ : ℤ → ℕ) :
    sumOver dim' cs f σ = sumOver dim cs f σ := by
  induction cs generalizing σ with
  | nil => rfl
  | cons c cs ih =>
    simp only [sumOver, h c (by simp)]
    exact sum_congr rfl fun i _ => ih (fun e he => h e (by simp [he])) _

/-- `net2` has the tensors of `net` with labels added. -/
def Ext (net net2 : List (Node K)) : Prop :=
  ∀ (i : ℕ) (x : Node K), net[i]? = some x → ∃ x' : Node K, net2[i]? = some x' ∧ x.2 ⊆ x'.2

theorem link_ok {c d : ℕ} {net : List (Node K)} {order forder : List ℤ} (hw : WF dim net order forder)
    (ho : ∀ x ∈ order, 0 < x) (hf : ∀ x ∈ forder, x < 0) (hcd : c ≠ d) (hc : c < net.length) (hd : d < net.length) :
    ∃ net2, link c d net order = .ok (net2, order ++ [fresh order]) ∧
      WF (Function.update dim (fresh order) 1) net2 (order ++ [fresh order]) forder ∧ net2.length = net.length ∧ Ext net net2 ∧
      (∃ x y e, net2[c]? = some x ∧ net2[d]? = some y ∧ e ∈ x.2 ∧ e ∈ y.2) ∧ ∀ σ, netVal net2 σ = netVal net σ := by
  generalize hk : fresh order = k
  have hko : k ∉ order := fun h => by have := lt_fresh h; omega
  have hkf : k ∉ forder := fun h => by have := hf k h; have := fresh_pos ho; omega
  have hkl : k ∉ labels net := fun h => (hw.all k h).elim hko hkf
  have gc : net[c]? = some net[c] := List.getElem?_eq_getElem hc
  have gd : net[d]? = some net[d] := List.getElem?_eq_getElem hd
  set x := net[c] with hx
  set y := net[d] with hy
  have hxs : x.1.shape = x.2.map dim := hw.shape x (List.getElem_mem hc)
  have hys : y.1.shape = y.2.map dim := hw.shape y (List.getElem_mem hd)
  set net1 := net.set c (x.1.expand, x.2 ++ [k]) with hn1
  have g1 : net1[d]? = some y := by rw [hn1, List.getElem?_set_ne hcd, gd]
  set net2 := net1.set d (y.1.expand, y.2 ++ [k]) with hn2
  have hlab : (labels net2).Perm (k :: k :: labels net) :=
    (labels_set g1 rfl).trans ((labels_set gc rfl).cons _)
  have hcnt : ∀ e, e ≠ k → (labels net2).count e = (labels net).count e := by
    intro e he
    rw [hlab.count_eq, List.count_cons_of_ne (Ne.symm he), List.count_cons_of_ne (Ne.symm he)]
  have gc2 : net2[c]? = some (x.1.expand, x.2 ++ [k]) := by
    rw [hn2, List.getElem?_set_ne hcd.symm, hn1, List.getElem?_set_self hc]
  have gd2 : net2[d]? = some (y.1.expand, y.2 ++ [k]) := by
    rw [hn2, List.getElem?_set_self (by rw [hn1, List.length_set]; exact hd)]
  have gi : ∀ i, i ≠ c → i ≠ d → net2[i]? = net[i]? := by
    intro i h1 h2
    rw [hn2, List.getElem?_set_ne (Ne.symm h2), hn1, List.getElem?_set_ne (Ne.symm h1)]
  have hdim : ∀ ls : List ℤ, (∀ e ∈ ls, e ∈ labels net) → ls.map (Function.update dim k 1) = ls.map dim := by
    intro ls h
    refine List.map_congr_left fun e he => ?_
    rw [Function.update_of_ne]
    rintro rfl
    exact hkl (h e he)
  have inl : ∀ (i : ℕ) (z : Node K), net[i]? = some z → ∀ e ∈ z.2, e ∈ labels net := by
    intro i z hz e he
    exact List.mem_flatMap.mpr ⟨z, List.mem_of_getElem? hz, he⟩
  refine ⟨net2, ?_, ⟨?_, ?_, ?_, ?_, ?_⟩, by rw [hn2, hn1]; simp, ?_, ⟨_, _, k, gc2, gd2, by simp, by simp⟩, ?_⟩
  · simp only [link, getE, gc, gd, hk]
    congr 2
    rw [← hn1, List.getD_eq_getElem?_getD, g1]
    rfl
  · intro z hz
    obtain ⟨i, hi⟩ := List.getElem?_of_mem hz
    by_cases h1 : i = c
    · subst h1
      rw [gc2] at hi
      obtain rfl := Option.some.inj hi
      simp only [Arr.expand, hxs, List.map_append, hdim x.2 (inl _ _ gc)]
      simp
    · by_cases h2 : i = d
      · subst h2
        rw [gd2] at hi
        obtain rfl := Option.some.inj hi
        simp only [Arr.expand, hys, List.map_append, hdim y.2 (inl _ _ gd)]
        simp
      · rw [gi i h1 h2] at hi
        rw [hdim z.2 (inl _ _ hi)]
        exact hw.shape z (List.mem_of_getElem? hi)
  · rw [List.nodup_append]
    refine ⟨hw.nodup, by simp, ?_⟩
    rintro a ha b hb rfl
    obtain rfl : a = k := by simpa using hb
    exact hko ha
  · intro e he
    rcases List.mem_append.mp he with he | he
    · rw [hcnt e (fun h => hko (h ▸ he)), hw.two e he]
    · obtain rfl : e = k := by simpa using he
      rw [hlab.count_eq, List.count_cons_self, List.count_cons_self, List.count_eq_zero.mpr hkl]
  · intro e he
    rw [hcnt e (by rintro rfl; exact hkf he), hw.free e he]
  · intro e he
    rw [hlab.mem_iff] at he
    by_cases h : e = k
    · left; simp [h]
    · have : e ∈ labels net := by simpa [h] using he
      rcases hw.all e this with h | h
      · left; simp [h]
      · right; exact h
  · intro i z hz
    by_cases h1 : i = c
    · subst h1
      rw [gc] at hz
      obtain rfl := Option.some.inj hz
      exact ⟨_, gc2, fun e he => by simp [he]⟩
    · by_cases h2 : i = d
      · subst h2
        rw [gd] at hz
        obtain rfl := Option.some.inj hz
        exact ⟨_, gd2, fun e he => by simp [he]⟩
      · exact ⟨z, by rw [gi i h1 h2, hz], fun e he => he⟩
  · intro σ
    rw [hn2, netVal_set g1 (expand_val hys k σ), hn1, netVal_set gc (expand_val hxs k σ)]

theorem Ext.trans {a b c : List (Node K)} (h1 : Ext a b) (h2 : Ext b c) : Ext a c := by
  intro i x hx
  obtain ⟨y, hy, hxy⟩ := h1 i x hx
  obtain ⟨z, hz, hyz⟩ := h2 i y hy
  exact ⟨z, hz, fun e he => hyz (hxy he)⟩

theorem linkAll_ok {so : SetOrder} {c : ℕ} {cs : List (List ℕ)} {net : List (Node K)} {order forder : List ℤ}
    (hw : WF dim net order forder) (ho : ∀ x ∈ order, 0 < x) (hf : ∀ x ∈ forder, x < 0) (hc : c < net.length)
    (hcs : ∀ comp ∈ cs, so.pop comp ≠ c ∧ so.pop comp < net.length) :
    ∃ net2 extra dim', linkAll so c cs net order = .ok (net2, order ++ extra) ∧ extra.length = cs.length ∧
      WF dim' net2 (order ++ extra) forder ∧ net2.length = net.length ∧ Ext net net2 ∧
      (∀ comp ∈ cs, ∃ x y e, net2[c]? = some x ∧ net2[so.pop comp]? = some y ∧ e ∈ x.2 ∧ e ∈ y.2) ∧
      (∀ e ∈ order ++ forder, dim' e = dim e) ∧
      ∀ σ, sumOver dim' (order ++ extra) (netVal net2) σ = sumOver dim order (netVal net) σ := by
  induction cs generalizing net order dim with
  | nil =>
    exact ⟨net, [], dim, by simp [linkAll], rfl, by simpa using hw, rfl, fun i x hx => ⟨x, hx, fun e he => he⟩, by simp, by simp,
      by simp⟩
  | cons comp cs ih =>
    obtain ⟨hne, hlt⟩ := hcs comp (by simp)
    obtain ⟨net1, h1, h2, h3, h4, h5, h6⟩ := link_ok hw ho hf hne.symm hc hlt
    have hkf : fresh order ∉ forder := fun h => by have := hf _ h; have := fresh_pos ho; omega
    have hko : fresh order ∉ order := fun h => by have := lt_fresh h; omega
    have ho1 : ∀ x ∈ order ++ [fresh order], 0 < x := by
      intro x hx
      rcases List.mem_append.mp hx with hx | hx
      · exact ho x hx
      · obtain rfl : x = fresh order := by simpa using hx
        exact fresh_pos ho
    obtain ⟨net2, extra, dim', q1, q2, q3, q4, q5, q6, q7, q8⟩ := ih h2 ho1 (by rw [h3]; exact hc)
      (fun comp hcomp => by rw [h3]; exact hcs comp (by simp [hcomp]))
    have hass : order ++ fresh order :: extra = order ++ [fresh order] ++ extra := by simp
    refine ⟨net2, fresh order :: extra, dim', ?_, by simp [q2], by rw [hass]; exact q3, q4.trans h3, h4.trans q5, ?_, ?_, ?_⟩
    · simp only [linkAll, h1, q1, hass]
    · intro comp' hc'
      rcases List.mem_cons.mp hc' with rfl | hc'
      · obtain ⟨x, y, e, a1, a2, a3, a4⟩ := h5
        obtain ⟨x', b1, b2⟩ := q5 _ _ a1
        obtain ⟨y', b3, b4⟩ := q5 _ _ a2
        exact ⟨x', y', e, b1, b3, b2 a3, b4 a4⟩
      · exact q6 comp' hc'
    · intro e he
      rw [q7 e (by
        rcases List.mem_append.mp he with h | h
        · simp [h]
        · simp [h]), Function.update_of_ne]
      rintro rfl
      rcases List.mem_append.mp he with h | h
      · exact hko h
      · exact hkf h
    · intro σ
      rw [hass, q8, sumOver_append, sumOver_dim (dim := dim) fun e he => by
        rw [Function.update_of_ne]; rintro rfl; exact hko he]
      refine sumOver_congr fun τ _ => ?_
      simp only [sumOver, Function.update_self, sum_range_one, h6]
      refine netVal_indep fun x hx => Function.update_of_ne ?_ _ _
      rintro rfl
      exact (hw.all _ hx).elim hko hkf

theorem lift_perm {α β : Type*} {f : α → β} {l l' : List β} (h : l.Perm l') : ∀ L : List α, L.map f = l →
    ∃ L', L.Perm L' ∧ L'.map f = l' := by
  induction h with
  | nil => intro L hL; exact ⟨L, .refl _, hL⟩
  | cons a h ih =>
    intro L hL
    obtain ⟨x, L1, rfl, rfl, h2⟩ := List.map_eq_cons_iff.mp hL
    obtain ⟨L', h3, h4⟩ := ih L1 h2
    exact ⟨x :: L', h3.cons _, by simp [h4]⟩
  | swap a b l =>
    intro L hL
    obtain ⟨x, L1, rfl, rfl, h2⟩ := List.map_eq_cons_iff.mp hL
    obtain ⟨y, L2, rfl, rfl, h3⟩ := List.map_eq_cons_iff.mp h2
    exact ⟨y :: x :: L2, .swap .., by simp [h3]⟩
  | trans _ _ ih1 ih2 =>
    intro L hL
    obtain ⟨L1, h1, h2⟩ := ih1 L hL
    obtain ⟨L2, h3, h4⟩ := ih2 L1 h2
    exact ⟨L2, h1.trans h3, h4⟩

/-- **`connect_graph`** makes the network connected without changing its value. -/
theorem connectGraph_ok {so : SetOrder} (hso : so.Spec) {net : List (Node K)} {order forder : List ℤ}
    (hw : WF dim net order forder) (ho : ∀ x ∈ order, 0 < x) (hf : ∀ x ∈ forder, x < 0) (hne : net ≠ []) :
    ∃ net2 extra dim', connectGraph so net order = .ok (net2, order ++ extra) ∧
      WF dim' net2 (order ++ extra) forder ∧ net2 ≠ [] ∧ Conn net2 ∧ (∀ e ∈ order ++ forder, dim' e = dim e) ∧
      (extra = [] ↔ Conn net) ∧
      ∀ σ, sumOver dim' (order ++ extra) (netVal net2) σ = sumOver dim order (netVal net) σ := by
  set vs := net.map Prod.snd with hvs
  have hvl : vs.length = net.length := by simp [hvs]
  obtain ⟨comps, h1, h2, h3⟩ := components_ok hso (vs := vs) (fuel := net.length) (unv := List.range net.length) (acc := [])
    (by simp) List.nodup_range (by simp [hvl]) (by simp) ⟨by simp, by simp, by simp, by simp, by simp⟩
  have hcov : ∀ i < net.length, ∃ c ∈ comps, i ∈ c := by
    intro i hi
    exact List.mem_flatten.mp (h3 i (Or.inl (List.mem_range.mpr hi)))
  have hlen : 0 < net.length := List.length_pos_iff.mpr hne
  simp only [connectGraph, ← hvs]
  rw [show ([] : List ℕ) = ([] : List (List ℕ)).flatten from rfl, h1]
  simp only
  match hrev : comps.reverse with
  | [] =>
    exfalso
    obtain ⟨c, hc, -⟩ := hcov 0 hlen
    rw [List.reverse_eq_nil_iff.mp hrev] at hc
    simp at hc
  | comp0 :: cs =>
    have hcomps : comps = cs.reverse ++ [comp0] := by
      have := congrArg List.reverse hrev
      simpa using this
    have hmem : ∀ c, c ∈ comps ↔ c = comp0 ∨ c ∈ cs := by
      intro c; rw [hcomps]; simp [or_comm]
    have hpop : ∀ c ∈ comps, so.pop c ∈ c := fun c hc => hso.pop_mem c (h2.ne c hc)
    have hlt : ∀ c ∈ comps, so.pop c < net.length := fun c hc => by
      rw [← hvl]; exact h2.lt _ (List.mem_flatten.mpr ⟨c, hc, hpop c hc⟩)
    have hm0 : comp0 ∈ comps := (hmem _).mpr (Or.inl rfl)
    have hdisj : ∀ c ∈ cs, ∀ i ∈ c, i ∉ comp0 := by
      intro c hc i hi hi0
      have := h2.nodup
      rw [hcomps, List.flatten_append, List.nodup_append] at this
      refine this.2.2 i (List.mem_flatten.mpr ⟨c, by simpa using hc, hi⟩) i (by simpa using hi0) rfl
    obtain ⟨net2, extra, dim', q1, q2, q3, q4, q5, q6, q7, q8⟩ := linkAll_ok (so := so) (c := so.pop comp0) (cs := cs) hw ho hf
      (hlt _ hm0) fun c hc => ⟨fun h => hdisj c hc _ (hpop c ((hmem c).mpr (Or.inr hc))) (by rw [h]; exact hpop _ hm0),
        hlt c ((hmem c).mpr (Or.inr hc))⟩
    -- colourings without bichromatic edges are constant
    have hconst : ∀ col : ℕ → Bool, Respects vs col → (∀ c ∈ cs, col (so.pop c) = col (so.pop comp0)) →
        ∀ i < net.length, col i = col (so.pop comp0) := by
      intro col hr hl i hi
      obtain ⟨c, hc, hic⟩ := hcov i hi
      rw [h2.mono col hr c hc i hic _ (hpop c hc)]
      rcases (hmem c).mp hc with rfl | h
      · rfl
      · exact hl c h
    have hresp : ∀ (N : List (Node K)) (L : List (Node K × Bool)), L.map Prod.fst = N → N.length = net.length → Ext net N →
        ¬ (∃ x y e, (x, true) ∈ L ∧ (y, false) ∈ L ∧ e ∈ x.2 ∧ e ∈ y.2) →
        (∀ i j x y e, N[i]? = some x → N[j]? = some y → e ∈ x.2 → e ∈ y.2 →
          (L.map Prod.snd).getD i true = (L.map Prod.snd).getD j true) ∧
        Respects vs fun i => (L.map Prod.snd).getD i true := by
      intro N L hL hNl hExt hno
      have hedge : ∀ i j x y e, N[i]? = some x → N[j]? = some y → e ∈ x.2 → e ∈ y.2 →
          (L.map Prod.snd).getD i true = (L.map Prod.snd).getD j true := by
        intro i j x y e hx hy hex hey
        rw [← hL, List.getElem?_map] at hx hy
        obtain ⟨⟨x', a⟩, gx, rfl⟩ := Option.map_eq_some_iff.mp hx
        obtain ⟨⟨y', b⟩, gy, rfl⟩ := Option.map_eq_some_iff.mp hy
        simp only [List.getD_eq_getElem?_getD, List.getElem?_map, gx, gy, Option.map_some, Option.getD_some]
        by_contra hab
        have ma := List.mem_of_getElem? gx
        have mb := List.mem_of_getElem? gy
        cases a <;> cases b <;> first | exact hab rfl | skip
        · exact hno ⟨y', x', e, mb, ma, hey, hex⟩
        · exact hno ⟨x', y', e, ma, mb, hex, hey⟩
      refine ⟨hedge, ?_⟩
      intro i hi j hj hs
      obtain ⟨e, he1, he2⟩ := shares_iff.mp hs
      rw [hvl] at hi hj
      have key : ∀ i, (hi : i < net.length) → e ∈ vs.getD i [] → ∃ x, N[i]? = some x ∧ e ∈ x.2 := by
        intro i hi he
        obtain ⟨x, hx, hsub⟩ := hExt i net[i] (List.getElem?_eq_getElem hi)
        refine ⟨x, hx, hsub ?_⟩
        rw [hvs, List.getD_eq_getElem _ _ (by simpa using hi), List.getElem_map] at he
        exact he
      obtain ⟨x, hx, hex⟩ := key i hi he1
      obtain ⟨y, hy, hey⟩ := key j hj he2
      exact hedge i j x y e hx hy hex hey
    have hnotconst : ∀ (N : List (Node K)) (L : List (Node K × Bool)), L.map Prod.fst = N → N.length = net.length →
        (∃ x, (x, true) ∈ L) → (∃ x, (x, false) ∈ L) → ∀ b, ∃ i < net.length, (L.map Prod.snd).getD i true ≠ b := by
      rintro N L hL hNl ⟨x, hx⟩ ⟨y, hy⟩ b
      have key : ∀ z c, (z, c) ∈ L → ∃ i < net.length, (L.map Prod.snd).getD i true = c := by
        intro z c hz
        obtain ⟨i, hi⟩ := List.getElem?_of_mem hz
        have hil : i < L.length := (List.getElem?_eq_some_iff.mp hi).1
        refine ⟨i, by rw [← hNl, ← hL, List.length_map]; exact hil, ?_⟩
        simp [List.getD_eq_getElem?_getD, hi]
      cases b
      · obtain ⟨i, h1, h2⟩ := key x true hx; exact ⟨i, h1, by rw [h2]; simp⟩
      · obtain ⟨i, h1, h2⟩ := key y false hy; exact ⟨i, h1, by rw [h2]; simp⟩
    refine ⟨net2, extra, dim', q1, q3, List.ne_nil_of_length_pos (by rw [q4]; exact hlen), ?_, q7, ?_, q8⟩
    · intro L0 hL0 b1 b2
      obtain ⟨L, hp, hL⟩ := lift_perm hL0 L0 rfl
      by_contra hno
      have hno' : ¬ ∃ x y e, (x, true) ∈ L ∧ (y, false) ∈ L ∧ e ∈ x.2 ∧ e ∈ y.2 := by
        rintro ⟨x, y, e, m1, m2, m3⟩
        exact hno ⟨x, y, e, hp.mem_iff.mpr m1, hp.mem_iff.mpr m2, m3⟩
      obtain ⟨e1, e2⟩ := hresp net2 L hL q4 q5 hno'
      obtain ⟨i, hi, hne'⟩ := hnotconst net2 L hL q4 (by obtain ⟨x, hx⟩ := b1; exact ⟨x, hp.mem_iff.mp hx⟩)
        (by obtain ⟨x, hx⟩ := b2; exact ⟨x, hp.mem_iff.mp hx⟩) ((L.map Prod.snd).getD (so.pop comp0) true)
      refine hne' (hconst _ e2 (fun c hc => ?_) i hi)
      obtain ⟨x, y, e, a1, a2, a3, a4⟩ := q6 c hc
      exact (e1 _ _ _ _ _ a1 a2 a3 a4).symm
    · constructor
      · intro hE
        have hcs : cs = [] := List.eq_nil_of_length_eq_zero (by rw [← q2, hE]; rfl)
        intro L0 hL0 b1 b2
        obtain ⟨L, hp, hL⟩ := lift_perm hL0 L0 rfl
        by_contra hno
        have hno' : ¬ ∃ x y e, (x, true) ∈ L ∧ (y, false) ∈ L ∧ e ∈ x.2 ∧ e ∈ y.2 := by
          rintro ⟨x, y, e, m1, m2, m3⟩
          exact hno ⟨x, y, e, hp.mem_iff.mpr m1, hp.mem_iff.mpr m2, m3⟩
        obtain ⟨-, e2⟩ := hresp net L hL rfl (fun i x hx => ⟨x, hx, fun e he => he⟩) hno'
        obtain ⟨i, hi, hne'⟩ := hnotconst net L hL rfl (by obtain ⟨x, hx⟩ := b1; exact ⟨x, hp.mem_iff.mp hx⟩)
          (by obtain ⟨x, hx⟩ := b2; exact ⟨x, hp.mem_iff.mp hx⟩) ((L.map Prod.snd).getD (so.pop comp0) true)
        exact hne' (hconst _ e2 (fun c hc => by rw [hcs] at hc; simp at hc) i hi)
      · intro hC
        by_contra hE
        have hcs : cs ≠ [] := by
          rintro rfl
          exact hE (List.eq_nil_of_length_eq_zero (by rw [q2]; rfl))
        obtain ⟨c1, hc1⟩ := List.exists_mem_of_ne_nil _ hcs
        have hcm1 : c1 ∈ comps := (hmem c1).mpr (Or.inr hc1)
        -- colour the first component
        set L := (List.range net.length).map fun i => (net.getD i (net[0]), decide (i ∈ comp0)) with hLdef
        have hL : L.map Prod.fst = net := by
          apply List.ext_getElem
          · simp [hLdef]
          · intro i g1 g2
            simp [hLdef, List.getElem?_eq_getElem g2]
        have hin : ∀ i, i < net.length → (net.getD i (net[0]), decide (i ∈ comp0)) ∈ L := by
          intro i hi; rw [hLdef]; exact List.mem_map.mpr ⟨i, List.mem_range.mpr hi, rfl⟩
        have p0 := hin _ (hlt _ hm0)
        rw [decide_eq_true (hpop _ hm0)] at p0
        have p1 := hin _ (hlt _ hcm1)
        rw [decide_eq_false (hdisj c1 hc1 _ (hpop _ hcm1))] at p1
        obtain ⟨x, y, e, a1, a2, a3, a4⟩ := hC L (by rw [hL]) ⟨_, p0⟩ ⟨_, p1⟩
        obtain ⟨i, hi, ei⟩ := List.mem_map.mp a1
        obtain ⟨j, hj, ej⟩ := List.mem_map.mp a2
        have hi' := List.mem_range.mp hi
        have hj' := List.mem_range.mp hj
        obtain ⟨rfl, ei2⟩ := Prod.mk.inj ei
        obtain ⟨rfl, ej2⟩ := Prod.mk.inj ej
        have hi0 := of_decide_eq_true ei2
        have hj0 := of_decide_eq_false ej2
        refine hj0 (h2.closed comp0 hm0 i hi0 j (by rw [hvl]; exact hj') (shares_iff.mpr ⟨e, ?_, ?_⟩))
        · rw [hvs, List.getD_eq_getElem _ _ (by simpa using hi'), List.getElem_map]
          rwa [List.getD_eq_getElem _ _ hi'] at a3
        · rw [hvs, List.getD_eq_getElem _ _ (by simpa using hj'), List.getElem_map]
          rwa [List.getD_eq_getElem _ _ hj'] at a4

end PyTeN.Ncon
