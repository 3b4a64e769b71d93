import Verif.Ncon.Check

/-! # C01–C04: `ncon`

`Labelled dim AA v order forder` is the notion of a well-formed call: every label has a dimension, contracted labels are positive
and occur twice, free labels are negative and occur once.  The value of the network is the sum, over all values of the contracted
labels, of the product of all tensor entries.  Arithmetic is exact over any commutative semiring.  `so` stands for the order in
which Python enumerates sets; all statements hold for every such order. -/

namespace PyTeN
open Finset Ncon

set_option linter.unusedSectionVars false

variable {K : Type*} [CommSemiring K]

/-- A well-formed call. -/
structure Labelled (dim : ℤ → ℕ) (AA : List (Arr K)) (v : List (List ℤ)) (order forder : List ℤ) : Prop where
  nonempty : v ≠ []
  len : AA.length = v.length
  shape : ∀ (i : ℕ) (A : Arr K) (l : List ℤ), AA[i]? = some A → v[i]? = some l → A.shape = l.map dim
  order_nodup : order.Nodup
  forder_nodup : forder.Nodup
  order_pos : ∀ e ∈ order, 0 < e
  forder_neg : ∀ e ∈ forder, e < 0
  twice : ∀ e ∈ order, v.flatten.count e = 2
  once : ∀ e ∈ forder, v.flatten.count e = 1
  all : ∀ e ∈ v.flatten, e ∈ order ∨ e ∈ forder

/-- Product of the entries of all tensors when the labels have the values `σ`. -/
def entryProduct (AA : List (Arr K)) (v : List (List ℤ)) (σ : ℤ → ℕ) : K :=
  (List.zipWith (fun A l => A.val (l.map σ)) AA v).prod

/-- Sum of `f` over all assignments that agree with `σ` outside `cs` and give each label of `cs` a value below its dimension. -/
def labelSum (dim : ℤ → ℕ) (cs : List ℤ) (f : (ℤ → ℕ) → K) (σ : ℤ → ℕ) : K :=
  ∑ p ∈ cs.toFinset.pi (fun c => range (dim c)), f fun x => if h : x ∈ cs.toFinset then p x h else σ x

/-- No two groups of tensors are without a common label: a colouring in which tensors sharing a label have equal colours is
constant. -/
def ConnectedLabels (v : List (List ℤ)) : Prop :=
  ∀ col : ℕ → Bool, (∀ (i j : ℕ) (l l' : List ℤ) (e : ℤ), v[i]? = some l → v[j]? = some l' → e ∈ l → e ∈ l' → col i = col j) →
    ∀ i j, i < v.length → j < v.length → col i = col j

/-! ## Bridges to the internal notions -/

theorem entryProduct_eq (AA : List (Arr K)) (v : List (List ℤ)) : entryProduct AA v = netVal (AA.zip v) := by
  funext σ
  rw [entryProduct, netVal, List.zip, List.map_zipWith]

theorem labelSum_eq (dim : ℤ → ℕ) (cs : List ℤ) (hn : cs.Nodup) (f : (ℤ → ℕ) → K) (σ : ℤ → ℕ) :
    labelSum dim cs f σ = sumOver dim cs f σ := by
  induction cs generalizing σ with
  | nil => simp [labelSum, sumOver]
  | cons c cs ih =>
    have hc : c ∉ cs.toFinset := by simpa using hn.notMem
    simp only [sumOver]
    rw [sum_congr rfl fun i _ => (ih hn.of_cons (Function.update σ c i)).symm]
    unfold labelSum
    rw [← sum_product', List.toFinset_cons]
    symm
    refine sum_nbij' (fun x => Finset.Pi.cons cs.toFinset c x.1 x.2)
      (fun p => (p c (mem_insert_self _ _), fun x h => p x (mem_insert_of_mem h))) ?_ ?_ ?_ ?_ ?_
    · rintro ⟨b, p⟩ hx
      obtain ⟨h1, h2⟩ := mem_product.mp hx
      rw [mem_pi] at h2 ⊢
      intro a ha
      by_cases hac : a = c
      · subst hac
        rw [Finset.Pi.cons_same]
        exact h1
      · rw [Finset.Pi.cons_ne (Ne.symm hac)]
        exact h2 a _
    · intro p hp
      rw [mem_pi] at hp
      exact mem_product.mpr ⟨hp c _, mem_pi.mpr fun a ha => hp a _⟩
    · rintro ⟨b, p⟩ hx
      refine Prod.ext ?_ ?_
      · exact Finset.Pi.cons_same cs.toFinset c b p (mem_insert_self _ _)
      · funext x hx
        have hxc : c ≠ x := by rintro rfl; exact hc hx
        exact Finset.Pi.cons_ne (h := mem_insert_of_mem hx) hxc
    · intro p hp
      funext x hx
      by_cases hxc : x = c
      · subst hxc
        rw [Finset.Pi.cons_same]
      · rw [Finset.Pi.cons_ne (Ne.symm hxc)]
    · rintro ⟨b, p⟩ hx
      refine congrArg f (funext fun x => ?_)
      by_cases hxc : x = c
      · subst hxc
        rw [dif_neg hc, dif_pos (mem_insert_self _ _), Finset.Pi.cons_same, Function.update_self]
      · by_cases hxs : x ∈ cs.toFinset
        · rw [dif_pos hxs, dif_pos (mem_insert_of_mem hxs), Finset.Pi.cons_ne (Ne.symm hxc)]
        · rw [dif_neg hxs, dif_neg (by rw [mem_insert]; exact not_or.mpr ⟨hxc, hxs⟩), Function.update_of_ne hxc]

theorem Labelled.wf {dim : ℤ → ℕ} {AA : List (Arr K)} {v : List (List ℤ)} {order forder : List ℤ}
    (h : Labelled dim AA v order forder) : WF dim (AA.zip v) order forder := by
  have hl := labels_zip h.len
  refine ⟨?_, h.order_nodup, by rw [hl]; exact h.twice, by rw [hl]; exact h.once, by rw [hl]; exact h.all⟩
  intro x hx
  obtain ⟨i, h1, h2⟩ := mem_zip_iff.mp hx
  exact h.shape i _ _ h1 h2

theorem conn_iff {AA : List (Arr K)} {v : List (List ℤ)} (hlen : AA.length = v.length) :
    Conn (AA.zip v) ↔ ConnectedLabels v := by
  have hzl : (AA.zip v).length = v.length := by rw [List.length_zip, hlen, min_self]
  have hget : ∀ (i : ℕ) (l : List ℤ), v[i]? = some l → ∃ A, (AA.zip v)[i]? = some (A, l) := by
    intro i l h
    have hi : i < AA.length := by rw [hlen]; exact (List.getElem?_eq_some_iff.mp h).1
    exact ⟨AA[i], List.getElem?_zip_eq_some.mpr ⟨List.getElem?_eq_getElem hi, h⟩⟩
  constructor
  · intro hC col hr
    have key : ∀ i j, i < v.length → j < v.length → col i = true → col j = false → False := by
      intro i j hi hj ci cj
      set L := (List.range v.length).attach.map fun q =>
        ((AA.zip v)[q.1]'(by rw [hzl]; exact List.mem_range.mp q.2), col q.1) with hLd
      have hL : L.map Prod.fst = AA.zip v := by
        refine List.ext_getElem (by simp [hLd, hzl]) fun q h1 h2 => ?_
        simp [hLd]
      have hin : ∀ q (hq : q < v.length), ((AA.zip v)[q]'(by rw [hzl]; exact hq), col q) ∈ L := by
        intro q hq
        exact List.mem_map.mpr ⟨⟨q, List.mem_range.mpr hq⟩, by simp, rfl⟩
      have p1 := hin i hi
      have p2 := hin j hj
      rw [ci] at p1
      rw [cj] at p2
      obtain ⟨x, y, e, a1, a2, a3, a4⟩ := hC L (by rw [hL]) ⟨_, p1⟩ ⟨_, p2⟩
      obtain ⟨⟨q, hq⟩, -, eq1⟩ := List.mem_map.mp a1
      obtain ⟨⟨r, hr'⟩, -, eq2⟩ := List.mem_map.mp a2
      obtain ⟨rfl, cq⟩ := Prod.mk.inj eq1
      obtain ⟨rfl, cr⟩ := Prod.mk.inj eq2
      rw [List.getElem_zip] at a3 a4
      have := hr q r _ _ e (List.getElem?_eq_getElem (List.mem_range.mp hq)) (List.getElem?_eq_getElem (List.mem_range.mp hr')) a3 a4
      simp only at cq cr
      rw [cq, cr] at this
      exact absurd this (by simp)
    intro i j hi hj
    cases ci : col i <;> cases cj : col j
    · rfl
    · exact (key j i hj hi cj ci).elim
    · exact (key i j hi hj ci cj).elim
    · rfl
  · intro hC L0 hL0 b1 b2
    obtain ⟨L, hp, hL⟩ := lift_perm hL0 L0 rfl
    by_contra hno
    have hLl : L.length = v.length := by rw [← hzl, ← hL, List.length_map]
    have hcol := hC (fun i => (L.map Prod.snd).getD i true) (by
      intro i j l l' e hi hj he he'
      obtain ⟨A, hA⟩ := hget i l hi
      obtain ⟨B, hB⟩ := hget j l' hj
      rw [← hL, List.getElem?_map] at hA hB
      obtain ⟨⟨x, a⟩, gx, rfl⟩ := Option.map_eq_some_iff.mp hA
      obtain ⟨⟨y, b⟩, gy, rfl⟩ := Option.map_eq_some_iff.mp hB
      simp only [List.getD_eq_getElem?_getD, List.getElem?_map, gx, gy, Option.map_some, Option.getD_some]
      by_contra hab
      have ma := hp.mem_iff.mpr (List.mem_of_getElem? gx)
      have mb := hp.mem_iff.mpr (List.mem_of_getElem? gy)
      cases a <;> cases b <;> first | exact hab rfl | skip
      · exact hno ⟨_, _, e, mb, ma, he', he⟩
      · exact hno ⟨_, _, e, ma, mb, he, he'⟩)
    obtain ⟨x, hx⟩ := b1
    obtain ⟨y, hy⟩ := b2
    obtain ⟨i, hi⟩ := List.getElem?_of_mem (hp.mem_iff.mp hx)
    obtain ⟨j, hj⟩ := List.getElem?_of_mem (hp.mem_iff.mp hy)
    have := hcol i j (by rw [← hLl]; exact (List.getElem?_eq_some_iff.mp hi).1) (by rw [← hLl]; exact (List.getElem?_eq_some_iff.mp hj).1)
    simp [List.getD_eq_getElem?_getD, hi, hj] at this

/-! ## C01 -/

/-- **C01 (explicit orders).**  A well-formed call returns the tensor with axes `forder` and with the contracted entries. -/
theorem C01_einstein_sum {so : SetOrder} (hso : so.Spec) {dim : ℤ → ℕ} {AA : List (Arr K)} {v : List (List ℤ)}
    {order forder : List ℤ} (h : Labelled dim AA v order forder) :
    ∃ R o, ncon so AA v (some order) (some forder) = .ok (R, o) ∧ R.shape = forder.map dim ∧
      ∀ σ : ℤ → ℕ, R.val (forder.map σ) = labelSum dim order (entryProduct AA v) σ := by
  obtain ⟨R, extra, h1, -, h2, h3⟩ := ncon_ok hso (order := some order) (forder := some forder) rfl rfl h.nonempty h.len h.wf
    h.order_pos h.forder_neg h.forder_nodup
  refine ⟨R, _, h1, h2, fun σ => ?_⟩
  simp only [Option.getD_some] at h3
  rw [h3, labelSum_eq _ _ h.order_nodup, entryProduct_eq]

/-- **C01 (default orders).**  Without `order` and `forder` the axes of the result are the negative labels in decreasing order
(-1 first) and the sum is over the positive labels. -/
theorem C01_default {so : SetOrder} (hso : so.Spec) {dim : ℤ → ℕ} {AA : List (Arr K)} {v : List (List ℤ)} (hv : v ≠ [])
    (hlen : AA.length = v.length)
    (hs : ∀ (i : ℕ) (A : Arr K) (l : List ℤ), AA[i]? = some A → v[i]? = some l → A.shape = l.map dim)
    (hpos : ∀ e ∈ v.flatten, 0 < e → v.flatten.count e = 2) (hneg : ∀ e ∈ v.flatten, e < 0 → v.flatten.count e = 1)
    (h0 : (0 : ℤ) ∉ v.flatten) :
    ∃ (R : Arr K) (order forder : List ℤ), ncon so AA v none none = .ok (R, none) ∧ order.Nodup ∧ (∀ e, e ∈ order ↔ e ∈ v.flatten ∧ 0 < e) ∧
      forder.Pairwise (· > ·) ∧ (∀ e, e ∈ forder ↔ e ∈ v.flatten ∧ e < 0) ∧ R.shape = forder.map dim ∧
      ∀ σ : ℤ → ℕ, R.val (forder.map σ) = labelSum dim order (entryProduct AA v) σ := by
  have h : Labelled dim AA v (createOrder v) (createForder v) :=
    ⟨hv, hlen, hs, nodup_createOrder v, nodup_createForder v, fun e he => (mem_createOrder.mp he).2,
      fun e he => (mem_createForder.mp he).2, fun e he => hpos e (mem_createOrder.mp he).1 (mem_createOrder.mp he).2,
      fun e he => hneg e (mem_createForder.mp he).1 (mem_createForder.mp he).2, fun e he => by
        rcases lt_trichotomy e 0 with hl | rfl | hl
        · exact Or.inr (mem_createForder.mpr ⟨he, hl⟩)
        · exact absurd he h0
        · exact Or.inl (mem_createOrder.mpr ⟨he, hl⟩)⟩
  obtain ⟨R, extra, h1, -, h2, h3⟩ := ncon_ok hso (order := none) (forder := none) rfl rfl h.nonempty h.len h.wf
    h.order_pos h.forder_neg h.forder_nodup
  refine ⟨R, createOrder v, createForder v, h1, h.order_nodup, fun e => mem_createOrder, sorted_createForder v,
    fun e => mem_createForder, h2, fun σ => ?_⟩
  simp only [Option.getD_none] at h3
  rw [h3, labelSum_eq _ _ h.order_nodup, entryProduct_eq]

/-! ## C02 -/

/-- **C02.**  Calls with permuted contraction orders (and possibly different set enumeration) both succeed and return the same
tensor. -/
theorem C02_order_independent {so so' : SetOrder} (hso : so.Spec) (hso' : so'.Spec) {dim : ℤ → ℕ} {AA : List (Arr K)}
    {v : List (List ℤ)} {order order' forder : List ℤ} (h : Labelled dim AA v order forder) (hp : order.Perm order') :
    ∃ R R' o o', ncon so AA v (some order) (some forder) = .ok (R, o) ∧ ncon so' AA v (some order') (some forder) = .ok (R', o') ∧
      R.shape = R'.shape ∧ ∀ idx : List ℕ, idx.length = R.shape.length → R.val idx = R'.val idx := by
  have h' : Labelled dim AA v order' forder :=
    ⟨h.nonempty, h.len, h.shape, hp.nodup_iff.mp h.order_nodup, h.forder_nodup, fun e he => h.order_pos e (hp.mem_iff.mpr he),
      h.forder_neg, fun e he => h.twice e (hp.mem_iff.mpr he), h.once, fun e he => by
        rw [← hp.mem_iff]; exact h.all e he⟩
  obtain ⟨R, o, h1, h2, h3⟩ := C01_einstein_sum hso h
  obtain ⟨R', o', h1', h2', h3'⟩ := C01_einstein_sum hso' h'
  refine ⟨R, R', o, o', h1, h1', by rw [h2, h2'], fun idx hidx => ?_⟩
  rw [h2, List.length_map] at hidx
  have he : idx = forder.map fun e => idx.getD (forder.idxOf e) 0 := by
    refine List.ext_getElem (by simp [hidx]) fun q h1 h2 => ?_
    rw [List.getElem_map, h.forder_nodup.idxOf_getElem, List.getD_eq_getElem _ _ h1]
  rw [he, h3, h3', labelSum_eq _ _ h.order_nodup, labelSum_eq _ _ h'.order_nodup, sumOver_perm hp h.order_nodup]

/-! ## C03 -/

/-- **C03 (soundness).**  A call that violates one of the conditions raises a ValueError, whatever the orders. -/
theorem C03_rejects {so : SetOrder} {AA : List (Arr K)} {v : List (List ℤ)} {order forder : Option (List ℤ)} (hv : v ≠ [])
    (h : ¬ Checked AA v (order.getD (createOrder v)) (forder.getD (createForder v))) :
    ncon so AA v order forder = .error .value := by
  simp only [ncon]
  rw [if_neg hv, checkIndices_iff.2.mpr h]

/-- **C03 (partial: no label is 0).**  With the default orders `ncon` raises a ValueError exactly when one of the conditions is
violated, and otherwise returns.  Missing: labels equal to 0, see `C03_violated_zero_label`. -/
theorem C03_exact_partial {so : SetOrder} (hso : so.Spec) {AA : List (Arr K)} {v : List (List ℤ)} (hv : v ≠ [])
    (h0 : (0 : ℤ) ∉ v.flatten) :
    (ncon so AA v none none = .error .value ↔ ¬ Checked AA v (createOrder v) (createForder v)) ∧
      (Checked AA v (createOrder v) (createForder v) → ∃ R, ncon so AA v none none = .ok R) := by
  have hok : Checked AA v (createOrder v) (createForder v) → ∃ R, ncon so AA v none none = .ok R := by
    intro h
    obtain ⟨dim, hw⟩ := checked_wf h (nodup_createOrder v) fun e he => by
      rcases lt_trichotomy e 0 with hl | rfl | hl
      · exact Or.inr (mem_createForder.mpr ⟨he, hl⟩)
      · exact absurd he h0
      · exact Or.inl (mem_createOrder.mpr ⟨he, hl⟩)
    obtain ⟨R, extra, h1, -⟩ := ncon_ok hso (order := none) (forder := none) rfl rfl hv h.len hw
      (fun e he => (mem_createOrder.mp he).2) (fun e he => (mem_createForder.mp he).2) (nodup_createForder v)
    exact ⟨_, h1⟩
  refine ⟨⟨fun h hc => ?_, C03_rejects (order := none) (forder := none) hv⟩, hok⟩
  obtain ⟨R, hR⟩ := hok hc
  rw [hR] at h
  cases h

/-- **C03 (explicit orders).**  The same with explicit orders that list every positive and every negative label once. -/
theorem C03_exact_explicit {so : SetOrder} (hso : so.Spec) {AA : List (Arr K)} {v : List (List ℤ)} {order forder : List ℤ}
    (hv : v ≠ []) (ho : order.Nodup) (hf : forder.Nodup) (hop : ∀ e ∈ order, 0 < e) (hfn : ∀ e ∈ forder, e < 0)
    (hall : ∀ e ∈ v.flatten, e ∈ order ∨ e ∈ forder) :
    (ncon so AA v (some order) (some forder) = .error .value ↔ ¬ Checked AA v order forder) ∧
      (Checked AA v order forder → ∃ R, ncon so AA v (some order) (some forder) = .ok R) := by
  have hok : Checked AA v order forder → ∃ R, ncon so AA v (some order) (some forder) = .ok R := by
    intro h
    obtain ⟨dim, hw⟩ := checked_wf h ho hall
    obtain ⟨R, extra, h1, -⟩ := ncon_ok hso (order := some order) (forder := some forder) rfl rfl hv h.len hw hop hfn hf
    exact ⟨_, h1⟩
  refine ⟨⟨fun h hc => ?_, C03_rejects (order := some order) (forder := some forder) hv⟩, hok⟩
  obtain ⟨R, hR⟩ := hok hc
  rw [hR] at h
  cases h

/-- **C03 is violated by label 0.**  The label 0 is neither contracted nor free, so no condition is checked for it, and the final
transposition raises a ValueError although all conditions hold: here a single vector with label 0. -/
theorem C03_violated_zero_label {so : SetOrder} (hso : so.Spec) (n : ℕ) (f : List ℕ → K) :
    Checked [(⟨[n], f⟩ : Arr K)] [[0]] (createOrder [[0]]) (createForder [[0]]) ∧
      ncon so [(⟨[n], f⟩ : Arr K)] [[0]] none none = .error .value := by
  have ho : createOrder [[0]] = [] := by
    refine List.eq_nil_iff_forall_not_mem.mpr fun e he => ?_
    obtain ⟨h1, h2⟩ := mem_createOrder.mp he
    simp at h1; omega
  have hf : createForder [[0]] = [] := by
    refine List.eq_nil_iff_forall_not_mem.mpr fun e he => ?_
    obtain ⟨h1, h2⟩ := mem_createForder.mp he
    simp at h1; omega
  have hc : Checked [(⟨[n], f⟩ : Arr K)] [[0]] [] [] := by
    refine ⟨rfl, ?_, by simp, by simp, by simp⟩
    intro i A l h1 h2
    match i with
    | 0 =>
      obtain rfl := Option.some.inj h1
      obtain rfl := Option.some.inj h2
      rfl
    | i + 1 => simp at h1
  refine ⟨by rw [ho, hf]; exact hc, ?_⟩
  have hp : so.pop [0] = 0 := by
    have := hso.pop_mem [0] (by simp)
    simpa using this
  simp only [ncon, Option.getD_none, ho, hf, checkIndices_iff.1.mpr hc]
  simp [connectGraph, components, bfs, hp, shares, linkAll, loop, permuteFinal]

/-! ## C04 -/

/-- **C04 (partial).**  The caller's order list is left as it was exactly for connected networks; the tensor and label lists are
copied by `list(AA)`, `list(map(list,v))` before anything is changed (lib/ncon/ncon.py:30-39) and are values here.  Otherwise the
caller's list has additional entries: see `C04_violated_second_call`. -/
theorem C04_order_list_partial {so : SetOrder} (hso : so.Spec) {dim : ℤ → ℕ} {AA : List (Arr K)} {v : List (List ℤ)}
    {order forder : List ℤ} (h : Labelled dim AA v order forder) :
    ∃ R extra, ncon so AA v (some order) (some forder) = .ok (R, some (order ++ extra)) ∧ (extra = [] ↔ ConnectedLabels v) ∧
      (order ++ extra).Nodup ∧ ∀ e ∈ extra, e ∉ v.flatten := by
  obtain ⟨R, extra, h1, h2, -⟩ := ncon_ok hso (order := some order) (forder := some forder) rfl rfl h.nonempty h.len h.wf
    h.order_pos h.forder_neg h.forder_nodup
  refine ⟨R, extra, h1, h2.1.trans (conn_iff h.len), h2.2.1, fun e he hev => ?_⟩
  rcases h.all e hev with h3 | h3
  · exact (List.nodup_append.mp h2.2.1).2.2 e h3 e he rfl
  · exact h2.2.2 e he h3

/-- **C04 is violated.**  After a call on a disconnected network with an explicit order list, the caller's list has grown, and
the same call repeated with this list raises a ValueError. -/
theorem C04_violated_second_call {so : SetOrder} (hso : so.Spec) {dim : ℤ → ℕ} {AA : List (Arr K)} {v : List (List ℤ)}
    {order forder : List ℤ} (h : Labelled dim AA v order forder) (hd : ¬ ConnectedLabels v) :
    ∃ R order', ncon so AA v (some order) (some forder) = .ok (R, some order') ∧ order' ≠ order ∧
      ncon so AA v (some order') (some forder) = .error .value := by
  obtain ⟨R, extra, h1, h2, h3, h4⟩ := C04_order_list_partial hso h
  have hne : extra ≠ [] := fun hh => hd (h2.mp hh)
  refine ⟨R, order ++ extra, h1, by simpa using hne, C03_rejects h.nonempty ?_⟩
  intro hc
  simp only [Option.getD_some] at hc
  obtain ⟨e, he⟩ := List.exists_mem_of_ne_nil _ hne
  have h5 := hc.two e (by simp [he])
  exact h4 e he (List.count_pos_iff.mp (by omega))

/-! ## Instances -/

/-- Sets enumerated in insertion order. -/
def listOrder : SetOrder := ⟨fun l => l.headD 0, id⟩

theorem listOrder_spec : listOrder.Spec :=
  ⟨fun l hl => by match l, hl with | a :: l, _ => simp [listOrder], fun l _ => by simp [listOrder]⟩

/-- Two matrices. -/
def exA : Arr ℤ := ⟨[2, 3], fun i => i.getD 0 0 + 2 * i.getD 1 0⟩
/-- Two matrices. -/
def exB : Arr ℤ := ⟨[3, 2], fun i => i.getD 0 0 * 5 - i.getD 1 0⟩
/-- Label dimensions. -/
def exDim : ℤ → ℕ := fun e => if e = 1 then 3 else 2

/-- The matrix product, with the axes of the result exchanged. -/
theorem exMul : Labelled exDim [exA, exB] [[-1, 1], [1, -2]] [1] [-2, -1] := by
  refine ⟨by simp, rfl, ?_, by simp, by simp, by simp, by simp, by decide, by decide, by decide⟩
  intro i A l h1 h2
  match i with
  | 0 => obtain rfl := Option.some.inj h1; obtain rfl := Option.some.inj h2; rfl
  | 1 => obtain rfl := Option.some.inj h1; obtain rfl := Option.some.inj h2; rfl
  | i + 2 => simp at h1

/-- Two traces, a disconnected network. -/
theorem exTraces : Labelled (fun _ => 2) [(⟨[2, 2], fun i => i.sum⟩ : Arr ℤ), ⟨[2, 2], fun i => 1 + i.sum⟩] [[1, 1], [2, 2]] [2, 1] [] := by
  refine ⟨by simp, rfl, ?_, by simp, by simp, by simp, by simp, by decide, by decide, by decide⟩
  intro i A l h1 h2
  match i with
  | 0 => obtain rfl := Option.some.inj h1; obtain rfl := Option.some.inj h2; rfl
  | 1 => obtain rfl := Option.some.inj h1; obtain rfl := Option.some.inj h2; rfl
  | i + 2 => simp at h1

example : ∃ R o, ncon listOrder [exA, exB] [[-1, 1], [1, -2]] (some [1]) (some [-2, -1]) = .ok (R, o) ∧ R.shape = [2, 2] ∧
    R.val [1, 0] = -2 + 2 * (5 - 1) + 4 * (10 - 1) + 2 := by
  obtain ⟨R, o, h1, h2, h3⟩ := C01_einstein_sum listOrder_spec exMul
  refine ⟨R, o, h1, h2, ?_⟩
  have := h3 (fun e => if e = -2 then 1 else 0)
  rw [labelSum_eq _ _ (by simp)] at this
  rw [show ([1, 0] : List ℕ) = List.map (fun e : ℤ => if e = -2 then 1 else 0) [-2, -1] from rfl, this]
  decide

/-- C04 on the two traces: the list `[2,1]` has grown. -/
example : ∃ R order', ncon listOrder [(⟨[2, 2], fun i => i.sum⟩ : Arr ℤ), ⟨[2, 2], fun i => 1 + i.sum⟩] [[1, 1], [2, 2]]
      (some [2, 1]) (some []) = .ok (R, some order') ∧ order' ≠ [2, 1] ∧
    ncon listOrder [(⟨[2, 2], fun i => i.sum⟩ : Arr ℤ), ⟨[2, 2], fun i => 1 + i.sum⟩] [[1, 1], [2, 2]]
      (some order') (some []) = .error .value := by
  refine C04_violated_second_call listOrder_spec exTraces fun hc => ?_
  have := hc (fun i => decide (i = 0)) (by
    intro i j l l' e h1 h2 h3 h4
    match i, j with
    | 0, 0 => rfl
    | 1, 1 => rfl
    | 0, 1 =>
      obtain rfl := Option.some.inj h1; obtain rfl := Option.some.inj h2
      simp at h3 h4; omega
    | 1, 0 =>
      obtain rfl := Option.some.inj h1; obtain rfl := Option.some.inj h2
      simp at h3 h4; omega
    | i + 2, _ => simp at h1
    | _, j + 2 => simp at h2) 0 1 (by simp) (by simp)
  simp at this

end PyTeN
