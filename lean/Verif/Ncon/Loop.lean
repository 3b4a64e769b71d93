import Verif.Ncon.Sum

/-! # The contraction loop keeps the value of the network -/

namespace PyTeN.Ncon
open Finset

set_option linter.unusedSectionVars false

variable {K : Type*} [CommSemiring K] {dim : ℤ → ℕ}

/-- Well-formed network: shapes given by label dimensions, contracted labels occur twice, free ones once. -/
structure WF (dim : ℤ → ℕ) (net : List (Node K)) (order forder : List ℤ) : Prop where
  shape : ∀ x ∈ net, x.1.shape = x.2.map dim
  nodup : order.Nodup
  two : ∀ e ∈ order, (labels net).count e = 2
  free : ∀ e ∈ forder, (labels net).count e = 1
  all : ∀ e ∈ labels net, e ∈ order ∨ e ∈ forder

/-- Connected: whenever the tensors are coloured with two colours, two tensors of different colours share a label. -/
def Conn (net : List (Node K)) : Prop :=
  ∀ L : List (Node K × Bool), (L.map Prod.fst).Perm net → (∃ x, (x, true) ∈ L) → (∃ x, (x, false) ∈ L) →
    ∃ x y e, (x, true) ∈ L ∧ (y, false) ∈ L ∧ e ∈ x.2 ∧ e ∈ y.2

theorem labels_perm {net net' : List (Node K)} (h : net.Perm net') : (labels net).Perm (labels net') := h.flatMap_right _

theorem WF.perm {net net' : List (Node K)} {order forder : List ℤ} (h : WF dim net order forder) (hp : net.Perm net') :
    WF dim net' order forder :=
  ⟨fun x hx => h.shape x (hp.mem_iff.mpr hx), h.nodup, fun e he => by rw [← (labels_perm hp).count_eq, h.two e he],
    fun e he => by rw [← (labels_perm hp).count_eq, h.free e he],
    fun e he => h.all e ((labels_perm hp).mem_iff.mpr he)⟩

theorem Conn.perm {net net' : List (Node K)} (h : Conn net) (hp : net.Perm net') : Conn net' :=
  fun L hL => h L (hL.trans hp.symm)

/-- Contracting the labels `icon` shared by the group of tensors `xs` (all legs with these labels are in the group). -/
structure Merge (dim : ℤ → ℕ) (icon : List ℤ) (xs rest : List (Node K)) (new : Node K) : Prop where
  ne : xs ≠ []
  nodup : icon.Nodup
  cnt : ∀ e ∈ icon, (labels xs).count e = 2
  shape : new.1.shape = new.2.map dim
  lab : new.2 = (labels xs).filter fun l => !icon.contains l
  val : ∀ σ, new.1.val (new.2.map σ) = sumOver dim icon (netVal xs) σ

theorem labels_cons (x : Node K) (l : List (Node K)) : labels (x :: l) = x.2 ++ labels l := by simp [labels]
theorem labels_append (l l' : List (Node K)) : labels (l ++ l') = labels l ++ labels l' := by simp [labels]

theorem netVal_append (l l' : List (Node K)) (σ : ℤ → ℕ) : netVal (l ++ l') σ = netVal l σ * netVal l' σ := by
  simp [netVal]

variable {icon order forder : List ℤ} {xs rest : List (Node K)} {new : Node K}

theorem Merge.count_new (h : Merge dim icon xs rest new) (e : ℤ) :
    new.2.count e = if e ∈ icon then 0 else (labels xs).count e := by
  rw [h.lab]
  by_cases he : e ∈ icon
  · rw [if_pos he, List.count_eq_zero]; simp [he]
  · rw [if_neg he, List.count_filter]; simp [he]

theorem Merge.rest_zero (h : Merge dim icon xs rest new) (hw : WF dim (xs ++ rest) order forder)
    (hi : ∀ e ∈ icon, e ∈ order) : ∀ e ∈ icon, e ∉ labels rest := by
  intro e he hm
  have := hw.two e (hi e he)
  rw [labels_append, List.count_append, h.cnt e he] at this
  have := List.count_pos_iff.mpr hm
  omega

theorem Merge.wf (h : Merge dim icon xs rest new) (hw : WF dim (xs ++ rest) order forder) (hi : ∀ e ∈ icon, e ∈ order) :
    WF dim (new :: rest) (order.filter fun l => !icon.contains l) forder := by
  have hcount : ∀ e, e ∉ icon → (labels (new :: rest)).count e = (labels (xs ++ rest)).count e := by
    intro e he
    rw [labels_cons, labels_append, List.count_append, List.count_append, h.count_new, if_neg he]
  refine ⟨?_, hw.nodup.filter _, ?_, ?_, ?_⟩
  · intro x hx
    rcases List.mem_cons.mp hx with rfl | hx
    · exact h.shape
    · exact hw.shape x (by simp [hx])
  · intro e he
    simp only [List.mem_filter, List.contains_eq_mem, Bool.not_eq_true', decide_eq_false_iff_not] at he
    rw [hcount e he.2, hw.two e he.1]
  · intro e he
    have hne : e ∉ icon := by
      intro h'
      have := hw.two e (hi e h')
      have := hw.free e he
      omega
    rw [hcount e hne, hw.free e he]
  · intro e he
    have hne : e ∉ icon := by
      intro h'
      rw [labels_cons] at he
      rcases List.mem_append.mp he with he | he
      · rw [h.lab] at he; simp [h'] at he
      · exact h.rest_zero hw hi e h' he
    have : e ∈ labels (xs ++ rest) := List.count_pos_iff.mp (by rw [← hcount e hne]; exact List.count_pos_iff.mpr he)
    rcases hw.all e this with h1 | h1
    · left; simp [h1, hne]
    · right; exact h1

theorem Merge.conn (h : Merge dim icon xs rest new) (hw : WF dim (xs ++ rest) order forder) (hi : ∀ e ∈ icon, e ∈ order)
    (hc : Conn (xs ++ rest)) : Conn (new :: rest) := by
  -- colour the tensors of the group like the new tensor
  intro L hL h1 h2
  have hnew : new ∈ L.map Prod.fst := hL.mem_iff.mpr (by simp)
  obtain ⟨⟨n, b⟩, hb, rfl⟩ := List.mem_map.mp hnew
  obtain ⟨L', hL'⟩ : ∃ L', L.Perm ((n, b) :: L') := by
    obtain ⟨s, t, rfl⟩ := List.append_of_mem hb
    exact ⟨s ++ t, List.perm_middle⟩
  have hr : (L'.map Prod.fst).Perm rest := by
    have := ((hL'.map Prod.fst).symm.trans hL)
    simpa using this
  have hmem : ∀ y c, (y, c) ∈ L ↔ (y = n ∧ c = b) ∨ (y, c) ∈ L' := by
    intro y c; rw [hL'.mem_iff]; simp
  have e0 : ((xs.map fun x => (x, b)) ++ L').map Prod.fst = xs ++ L'.map Prod.fst := by simp [Function.comp_def]
  obtain ⟨x0, hx0⟩ := List.exists_mem_of_ne_nil _ h.ne
  have key := hc ((xs.map fun x => (x, b)) ++ L') (by rw [e0]; exact hr.append_left xs)
  have tr : ∀ c, (∃ x, (x, c) ∈ L) → ∃ x, (x, c) ∈ (xs.map fun x => (x, b)) ++ L' := by
    rintro c ⟨x, hx⟩
    rcases (hmem x c).mp hx with ⟨-, rfl⟩ | hx
    · exact ⟨x0, by simp [hx0]⟩
    · exact ⟨x, by simp [hx]⟩
  obtain ⟨x, y, e, hx, hy, hex, hey⟩ := key (tr _ h1) (tr _ h2)
  -- a label shared between the group and the rest survives
  have surv : ∀ x c, (x, c) ∈ (xs.map fun x => (x, b)) ++ L' → e ∈ x.2 → (∃ y, y ∈ rest ∧ e ∈ y.2) →
      ∃ x', (x', c) ∈ L ∧ e ∈ x'.2 := by
    rintro x c hx hex ⟨y, hy, hey⟩
    rcases List.mem_append.mp hx with hx | hx
    · obtain ⟨x', hx', heq⟩ := List.mem_map.mp hx
      obtain ⟨rfl, rfl⟩ := Prod.mk.inj heq
      refine ⟨n, hb, ?_⟩
      have : e ∈ labels xs := List.mem_flatMap.mpr ⟨_, hx', hex⟩
      rw [h.lab]
      have hne : e ∉ icon := fun h' => h.rest_zero hw hi e h' (List.mem_flatMap.mpr ⟨y, hy, hey⟩)
      simp [this, hne]
    · exact ⟨x, (hmem x c).mpr (Or.inr hx), hex⟩
  have inrest : ∀ x c, (x, c) ∈ L' → x ∈ rest := fun x c hx => hr.mem_iff.mp (List.mem_map.mpr ⟨_, hx, rfl⟩)
  rcases List.mem_append.mp hx with hx' | hx'
  · rcases List.mem_append.mp hy with hy' | hy'
    · obtain ⟨_, _, q1⟩ := List.mem_map.mp hx'
      obtain ⟨_, _, q2⟩ := List.mem_map.mp hy'
      have := (Prod.mk.inj q1).2.symm.trans (Prod.mk.inj q2).2
      simp at this
    · obtain ⟨x', q1, q2⟩ := surv x _ hx hex ⟨y, inrest _ _ hy', hey⟩
      exact ⟨x', y, e, q1, (hmem _ _).mpr (Or.inr hy'), q2, hey⟩
  · obtain ⟨y', q1, q2⟩ := surv y _ hy hey ⟨x, inrest _ _ hx', hex⟩
    exact ⟨x, y', e, (hmem _ _).mpr (Or.inr hx'), q1, hex, q2⟩

theorem Merge.value (h : Merge dim icon xs rest new) (hw : WF dim (xs ++ rest) order forder) (hi : ∀ e ∈ icon, e ∈ order)
    (σ : ℤ → ℕ) :
    sumOver dim (order.filter fun l => !icon.contains l) (netVal (new :: rest)) σ
      = sumOver dim order (netVal (xs ++ rest)) σ := by
  have hp : order.Perm ((order.filter fun l => !icon.contains l) ++ icon) := by
    rw [List.perm_ext_iff_of_nodup hw.nodup]
    · intro e
      simp only [List.mem_append, List.mem_filter, List.contains_eq_mem, Bool.not_eq_true', decide_eq_false_iff_not]
      constructor
      · intro he; by_cases h' : e ∈ icon
        · exact Or.inr h'
        · exact Or.inl ⟨he, h'⟩
      · rintro (h' | h')
        · exact h'.1
        · exact hi e h'
    · rw [List.nodup_append]
      refine ⟨hw.nodup.filter _, h.nodup, ?_⟩
      rintro a ha b hb rfl
      simp [hb] at ha
  rw [sumOver_perm hp hw.nodup, sumOver_append]
  refine sumOver_congr fun τ _ => ?_
  have e1 : netVal (xs ++ rest) = fun τ => netVal rest τ * netVal xs τ :=
    funext fun τ => by rw [netVal_append, mul_comm]
  rw [e1, sumOver_mul fun τ' hτ' => netVal_indep fun x hx => hτ' x fun h' => h.rest_zero hw hi x h' hx, ← h.val,
    show new :: rest = [new] ++ rest from rfl, netVal_append, mul_comm]
  simp [netVal]

/-! ## Finding the tensors -/

theorem filter_range_append (p : ℕ → Bool) (a b : ℕ) :
    (List.range (a + b)).filter p = (List.range a).filter p ++ ((List.range b).filter fun i => p (a + i)).map (a + ·) := by
  rw [List.range_add, List.filter_append, List.filter_map]; rfl

theorem first_with (net : List (Node K)) (e : ℤ) (h : (labels net).count e ≠ 0) :
    ∃ p x q, net = p ++ x :: q ∧ (labels p).count e = 0 ∧ x.2.count e ≠ 0 := by
  induction net with
  | nil => simp [labels] at h
  | cons y net ih =>
    by_cases hy : y.2.count e = 0
    · rw [labels_cons, List.count_append, hy, zero_add] at h
      obtain ⟨p, x, q, rfl, h1, h2⟩ := ih h
      exact ⟨y :: p, x, q, rfl, by rw [labels_cons, List.count_append, hy, h1], h2⟩
    · exact ⟨[], y, net, rfl, by simp [labels], hy⟩

/-- The positions of the tensors with label `e`. -/
def tpos (net : List (Node K)) (e : ℤ) : List ℕ :=
  (List.range net.length).filter fun i => ((net[i]?.map fun x => x.2.contains e).getD false)

theorem tpos_append (p q : List (Node K)) (e : ℤ) : tpos (p ++ q) e = tpos p e ++ (tpos q e).map (p.length + ·) := by
  unfold tpos
  rw [List.length_append, filter_range_append]
  congr 1
  · refine List.filter_congr fun i hi => ?_
    rw [List.getElem?_append_left (List.mem_range.mp hi)]
  · congr 1
    refine List.filter_congr fun i _ => ?_
    rw [List.getElem?_append_right (by omega), Nat.add_sub_cancel_left]

theorem tpos_zero {p : List (Node K)} {e : ℤ} (h : (labels p).count e = 0) : tpos p e = [] := by
  unfold tpos
  rw [List.filter_eq_nil_iff]
  intro i hi
  have hi' := List.mem_range.mp hi
  rw [List.getElem?_eq_getElem hi']
  have : e ∉ (p[i]).2 := fun h' =>
    (List.count_eq_zero.mp h) (List.mem_flatMap.mpr ⟨_, List.getElem_mem hi', h'⟩)
  simpa using this

theorem tpos_cons {x : Node K} {q : List (Node K)} {e : ℤ} (h : x.2.count e ≠ 0) :
    tpos (x :: q) e = 0 :: (tpos q e).map (1 + ·) := by
  have := tpos_append [x] q e
  rw [List.singleton_append] at this
  rw [this]
  have : e ∈ x.2 := List.count_pos_iff.mp (by omega)
  simp [tpos, this]

theorem getTcon_eq (net : List (Node K)) (e : ℤ) : getTcon net e = match tpos net e with
    | [] => .error .value
    | [i] => if ((net[i]?.map fun x => x.2.count e).getD 0) = 2 then .ok [i] else .error .value
    | [i, j] => .ok [i, j]
    | _ => .error .value := rfl

/-- A label that occurs twice sits on one tensor (trace) or on two. -/
theorem getTcon_two {net : List (Node K)} {e : ℤ} (h : (labels net).count e = 2) :
    (∃ p x q, net = p ++ x :: q ∧ x.2.count e = 2 ∧ getTcon net e = .ok [p.length]) ∨
    (∃ p x q y r, net = p ++ x :: (q ++ y :: r) ∧ x.2.count e = 1 ∧ y.2.count e = 1 ∧
      getTcon net e = .ok [p.length, p.length + (1 + q.length)]) := by
  obtain ⟨p, x, q, rfl, h1, h2⟩ := first_with net e (by omega)
  rw [labels_append, labels_cons, List.count_append, List.count_append, h1, zero_add] at h
  have ht : tpos (p ++ x :: q) e = p.length :: ((tpos q e).map (1 + ·)).map (p.length + ·) := by
    rw [tpos_append, tpos_zero h1, tpos_cons h2]; simp
  by_cases h3 : x.2.count e = 2
  · left
    refine ⟨p, x, q, rfl, h3, ?_⟩
    rw [getTcon_eq, ht, tpos_zero (by omega)]
    simp [h3]
  · right
    have h4 : x.2.count e = 1 := by omega
    have h5 : (labels q).count e = 1 := by omega
    obtain ⟨q1, y, r, rfl, h6, h7⟩ := first_with q e (by omega)
    rw [labels_append, labels_cons, List.count_append, List.count_append, h6, zero_add] at h5
    refine ⟨p, x, q1, y, r, rfl, h4, by omega, ?_⟩
    rw [getTcon_eq, ht, tpos_append, tpos_zero h6, tpos_cons h7, tpos_zero (by omega)]
    simp

/-- **One step of the loop**: it succeeds, removes labels from the order, keeps the network well formed and connected, and keeps
the sum. -/
theorem contractStep_ok {so : SetOrder} (hso : so.Spec) {net : List (Node K)} {e : ℤ} {es : List ℤ}
    (hw : WF dim net (e :: es) forder) :
    ∃ net' order', contractStep so net e (e :: es) = .ok (net', order') ∧ order'.length ≤ es.length ∧ net' ≠ [] ∧
      WF dim net' order' forder ∧ (Conn net → Conn net') ∧
      ∀ σ, sumOver dim order' (netVal net') σ = sumOver dim (e :: es) (netVal net) σ := by
  have short : ∀ icon : List ℤ, e ∈ icon → ((e :: es).filter fun l => !icon.contains l).length ≤ es.length := by
    intro icon he
    rw [List.filter_cons_of_neg (by simp [he])]
    exact List.length_filter_le _ _
  rcases getTcon_two (hw.two e (by simp)) with ⟨p, ⟨A, ls⟩, q, rfl, h1, ht⟩ | ⟨p, ⟨A, ls⟩, q, ⟨B, ms⟩, r, rfl, h1, h2, ht⟩
  · have hA : A.shape = ls.map dim := hw.shape (A, ls) (by simp)
    obtain ⟨a, b, hab, hpos⟩ := getPos_two h1
    have hm : Merge dim [e] [(A, ls)] (p ++ q) (trace A a b, ls.filter fun l => !([e] : List ℤ).contains l) :=
      ⟨by simp, by simp, by simpa [labels] using h1, trace_shape hA hpos, by simp [labels], fun σ => by
        rw [trace_val hA hab hpos]
        exact congrArg (fun f => sumOver dim _ f σ) (funext fun τ => by simp [netVal])⟩
    have hperm : (p ++ (A, ls) :: q).Perm ([(A, ls)] ++ (p ++ q)) := by simp
    have hw' := hw.perm hperm
    have hi : ∀ x ∈ [e], x ∈ e :: es := by simp
    set n : Node K := (trace A a b, ls.filter fun l => !([e] : List ℤ).contains l) with hn
    have hperm' : (n :: (p ++ q)).Perm (p ++ q ++ [n]) := (List.perm_append_singleton n (p ++ q)).symm
    refine ⟨p ++ q ++ [n], (e :: es).filter fun l => !([e] : List ℤ).contains l, ?_, short _ (by simp), by simp,
      (hm.wf hw' hi).perm hperm', fun hc => (hm.conn hw' hi (hc.perm hperm)).perm hperm', fun σ => ?_⟩
    · simp only [contractStep, ht]
      have hg : getE (p ++ (A, ls) :: q) p.length = .ok (A, ls) := by simp [getE]
      rw [hg]
      simp only [hpos]
      congr 2
      rw [List.append_assoc, List.eraseIdx_append_of_length_le (le_refl _)]
      simp [hn]
    · have e1 : netVal (p ++ q ++ [n]) = netVal (n :: (p ++ q)) := funext fun σ => (netVal_perm hperm' σ).symm
      have e2 : netVal (p ++ (A, ls) :: q) = netVal ([(A, ls)] ++ (p ++ q)) := funext fun σ => netVal_perm hperm σ
      rw [e1, e2]
      exact hm.value hw' hi σ
  · have hA : A.shape = ls.map dim := hw.shape (A, ls) (by simp)
    have hB : B.shape = ms.map dim := hw.shape (B, ms) (by simp)
    have hperm : (p ++ (A, ls) :: (q ++ (B, ms) :: r)).Perm ([(A, ls), (B, ms)] ++ (p ++ q ++ r)) := by
      rw [List.cons_append, List.singleton_append]
      refine List.perm_middle.trans (List.Perm.cons _ ?_)
      rw [← List.append_assoc]
      exact List.perm_middle
    have hw' := hw.perm hperm
    set icon := so.lst (ls.dedup.filter fun l => ms.contains l) with hicon
    have hip : icon.Perm (ls.dedup.filter fun l => ms.contains l) := hso.lst_perm _ ((List.nodup_dedup _).filter _)
    have himem : ∀ x, x ∈ icon ↔ x ∈ ls ∧ x ∈ ms := by
      intro x; rw [hip.mem_iff]; simp
    have hin : icon.Nodup := hip.nodup_iff.mpr ((List.nodup_dedup _).filter _)
    have hcnt : ∀ x, x ∈ icon → ls.count x = 1 ∧ ms.count x = 1 ∧ x ∈ e :: es := by
      intro x hx
      obtain ⟨m1, m2⟩ := (himem x).mp hx
      have c1 := List.count_pos_iff.mpr m1
      have c2 := List.count_pos_iff.mpr m2
      have hmem : x ∈ labels ([(A, ls), (B, ms)] ++ (p ++ q ++ r)) := by simp [labels, m1]
      have hc : (labels ([(A, ls), (B, ms)] ++ (p ++ q ++ r))).count x = ls.count x + ms.count x + (labels (p ++ q ++ r)).count x := by
        rw [labels_append, List.count_append]; simp [labels]
      rcases hw'.all x hmem with h | h
      · have := hw'.two x h
        exact ⟨by omega, by omega, h⟩
      · have := hw'.free x h
        omega
    have hei : e ∈ icon := (himem e).mpr ⟨List.count_pos_iff.mp (by rw [h1]; omega), List.count_pos_iff.mp (by rw [h2]; omega)⟩
    have hi : ∀ x ∈ icon, x ∈ e :: es := fun x hx => (hcnt x hx).2.2
    obtain ⟨C, hC, hCs, hCv⟩ := tensordot_ok hA hB hin (fun x hx => (hcnt x hx).1) (fun x hx => (hcnt x hx).2.1)
    set n : Node K := (C, (ls ++ ms).filter fun l => !icon.contains l) with hn
    have hm : Merge dim icon [(A, ls), (B, ms)] (p ++ q ++ r) n :=
      ⟨by simp, hin, fun x hx => by simp [labels, hcnt x hx], hCs, by simp [labels, hn], fun σ => by
        rw [hn, hCv]
        exact congrArg (fun f => sumOver dim _ f σ) (funext fun τ => by simp [netVal])⟩
    have hperm' : (n :: (p ++ q ++ r)).Perm (p ++ q ++ r ++ [n]) := (List.perm_append_singleton n _).symm
    refine ⟨p ++ q ++ r ++ [n], (e :: es).filter fun l => !icon.contains l, ?_, short _ hei, by simp,
      (hm.wf hw' hi).perm hperm', fun hc => (hm.conn hw' hi (hc.perm hperm)).perm hperm', fun σ => ?_⟩
    · simp only [contractStep, ht]
      have hg : getE (p ++ (A, ls) :: (q ++ (B, ms) :: r)) p.length = .ok (A, ls) := by simp [getE]
      have hg' : getE (p ++ (A, ls) :: (q ++ (B, ms) :: r)) (p.length + (1 + q.length)) = .ok (B, ms) := by
        simp only [getE]
        rw [List.getElem?_append_right (by omega), Nat.add_sub_cancel_left, show 1 + q.length = q.length + 1 by omega]
        simp
      rw [hg]
      simp only [hg', ← hicon, hC]
      congr 2
      rw [List.append_assoc, List.eraseIdx_append_of_length_le (by omega), Nat.add_sub_cancel_left,
        show 1 + q.length = q.length + 1 by omega, List.cons_append, List.eraseIdx_cons_succ, List.append_assoc,
        List.eraseIdx_append_of_length_le (le_refl _), List.eraseIdx_append_of_length_le (le_refl _)]
      simp [hn]
    · have e1 : netVal (p ++ q ++ r ++ [n]) = netVal (n :: (p ++ q ++ r)) := funext fun σ => (netVal_perm hperm' σ).symm
      have e2 : netVal (p ++ (A, ls) :: (q ++ (B, ms) :: r)) = netVal ([(A, ls), (B, ms)] ++ (p ++ q ++ r)) :=
        funext fun σ => netVal_perm hperm σ
      rw [e1, e2]
      exact hm.value hw' hi σ

/-- **The loop**: ends with a single tensor whose entries are the sums. -/
theorem loop_ok {so : SetOrder} (hso : so.Spec) {fuel : ℕ} {net : List (Node K)} {order : List ℤ}
    (hf : order.length ≤ fuel) (hne : net ≠ []) (hc : Conn net) (hw : WF dim net order forder) :
    ∃ x, loop so fuel net order = .ok [x] ∧ WF dim [x] [] forder ∧
      ∀ σ, x.1.val (x.2.map σ) = sumOver dim order (netVal net) σ := by
  induction fuel generalizing net order with
  | zero =>
    obtain rfl : order = [] := by simpa using hf
    exact loop_nil hne hc hw
  | succ fuel ih =>
    match order with
    | [] => exact loop_nil hne hc hw
    | e :: es =>
      obtain ⟨net', order', h1, h2, h3, h4, h5, h6⟩ := contractStep_ok hso hw
      obtain ⟨x, q1, q2, q3⟩ := ih (by simp at hf; omega) h3 (h5 hc) h4
      refine ⟨x, ?_, q2, fun σ => (q3 σ).trans (h6 σ)⟩
      simp only [loop, h1, q1]
where
  loop_nil {so : SetOrder} {fuel : ℕ} {net : List (Node K)} (hne : net ≠ []) (hc : Conn net) (hw : WF dim net [] forder) :
      ∃ x, loop so fuel net [] = .ok [x] ∧ WF dim [x] [] forder ∧
        ∀ σ, x.1.val (x.2.map σ) = sumOver dim [] (netVal net) σ := by
    match net, hne with
    | [x], _ => exact ⟨x, by cases fuel <;> rfl, hw, fun σ => by simp [sumOver, netVal]⟩
    | x :: y :: l, _ =>
      exfalso
      obtain ⟨a, b, e, h1, h2, h3, h4⟩ := hc ((x, true) :: (y :: l).map fun z => (z, false))
        (by simp [Function.comp_def]) ⟨x, by simp⟩ ⟨y, by simp⟩
      have ha : a = x := by simpa using h1
      have hb : b ∈ y :: l := by simpa using h2
      subst ha
      have m1 : e ∈ labels (y :: l) := List.mem_flatMap.mpr ⟨b, hb, h4⟩
      have hmem : e ∈ labels (a :: y :: l) := by rw [labels_cons]; simp [h3]
      have hf := hw.free e ((hw.all e hmem).resolve_left (by simp))
      rw [labels_cons, List.count_append] at hf
      have := List.count_pos_iff.mpr h3
      have := List.count_pos_iff.mpr m1
      omega

end PyTeN.Ncon
