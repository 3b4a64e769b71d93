import Verif.Env.Layer

/-! # `contractMPO`, `contractE`, `initializeLayer` and `HAproductZeroSiteMat` -/

namespace PyTeN
open Finset

section
variable {K : Type*} [CommSemiring K] [StarRing K]

/-- The loop body of `contractMPO(...,direction>0)`, lib/mpslib/mpsfunctions.py:300-303, over the list of
visited sites. -/
def layersR (mps1 : List (Ten K)) (mpo : List (Mpo K)) (mps2 : List (Ten K)) : List ℕ → Env K → Res (Env K)
  | [], E => .ok E
  | n :: ns, E =>
    match mps1[n]?, mpo[n]?, mps2[n]? with
    | some A, some W, some B =>
      match addLayerR E A W B with
      | .error e => .error e
      | .ok E' => layersR mps1 mpo mps2 ns E'
    | _, _, _ => .error .index

/-- The same for `direction<0`, lib/mpslib/mpsfunctions.py:304-308. -/
def layersL (mps1 : List (Ten K)) (mpo : List (Mpo K)) (mps2 : List (Ten K)) : List ℕ → Env K → Res (Env K)
  | [], E => .ok E
  | n :: ns, E =>
    match mps1[n]?, mpo[n]?, mps2[n]? with
    | some A, some W, some B =>
      match addLayerL E A W B with
      | .error e => .error e
      | .ok E' => layersL mps1 mpo mps2 ns E'
    | _, _, _ => .error .index

/-- `contractMPO(mps1,mps2,mpo,tensor,site1,site2,direction)`, lib/mpslib/mpsfunctions.py:284-308, for sites
`≥ 0` and the two directions (`right` is `direction>0`). -/
def contractMPO (mps1 mps2 : List (Ten K)) (mpo : List (Mpo K)) (E : Env K) (site1 site2 : ℕ) (right : Bool) :
    Res (Env K) :=
  if site2 < site1 then .error .assertion
  else if right then layersR mps1 mpo mps2 (List.range' site1 (site2 + 1 - site1)) E
  else layersL mps1 mpo mps2 (List.range' site1 (site2 + 1 - site1)).reverse E

/-- The loop of `contractE`, lib/mpslib/mpsfunctions.py:323-326. -/
def elayersR (mps1 mps2 : List (Ten K)) : List ℕ → Env K → Res (Env K)
  | [], E => .ok E
  | n :: ns, E =>
    match mps1[n]?, mps2[n]? with
    | some A, some B =>
      match addELayerR E A B with
      | .error e => .error e
      | .ok E' => elayersR mps1 mps2 ns E'
    | _, _ => .error .index

/-- The loop of `contractE`, lib/mpslib/mpsfunctions.py:328-332. -/
def elayersL (mps1 mps2 : List (Ten K)) : List ℕ → Env K → Res (Env K)
  | [], E => .ok E
  | n :: ns, E =>
    match mps1[n]?, mps2[n]? with
    | some A, some B =>
      match addELayerL E A B with
      | .error e => .error e
      | .ok E' => elayersL mps1 mps2 ns E'
    | _, _ => .error .index

/-- `contractE(mps1,mps2,tensor,site1,site2,direction)`, lib/mpslib/mpsfunctions.py:311-333, for sites
`≥ 0`. -/
def contractE (mps1 mps2 : List (Ten K)) (E : Env K) (site1 site2 : ℕ) (right : Bool) : Res (Env K) :=
  if site2 < site1 then .error .assertion
  else if right then elayersR mps1 mps2 (List.range' site1 (site2 + 1 - site1)) E
  else elayersL mps1 mps2 (List.range' site1 (site2 + 1 - site1)).reverse E

/-- `initializeLayer(A,x,B,mpo,direction>0)`, lib/mpslib/mpsfunctions.py:905-909: the result of shape
`(chi2,chi2_,D1,D2)` is reshaped to `(chi2,chi2_,D2)`, which fails unless `D1 = 1` (or the array is empty,
not modelled: then the model still raises ValueError). -/
def initializeLayerR (A : Ten K) (x : Mat K) (B : Ten K) (W : Mpo K) : Res (Env K) :=
  if x.r = A.l ∧ x.c = B.l ∧ A.d = W.din ∧ B.d = W.dout ∧ W.l = 1 then
    .ok ⟨A.r, B.r, W.r, fun j j' b' =>
      ∑ s ∈ range A.d, ∑ s' ∈ range B.d, (∑ i' ∈ range x.c, (∑ i ∈ range x.r, x.v i i' * A.v i j s) *
        star (B.v i' j' s')) * W.v 0 b' s s'⟩
  else .error .value

/-- `initializeLayer(A,x,B,mpo,direction<0)`, lib/mpslib/mpsfunctions.py:911-914; needs `D2 = 1`. -/
def initializeLayerL (A : Ten K) (x : Mat K) (B : Ten K) (W : Mpo K) : Res (Env K) :=
  if x.r = A.r ∧ x.c = B.r ∧ A.d = W.din ∧ B.d = W.dout ∧ W.r = 1 then
    .ok ⟨A.l, B.l, W.l, fun i i' b =>
      ∑ s ∈ range A.d, ∑ s' ∈ range B.d, (∑ j' ∈ range x.c, (∑ j ∈ range x.r, x.v j j' * A.v i j s) *
        star (B.v i' j' s')) * W.v b 0 s s'⟩
  else .error .value

/-- `HAproductZeroSiteMat(L,mpo,mps,R,position,mat)`, lib/mpslib/mpsfunctions.py:1000-1011 (`right` is
`position=='right'`). -/
def zeroSiteH (L : Env K) (W : Mpo K) (A : Ten K) (R : Env K) (right : Bool) (M : Mat K) : Res (Mat K) :=
  if right then
    match addLayerR L A W A with
    | .error e => .error e
    | .ok L1 => bondH L1 R M
  else
    match addLayerL R A W A with
    | .error e => .error e
    | .ok R1 => bondH L R1 M

/-! ## Lemmas -/

theorem layersR_isL (mps1 mps2 : List (Ten K)) (mpo : List (Mpo K)) (k a : ℕ) (E E' : Env K)
    (h : layersR mps1 mpo mps2 (List.range' a k) E = .ok E') :
    IsL E ((mps1.drop a).take k) ((mpo.drop a).take k) ((mps2.drop a).take k) E' := by
  induction k generalizing a E with
  | zero =>
    simp only [List.range'_zero, layersR, Except.ok.injEq] at h
    subst h
    simpa using isL_nil E
  | succ k ih =>
    rw [List.range'_succ, layersR] at h
    split at h
    · rename_i A W B hA hW hB
      split at h
      · cases h
      rename_i E1 h1
      have := isL_cons h1 (ih (a + 1) E1 h)
      obtain ⟨ha, hA⟩ := List.getElem?_eq_some_iff.mp hA
      obtain ⟨hw, hW⟩ := List.getElem?_eq_some_iff.mp hW
      obtain ⟨hb, hB⟩ := List.getElem?_eq_some_iff.mp hB
      rw [List.drop_eq_getElem_cons ha, List.drop_eq_getElem_cons hw, List.drop_eq_getElem_cons hb, hA, hW, hB]
      simpa only [List.take_succ_cons] using this
    · cases h

theorem layersL_isR (mps1 mps2 : List (Ten K)) (mpo : List (Mpo K)) (k a : ℕ) (E E' : Env K)
    (h : layersL mps1 mpo mps2 (List.range' a k).reverse E = .ok E') :
    IsR E ((mps1.drop a).take k) ((mpo.drop a).take k) ((mps2.drop a).take k) E' := by
  induction k generalizing E with
  | zero =>
    simp only [List.range'_zero, List.reverse_nil, layersL, Except.ok.injEq] at h
    subst h
    simpa using isR_nil E
  | succ k ih =>
    rw [List.range'_concat, List.reverse_append, List.reverse_cons, List.reverse_nil, List.nil_append,
      List.cons_append, List.nil_append, layersL] at h
    split at h
    · rename_i A W B hA hW hB
      split at h
      · cases h
      rename_i E1 h1
      have := isR_snoc h1 (ih E1 h)
      have tk : ∀ {α : Type _} {l : List α} {x : α}, l[a + 1 * k]? = some x →
          (l.drop a).take (k + 1) = (l.drop a).take k ++ [x] := by
        intro α l x hx
        rw [one_mul] at hx
        rw [List.take_add_one, List.getElem?_drop, hx]; rfl
      rw [tk hA, tk hW, tk hB]
      exact this
    · cases h

/-- the layers of `contractMPO` are the contraction of the sites `site1..site2`. -/
theorem contractMPO_right {mps1 mps2 : List (Ten K)} {mpo : List (Mpo K)} {E E' : Env K} {a b : ℕ}
    (h : contractMPO mps1 mps2 mpo E a b true = .ok E') :
    IsL E ((mps1.drop a).take (b + 1 - a)) ((mpo.drop a).take (b + 1 - a)) ((mps2.drop a).take (b + 1 - a)) E' := by
  unfold contractMPO at h
  rw [if_pos rfl] at h
  split_ifs at h
  exact layersR_isL _ _ _ _ _ _ _ h

theorem contractMPO_left {mps1 mps2 : List (Ten K)} {mpo : List (Mpo K)} {E E' : Env K} {a b : ℕ}
    (h : contractMPO mps1 mps2 mpo E a b false = .ok E') :
    IsR E ((mps1.drop a).take (b + 1 - a)) ((mpo.drop a).take (b + 1 - a)) ((mps2.drop a).take (b + 1 - a)) E' := by
  unfold contractMPO at h
  rw [if_neg (c := (false = true)) (by simp)] at h
  split_ifs at h
  exact layersL_isR _ _ _ _ _ _ _ h

theorem contractMPO_rejects (mps1 mps2 : List (Ten K)) (mpo : List (Mpo K)) (E : Env K) {a b : ℕ} (h : b < a)
    (r : Bool) : contractMPO mps1 mps2 mpo E a b r = .error .assertion := by
  unfold contractMPO; rw [if_pos h]

/-- `initializeLayer` is `addLayer` applied to the matrix seen as a block of MPO dimension 1. -/
theorem initializeLayerR_eq (A : Ten K) (x : Mat K) (B : Ten K) (W : Mpo K) (E : Env K)
    (h : initializeLayerR A x B W = .ok E) :
    ∃ E', addLayerR ⟨x.r, x.c, 1, fun i i' _ => x.v i i'⟩ A W B = .ok E' ∧ E'.u = E.u ∧ E'.w = E.w ∧ E'.m = E.m ∧
      ∀ j j' b, E'.v j j' b = E.v j j' b := by
  unfold initializeLayerR at h
  split_ifs at h with hs
  simp only [Except.ok.injEq] at h
  subst h
  unfold addLayerR
  rw [if_pos ⟨hs.1, hs.2.2.2.2.symm, hs.2.2.1, hs.2.1, hs.2.2.2.1.symm⟩]
  refine ⟨_, rfl, rfl, rfl, rfl, fun j j' b => ?_⟩
  simp only [sum_range_one, sum_mul]
  have h2 := Finset.sum_comm (s := range x.r ×ˢ range x.c) (t := range A.d ×ˢ range B.d)
    (f := fun i j1 => x.v i.1 i.2 * A.v i.1 j j1.1 * W.v 0 b j1.1 j1.2 * star (B.v i.2 j' j1.2))
  simp only [Finset.sum_product] at h2
  rw [h2]
  refine sum_congr rfl fun s _ => sum_congr rfl fun s' _ => ?_
  rw [sum_comm]
  refine sum_congr rfl fun i' _ => sum_congr rfl fun i _ => ?_
  ring

theorem initializeLayerL_eq (A : Ten K) (x : Mat K) (B : Ten K) (W : Mpo K) (E : Env K)
    (h : initializeLayerL A x B W = .ok E) :
    ∃ E', addLayerL ⟨x.r, x.c, 1, fun i i' _ => x.v i i'⟩ A W B = .ok E' ∧ E'.u = E.u ∧ E'.w = E.w ∧ E'.m = E.m ∧
      ∀ j j' b, E'.v j j' b = E.v j j' b := by
  unfold initializeLayerL at h
  split_ifs at h with hs
  simp only [Except.ok.injEq] at h
  subst h
  unfold addLayerL
  rw [if_pos ⟨hs.1, hs.2.2.2.2.symm, hs.2.2.1, hs.2.1, hs.2.2.2.1.symm⟩]
  refine ⟨_, rfl, rfl, rfl, rfl, fun i i' b => ?_⟩
  simp only [sum_range_one, sum_mul]
  have h2 := Finset.sum_comm (s := range x.r ×ˢ range x.c) (t := range A.d ×ˢ range B.d)
    (f := fun j j1 => x.v j.1 j.2 * A.v i j.1 j1.1 * W.v b 0 j1.1 j1.2 * star (B.v i' j.2 j1.2))
  simp only [Finset.sum_product] at h2
  rw [h2]
  refine sum_congr rfl fun s _ => sum_congr rfl fun s' _ => ?_
  rw [sum_comm]
  refine sum_congr rfl fun j' _ => sum_congr rfl fun j _ => ?_
  ring

end

end PyTeN
