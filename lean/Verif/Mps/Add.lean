import Verif.Chain

/-!
# Direct sums of matrix product states (`directsum`, `addMPS` of mpsfunctions.py)

Entries in an arbitrary commutative semiring.  The arrays are first filled with random numbers of
size 1E-16 by the code; every entry is overwritten afterwards, so the random numbers do not appear
in the model.
-/

namespace PyTeN
open Finset

variable {K : Type*} [CommSemiring K]

/-- `directsum(m1[:,:,n],m2[:,:,n])` for all `n`, lib/mpslib/mpsfunctions.py:159-170 as used in
lines 204-209 (interior sites) and 230-239 (`obc=False`). -/
def sumMid (a b : Ten K) : Ten K :=
  ⟨a.l + b.l, a.r + b.r, a.d, fun i j s =>
    if i < a.l then (if j < a.r then a.v i j s else 0)
    else (if j < a.r then 0 else b.v (i - a.l) (j - a.r) s)⟩

/-- First site of `addMPS(..,obc=True)`, lib/mpslib/mpsfunctions.py:191-199: row 0 of both tensors
side by side, multiplied with the norm factors. -/
def sumFirst (Z1 Z2 : K) (a b : Ten K) : Ten K :=
  ⟨1, a.r + b.r, a.d, fun _ j s => if j < a.r then a.v 0 j s * Z1 else b.v 0 (j - a.r) s * Z2⟩

/-- Last site of `addMPS(..,obc=True)`, lib/mpslib/mpsfunctions.py:212-219: column 0 of both tensors
stacked. -/
def sumLast (a b : Ten K) : Ten K :=
  ⟨a.l + b.l, 1, a.d, fun i _ s => if i < a.l then a.v i 0 s else b.v (i - a.l) 0 s⟩

/-- The loop over the interior sites, lib/mpslib/mpsfunctions.py:200-210; different local dimensions
raise ValueError. -/
def sumMids : List (Ten K) → List (Ten K) → Res (List (Ten K))
  | a :: as, b :: bs =>
    if a.d ≠ b.d then .error .value else
    match sumMids as bs with
    | .error e => .error e
    | .ok ts => .ok (sumMid a b :: ts)
  | _, _ => .ok []

/-- `addMPS(mps1,Z1,mps2,Z2,obc=True)`, lib/mpslib/mpsfunctions.py:173-219 and 243.  For a single
site the first and the last block are both appended (two tensors); an empty list is an
IndexError. -/
def addMPS (ts1 : List (Ten K)) (Z1 : K) (ts2 : List (Ten K)) (Z2 : K) : Res (List (Ten K)) :=
  if ts1.length ≠ ts2.length then .error .value else
  match ts1.head?, ts2.head?, ts1.getLast?, ts2.getLast? with
  | some a, some b, some x, some y =>
    if a.d ≠ b.d then .error .value else
    match sumMids ts1.tail.dropLast ts2.tail.dropLast with
    | .error e => .error e
    | .ok mids =>
      if x.d ≠ y.d then .error .value else
      .ok (sumFirst Z1 Z2 a b :: mids ++ [sumLast x y])
  | _, _, _, _ => .error .index

/-- `mps[site][:,:,n]*Z`, lib/mpslib/mpsfunctions.py:236. -/
def Ten.scale (t : Ten K) (c : K) : Ten K := ⟨t.l, t.r, t.d, fun i j s => t.v i j s * c⟩

/-- `addMPS(mps1,Z1,mps2,Z2,obc=False)`, lib/mpslib/mpsfunctions.py:221-243:
direct sums on every site, the norm factors go to site 0. -/
def addMPSpbc (ts1 : List (Ten K)) (Z1 : K) (ts2 : List (Ten K)) (Z2 : K) : Res (List (Ten K)) :=
  if ts1.length ≠ ts2.length then .error .value else
  match ts1, ts2 with
  | a :: as, b :: bs =>
    if a.d ≠ b.d then .error .value else
    match sumMids as bs with
    | .error e => .error e
    | .ok ts => .ok (sumMid (a.scale Z1) (b.scale Z2) :: ts)
  | _, _ => .ok []

/-! ## Lemmas -/

omit [CommSemiring K] in
theorem linked_singleton {l r : ℕ} {t : Ten K} : Linked l [t] r ↔ t.l = l ∧ t.r = r := by
  simp [Linked]

/-- Sums over a direct sum of index ranges. -/
theorem sum_range_add_ite (a b : ℕ) (f g : ℕ → K) :
    ∑ k ∈ range (a + b), (if k < a then f k else g (k - a))
      = ∑ k ∈ range a, f k + ∑ k ∈ range b, g k := by
  rw [sum_range_add]
  congr 1
  · apply sum_congr rfl; intro k hk; rw [if_pos (mem_range.mp hk)]
  · apply sum_congr rfl; intro k _; rw [if_neg (by omega)]; congr 1; omega

/-- Entry of a block-diagonal matrix with blocks `f`, `g`. -/
def blockEntry (a b : ℕ) (f g : ℕ → ℕ → K) (i j : ℕ) : K :=
  if i < a then (if j < b then f i j else 0) else (if j < b then 0 else g (i - a) (j - b))

/-- The product of direct sums is the direct sum of the products. -/
theorem chain_sumMids {as bs ts : List (Ten K)} (h : sumMids as bs = .ok ts)
    (hlen : as.length = bs.length) {la lb ra rb : ℕ} (ha : Linked la as ra) (hb : Linked lb bs rb)
    (s : List ℕ) (i j : ℕ) :
    chain ts s i j = blockEntry la ra (chain as s) (chain bs s) i j := by
  induction as generalizing bs ts la lb s i with
  | nil =>
    have : bs = [] := by simpa using hlen.symm
    subst this
    simp only [sumMids] at h
    cases h
    simp only [Linked] at ha hb
    subst ha; subst hb
    unfold blockEntry
    cases s with
    | nil =>
      simp only [chain, delta]
      split_ifs <;> first | rfl | omega
    | cons x s => simp [chain]
  | cons a as ih =>
    cases bs with
    | nil => simp at hlen
    | cons b bs =>
      simp only [sumMids] at h
      split at h
      · cases h
      · split at h
        · cases h
        · rename_i ts' h'
          cases h
          cases s with
          | nil => simp [chain, blockEntry]
          | cons x s =>
            have ihs := fun k => ih h' (by simpa using hlen) ha.2 hb.2 s k
            simp only [chain]
            simp_rw [ihs]
            have hal := ha.1
            simp only [sumMid]
            by_cases hi : i < la
            · have hi' : i < a.l := by omega
              simp only [hi', if_true, blockEntry, hi]
              rw [sum_range_add]
              rw [show ∑ x_1 ∈ range b.r, (if a.r + x_1 < a.r then a.v i (a.r + x_1) x else 0) *
                (if a.r + x_1 < a.r then if j < ra then chain as s (a.r + x_1) j else 0
                  else if j < ra then 0 else chain bs s (a.r + x_1 - a.r) (j - ra)) = 0 from
                sum_eq_zero (fun k _ => by rw [if_neg (by omega), zero_mul]), add_zero]
              by_cases hj : j < ra
              · simp only [hj, if_true]
                apply sum_congr rfl; intro k hk
                rw [if_pos (mem_range.mp hk), if_pos (mem_range.mp hk)]
              · simp only [hj, if_false]
                apply sum_eq_zero; intro k hk
                rw [if_pos (mem_range.mp hk), if_pos (mem_range.mp hk), mul_zero]
            · have hi' : ¬ i < a.l := by omega
              simp only [hi', if_false, blockEntry, hi]
              rw [sum_range_add]
              rw [show ∑ x_1 ∈ range a.r, (if x_1 < a.r then 0 else b.v (i - a.l) (x_1 - a.r) x) *
                (if x_1 < a.r then if j < ra then chain as s x_1 j else 0
                  else if j < ra then 0 else chain bs s (x_1 - a.r) (j - ra)) = 0 from
                sum_eq_zero (fun k hk => by rw [if_pos (mem_range.mp hk), zero_mul]), zero_add]
              by_cases hj : j < ra
              · simp only [hj, if_true]
                apply sum_eq_zero; intro k hk
                rw [if_neg (by omega), if_neg (by omega), mul_zero]
              · simp only [hj, if_false]
                apply sum_congr rfl; intro k hk
                rw [if_neg (by omega), if_neg (by omega), hal]
                simp

theorem sumMids_shape {as bs ts : List (Ten K)} (h : sumMids as bs = .ok ts)
    (hlen : as.length = bs.length) :
    ts.map Ten.d = as.map Ten.d ∧ bs.map Ten.d = as.map Ten.d ∧
      ts.map Ten.l = List.zipWith (· + ·) (as.map Ten.l) (bs.map Ten.l) ∧
      ts.map Ten.r = List.zipWith (· + ·) (as.map Ten.r) (bs.map Ten.r) := by
  induction as generalizing bs ts with
  | nil =>
    have : bs = [] := by simpa using hlen.symm
    subst this
    simp only [sumMids] at h
    cases h
    simp
  | cons a as ih =>
    cases bs with
    | nil => simp at hlen
    | cons b bs =>
      simp only [sumMids] at h
      split at h
      · cases h
      · rename_i hd
        split at h
        · cases h
        · rename_i ts' h'
          cases h
          obtain ⟨i1, i2, i3, i4⟩ := ih h' (by simpa using hlen)
          simp only [ne_eq, not_not] at hd
          simp [i1, i2, i3, i4, sumMid, hd]

theorem linked_sumMids {as bs ts : List (Ten K)} (h : sumMids as bs = .ok ts)
    (hlen : as.length = bs.length) {la lb ra rb : ℕ} (ha : Linked la as ra) (hb : Linked lb bs rb) :
    Linked (la + lb) ts (ra + rb) := by
  induction as generalizing bs ts la lb with
  | nil =>
    have : bs = [] := by simpa using hlen.symm
    subst this
    simp only [sumMids] at h
    cases h
    simp only [Linked] at ha hb ⊢
    omega
  | cons a as ih =>
    cases bs with
    | nil => simp at hlen
    | cons b bs =>
      simp only [sumMids] at h
      split at h
      · cases h
      · split at h
        · cases h
        · rename_i ts' h'
          cases h
          exact ⟨by simp [sumMid, ha.1, hb.1], ih h' (by simpa using hlen) ha.2 hb.2⟩

theorem sumMids_ok {as bs : List (Ten K)} (hd : as.map Ten.d = bs.map Ten.d) :
    ∃ ts, sumMids as bs = .ok ts := by
  induction as generalizing bs with
  | nil => exact ⟨[], by simp [sumMids]⟩
  | cons a as ih =>
    cases bs with
    | nil => simp at hd
    | cons b bs =>
      simp only [List.map_cons, List.cons.injEq] at hd
      obtain ⟨ts, h⟩ := ih hd.2
      exact ⟨sumMid a b :: ts, by simp [sumMids, hd.1, h]⟩

theorem sumMids_err {as bs : List (Ten K)} {e : PyErr} (h : sumMids as bs = .error e) :
    e = .value := by
  induction as generalizing bs with
  | nil => simp [sumMids] at h
  | cons a as ih =>
    cases bs with
    | nil => simp [sumMids] at h
    | cons b bs =>
      simp only [sumMids] at h
      split at h
      · cases h; rfl
      · split at h
        · rename_i e' h'; cases h; exact ih h'
        · cases h

/-- A list of at least two sites as first, interior and last part. -/
theorem list_ends {α : Type*} {ts : List α} (h : 2 ≤ ts.length) :
    ∃ a A x, ts = a :: A ++ [x] := by
  match ts, h with
  | a :: ts, h =>
    have hne : ts ≠ [] := by intro h0; subst h0; simp at h
    exact ⟨a, ts.dropLast, ts.getLast hne, by simp [List.dropLast_append_getLast]⟩

/-- `addMPS` on lists given as first site, interior, last site. -/
theorem addMPS_ends (a : Ten K) (A : List (Ten K)) (x : Ten K) (Z1 : K) (b : Ten K)
    (B : List (Ten K)) (y : Ten K) (Z2 : K) :
    addMPS (a :: A ++ [x]) Z1 (b :: B ++ [y]) Z2 =
      if A.length ≠ B.length then .error .value else
      if a.d ≠ b.d then .error .value else
      match sumMids A B with
      | .error e => .error e
      | .ok mids =>
        if x.d ≠ y.d then .error .value else
        .ok (sumFirst Z1 Z2 a b :: mids ++ [sumLast x y]) := by
  have e : ∀ (c : Ten K) (C : List (Ten K)) (z : Ten K),
      (c :: (C ++ [z])).getLast? = some z := by
    intro c C z; rw [← List.cons_append, List.getLast?_append]; rfl
  simp [addMPS, e]

/-- The amplitude of the sum of two open chains. -/
theorem chain_addMPS {ts1 ts2 ts : List (Ten K)} {Z1 Z2 : K} (h : addMPS ts1 Z1 ts2 Z2 = .ok ts)
    (hN : 2 ≤ ts1.length) (h1 : Linked 1 ts1 1) (h2 : Linked 1 ts2 1) :
    Linked 1 ts 1 ∧ ts.map Ten.d = ts1.map Ten.d ∧ ts2.map Ten.d = ts1.map Ten.d ∧
      (∀ k, 0 < k → k < ts1.length → ((ts[k]?.map Ten.l).getD 0
        = (ts1[k]?.map Ten.l).getD 0 + (ts2[k]?.map Ten.l).getD 0)) ∧
      ∀ s, chain ts s 0 0 = Z1 * chain ts1 s 0 0 + Z2 * chain ts2 s 0 0 := by
  have hlen : ts1.length = ts2.length := by
    unfold addMPS at h
    split at h
    · cases h
    · rename_i hh; simpa using hh
  obtain ⟨a, A, x, rfl⟩ := list_ends hN
  obtain ⟨b, B, y, rfl⟩ := list_ends (hlen ▸ hN)
  have hAB : A.length = B.length := by simpa using hlen
  rw [addMPS_ends, if_neg (by simpa using hAB)] at h
  split at h
  · cases h
  rename_i hd
  split at h
  · cases h
  rename_i mids hm
  split at h
  · cases h
  rename_i hd'
  cases h
  simp only [ne_eq, not_not] at hd hd'
  obtain ⟨hal, h1⟩ := h1
  obtain ⟨hbl, h2⟩ := h2
  obtain ⟨m1, hA, hx⟩ := linked_append.mp h1
  obtain ⟨m2, hB, hy⟩ := linked_append.mp h2
  rw [linked_singleton] at hx hy
  obtain ⟨s1, s2, s3, s4⟩ := sumMids_shape hm hAB
  have hmlen : mids.length = A.length := by
    have := congrArg List.length s1; simpa using this
  have hL := linked_sumMids hm hAB hA hB
  refine ⟨⟨rfl, linked_append.mpr ⟨m1 + m2, hL, ?_⟩⟩, ?_, ?_, ?_, ?_⟩
  · rw [linked_singleton]; simp [sumLast, hx.1, hy.1]
  · simp [sumFirst, sumLast, s1]
  · simp [s2, hd, hd']
  · intro k hk hk'
    obtain ⟨k, rfl⟩ := Nat.exists_eq_succ_of_ne_zero hk.ne'
    simp only [List.cons_append, List.length_cons, List.length_append, List.length_nil] at hk'
    simp only [List.cons_append, Nat.succ_eq_add_one, List.getElem?_cons_succ]
    by_cases hkA : k < A.length
    · rw [List.getElem?_append_left (by omega), List.getElem?_append_left hkA,
        List.getElem?_append_left (by omega)]
      rw [← List.getElem?_map, ← List.getElem?_map, ← List.getElem?_map, s3]
      rw [List.getElem?_zipWith]
      rw [List.getElem?_eq_getElem (l := List.map Ten.l A) (by simpa using hkA),
        List.getElem?_eq_getElem (l := List.map Ten.l B) (by simp; omega)]
      rfl
    · have : k = A.length := by omega
      subst this
      rw [List.getElem?_append_right (by omega), List.getElem?_append_right (by omega),
        List.getElem?_append_right (by omega)]
      simp [hmlen, hAB, sumLast]
  · intro s
    by_cases hs : s.length = A.length + 2
    · match s, hs with
      | u :: s, hs =>
        have hs' : s.length = A.length + 1 := by simpa using hs
        have hne : s ≠ [] := by intro h0; subst h0; simp at hs'
        obtain ⟨w, z, rfl⟩ : ∃ w z, s = w ++ [z] :=
          ⟨s.dropLast, s.getLast hne, by simp [List.dropLast_append_getLast]⟩
        have hw : w.length = A.length := by simpa using hs'
        simp only [List.cons_append, chain]
        have e1 : ∀ k ∈ range a.r, chain (A ++ [x]) (w ++ [z]) k 0
            = ∑ q ∈ range m1, chain A w k q * x.v q 0 z := by
          intro k hk
          rw [chain_append hA w [z] hw (mem_range.mp hk)]
          simp only [chain]
          rw [hx.2]; simp
        have e2 : ∀ k ∈ range b.r, chain (B ++ [y]) (w ++ [z]) k 0
            = ∑ q ∈ range m2, chain B w k q * y.v q 0 z := by
          intro k hk
          rw [chain_append hB w [z] (by omega) (mem_range.mp hk)]
          simp only [chain]
          rw [hy.2]; simp
        have e3 : ∀ k ∈ range (a.r + b.r), chain (mids ++ [sumLast x y]) (w ++ [z]) k 0
            = if k < a.r then ∑ q ∈ range m1, chain A w k q * x.v q 0 z
              else ∑ q ∈ range m2, chain B w (k - a.r) q * y.v q 0 z := by
          intro k hk
          rw [chain_append hL w [z] (by omega) (mem_range.mp hk)]
          simp only [chain]
          simp_rw [chain_sumMids hm hAB hA hB]
          simp only [sumLast, range_one, sum_singleton, delta_self, mul_one, blockEntry]
          rw [sum_range_add]
          by_cases hka : k < a.r
          · simp only [hka, if_true]
            conv_rhs => rw [← add_zero (∑ q ∈ range m1, _)]
            congr 1
            · apply sum_congr rfl; intro q hq
              have := mem_range.mp hq
              rw [if_pos this, if_pos (by omega)]
            · apply sum_eq_zero; intro q hq
              rw [if_neg (by omega), zero_mul]
          · simp only [hka, if_false]
            conv_rhs => rw [← zero_add (∑ q ∈ range m2, _)]
            congr 1
            · apply sum_eq_zero; intro q hq
              rw [if_pos (mem_range.mp hq), zero_mul]
            · apply sum_congr rfl; intro q hq
              rw [if_neg (by omega), if_neg (by omega)]
              simp [hx.1]
        simp only [sumFirst]
        rw [sum_range_add, mul_sum, mul_sum]
        congr 1
        · apply sum_congr rfl; intro k hk
          have := mem_range.mp hk
          rw [e3 k (mem_range.mpr (by omega)), e1 k hk, if_pos this, if_pos this]; ring
        · apply sum_congr rfl; intro k hk
          have := mem_range.mp hk
          rw [e3 (a.r + k) (mem_range.mpr (by omega)), e2 k hk, if_neg (by omega),
            if_neg (by omega)]
          simp only [Nat.add_sub_cancel_left]; ring
    · rw [chain_length_ne (by simp [hmlen]; omega), chain_length_ne (by simp; omega),
        chain_length_ne (by simp; omega)]
      simp

/-- Success of `addMPS` exactly for equal lengths and local dimensions (at least two sites). -/
theorem addMPS_ok_iff {ts1 ts2 : List (Ten K)} (Z1 Z2 : K) (hN : 2 ≤ ts1.length) :
    (∃ ts, addMPS ts1 Z1 ts2 Z2 = .ok ts) ↔ ts1.map Ten.d = ts2.map Ten.d := by
  by_cases hlen : ts1.length = ts2.length
  · obtain ⟨a, A, x, rfl⟩ := list_ends hN
    obtain ⟨b, B, y, rfl⟩ := list_ends (hlen ▸ hN)
    have hAB : A.length = B.length := by simpa using hlen
    rw [addMPS_ends, if_neg (by simpa using hAB)]
    simp only [List.cons_append, List.map_cons, List.map_append, List.map_nil, List.cons.injEq]
    constructor
    · rintro ⟨ts, h⟩
      split at h
      · cases h
      rename_i hd
      split at h
      · cases h
      rename_i mids hm
      split at h
      · cases h
      rename_i hd'
      simp only [ne_eq, not_not] at hd hd'
      obtain ⟨-, s2, -, -⟩ := sumMids_shape hm hAB
      simp [hd, hd', s2]
    · rintro ⟨h1, h2⟩
      obtain ⟨h2, h3⟩ := List.append_inj h2 (by simpa using hAB)
      obtain ⟨mids, hm⟩ := sumMids_ok h2
      simp only [List.cons.injEq, and_true] at h3
      exact ⟨_, by rw [if_neg (by simpa using h1), hm]; simp only; rw [if_neg (by simpa using h3)]⟩
  · constructor
    · rintro ⟨ts, h⟩
      simp [addMPS, hlen] at h
    · intro h
      exact absurd (by simpa using congrArg List.length h) hlen

/-- Failures of `addMPS` on at least two sites are ValueErrors. -/
theorem addMPS_err {ts1 ts2 : List (Ten K)} {Z1 Z2 : K} {e : PyErr} (hN : 2 ≤ ts1.length)
    (h : addMPS ts1 Z1 ts2 Z2 = .error e) : e = .value := by
  by_cases hlen : ts1.length = ts2.length
  · obtain ⟨a, A, x, rfl⟩ := list_ends hN
    obtain ⟨b, B, y, rfl⟩ := list_ends (hlen ▸ hN)
    have hAB : A.length = B.length := by simpa using hlen
    rw [addMPS_ends, if_neg (by simpa using hAB)] at h
    split at h
    · cases h; rfl
    split at h
    · rename_i e' h'; cases h; exact sumMids_err h'
    split at h
    · cases h; rfl
    · cases h
  · simp only [addMPS, ne_eq, hlen, not_false_eq_true, if_true] at h
    cases h; rfl

/-- The periodic branch: the product of the tensors is block diagonal with the two products as
blocks. -/
theorem chain_addMPSpbc {ts1 ts2 ts : List (Ten K)} {Z1 Z2 : K}
    (h : addMPSpbc ts1 Z1 ts2 Z2 = .ok ts) (hN : ts1 ≠ []) {l1 r1 l2 r2 : ℕ}
    (h1 : Linked l1 ts1 r1) (h2 : Linked l2 ts2 r2) :
    Linked (l1 + l2) ts (r1 + r2) ∧ ts.map Ten.d = ts1.map Ten.d ∧
      ∀ s i j, chain ts s i j = blockEntry l1 r1 (fun i j => Z1 * chain ts1 s i j)
        (fun i j => Z2 * chain ts2 s i j) i j := by
  unfold addMPSpbc at h
  split at h
  · cases h
  rename_i hlen
  simp only [ne_eq, not_not] at hlen
  match ts1, ts2, hN with
  | a :: as, [], _ => simp at hlen
  | a :: as, b :: bs, _ =>
    simp only at h
    split at h
    · cases h
    rename_i hd
    simp only [ne_eq, not_not] at hd
    split at h
    · cases h
    rename_i ts' h'
    cases h
    have hm : sumMids (a.scale Z1 :: as) (b.scale Z2 :: bs)
        = .ok (sumMid (a.scale Z1) (b.scale Z2) :: ts') := by
      simp only [sumMids]
      rw [if_neg (by simpa [Ten.scale] using hd), h']
    have ha : Linked l1 (a.scale Z1 :: as) r1 := h1
    have hb : Linked l2 (b.scale Z2 :: bs) r2 := h2
    refine ⟨linked_sumMids hm (by simpa using hlen) ha hb, ?_, ?_⟩
    · rw [(sumMids_shape hm (by simpa using hlen)).1]; rfl
    · intro s i j
      rw [chain_sumMids hm (by simpa using hlen) ha hb]
      have e : ∀ (t : Ten K) (ts : List (Ten K)) (c : K) (s : List ℕ) (i j : ℕ),
          chain (t.scale c :: ts) s i j = c * chain (t :: ts) s i j := by
        intro t ts c s i j
        cases s with
        | nil => simp [chain]
        | cons x s =>
          simp only [chain, Ten.scale, mul_sum]
          apply sum_congr rfl; intro k _; ring
      simp only [blockEntry, e]

end PyTeN
