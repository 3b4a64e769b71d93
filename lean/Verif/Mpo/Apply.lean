import Verif.Env.Layer

/-! # `applyMPO` of lib/mpslib/mpsfunctions.py -/

namespace PyTeN
open Finset

section
variable {K : Type*} [CommSemiring K]

/-- One iteration of `applyMPO`, lib/mpslib/mpsfunctions.py:254-258:
`np.reshape(np.transpose(np.tensordot(mps[n],mpo[n],([2],[2])),(0,2,1,3,4)),(D1*M1,D2*M2,d2))`; the first bond
index of the result is `i*M1+b` (C order). -/
def Ten.applyW (A : Ten K) (W : Mpo K) : Res (Ten K) :=
  if A.d = W.din then
    .ok ⟨A.l * W.l, A.r * W.r, W.dout, fun x y t =>
      ∑ s ∈ range A.d, A.v (x / W.l) (y / W.r) s * W.v (x % W.l) (y % W.r) s t⟩
  else .error .value

/-- The loop of `applyMPO(mps,mpo,inplace=False)`, lib/mpslib/mpsfunctions.py:255-259. -/
def applyLoop : List (Ten K) → List (Mpo K) → Res (List (Ten K))
  | [], _ => .ok []
  | A :: As, W :: Ws =>
    match A.applyW W with
    | .error e => .error e
    | .ok B =>
      match applyLoop As Ws with
      | .error e => .error e
      | .ok l => .ok (B :: l)
  | _ :: _, [] => .error .index

/-- `applyMPO(mps,mpo,inplace=False)`, lib/mpslib/mpsfunctions.py:247-259. -/
def applyMPO (mps : List (Ten K)) (mpo : List (Mpo K)) : Res (List (Ten K)) :=
  if mpo.length ≠ mps.length then .error .assertion else applyLoop mps mpo

/-- The loop of `applyMPO(mps,mpo,inplace=True)`, lib/mpslib/mpsfunctions.py:261-265, over the remaining sites:
the outcome and the list `mps` afterwards (the sites before a failure stay overwritten). -/
def applyLoopIn : ℕ → ℕ → List (Ten K) → List (Mpo K) → Res Unit × List (Ten K)
  | 0, _, mps, _ => (.ok (), mps)
  | k + 1, n, mps, mpo =>
    match mps[n]?, mpo[n]? with
    | some A, some W =>
      match A.applyW W with
      | .error e => (.error e, mps)
      | .ok B => applyLoopIn k (n + 1) (mps.set n B) mpo
    | _, _ => (.error .index, mps)

/-- `applyMPO(mps,mpo,inplace=True)`, lib/mpslib/mpsfunctions.py:247-266. -/
def applyMPOIn (mps : List (Ten K)) (mpo : List (Mpo K)) : Res Unit × List (Ten K) :=
  if mpo.length ≠ mps.length then (.error .assertion, mps) else applyLoopIn mps.length 0 mps mpo

/-! ## Lemmas -/

theorem applyW_ok {A : Ten K} {W : Mpo K} {B : Ten K} (h : A.applyW W = .ok B) :
    A.d = W.din ∧ B.l = A.l * W.l ∧ B.r = A.r * W.r ∧ B.d = W.dout ∧
      ∀ i b, b < W.l → ∀ j b', b' < W.r → ∀ t,
        B.v (i * W.l + b) (j * W.r + b') t = ∑ s ∈ range A.d, A.v i j s * W.v b b' s t := by
  unfold Ten.applyW at h
  split_ifs at h with hd
  simp only [Except.ok.injEq] at h
  subst h
  refine ⟨hd, rfl, rfl, rfl, ?_⟩
  intro i b hb j b' hb' t
  simp only [idx_div hb, idx_mod hb, idx_div hb', idx_mod hb']

theorem applyLoop_length : ∀ (As : List (Ten K)) (Ws : List (Mpo K)) (Bs : List (Ten K)), applyLoop As Ws = .ok Bs →
    Bs.length = As.length
  | [], _, Bs, h => by simp only [applyLoop, Except.ok.injEq] at h; subst h; rfl
  | A :: As, [], Bs, h => by simp [applyLoop] at h
  | A :: As, W :: Ws, Bs, h => by
    simp only [applyLoop] at h
    split at h
    · cases h
    split at h
    · cases h
    rename_i l hl
    simp only [Except.ok.injEq] at h
    subst h
    simp [applyLoop_length As Ws l hl]

theorem applyLoop_spec : ∀ (As : List (Ten K)) (Ws : List (Mpo K)) (Bs : List (Ten K)) (l r ml mr : ℕ),
    applyLoop As Ws = .ok Bs → Ws.length = As.length → Linked l As r → MLinked ml Ws mr →
    As.map Ten.d = Ws.map Mpo.din ∧ Bs.map Ten.d = Ws.map Mpo.dout ∧ Linked (l * ml) Bs (r * mr) ∧
      ∀ i, ∀ b < ml, ∀ j, ∀ b' < mr, ∀ t : List ℕ, chain Bs t (i * ml + b) (j * mr + b') =
        sumCfg (As.map Ten.d) fun s => chain As s i j * mchain Ws s t b b' := by
  intro As
  induction As with
  | nil =>
    intro Ws Bs l r ml mr h hlen hl hm
    obtain rfl : Ws = [] := by simpa using hlen
    simp only [applyLoop, Except.ok.injEq] at h
    subst h
    obtain rfl : l = r := hl
    obtain rfl : ml = mr := hm
    refine ⟨rfl, rfl, rfl, ?_⟩
    intro i b hb j b' hb' t
    cases t with
    | cons x t => simp [chain, sumCfg, mchain]
    | nil =>
      simp only [chain, List.map_nil, sumCfg, mchain]
      by_cases h1 : i = j
      · subst h1
        by_cases h2 : b = b'
        · subst h2; simp [delta]
        · simp [delta, h2]
      · have : i * ml + b ≠ j * ml + b' := by
          intro h
          apply h1
          have := congrArg (· / ml) h
          simpa only [idx_div hb, idx_div hb'] using this
        simp [delta, this, h1]
  | cons A As ih =>
    intro Ws Bs l r ml mr h hlen hl hm
    cases Ws with
    | nil => simp at hlen
    | cons W Ws =>
      simp only [applyLoop] at h
      split at h
      · cases h
      rename_i B hB
      split at h
      · cases h
      rename_i Bs' hBs'
      simp only [Except.ok.injEq] at h
      subst h
      obtain ⟨d1, d2, d3, d4, hv⟩ := applyW_ok hB
      obtain ⟨g1, g2, g3, g4⟩ := ih Ws Bs' A.r r W.r mr hBs' (by simpa using hlen) hl.2 hm.2
      obtain ⟨rfl, -⟩ := hl
      obtain ⟨rfl, -⟩ := hm
      refine ⟨by simp [d1, g1], by simp [d4, g2], ⟨d2, by rw [d3]; exact g3⟩, ?_⟩
      intro i b hb j b' hb' t
      cases t with
      | nil => simp [chain, mchain, sumCfg_zero]
      | cons x t =>
        simp only [chain, List.map_cons, sumCfg, mchain, d3]
        rw [sum_range_mul]
        have e1 : ∀ k ∈ range A.r, ∀ c ∈ range W.r, B.v (i * W.l + b) (k * W.r + c) x * chain Bs' t (k * W.r + c) (j * mr + b')
            = ∑ s ∈ range A.d, sumCfg (As.map Ten.d) fun ss =>
              (A.v i k s * chain As ss k j) * (W.v b c s x * mchain Ws ss t c b') := by
          intro k _ c hc
          rw [hv i b hb k c (mem_range.mp hc), g4 k c (mem_range.mp hc) j b' hb' t, sum_mul]
          refine sum_congr rfl fun s _ => ?_
          rw [← sumCfg_mul]
          apply sumCfg_congr; intro ss _
          ring
        rw [sum_congr rfl fun k hk => sum_congr rfl fun c hc => e1 k hk c hc]
        have e2 : ∀ k ∈ range A.r, (∑ c ∈ range W.r, ∑ s ∈ range A.d, sumCfg (As.map Ten.d) fun ss =>
              (A.v i k s * chain As ss k j) * (W.v b c s x * mchain Ws ss t c b'))
            = ∑ s ∈ range A.d, sumCfg (As.map Ten.d) fun ss =>
              (A.v i k s * chain As ss k j) * ∑ c ∈ range W.r, (W.v b c s x * mchain Ws ss t c b') := by
          intro k _
          rw [sum_comm]
          refine sum_congr rfl fun s _ => ?_
          rw [← sumCfg_sum]
          apply sumCfg_congr; intro ss _
          rw [mul_sum]
        rw [sum_congr rfl e2, sum_comm]
        refine sum_congr rfl fun s _ => ?_
        rw [← sumCfg_sum]
        apply sumCfg_congr; intro ss _
        rw [sum_mul]

theorem applyLoop_ok : ∀ (As : List (Ten K)) (Ws : List (Mpo K)), As.map Ten.d = Ws.map Mpo.din →
    ∃ Bs, applyLoop As Ws = .ok Bs
  | [], _, _ => ⟨[], rfl⟩
  | A :: As, [], h => by simp at h
  | A :: As, W :: Ws, h => by
    simp only [List.map_cons, List.cons.injEq] at h
    obtain ⟨Bs, hB⟩ := applyLoop_ok As Ws h.2
    obtain ⟨B, hB'⟩ : ∃ B, A.applyW W = .ok B := by
      unfold Ten.applyW
      rw [if_pos h.1]
      exact ⟨_, rfl⟩
    exact ⟨B :: Bs, by simp only [applyLoop, hB, hB']⟩

/-- the in-place loop does the same, and on failure has replaced exactly the sites before. -/
theorem applyLoopIn_eq : ∀ (k n : ℕ) (mps : List (Ten K)) (mpo : List (Mpo K)), n + k = mps.length →
    mpo.length = mps.length →
    (∀ Bs, applyLoop (mps.drop n) (mpo.drop n) = .ok Bs → applyLoopIn k n mps mpo = (.ok (), mps.take n ++ Bs)) ∧
    (∀ e, applyLoop (mps.drop n) (mpo.drop n) = .error e → (applyLoopIn k n mps mpo).1 = .error e) := by
  intro k
  induction k with
  | zero =>
    intro n mps mpo hn hl
    rw [List.drop_of_length_le (by omega : mps.length ≤ n)]
    refine ⟨?_, by intro e h; simp [applyLoop] at h⟩
    intro Bs h
    simp only [applyLoop, Except.ok.injEq] at h
    subst h
    simp [applyLoopIn, List.take_of_length_le (by omega : mps.length ≤ n)]
  | succ k ih =>
    intro n mps mpo hn hl
    have h1 : n < mps.length := by omega
    have h2 : n < mpo.length := by omega
    rw [List.drop_eq_getElem_cons h1, List.drop_eq_getElem_cons h2]
    simp only [applyLoop, applyLoopIn, List.getElem?_eq_getElem h1, List.getElem?_eq_getElem h2]
    cases hB : (mps[n]).applyW mpo[n] with
    | error e =>
      refine ⟨by intro Bs h; simp at h, ?_⟩
      intro e' h
      simpa using h
    | ok B =>
      obtain ⟨i1, i2⟩ := ih (n + 1) (mps.set n B) mpo (by simp; omega) (by simp [hl])
      have hd : (mps.set n B).drop (n + 1) = mps.drop (n + 1) := by
        rw [List.drop_set_of_lt (by omega)]
      rw [hd] at i1 i2
      have ht : (mps.set n B).take (n + 1) = mps.take n ++ [B] := by
        rw [List.take_set, List.take_succ_eq_append_getElem h1,
          List.set_append_right _ _ (by rw [List.length_take]; omega)]
        simp [List.length_take, Nat.min_eq_left h1.le]
      constructor
      · intro Bs h
        simp only at h
        split at h
        · cases h
        rename_i l hl'
        simp only [Except.ok.injEq] at h
        subst h
        simp only
        rw [i1 l hl', ht]
        simp
      · intro e h
        simp only at h
        split at h
        · rename_i e' he'
          simp only [Except.error.injEq] at h
          subst h
          exact i2 _ he'
        · cases h

end

end PyTeN
