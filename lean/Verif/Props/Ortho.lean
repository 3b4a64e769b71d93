import Verif.Mps.Ortho
import Verif.Mps.Oracle

/-!
# C99: orthonormalising and truncating plain lists of tensors
-/

namespace PyTeN.Ortho
open Finset

noncomputable section

variable {cut : Ten ℂ → Res (Ten ℂ × Mat ℂ × ℝ)}

/-! ## The loops are the sweeps of `__position__`, plus a last bond matrix -/

theorem loopR_eq (N : ℕ) : ∀ (k n : ℕ) (w : Sweep), loopR cut N k n w = sweepR cut N k n w
  | 0, _, _ => rfl
  | k + 1, n, w => by
    simp only [loopR, sweepR, loopR_eq N k]
    rfl

theorem loopL_eq : ∀ (k : ℕ) (w : Sweep), loopL cut 0 k w = sweepL cut 0 k w
  | 0, _ => rfl
  | k + 1, w => by
    simp only [loopL, sweepL, loopL_eq k]
    rfl

/-- `mps[n]=np.tensordot(r,mps[n],([1],[0]))` as the last step of a sweep. -/
def pushR (n : ℕ) (w : Sweep) : Res Sweep :=
  match getT w.ts n with
  | .error e => .error e
  | .ok t =>
    match absorbL w.mat t with
    | .error e => .error e
    | .ok t' => .ok ⟨w.ts.set n t', w.mat, w.Z⟩

def pushL (n : ℕ) (w : Sweep) : Res Sweep :=
  match getT w.ts n with
  | .error e => .error e
  | .ok t =>
    match absorbR t w.mat with
    | .error e => .error e
    | .ok t' => .ok ⟨w.ts.set n t', w.mat, w.Z⟩

theorem loopR_part (N : ℕ) : ∀ (k n : ℕ) (w : Sweep), n + (k + 1) < N →
    loopR cut N (k + 1) n w = (sweepR cut (n + (k + 1)) (k + 1) n w).bind (pushR (n + (k + 1)))
  | 0, n, w, h => by
    simp only [loopR, sweepR, Nat.zero_add]
    have hN : n + 1 < N := h
    cases getT w.ts n with
    | error e => rfl
    | ok t =>
      dsimp only
      cases cut t with
      | error e => rfl
      | ok p =>
        obtain ⟨a, m, z⟩ := p
        simp only [lt_irrefl, if_false, Except.bind, pushR, if_pos hN]
        cases getT (w.ts.set n a) (n + 1) with
        | error e => rfl
        | ok t1 =>
          dsimp only
          cases absorbL m t1 <;> rfl
  | k + 1, n, w, h => by
    rw [loopR, sweepR]
    cases getT w.ts n with
    | error e => rfl
    | ok t =>
      dsimp only
      cases cut t with
      | error e => rfl
      | ok p =>
        obtain ⟨a, m, z⟩ := p
        dsimp only
        rw [if_pos (by omega), if_pos (by omega)]
        cases getT (w.ts.set n a) (n + 1) with
        | error e => rfl
        | ok t1 =>
          dsimp only
          cases absorbL m t1 with
          | error e => rfl
          | ok t1' =>
            dsimp only
            rw [loopR_part N k (n + 1) _ (by omega), show n + 1 + (k + 1) = n + (k + 1 + 1) by omega]

theorem loopL_part (lo : ℕ) (hlo : 0 < lo) : ∀ (k : ℕ) (w : Sweep),
    loopL cut lo (k + 1) w = (sweepL cut lo (k + 1) w).bind (pushL (lo - 1))
  | 0, w => by
    simp only [loopL, sweepL, Nat.add_zero]
    cases getT w.ts lo with
    | error e => rfl
    | ok t =>
      dsimp only
      cases cut t with
      | error e => rfl
      | ok p =>
        obtain ⟨a, m, z⟩ := p
        simp only [gt_iff_lt, lt_irrefl, if_false, Except.bind, pushL, if_pos hlo]
        cases getT (w.ts.set lo a) (lo - 1) with
        | error e => rfl
        | ok t1 =>
          dsimp only
          cases absorbR t1 m <;> rfl
  | k + 1, w => by
    rw [loopL, sweepL]
    dsimp only
    cases getT w.ts (lo + (k + 1)) with
    | error e => rfl
    | ok t =>
      dsimp only
      cases cut t with
      | error e => rfl
      | ok p =>
        obtain ⟨a, m, z⟩ := p
        dsimp only
        rw [if_pos (by omega), if_pos (by omega)]
        cases getT (w.ts.set (lo + (k + 1)) a) (lo + (k + 1) - 1) with
        | error e => rfl
        | ok t1 =>
          dsimp only
          cases absorbR t1 m with
          | error e => rfl
          | ok t1' =>
            dsimp only
            exact loopL_part lo hlo k _

/-! ## What a run computes (specification) -/

/-- Spec: after a sweep to the right end from site `n`, the sites from `n` on are left-orthonormal, the others are
untouched, and multiplying the returned matrix into the right end gives the old state. -/
structure SweptAllR (l r n : ℕ) (ts ts' : List (Ten ℂ)) (R : Mat ℂ) : Prop where
  len : ts'.length = ts.length
  link : Linked l ts' R.r
  cols : R.c = r
  same : ∀ i < n, ts'[i]? = ts[i]?
  orth : ∀ i, n ≤ i → ∀ t, ts'[i]? = some t → LeftOrth t
  ds : ts'.map Ten.d = ts.map Ten.d
  le : List.Forall₂ (fun t' t : Ten ℂ => t'.r ≤ t.r) ts' ts
  state : ∀ s, Cfg ts s → ∀ i < l, ∀ j < r, ∑ k ∈ range R.r, chain ts' s i k * R.v k j = chain ts s i j

/-- Spec: mirror image of `SweptAllR`; the sites up to `n` are right-orthonormal. -/
structure SweptAllL (l r n : ℕ) (ts ts' : List (Ten ℂ)) (R : Mat ℂ) : Prop where
  len : ts'.length = ts.length
  link : Linked R.c ts' r
  rows : R.r = l
  same : ∀ i, n < i → ts'[i]? = ts[i]?
  orth : ∀ i ≤ n, ∀ t, ts'[i]? = some t → RightOrth t
  ds : ts'.map Ten.d = ts.map Ten.d
  le : List.Forall₂ (fun t' t : Ten ℂ => t'.l ≤ t.l) ts' ts
  state : ∀ s, Cfg ts s → ∀ i < l, ∀ j < r, ∑ k ∈ range R.c, R.v i k * chain ts' s k j = chain ts s i j

/-- Spec: after a sweep over the sites `a … b` that does not reach the end, the state is the old one divided by the norm
of the returned matrix. -/
structure SweptPart (l r a b : ℕ) (Orth : Ten ℂ → Prop) (ts ts' : List (Ten ℂ)) (R : Mat ℂ) : Prop where
  len : ts'.length = ts.length
  link : Linked l ts' r
  orth : ∀ i, a ≤ i → i ≤ b → ∀ t, ts'[i]? = some t → Orth t
  pos : 0 < normF R
  ds : ts'.map Ten.d = ts.map Ten.d
  state : ∀ s, Cfg ts s → ∀ i < l, ∀ j < r, (normF R : ℂ) * chain ts' s i j = chain ts s i j

theorem forall₂_refl_le (A : List (Ten ℂ)) (f : Ten ℂ → ℕ) : List.Forall₂ (fun a b : Ten ℂ => f a ≤ f b) A A := by
  induction A with
  | nil => exact .nil
  | cons a A ih => exact .cons le_rfl ih

theorem normF_scale (m : Mat ℂ) (z : ℂ) : normF (scale m z) = ‖z‖ * normF m := by
  have e : normF (scale m z) = Real.sqrt (‖z‖ ^ 2 * ∑ i ∈ range m.r, ∑ j ∈ range m.c, Complex.normSq (m.v i j)) := by
    unfold normF scale
    congr 1
    rw [mul_sum]
    refine sum_congr rfl fun i _ => ?_
    rw [mul_sum]
    refine sum_congr rfl fun j _ => ?_
    dsimp only
    rw [map_mul, Complex.normSq_eq_norm_sq z]; ring
  rw [e, Real.sqrt_mul (by positivity), Real.sqrt_sq (norm_nonneg _)]
  rfl

theorem ts_split {ts : List (Ten ℂ)} {n k : ℕ} (h : n + k + 1 ≤ ts.length) :
    ∃ A t C0 B, ts = A ++ t :: C0 ++ B ∧ A.length = n ∧ C0.length = k := by
  refine ⟨ts.take n, ts[n], (ts.drop (n + 1)).take k, ts.drop (n + 1 + k), ?_, by simp; omega, by simp; omega⟩
  conv_lhs => rw [← List.take_append_drop n ts]
  rw [List.append_assoc, List.cons_append]
  congr 1
  rw [List.drop_eq_getElem_cons (by omega)]
  congr 1
  rw [← List.drop_drop (i := k), List.take_append_drop]

/-- A sweep to the right end. -/
theorem fullR (hcut : ∀ t a m z, cut t = .ok (a, m, z) → ExactR t a m z) {l r n : ℕ} {ts : List (Ten ℂ)}
    (hl : Linked l ts r) (hn : n < ts.length) {m0 : Mat ℂ} {w : Sweep}
    (h : loopR cut ts.length (ts.length - n) n ⟨ts, m0, 1⟩ = .ok w) : SweptAllR l r n ts w.ts (scale w.mat w.Z) := by
  obtain ⟨A, t, C0, B, rfl, rfl, hk⟩ := ts_split (ts := ts) (n := n) (k := ts.length - n - 1) (by omega)
  have hB : B = [] := by
    rw [← List.length_eq_zero_iff]
    simp only [List.length_append, List.length_cons] at hk hn
    omega
  subst hB
  rw [loopR_eq] at h
  have e1 : (A ++ t :: C0 ++ []).length = A.length + C0.length + 1 := by simp; omega
  have e2 : (A ++ t :: C0 ++ []).length - A.length = C0.length + 1 := by rw [e1]; omega
  rw [e2, e1] at h
  obtain ⟨C, hw, S⟩ := sweepR_ok hcut C0 A t [] m0 1 w hl h
  rw [hw]
  have hlen := S.len
  have hc : w.mat.c = r := S.right
  refine ⟨by simp [hlen], ?_, hc, ?_, ?_, ?_, ?_, ?_⟩
  · have := S.left
    simpa [scale] using this
  · intro i hi
    simp [List.getElem?_append_left hi]
  · intro i hi t' ht'
    rw [List.append_nil, List.getElem?_append_right hi] at ht'
    exact S.orth t' (List.mem_of_getElem? ht')
  · simp [S.ds]
  · simpa using List.rel_append (forall₂_refl_le A Ten.r) S.le
  · intro s hs i hi j hj
    obtain ⟨sA, sC, rfl, h1, h2⟩ := cfg_split (by simpa using hs : Cfg (A ++ t :: C0) s)
    have := S.amp sA sC [] h1 h2 .nil i hi j
    simp only [List.append_nil, one_mul] at this ⊢
    rw [← this]
    unfold split scale
    rw [mul_sum]
    refine sum_congr rfl fun k _ => ?_
    have : ∀ k' ∈ range w.mat.c, chain (A ++ C) (sA ++ sC) i k * w.mat.v k k' * chain [] [] k' j
        = chain (A ++ C) (sA ++ sC) i k * w.mat.v k k' * delta ℂ k' j := fun _ _ => rfl
    rw [sum_congr rfl this, sum_delta_right (by rw [hc]; exact hj)]
    ring

/-- A sweep to the right that stops before the end. -/
theorem partR (hcut : ∀ t a m z, cut t = .ok (a, m, z) → ExactR t a m z) {l r n k : ℕ} {ts : List (Ten ℂ)}
    (hl : Linked l ts r) (hn : n + (k + 1) < ts.length) {m0 : Mat ℂ} {w : Sweep}
    (h : loopR cut ts.length (k + 1) n ⟨ts, m0, 1⟩ = .ok w) : SweptPart l r n (n + k) LeftOrth ts w.ts (scale w.mat w.Z) := by
  rw [loopR_part _ _ _ _ hn] at h
  obtain ⟨A, t, C0, B, rfl, rfl, rfl⟩ := ts_split (ts := ts) (n := n) (k := k) (by omega)
  rw [show A.length + (C0.length + 1) = A.length + C0.length + 1 by omega] at h
  cases hsw : sweepR cut (A.length + C0.length + 1) (C0.length + 1) A.length ⟨A ++ t :: C0 ++ B, m0, 1⟩ with
  | error e => rw [hsw] at h; cases h
  | ok w1 =>
  rw [hsw] at h
  obtain ⟨C, hw, S⟩ := sweepR_ok hcut C0 A t B m0 1 w1 hl hsw
  have hlen := S.len
  simp only [Except.bind, pushR] at h
  obtain ⟨b, B', rfl⟩ : ∃ b B', B = b :: B' := by
    cases B with
    | nil => simp at hn
    | cons b B' => exact ⟨b, B', rfl⟩
  have hACl : (A ++ C).length = A.length + C0.length + 1 := by simp [hlen]; omega
  rw [hw, getT_append' (A ++ C) b B' hACl.symm] at h
  dsimp only at h
  split at h
  · cases h
  rename_i b' hb
  rw [set_append' (A ++ C) b b' B' hACl.symm] at h
  cases h
  have hb' := absorbL_eq hb
  have hz : w1.Z = (normF (scale w1.mat w1.Z) : ℂ) ∧ 0 < normF (scale w1.mat w1.Z) := by
    have key : ∀ (k n : ℕ) (w w' : Sweep), (∃ x : ℝ, 0 < x ∧ w.Z = x) → ∀ bond, sweepR cut bond k n w = .ok w' →
        ∃ x : ℝ, 0 < x ∧ w'.Z = x := by
      intro k
      induction k with
      | zero => intro n w w' hx bond hh; simp only [sweepR, Except.ok.injEq] at hh; subst hh; exact hx
      | succ k ih =>
        intro n w w' hx bond hh
        simp only [sweepR] at hh
        split at hh
        · cases hh
        split at hh
        · cases hh
        rename_i a m z hc
        obtain ⟨x, hx0, hx⟩ := hx
        have hz := (hcut _ _ _ _ hc).zpos
        have hx' : ∃ y : ℝ, 0 < y ∧ w.Z * (z : ℂ) = y := ⟨x * z, mul_pos hx0 hz, by rw [hx]; push_cast; rfl⟩
        split at hh
        · split at hh
          · cases hh
          split at hh
          · cases hh
          exact ih _ _ _ (by exact hx') _ hh
        · exact ih _ _ _ (by exact hx') _ hh
    obtain ⟨x, hx0, hx⟩ := key _ _ _ _ ⟨1, one_pos, by simp⟩ _ hsw
    have : normF (scale w1.mat w1.Z) = x := by
      rw [normF_scale, S.norm, hx, mul_one]; simp [abs_of_pos hx0]
    rw [this]; exact ⟨hx, hx0⟩
  refine ⟨by simp [hlen]; omega, ?_, ?_, hz.2, ?_, ?_⟩
  · show Linked l ((A ++ C) ++ b' :: B') r
    rw [linked_append]
    refine ⟨_, S.left, ?_, ?_⟩
    · rw [hb'.2]
    · rw [hb'.2]; exact S.right.2
  · intro i hi hi2 t' ht'
    dsimp only at ht'
    rw [List.append_assoc, List.getElem?_append_right hi, List.getElem?_append_left (by rw [hlen]; simp; omega)] at ht'
    exact S.orth t' (List.mem_of_getElem? ht')
  · simp [S.ds, hb'.2]
  · intro s hs i hi j hj
    obtain ⟨s1, sB, rfl, h12, h3⟩ := cfg_split hs
    obtain ⟨sA, sC, rfl, h1, h2⟩ := cfg_split h12
    have := S.amp sA sC sB h1 h2 h3 i hi j
    rw [one_mul] at this
    rw [← this, ← hz.1]
    congr 1
    obtain ⟨x, ss, rfl⟩ : ∃ x ss, sB = x :: ss := by cases h3; exact ⟨_, _, rfl⟩
    refine split_absorbL S.left hb B' (sA ++ sC) ?_ x ss hi j
    have a1 := cfg_length h1
    have a2 := cfg_length h2
    simp only [List.length_append, a1, a2, hlen]

/-- A sweep to the left end. -/
theorem fullL (hcut : ∀ t a m z, cut t = .ok (a, m, z) → ExactL t a m z) {l r n : ℕ} {ts : List (Ten ℂ)}
    (hl : Linked l ts r) (hn : n < ts.length) {m0 : Mat ℂ} {w : Sweep}
    (h : loopL cut 0 (n + 1) ⟨ts, m0, 1⟩ = .ok w) : SweptAllL l r n ts w.ts (scale w.mat w.Z) := by
  obtain ⟨C0, t, B, rfl, rfl⟩ : ∃ C0 t B, ts = C0 ++ t :: B ∧ C0.length = n :=
    ⟨ts.take n, ts[n], ts.drop (n + 1), by simp, by simp; omega⟩
  rw [loopL_eq] at h
  obtain ⟨C, hw, S⟩ := sweepL_ok hcut [] C0 t B m0 1 w hl h
  rw [hw]
  have hlen : C.length = C0.length + 1 := by simpa using S.len
  have hc : l = w.mat.r := S.left
  refine ⟨by simp [hlen]; omega, ?_, hc.symm, ?_, ?_, ?_, ?_, ?_⟩
  · have := S.right
    simpa [scale] using this
  · intro i hi
    rw [List.nil_append, List.getElem?_append_right (by omega), List.getElem?_append_right (by omega), hlen,
      show i - C0.length = (i - (C0.length + 1)) + 1 by omega, List.getElem?_cons_succ]
  · intro i hi t' ht'
    rw [List.nil_append, List.getElem?_append_left (by omega)] at ht'
    exact S.orth t' (List.mem_of_getElem? ht')
  · simp [S.ds]
  · have := List.rel_append S.le (forall₂_refl_le B Ten.l)
    simpa using this
  · intro s hs i hi j hj
    have hs' : Cfg ((C0 ++ [t]) ++ B) s := by simpa using hs
    obtain ⟨sC, sB, rfl, h1, h2⟩ := cfg_split hs'
    have := S.amp [] sC sB .nil h1 h2 i hi j
    simp only [List.nil_append, one_mul, List.append_assoc, List.singleton_append] at this ⊢
    rw [← this]
    unfold split scale
    have e : ∀ k ∈ range w.mat.r, ∑ k' ∈ range w.mat.c, chain [] [] i k * w.mat.v k k' * chain (C ++ B) (sC ++ sB) k' j
        = delta ℂ i k * ∑ k' ∈ range w.mat.c, w.mat.v k k' * chain (C ++ B) (sC ++ sB) k' j := by
      intro k _
      rw [mul_sum]
      refine sum_congr rfl fun k' _ => ?_
      simp only [chain]; ring
    rw [sum_congr rfl e, sum_delta_left (by omega), mul_sum]
    refine sum_congr rfl fun k _ => ?_
    ring

/-- A sweep to the left that stops before the end. -/
theorem partL (hcut : ∀ t a m z, cut t = .ok (a, m, z) → ExactL t a m z) {l r lo k : ℕ} {ts : List (Ten ℂ)}
    (hl : Linked l ts r) (hlo : 0 < lo) (hn : lo + k < ts.length) {m0 : Mat ℂ} {w : Sweep}
    (h : loopL cut lo (k + 1) ⟨ts, m0, 1⟩ = .ok w) : SweptPart l r lo (lo + k) RightOrth ts w.ts (scale w.mat w.Z) := by
  rw [loopL_part _ hlo] at h
  obtain ⟨A, C0, t, B, rfl, rfl, rfl⟩ : ∃ A C0 t B, ts = A ++ C0 ++ t :: B ∧ A.length = lo ∧ C0.length = k := by
    refine ⟨ts.take lo, (ts.drop lo).take k, ts[lo + k], ts.drop (lo + k + 1), ?_, by simp; omega, by simp; omega⟩
    rw [← List.take_add, ← List.drop_eq_getElem_cons, List.take_append_drop]
  cases hsw : sweepL cut A.length (C0.length + 1) ⟨A ++ C0 ++ t :: B, m0, 1⟩ with
  | error e => rw [hsw] at h; cases h
  | ok w1 =>
  rw [hsw] at h
  obtain ⟨C, hw, S⟩ := sweepL_ok hcut A C0 t B m0 1 w1 hl hsw
  have hlen : C.length = C0.length + 1 := by simpa using S.len
  simp only [Except.bind, pushL] at h
  obtain ⟨A', b, rfl⟩ : ∃ A' b, A = A' ++ [b] := by
    rcases List.eq_nil_or_concat A with rfl | ⟨A', b, rfl⟩
    · simp at hlo
    · exact ⟨A', b, by simp⟩
  have hAl : (A' ++ [b]).length - 1 = A'.length := by simp
  have hw' : w1.ts = A' ++ b :: (C ++ B) := by rw [hw]; simp
  rw [hw', getT_append' A' b (C ++ B) hAl] at h
  dsimp only at h
  split at h
  · cases h
  rename_i b' hb
  rw [set_append' A' b b' (C ++ B) hAl] at h
  cases h
  have hb' := absorbR_eq hb
  have hz : w1.Z = (normF (scale w1.mat w1.Z) : ℂ) ∧ 0 < normF (scale w1.mat w1.Z) := by
    have key : ∀ (k : ℕ) (w w' : Sweep), (∃ x : ℝ, 0 < x ∧ w.Z = x) → ∀ bond, sweepL cut bond k w = .ok w' →
        ∃ x : ℝ, 0 < x ∧ w'.Z = x := by
      intro k
      induction k with
      | zero => intro w w' hx bond hh; simp only [sweepL, Except.ok.injEq] at hh; subst hh; exact hx
      | succ k ih =>
        intro w w' hx bond hh
        simp only [sweepL] at hh
        split at hh
        · cases hh
        split at hh
        · cases hh
        rename_i a m z hc
        obtain ⟨x, hx0, hx⟩ := hx
        have hz := (hcut _ _ _ _ hc).zpos
        have hx' : ∃ y : ℝ, 0 < y ∧ w.Z * (z : ℂ) = y := ⟨x * z, mul_pos hx0 hz, by rw [hx]; push_cast; rfl⟩
        split at hh
        · split at hh
          · cases hh
          split at hh
          · cases hh
          exact ih _ _ (by exact hx') _ hh
        · exact ih _ _ (by exact hx') _ hh
    obtain ⟨x, hx0, hx⟩ := key _ _ _ ⟨1, one_pos, by simp⟩ _ hsw
    have : normF (scale w1.mat w1.Z) = x := by
      rw [normF_scale, S.norm, hx, mul_one]; simp [abs_of_pos hx0]
    rw [this]; exact ⟨hx, hx0⟩
  have hL := S.left
  rw [linked_append] at hL
  obtain ⟨q, hA', hq, hq2⟩ := hL
  refine ⟨by simp [hlen]; omega, ?_, ?_, hz.2, ?_, ?_⟩
  · show Linked l (A' ++ b' :: (C ++ B)) r
    rw [linked_append]
    refine ⟨q, hA', ?_, ?_⟩
    · rw [hb'.2]; exact hq
    · rw [hb'.2]; exact S.right
  · intro i hi hi2 t' ht'
    simp only [List.length_append, List.length_singleton] at hi hi2
    dsimp only at ht'
    rw [List.getElem?_append_right (by omega), show i - A'.length = (i - A'.length - 1) + 1 by omega,
      List.getElem?_cons_succ, List.getElem?_append_left (by omega)] at ht'
    exact S.orth t' (List.mem_of_getElem? ht')
  · simp [S.ds, hb'.2]
  · intro s hs i hi j hj
    have hs' : Cfg ((A' ++ [b]) ++ (C0 ++ [t]) ++ B) s := by simpa using hs
    obtain ⟨s1, sB, rfl, h12, h3⟩ := cfg_split hs'
    obtain ⟨sA, sC, rfl, h1, h2⟩ := cfg_split h12
    have := S.amp sA sC sB h1 h2 h3 i hi j
    rw [one_mul] at this
    have e : A' ++ [b] ++ (C0 ++ [t]) ++ B = A' ++ [b] ++ C0 ++ t :: B := by simp
    rw [← e, ← this, ← hz.1]
    congr 1
    obtain ⟨sA', sb, rfl, h4, h5⟩ := cfg_split h1
    obtain ⟨x, rfl⟩ : ∃ x, sb = [x] := by
      cases h5; rename_i hh; cases hh; exact ⟨_, rfl⟩
    have e3 : sA' ++ [x] ++ sC ++ sB = sA' ++ x :: (sC ++ sB) := by simp
    rw [e3]
    exact split_absorbR (by rw [hq]; exact hA') hb (C ++ B) sA' (cfg_length h4) x (sC ++ sB) hi j

/-! ## When the loops raise -/

theorem pushR_total {n : ℕ} {w : Sweep} {t : Ten ℂ} (ht : getT w.ts n = .ok t) (h : w.mat.c = t.l) :
    ∃ w', pushR n w = .ok w' := by
  simp only [pushR, ht, absorbL_ok h]
  exact ⟨_, rfl⟩

theorem loopR_total (hcut : ∀ t a m z, cut t = .ok (a, m, z) → ExactR t a m z)
    (herr : ∀ t e, cut t = .error e → e = .nan ∧ ∀ i < t.l, ∀ j < t.r, ∀ s < t.d, t.v i j s = 0) {l r n k : ℕ}
    {ts : List (Ten ℂ)} (hl : Linked l ts r) (hn : n + (k + 1) ≤ ts.length) (m0 : Mat ℂ)
    (hne : ∃ s, Cfg ts s ∧ ∃ i < l, ∃ j, chain ts s i j ≠ 0) : ∃ w, loopR cut ts.length (k + 1) n ⟨ts, m0, 1⟩ = .ok w := by
  obtain ⟨A, t, C0, B, rfl, rfl, rfl⟩ := ts_split (ts := ts) (n := n) (k := k) (by omega)
  have main : ∃ w, sweepR cut (A.length + C0.length + 1) (C0.length + 1) A.length ⟨A ++ t :: C0 ++ B, m0, 1⟩ = .ok w := by
    cases hsw : sweepR cut (A.length + C0.length + 1) (C0.length + 1) A.length ⟨A ++ t :: C0 ++ B, m0, 1⟩ with
    | ok w => exact ⟨w, rfl⟩
    | error e =>
      obtain ⟨s, hs, i, hi, j, hj⟩ := hne
      exact absurd ((sweepR_err hcut herr C0 A t B m0 1 e hl hsw).2 s hs i hi j) hj
  obtain ⟨w, hw⟩ := main
  cases B with
  | nil =>
    refine ⟨w, ?_⟩
    rw [loopR_eq, ← hw]
    congr 1
    simp; omega
  | cons b B' =>
    rw [loopR_part _ _ _ _ (by simp), show A.length + (C0.length + 1) = A.length + C0.length + 1 by omega, hw]
    obtain ⟨C, hwt, S⟩ := sweepR_ok hcut C0 A t _ m0 1 w hl hw
    have hACl : A.length + C0.length + 1 = (A ++ C).length := by simp [S.len]; omega
    refine pushR_total (t := b) ?_ S.right.1.symm
    rw [hwt]
    exact getT_append' (A ++ C) b B' hACl

theorem loopL_total (hcut : ∀ t a m z, cut t = .ok (a, m, z) → ExactL t a m z)
    (herr : ∀ t e, cut t = .error e → e = .nan ∧ ∀ i < t.l, ∀ j < t.r, ∀ s < t.d, t.v i j s = 0) {l r lo k : ℕ}
    {ts : List (Ten ℂ)} (hl : Linked l ts r) (hn : lo + (k + 1) ≤ ts.length) (m0 : Mat ℂ)
    (hne : ∃ s, Cfg ts s ∧ ∃ i < l, ∃ j, chain ts s i j ≠ 0) : ∃ w, loopL cut lo (k + 1) ⟨ts, m0, 1⟩ = .ok w := by
  obtain ⟨A, C0, t, B, rfl, rfl, rfl⟩ : ∃ A C0 t B, ts = A ++ C0 ++ t :: B ∧ A.length = lo ∧ C0.length = k := by
    refine ⟨ts.take lo, (ts.drop lo).take k, ts[lo + k], ts.drop (lo + k + 1), ?_, by simp; omega, by simp; omega⟩
    rw [← List.take_add, ← List.drop_eq_getElem_cons, List.take_append_drop]
  have main : ∃ w, sweepL cut A.length (C0.length + 1) ⟨A ++ C0 ++ t :: B, m0, 1⟩ = .ok w := by
    cases hsw : sweepL cut A.length (C0.length + 1) ⟨A ++ C0 ++ t :: B, m0, 1⟩ with
    | ok w => exact ⟨w, rfl⟩
    | error e =>
      obtain ⟨s, hs, i, hi, j, hj⟩ := hne
      exact absurd ((sweepL_err hcut herr A C0 t B m0 1 e hl hsw).2 s hs i hi j) hj
  obtain ⟨w, hw⟩ := main
  rcases List.eq_nil_or_concat A with rfl | ⟨A', b, rfl⟩
  · exact ⟨w, by rw [List.length_nil, loopL_eq]; exact hw⟩
  · rw [List.concat_eq_append] at *
    rw [loopL_part _ (by simp), hw]
    obtain ⟨C, hwt, S⟩ := sweepL_ok hcut _ C0 t B m0 1 w hl hw
    have hL := S.left
    rw [linked_append] at hL
    obtain ⟨q, hA', hq, hq2⟩ := hL
    simp only [Except.bind, pushL]
    have hw' : w.ts = A' ++ b :: (C ++ B) := by rw [hwt]; simp
    rw [hw', getT_append' A' b (C ++ B) (by simp)]
    dsimp only
    rw [absorbR_ok hq2]
    exact ⟨_, rfl⟩

end

end PyTeN.Ortho
