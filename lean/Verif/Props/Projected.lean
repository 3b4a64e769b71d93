import Verif.Env.Projected
import Mathlib.Tactic.IntervalCases

/-! # Projected environments (C106) -/

namespace PyTeN
open Finset

noncomputable section

/-- Spec: `G` is the block `E` with `E_c - tr(E_c·a)·b` in channel `c`. -/
structure Projects (c : ℕ) (a b : Mat ℂ) (E G : Env ℂ) : Prop where
  u : G.u = E.u
  w : G.w = E.w
  m : G.m = E.m
  v : ∀ i < E.u, ∀ i' < E.w, ∀ x < E.m, G.v i i' x =
    if x = c then E.v i i' c - (∑ k ∈ range E.u, ∑ k' ∈ range E.w, E.v k k' c * a.v k' k) * b.v i i' else E.v i i' x

/-- The projected block is orthogonal to `a`. -/
theorem Projects.orth {c : ℕ} {a b : Mat ℂ} {E G : Env ℂ} (h : Projects c a b E G) (hc : c < E.m)
    (h1 : ∑ k ∈ range E.u, ∑ k' ∈ range E.w, b.v k k' * a.v k' k = 1) :
    ∑ k ∈ range G.u, ∑ k' ∈ range G.w, G.v k k' c * a.v k' k = 0 := by
  rw [h.u, h.w]
  set t := ∑ k ∈ range E.u, ∑ k' ∈ range E.w, E.v k k' c * a.v k' k with ht
  have : ∀ k ∈ range E.u, ∀ k' ∈ range E.w, G.v k k' c * a.v k' k = E.v k k' c * a.v k' k - t * (b.v k k' * a.v k' k) := by
    intro k hk k' hk'
    rw [h.v k (mem_range.mp hk) k' (mem_range.mp hk') c hc, if_pos rfl]; ring
  rw [sum_congr rfl fun k hk => sum_congr rfl (this k hk)]
  simp only [sum_sub_distrib, ← mul_sum]
  rw [h1, ← ht]; ring

/-- `G` and `E` differ by a multiple of `l` in channel `c`. -/
structure Shift (c : ℕ) (z : ℂ) (l : Mat ℂ) (E G : Env ℂ) : Prop where
  u : G.u = E.u
  w : G.w = E.w
  m : G.m = E.m
  v : ∀ i < E.u, ∀ i' < E.w, ∀ x < E.m, G.v i i' x = E.v i i' x - if x = c then z * l.v i i' else 0

/-- Spec: `l'` is `l` with one more site of the left transfer operator. -/
def TransR (A : Ten ℂ) (l l' : Mat ℂ) : Prop :=
  ∀ j < A.r, ∀ j' < A.r, l'.v j j' = ∑ i ∈ range A.l, ∑ i' ∈ range A.l, ∑ s ∈ range A.d, l.v i i' * A.v i j s * star (A.v i' j' s)

/-- Spec: `r` is `r'` with one more site of the right transfer operator. -/
def TransL (A : Ten ℂ) (r r' : Mat ℂ) : Prop :=
  ∀ i < A.l, ∀ i' < A.l, r.v i i' = ∑ j ∈ range A.r, ∑ j' ∈ range A.r, ∑ s ∈ range A.d, r'.v j j' * A.v i j s * star (A.v i' j' s)

/-- Spec: the first row of the MPO is the identity in channel 0 and nothing else. -/
def TopRow (W : Mpo ℂ) : Prop :=
  0 < W.l ∧ 0 < W.r ∧ ∀ b < W.r, ∀ s < W.din, ∀ s' < W.dout, W.v 0 b s s' = if b = 0 ∧ s = s' then 1 else 0

/-- Spec: the last column of the MPO is the identity in the last channel and nothing else. -/
def LastCol (W : Mpo ℂ) : Prop :=
  0 < W.l ∧ 0 < W.r ∧ ∀ b < W.l, ∀ s < W.din, ∀ s' < W.dout, W.v b (W.r - 1) s s' = if b = W.l - 1 ∧ s = s' then 1 else 0

theorem shiftR {z : ℂ} {l l' : Mat ℂ} {E G F F' : Env ℂ} {A : Ten ℂ} {W : Mpo ℂ} (h : Shift 0 z l E G) (hW : TopRow W) (hl : TransR A l l')
    (hF : addLayerR E A W A = .ok F) (hF' : addLayerR G A W A = .ok F') : Shift 0 z l' F F' := by
  unfold addLayerR at hF hF'
  split_ifs at hF with c
  split_ifs at hF' with c'
  obtain ⟨c1, c2, c3, c4, c5⟩ := c
  cases hF; cases hF'
  refine ⟨rfl, rfl, rfl, fun j hj j' hj' b hb => ?_⟩
  simp only at hj hj' hb ⊢
  rw [h.u, h.w, h.m]
  have e : ∀ i ∈ range E.u, ∀ i' ∈ range E.w, ∑ x ∈ range E.m, ∑ s ∈ range A.d, ∑ s' ∈ range A.d,
        G.v i i' x * A.v i j s * W.v x b s s' * star (A.v i' j' s')
      = ∑ x ∈ range E.m, ∑ s ∈ range A.d, ∑ s' ∈ range A.d, E.v i i' x * A.v i j s * W.v x b s s' * star (A.v i' j' s')
        - if b = 0 then z * ∑ s ∈ range A.d, l.v i i' * A.v i j s * star (A.v i' j' s) else 0 := by
    intro i hi i' hi'
    have e1 : ∀ x ∈ range E.m, ∑ s ∈ range A.d, ∑ s' ∈ range A.d, G.v i i' x * A.v i j s * W.v x b s s' * star (A.v i' j' s')
        = ∑ s ∈ range A.d, ∑ s' ∈ range A.d, E.v i i' x * A.v i j s * W.v x b s s' * star (A.v i' j' s')
          - if x = 0 then (if b = 0 then z * ∑ s ∈ range A.d, l.v i i' * A.v i j s * star (A.v i' j' s) else 0) else 0 := by
      intro x hx
      rw [eq_sub_iff_add_eq]
      rw [sum_congr rfl fun s _ => sum_congr rfl fun s' _ => by rw [h.v i (mem_range.mp hi) i' (mem_range.mp hi') x (mem_range.mp hx)]]
      by_cases hx0 : x = 0
      · subst hx0
        simp only [if_true]
        have : ∀ s ∈ range A.d, ∑ s' ∈ range A.d, (E.v i i' 0 - z * l.v i i') * A.v i j s * W.v 0 b s s' * star (A.v i' j' s')
            = ∑ s' ∈ range A.d, E.v i i' 0 * A.v i j s * W.v 0 b s s' * star (A.v i' j' s')
              - if b = 0 then z * (l.v i i' * A.v i j s * star (A.v i' j' s)) else 0 := by
          intro s hs
          have : ∀ s' ∈ range A.d, (E.v i i' 0 - z * l.v i i') * A.v i j s * W.v 0 b s s' * star (A.v i' j' s')
              = E.v i i' 0 * A.v i j s * W.v 0 b s s' * star (A.v i' j' s')
                - if s = s' then (if b = 0 then z * (l.v i i' * A.v i j s * star (A.v i' j' s)) else 0) else 0 := by
            intro s' hs'
            rw [hW.2.2 b hb s (by rw [← c3]; exact mem_range.mp hs) s' (by rw [c5]; exact mem_range.mp hs')]
            by_cases hb0 : b = 0 <;> by_cases hss : s = s'
            · subst hss; simp [hb0]; ring
            · simp [hb0, hss]
            · simp [hb0]
            · simp [hb0, hss]
          rw [sum_congr rfl this, sum_sub_distrib, sum_ite_eq, if_pos hs]
        rw [sum_congr rfl this, sum_sub_distrib]
        by_cases hb0 : b = 0
        · simp only [hb0, if_true, mul_sum]; ring
        · simp [hb0]
      · simp [hx0]
    rw [sum_congr rfl e1, sum_sub_distrib, sum_ite_eq', if_pos (mem_range.mpr (by rw [c2]; exact hW.1))]
  rw [sum_congr rfl fun i hi => sum_congr rfl (e i hi)]
  simp only [sum_sub_distrib]
  congr 1
  by_cases hb0 : b = 0
  · simp only [hb0, if_true]
    rw [hl j hj j' hj', c1, c4]
    simp only [mul_sum]
  · simp [hb0]

theorem shiftL {z : ℂ} {r r' : Mat ℂ} {E G F F' : Env ℂ} {A : Ten ℂ} {W : Mpo ℂ} (h : Shift (E.m - 1) z r' E G) (hW : LastCol W) (hl : TransL A r r')
    (hF : addLayerL E A W A = .ok F) (hF' : addLayerL G A W A = .ok F') : Shift (F.m - 1) z r F F' := by
  unfold addLayerL at hF hF'
  split_ifs at hF with c
  split_ifs at hF' with c'
  obtain ⟨c1, c2, c3, c4, c5⟩ := c
  cases hF; cases hF'
  refine ⟨rfl, rfl, rfl, fun j hj j' hj' b hb => ?_⟩
  simp only at hj hj' hb ⊢
  rw [h.u, h.w, h.m]
  have e : ∀ i ∈ range E.u, ∀ i' ∈ range E.w, ∑ x ∈ range E.m, ∑ s ∈ range A.d, ∑ s' ∈ range A.d,
        G.v i i' x * A.v j i s * W.v b x s s' * star (A.v j' i' s')
      = ∑ x ∈ range E.m, ∑ s ∈ range A.d, ∑ s' ∈ range A.d, E.v i i' x * A.v j i s * W.v b x s s' * star (A.v j' i' s')
        - if b = W.l - 1 then z * ∑ s ∈ range A.d, r'.v i i' * A.v j i s * star (A.v j' i' s) else 0 := by
    intro i hi i' hi'
    have e1 : ∀ x ∈ range E.m, ∑ s ∈ range A.d, ∑ s' ∈ range A.d, G.v i i' x * A.v j i s * W.v b x s s' * star (A.v j' i' s')
        = ∑ s ∈ range A.d, ∑ s' ∈ range A.d, E.v i i' x * A.v j i s * W.v b x s s' * star (A.v j' i' s')
          - if x = E.m - 1 then (if b = W.l - 1 then z * ∑ s ∈ range A.d, r'.v i i' * A.v j i s * star (A.v j' i' s) else 0) else 0 := by
      intro x hx
      rw [eq_sub_iff_add_eq]
      rw [sum_congr rfl fun s _ => sum_congr rfl fun s' _ => by rw [h.v i (mem_range.mp hi) i' (mem_range.mp hi') x (mem_range.mp hx)]]
      by_cases hx0 : x = E.m - 1
      · subst hx0
        simp only [if_true]
        have : ∀ s ∈ range A.d, ∑ s' ∈ range A.d, (E.v i i' (E.m - 1) - z * r'.v i i') * A.v j i s * W.v b (E.m - 1) s s' * star (A.v j' i' s')
            = ∑ s' ∈ range A.d, E.v i i' (E.m - 1) * A.v j i s * W.v b (E.m - 1) s s' * star (A.v j' i' s')
              - if b = W.l - 1 then z * (r'.v i i' * A.v j i s * star (A.v j' i' s)) else 0 := by
          intro s hs
          have : ∀ s' ∈ range A.d, (E.v i i' (E.m - 1) - z * r'.v i i') * A.v j i s * W.v b (E.m - 1) s s' * star (A.v j' i' s')
              = E.v i i' (E.m - 1) * A.v j i s * W.v b (E.m - 1) s s' * star (A.v j' i' s')
                - if s = s' then (if b = W.l - 1 then z * (r'.v i i' * A.v j i s * star (A.v j' i' s)) else 0) else 0 := by
            intro s' hs'
            rw [c2, hW.2.2 b hb s (by rw [← c3]; exact mem_range.mp hs) s' (by rw [c5]; exact mem_range.mp hs')]
            by_cases hb0 : b = W.l - 1 <;> by_cases hss : s = s'
            · subst hss; simp [hb0]; ring
            · simp [hb0, hss]
            · simp [hb0]
            · simp [hb0, hss]
          rw [sum_congr rfl this, sum_sub_distrib, sum_ite_eq, if_pos hs]
        rw [sum_congr rfl this, sum_sub_distrib]
        by_cases hb0 : b = W.l - 1
        · simp only [hb0, if_true, mul_sum]; ring
        · simp [hb0]
      · simp [hx0]
    rw [sum_congr rfl e1, sum_sub_distrib, sum_ite_eq', if_pos (mem_range.mpr (by have := hW.2.1; omega))]
  rw [sum_congr rfl fun i hi => sum_congr rfl (e i hi)]
  simp only [sum_sub_distrib]
  congr 1
  by_cases hb0 : b = W.l - 1
  · simp only [hb0, if_true]
    rw [hl j hj j' hj', c1, c4]
    simp only [mul_sum]
  · simp [hb0]

/-- Projecting a shifted block is projecting the block. -/
theorem Shift.project {c : ℕ} {z : ℂ} {a b : Mat ℂ} {E G P : Env ℂ} (h : Shift c z b E G) (hP : projChan c a b G = .ok P)
    (h1 : ∑ k ∈ range E.u, ∑ k' ∈ range E.w, b.v k k' * a.v k' k = 1) : Projects c a b E P ∧
    Shift c (∑ k ∈ range E.u, ∑ k' ∈ range E.w, E.v k k' c * a.v k' k) b E P := by
  unfold projChan at hP
  split_ifs at hP with hc hs
  cases hP
  have ht : ∑ k ∈ range G.u, ∑ k' ∈ range G.w, G.v k k' c * a.v k' k
      = (∑ k ∈ range E.u, ∑ k' ∈ range E.w, E.v k k' c * a.v k' k) - z := by
    rw [h.u, h.w]
    have : ∀ k ∈ range E.u, ∀ k' ∈ range E.w, G.v k k' c * a.v k' k = E.v k k' c * a.v k' k - z * (b.v k k' * a.v k' k) := by
      intro k hk k' hk'
      rw [h.v k (mem_range.mp hk) k' (mem_range.mp hk') c (by rw [← h.m]; exact hc), if_pos rfl]; ring
    rw [sum_congr rfl fun k hk => sum_congr rfl (this k hk)]
    simp only [sum_sub_distrib, ← mul_sum]
    rw [h1, mul_one]
  have hv : ∀ i < E.u, ∀ i' < E.w, ∀ x < E.m, (if x = c then G.v i i' c - (∑ k ∈ range G.u, ∑ k' ∈ range G.w, G.v k k' c * a.v k' k) * b.v i i'
      else G.v i i' x) = if x = c then E.v i i' c - (∑ k ∈ range E.u, ∑ k' ∈ range E.w, E.v k k' c * a.v k' k) * b.v i i' else E.v i i' x := by
    intro i hi i' hi' x hx
    rw [ht]
    by_cases hxc : x = c
    · subst hxc
      rw [if_pos rfl, if_pos rfl, h.v i hi i' hi' x hx, if_pos rfl]; ring
    · rw [if_neg hxc, if_neg hxc, h.v i hi i' hi' x hx, if_neg hxc, sub_zero]
  refine ⟨⟨h.u, h.w, h.m, hv⟩, ⟨h.u, h.w, h.m, fun i hi i' hi' x hx => ?_⟩⟩
  refine (hv i hi i' hi' x hx).trans ?_
  by_cases hxc : x = c
  · subst hxc; rw [if_pos rfl, if_pos rfl]
  · rw [if_neg hxc, if_neg hxc, sub_zero]

/-- Spec: the data of a normalised unit cell; `l n` and `r n` belong to the bond to the left of site `n`. -/
structure DensCell (mps : List (Ten ℂ)) (ldens rdens : List (Mat ℂ)) : Prop where
  llen : ldens.length = mps.length + 1
  rlen : rdens.length = mps.length + 1
  left : ∀ n A l l', mps[n]? = some A → ldens[n]? = some l → ldens[n + 1]? = some l' → TransR A l l'
  right : ∀ n A r r', mps[n]? = some A → rdens[n]? = some r → rdens[n + 1]? = some r' → TransL A r r'
  norm : ∀ (n : ℕ) (l r : Mat ℂ), ldens[n]? = some l → rdens[n]? = some r → ∑ k ∈ range l.r, ∑ k' ∈ range l.c, l.v k k' * r.v k' k = 1
  square : ∀ (n : ℕ) (l r : Mat ℂ), ldens[n]? = some l → rdens[n]? = some r → l.r = r.r ∧ l.c = r.c ∧ l.r = l.c

theorem densAt_nat {l : List (Mat ℂ)} {n : ℕ} {a : Mat ℂ} (h : densAt l n = .ok a) : l[n]? = some a := by
  unfold densAt at h
  split at h
  · cases h
  · rename_i k hk
    unfold pyIdx at hk
    rw [if_pos (by omega)] at hk
    split_ifs at hk with h1
    cases hk
    rw [Int.toNat_natCast] at h
    split at h
    · cases h
    · cases h; assumption

theorem projLoopR_run {mps : List (Ten ℂ)} {ldens rdens : List (Mat ℂ)} (hc : DensCell mps ldens rdens) :
    ∀ (As : List (Ten ℂ)) (n : ℕ) (Ws : List (Mpo ℂ)) (E G : Env ℂ) (Es Gs : List (Env ℂ)) (z : ℂ) (l : Mat ℂ), mps.drop n = As →
      ldens[n]? = some l → (∀ W ∈ Ws, TopRow W) → Shift 0 z l E G → blocksR E As Ws As = .ok Es → projLoopR ldens rdens n G As Ws = .ok Gs →
      Gs.length = Es.length ∧ ∀ k E' G', Es[k]? = some E' → Gs[k]? = some G' → 0 < E'.m ∧
        ∃ r l', rdens[n + k + 1]? = some r ∧ ldens[n + k + 1]? = some l' ∧ l'.r = E'.u ∧ l'.c = E'.w ∧ Projects 0 r l' E' G' := by
  intro As
  induction As with
  | nil =>
    intro n Ws E G Es Gs z l _ _ _ _ h1 h2
    simp only [blocksR, projLoopR, Except.ok.injEq] at h1 h2
    subst h1; subst h2
    simp
  | cons A As ih =>
    intro n Ws E G Es Gs z l hAs hl hWs hS h1 h2
    cases Ws with
    | nil => simp [blocksR] at h1
    | cons W Ws =>
      simp only [blocksR, projLoopR] at h1 h2
      split at h1
      · cases h1
      rename_i F hF
      split at h1
      · cases h1
      rename_i Fs hFs
      cases h1
      split at h2
      · cases h2
      rename_i F' hF'
      split at h2
      · cases h2
      rename_i r hr
      split at h2
      · cases h2
      rename_i l' hl'
      split at h2
      · cases h2
      rename_i P hP
      split at h2
      · cases h2
      rename_i Ps hPs
      cases h2
      have hr' := densAt_nat (n := n + 1) (by push_cast; exact hr)
      have hl'' := densAt_nat (n := n + 1) (by push_cast; exact hl')
      have hA : mps[n]? = some A := by
        have := congrArg (fun x : List (Ten ℂ) => x[0]?) hAs
        simpa using this
      have hS1 := shiftR hS (hWs W (by simp)) (hc.left n A l l' hA hl hl'') hF hF'
      have hsh : r.r = F.w ∧ r.c = F.u ∧ l'.r = F.u ∧ l'.c = F.w ∧ 0 < F.m := by
        have hP' := hP
        unfold projChan at hP'
        split_ifs at hP' with q1 q2
        exact ⟨by rw [q2.1, hS1.w], by rw [q2.2.1, hS1.u], by rw [q2.2.2.1, hS1.u], by rw [q2.2.2.2, hS1.w], by rw [← hS1.m]; exact q1⟩
      obtain ⟨hp1, hp2⟩ := hS1.project hP (by
        have := hc.norm (n + 1) l' r hl'' hr'
        rw [hsh.2.2.1, hsh.2.2.2.1] at this
        exact this)
      obtain ⟨k1, k2⟩ := ih (n + 1) Ws F P Fs Ps _ l' (by rw [← List.drop_drop, hAs]; rfl) hl'' (fun W hW => hWs W (by simp [hW])) hp2 hFs
        hPs
      refine ⟨by simp [k1], fun k E' G' hE hG => ?_⟩
      cases k with
      | zero =>
        simp only [List.getElem?_cons_zero, Option.some.injEq] at hE hG
        subst hE; subst hG
        exact ⟨hsh.2.2.2.2, r, l', hr', hl'', hsh.2.2.1, hsh.2.2.2.1, hp1⟩
      | succ k =>
        simp only [List.getElem?_cons_succ] at hE hG
        obtain ⟨q0, r2, l2, q1, q2, q3⟩ := k2 k E' G' hE hG
        exact ⟨q0, r2, l2, by rw [← q1]; congr 1; omega, by rw [← q2]; congr 1; omega, q3⟩

theorem projLoopL_run {mpsR : List (Ten ℂ)} {ldens rdens lR rR : List (Mat ℂ)}
    (hT : ∀ n A r r', mpsR[n]? = some A → rR[n + 1]? = some r → rR[n]? = some r' → TransL A r r')
    (hnorm : ∀ (n : ℕ) (l r : Mat ℂ), lR[n]? = some l → rR[n]? = some r → ∑ k ∈ range r.r, ∑ k' ∈ range r.c, r.v k k' * l.v k' k = 1) :
    ∀ (As : List (Ten ℂ)) (n : ℕ) (ns : List ℤ) (Ws : List (Mpo ℂ)) (E G : Env ℂ) (Es Gs : List (Env ℂ)) (z : ℂ) (r : Mat ℂ), mpsR.drop n = As →
      (∀ k i, ns[k]? = some i → ∀ a, densAt ldens i = .ok a → lR[n + k + 1]? = some a) →
      (∀ k i, ns[k]? = some i → ∀ a, densAt rdens i = .ok a → rR[n + k + 1]? = some a) →
      rR[n]? = some r → (∀ W ∈ Ws, LastCol W) → Shift (E.m - 1) z r E G → blocksL E As Ws As = .ok Es → projLoopL ldens rdens G ns As Ws = .ok Gs →
      Gs.length = Es.length ∧ ∀ k E' G', Es[k]? = some E' → Gs[k]? = some G' → 0 < E'.m ∧
        ∃ l r', lR[n + k + 1]? = some l ∧ rR[n + k + 1]? = some r' ∧ r'.r = E'.u ∧ r'.c = E'.w ∧ Projects (E'.m - 1) l r' E' G' := by
  intro As
  induction As with
  | nil =>
    intro n ns Ws E G Es Gs z r _ _ _ _ _ _ h1 h2
    simp only [blocksL, projLoopL, Except.ok.injEq] at h1 h2
    subst h1; subst h2
    simp
  | cons A As ih =>
    intro n ns Ws E G Es Gs z r hAs hi1 hi2 hr hWs hS h1 h2
    cases Ws with
    | nil => simp [blocksL] at h1
    | cons W Ws =>
      cases ns with
      | nil => simp [projLoopL] at h2
      | cons i ns =>
      simp only [blocksL, projLoopL] at h1 h2
      split at h1
      · cases h1
      rename_i F hF
      split at h1
      · cases h1
      rename_i Fs hFs
      cases h1
      split at h2
      · cases h2
      rename_i F' hF'
      split at h2
      · cases h2
      rename_i l hl
      split at h2
      · cases h2
      rename_i r' hr'
      split at h2
      · cases h2
      rename_i P hP
      split at h2
      · cases h2
      rename_i Ps hPs
      cases h2
      have hl2 := hi1 0 i (by simp) l hl
      have hr2 := hi2 0 i (by simp) r' hr'
      rw [Nat.add_zero] at hl2 hr2
      have hA : mpsR[n]? = some A := by
        have := congrArg (fun x : List (Ten ℂ) => x[0]?) hAs
        simpa using this
      have hS1 := shiftL hS (hWs W (by simp)) (hT n A r' r hA hr2 hr) hF hF'
      rw [hS1.m] at hP
      have hsh : l.r = F.w ∧ l.c = F.u ∧ r'.r = F.u ∧ r'.c = F.w ∧ 0 < F.m := by
        have hP' := hP
        unfold projChan at hP'
        split_ifs at hP' with q1 q2
        exact ⟨by rw [q2.1, hS1.w], by rw [q2.2.1, hS1.u], by rw [q2.2.2.1, hS1.u], by rw [q2.2.2.2, hS1.w], by have := hS1.m; omega⟩
      obtain ⟨hp1, hp2⟩ := hS1.project hP (by
        have := hnorm (n + 1) l r' hl2 hr2
        rw [hsh.2.2.1, hsh.2.2.2.1] at this
        exact this)
      obtain ⟨k1, k2⟩ := ih (n + 1) ns Ws F P Fs Ps _ r' (by rw [← List.drop_drop, hAs]; rfl)
        (fun k i hk a ha => by have := hi1 (k + 1) i (by simpa using hk) a ha; rw [← this]; congr 1; omega)
        (fun k i hk a ha => by have := hi2 (k + 1) i (by simpa using hk) a ha; rw [← this]; congr 1; omega)
        hr2 (fun W hW => hWs W (by simp [hW])) hp2 hFs hPs
      refine ⟨by simp [k1], fun k E' G' hE hG => ?_⟩
      cases k with
      | zero =>
        simp only [List.getElem?_cons_zero, Option.some.injEq] at hE hG
        subst hE; subst hG
        exact ⟨hsh.2.2.2.2, l, r', hl2, hr2, hsh.2.2.1, hsh.2.2.2.1, hp1⟩
      | succ k =>
        simp only [List.getElem?_cons_succ] at hE hG
        obtain ⟨q0, r2, l2, q1, q2, q3⟩ := k2 k E' G' hE hG
        exact ⟨q0, r2, l2, by rw [← q1]; congr 1; omega, by rw [← q2]; congr 1; omega, q3⟩

theorem shift_self (c : ℕ) (l : Mat ℂ) (E : Env ℂ) : Shift c 0 l E E :=
  ⟨rfl, rfl, rfl, fun i _ i' _ x _ => by simp⟩

/-- **C106 (left).**  The blocks returned by `getLprojected` are those of `getL` with the projection `E₀ - tr(E₀·r)·l` in the
channel of the energy, for the density matrices of the bond; their trace with the right density matrix vanishes. -/
theorem C106_left {mps : List (Ten ℂ)} {mpo : List (Mpo ℂ)} {lb : Env ℂ} {ldens rdens : List (Mat ℂ)} {Es Gs : List (Env ℂ)}
    (hc : DensCell mps ldens rdens) (hW : ∀ W ∈ mpo, TopRow W) (h : getL mps mpo lb = .ok Es)
    (hp : getLprojected mps mpo lb ldens rdens = .ok Gs) : Gs.length = mps.length ∧
    ∀ n E G, Es[n]? = some E → Gs[n]? = some G → ∃ l r, ldens[n + 1]? = some l ∧ rdens[n + 1]? = some r ∧
      Projects 0 r l E G ∧ ∑ k ∈ range G.u, ∑ k' ∈ range G.w, G.v k k' 0 * r.v k' k = 0 := by
  unfold getL at h
  unfold getLprojected at hp
  split_ifs at h hp with h0
  obtain ⟨l0, hl0⟩ : ∃ l, ldens[0]? = some l := ⟨_, List.getElem?_eq_getElem (by rw [hc.llen]; omega)⟩
  obtain ⟨k1, k2⟩ := projLoopR_run hc mps 0 mpo lb lb Es Gs 0 l0 rfl hl0 hW (shift_self 0 l0 lb) h hp
  refine ⟨by rw [k1, (blocksR_spec _ _ _ _ _ h).1], fun n E G hE hG => ?_⟩
  obtain ⟨q0, r, l, q1, q2, q3, q4, q5⟩ := k2 n E G hE hG
  rw [Nat.zero_add] at q1 q2
  refine ⟨l, r, q2, q1, q5, q5.orth q0 ?_⟩
  have := hc.norm (n + 1) l r q2 q1
  rw [q3, q4] at this
  exact this

theorem densAt_neg {l : List (Mat ℂ)} {n : ℕ} {a : Mat ℂ} (hl : l.length = n + 1) (h : densAt l (-2) = .ok a) : l[n - 1]? = some a := by
  unfold densAt at h
  split at h
  · cases h
  · rename_i k hk
    unfold pyIdx at hk
    rw [if_neg (by omega)] at hk
    split_ifs at hk with h1
    cases hk
    split at h
    · cases h
    · rename_i b hb
      cases h
      rw [← hb]
      congr 1
      omega

/-- **C106 (right).**  The blocks returned by `getRprojected` are those of `getR` with the projection `E - tr(E·l)·r` in the last
channel, for the density matrices of the bond; their trace with the left density matrix vanishes. -/
theorem C106_right {mps : List (Ten ℂ)} {mpo : List (Mpo ℂ)} {rb : Env ℂ} {ldens rdens : List (Mat ℂ)} {Es Gs : List (Env ℂ)}
    (hc : DensCell mps ldens rdens) (hW : ∀ W ∈ mpo, LastCol W) (h : getR mps mpo rb = .ok Es)
    (hp : getRprojected mps mpo rb ldens rdens = .ok Gs) : Gs.length = mps.length ∧
    ∀ n E G, Es[n]? = some E → Gs[n]? = some G → ∃ l r, ldens[mps.length - 1 - n]? = some l ∧ rdens[mps.length - 1 - n]? = some r ∧
      Projects (E.m - 1) l r E G ∧ ∑ k ∈ range G.u, ∑ k' ∈ range G.w, G.v k k' (E.m - 1) * l.v k' k = 0 := by
  unfold getR at h
  unfold getRprojected at hp
  by_cases h0 : mps = []
  · rw [if_pos h0] at h; cases h
  rw [if_neg h0] at h hp
  cases hw : mpo.getLast? with
  | none => rw [hw] at h; cases h
  | some w =>
  rw [hw] at h hp
  simp only at h hp
  by_cases h1 : mpo.length < mps.length - 1
  · rw [if_pos h1] at h; cases h
  rw [if_neg h1] at h hp
  have hpos : 0 < mps.length := List.length_pos_iff.mpr h0
  have hrev : ∀ {α : Type} (l : List α) (k : ℕ), l.length = mps.length + 1 → k ≤ mps.length → l.reverse[k]? = l[mps.length - k]? := by
    intro α l k hl hk
    rw [List.getElem?_reverse (by omega)]
    congr 1; omega
  have hidx : ∀ (l : List (Mat ℂ)), l.length = mps.length + 1 → ∀ k i,
      (-2 :: List.map (fun k : ℕ => (k : ℤ)) (List.range (mps.length - 1)).reverse)[k]? = some i → ∀ a, densAt l i = .ok a → l.reverse[0 + k + 1]? = some a := by
    intro l hl k i hk a ha
    cases k with
    | zero =>
      simp only [List.getElem?_cons_zero, Option.some.injEq] at hk
      subst hk
      rw [hrev l _ hl (by omega)]
      rw [← densAt_neg hl ha]
    | succ k =>
      rw [List.getElem?_cons_succ, List.getElem?_map] at hk
      obtain ⟨x, hx, rfl⟩ := Option.map_eq_some_iff.mp hk
      have hklt : k < mps.length - 1 := by
        have := (List.getElem?_eq_some_iff.mp hx).1
        simpa using this
      rw [List.getElem?_reverse (by simpa using hklt), List.length_range, List.getElem?_range (by omega)] at hx
      cases hx
      rw [hrev l _ hl (by omega), ← densAt_nat ha]
      congr 1; omega
  obtain ⟨r0, hr0⟩ : ∃ r, rdens.reverse[0]? = some r := ⟨_, List.getElem?_eq_getElem (by rw [List.length_reverse, hc.rlen]; omega)⟩
  have hWs : ∀ W ∈ w :: (mpo.take (mps.length - 1)).reverse, LastCol W := by
    intro W hm
    rcases List.mem_cons.mp hm with rfl | hm
    · exact hW _ (List.mem_of_getLast? hw)
    · exact hW W (List.mem_of_mem_take (List.mem_reverse.mp hm))
  have bound : ∀ {α : Type} {l : List α} {k : ℕ} {a : α}, l.length = mps.length + 1 → l.reverse[k]? = some a → k ≤ mps.length := by
    intro α l k a hl hk
    have := (List.getElem?_eq_some_iff.mp hk).1
    rw [List.length_reverse] at this; omega
  have hnorm : ∀ (n : ℕ) (l r : Mat ℂ), ldens.reverse[n]? = some l → rdens.reverse[n]? = some r →
      ∑ k ∈ range r.r, ∑ k' ∈ range r.c, r.v k k' * l.v k' k = 1 := by
    intro n l r hl hr
    have hn := bound hc.llen hl
    rw [hrev _ _ hc.llen hn] at hl
    rw [hrev _ _ hc.rlen hn] at hr
    obtain ⟨s1, s2, s3⟩ := hc.square _ l r hl hr
    rw [← hc.norm _ l r hl hr, ← s1, ← s2, sum_comm, s3]
    exact sum_congr rfl fun k _ => sum_congr rfl fun k' _ => mul_comm _ _
  obtain ⟨k1, k2⟩ := projLoopL_run (mpsR := mps.reverse) (ldens := ldens) (rdens := rdens) (lR := ldens.reverse) (rR := rdens.reverse) (by
      intro n A r r' hA hr hr'
      have hn := bound hc.rlen hr
      rw [hrev _ _ hc.rlen hn] at hr
      rw [hrev _ _ hc.rlen (by omega)] at hr'
      rw [List.getElem?_reverse (by omega)] at hA
      exact hc.right _ A r r' hA (by rw [← hr]; congr 1; omega) (by rw [← hr']; congr 1; omega))
    hnorm mps.reverse 0 _ _ rb rb Es Gs 0 r0 rfl (hidx ldens hc.llen) (hidx rdens hc.rlen) hr0 hWs (shift_self _ r0 rb) h hp
  refine ⟨by rw [k1, (blocksL_spec _ _ _ _ _ h).1, List.length_reverse], fun n E G hE hG => ?_⟩
  obtain ⟨q0, l, r, q1, q2, q3, q4, q5⟩ := k2 n E G hE hG
  have hn := hnorm _ l r q1 q2
  rw [q3, q4] at hn
  rw [Nat.zero_add] at q1 q2
  have hb := bound hc.llen q1
  rw [hrev _ _ hc.llen hb] at q1
  rw [hrev _ _ hc.rlen hb] at q2
  exact ⟨l, r, by rw [← q1]; congr 1; omega, by rw [← q2]; congr 1; omega, q5, q5.orth (by omega) hn⟩

theorem lastR_blocks (As : List (Ten ℂ)) : ∀ (Ws : List (Mpo ℂ)) (E : Env ℂ),
    (∀ e, blocksR E As Ws As = .error e → lastR E As Ws = .error e) ∧
    ∀ Es, blocksR E As Ws As = .ok Es → lastR E As Ws = .ok ((E :: Es).getLast (by simp)) := by
  induction As with
  | nil =>
    intro Ws E
    refine ⟨fun e h => by simp [blocksR] at h, fun Es h => ?_⟩
    simp only [blocksR, Except.ok.injEq] at h
    subst h; rfl
  | cons A As ih =>
    intro Ws E
    cases Ws with
    | nil => exact ⟨fun e h => by simpa [blocksR, lastR] using h, fun Es h => by simp [blocksR] at h⟩
    | cons W Ws =>
      simp only [blocksR, lastR]
      cases hF : addLayerR E A W A with
      | error e => exact ⟨fun e' h => by simpa using h, fun Es h => by simp at h⟩
      | ok F =>
        simp only
        obtain ⟨i1, i2⟩ := ih Ws F
        cases hb : blocksR F As Ws As with
        | error e => exact ⟨fun e' h => by simp only [Except.error.injEq] at h; rw [i1 e hb, h], fun Es h => by simp at h⟩
        | ok Es =>
          refine ⟨fun e' h => by simp at h, fun Es' h => ?_⟩
          simp only [Except.ok.injEq] at h
          subst h
          rw [i2 Es hb, List.getLast_cons_cons]

theorem lastL_blocks (As : List (Ten ℂ)) : ∀ (Ws : List (Mpo ℂ)) (E : Env ℂ),
    (∀ e, blocksL E As Ws As = .error e → lastL E As Ws = .error e) ∧
    ∀ Es, blocksL E As Ws As = .ok Es → lastL E As Ws = .ok ((E :: Es).getLast (by simp)) := by
  induction As with
  | nil =>
    intro Ws E
    refine ⟨fun e h => by simp [blocksL] at h, fun Es h => ?_⟩
    simp only [blocksL, Except.ok.injEq] at h
    subst h; rfl
  | cons A As ih =>
    intro Ws E
    cases Ws with
    | nil => exact ⟨fun e h => by simpa [blocksL, lastL] using h, fun Es h => by simp [blocksL] at h⟩
    | cons W Ws =>
      simp only [blocksL, lastL]
      cases hF : addLayerL E A W A with
      | error e => exact ⟨fun e' h => by simpa using h, fun Es h => by simp at h⟩
      | ok F =>
        simp only
        obtain ⟨i1, i2⟩ := ih Ws F
        cases hb : blocksL F As Ws As with
        | error e => exact ⟨fun e' h => by simp only [Except.error.injEq] at h; rw [i1 e hb, h], fun Es h => by simp at h⟩
        | ok Es =>
          refine ⟨fun e' h => by simp at h, fun Es' h => ?_⟩
          simp only [Except.ok.injEq] at h
          subst h
          rw [i2 Es hb, List.getLast_cons_cons]

/-- **C106 (unit cell).**  `getUCL` and `getUCR` return the last block of `getL` and `getR`, and raise what these raise. -/
theorem C106_unitcell (mps : List (Ten ℂ)) (mpo : List (Mpo ℂ)) (b : Env ℂ) :
    (∀ e, getL mps mpo b = .error e → getUCL mps mpo b = .error e) ∧
    (∀ Es, getL mps mpo b = .ok Es → ∃ E, Es[mps.length - 1]? = some E ∧ getUCL mps mpo b = .ok E) ∧
    (∀ e, getR mps mpo b = .error e → getUCR mps mpo b = .error e) ∧
    ∀ Es, getR mps mpo b = .ok Es → ∃ E, Es[mps.length - 1]? = some E ∧ getUCR mps mpo b = .ok E := by
  have last : ∀ (Es : List (Env ℂ)) (n : ℕ), Es.length = n → 0 < n → ∃ E, Es[n - 1]? = some E ∧ (b :: Es).getLast (by simp) = E := by
    intro Es n hn h0
    have : Es ≠ [] := by rintro rfl; simp at hn; omega
    refine ⟨_, ?_, rfl⟩
    rw [List.getLast_cons this, ← hn, ← List.getLast?_eq_getElem?, List.getLast?_eq_some_getLast]
  unfold getL getUCL getR getUCR
  by_cases h0 : mps = []
  · simp only [h0, if_true]
    exact ⟨fun e h => (by cases h; rfl), fun Es h => (by cases h), fun e h => (by cases h; rfl), fun Es h => (by cases h)⟩
  simp only [if_neg h0]
  have hpos : 0 < mps.length := List.length_pos_iff.mpr h0
  refine ⟨(lastR_blocks mps mpo b).1, fun Es h => ?_, ?_, ?_⟩
  · obtain ⟨E, h1, h2⟩ := last Es mps.length (blocksR_spec _ _ _ _ _ h).1 hpos
    exact ⟨E, h1, by rw [(lastR_blocks mps mpo b).2 Es h, h2]⟩
  · cases mpo.getLast? with
    | none => exact fun e h => (by cases h; rfl)
    | some w =>
      simp only
      split_ifs
      · exact fun e h => (by cases h; rfl)
      · exact (lastL_blocks _ _ b).1
  · cases mpo.getLast? with
    | none => exact fun e h => (by cases h)
    | some w =>
      simp only
      split_ifs
      · exact fun e h => (by cases h)
      · intro Es h
        obtain ⟨E, h1, h2⟩ := last Es mps.length (by rw [(blocksL_spec _ _ _ _ _ h).1, List.length_reverse]) hpos
        exact ⟨E, h1, by rw [(lastL_blocks _ _ b).2 Es h, h2]⟩

/-- Spec: density matrices of the shape of the block. -/
def FitsBlock (a b : Mat ℂ) (E : Env ℂ) : Prop := a.r = E.w ∧ a.c = E.u ∧ b.r = E.u ∧ b.c = E.w ∧ 0 < E.m

theorem densAt_of {l : List (Mat ℂ)} {k : ℕ} {a : Mat ℂ} (h : l[k]? = some a) : densAt l k = .ok a := by
  have hk : k < l.length := (List.getElem?_eq_some_iff.mp h).1
  unfold densAt pyIdx
  rw [if_pos (by omega), if_pos (by omega)]
  simp only [Int.toNat_natCast, h]

/-- Blocks of the same shape. -/
def SameShape (G E : Env ℂ) : Prop := G.u = E.u ∧ G.w = E.w ∧ G.m = E.m

theorem addLayerR_shape {G E F : Env ℂ} {A : Ten ℂ} {W : Mpo ℂ} (h : SameShape G E) (hF : addLayerR E A W A = .ok F) :
    ∃ F', addLayerR G A W A = .ok F' ∧ SameShape F' F := by
  unfold addLayerR at hF
  split_ifs at hF with c
  cases hF
  unfold addLayerR
  rw [if_pos (by rw [h.1, h.2.1, h.2.2]; exact c)]
  exact ⟨_, rfl, rfl, rfl, rfl⟩

theorem addLayerL_shape {G E F : Env ℂ} {A : Ten ℂ} {W : Mpo ℂ} (h : SameShape G E) (hF : addLayerL E A W A = .ok F) :
    ∃ F', addLayerL G A W A = .ok F' ∧ SameShape F' F := by
  unfold addLayerL at hF
  split_ifs at hF with c
  cases hF
  unfold addLayerL
  rw [if_pos (by rw [h.1, h.2.1, h.2.2]; exact c)]
  exact ⟨_, rfl, rfl, rfl, rfl⟩

theorem projChan_shape {G E : Env ℂ} {a b : Mat ℂ} {c : ℕ} (h : SameShape G E) (hf : FitsBlock a b E) (hc : c < E.m) :
    ∃ P, projChan c a b G = .ok P ∧ SameShape P E := by
  unfold projChan
  rw [if_pos (by rw [h.2.2]; exact hc), if_pos (by rw [h.1, h.2.1]; exact ⟨hf.1, hf.2.1, hf.2.2.1, hf.2.2.2.1⟩)]
  exact ⟨_, rfl, h⟩

theorem projLoopR_succeeds {ldens rdens : List (Mat ℂ)} : ∀ (As : List (Ten ℂ)) (n : ℕ) (Ws : List (Mpo ℂ)) (E G : Env ℂ) (Es : List (Env ℂ)),
    SameShape G E → blocksR E As Ws As = .ok Es →
    (∀ k F, Es[k]? = some F → ∃ l r, ldens[n + k + 1]? = some l ∧ rdens[n + k + 1]? = some r ∧ FitsBlock r l F) →
    ∃ Gs, projLoopR ldens rdens n G As Ws = .ok Gs := by
  intro As
  induction As with
  | nil => intro n Ws E G Es _ _ _; exact ⟨[], rfl⟩
  | cons A As ih =>
    intro n Ws E G Es h1 h hf
    cases Ws with
    | nil => simp [blocksR] at h
    | cons W Ws =>
      simp only [blocksR] at h
      split at h
      · cases h
      rename_i F hF
      split at h
      · cases h
      rename_i Fs hFs
      cases h
      obtain ⟨l, r, hl, hr, hfit⟩ := hf 0 F (by simp)
      obtain ⟨F', hF', hs⟩ := addLayerR_shape h1 hF
      obtain ⟨P, hP, hs'⟩ := projChan_shape hs hfit hfit.2.2.2.2
      obtain ⟨Gs, hGs⟩ := ih (n + 1) Ws F P Fs hs' hFs (fun k F' hk => by
        obtain ⟨l', r', q1, q2, q3⟩ := hf (k + 1) F' (by simpa using hk)
        exact ⟨l', r', by rw [← q1]; congr 1; omega, by rw [← q2]; congr 1; omega, q3⟩)
      have e1 : ((n : ℤ) + 1) = ((n + 1 : ℕ) : ℤ) := by push_cast; rfl
      refine ⟨P :: Gs, ?_⟩
      simp only [projLoopR, hF', e1]
      rw [densAt_of (k := n + 1) (by simpa using hr), densAt_of (k := n + 1) (by simpa using hl)]
      simp only [hP, hGs]

theorem projLoopL_succeeds {ldens rdens : List (Mat ℂ)} : ∀ (As : List (Ten ℂ)) (ns : List ℤ) (Ws : List (Mpo ℂ)) (E G : Env ℂ) (Es : List (Env ℂ)),
    SameShape G E → blocksL E As Ws As = .ok Es → ns.length = As.length →
    (∀ (k : ℕ) F i, Es[k]? = some F → ns[k]? = some i → ∃ l r, densAt ldens i = .ok l ∧ densAt rdens i = .ok r ∧ FitsBlock l r F) →
    ∃ Gs, projLoopL ldens rdens G ns As Ws = .ok Gs := by
  intro As
  induction As with
  | nil => intro ns Ws E G Es _ _ _ _; exact ⟨[], by simp [projLoopL]⟩
  | cons A As ih =>
    intro ns Ws E G Es h1 h hn hf
    cases Ws with
    | nil => simp [blocksL] at h
    | cons W Ws =>
      cases ns with
      | nil => simp at hn
      | cons i ns =>
      simp only [blocksL] at h
      split at h
      · cases h
      rename_i F hF
      split at h
      · cases h
      rename_i Fs hFs
      cases h
      obtain ⟨l, r, hl, hr, hfit⟩ := hf 0 F i (by simp) (by simp)
      obtain ⟨F', hF', hs⟩ := addLayerL_shape h1 hF
      obtain ⟨P, hP, hs'⟩ := projChan_shape (c := F'.m - 1) hs hfit (by have := hfit.2.2.2.2; have := hs.2.2; omega)
      obtain ⟨Gs, hGs⟩ := ih ns Ws F P Fs hs' hFs (by simpa using hn) (fun k F' i' hk hi' =>
        hf (k + 1) F' i' (by simpa using hk) (by simpa using hi'))
      refine ⟨P :: Gs, ?_⟩
      simp only [projLoopL, hF', hl, hr, hP, hGs]

/-- **C106 (success).**  `getLprojected` returns whenever `getL` does and the lists contain density matrices of the shapes of the
blocks. -/
theorem C106_left_succeeds {mps : List (Ten ℂ)} {mpo : List (Mpo ℂ)} {lb : Env ℂ} {ldens rdens : List (Mat ℂ)} {Es : List (Env ℂ)}
    (h : getL mps mpo lb = .ok Es)
    (hf : ∀ k F, Es[k]? = some F → ∃ l r, ldens[k + 1]? = some l ∧ rdens[k + 1]? = some r ∧ FitsBlock r l F) :
    ∃ Gs, getLprojected mps mpo lb ldens rdens = .ok Gs := by
  unfold getL at h
  unfold getLprojected
  split_ifs at h with h0
  rw [if_neg h0]
  exact projLoopR_succeeds mps 0 mpo lb lb Es ⟨rfl, rfl, rfl⟩ h (fun k F hk => by simpa using hf k F hk)

/-- **C106 (success, right).**  The same for `getRprojected`; block `n` needs the density matrices number `N-1-n`. -/
theorem C106_right_succeeds {mps : List (Ten ℂ)} {mpo : List (Mpo ℂ)} {rb : Env ℂ} {ldens rdens : List (Mat ℂ)} {Es : List (Env ℂ)}
    (h : getR mps mpo rb = .ok Es) (hl : ldens.length = mps.length + 1) (hr : rdens.length = mps.length + 1)
    (hf : ∀ k F l r, Es[k]? = some F → ldens[mps.length - 1 - k]? = some l → rdens[mps.length - 1 - k]? = some r → FitsBlock l r F) :
    ∃ Gs, getRprojected mps mpo rb ldens rdens = .ok Gs := by
  unfold getR at h
  unfold getRprojected
  by_cases h0 : mps = []
  · rw [if_pos h0] at h; cases h
  rw [if_neg h0] at h ⊢
  cases hw : mpo.getLast? with
  | none => rw [hw] at h; cases h
  | some w =>
  rw [hw] at h
  simp only at h ⊢
  by_cases h1 : mpo.length < mps.length - 1
  · rw [if_pos h1] at h; cases h
  rw [if_neg h1] at h ⊢
  have hpos : 0 < mps.length := List.length_pos_iff.mpr h0
  have key : ∀ (l : List (Mat ℂ)), l.length = mps.length + 1 → ∀ k i, k < mps.length →
      (-2 :: List.map (fun k : ℕ => (k : ℤ)) (List.range (mps.length - 1)).reverse)[k]? = some i →
      ∃ a, l[mps.length - 1 - k]? = some a ∧ densAt l i = .ok a := by
    intro l hl k i hk hi
    obtain ⟨a, ha⟩ : ∃ a, l[mps.length - 1 - k]? = some a := ⟨_, List.getElem?_eq_getElem (by omega)⟩
    refine ⟨a, ha, ?_⟩
    cases k with
    | zero =>
      simp only [List.getElem?_cons_zero, Option.some.injEq] at hi
      subst hi
      unfold densAt pyIdx
      rw [if_neg (by omega), if_pos (by omega)]
      have e : ((l.length : ℤ) + -2).toNat = mps.length - 1 - 0 := by omega
      simp only [e, ha]
    | succ k =>
      rw [List.getElem?_cons_succ, List.getElem?_map] at hi
      obtain ⟨x, hx, rfl⟩ := Option.map_eq_some_iff.mp hi
      rw [List.getElem?_reverse (by simp; omega), List.length_range, List.getElem?_range (by omega)] at hx
      cases hx
      exact densAt_of (by rw [← ha]; congr 1; omega)
  refine projLoopL_succeeds mps.reverse _ _ rb rb Es ⟨rfl, rfl, rfl⟩ h (by simp; omega) (fun k F i hF hi => ?_)
  have hk : k < mps.length := by
    have := (List.getElem?_eq_some_iff.mp hF).1
    rw [(blocksL_spec _ _ _ _ _ h).1, List.length_reverse] at this
    exact this
  obtain ⟨l, a1, a2⟩ := key ldens hl k i hk hi
  obtain ⟨r, b1, b2⟩ := key rdens hr k i hk hi
  exact ⟨l, r, a2, b2, hf k F l r hF a1 b1⟩

/-- The pairing of the blocks with the density matrices in which the projection is meant vanishes when the density matrix is
symmetric, in particular for real states and for `1`. -/
theorem C106_paired {c : ℕ} {a : Mat ℂ} {G : Env ℂ} (h : ∑ k ∈ range G.u, ∑ k' ∈ range G.w, G.v k k' c * a.v k' k = 0)
    (hs : ∀ k < G.u, ∀ k' < G.w, a.v k' k = a.v k k') : ∑ k ∈ range G.u, ∑ k' ∈ range G.w, a.v k k' * G.v k k' c = 0 := by
  rw [← h]
  exact sum_congr rfl fun k hk => sum_congr rfl fun k' hk' => by
    rw [hs k (mem_range.mp hk) k' (mem_range.mp hk'), mul_comm]

/-- A translation invariant right orthonormal state: the tensor `δ_{is} φ_j`. -/
def prepA (φ : ℕ → ℂ) : Ten ℂ := ⟨2, 2, 2, fun i j s => if i = s then φ j else 0⟩

def prepL (φ : ℕ → ℂ) : Mat ℂ := ⟨2, 2, fun j j' => φ j * star (φ j')⟩

def prepR : Mat ℂ := ⟨2, 2, fun j j' => if j = j' then 1 else 0⟩

/-- The MPO of `Σ_n σ^y_n`. -/
def sumY : Mpo ℂ := ⟨2, 2, 2, 2, fun b b' s s' =>
  if b = b' then (if s = s' then 1 else 0) else if b = 1 then (if s = s' then 0 else if s = 0 then Complex.I else -Complex.I) else 0⟩

theorem prep_cell (φ : ℕ → ℂ) (h : φ 0 * star (φ 0) + φ 1 * star (φ 1) = 1) : DensCell [prepA φ] [prepL φ, prepL φ] [prepR, prepR] := by
  simp only [RCLike.star_def] at h
  have hl : ∀ (n : ℕ) (l : Mat ℂ), [prepL φ, prepL φ][n]? = some l → l = prepL φ := by
    intro n l hl
    rcases n with _ | _ | n <;> simp at hl <;> exact hl.symm
  have hr : ∀ (n : ℕ) (l : Mat ℂ), [prepR, prepR][n]? = some l → l = prepR := by
    intro n l hl
    rcases n with _ | _ | n <;> simp at hl <;> exact hl.symm
  have hA : ∀ (n : ℕ) (A : Ten ℂ), [prepA φ][n]? = some A → A = prepA φ := by
    intro n A hA
    rcases n with _ | n <;> simp at hA; exact hA.symm
  refine ⟨rfl, rfl, ?_, ?_, ?_, ?_⟩
  · intro n A l l' h1 h2 h3
    rw [hA n A h1, hl n l h2, hl (n + 1) l' h3]
    intro j _ j' _
    simp only [prepA, prepL, sum_range_succ, sum_range_zero]
    simp
    linear_combination (-(φ j * (starRingEnd ℂ) (φ j'))) * h
  · intro n A r r' h1 h2 h3
    rw [hA n A h1, hr n r h2, hr (n + 1) r' h3]
    intro i hi i' hi'
    simp only [prepA] at hi hi'
    interval_cases i <;> interval_cases i' <;> simp [prepA, prepR, sum_range_succ] <;> linear_combination -h
  · intro n l r h2 h3
    rw [hl n l h2, hr n r h3]
    simp [prepL, prepR, sum_range_succ]
    linear_combination h
  · intro n l r h2 h3
    rw [hl n l h2, hr n r h3]
    exact ⟨rfl, rfl, rfl⟩

theorem sumY_last : LastCol sumY := by
  refine ⟨by simp [sumY], by simp [sumY], fun b hb s hs s' hs' => ?_⟩
  simp only [sumY] at hb hs hs'
  interval_cases b <;> interval_cases s <;> interval_cases s' <;> simp [sumY]

theorem sumY_top : TopRow sumY := by
  refine ⟨by simp [sumY], by simp [sumY], fun b hb s hs s' hs' => ?_⟩
  simp only [sumY] at hb hs hs'
  interval_cases b <;> interval_cases s <;> interval_cases s' <;> simp [sumY]

/-- The right boundary: the identity in channel 0. -/
def rbY : Env ℂ := ⟨2, 2, 2, fun i i' x => if x = 0 ∧ i = i' then 1 else 0⟩

def lbY (φ : ℕ → ℂ) : Env ℂ := ⟨2, 2, 2, fun i i' x => if x = 1 then φ i * star (φ i') else 0⟩

/-- **C106 (violation).**  For complex states the projection of `getRprojected` is not orthogonal to the left density matrix: the
trace pairs the block with its transpose.  The cell is right orthonormal, `l` is Hermitian, positive and a fixed point. -/
theorem C106_violated_complex : ∃ (mps : List (Ten ℂ)) (mpo : List (Mpo ℂ)) (rb : Env ℂ) (l r : Mat ℂ) (G : Env ℂ),
    DensCell mps [l, l] [r, r] ∧ (∀ W ∈ mpo, LastCol W) ∧ (∀ i i', l.v i' i = star (l.v i i')) ∧
    getRprojected mps mpo rb [l, l] [r, r] = .ok [G] ∧ ∑ k ∈ range G.u, ∑ k' ∈ range G.w, l.v k k' * G.v k k' (G.m - 1) ≠ 0 := by
  set φ : ℕ → ℂ := fun j => if j = 0 then 3 / 5 else 4 / 5 * Complex.I with hφ
  have h1 : φ 0 * star (φ 0) + φ 1 * star (φ 1) = 1 := by
    simp only [hφ, if_true, if_neg one_ne_zero]
    apply Complex.ext <;> norm_num
  refine ⟨[prepA φ], [sumY], rbY, prepL φ, prepR, ?G, prep_cell φ h1, ?_, fun i i' => by simp [prepL, mul_comm], ?run, ?pair⟩
  case run =>
    simp only [getRprojected, projLoopL, addLayerL, densAt, pyIdx, projChan, List.getLast?_singleton, List.reverse_singleton, List.length_singleton, List.cons_ne_nil]
    norm_num [prepA, sumY, rbY, prepL, prepR]
    rfl
  case pair =>
    simp [sum_range_succ, prepL, hφ, map_ofNat]
    intro h
    have := congrArg Complex.re h
    norm_num at this
  intro W hW
  rw [List.mem_singleton] at hW
  rw [hW]; exact sumY_last

/-- The hypotheses of `C106_left` hold for the cell above with real `φ`. -/
example : ∃ (φ : ℕ → ℂ) (Es Gs : List (Env ℂ)), DensCell [prepA φ] [prepL φ, prepL φ] [prepR, prepR] ∧ (∀ W ∈ [sumY], TopRow W) ∧
    getL [prepA φ] [sumY] (lbY φ) = .ok Es ∧ getLprojected [prepA φ] [sumY] (lbY φ) [prepL φ, prepL φ] [prepR, prepR] = .ok Gs := by
  refine ⟨fun j => if j = 0 then 3 / 5 else 4 / 5, ?E, ?G, prep_cell _ ?_, ?_, ?run, ?runp⟩
  case run =>
    simp only [getL, blocksR, addLayerR]
    norm_num [prepA, sumY, lbY]
    rfl
  case runp =>
    simp only [getLprojected, projLoopR, addLayerR, densAt, pyIdx, projChan]
    norm_num [prepA, sumY, lbY, prepL, prepR]
    rfl
  · simp only [if_true, if_neg one_ne_zero]
    apply Complex.ext <;> norm_num
  · intro W hW
    rw [List.mem_singleton] at hW
    rw [hW]; exact sumY_top

end

end PyTeN
