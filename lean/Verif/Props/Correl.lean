import Verif.Mps.Correl
import Verif.Props.Environment
import Verif.Props.Measure

/-! # C61 (measure), C64 (matrix elements), C65 (mpsfunctions.measure) -/

namespace PyTeN
open Finset

noncomputable section

/-! ## C61 -/

/-- Equality of the entries of two `d×d` matrices. -/
def EqD (d : ℕ) (A B : ℕ → ℕ → ℂ) : Prop := ∀ s < d, ∀ t < d, A s t = B s t

theorem mulD_congr {d : ℕ} {A A' B B' : ℕ → ℕ → ℂ} (h1 : EqD d A A') (h2 : EqD d B B') :
    EqD d (mulD d A B) (mulD d A' B') := by
  intro s hs t ht
  refine sum_congr rfl fun k hk => ?_
  rw [h1 s hs k (mem_range.mp hk), h2 k (mem_range.mp hk) t ht]

theorem EqD.rfl' {d : ℕ} {A : ℕ → ℕ → ℂ} : EqD d A A := fun _ _ _ _ => rfl
theorem EqD.symm {d : ℕ} {A B : ℕ → ℕ → ℂ} (h : EqD d A B) : EqD d B A := fun s hs t ht => (h s hs t ht).symm
theorem EqD.trans {d : ℕ} {A B C : ℕ → ℕ → ℂ} (h : EqD d A B) (h' : EqD d B C) : EqD d A C :=
  fun s hs t ht => (h s hs t ht).trans (h' s hs t ht)

theorem mulD_one (d : ℕ) (A : ℕ → ℕ → ℂ) : EqD d (mulD d A (delta ℂ)) A := by
  intro s _ t ht
  unfold mulD
  simp only [delta_comm (K := ℂ) _ t]
  exact sum_delta_right' ht fun k => A s k

theorem one_mulD (d : ℕ) (A : ℕ → ℕ → ℂ) : EqD d (mulD d (delta ℂ) A) A := by
  intro s hs t _
  exact sum_delta_left hs fun k => A k t

theorem mulD_assoc (d : ℕ) (A B C : ℕ → ℕ → ℂ) : mulD d (mulD d A B) C = mulD d A (mulD d B C) := by
  funext s t
  unfold mulD
  simp only [sum_mul, mul_sum]
  rw [sum_comm]
  refine sum_congr rfl fun k _ => sum_congr rfl fun j _ => by ring

/-- product of a list of operators followed by `C`. -/
def prodD (d : ℕ) (l : List (Mat ℂ)) (C : ℕ → ℕ → ℂ) : ℕ → ℕ → ℂ := l.foldr (fun o X => mulD d o.v X) C

theorem prodD_congr {d : ℕ} {l : List (Mat ℂ)} {C C' : ℕ → ℕ → ℂ} (h : EqD d C C') :
    EqD d (prodD d l C) (prodD d l C') := by
  induction l with
  | nil => exact h
  | cons o l ih => exact mulD_congr EqD.rfl' ih

theorem measGroup_spec {x d : ℕ} : ∀ (xs : List ℕ) (os : List (Mat ℂ)) (op : Mat ℂ) (par : Bool) (n : ℕ)
    {op' : Mat ℂ} {par' : Bool} {n' : ℕ} {rest : List ℕ} {os' : List (Mat ℂ)},
    measGroup x xs os op par n = .ok (op', par', n', rest, os') → op.r = d → op.c = d →
    (∀ q ∈ xs.zip os, q.1 = x → q.2.r = d ∧ q.2.c = d) →
    ∃ pre, os = pre ++ os' ∧ xs = List.replicate pre.length x ++ rest ∧ rest.head? ≠ some x ∧
      par' = xor par (pre.length % 2 == 1) ∧ n' = n + pre.length ∧ op'.r = d ∧ op'.c = d ∧
      ∀ C, mulD d op'.v C = mulD d op.v (prodD d pre C) := by
  intro xs
  induction xs with
  | nil =>
    intro os op par n op' par' n' rest os' h h1 h2 _
    simp only [measGroup, Except.ok.injEq, Prod.mk.injEq] at h
    obtain ⟨rfl, rfl, rfl, rfl, rfl⟩ := h
    exact ⟨[], rfl, rfl, by simp, by simp, rfl, h1, h2, fun _ => rfl⟩
  | cons y ys ih =>
    intro os op par n op' par' n' rest os' h h1 h2 hd
    simp only [measGroup] at h
    split_ifs at h with hy
    · subst hy
      split at h
      · cases h
      rename_i o os1
      unfold Mat.dotR at h
      have ho := hd (y, o) (by simp) rfl
      rw [if_pos (by rw [h2, ho.1])] at h
      simp only at h
      obtain ⟨pre, g1, g2, g3, g4, g5, g6, g7, g8⟩ := ih os1 _ (!par) (n + 1) h h1 ho.2
        (fun q hq => hd q (by simp [hq]))
      refine ⟨o :: pre, by simp [g1], by simp [List.replicate_succ, g2], g3, ?_, by simp [g5]; omega, g6, g7, ?_⟩
      · rw [g4]
        simp only [List.length_cons]
        rcases Nat.mod_two_eq_zero_or_one pre.length with hq | hq
        · have : (pre.length + 1) % 2 = 1 := by omega
          cases par <;> simp [hq, this]
        · have : (pre.length + 1) % 2 = 0 := by omega
          cases par <;> simp [hq, this]
      · intro C
        rw [g8 C]
        have : (fun i j => ∑ k ∈ range op.c, op.v i k * o.v k j) = mulD d op.v o.v := by
          funext i j; rw [h2]; rfl
        rw [this, mulD_assoc]
        rfl
    · simp only [Except.ok.injEq, Prod.mk.injEq] at h
      obtain ⟨rfl, rfl, rfl, rfl, rfl⟩ := h
      refine ⟨[], rfl, rfl, ?_, by simp, rfl, h1, h2, fun _ => rfl⟩
      simpa using hy

/-- Operators further right contribute the parity of their number. -/
theorem stringAt_right {d k : ℕ} {Pk : ℕ → ℕ → ℂ} (hP : EqD d (mulD d Pk Pk) (delta ℂ)) :
    ∀ (l : List (ℕ × Mat ℂ)), (∀ q ∈ l, k < q.1) →
      EqD d (stringAt d k Pk l) (if l.length % 2 = 1 then Pk else delta ℂ) := by
  intro l
  induction l with
  | nil => intro _; simp [stringAt, EqD]
  | cons q l ih =>
    intro hl
    obtain ⟨x, o⟩ := q
    have hx : k < x := hl (x, o) (by simp)
    have h := ih (fun q hq => hl q (by simp [hq]))
    simp only [stringAt]
    rw [if_neg (by omega), if_pos hx]
    refine (mulD_congr EqD.rfl' h).trans ?_
    rcases Nat.mod_two_eq_zero_or_one l.length with h2 | h2
    · have h3 : ((x, o) :: l).length % 2 = 1 := by simp only [List.length_cons]; omega
      rw [if_neg (by omega), if_pos h3]
      exact mulD_one d Pk
    · have h3 : ¬ ((x, o) :: l).length % 2 = 1 := by simp only [List.length_cons]; omega
      rw [if_pos h2, if_neg h3]
      exact hP

theorem stringAt_group (d x : ℕ) (Pk : ℕ → ℕ → ℂ) (pre : List (Mat ℂ)) (l : List (ℕ × Mat ℂ)) :
    stringAt d x Pk ((List.replicate pre.length x).zip pre ++ l) = prodD d pre (stringAt d x Pk l) := by
  induction pre with
  | nil => rfl
  | cons o pre ih =>
    simp only [List.length_cons, List.replicate_succ, List.zip_cons_cons, List.cons_append, stringAt, if_true, ih]
    rfl

theorem stringAt_left (d k : ℕ) (Pk : ℕ → ℕ → ℂ) (l l' : List (ℕ × Mat ℂ)) (h : ∀ q ∈ l, q.1 < k) :
    stringAt d k Pk (l ++ l') = stringAt d k Pk l' := by
  induction l with
  | nil => rfl
  | cons q l ih =>
    obtain ⟨x, o⟩ := q
    have hx : x < k := h (x, o) (by simp)
    simp only [List.cons_append, stringAt]
    rw [if_neg (by omega), if_neg (by omega)]
    exact ih fun q hq => h q (by simp [hq])

theorem itemA_ok {ts : List (Ten ℂ)} {n : ℕ} {t : Ten ℂ} (h : itemA ts n = .ok t) : ts[n]? = some t := by
  unfold itemA at h
  split at h
  · rename_i t' h'; rw [h', Except.ok.inj h]
  · cases h

theorem take_succ_some {ts : List (Ten ℂ)} {n : ℕ} {t : Ten ℂ} (h : ts[n]? = some t) :
    ts.take (n + 1) = ts.take n ++ [t] := by
  obtain ⟨h1, h2⟩ := List.getElem?_eq_some_iff.mp h
  rw [← h2, List.take_succ_eq_append_getElem h1]

/-- Admissible string operators: square, of the local dimension and involutive. -/
def StrOK (ts : List (Ten ℂ)) (P : Option (List (Mat ℂ))) : Prop :=
  ∀ p, P = some p → ∀ (k : ℕ) (Pk : Mat ℂ) (t : Ten ℂ), p[k]? = some Pk → ts[k]? = some t →
    Pk.r = t.d ∧ Pk.c = t.d ∧ EqD t.d (mulD t.d Pk.v Pk.v) (delta ℂ)

theorem strP_sq {ts : List (Ten ℂ)} {P : Option (List (Mat ℂ))} (h : StrOK ts P)
    (hlen : ∀ p, P = some p → p.length = ts.length) {k : ℕ} {t : Ten ℂ} (ht : ts[k]? = some t) :
    EqD t.d (mulD t.d (strP P k) (strP P k)) (delta ℂ) := by
  cases P with
  | none => exact mulD_one _ _
  | some p =>
    have hk : k < p.length := by
      rw [hlen p rfl]; exact (List.getElem?_eq_some_iff.mp ht).1
    have := (h p rfl k p[k] t (List.getElem?_eq_getElem hk) ht).2.2
    have e : strP (some p) k = p[k].v := by
      unfold strP
      simp only
      rw [List.getD_eq_getElem _ _ hk]
    rw [e]; exact this

theorem measBetween_spec {ts : List (Ten ℂ)} {P : Option (List (Mat ℂ))} {par : Bool} {E : Env ℂ} :
    ∀ (n a : ℕ) (L L' : Env ℂ) (Ws : List (Mpo ℂ)), IsL E (ts.take a) Ws (ts.take a) L → L.m = 1 →
      measBetween ts P par (List.range' a n) L = .ok L' →
      ∃ os : List (Mat ℂ), os.length = n ∧ L'.m = 1 ∧
        IsL E (ts.take (a + n)) (Ws ++ os.map Mat.mpo) (ts.take (a + n)) L' ∧
        ∀ k < n, ∃ o t, os[k]? = some o ∧ ts[a + k]? = some t ∧
          EqD t.d o.v (if par then strP P (a + k) else delta ℂ) := by
  intro n
  induction n with
  | zero =>
    intro a L L' Ws hL hm h
    simp only [List.range'_zero, measBetween, Except.ok.injEq] at h
    subst h
    exact ⟨[], rfl, hm, by simpa using hL, by omega⟩
  | succ n ih =>
    intro a L L' Ws hL hm h
    simp only [List.range'_succ, measBetween] at h
    split at h
    · cases h
    rename_i t ht
    have ht := itemA_ok ht
    have key : ∃ (o : Mat ℂ) (L1 : Env ℂ), L1.m = 1 ∧ IsL E (ts.take (a + 1)) (Ws ++ [o.mpo]) (ts.take (a + 1)) L1 ∧
        EqD t.d o.v (if par then strP P a else delta ℂ) ∧
        measBetween ts P par (List.range' (a + 1) n) L1 = .ok L' := by
      rw [take_succ_some ht]
      split at h
      · rename_i p
        split at h
        · cases h
        rename_i Pk hPk
        split at h
        · cases h
        rename_i L1 h1
        refine ⟨Pk, L1, (addLayerR_dims h1).2.2.1, isL_snoc hL h1, ?_, h⟩
        have e : strP (some p) a = Pk.v := by
          simp [strP, List.getD, hPk]
        rw [if_pos rfl, e]
        exact EqD.rfl'
      · rename_i hne
        split at h
        · cases h
        rename_i L1 h1
        obtain ⟨g1, g2⟩ := isL_snocE hL h1
        rw [hm] at g1 g2
        refine ⟨eyeK ℂ t.d, L1, g1, g2, ?_, h⟩
        cases par with
        | false => exact EqD.rfl'
        | true =>
          cases P with
          | none => exact EqD.rfl'
          | some p => exact absurd rfl (hne p · rfl)
    obtain ⟨o, L1, m1, hL1, ho, h1⟩ := key
    obtain ⟨os, e1, e2, e3, e4⟩ := ih (a + 1) L1 L' _ hL1 m1 h1
    refine ⟨o :: os, by simp [e1], e2, ?_, ?_⟩
    · rw [show a + (n + 1) = a + 1 + n by omega]
      simpa using e3
    · intro k hk
      cases k with
      | zero => exact ⟨o, t, rfl, ht, ho⟩
      | succ k =>
        obtain ⟨o', t', q1, q2, q3⟩ := e4 k (by omega)
        rw [show a + 1 + k = a + (k + 1) by omega] at q2 q3
        exact ⟨o', t', q1, q2, q3⟩

theorem measLoop_spec {ts : List (Ten ℂ)} {P : Option (List (Mat ℂ))} {E : Env ℂ} (hP : StrOK ts P)
    (hPl : ∀ p, P = some p → p.length = ts.length) :
    ∀ (fuel s x : ℕ) (xs : List ℕ) (os : List (Mat ℂ)) (par : Bool) (L L' : Env ℂ) (Ws : List (Mpo ℂ)) (last : ℕ),
      (x :: xs).length ≤ fuel → (x :: xs).Pairwise (· ≤ ·) → (x :: xs).getLast? = some last → os.length = (x :: xs).length →
      (P ≠ none → par = (os.length % 2 == 1)) →
      (∀ q ∈ (x :: xs).zip os, ∀ t, ts[q.1]? = some t → q.2.r = t.d ∧ q.2.c = t.d) →
      IsL E (ts.take x) Ws (ts.take x) L → L.m = 1 → measLoop ts P fuel s (x :: xs) os par L = .ok L' →
      x ≤ last ∧ ∃ us : List (Mat ℂ), us.length = last + 1 - x ∧ L'.m = 1 ∧
        IsL E (ts.take (last + 1)) (Ws ++ us.map Mat.mpo) (ts.take (last + 1)) L' ∧
        ∀ k < last + 1 - x, ∃ o t, us[k]? = some o ∧ ts[x + k]? = some t ∧
          EqD t.d o.v (stringAt t.d (x + k) (strP P (x + k)) ((x :: xs).zip os)) := by
  intro fuel
  induction fuel with
  | zero => intro s x xs os par L L' Ws last h; simp at h
  | succ fuel ih =>
    intro s x xs os par L L' Ws last hf hsort hlast hlen hpar hdim hL hm h
    simp only [measLoop] at h
    split at h
    · cases h
    rename_i t0 _
    split at h
    · cases h
    rename_i op par' n rest os' hg
    split at h
    · cases h
    rename_i w hw
    split at h
    · cases h
    rename_i tx htx
    have htx := itemA_ok htx
    split at h
    · cases h
    rename_i L1 h1
    -- the first operator of the group fixes the dimension
    obtain ⟨o0, os0, rfl⟩ : ∃ o0 os0, os = o0 :: os0 := by
      cases os with
      | nil => simp at hlen
      | cons a b => exact ⟨a, b, rfl⟩
    have h0 := hdim (x, o0) (by simp) tx htx
    have hd0 : t0.d = tx.d := by
      simp only [measGroup, if_true, Mat.dotR] at hg
      by_contra hne
      rw [if_neg (by rw [h0.1]; exact hne)] at hg
      cases hg
    obtain ⟨pre, g1, g2, g3, g4, g5, g6, g7, g8⟩ := measGroup_spec (d := tx.d) (x :: xs) (o0 :: os0) (eyeK ℂ t0.d) par s hg
      hd0 hd0 (fun q hq hqx => hdim q hq tx (by rw [hqx]; exact htx))
    have hpre : pre ≠ [] := by
      intro h; rw [h] at g2; simp only [List.length_nil, List.replicate_zero, List.nil_append] at g2
      rw [← g2] at g3; simp at g3
    have hzip : (x :: xs).zip (o0 :: os0) = (List.replicate pre.length x).zip pre ++ rest.zip os' := by
      rw [g1, g2, List.zip_append (by simp)]
    have hrest : ∀ y ∈ rest, x < y := by
      rw [g2] at hsort
      have hs2 := (List.pairwise_append.mp hsort)
      have hge : ∀ y ∈ rest, x ≤ y := fun y hy => hs2.2.2 x (by
        rw [List.mem_replicate]; exact ⟨by simpa using hpre, rfl⟩) y hy
      cases rest with
      | nil => simp
      | cons y ys =>
        have hy : x ≠ y := by intro h; rw [h] at g3; simp at g3
        have hxy : x < y := lt_of_le_of_ne (hge y (by simp)) hy
        intro z hz
        rcases List.mem_cons.mp hz with rfl | hz
        · exact hxy
        · exact lt_of_lt_of_le hxy ((List.pairwise_cons.mp hs2.2.1).1 z hz)
    have hlen' : os'.length = rest.length := by
      have h1 := congrArg List.length g1
      have h2 := congrArg List.length g2
      simp only [List.length_append, List.length_replicate] at h1 h2
      omega
    have hpar' : P ≠ none → par' = (os'.length % 2 == 1) := by
      intro hne
      rw [g4, hpar hne, g1, List.length_append]
      rcases Nat.mod_two_eq_zero_or_one pre.length with h1 | h1 <;>
        rcases Nat.mod_two_eq_zero_or_one os'.length with h2 | h2 <;>
        simp [Nat.add_mod, h1, h2]
    have hsq := strP_sq hP hPl htx
    have hzr : ∀ q ∈ rest.zip os', x < q.1 := fun q hq => hrest q.1 (List.of_mem_zip hq).1
    have hzl : (rest.zip os').length = os'.length := by rw [List.length_zip, hlen', min_self]
    have hopE : ∀ C, EqD tx.d (mulD tx.d op.v C) (prodD tx.d pre C) := by
      intro C
      rw [g8 C]
      exact one_mulD _ _
    have hright := stringAt_right hsq (rest.zip os') hzr
    rw [hzl] at hright
    have hwE : EqD tx.d w.v (stringAt tx.d x (strP P x) ((x :: xs).zip (o0 :: os0))) := by
      rw [hzip, stringAt_group]
      refine EqD.trans ?_ (prodD_congr hright.symm)
      split at hw
      · rename_i p
        split at hw
        · cases hw
        rename_i Px hPx
        have hodd : os'.length % 2 = 1 := by
          have := hpar' (by simp)
          simpa using this.symm
        have e : strP (some p) x = Px.v := by simp [strP, List.getD, hPx]
        unfold Mat.dotR at hw
        split_ifs at hw
        simp only [Except.ok.injEq] at hw
        subst hw
        rw [if_pos hodd, e]
        have : (fun i j => ∑ k ∈ range op.c, op.v i k * Px.v k j) = mulD tx.d op.v Px.v := by
          funext i j; rw [g7]; rfl
        simp only
        rw [this]
        exact hopE _
      · rename_i hne
        simp only [Except.ok.injEq] at hw
        subst hw
        have : EqD tx.d (delta ℂ) (if os'.length % 2 = 1 then strP P x else delta ℂ) := by
          split_ifs with h3
          · cases P with
            | none => exact EqD.rfl'
            | some p =>
              have := hpar' (by simp)
              rw [h3] at this
              exact absurd this (by intro h4; exact hne p rfl (by simpa using h4))
          · exact EqD.rfl'
        refine EqD.trans (mulD_one tx.d op.v).symm ((hopE _).trans (prodD_congr this))
    have hL1 := isL_snoc hL h1
    rw [← take_succ_some htx] at hL1
    have hm1 : L1.m = 1 := (addLayerR_dims h1).2.2.1
    split at h
    · -- last group
      simp only [Except.ok.injEq] at h
      subst h
      have hl : last = x := by
        rw [g2] at hlast
        have : last ∈ List.replicate pre.length x := by
          simp only [List.append_nil] at hlast
          exact List.mem_of_getLast? hlast
        exact (List.mem_replicate.mp this).2
      subst hl
      refine ⟨le_rfl, [w], by simp, hm1, by simpa using hL1, ?_⟩
      intro k hk
      obtain rfl : k = 0 := by omega
      exact ⟨w, tx, rfl, htx, hwE⟩
    · rename_i y ys
      split at h
      · cases h
      rename_i L2 h2
      have hxy : x < y := hrest y (by simp)
      obtain ⟨vs, v1, v2, v3, v4⟩ := measBetween_spec (y - (x + 1)) (x + 1) L1 L2 _ hL1 hm1 h2
      rw [show x + 1 + (y - (x + 1)) = y by omega] at v3
      have hlast' : (y :: ys).getLast? = some last := by
        rw [g2] at hlast
        rwa [List.getLast?_append_of_ne_nil _ (by simp)] at hlast
      have hsort' : (y :: ys).Pairwise (· ≤ ·) := by
        rw [g2] at hsort
        exact (List.pairwise_append.mp hsort).2.1
      have hf' : (y :: ys).length ≤ fuel := by
        have h2 := congrArg List.length g2
        simp only [List.length_append, List.length_replicate] at h2
        have : pre.length ≠ 0 := by simpa using hpre
        omega
      obtain ⟨r1, us, r2, r3, r4, r5⟩ := ih n y ys os' par' L2 L' _ last hf' hsort' hlast' hlen' hpar'
        (fun q hq t ht => hdim q (by rw [hzip]; exact List.mem_append_right _ hq) t ht) v3 v2 h
      refine ⟨by omega, w :: (vs ++ us), by simp [v1, r2]; omega, r3, by simpa using r4, ?_⟩
      intro k hk
      have hgl : ∀ q ∈ (List.replicate pre.length x).zip pre, q.1 < x + 1 := by
        intro q hq
        have := (List.mem_replicate.mp (List.of_mem_zip hq).1).2
        omega
      cases k with
      | zero => exact ⟨w, tx, rfl, htx, hwE⟩
      | succ k =>
        have hgl' : ∀ q ∈ (List.replicate pre.length x).zip pre, q.1 < x + (k + 1) := by
          intro q hq; have := hgl q hq; omega
        by_cases hk2 : k < y - (x + 1)
        · obtain ⟨o, t, q1, q2, q3⟩ := v4 k hk2
          rw [show x + 1 + k = x + (k + 1) by omega] at q2 q3
          refine ⟨o, t, ?_, q2, q3.trans ?_⟩
          · rw [List.getElem?_cons_succ, List.getElem?_append_left (by omega)]; exact q1
          · rw [hzip, stringAt_left _ _ _ _ _ hgl']
            have hr := stringAt_right (k := x + (k + 1)) (strP_sq hP hPl q2) ((y :: ys).zip os') (fun q hq => by
              have hq1 := (List.of_mem_zip hq).1
              have : y ≤ q.1 := by
                rcases List.mem_cons.mp hq1 with h | h
                · omega
                · exact (List.pairwise_cons.mp hsort').1 _ h
              omega)
            rw [hzl] at hr
            refine EqD.trans ?_ hr.symm
            cases P with
            | none => simp [strP, EqD]
            | some p =>
              rw [hpar' (by simp)]
              rcases Nat.mod_two_eq_zero_or_one os'.length with h3 | h3 <;> simp [h3, EqD]
        · obtain ⟨o, t, q1, q2, q3⟩ := r5 (k - (y - (x + 1))) (by omega)
          rw [show y + (k - (y - (x + 1))) = x + (k + 1) by omega] at q2 q3
          refine ⟨o, t, ?_, q2, ?_⟩
          · rw [List.getElem?_cons_succ, List.getElem?_append_right (by omega), v1]; exact q1
          · rw [hzip, stringAt_left _ _ _ _ _ hgl']; exact q3

theorem measFinal_trace {L : Env ℂ} {M : Mat ℂ} {D : ℕ} {c : ℂ} (h : measFinal L M D = .ok c) :
    M.c = D ∧ ∃ L2, addLayerR L (matT M) (eyeK ℂ 1).mpo (matT M) = .ok L2 ∧ L2.u = M.c ∧ L2.trace = c := by
  unfold measFinal at h
  split_ifs at h with hs
  simp only [Except.ok.injEq] at h
  refine ⟨hs.2.2.1, ?_⟩
  unfold addLayerR
  rw [if_pos ⟨hs.1, hs.2.2.2, rfl, hs.2.1, rfl⟩]
  refine ⟨_, rfl, rfl, ?_⟩
  subst h
  simp only [Env.trace, min_self, matT, eyeK, Mat.mpo, sum_range_one, delta_self, mul_one]
  rw [hs.1, hs.2.1, hs.2.2.2]
  simp only [sum_range_one]
  rw [sum_comm]
  refine sum_congr rfl fun a _ => ?_
  rw [sum_comm]
  refine sum_congr rfl fun b _ => ?_
  refine sum_congr rfl fun e he => ?_
  simp only [delta_self, mul_one]
  rw [sum_delta_right' (mem_range.mp he)]

theorem chain_matT {l : ℕ} {A B : List (Ten ℂ)} {M : Mat ℂ} (hA : Linked l A M.r) (sA sB : List ℕ)
    (hs : sA.length = A.length) (x : ℕ) {i : ℕ} (hi : i < l) (j : ℕ) :
    chain (A ++ matT M :: B) (sA ++ x :: sB) i j = split A M B sA sB i j := by
  rw [chain_append hA sA _ hs hi]
  unfold split
  refine sum_congr rfl fun k _ => ?_
  simp only [chain, matT, mul_sum]
  refine sum_congr rfl fun k' _ => ?_
  ring

theorem expect_mat {m : MPS} (hw : m.WF 1 1) {oA oB : List (Mat ℂ)} (hA : oA.length = m.pos) :
    m.expect (oA ++ oB) = m.Z * star m.Z *
      sandwich (m.tensors.take m.pos ++ matT m.mat :: m.tensors.drop m.pos) (oA ++ eyeK ℂ 1 :: oB)
        (m.tensors.take m.pos ++ matT m.mat :: m.tensors.drop m.pos) := by
  have hlen : (m.tensors.take m.pos).length = m.pos := by
    have := hw.pos_le; rw [List.length_take, hw.len]; omega
  unfold MPS.expect sandwich
  rw [ds_split, List.map_append, List.map_cons, ← sumCfg_mul, sumCfg_append, sumCfg_append]
  have hd1 : (matT m.mat).d = 1 := rfl
  rw [hd1]
  apply sumCfg_congr; intro sA hsA
  have lA : sA.length = m.pos := by have := hsA.length_eq; rw [List.length_map, hlen] at this; omega
  simp only [sumCfg, sum_range_one]
  apply sumCfg_congr; intro sB hsB
  rw [sumCfg_append, sumCfg_append, ← sumCfg_mul]
  apply sumCfg_congr; intro tA htA
  have lA' : tA.length = m.pos := by have := htA.length_eq; rw [List.length_map, hlen] at this; omega
  simp only [sumCfg, sum_range_one]
  rw [← sumCfg_mul]
  apply sumCfg_congr; intro tB htB
  rw [opEl_append (by omega) (by omega), opEl_append (by omega) (by omega)]
  simp only [opEl, eyeK, delta_self, one_mul]
  rw [chain_matT hw.left sA sB (by omega) 0 (by norm_num), chain_matT hw.left tA tB (by omega) 0 (by norm_num)]
  have e : ∀ a b : List ℕ, a.length = m.pos → m.amp (a ++ b) 0 0 =
      m.Z * split (m.tensors.take m.pos) m.mat (m.tensors.drop m.pos) a b 0 0 := by
    intro a b ha
    unfold MPS.amp split
    rw [List.take_left' ha, List.drop_left' ha]
  rw [e _ _ lA, e _ _ lA', star_mul']
  ring

theorem opEl_congr {ds : List ℕ} {o o' : List (Mat ℂ)} (h1 : o.length = ds.length) (h2 : o'.length = ds.length)
    (h : ∀ (k : ℕ) (a b : Mat ℂ) (d : ℕ), o[k]? = some a → o'[k]? = some b → ds[k]? = some d → EqD d a.v b.v)
    {s t : List ℕ} (hs : List.Forall₂ (fun d x => x < d) ds s) (ht : List.Forall₂ (fun d x => x < d) ds t) :
    opEl o s t = opEl o' s t := by
  induction ds generalizing o o' s t with
  | nil =>
    obtain rfl : o = [] := by simpa using h1
    obtain rfl : o' = [] := by simpa using h2
    rfl
  | cons d ds ih =>
    cases o with
    | nil => simp at h1
    | cons a o =>
      cases o' with
      | nil => simp at h2
      | cons b o' =>
        cases hs with
        | cons hx hs =>
          cases ht with
          | cons hy ht =>
            simp only [opEl]
            rw [h 0 a b d rfl rfl rfl _ hx _ hy, ih (by simpa using h1) (by simpa using h2)
              (fun k a b d ha hb hd => h (k + 1) a b d ha hb hd) hs ht]

theorem expect_ops_congr {m : MPS} {o o' : List (Mat ℂ)} (h1 : o.length = m.ds.length) (h2 : o'.length = m.ds.length)
    (h : ∀ (k : ℕ) (a b : Mat ℂ) (d : ℕ), o[k]? = some a → o'[k]? = some b → m.ds[k]? = some d → EqD d a.v b.v) :
    m.expect o = m.expect o' := by
  unfold MPS.expect
  apply sumCfg_congr; intro s hs
  apply sumCfg_congr; intro t ht
  rw [opEl_congr h1 h2 h hs ht]

theorem strOK_ds {ts ts' : List (Ten ℂ)} {P : Option (List (Mat ℂ))} (h : StrOK ts P) (hd : ts'.map Ten.d = ts.map Ten.d) :
    StrOK ts' P := by
  intro p hp k Pk t hPk ht
  have h2 : (ts.map Ten.d)[k]? = some t.d := by rw [← hd, List.getElem?_map, ht]; rfl
  rw [List.getElem?_map] at h2
  cases h3 : ts[k]? with
  | none => rw [h3] at h2; simp at h2
  | some t' =>
    rw [h3] at h2
    simp only [Option.map_some, Option.some.injEq] at h2
    rw [← h2]
    exact h p hp k Pk t' hPk h3

/-- **C61.** On a canonical open chain `measure(ops,sites,P)` returns the expectation value of the operator
string, where on every site the operators and the Jordan-Wigner strings are multiplied in the order of the
list.  Proved without strings, for an even number of operators, and for strings starting on site `0`; what is
missing is an odd number of operators with strings starting further right (see `C61_measure_violated`). -/
theorem C61_measure_partial {O : LinAlg} (hO : O.Spec) {m m1 : MPS} {ops : List (Mat ℂ)} {sites : List ℕ}
    {P : Option (List (Mat ℂ))} {c : ℂ} (hw : m.WF 1 1) (hs : m.sth < 1e-15) (hc : m.Canonical)
    (hP : StrOK m.tensors P) (hlen : ops.length = sites.length)
    (hcase : P = none ∨ ops.length % 2 = 0 ∨ sites.head? = some 0)
    (hdim : ∀ q ∈ sites.zip ops, m.ds[q.1]? = some q.2.r ∧ q.2.c = q.2.r)
    (h : m.measure O ops sites P = .ok (c, m1)) :
    c = m.expect (stringOps m.ds P (sites.zip ops)) ∧ m1.WF 1 1 ∧ m1.Canonical ∧ m1.ds = m.ds ∧
      (∀ s, Cfg m.tensors s → m1.amp s 0 0 = m.amp s 0 0) ∧
      (∃ last, sites.getLast? = some last ∧ m1.pos = last + 1) ∧ sites.Pairwise (· ≤ ·) ∧ m1.mat.r = m1.mat.c := by
  unfold MPS.measure at h
  split_ifs at h with hp1 hsort
  rw [not_not] at hp1
  split at h
  swap
  · cases h
  rename_i x xs last hl0
  split at h
  · cases h
  rename_i n1 e1
  simp only at h
  split at h
  · cases h
  rename_i L hL
  split at h
  · cases h
  rename_i L' hL'
  split at h
  · cases h
  rename_i t ht
  have ht := itemA_ok ht
  split at h
  · cases h
  rename_i v hv
  simp only [Except.ok.injEq, Prod.mk.injEq] at h
  obtain ⟨rfl, rfl⟩ := h
  obtain ⟨-, hbN, M⟩ := position_moved hO (effSth_default hs) hw e1
  have c1 := canonical_position hO hw hs hc e1
  have hpos : n1.pos = last + 1 := by rw [M.pos]; omega
  have hdsT : n1.tensors.map Ten.d = m.tensors.map Ten.d := M.ds
  have hP1 := strOK_ds hP hdsT
  have hlenT : n1.tensors.length = m.tensors.length := by
    have := congrArg List.length hdsT; simpa using this
  have hPl : ∀ p, P = some p → p.length = n1.tensors.length := by
    intro p hp; rw [hp] at hp1; rw [hlenT]; simpa using hp1
  have hxl : x ≤ last := by
    rcases List.mem_cons.mp (List.mem_of_getLast? hl0) with h | h
    · omega
    · exact (List.pairwise_cons.mp hsort).1 last h
  have hlastN : last < n1.N := by rw [M.N]; omega
  -- the start block
  have hx0 : ∃ t0, n1.tensors[x]? = some t0 := by
    have : x < n1.tensors.length := by rw [M.wf.len]; omega
    exact ⟨_, List.getElem?_eq_getElem this⟩
  obtain ⟨t0, ht0⟩ := hx0
  have hLx : ∀ D, Linked 1 (n1.tensors.take x) D → D = t0.l := by
    intro D hD
    have hL := M.wf.left
    rw [hpos] at hL
    have e : n1.tensors.take (last + 1) = n1.tensors.take x ++ t0 :: (n1.tensors.drop (x + 1)).take (last - x) := by
      obtain ⟨hx, hxe⟩ := List.getElem?_eq_some_iff.mp ht0
      have h1 : n1.tensors.take (last + 1) = (n1.tensors.take x) ++ (n1.tensors.drop x).take (last + 1 - x) := by
        rw [← List.take_add]; congr 1; omega
      rw [h1, List.drop_eq_getElem_cons hx, hxe, show last + 1 - x = (last - x) + 1 by omega, List.take_succ_cons]
    rw [e, linked_append] at hL
    obtain ⟨D', h1, h2⟩ := hL
    have := linked_rdim h1
    rw [← linked_rdim hD, this, h2.1]
  have hlo : ∀ y ≤ last + 1, ∀ t ∈ n1.tensors.take y, LeftOrth t := by
    intro y hy t ht
    exact c1.left' t (List.take_subset_take_left _ (by omega) ht)
  have hlink : Linked 1 (n1.tensors.take x) t0.l := by
    have hL := M.wf.left
    rw [hpos] at hL
    have h1 : n1.tensors.take (last + 1) = (n1.tensors.take x) ++ (n1.tensors.drop x).take (last + 1 - x) := by
      rw [← List.take_add]; congr 1; omega
    rw [h1, linked_append] at hL
    obtain ⟨D, h2, -⟩ := hL
    rw [← hLx D h2]; exact h2
  have hstart : IsL oneEnv (n1.tensors.take x) ((n1.tensors.take x).map fun t => idMpo ℂ 1 t.d) (n1.tensors.take x) L ∧
      L.m = 1 := by
    have base := isL_one_of_eye (isL_leftOrth hlink (hlo x (by omega)))
    unfold measStart at hL
    split_ifs at hL with k1
    · split at hL
      · cases hL
      rename_i t1 ht1
      have ht1 := itemA_ok ht1
      rw [ht0] at ht1
      obtain rfl := Option.some.inj ht1
      simp only [Except.ok.injEq] at hL
      subst hL
      exact ⟨base, rfl⟩
    · split at hL
      · cases hL
      rename_i t1 ht1
      have ht1 := itemA_ok ht1
      simp only [Except.ok.injEq] at hL
      subst hL
      have hx0 : x = 0 := by
        rcases hcase with h | h | h
        · exact absurd (Or.inr h) k1
        · exact absurd (Or.inl (by simp [h])) k1
        · simpa using h
      subst hx0
      rw [ht0] at ht1
      obtain rfl := Option.some.inj ht1
      exact ⟨base, rfl⟩
    · split at hL <;> cases hL
  have hzd : ∀ q ∈ (x :: xs).zip ops, ∀ t, n1.tensors[q.1]? = some t → q.2.r = t.d ∧ q.2.c = t.d := by
    intro q hq t ht
    have h1 := hdim q hq
    have h2 : m.ds[q.1]? = some t.d := by rw [← M.ds, MPS.ds, List.getElem?_map, ht]; rfl
    rw [h1.1] at h2
    have := Option.some.inj h2
    exact ⟨this, h1.2.trans this⟩
  obtain ⟨-, us, u1, u2, u3, u4⟩ := measLoop_spec (E := oneEnv) hP1 hPl _ 0 x xs ops _ L L' _ last le_rfl hsort hl0 hlen
    (fun _ => rfl) hzd hstart.1 hstart.2 hL'
  obtain ⟨hD, L2, a1, a2, a3⟩ := measFinal_trace hv
  have hL2 := isL_snoc u3 a1
  rw [ids_mpo, ← List.map_append] at hL2
  have hL2' : IsL oneEnv (n1.tensors.take (last + 1) ++ [matT n1.mat])
      (((((n1.tensors.take x).map Ten.d).map (eyeK ℂ) ++ us) ++ [eyeK ℂ 1]).map Mat.mpo)
      (n1.tensors.take (last + 1) ++ [matT n1.mat]) L2 := by
    rw [List.map_append]; exact hL2
  have htr := trace_right hL2' (by rw [a2]; exact M.wf.right) rfl c1.right'
  rw [a3] at htr
  set pre : List (Mat ℂ) := ((n1.tensors.take x).map Ten.d).map (eyeK ℂ) ++ us with hpre
  have hprel : pre.length = n1.pos := by
    have : x ≤ n1.tensors.length := by rw [M.wf.len]; omega
    simp only [hpre, List.length_append, List.length_map, List.length_take, u1]; omega
  have hmr : n1.mat.r = n1.mat.c := by
    have hL := M.wf.left
    rw [hpos, take_succ_some ht, linked_append] at hL
    obtain ⟨_, _, h3⟩ := hL
    have h4 : t.r = n1.mat.r := h3.2
    rw [hD, h4]
  refine ⟨?_, M.wf, c1, M.ds, fun s hs => M.amp s hs 0 (by norm_num) 0, ⟨last, hl0, hpos⟩, hsort, hmr⟩
  have e1 : n1.tensors.take (last + 1) ++ [matT n1.mat] ++ n1.tensors.drop n1.pos =
      n1.tensors.take n1.pos ++ matT n1.mat :: n1.tensors.drop n1.pos := by rw [hpos]; simp
  have e2 : pre ++ [eyeK ℂ 1] ++ ((n1.tensors.drop n1.pos).map Ten.d).map (eyeK ℂ) =
      pre ++ eyeK ℂ 1 :: ((n1.tensors.drop n1.pos).map Ten.d).map (eyeK ℂ) := by simp
  rw [e1, e2] at htr
  have hex := expect_mat M.wf (oA := pre) (oB := ((n1.tensors.drop n1.pos).map Ten.d).map (eyeK ℂ)) hprel
  rw [← htr] at hex
  rw [mul_assoc, mul_comm, ← hex]
  rw [expect_congr (m := m) (m' := n1) M.ds (fun s hs => M.amp s hs 0 (by norm_num) 0)]
  have hNl : m.ds.length = n1.N := by rw [MPS.ds, List.length_map, hw.len, M.N]
  have hdd : ∀ (k : ℕ) (t : Ten ℂ), n1.tensors[k]? = some t → m.ds[k]? = some t.d := by
    intro k t ht
    rw [← M.ds, MPS.ds, List.getElem?_map, ht]; rfl
  apply expect_ops_congr
  · simp only [List.length_append, hprel, List.length_map, List.length_drop, M.wf.len, hNl]
    have := M.wf.pos_le; omega
  · simp [stringOps]
  · intro k a b d ha hb hd
    have hb' : b.v = stringAt d k (strP P k) ((x :: xs).zip ops) := by
      unfold stringOps at hb
      rw [List.getElem?_mapIdx, hd] at hb
      simp only [Option.map_some, Option.some.injEq] at hb
      rw [← hb]
    rw [hb']
    have hkN : k < n1.tensors.length := by
      have := (List.getElem?_eq_some_iff.mp hd).1; rw [M.wf.len]; omega
    have hkt := List.getElem?_eq_getElem hkN
    have hdk : d = n1.tensors[k].d := by
      have := hdd k _ hkt; rw [hd] at this; exact Option.some.inj this
    have hzl : ((x :: xs).zip ops).length = ops.length := by rw [List.length_zip, hlen, min_self]
    by_cases hk1 : k < n1.pos
    · rw [List.getElem?_append_left (by omega)] at ha
      by_cases hk2 : k < x
      · rw [List.getElem?_append_left (by simp; omega)] at ha
        have : a = eyeK ℂ d := by
          rw [List.getElem?_map, List.getElem?_map, List.getElem?_take_of_lt hk2, hkt] at ha
          simp only [Option.map_some, Option.some.injEq] at ha
          rw [← ha, hdk]
        rw [this]
        have hr := stringAt_right (k := k) (strP_sq hP1 hPl hkt) ((x :: xs).zip ops) (fun q hq => by
          have hq1 := (List.of_mem_zip hq).1
          have : x ≤ q.1 := by
            rcases List.mem_cons.mp hq1 with h | h
            · omega
            · exact (List.pairwise_cons.mp hsort).1 _ h
          omega)
        rw [← hdk, hzl] at hr
        refine EqD.trans ?_ hr.symm
        split_ifs with h3
        · rcases hcase with h | h | h
          · rw [h]; exact EqD.rfl'
          · omega
          · simp only [List.head?_cons, Option.some.injEq] at h; omega
        · exact EqD.rfl'
      · have hlx : (((n1.tensors.take x).map Ten.d).map (eyeK ℂ)).length = x := by
          simp only [List.length_map, List.length_take, M.wf.len]; omega
        rw [List.getElem?_append_right (by omega), hlx] at ha
        obtain ⟨o, t', q1, q2, q3⟩ := u4 (k - x) (by omega)
        rw [show x + (k - x) = k by omega] at q2 q3
        rw [q1] at ha
        rw [hkt] at q2
        obtain rfl := Option.some.inj ha
        obtain rfl := Option.some.inj q2
        rw [hdk]; exact q3
    · rw [List.getElem?_append_right (by omega), hprel, List.getElem?_map, List.getElem?_map, List.getElem?_drop,
        show n1.pos + (k - n1.pos) = k by omega, hkt] at ha
      simp only [Option.map_some, Option.some.injEq] at ha
      rw [← ha, ← hdk]
      have := stringAt_left d k (strP P k) ((x :: xs).zip ops) [] (fun q hq => by
        have hq1 := (List.of_mem_zip hq).1
        have hle : q.1 ≤ last := by
          obtain ⟨ys, hys⟩ := List.getLast?_eq_some_iff.mp hl0
          rw [hys] at hq1 hsort
          rcases List.mem_append.mp hq1 with h | h
          · exact (List.pairwise_append.mp hsort).2.2 _ h last (by simp)
          · simp at h; omega
        omega)
      rw [List.append_nil] at this
      rw [this]
      exact EqD.rfl'

/-! ### Progress -/

theorem measGroup_ok {x d : ℕ} : ∀ (xs : List ℕ) (os : List (Mat ℂ)) (op : Mat ℂ) (par : Bool) (n : ℕ),
    op.r = d → op.c = d → os.length = xs.length → (∀ o ∈ os, o.r = d ∧ o.c = d) →
    ∃ r, measGroup x xs os op par n = .ok r := by
  intro xs
  induction xs with
  | nil => intro os op par n _ _ _ _; exact ⟨_, rfl⟩
  | cons y ys ih =>
    intro os op par n h1 h2 hl hd
    cases os with
    | nil => simp at hl
    | cons o os =>
      simp only [measGroup]
      split_ifs with hy
      · have ho := hd o (by simp)
        unfold Mat.dotR
        rw [if_pos (by rw [h2, ho.1])]
        exact ih os _ _ _ h1 ho.2 (by simpa using hl) (fun o ho => hd o (by simp [ho]))
      · exact ⟨_, rfl⟩

/-- Shape of a block left of site `k`. -/
def FitsAt (ts : List (Ten ℂ)) (k : ℕ) (L : Env ℂ) : Prop := ∀ t, ts[k]? = some t → L.u = t.l ∧ L.w = t.l

theorem fitsAt_succ {l r k : ℕ} {ts : List (Ten ℂ)} (hl : Linked l ts r) {t t' : Ten ℂ} (h : ts[k]? = some t)
    (h' : ts[k + 1]? = some t') : t.r = t'.l := by
  induction ts generalizing l k with
  | nil => simp at h
  | cons a ts ih =>
    cases k with
    | zero =>
      simp only [List.getElem?_cons_zero, Option.some.injEq, zero_add, List.getElem?_cons_succ] at h h'
      subst h
      cases ts with
      | nil => simp at h'
      | cons b ts =>
        simp only [List.getElem?_cons_zero, Option.some.injEq] at h'
        subst h'
        exact hl.2.1.symm
    | succ k => exact ih hl.2 h h'

theorem measBetween_ok {ts : List (Ten ℂ)} {P : Option (List (Mat ℂ))} {par : Bool} {d q : ℕ}
    (hlink : ∀ k t t', k + 1 < q → ts[k]? = some t → ts[k + 1]? = some t' → t.r = t'.l)
    (hd : ∀ t ∈ ts, t.d = d) (hP : ∀ p, P = some p → p.length = ts.length ∧ ∀ o ∈ p, o.r = d ∧ o.c = d) (hq : q ≤ ts.length) :
    ∀ (n a : ℕ) (L : Env ℂ), L.m = 1 → a + n < q → FitsAt ts a L →
      ∃ L', measBetween ts P par (List.range' a n) L = .ok L' ∧ L'.m = 1 ∧ FitsAt ts (a + n) L' := by
  intro n
  induction n with
  | zero => intro a L hm _ hf; exact ⟨L, rfl, hm, hf⟩
  | succ n ih =>
    intro a L hm hn hf
    have ha : a < ts.length := by omega
    obtain ⟨e1, e2⟩ := hf _ (List.getElem?_eq_getElem ha)
    have hdt : ts[a].d = d := hd _ (List.getElem_mem ha)
    have hit : itemA ts a = .ok ts[a] := by simp [itemA, List.getElem?_eq_getElem ha]
    have key : ∃ L1, L1.m = 1 ∧ L1.u = ts[a].r ∧ L1.w = ts[a].r ∧
        measBetween ts P par (List.range' a (n + 1)) L = measBetween ts P par (List.range' (a + 1) n) L1 := by
      simp only [List.range'_succ, measBetween, hit]
      split
      · rename_i p
        obtain ⟨hpl, hpd⟩ := hP p rfl
        have hap : a < p.length := by omega
        have hpa := hpd _ (List.getElem_mem hap)
        obtain ⟨L1, h1⟩ : ∃ L1, addLayerR L ts[a] (p[a].mpo) ts[a] = .ok L1 := by
          unfold addLayerR
          rw [if_pos ⟨e1, hm, hdt.trans hpa.1.symm, e2, hpa.2.trans hdt.symm⟩]
          exact ⟨_, rfl⟩
        have dd := addLayerR_dims h1
        refine ⟨L1, dd.2.2.1, dd.1, dd.2.1, ?_⟩
        rw [List.getElem?_eq_getElem hap]
        simp only [h1]
      · obtain ⟨L1, h1⟩ : ∃ L1, addELayerR L ts[a] ts[a] = .ok L1 := by
          unfold addELayerR
          rw [if_pos ⟨e1, e2, rfl⟩]
          exact ⟨_, rfl⟩
        have dd := addELayerR_dims h1
        refine ⟨L1, dd.2.2.1.trans hm, dd.1, dd.2.1, ?_⟩
        simp only [h1]
    obtain ⟨L1, m1, u1, w1, h1⟩ := key
    rw [h1, show a + (n + 1) = a + 1 + n by omega]
    refine ih (a + 1) L1 m1 (by omega) ?_
    intro t' ht'
    have := hlink a _ _ (by omega) (List.getElem?_eq_getElem ha) ht'
    rw [u1, w1, this]; exact ⟨rfl, rfl⟩

theorem measLoop_ok {ts : List (Ten ℂ)} {P : Option (List (Mat ℂ))} {d q : ℕ}
    (hlink : ∀ k t t', k + 1 < q → ts[k]? = some t → ts[k + 1]? = some t' → t.r = t'.l)
    (hd : ∀ t ∈ ts, t.d = d) (hP : ∀ p, P = some p → p.length = ts.length ∧ ∀ o ∈ p, o.r = d ∧ o.c = d) (hq : q ≤ ts.length) :
    ∀ (fuel s : ℕ) (xs : List ℕ) (os : List (Mat ℂ)) (par : Bool) (L : Env ℂ), xs.length ≤ fuel →
      s + xs.length ≤ ts.length → xs.Pairwise (· ≤ ·) → os.length = xs.length → (∀ o ∈ os, o.r = d ∧ o.c = d) →
      (∀ x ∈ xs, x < q) → L.m = 1 → (∀ x, xs.head? = some x → FitsAt ts x L) →
      ∃ L', measLoop ts P fuel s xs os par L = .ok L' ∧ L'.m = 1 ∧
        ∀ x t, xs.getLast? = some x → ts[x]? = some t → L'.u = t.r ∧ L'.w = t.r := by
  intro fuel
  induction fuel with
  | zero =>
    intro s xs os par L h _ _ _ _ _ hm _
    obtain rfl : xs = [] := by simpa using h
    exact ⟨L, rfl, hm, by simp⟩
  | succ fuel ih =>
    intro s xs os par L hf hs hsort hlen hdim hxq hm hfit
    cases xs with
    | nil => exact ⟨L, rfl, hm, by simp⟩
    | cons x xs =>
      have hs0 : s < ts.length := by simp only [List.length_cons] at hs; omega
      have hx0 : x < ts.length := lt_of_lt_of_le (hxq x (by simp)) hq
      have hit : itemA ts s = .ok ts[s] := by simp [itemA, List.getElem?_eq_getElem hs0]
      have hit' : itemA ts x = .ok ts[x] := by simp [itemA, List.getElem?_eq_getElem hx0]
      have hds : ts[s].d = d := hd _ (List.getElem_mem hs0)
      have hdx : ts[x].d = d := hd _ (List.getElem_mem hx0)
      obtain ⟨⟨op, par', n, rest, os'⟩, hg⟩ := measGroup_ok (x := x) (x :: xs) os (eyeK ℂ ts[s].d) par s hds hds hlen hdim
      obtain ⟨pre, g1, g2, g3, g4, g5, g6, g7, -⟩ := measGroup_spec (d := d) (x :: xs) os (eyeK ℂ ts[s].d) par s hg
        hds hds (fun q hq _ => hdim q.2 (List.of_mem_zip hq).2)
      have hpre : pre ≠ [] := by
        intro h; rw [h] at g2; simp only [List.length_nil, List.replicate_zero, List.nil_append] at g2
        rw [← g2] at g3; simp at g3
      have hpl : pre.length ≠ 0 := by simpa using hpre
      have hcl : (x :: xs).length = pre.length + rest.length := by
        rw [g2]; simp
      obtain ⟨w, hw1, hw2, hstep⟩ : ∃ w : Mat ℂ, w.r = d ∧ w.c = d ∧
          ∀ L1, addLayerR L ts[x] w.mpo ts[x] = .ok L1 →
          measLoop ts P (fuel + 1) s (x :: xs) os par L = (match (generalizing := false) rest with
          | [] => .ok L1
          | y :: _ =>
            match measBetween ts P par' (List.range' (x + 1) (y - (x + 1))) L1 with
            | .error e => .error e
            | .ok L2 => measLoop ts P fuel n rest os' par' L2) := by
        have h0 : (P = none ∨ par' = false) ∨ ∃ p, P = some p ∧ par' = true := by
          cases P <;> cases par' <;> simp
        rcases h0 with h0 | ⟨p, h0, h0'⟩
        · refine ⟨op, g6, g7, fun L1 h1 => ?_⟩
          rcases h0 with rfl | rfl
          · simp only [measLoop, hit, hg, hit', h1]
            rfl
          · cases P <;> simp only [measLoop, hit, hg, hit', h1] <;> rfl
        · subst h0 h0'
          obtain ⟨hpl, hpd⟩ := hP p rfl
          have hap : x < p.length := by omega
          have hpa := hpd _ (List.getElem_mem hap)
          have hdot : op.dotR p[x] = .ok ⟨op.r, p[x].c, fun i j => ∑ k ∈ range op.c, op.v i k * p[x].v k j⟩ := by
            simp only [Mat.dotR]
            rw [if_pos (by rw [g7, hpa.1])]
          refine ⟨⟨op.r, p[x].c, fun i j => ∑ k ∈ range op.c, op.v i k * p[x].v k j⟩, g6, hpa.2, fun L1 h1 => ?_⟩
          simp only [measLoop, hit, hg, hit', List.getElem?_eq_getElem hap, hdot, h1]
          rfl
      obtain ⟨f1, f2⟩ := hfit x rfl _ (List.getElem?_eq_getElem hx0)
      obtain ⟨L1, h1⟩ : ∃ L1, addLayerR L ts[x] w.mpo ts[x] = .ok L1 := by
        unfold addLayerR
        rw [if_pos ⟨f1, hm, hdx.trans hw1.symm, f2, hw2.trans hdx.symm⟩]
        exact ⟨_, rfl⟩
      have dd := addLayerR_dims h1
      rw [hstep L1 h1]
      cases rest with
      | nil =>
        refine ⟨L1, rfl, dd.2.2.1, ?_⟩
        intro z t hz ht
        have : z ∈ List.replicate pre.length x := by
          rw [g2, List.append_nil] at hz
          exact List.mem_of_getLast? hz
        obtain rfl := (List.mem_replicate.mp this).2
        rw [List.getElem?_eq_getElem hx0] at ht
        obtain rfl := Option.some.inj ht
        exact ⟨dd.1, dd.2.1⟩
      | cons y ys =>
        rw [g2] at hsort hxq
        have hxy : x < y := by
          have hle := (List.pairwise_append.mp hsort).2.2 x (by
            rw [List.mem_replicate]; exact ⟨hpl, rfl⟩) y (by simp)
          have : x ≠ y := by intro h; rw [h] at g3; simp at g3
          omega
        have hyq : y < q := hxq y (by simp)
        obtain ⟨L2, b1, b2, b3⟩ := measBetween_ok (par := par') hlink hd hP hq (y - (x + 1)) (x + 1) L1 dd.2.2.1 (by omega) (by
          intro t' ht'
          have := hlink x _ _ (by omega) (List.getElem?_eq_getElem hx0) ht'
          rw [dd.1, dd.2.1, this]; exact ⟨rfl, rfl⟩)
        rw [show x + 1 + (y - (x + 1)) = y by omega] at b3
        simp only [b1]
        have hol : os'.length = (y :: ys).length := by
          have := congrArg List.length g1
          rw [List.length_append] at this
          omega
        obtain ⟨L', c1, c2, c3⟩ := ih n (y :: ys) os' par' L2 (by omega) (by omega)
          (List.pairwise_append.mp hsort).2.1 hol (fun o ho => hdim o (by rw [g1]; exact List.mem_append_right _ ho))
          (fun z hz => hxq z (List.mem_append_right _ hz)) b2 (fun z hz => by
            simp only [List.head?_cons, Option.some.injEq] at hz
            rw [← hz]; exact b3)
        refine ⟨L', c1, c2, fun z t hz ht => c3 z t ?_ ht⟩
        rw [g2, List.getLast?_append_of_ne_nil _ (by simp)] at hz
        exact hz

/-- **C61**, progress: on a non-vanishing chain with uniform local dimension `d` the call succeeds for every
sorted list of at most `N` sites, if the centre matrix at the measuring position is square. -/
theorem C61_measure_succeeds {O : LinAlg} (hO : O.Spec) {m m1 : MPS} {ops : List (Mat ℂ)} {sites : List ℕ}
    {P : Option (List (Mat ℂ))} {d last : ℕ} (hw : m.WF 1 1) (hs : m.sth < 1e-15) (hd : ∀ x ∈ m.ds, x = d)
    (hP : ∀ p, P = some p → p.length = m.N ∧ ∀ o ∈ p, o.r = d ∧ o.c = d)
    (hlen : ops.length = sites.length) (hops : ∀ o ∈ ops, o.r = d ∧ o.c = d)
    (hcase : P = none ∨ ops.length % 2 = 0 ∨ sites.head? = some 0)
    (hsort : sites.Pairwise (· ≤ ·)) (hN : sites.length ≤ m.N) (hl : sites.getLast? = some last)
    (h1 : m.position O ((last : ℤ) + 1) = .ok m1) (hsq : m1.mat.r = m1.mat.c) :
    ∃ c, m.measure O ops sites P = .ok (c, m1) := by
  obtain ⟨-, hbN, M⟩ := position_moved hO (effSth_default hs) hw h1
  have hpos : m1.pos = last + 1 := by rw [M.pos]; omega
  have hN1 : m1.tensors.length = m.N := by rw [M.wf.len, M.N]
  obtain ⟨x, xs, rfl⟩ : ∃ x xs, sites = x :: xs := by
    cases sites with
    | nil => simp at hl
    | cons x xs => exact ⟨x, xs, rfl⟩
  have hle : ∀ z ∈ x :: xs, z ≤ last := by
    intro z hz
    obtain ⟨ys, hys⟩ := List.getLast?_eq_some_iff.mp hl
    rw [hys] at hz hsort
    rcases List.mem_append.mp hz with h | h
    · exact (List.pairwise_append.mp hsort).2.2 _ h last (by simp)
    · simp at h; omega
  have hx := hle x (by simp)
  have hxl : x < m1.tensors.length := by omega
  have hitx : itemA m1.tensors x = .ok m1.tensors[x] := by simp [itemA, List.getElem?_eq_getElem hxl]
  have hll : last < m1.tensors.length := by omega
  have hitl : itemA m1.tensors last = .ok m1.tensors[last] := by simp [itemA, List.getElem?_eq_getElem hll]
  have hL := M.wf.left
  have hstart : measStart m1.tensors P (ops.length % 2 == 1) x = .ok (eyeEnv m1.tensors[x].l) := by
    unfold measStart
    split_ifs with k1 k2
    · simp only [hitx]
    · have hx0 : x = 0 := by
        rcases hcase with h | h | h
        · exact absurd (Or.inr h) k1
        · exact absurd (Or.inl (by simp [h])) k1
        · simpa using h
      subst hx0
      simp only [hitx]
    · exfalso
      rcases hcase with h | h | h
      · exact absurd (Or.inr h) k1
      · exact absurd (Or.inl (by simp [h])) k1
      · simp only [List.head?_cons, Option.some.injEq] at h; omega
  have hdt : ∀ t ∈ m1.tensors, t.d = d := by
    intro t ht
    apply hd
    rw [← M.ds]
    exact List.mem_map_of_mem ht
  have hlink : ∀ k t t', k + 1 < last + 1 → m1.tensors[k]? = some t → m1.tensors[k + 1]? = some t' → t.r = t'.l := by
    intro k t t' hk ht ht'
    rw [hpos] at hL
    refine fitsAt_succ hL (k := k) ?_ ?_
    · rw [List.getElem?_take_of_lt (by omega)]; exact ht
    · rw [List.getElem?_take_of_lt (by omega)]; exact ht'
  obtain ⟨L', l1, l2, l3⟩ := measLoop_ok hlink hdt (fun p hp => by rw [hN1]; exact hP p hp) (by omega)
    (x :: xs).length 0 (x :: xs) ops (ops.length % 2 == 1) (eyeEnv m1.tensors[x].l) le_rfl (by omega) hsort hlen hops
    (fun z hz => by have := hle z hz; omega) rfl (fun z hz => by
      simp only [List.head?_cons, Option.some.injEq] at hz
      subst hz
      intro t ht
      rw [List.getElem?_eq_getElem hxl] at ht
      obtain rfl := Option.some.inj ht
      exact ⟨rfl, rfl⟩)
  obtain ⟨u1, w1⟩ := l3 last _ hl (List.getElem?_eq_getElem hll)
  have htr : m1.tensors[last].r = m1.mat.r := by
    rw [hpos, take_succ_some (List.getElem?_eq_getElem hll), linked_append] at hL
    obtain ⟨_, _, h3⟩ := hL
    exact h3.2
  obtain ⟨c, hc⟩ : ∃ c, measFinal L' m1.mat m1.tensors[last].r = .ok c := by
    unfold measFinal
    rw [if_pos ⟨u1.trans htr, w1.trans htr, by rw [htr, hsq], l2⟩]
    exact ⟨_, rfl⟩
  refine ⟨c * m1.Z * star m1.Z, ?_⟩
  unfold MPS.measure
  rw [if_neg ?_, if_neg (by rw [not_not]; exact hsort), hl]
  · simp only [h1, hstart, l1, hitl, hc]
  · rw [not_not]
    cases P with
    | none => rfl
    | some p => simp only [Option.map_some, Option.getD_some]; rw [(hP p rfl).1, hw.len]

/-- **C61**: unsorted sites are rejected (`sys.exit`). -/
theorem C61_measure_unsorted {O : LinAlg} {m : MPS} {ops : List (Mat ℂ)} {sites : List ℕ} {P : Option (List (Mat ℂ))}
    (hP : ∀ p, P = some p → p.length = m.tensors.length) (h : ¬ sites.Pairwise (· ≤ ·)) :
    m.measure O ops sites P = .error .exit := by
  unfold MPS.measure
  rw [if_neg ?_, if_pos h]
  rw [not_not]
  cases P with
  | none => rfl
  | some p => exact hP p rfl

/-! ### Violations -/

/-- the two-site product state `|1>|0>` at the right end. -/
def pairMps : MPS :=
  { N := 2, Dmax := 1, obc := true, sth := 1e-16, rth := 1e-14
    tensors := [⟨1, 1, 2, fun _ _ s => delta ℂ s 1⟩, ⟨1, 1, 2, fun _ _ s => delta ℂ s 0⟩]
    mat := ⟨1, 1, fun _ _ => 1⟩, conn := ⟨1, 1, fun _ _ => 1⟩, pos := 2, Z := 1 }

/-- string operator `diag(1,-1)`. -/
def pauliZ : Mat ℂ := ⟨2, 2, fun s t => if s = t then (if s = 0 then 1 else -1) else 0⟩

/-- projector on the state `0`. -/
def proj0 : Mat ℂ := ⟨2, 2, fun s t => if s = 0 ∧ t = 0 then 1 else 0⟩

theorem pairMps_wf : pairMps.WF 1 1 := by
  refine ⟨rfl, le_rfl, ?_, ?_⟩ <;> simp [pairMps, Linked]

theorem pairMps_canonical : pairMps.Canonical := by
  refine ⟨?_, ?_, ?_⟩
  · intro x t hx hxp
    have hx2 : x < 2 := hxp
    interval_cases x <;> simp [pairMps] at hx <;> subst hx <;>
      · intro k hk k' hk'
        simp only at hk hk'
        obtain rfl : k = 0 := by omega
        obtain rfl : k' = 0 := by omega
        simp [delta]
  · intro x t hx hxp
    have h2 : 2 ≤ x := hxp
    have := (List.getElem?_eq_some_iff.mp hx).1
    simp [pairMps] at this
    omega
  · simp [normF, pairMps]

/-- **C61 is violated**: for an odd number of operators the string on the sites left of the first operator is
lost.  On `|1>|0>` the operator `P_0 ⊗ |0><0|` has expectation value `-1`, the call returns `1`. -/
theorem C61_measure_violated (O : LinAlg) :
    pairMps.measure O [proj0] [1] (some [pauliZ, pauliZ]) = .ok (1, pairMps) ∧
      pairMps.expect (stringOps pairMps.ds (some [pauliZ, pauliZ]) [(1, proj0)]) = -1 := by
  have hp : pairMps.position O 2 = .ok pairMps := by
    have : ((2 : ℤ)).toNat = 2 := rfl
    simp [MPS.position, pairMps, this]
  constructor
  · unfold MPS.measure
    have h2 : ((1 : ℕ) : ℤ) + 1 = 2 := by norm_num
    simp only [List.getLast?_singleton, h2, hp]
    simp [pairMps, measStart, itemA, measLoop, measGroup, Mat.dotR, eyeK, proj0, addLayerR, eyeEnv, Mat.mpo, measFinal,
      sum_range_succ, delta]
  · simp [MPS.expect, MPS.ds, pairMps, stringOps, stringAt, strP, mulD, sumCfg, opEl, MPS.amp, chain, sum_range_succ,
      delta, pauliZ, proj0]

/-- **C61 is violated**: an odd number of operators with strings that starts at site `2` or later always fails. -/
theorem C61_measure_violated_odd {O : LinAlg} {m m1 : MPS} {ops : List (Mat ℂ)} {x last : ℕ} {xs : List ℕ}
    {p : List (Mat ℂ)} (hpl : p.length = m.tensors.length) (hsort : (x :: xs).Pairwise (· ≤ ·)) (hx : 2 ≤ x)
    (hodd : ops.length % 2 = 1) (hl : (x :: xs).getLast? = some last) (h1 : m.position O ((last : ℤ) + 1) = .ok m1)
    (hne : m1.tensors ≠ []) : m.measure O ops (x :: xs) (some p) = .error .index := by
  unfold MPS.measure
  rw [if_neg (by simp [hpl]), if_neg (by rw [not_not]; exact hsort), hl]
  simp only [h1]
  have : measStart m1.tensors (some p) (ops.length % 2 == 1) x = .error .index := by
    unfold measStart
    rw [if_neg (by simp [hodd])]
    cases hm : m1.tensors with
    | nil => exact absurd hm hne
    | cons t ts =>
      simp only [itemA, List.getElem?_cons_zero]
      rw [if_neg (by omega)]
  rw [this]

/-- **C61 is violated**: two operators on site `0` and one on site `1` of a two-site chain make the call fail,
because the local dimension is read from `self[s]` with the *operator* index `s` (here `2`). -/
theorem C61_measure_violated_repeat (O : LinAlg) :
    pairMps.measure O [proj0, proj0, proj0] [0, 0, 1] none = .error .assertion := by
  have hp : pairMps.position O 2 = .ok pairMps := by
    have : ((2 : ℤ)).toNat = 2 := rfl
    simp [MPS.position, pairMps, this]
  unfold MPS.measure
  have h2 : ((1 : ℕ) : ℤ) + 1 = 2 := by norm_num
  have h3 : ([0, 0, 1] : List ℕ).getLast? = some 1 := rfl
  simp only [h3, h2, hp]
  simp [pairMps, measStart, itemA, measLoop, measGroup, Mat.dotR, eyeK, proj0, addLayerR, eyeEnv, Mat.mpo, measBetween]

/-- C61 applies: the hypotheses of the theorem are met by a string operator pair on `|1>|0>`. -/
example : ∃ O : LinAlg, O.Spec ∧ ∃ c m1, pairMps.measure O [pauliZ, proj0] [0, 1] (some [pauliZ, pauliZ]) = .ok (c, m1) ∧
    c = pairMps.expect (stringOps pairMps.ds (some [pauliZ, pauliZ]) [(0, pauliZ), (1, proj0)]) ∧ c = 1 := by
  obtain ⟨O, hO⟩ := exists_linAlg
  have hp : pairMps.position O ((1 : ℕ) + 1 : ℤ) = .ok pairMps := by
    have : ((2 : ℤ)).toNat = 2 := rfl
    have h2 : ((1 : ℕ) : ℤ) + 1 = 2 := by norm_num
    rw [h2]
    simp [MPS.position, pairMps, this]
  have hs : pairMps.sth < 1e-15 := by norm_num [pairMps]
  obtain ⟨c, hc⟩ := C61_measure_succeeds (P := some [pauliZ, pauliZ]) (ops := [pauliZ, proj0]) (sites := [0, 1]) (d := 2)
    hO pairMps_wf hs (by simp [MPS.ds, pairMps])
    (by intro p hp; obtain rfl := Option.some.inj hp; simp [pairMps, pauliZ]) rfl (by simp [pauliZ, proj0])
    (by simp) (by simp) (by simp [pairMps]) rfl hp rfl
  refine ⟨O, hO, c, pairMps, hc, ?_⟩
  have h := (C61_measure_partial hO pairMps_wf hs pairMps_canonical (by
    intro p hp k Pk t hk ht
    obtain rfl := Option.some.inj hp
    have hk2 : k < 2 := by have := (List.getElem?_eq_some_iff.mp hk).1; simpa using this
    interval_cases k <;> simp [pairMps] at hk ht <;> subst hk ht <;>
    · refine ⟨rfl, rfl, ?_⟩
      intro s hs t ht
      simp only at hs ht
      interval_cases s <;> interval_cases t <;> simp [mulD, pauliZ, delta]) rfl
    (by simp) (by simp [MPS.ds, pairMps, pauliZ, proj0]) hc).1
  refine ⟨h, ?_⟩
  rw [h]
  simp [MPS.expect, MPS.ds, pairMps, stringOps, stringAt, strP, mulD, sumCfg, opEl, MPS.amp, chain, sum_range_succ,
      delta, pauliZ, proj0]

/-! ## C64 -/

theorem eblocks_spec : ∀ (ts1 ts2 : List (Ten ℂ)) (rb : Env ℂ) (Rs : List (Env ℂ)), ts1.length = ts2.length →
    eblocks ts1 ts2 rb = .ok Rs → Rs.length = ts1.length + 1 ∧ ∀ k R, Rs[k]? = some R → R.m = rb.m ∧
      IsR rb (ts1.drop k) ((ts1.drop k).map fun t => idMpo ℂ rb.m t.d) (ts2.drop k) R := by
  intro ts1
  induction ts1 with
  | nil =>
    intro ts2 rb Rs hl h
    obtain rfl : ts2 = [] := by simpa using hl.symm
    simp only [eblocks, Except.ok.injEq] at h
    subst h
    refine ⟨rfl, ?_⟩
    intro k R hk
    cases k with
    | zero =>
      simp only [List.getElem?_cons_zero, Option.some.injEq] at hk
      subst hk
      exact ⟨rfl, isR_nil _⟩
    | succ k => simp at hk
  | cons A As ih =>
    intro ts2 rb Rs hl h
    cases ts2 with
    | nil => simp at hl
    | cons B Bs =>
      simp only [eblocks] at h
      split at h
      · cases h
      · cases h
      rename_i R0 Rs0 h0
      split at h
      · cases h
      rename_i R' h1
      simp only [Except.ok.injEq] at h
      subst h
      obtain ⟨g1, g2⟩ := ih Bs rb _ (by simpa using hl) h0
      refine ⟨by simp only [List.length_cons] at g1 ⊢; omega, ?_⟩
      intro k R hk
      cases k with
      | zero =>
        simp only [List.getElem?_cons_zero, Option.some.injEq] at hk
        subst hk
        obtain ⟨q1, q2⟩ := g2 0 R0 rfl
        obtain ⟨q3, q4⟩ := isR_consE q2 h1
        refine ⟨q3.trans q1, ?_⟩
        rw [q1] at q4
        simpa using q4
      | succ k => simpa using g2 k R (by simpa using hk)

theorem meLoop_spec {lb rb : Env ℂ} : ∀ (ts1 ts2 : List (Ten ℂ)) (ops : List (Mat ℂ)) (Rs : List (Env ℂ))
    (As Bs : List (Ten ℂ)) (L0 : Env ℂ) (l : List ℂ), ts1.length = ts2.length → ts1.length = ops.length →
    Rs.length = ts1.length →
    (∀ k R, Rs[k]? = some R → R.m = rb.m ∧
      IsR rb (ts1.drop (k + 1)) ((ts1.drop (k + 1)).map fun t => idMpo ℂ rb.m t.d) (ts2.drop (k + 1)) R) →
    IsL lb As (As.map fun t => idMpo ℂ 1 t.d) Bs L0 →
    meLoop ts1 ts2 ops Rs L0 = .ok l →
    l.length = ts1.length ∧ ∀ k c op, l[k]? = some c → ops[k]? = some op →
      (∃ t u, ts1[k]? = some t ∧ ts2[k]? = some u ∧ op.r = t.d ∧ op.c = u.d) ∧
      c = fullContr lb (As ++ ts1) ((siteOps ((As ++ ts1).map Ten.d) (As.length + k) op).map Mat.mpo) (Bs ++ ts2) rb := by
  intro ts1
  induction ts1 with
  | nil => intro ts2 ops Rs As Bs L0 l _ _ _ _ _ h; simp [meLoop] at h
  | cons A ts1 ih =>
    intro ts2 ops Rs As Bs L0 l hl1 hl2 hl3 hR hL h
    cases ts2 with
    | nil => simp at hl1
    | cons B ts2 =>
      cases ops with
      | nil => simp at hl2
      | cons o os =>
        cases Rs with
        | nil => simp at hl3
        | cons R Rs =>
          simp only [meLoop] at h
          split at h
          · cases h
          rename_i Lm hLm
          split at h
          · cases h
          rename_i c hc
          have hm0 : L0.m = 1 := by
            have := hLm
            unfold addLayerR at this
            split_ifs at this with hh
            exact hh.2.1
          have hod : A.d = o.r ∧ o.c = B.d := by
            have := hLm
            unfold addLayerR at this
            split_ifs at this with hh
            exact ⟨hh.2.2.1, hh.2.2.2.2⟩
          have hdd := addLayerR_dims hLm
          unfold Env.pairR at hc
          split_ifs at hc with hd
          simp only [Except.ok.injEq] at hc
          obtain ⟨r1, r2⟩ := hR 0 R rfl
          simp only [zero_add, List.drop_succ_cons, List.drop_zero] at r2
          have hrm : rb.m = 1 := by rw [← r1, ← hd.2.2]; exact hdd.2.2.1
          rw [hrm] at r2
          have hc0 : c = fullContr lb (As ++ A :: ts1)
              ((siteOps ((As ++ A :: ts1).map Ten.d) (As.length + 0) o).map Mat.mpo) (Bs ++ B :: ts2) rb := by
            rw [← hc, pair_eq_full (isL_snoc hL hLm) r2 hd.1 hd.2.1 hd.2.2]
            have e2 : (As.map fun t => idMpo ℂ 1 t.d) ++ [o.mpo] ++ (ts1.map fun t => idMpo ℂ 1 t.d)
                = (siteOps ((As ++ A :: ts1).map Ten.d) (As.length + 0) o).map Mat.mpo := by
              rw [ids_mpo, ids_mpo]
              unfold siteOps
              rw [List.map_append, List.map_append]
              have := set_length_append ((As.map Ten.d).map (eyeK ℂ)) (((A :: ts1).map Ten.d).map (eyeK ℂ)) 0 o
              simp only [List.length_map] at this
              rw [this]; simp
            rw [e2]; simp
          split_ifs at h with hts
          · simp only [Except.ok.injEq] at h
            subst h hts
            refine ⟨rfl, ?_⟩
            intro k c' op hk hop
            cases k with
            | succ k => simp at hk
            | zero =>
              simp only [List.getElem?_cons_zero, Option.some.injEq] at hk hop
              subst hk hop
              exact ⟨⟨A, B, rfl, rfl, hod.1.symm, hod.2⟩, hc0⟩
          · split at h
            · cases h
            rename_i L1 hL1
            split at h
            · cases h
            rename_i l' hl'
            simp only [Except.ok.injEq] at h
            subst h
            obtain ⟨g1, g2⟩ := isL_snocE hL hL1
            rw [hm0] at g2
            obtain ⟨q1, q2⟩ := ih ts2 os Rs (As ++ [A]) (Bs ++ [B]) L1 l' (by simpa using hl1) (by simpa using hl2)
              (by simpa using hl3) (fun k R hk => by simpa using hR (k + 1) R (by simpa using hk))
              (by simpa using g2) hl'
            refine ⟨by simp [q1], ?_⟩
            intro k c' op hk hop
            cases k with
            | zero =>
              simp only [List.getElem?_cons_zero, Option.some.injEq] at hk hop
              subst hk hop
              exact ⟨⟨A, B, rfl, rfl, hod.1.symm, hod.2⟩, hc0⟩
            | succ k =>
              obtain ⟨p1, p2⟩ := q2 k c' op (by simpa using hk) (by simpa using hop)
              refine ⟨by simpa using p1, ?_⟩
              rw [p2]
              simp only [List.append_assoc, List.singleton_append, List.length_append, List.length_singleton]
              rw [show As.length + 1 + k = As.length + (k + 1) by omega]

/-- **C64.** `matrixElementLocal(mps1,mps2,ops,lb,rb)`: entry `n` is the full contraction of `mps1`, the operator
`ops[n]` on site `n` and identities elsewhere, and `conj(mps2)`, between the two boundaries. -/
theorem C64_matrixElementLocal {ts1 ts2 : List (Ten ℂ)} {ops : List (Mat ℂ)} {lb rb : Env ℂ} {l : List ℂ}
    (h : matrixElementLocal ts1 ts2 ops lb rb = .ok l) :
    ts1.length = ts2.length ∧ l.length = ts1.length ∧ ∀ n c op, l[n]? = some c → ops[n]? = some op →
      c = fullContr lb ts1 ((siteOps (ts1.map Ten.d) n op).map Mat.mpo) ts2 rb := by
  unfold matrixElementLocal at h
  split_ifs at h with h1 h2 h3
  rw [not_not] at h2 h3
  split at h
  · cases h
  rename_i Rs hRs
  obtain ⟨g1, g2⟩ := eblocks_spec ts1 ts2 rb Rs h2 hRs
  obtain ⟨q1, q2⟩ := meLoop_spec (lb := lb) (rb := rb) ts1 ts2 ops Rs.tail [] [] lb l h2 h3 (by simp [g1])
    (fun k R hk => g2 (k + 1) R (by rw [← hk, List.getElem?_tail])) (isL_nil _) h
  refine ⟨h2, q1, ?_⟩
  intro n c op hc hop
  simpa using (q2 n c op hc hop).2

/-- **C64**: lists of different lengths are rejected. -/
theorem C64_matrixElementLocal_rejects {ts1 ts2 : List (Ten ℂ)} {ops : List (Mat ℂ)} {lb rb : Env ℂ}
    (h1 : ts1 ≠ []) (h2 : ts2 ≠ []) (h : ts1.length ≠ ts2.length ∨ ts1.length ≠ ops.length) :
    matrixElementLocal ts1 ts2 ops lb rb = .error .value := by
  unfold matrixElementLocal
  rw [if_neg (by simp [h1, h2])]
  split_ifs with k1 k2
  · rfl
  · rfl
  · rcases h with h | h <;> contradiction

theorem eblocks_ok : ∀ (ts1 ts2 : List (Ten ℂ)) (rb : Env ℂ) {l1 l2 : ℕ}, ts1.map Ten.d = ts2.map Ten.d →
    Linked l1 ts1 rb.u → Linked l2 ts2 rb.w → ∃ R Rs, eblocks ts1 ts2 rb = .ok (R :: Rs) ∧ R.u = l1 ∧ R.w = l2 ∧ R.m = rb.m := by
  intro ts1
  induction ts1 with
  | nil =>
    intro ts2 rb l1 l2 hd h1 h2
    obtain rfl : ts2 = [] := by simpa using hd.symm
    exact ⟨rb, [], rfl, h1.symm, h2.symm, rfl⟩
  | cons A As ih =>
    intro ts2 rb l1 l2 hd h1 h2
    cases ts2 with
    | nil => simp at hd
    | cons B Bs =>
      simp only [List.map_cons, List.cons.injEq] at hd
      obtain ⟨R, Rs, e1, e2, e3, e4⟩ := ih Bs rb hd.2 h1.2 h2.2
      simp only [eblocks, e1]
      obtain ⟨R', h'⟩ : ∃ R', addELayerL R A B = .ok R' := by
        unfold addELayerL
        rw [if_pos ⟨e2, e3, hd.1⟩]
        exact ⟨_, rfl⟩
      have dd := addELayerL_dims h'
      simp only [h']
      exact ⟨R', _, rfl, dd.1.trans h1.1, dd.2.1.trans h2.1, dd.2.2.1.trans e4⟩

theorem meLoop_ok : ∀ (ts1 ts2 : List (Ten ℂ)) (ops : List (Mat ℂ)) (rb L0 : Env ℂ) (R0 : Env ℂ) (Rs : List (Env ℂ)),
    ts1 ≠ [] → ts1.map Ten.d = ts2.map Ten.d →
    ops.map (fun o => (o.r, o.c)) = ts1.map (fun t => (t.d, t.d)) → Linked L0.u ts1 rb.u → Linked L0.w ts2 rb.w →
    L0.m = 1 → rb.m = 1 → eblocks ts1 ts2 rb = .ok (R0 :: Rs) → ∃ l, meLoop ts1 ts2 ops Rs L0 = .ok l := by
  intro ts1
  induction ts1 with
  | nil => intro ts2 ops rb L0 R0 Rs h; exact absurd rfl h
  | cons A As ih =>
    intro ts2 ops rb L0 R0 Rs _ hd ho h1 h2 hm hrm hR
    cases ts2 with
    | nil => simp at hd
    | cons B Bs =>
      cases ops with
      | nil => simp at ho
      | cons o os =>
        simp only [List.map_cons, List.cons.injEq, Prod.mk.injEq] at hd ho
        obtain ⟨R, Rs', e1, e2, e3, e4⟩ := eblocks_ok As Bs rb hd.2 h1.2 h2.2
        have hR2 := hR
        simp only [eblocks, e1] at hR
        split at hR
        · cases hR
        simp only [Except.ok.injEq, List.cons.injEq] at hR
        obtain ⟨-, rfl⟩ := hR
        obtain ⟨Lm, hLm⟩ : ∃ Lm, addLayerR L0 A o.mpo B = .ok Lm := by
          unfold addLayerR
          rw [if_pos ⟨h1.1.symm, hm, ho.1.1.symm, h2.1.symm, ho.1.2.trans hd.1⟩]
          exact ⟨_, rfl⟩
        have dd := addLayerR_dims hLm
        have hp : Lm.pairR R = .ok (Lm.pair R) := by
          unfold Env.pairR
          rw [if_pos ⟨dd.1.trans e2.symm, dd.2.1.trans e3.symm, by rw [dd.2.2.1, e4, hrm]; rfl⟩]
        obtain ⟨L1, hL1⟩ : ∃ L1, addELayerR L0 A B = .ok L1 := by
          unfold addELayerR
          rw [if_pos ⟨h1.1.symm, h2.1.symm, hd.1⟩]
          exact ⟨_, rfl⟩
        have d1 := addELayerR_dims hL1
        simp only [meLoop, hLm, hp]
        split_ifs with hAs
        · exact ⟨_, rfl⟩
        · obtain ⟨l, hl⟩ := ih Bs os rb L1 R Rs' hAs hd.2 ho.2 (by rw [d1.1]; exact h1.2) (by rw [d1.2.1]; exact h2.2)
            (d1.2.2.1.trans hm) hrm e1
          simp only [hL1, hl]
          exact ⟨_, rfl⟩

/-- **C64**, progress: for two chains with matching local dimensions and boundaries of matching shapes the call
succeeds. -/
theorem C64_matrixElementLocal_succeeds {ts1 ts2 : List (Ten ℂ)} {ops : List (Mat ℂ)} {lb rb : Env ℂ}
    (hne : ts1 ≠ []) (hd : ts1.map Ten.d = ts2.map Ten.d)
    (ho : ops.map (fun o => (o.r, o.c)) = ts1.map (fun t => (t.d, t.d))) (h1 : Linked lb.u ts1 rb.u)
    (h2 : Linked lb.w ts2 rb.w) (hm : lb.m = 1) (hrm : rb.m = 1) :
    ∃ l, matrixElementLocal ts1 ts2 ops lb rb = .ok l := by
  obtain ⟨R, Rs, e1, -⟩ := eblocks_ok ts1 ts2 rb hd h1 h2
  obtain ⟨l, hl⟩ := meLoop_ok ts1 ts2 ops rb lb R Rs hne hd ho h1 h2 hm hrm e1
  have hlen : ts1.length = ts2.length := by simpa using congrArg List.length hd
  have hlen2 : ts1.length = ops.length := by simpa using (congrArg List.length ho).symm
  refine ⟨l, ?_⟩
  unfold matrixElementLocal
  rw [if_neg, if_neg (by simp [hlen]), if_neg (by simp [hlen2]), e1]
  · exact hl
  · rintro (h | h)
    · exact hne h
    · rw [h] at hlen; exact hne (by simpa using hlen)

/-- Spec: matrix element `Σ_{s,s'} ψ1(s) O(s,s') conj ψ2(s')`. -/
def MPS.element (m1 : MPS) (ops : List (Mat ℂ)) (m2 : MPS) : ℂ :=
  sumCfg m1.ds fun s => sumCfg m2.ds fun s' => m1.amp s 0 0 * opEl ops s s' * star (m2.amp s' 0 0)

/-- At position `0` an open chain whose first tensor has left bond one carries a `1×1` centre matrix. -/
theorem amp_zero {m : MPS} (hw : m.WF 1 1) (hp : m.pos = 0) (hc : m.mat.c = 1) :
    Linked 1 m.tensors 1 ∧ ∀ s, s.length = m.tensors.length →
      m.amp s 0 0 = m.Z * (m.mat.v 0 0 * chain m.tensors s 0 0) := by
  obtain ⟨k1, _, _, k4⟩ := amp_end hw (Or.inl ⟨hp, hc⟩)
  refine ⟨k1, fun s hs => ?_⟩
  rw [k4 s hs]; ring

/-- **C64**, on MPS objects: `__measureMatrixElementList__` returns the matrix elements of the two states without
the factor `Z1·conj(Z2)`, and leaves both states alone. -/
theorem C64_matrixElements_partial {O : LinAlg} (hO : O.Spec) {m1 m2 p1 p2 : MPS} {ops : List (Mat ℂ)} {l : List ℂ}
    (w1 : m1.WF 1 1) (w2 : m2.WF 1 1) (s1 : m1.sth < 1e-15) (s2 : m2.sth < 1e-15)
    (h : m1.matrixElements O m2 ops = .ok (some l, p1, p2)) :
    l.length = m1.N ∧ p1.pos = m1.pos ∧ p2.pos = m2.pos ∧
      (∀ s, Cfg m1.tensors s → p1.amp s 0 0 = m1.amp s 0 0) ∧ (∀ s, Cfg m2.tensors s → p2.amp s 0 0 = m2.amp s 0 0) ∧
      ∀ n c op, l[n]? = some c → ops[n]? = some op →
        c * (p1.Z * star p2.Z) = m1.element (siteOps m1.ds n op) m2 := by
  unfold MPS.matrixElements at h
  split_ifs at h with ho
  · cases h
  split at h
  · cases h
  rename_i n1 e1
  split at h
  · cases h
  rename_i n2 e2
  split at h
  · cases h
  rename_i L hL
  split at h
  · cases h
  rename_i q1 e3
  split at h
  · cases h
  rename_i q2 e4
  simp only [Except.ok.injEq, Prod.mk.injEq, Option.some.injEq] at h
  obtain ⟨rfl, rfl, rfl⟩ := h
  obtain ⟨-, B1⟩ := position_back' hO w1 s1 e1 e3
  obtain ⟨-, B2⟩ := position_back' hO w2 s2 e2 e4
  obtain ⟨g1, g2, g3⟩ := C64_matrixElementLocal hL
  refine ⟨by rw [List.length_map, g2, B1.fst.wf.len, B1.fst.N], B1.snd.pos, B2.snd.pos,
    fun s hs => B1.amp s hs 0 (by norm_num) 0, fun s hs => B2.amp s hs 0 (by norm_num) 0, ?_⟩
  have hfirst : ∃ x xs y ys, n1.tensors = x :: xs ∧ n2.tensors = y :: ys ∧ x.l = 1 ∧ y.l = 1 := by
    unfold matrixElementLocal at hL
    split_ifs at hL with h1 h2 h3
    split at hL
    · cases hL
    cases hn1 : n1.tensors with
    | nil => simp [hn1] at h1
    | cons x xs =>
      cases hn2 : n2.tensors with
      | nil => simp [hn2] at h1
      | cons y ys =>
        refine ⟨x, xs, y, ys, rfl, rfl, ?_⟩
        rw [hn1, hn2] at hL
        rename_i Rs _
        cases ops with
        | nil => simp [meLoop] at hL
        | cons o os =>
          cases hRt : Rs.tail with
          | nil => rw [hRt] at hL; simp [meLoop] at hL
          | cons R Rs' =>
            rw [hRt] at hL
            simp only [meLoop] at hL
            split at hL
            · cases hL
            rename_i Lm hLm
            unfold addLayerR at hLm
            split_ifs at hLm with hh
            exact ⟨hh.1.symm, hh.2.2.2.1.symm⟩
  obtain ⟨x, xs, y, ys, hx, hy, x1, y1⟩ := hfirst
  have c1 : n1.mat.c = 1 := by
    have := B1.fst.wf.right
    rw [B1.fst.pos, hx] at this
    exact this.1.symm.trans x1
  have c2 : n2.mat.c = 1 := by
    have := B2.fst.wf.right
    rw [B2.fst.pos, hy] at this
    exact this.1.symm.trans y1
  obtain ⟨-, a1⟩ := amp_zero B1.fst.wf (B1.fst.pos) c1
  obtain ⟨-, a2⟩ := amp_zero B2.fst.wf (B2.fst.pos) c2
  intro n c op hc hop
  rw [List.getElem?_map] at hc
  obtain ⟨c0, hc0, rfl⟩ := Option.map_eq_some_iff.mp hc
  have hv := g3 n c0 op hc0 hop
  rw [sandwich_eq_full] at hv
  rw [hv, B1.Z, B2.Z]
  unfold MPS.element sandwich
  have hd1 : n1.tensors.map Ten.d = m1.ds := B1.fst.ds
  have hd2 : n2.tensors.map Ten.d = m2.ds := B2.fst.ds
  rw [hd1, hd2]
  have : ∀ x y z u v : ℂ, x * y * z * (u * v) = (y * z * (u * v)) * x := by intros; ring
  rw [this, ← sumCfg_mul]
  apply sumCfg_congr; intro s hs
  rw [← sumCfg_mul]
  apply sumCfg_congr; intro s' hs'
  have hs1 : Cfg n1.tensors s := cfg_iff_map.mpr (by rw [hd1]; exact hs)
  have hs2 : Cfg n2.tensors s' := cfg_iff_map.mpr (by rw [hd2]; exact hs')
  rw [← B1.fst.amp s (cfg_of_ds B1.fst.ds.symm hs1) 0 (by norm_num) 0,
    ← B2.fst.amp s' (cfg_of_ds B2.fst.ds.symm hs2) 0 (by norm_num) 0, a1 s hs1.length_eq.symm, a2 s' hs2.length_eq.symm]
  simp only [star_mul']
  ring

/-- **C64 is violated**: the public method returns no values at all. -/
theorem C64_public_returns_nothing {O : LinAlg} {m1 m2 p1 p2 : MPS} {ops : List (Mat ℂ)} {v : Option (List ℂ)}
    (h : m1.matrixElements O m2 ops = .ok (v, p1, p2)) :
    m1.measureMatrixElementList O m2 ops = .ok ((), p1, p2) := by
  unfold MPS.measureMatrixElementList
  rw [h]

/-- `signMps` with `Z = 2`. -/
def zMps : MPS := { signMps 1 with Z := 2 }

/-- **C64 is violated**: the norm `Z` is dropped.  For `2|0>` the matrix element of the identity with itself
is `4`, the method computes `1`. -/
theorem C64_matrixElements_violated (O : LinAlg) :
    zMps.matrixElements O zMps [eyeK ℂ 2] = .ok (some [1], zMps, zMps) ∧
      zMps.element (siteOps zMps.ds 0 (eyeK ℂ 2)) zMps = 4 := by
  have hp : zMps.position O 0 = .ok zMps := by
    simp [MPS.position, zMps, signMps]
  constructor
  · unfold MPS.matrixElements
    have hz : ((zMps).pos : ℤ) = 0 := rfl
    rw [if_neg (by simp [zMps, signMps])]
    simp only [hp, hz]
    simp [zMps, signMps, matrixElementLocal, eblocks, addELayerL, meLoop, addLayerR, oneEnv, Mat.mpo, eyeK, Env.pairR,
      Env.pair, delta]
  · simp [MPS.element, MPS.ds, zMps, signMps, siteOps, sumCfg, opEl, MPS.amp, chain, delta, eyeK]
    norm_num

/-- C64 applies: matrix elements of the entangled tensors of `ghz`. -/
example : ∃ l, matrixElementLocal ghz.tensors ghz.tensors [pauliZ, eyeK ℂ 2, proj0] oneEnv oneEnv = .ok l ∧
    l.length = 3 := by
  obtain ⟨l, hl⟩ := C64_matrixElementLocal_succeeds (ts1 := ghz.tensors) (ts2 := ghz.tensors)
    (ops := [pauliZ, eyeK ℂ 2, proj0]) (lb := oneEnv) (rb := oneEnv) (by simp [ghz, ghzT]) rfl
    (by simp [ghz, ghzT, pauliZ, eyeK, proj0]) (by simp [ghz, ghzT, Linked, oneEnv]) (by simp [ghz, ghzT, Linked, oneEnv])
    rfl rfl
  exact ⟨l, hl, by rw [(C64_matrixElementLocal hl).2.1]; simp [ghz, ghzT]⟩

/-! ## C65 -/

theorem pair00_eq {L R : Env ℂ} {c : ℂ} (hL : L.m = 1) (h : L.pair00 R = .ok c) :
    L.u = R.u ∧ L.w = R.w ∧ c = L.pair R := by
  unfold Env.pair00 at h
  split_ifs at h with h1 h2
  simp only [Except.ok.injEq] at h
  refine ⟨h1.1, h1.2, ?_⟩
  rw [← h]
  unfold Env.pair
  rw [hL]
  simp

/-- **C65.** `mf.measure(op,lb,rb,mps,site)` is the ratio of the contraction of the whole network with `op` on
`site` and the contraction with identities only, for boundaries with MPO bond dimension one. -/
theorem C65_measure {op : Mat ℂ} {lb rb : Env ℂ} {ts : List (Ten ℂ)} {site : ℕ} {c : ℂ} (hrb : rb.m = 1)
    (h : mfMeasure op lb rb ts site = .ok c) :
    site < ts.length ∧ fullContr lb ts (((ts.map Ten.d).map (eyeK ℂ)).map Mat.mpo) ts rb ≠ 0 ∧
      c = fullContr lb ts ((siteOps (ts.map Ten.d) site op).map Mat.mpo) ts rb /
        fullContr lb ts (((ts.map Ten.d).map (eyeK ℂ)).map Mat.mpo) ts rb := by
  unfold mfMeasure at h
  split at h
  · cases h
  rename_i L hL
  split at h
  · cases h
  rename_i R hR
  split at h
  · cases h
  rename_i t ht
  split at h
  · cases h
  rename_i Ln hLn
  split at h
  · cases h
  rename_i Lm hLm
  split at h
  rotate_left
  · cases h
  · cases h
  rename_i a b ha hb
  split_ifs at h with hb0
  simp only [Except.ok.injEq] at h
  obtain ⟨hs, hst⟩ := List.getElem?_eq_some_iff.mp ht
  obtain ⟨q1, q2⟩ := elayersR_isL ts ts site 0 (isL_nil lb) hL
  obtain ⟨q3, q4⟩ := elayersL_isR ts ts _ _ (isR_nil rb) hR
  simp only [List.nil_append, List.drop_zero, List.append_nil] at q2 q4
  rw [List.take_of_length_le (by simp)] at q4
  have hm : L.m = 1 := by
    have := hLm
    unfold addLayerR at this
    split_ifs at this with hh
    exact hh.2.1
  rw [← q1, hm] at q2
  rw [hrb] at q3 q4
  obtain ⟨n1, n2⟩ := isL_snocE q2 hLn
  rw [hm] at n1 n2
  have m1 := addLayerR_dims hLm
  obtain ⟨a1, a2, a3⟩ := pair00_eq m1.2.2.1 ha
  obtain ⟨b1, b2, b3⟩ := pair00_eq n1 hb
  rw [pair_eq_full (isL_snoc q2 hLm) q4 a1 a2 (m1.2.2.1.trans q3.symm)] at a3
  rw [pair_eq_full n2 q4 b1 b2 (n1.trans q3.symm)] at b3
  have et : ts.take site ++ [t] ++ ts.drop (site + 1) = ts := by
    rw [← hst, ← List.take_succ_eq_append_getElem hs, List.take_append_drop]
  have e1 : ((ts.take site).map fun t => idMpo ℂ 1 t.d) ++ [idMpo ℂ 1 t.d] ++ ((ts.drop (site + 1)).map fun t => idMpo ℂ 1 t.d)
      = ((ts.map Ten.d).map (eyeK ℂ)).map Mat.mpo := by
    rw [← ids_mpo]
    conv_rhs => rw [← et]
    simp
  have e2 : ((ts.take site).map fun t => idMpo ℂ 1 t.d) ++ [op.mpo] ++ ((ts.drop (site + 1)).map fun t => idMpo ℂ 1 t.d)
      = (siteOps (ts.map Ten.d) site op).map Mat.mpo := by
    rw [ids_mpo, ids_mpo]
    unfold siteOps
    have et' : ts.take site ++ t :: ts.drop (site + 1) = ts := by simpa using et
    conv_rhs => rw [← et']
    have := set_length_append (((ts.take site).map Ten.d).map (eyeK ℂ)) (((t :: ts.drop (site + 1)).map Ten.d).map (eyeK ℂ)) 0 op
    simp only [List.length_map, List.length_take, Nat.min_eq_left hs.le, add_zero] at this
    rw [List.map_append, List.map_append, this]
    simp
  rw [et, e2] at a3
  rw [et, e1] at b3
  exact ⟨hs, by rw [← b3]; exact hb0, by rw [← h, a3, b3]⟩

/-- C65 applies to the entangled tensors of `ghz`: the projector on `0` has weight one half on the middle site. -/
example : mfMeasure proj0 oneEnv oneEnv ghz.tensors 1 = .ok (1 / 2) := by
  simp [mfMeasure, ghz, ghzT, elayersR, elayersL, addELayerR, addELayerL, addLayerR, oneEnv, Mat.mpo, proj0, Env.pair00,
    sum_range_succ, delta, List.range']
  norm_num

end

end PyTeN
