import Verif.Env.More

/-! # Products of one-site operators between chains -/

namespace PyTeN
open Finset

section
variable {K : Type*} [CommSemiring K] [StarRing K]

/-- `np.expand_dims(np.expand_dims(op,0),0)` (lib/mpslib/mpsfunctions.py:441) and `mpo[0,0,:,:]=op`
(lib/mpslib/mps.py:944): a one-site operator as an MPO tensor of bond dimension 1. -/
def Mat.mpo (op : Mat K) : Mpo K := ⟨1, 1, op.r, op.c, fun b c s t => delta K b c * op.v s t⟩

/-- identity of the local dimension `d`. -/
def eyeK (K : Type*) [CommSemiring K] (d : ℕ) : Mat K := ⟨d, d, fun s t => delta K s t⟩

/-- Spec: matrix element of a product of one-site operators between two configurations (`s` in, `t` out). -/
def opEl : List (Mat K) → List ℕ → List ℕ → K
  | [], [], [] => 1
  | o :: os, s :: ss, t :: ts => o.v s t * opEl os ss ts
  | _, _, _ => 0

/-- Spec: `Σ_{s,t} A(s) O(s,t) conj B(t)` for two open chains and a product of one-site operators. -/
def sandwich (As : List (Ten K)) (ops : List (Mat K)) (Bs : List (Ten K)) : K :=
  sumCfg (As.map Ten.d) fun s => sumCfg (Bs.map Ten.d) fun t =>
    chain As s 0 0 * opEl ops s t * star (chain Bs t 0 0)

/-- Boundary tensor `np.ones((1,1,1))`, e.g. lib/mpslib/mps.py:809. -/
def oneEnv : Env K := ⟨1, 1, 1, fun _ _ _ => 1⟩

/-- Block with the identity on the bond, e.g. lib/mpslib/mps.py:924-925. -/
def eyeEnv (n : ℕ) : Env K := ⟨n, n, 1, fun j j' _ => delta K j j'⟩

/-- Transparent MPO tensor. -/
def idMpo (K : Type*) [CommSemiring K] (m d : ℕ) : Mpo K := ⟨m, m, d, d, fun b c s t => delta K b c * delta K s t⟩

omit [StarRing K] in
theorem eyeK_mpo (d : ℕ) : (eyeK K d).mpo = idMpo K 1 d := rfl

omit [StarRing K] in
theorem mchain_ops (ops : List (Mat K)) (s t : List ℕ) : mchain (ops.map Mat.mpo) s t 0 0 = opEl ops s t := by
  induction ops generalizing s t with
  | nil => cases s <;> cases t <;> simp [mchain, opEl]
  | cons o os ih =>
    cases s with
    | nil => rfl
    | cons x s =>
      cases t with
      | nil => rfl
      | cons y t =>
        simp only [List.map_cons, mchain, opEl, Mat.mpo, sum_range_one, delta_self, one_mul]
        rw [ih]

theorem sandwich_eq_full (As : List (Ten K)) (ops : List (Mat K)) (Bs : List (Ten K)) :
    fullContr oneEnv As (ops.map Mat.mpo) Bs oneEnv = sandwich As ops Bs := by
  simp [fullContr, sandwich, oneEnv, mchain_ops]

omit [StarRing K] in
theorem opEl_append {o1 o2 : List (Mat K)} {s1 s2 t1 t2 : List ℕ} (h1 : s1.length = o1.length)
    (h2 : t1.length = o1.length) :
    opEl (o1 ++ o2) (s1 ++ s2) (t1 ++ t2) = opEl o1 s1 t1 * opEl o2 s2 t2 := by
  induction o1 generalizing s1 t1 with
  | nil =>
    obtain rfl : s1 = [] := by simpa using h1
    obtain rfl : t1 = [] := by simpa using h2
    simp [opEl]
  | cons o os ih =>
    cases s1 with
    | nil => simp at h1
    | cons x s =>
      cases t1 with
      | nil => simp at h2
      | cons y t =>
        simp only [List.cons_append, opEl]
        rw [ih (by simpa using h1) (by simpa using h2)]; ring

omit [StarRing K] in
/-- A chain of identities is the delta of the configurations. -/
theorem sumCfg_opEl_eye (ds : List ℕ) (f : List ℕ → K) (s : List ℕ)
    (hs : List.Forall₂ (fun d x => x < d) ds s) :
    sumCfg ds (fun t => opEl (ds.map (eyeK K)) s t * f t) = f s := by
  induction ds generalizing s f with
  | nil => cases hs; simp [sumCfg, opEl]
  | cons d ds ih =>
    cases hs with
    | cons hx hs =>
      rename_i x s
      simp only [sumCfg, List.map_cons, opEl, eyeK]
      have : ∀ y ∈ range d, sumCfg ds (fun ss => delta K x y * opEl (ds.map (eyeK K)) s ss * f (y :: ss))
          = delta K x y * f (y :: s) := by
        intro y _
        rw [← ih (fun ss => f (y :: ss)) s hs, ← sumCfg_mul]
        apply sumCfg_congr; intro t _; ring
      rw [sum_congr rfl this, sum_delta_left hx]

/-- Two blocks with the same shape and entries are interchangeable. -/
theorem IsL.congr {E L L' : Env K} {As Bs : List (Ten K)} {Ws : List (Mpo K)} (h : IsL E As Ws Bs L)
    (h1 : L'.u = L.u) (h2 : L'.w = L.w) (h3 : L'.m = L.m)
    (hv : ∀ j < L.u, ∀ j' < L.w, ∀ b < L.m, L'.v j j' b = L.v j j' b) : IsL E As Ws Bs L' := by
  refine ⟨h1 ▸ h.u, h3 ▸ h.m, h2 ▸ h.w, h.fits, ?_⟩
  intro j hj j' hj' b hb
  rw [h1] at hj; rw [h2] at hj'; rw [h3] at hb
  rw [hv j hj j' hj' b hb, h.v j hj j' hj' b hb]

theorem IsR.congr {E L L' : Env K} {As Bs : List (Ten K)} {Ws : List (Mpo K)} (h : IsR E As Ws Bs L)
    (h1 : L'.u = L.u) (h2 : L'.w = L.w) (h3 : L'.m = L.m)
    (hv : ∀ j < L.u, ∀ j' < L.w, ∀ b < L.m, L'.v j j' b = L.v j j' b) : IsR E As Ws Bs L' := by
  refine ⟨h1 ▸ h.u, h3 ▸ h.m, h2 ▸ h.w, h.fits, ?_⟩
  intro j hj j' hj' b hb
  rw [h1] at hj; rw [h2] at hj'; rw [h3] at hb
  rw [hv j hj j' hj' b hb, h.v j hj j' hj' b hb]

/-- `addELayer` is `addLayer` with the transparent MPO tensor. -/
theorem addELayerR_eq {E E1 : Env K} {A B : Ten K} (h : addELayerR E A B = .ok E1) :
    ∃ E2, addLayerR E A (idMpo K E.m A.d) B = .ok E2 ∧ E1.u = E2.u ∧ E1.w = E2.w ∧ E1.m = E2.m ∧ E1.m = E.m ∧
      ∀ j j', ∀ b < E2.m, E1.v j j' b = E2.v j j' b := by
  unfold addELayerR at h
  split_ifs at h with hs
  simp only [Except.ok.injEq] at h
  subst h
  unfold addLayerR
  rw [if_pos ⟨hs.1, rfl, rfl, hs.2.1, hs.2.2⟩]
  refine ⟨_, rfl, rfl, rfl, rfl, rfl, ?_⟩
  intro j j' b hb
  simp only [idMpo] at hb ⊢
  refine sum_congr rfl fun i _ => sum_congr rfl fun i' _ => ?_
  have e : ∀ c s s', E.v i i' c * A.v i j s * (delta K c b * delta K s s') * star (B.v i' j' s')
      = delta K c b * (delta K s s' * (E.v i i' c * A.v i j s * star (B.v i' j' s'))) := by intros; ring
  simp only [e, ← mul_sum]
  rw [sum_delta_left' hb]
  refine sum_congr rfl fun s hs' => ?_
  rw [sum_delta_left (by rw [← hs.2.2]; exact mem_range.mp hs')]

theorem addELayerL_eq {E E1 : Env K} {A B : Ten K} (h : addELayerL E A B = .ok E1) :
    ∃ E2, addLayerL E A (idMpo K E.m A.d) B = .ok E2 ∧ E1.u = E2.u ∧ E1.w = E2.w ∧ E1.m = E2.m ∧ E1.m = E.m ∧
      ∀ j j', ∀ b < E2.m, E1.v j j' b = E2.v j j' b := by
  unfold addELayerL at h
  split_ifs at h with hs
  simp only [Except.ok.injEq] at h
  subst h
  unfold addLayerL
  rw [if_pos ⟨hs.1, rfl, rfl, hs.2.1, hs.2.2⟩]
  refine ⟨_, rfl, rfl, rfl, rfl, rfl, ?_⟩
  intro i i' b hb
  simp only [idMpo] at hb ⊢
  refine sum_congr rfl fun j _ => sum_congr rfl fun j' _ => ?_
  have e : ∀ c s s', E.v j j' c * A.v i j s * (delta K b c * delta K s s') * star (B.v i' j' s')
      = delta K b c * (delta K s s' * (E.v j j' c * A.v i j s * star (B.v i' j' s'))) := by intros; ring
  simp only [e, ← mul_sum]
  rw [sum_delta_left hb]
  refine sum_congr rfl fun s hs' => ?_
  rw [sum_delta_left (by rw [← hs.2.2]; exact mem_range.mp hs')]

theorem isL_snocE {E L L1 : Env K} {A B : Ten K} {As Bs : List (Ten K)} {Ws : List (Mpo K)}
    (hL : IsL E As Ws Bs L) (h : addELayerR L A B = .ok L1) :
    L1.m = L.m ∧ IsL E (As ++ [A]) (Ws ++ [idMpo K L.m A.d]) (Bs ++ [B]) L1 := by
  obtain ⟨E2, h1, h2, h3, h4, h5, h6⟩ := addELayerR_eq h
  exact ⟨h5, (isL_snoc hL h1).congr h2 h3 h4 (fun j _ j' _ b hb => h6 j j' b hb)⟩

theorem isR_consE {E L L1 : Env K} {A B : Ten K} {As Bs : List (Ten K)} {Ws : List (Mpo K)}
    (hL : IsR E As Ws Bs L) (h : addELayerL L A B = .ok L1) :
    L1.m = L.m ∧ IsR E (A :: As) (idMpo K L.m A.d :: Ws) (B :: Bs) L1 := by
  obtain ⟨E2, h1, h2, h3, h4, h5, h6⟩ := addELayerL_eq h
  exact ⟨h5, (isR_cons hL h1).congr h2 h3 h4 (fun j _ j' _ b hb => h6 j j' b hb)⟩

/-- The loop of `contractE` to the right. -/
theorem elayersR_isL (mps1 mps2 : List (Ten K)) (k a : ℕ) {E0 E E' : Env K} {As Bs : List (Ten K)}
    {Ws : List (Mpo K)} (hL : IsL E0 As Ws Bs E)
    (h : elayersR mps1 mps2 (List.range' a k) E = .ok E') : E'.m = E.m ∧
    IsL E0 (As ++ (mps1.drop a).take k) (Ws ++ ((mps1.drop a).take k).map (fun t => idMpo K E.m t.d))
      (Bs ++ (mps2.drop a).take k) E' := by
  induction k generalizing a E As Ws Bs with
  | zero =>
    simp only [List.range'_zero, elayersR, Except.ok.injEq] at h
    subst h
    simpa using hL
  | succ k ih =>
    rw [List.range'_succ, elayersR] at h
    split at h
    · rename_i A B hA hB
      split at h
      · cases h
      rename_i E1 h1
      obtain ⟨g1, g2⟩ := isL_snocE hL h1
      obtain ⟨g3, g4⟩ := ih (a + 1) g2 h
      obtain ⟨ha, hA⟩ := List.getElem?_eq_some_iff.mp hA
      obtain ⟨hb, hB⟩ := List.getElem?_eq_some_iff.mp hB
      refine ⟨g3.trans g1, ?_⟩
      rw [List.drop_eq_getElem_cons ha, List.drop_eq_getElem_cons hb, hA, hB]
      rw [g1] at g4
      simpa only [List.take_succ_cons, List.map_cons, List.append_assoc, List.cons_append, List.nil_append]
        using g4
    · cases h

/-- The loop of `contractE` to the left. -/
theorem elayersL_isR (mps1 mps2 : List (Ten K)) (k a : ℕ) {E0 E E' : Env K} {As Bs : List (Ten K)}
    {Ws : List (Mpo K)} (hL : IsR E0 As Ws Bs E)
    (h : elayersL mps1 mps2 (List.range' a k).reverse E = .ok E') : E'.m = E.m ∧
    IsR E0 ((mps1.drop a).take k ++ As) (((mps1.drop a).take k).map (fun t => idMpo K E.m t.d) ++ Ws)
      ((mps2.drop a).take k ++ Bs) E' := by
  induction k generalizing E As Ws Bs with
  | zero =>
    simp only [List.range'_zero, List.reverse_nil, elayersL, Except.ok.injEq] at h
    subst h
    simpa using hL
  | succ k ih =>
    rw [List.range'_concat, List.reverse_append, List.reverse_cons, List.reverse_nil, List.nil_append,
      List.cons_append, List.nil_append, elayersL] at h
    split at h
    · rename_i A B hA hB
      split at h
      · cases h
      rename_i E1 h1
      obtain ⟨g1, g2⟩ := isR_consE hL h1
      obtain ⟨g3, g4⟩ := ih g2 h
      refine ⟨g3.trans g1, ?_⟩
      have tk : ∀ {α : Type _} {l : List α} {x : α}, l[a + 1 * k]? = some x →
          (l.drop a).take (k + 1) = (l.drop a).take k ++ [x] := by
        intro α l x hx
        rw [one_mul] at hx
        rw [List.take_add_one, List.getElem?_drop, hx]; rfl
      rw [tk hA, tk hB]
      rw [g1] at g4
      simpa only [List.map_append, List.map_cons, List.map_nil, List.append_assoc, List.cons_append,
        List.nil_append] using g4
    · cases h

omit [StarRing K] in
/-- a chain of transparent MPO tensors. -/
theorem mchain_id (m : ℕ) (ds : List ℕ) (s t : List ℕ) {b : ℕ} (hb : b < m) (b' : ℕ)
    (hs : s.length = ds.length) (ht : t.length = ds.length) :
    mchain (ds.map (idMpo K m)) s t b b' = delta K b b' * opEl (ds.map (eyeK K)) s t := by
  induction ds generalizing s t b with
  | nil =>
    obtain rfl : s = [] := by simpa using hs
    obtain rfl : t = [] := by simpa using ht
    simp [mchain, opEl]
  | cons d ds ih =>
    cases s with
    | nil => simp at hs
    | cons x s =>
      cases t with
      | nil => simp at ht
      | cons y t =>
        simp only [List.map_cons, mchain, opEl, idMpo, eyeK]
        have : ∀ c ∈ range m, delta K b c * delta K x y * mchain (ds.map (idMpo K m)) s t c b'
            = delta K b c * (delta K x y * (delta K c b' * opEl (ds.map (eyeK K)) s t)) := by
          intro c hc
          rw [ih s t (mem_range.mp hc) (by simpa using hs) (by simpa using ht)]; ring
        have h2 := sum_congr rfl this
        rw [h2, sum_delta_left hb]
        ring

/-- A block without operators is the plain overlap of the two chains. -/
theorem contrL_id (E : Env K) (As Bs : List (Ten K)) (hd : As.map Ten.d = Bs.map Ten.d) (j j' b' : ℕ)
    (hb : b' < E.m) :
    contrL E As (As.map fun t => idMpo K E.m t.d) Bs j j' b' =
      sumCfg (As.map Ten.d) fun s => ∑ i ∈ range E.u, ∑ i' ∈ range E.w,
        E.v i i' b' * chain As s i j * star (chain Bs s i' j') := by
  unfold contrL
  apply sumCfg_congr; intro s hs
  have hmap : (As.map fun t => idMpo K E.m t.d) = (As.map Ten.d).map (idMpo K E.m) := by
    rw [List.map_map]; rfl
  have e : ∀ t, List.Forall₂ (fun d x => x < d) (Bs.map Ten.d) t →
      (∑ i ∈ range E.u, ∑ i' ∈ range E.w, ∑ b ∈ range E.m,
        E.v i i' b * chain As s i j * mchain (As.map fun t => idMpo K E.m t.d) s t b b' * star (chain Bs t i' j'))
      = opEl ((Bs.map Ten.d).map (eyeK K)) s t * ∑ i ∈ range E.u, ∑ i' ∈ range E.w,
        E.v i i' b' * chain As s i j * star (chain Bs t i' j') := by
    intro t ht
    rw [mul_sum]
    refine sum_congr rfl fun i _ => ?_
    rw [mul_sum]
    refine sum_congr rfl fun i' _ => ?_
    have : ∀ b ∈ range E.m, E.v i i' b * chain As s i j *
        mchain (As.map fun t => idMpo K E.m t.d) s t b b' * star (chain Bs t i' j')
        = delta K b b' * (opEl ((Bs.map Ten.d).map (eyeK K)) s t * (E.v i i' b * chain As s i j *
            star (chain Bs t i' j'))) := by
      intro b hb
      rw [hmap, mchain_id E.m _ s t (mem_range.mp hb) b' hs.length_eq.symm
        (by rw [← ht.length_eq, hd]), hd]
      ring
    rw [sum_congr rfl this, sum_delta_left' hb]
  rw [sumCfg_congr e]
  rw [sumCfg_opEl_eye (Bs.map Ten.d) (fun t => ∑ i ∈ range E.u, ∑ i' ∈ range E.w,
        E.v i i' b' * chain As s i j * star (chain Bs t i' j')) s (hd ▸ hs)]

theorem contrR_id (E : Env K) (As Bs : List (Ten K)) (hd : As.map Ten.d = Bs.map Ten.d) (i i' b : ℕ)
    (hb : b < E.m) :
    contrR E As (As.map fun t => idMpo K E.m t.d) Bs i i' b =
      sumCfg (As.map Ten.d) fun s => ∑ j ∈ range E.u, ∑ j' ∈ range E.w,
        E.v j j' b * chain As s i j * star (chain Bs s i' j') := by
  unfold contrR
  apply sumCfg_congr; intro s hs
  have hmap : (As.map fun t => idMpo K E.m t.d) = (As.map Ten.d).map (idMpo K E.m) := by
    rw [List.map_map]; rfl
  have e : ∀ t, List.Forall₂ (fun d x => x < d) (Bs.map Ten.d) t →
      (∑ j ∈ range E.u, ∑ j' ∈ range E.w, ∑ b' ∈ range E.m,
        E.v j j' b' * chain As s i j * mchain (As.map fun t => idMpo K E.m t.d) s t b b' * star (chain Bs t i' j'))
      = opEl ((Bs.map Ten.d).map (eyeK K)) s t * ∑ j ∈ range E.u, ∑ j' ∈ range E.w,
        E.v j j' b * chain As s i j * star (chain Bs t i' j') := by
    intro t ht
    rw [mul_sum]
    refine sum_congr rfl fun j _ => ?_
    rw [mul_sum]
    refine sum_congr rfl fun j' _ => ?_
    have : ∀ b' ∈ range E.m, E.v j j' b' * chain As s i j *
        mchain (As.map fun t => idMpo K E.m t.d) s t b b' * star (chain Bs t i' j')
        = delta K b b' * (opEl ((Bs.map Ten.d).map (eyeK K)) s t * (E.v j j' b' * chain As s i j *
            star (chain Bs t i' j'))) := by
      intro b' _
      rw [hmap, mchain_id E.m _ s t hb b' hs.length_eq.symm
        (by rw [← ht.length_eq, hd]), hd]
      ring
    rw [sum_congr rfl this, sum_delta_left hb]
  rw [sumCfg_congr e]
  rw [sumCfg_opEl_eye (Bs.map Ten.d) (fun t => ∑ j ∈ range E.u, ∑ j' ∈ range E.w,
        E.v j j' b * chain As s i j * star (chain Bs t i' j')) s (hd ▸ hs)]

end

end PyTeN
