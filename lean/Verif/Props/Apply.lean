import Verif.Mpo.Apply
import Verif.Mps.Finegrain
import Verif.Mps.Ghz

/-! # C29 (applyMPO) and C60 (FinegrainDolfi) -/

namespace PyTeN
open Finset

section
variable {K : Type*} [CommSemiring K]

/-- **C29.** The tensors returned by `applyMPO(mps,mpo)`: the bond dimensions multiply, and the amplitude on a
configuration `t` is the sum over all configurations `s` of the amplitude of the chain times the MPO element
`(s,t)`; the open bond indices of the result are `i*Ml+b` and `j*Mr+b'`. -/
theorem C29_applyMPO {mps out : List (Ten K)} {mpo : List (Mpo K)} {l r ml mr : ℕ} (hl : Linked l mps r)
    (hm : MLinked ml mpo mr) (h : applyMPO mps mpo = .ok out) :
    out.length = mps.length ∧ mpo.length = mps.length ∧ out.map Ten.d = mpo.map Mpo.dout ∧
      Linked (l * ml) out (r * mr) ∧
      ∀ i, ∀ b < ml, ∀ j, ∀ b' < mr, ∀ t : List ℕ, chain out t (i * ml + b) (j * mr + b') =
        sumCfg (mps.map Ten.d) fun s => chain mps s i j * mchain mpo s t b b' := by
  unfold applyMPO at h
  split_ifs at h with hlen
  rw [not_not] at hlen
  obtain ⟨-, g2, g3, g4⟩ := applyLoop_spec mps mpo out l r ml mr h hlen hl hm
  exact ⟨applyLoop_length _ _ _ h, hlen, g2, g3, g4⟩

/-- **C29**, progress: the call succeeds exactly for lists of the same length with matching physical legs. -/
theorem C29_applyMPO_succeeds {mps : List (Ten K)} {mpo : List (Mpo K)} (h : mps.map Ten.d = mpo.map Mpo.din) :
    ∃ out, applyMPO mps mpo = .ok out := by
  have hlen : mpo.length = mps.length := by simpa using (congrArg List.length h).symm
  unfold applyMPO
  rw [if_neg (by simpa using hlen)]
  exact applyLoop_ok mps mpo h

/-- **C29**: different lengths raise AssertionError, and the in-place variant changes nothing. -/
theorem C29_applyMPO_rejects {mps : List (Ten K)} {mpo : List (Mpo K)} (h : mpo.length ≠ mps.length) :
    applyMPO mps mpo = .error .assertion ∧ applyMPOIn mps mpo = (.error .assertion, mps) := by
  simp [applyMPO, applyMPOIn, h]

/-- **C29**: `inplace=True` writes the same tensors into the list, or raises the same exception. -/
theorem C29_applyMPO_inplace (mps : List (Ten K)) (mpo : List (Mpo K)) :
    (∀ out, applyMPO mps mpo = .ok out → applyMPOIn mps mpo = (.ok (), out)) ∧
      (∀ e, applyMPO mps mpo = .error e → (applyMPOIn mps mpo).1 = .error e) := by
  unfold applyMPO applyMPOIn
  by_cases hlen : mpo.length = mps.length
  · rw [if_neg (by simpa using hlen), if_neg (by simpa using hlen)]
    simpa using applyLoopIn_eq mps.length 0 mps mpo (by omega) hlen
  · rw [if_pos hlen, if_pos hlen]
    refine ⟨fun out h => ?_, fun e h => ?_⟩
    · exact absurd h (by simp)
    · simpa using h

end

/-- an MPO of bond dimension two used in the example. -/
def exMpo : List (Mpo ℤ) :=
  [⟨1, 2, 2, 2, fun _ b s t => if b = 0 then (s : ℤ) + 2 * t else if s = t then 1 else 0⟩,
   ⟨2, 1, 2, 2, fun b _ s t => if b = 0 then (if s = t then 1 else 0) else (s : ℤ) - t⟩]

/-- two tensors with bond dimension three. -/
def exTens : List (Ten ℤ) := [⟨1, 3, 2, fun _ j s => (j : ℤ) + s⟩, ⟨3, 1, 2, fun i _ s => (i : ℤ) * s + 1⟩]

/-- C29 applies to chains with non-trivial bonds. -/
example : ∃ out, applyMPO exTens exMpo = .ok out ∧ Linked 1 out 1 ∧ chain out [1, 0] 0 0 = 38 := by
  obtain ⟨out, h⟩ := C29_applyMPO_succeeds (mps := exTens) (mpo := exMpo) rfl
  obtain ⟨-, -, -, h4, h5⟩ := C29_applyMPO (l := 1) (r := 1) (ml := 1) (mr := 1) (by simp [exTens, Linked])
    (by simp [exMpo, MLinked]) h
  refine ⟨out, h, h4, ?_⟩
  have := h5 0 0 (by norm_num) 0 0 (by norm_num) [1, 0]
  rw [show 0 * 1 + 0 = 0 from rfl] at this
  rw [this]
  simp [exTens, exMpo, sumCfg, chain, mchain, sum_range_succ, delta]

noncomputable section

/-! ## C60 -/

/-- **C60.** The splitting map, stated independently of the assignments in the code: a coarse site with `s ≤ 1`
particles becomes the symmetric, normalised superposition of the pairs of fine sites with `s` particles. -/
theorem C60_split {s a b : ℕ} (hs : s < 2) (ha : a < 2) (hb : b < 2) :
    dolfiT s a b = if a + b = s then (((1 / Real.sqrt 2) ^ s : ℝ) : ℂ) else 0 := by
  interval_cases s <;> interval_cases a <;> interval_cases b <;> simp [dolfiT]


theorem splitEl_length {s t : List ℕ} (h : t.length ≠ 2 * s.length) : splitEl s t = 0 := by
  induction s generalizing t with
  | nil => cases t with
    | nil => simp at h
    | cons _ _ => rfl
  | cons x s ih =>
    cases t with
    | nil => rfl
    | cons a t =>
      cases t with
      | nil => rfl
      | cons b t =>
        simp only [splitEl]
        rw [ih (by simp at h ⊢; omega), mul_zero]

/-- the splitting tensor is an isometry. -/
theorem dolfi_iso {s s' : ℕ} (hs : s < 2) (hs' : s' < 2) :
    ∑ a ∈ range 2, ∑ b ∈ range 2, dolfiT s a b * star (dolfiT s' a b) = delta ℂ s s' := by
  have h2 : ((1 / Real.sqrt 2 : ℝ) : ℂ) * ((1 / Real.sqrt 2 : ℝ) : ℂ) = 1 / 2 := by
    rw [← Complex.ofReal_mul, div_mul_div_comm, Real.mul_self_sqrt (by norm_num)]
    norm_num
  have h3 : star ((1 / Real.sqrt 2 : ℝ) : ℂ) = ((1 / Real.sqrt 2 : ℝ) : ℂ) := Complex.conj_ofReal _
  interval_cases s <;> interval_cases s' <;> simp only [dolfiT, sum_range_succ, range_zero, sum_empty]
  · simp [delta]
  · simp [delta]
  · simp [delta]
  · generalize ((1 / Real.sqrt 2 : ℝ) : ℂ) = c at h2 h3
    have : c * c + c * c = 1 := by rw [h2]; norm_num
    simpa [h3, delta] using this

/-- composition with the splitting isometry preserves inner products. -/
theorem split_inner (n : ℕ) (f g : List ℕ → ℂ) :
    sumCfg (List.replicate (2 * n) 2) (fun t =>
      (sumCfg (List.replicate n 2) fun s => f s * splitEl s t) * star (sumCfg (List.replicate n 2) fun s => g s * splitEl s t))
      = sumCfg (List.replicate n 2) fun s => f s * star (g s) := by
  induction n generalizing f g with
  | zero => simp [sumCfg, splitEl]
  | succ n ih =>
    rw [show 2 * (n + 1) = 2 * n + 1 + 1 by ring]
    simp only [List.replicate_succ, sumCfg, splitEl]
    have e : ∀ a b, (sumCfg (List.replicate (2 * n) 2) fun t =>
        (∑ s ∈ range 2, sumCfg (List.replicate n 2) fun ss => f (s :: ss) * (dolfiT s a b * splitEl ss t)) *
          star (∑ s ∈ range 2, sumCfg (List.replicate n 2) fun ss => g (s :: ss) * (dolfiT s a b * splitEl ss t)))
        = ∑ s ∈ range 2, ∑ s' ∈ range 2, dolfiT s a b * star (dolfiT s' a b) *
          sumCfg (List.replicate n 2) fun ss => f (s :: ss) * star (g (s' :: ss)) := by
      intro a b
      have e1 : ∀ (h : List ℕ → ℂ) (t : List ℕ), (∑ s ∈ range 2, sumCfg (List.replicate n 2) fun ss => h (s :: ss) * (dolfiT s a b * splitEl ss t))
          = ∑ s ∈ range 2, dolfiT s a b * sumCfg (List.replicate n 2) fun ss => h (s :: ss) * splitEl ss t := by
        intro h t
        refine sum_congr rfl fun s _ => ?_
        rw [← sumCfg_mul]
        apply sumCfg_congr; intro ss _
        ring
      simp only [e1, star_sum, star_mul', sum_mul_sum, sumCfg_sum]
      refine sum_congr rfl fun s _ => sum_congr rfl fun s' _ => ?_
      rw [← ih (fun ss => f (s :: ss)) (fun ss => g (s' :: ss)), ← sumCfg_mul]
      apply sumCfg_congr; intro t _
      ring
    simp only [e]
    have e2 : ∀ s ∈ range 2, ∀ s' ∈ range 2, (∑ a ∈ range 2, ∑ b ∈ range 2, dolfiT s a b * star (dolfiT s' a b) *
          sumCfg (List.replicate n 2) fun ss => f (s :: ss) * star (g (s' :: ss)))
        = delta ℂ s s' * sumCfg (List.replicate n 2) fun ss => f (s :: ss) * star (g (s' :: ss)) := by
      intro s hs s' hs'
      simp only [← sum_mul]
      rw [dolfi_iso (mem_range.mp hs) (mem_range.mp hs')]
    have e3 : ∀ F : ℕ → ℕ → ℕ → ℕ → ℂ, ∑ a ∈ range 2, ∑ b ∈ range 2, ∑ s ∈ range 2, ∑ s' ∈ range 2, F a b s s'
        = ∑ s ∈ range 2, ∑ s' ∈ range 2, ∑ a ∈ range 2, ∑ b ∈ range 2, F a b s s' := by
      intro F
      simp only [sum_range_succ, range_zero, sum_empty, zero_add]
      ring
    rw [e3]
    refine sum_congr rfl fun s hs => ?_
    rw [sum_congr rfl (e2 s hs), sum_delta_left (mem_range.mp hs)]

/-- **C60.** `FinegrainDolfi(mps)` returns twice as many tensors; on every fine configuration the amplitude is the
coarse amplitude composed with the splitting isometry on every site, and the norm (and every inner product of
open-bond amplitudes) is preserved.  What is missing: it does not succeed on every chain, see
`C60_finegrain_violated`. -/
theorem C60_finegrain_partial {O : LinAlg} (hO : O.Spec) {mps fine : List (Ten ℂ)} {l r : ℕ} (hl : Linked l mps r)
    (h : finegrain O mps = .ok fine) :
    fine.length = 2 * mps.length ∧ (∀ t ∈ fine, t.d = 2) ∧ Linked l fine r ∧
      (∀ t : List ℕ, (∀ x ∈ t, x < 2) → ∀ i < l, ∀ j < r, chain fine t i j =
        sumCfg (mps.map Ten.d) fun s => chain mps s i j * splitEl s t) ∧
      ∀ i < l, ∀ j < r, ∀ i' < l, ∀ j' < r, (sumCfg (fine.map Ten.d) fun t => chain fine t i j * star (chain fine t i' j'))
        = sumCfg (mps.map Ten.d) fun s => chain mps s i j * star (chain mps s i' j') := by
  have hf : fineLoop O mps = .ok fine := by
    unfold finegrain at h
    split at h
    · cases h
    split_ifs at h
    exact h
  obtain ⟨g1, g2, g3, g4, g5⟩ := fineLoop_spec hO mps fine l r hf hl
  refine ⟨g1, g3, g4, g5, ?_⟩
  intro i hi j hj i' hi' j' hj'
  have hr : ∀ (ts : List (Ten ℂ)), (∀ t ∈ ts, t.d = 2) → ts.map Ten.d = List.replicate ts.length 2 := by
    intro ts hts
    rw [List.eq_replicate_iff]
    refine ⟨by simp, ?_⟩
    intro b hb
    obtain ⟨t, ht, rfl⟩ := List.mem_map.mp hb
    exact hts t ht
  rw [hr fine g3, hr mps (fun t ht => (g2 t ht).1), g1,
    ← split_inner mps.length (fun s => chain mps s i j) (fun s => chain mps s i' j')]
  apply sumCfg_congr; intro t ht
  have ht2 : ∀ x ∈ t, x < 2 := by
    intro x hx
    obtain ⟨n, hn, rfl⟩ := List.mem_iff_getElem.mp hx
    have := ht.length_eq
    have h2 := List.Forall₂.get ht (by rw [this]; exact hn : n < _) hn
    simpa using h2
  rw [g5 t ht2 i hi j hj, g5 t ht2 i' hi' j' hj', hr mps (fun t ht => (g2 t ht).1)]

/-- **C60**, domain: the call succeeds exactly for non-empty chains of two-level sites whose tensors all have
equal left and right bond dimensions. -/
theorem C60_finegrain_iff (O : LinAlg) (mps : List (Ten ℂ)) :
    (∃ fine, finegrain O mps = .ok fine) ↔ mps ≠ [] ∧ ∀ t ∈ mps, t.d = 2 ∧ t.l = t.r := by
  constructor
  · rintro ⟨fine, h⟩
    have key : ∀ (ts fs : List (Ten ℂ)), fineLoop O ts = .ok fs → ∀ t ∈ ts, t.d = 2 ∧ t.l = t.r := by
      intro ts
      induction ts with
      | nil => intro fs _ t ht; simp at ht
      | cons A ts ih =>
        intro fs h t ht
        simp only [fineLoop] at h
        split at h
        · cases h
        rename_i x y hxy
        split at h
        · cases h
        rename_i l hl
        rcases List.mem_cons.mp ht with rfl | ht
        · unfold fineSite at hxy
          split_ifs at hxy with k1 k2
          exact ⟨not_not.mp k1, not_not.mp k2⟩
        · exact ih l hl t ht
    unfold finegrain at h
    split at h
    · cases h
    split_ifs at h
    exact ⟨by simp, key _ _ h⟩
  · rintro ⟨hne, h⟩
    unfold finegrain
    cases mps with
    | nil => exact absurd rfl hne
    | cons A ts =>
      simp only [if_neg (not_not.mpr (h A (by simp)).1)]
      exact fineLoop_ok O _ h

/-- **C60 is violated**: every entangled open chain fails, i.e. `FinegrainDolfi` only works on open chains of
product states (all bonds one). -/
theorem C60_finegrain_violated (O : LinAlg) {mps : List (Ten ℂ)} (hl : Linked 1 mps 1) {t : Ten ℂ} (ht : t ∈ mps)
    (hd : t.l ≠ 1) : ¬ ∃ fine, finegrain O mps = .ok fine := by
  rw [C60_finegrain_iff]
  rintro ⟨-, h⟩
  have key : ∀ (ts : List (Ten ℂ)) (l r : ℕ), Linked l ts r → (∀ t ∈ ts, t.d = 2 ∧ t.l = t.r) → ∀ t ∈ ts, t.l = l := by
    intro ts
    induction ts with
    | nil => intro l r _ _ t ht; simp at ht
    | cons A ts ih =>
      intro l r hl h t ht
      rcases List.mem_cons.mp ht with rfl | ht
      · exact hl.1
      · rw [ih A.r r hl.2 (fun t ht => h t (by simp [ht])) t ht, ← (h A (by simp)).2, hl.1]
  exact hd (key mps 1 1 hl h t ht)

/-- the violation is met by `ghz`. -/
example (O : LinAlg) : ¬ ∃ fine, finegrain O ghz.tensors = .ok fine := by
  refine C60_finegrain_violated O (t := ghz.tensors[1]'(by simp [ghz, ghzT])) ?_ (List.getElem_mem _) ?_
  · simp [ghz, ghzT, Linked]
  · simp [ghz, ghzT]

/-- C60 applies to a translation-invariant list with bond dimension three. -/
example : ∃ O : LinAlg, O.Spec ∧ ∃ fine, finegrain O [⟨3, 3, 2, fun i j s => i + 2 * j + s⟩, ⟨3, 3, 2, fun i j s => i * j + s + 1⟩] = .ok fine
    ∧ fine.length = 4 ∧ chain fine [0, 0, 0, 0] 0 0 ≠ 0 := by
  obtain ⟨O, hO⟩ := exists_linAlg
  obtain ⟨fine, hf⟩ := (C60_finegrain_iff O [⟨3, 3, 2, fun i j s => i + 2 * j + s⟩, ⟨3, 3, 2, fun i j s => i * j + s + 1⟩]).mpr
    (by simp)
  obtain ⟨g1, -, -, g4, -⟩ := C60_finegrain_partial hO (l := 3) (r := 3) (by simp [Linked]) hf
  refine ⟨O, hO, fine, hf, by simpa using g1, ?_⟩
  rw [g4 [0, 0, 0, 0] (by simp) 0 (by norm_num) 0 (by norm_num)]
  simp [sumCfg, chain, splitEl, dolfiT, sum_range_succ, delta]
  norm_num

end

end PyTeN
