import Verif.Engine.Container
import Verif.Env.Transfer

/-! # The growth step `IDMRGengine.__update__` of lib/mpslib/engines.py -/

namespace PyTeN.Idmrg
open Finset

noncomputable section

/-! ## Model -/

/-- `a.dot(b)` of two-dimensional arrays; ValueError if the shapes do not match. -/
def npDot (a b : Mat ℂ) : Res (Mat ℂ) :=
  if a.c = b.r then .ok (a.dot b) else .error .value

/-- `for site in range(N/2): self._lb=mf.addLayer(self._lb,self._mps._tensors[site],self._mpo[site],self._mps._tensors[site],1)`,
lib/mpslib/engines.py:444-445; `k` iterations from `site` on. -/
def lbLoop (ts : List (Ten ℂ)) (mpo : List (Mpo ℂ)) : ℕ → ℕ → Env ℂ → Res (Env ℂ)
  | 0, _, E => .ok E
  | k + 1, site, E =>
    match getE ts site with
    | .error e => .error e
    | .ok A =>
      match getE mpo site with
      | .error e => .error e
      | .ok W =>
        match addLayerR E A W A with
        | .error e => .error e
        | .ok E' => lbLoop ts mpo k (site + 1) E'

/-- `for site in range(N-1,N/2-1,-1): self._rb=mf.addLayer(self._rb,...,-1)`, lib/mpslib/engines.py:461-462;
`k` iterations, the first one at the site `lo+k-1`. -/
def rbLoop (ts : List (Ten ℂ)) (mpo : List (Mpo ℂ)) (lo : ℕ) : ℕ → Env ℂ → Res (Env ℂ)
  | 0, E => .ok E
  | k + 1, E =>
    match getE ts (lo + k) with
    | .error e => .error e
    | .ok A =>
      match getE mpo (lo + k) with
      | .error e => .error e
      | .ok W =>
        match addLayerL E A W A with
        | .error e => .error e
        | .ok E' => rbLoop ts mpo lo k E'

/-- `self._mps._tensors[n]=mps[n]` for `n` in `range(N)`, lib/mpslib/engines.py:471-472. -/
def copyBack (new : List (Ten ℂ)) : ℕ → ℕ → List (Ten ℂ) → Res (List (Ten ℂ))
  | 0, _, ts => .ok ts
  | k + 1, n, ts =>
    match getE new n with
    | .error e => .error e
    | .ok t =>
      match setE ts n t with
      | .error e => .error e
      | .ok ts' => copyBack new k (n + 1) ts'

/-- The tensors of `for n in range(a,b)` appended to `acc`, and the running maximum `D` of the left dimensions,
lib/mpslib/engines.py:451-454 and 467-470; `k` iterations are left. -/
def cutHalf (ts : List (Ten ℂ)) : ℕ → ℕ → List (Ten ℂ) × ℕ → Res (List (Ten ℂ) × ℕ)
  | 0, _, acc => .ok acc
  | k + 1, n, (new, D) =>
    match getE ts n with
    | .error e => .error e
    | .ok t => cutHalf ts k (n + 1) (new ++ [t], if t.l > D then t.l else D)

/-- The part of `IDMRGengine.__update__` that both branches share, lib/mpslib/engines.py:440-480: the object, the MPO and the two
boundaries afterwards, and the bond dimension to be returned.  `pinv` is `np.linalg.pinv`. -/
def shift (O : LinAlg) (pinv : Mat ℂ → Mat ℂ) (e : Eng) : Res (MPS × List (Mpo ℂ) × Env ℂ × Env ℂ × ℕ) :=
  let N := e.mps.N
  match e.mps.position O N with
  | .error x => .error x
  | .ok m1 =>
  match lbLoop m1.tensors e.mpo (N / 2) 0 e.lb with
  | .error x => .error x
  | .ok lb =>
  let lamR := m1.mat
  match cutHalf m1.tensors (N - N / 2) (N / 2) ([], 0) with
  | .error x => .error x
  | .ok acc =>
  match m1.position O ((N / 2 : ℕ) : ℤ) with
  | .error x => .error x
  | .ok m2 =>
  let connector := pinv m2.mat
  match rbLoop m2.tensors e.mpo (N / 2) (N - N / 2) e.rb with
  | .error x => .error x
  | .ok rb =>
  match m2.position O 0 with
  | .error x => .error x
  | .ok m3 =>
  let lamL := m3.mat
  match cutHalf m3.tensors (N / 2) 0 acc with
  | .error x => .error x
  | .ok (new, D) =>
  match copyBack new N 0 m3.tensors with
  | .error x => .error x
  | .ok ts =>
  match npDot lamR m3.conn with
  | .error x => .error x
  | .ok lc =>
  match npDot lc lamL with
  | .error x => .error x
  | .ok mat =>
  match ({ m3 with tensors := ts, pos := N / 2, mat := mat, conn := connector } : MPS).position O 0 with
  | .error x => .error x
  | .ok m4 =>
  match Transfer.patchmpo e.mpo ((N / 2 : ℕ) : ℤ) with
  | .error x => .error x
  | .ok mpo => .ok (m4, mpo, lb, rb, D)

/-- `IDMRGengine.__update__(regauge=False)`, lib/mpslib/engines.py:440-489: the engine afterwards and the returned
bond dimension.  For `regauge=True` see `Idmrg.updateR`. -/
def update (O : LinAlg) (pinv : Mat ℂ → Mat ℂ) (e : Eng) : Res (Eng × ℕ) :=
  match shift O pinv e with
  | .error x => .error x
  | .ok (m4, mpo, lb, rb, D) =>
  match getL m4.tensors mpo lb with
  | .error x => .error x
  | .ok L =>
  match getR m4.tensors mpo rb with
  | .error x => .error x
  | .ok R => .ok (⟨m4, mpo, lb, rb, lb :: L, rb :: R⟩, D)

/-- Contract of `np.linalg.pinv` used here: the shape of the transpose and the first Penrose equation. -/
structure PinvSpec (A P : Mat ℂ) : Prop where
  r : P.r = A.c
  c : P.c = A.r
  one : ∀ i < A.r, ∀ j < A.c,
    ∑ k ∈ range A.c, ∑ k' ∈ range A.r, A.v i k * P.v k k' * A.v k' j = A.v i j

/-! ## Lemmas: the sweeps act locally -/

theorem getT_shift (A X : List (Ten ℂ)) (n : ℕ) : getT (A ++ X) (A.length + n) = getT X n := by
  simp [getT, List.getElem?_append_right]

theorem getT_pre {X : List (Ten ℂ)} (Y : List (Ten ℂ)) {n : ℕ} (h : n < X.length) :
    getT (X ++ Y) n = getT X n := by
  simp [getT, List.getElem?_append_left h]

theorem set_shift (A X : List (Ten ℂ)) (n : ℕ) (t : Ten ℂ) :
    (A ++ X).set (A.length + n) t = A ++ X.set n t := by
  rw [List.set_append_right _ _ (by omega)]; simp

theorem set_pre {X : List (Ten ℂ)} (Y : List (Ten ℂ)) {n : ℕ} (h : n < X.length) (t : Ten ℂ) :
    (X ++ Y).set n t = X.set n t ++ Y := List.set_append_left _ _ h

theorem sweepL_shift (cut : Ten ℂ → Res (Ten ℂ × Mat ℂ × ℝ)) (A : List (Ten ℂ)) (b : ℕ) :
    ∀ (k : ℕ) (X : List (Ten ℂ)) (m : Mat ℂ) (Z : ℂ) (w : Sweep),
      sweepL cut (A.length + b) k ⟨A ++ X, m, Z⟩ = .ok w →
      ∃ w', sweepL cut b k ⟨X, m, Z⟩ = .ok w' ∧ w.ts = A ++ w'.ts ∧ w.mat = w'.mat ∧ w.Z = w'.Z := by
  intro k
  induction k with
  | zero =>
    intro X m Z w h
    simp only [sweepL, Except.ok.injEq] at h
    subst h
    exact ⟨_, rfl, rfl, rfl, rfl⟩
  | succ k ih =>
    intro X m Z w h
    simp only [sweepL, Nat.add_assoc, getT_shift, set_shift] at h ⊢
    split at h
    · cases h
    rename_i t ht
    try simp only [ht]
    split at h
    · cases h
    rename_i a m' z hc
    try simp only [hc]
    by_cases hk : k = 0
    · subst hk
      simp only [Nat.add_zero, gt_iff_lt, lt_irrefl, if_false] at h ⊢
      exact ih _ _ _ _ h
    · rw [if_pos (by omega)] at h ⊢
      rw [show A.length + (b + k) - 1 = A.length + (b + k - 1) by omega] at h
      simp only [getT_shift, set_shift] at h
      split at h
      · cases h
      rename_i t1 ht1
      try simp only [ht1]
      split at h
      · cases h
      rename_i t1' ha
      try simp only [ha]
      exact ih _ _ _ _ h

theorem sweepL_pre (cut : Ten ℂ → Res (Ten ℂ × Mat ℂ × ℝ)) (Y : List (Ten ℂ)) (b : ℕ) :
    ∀ (k : ℕ) (X : List (Ten ℂ)) (m : Mat ℂ) (Z : ℂ) (w : Sweep), b + k ≤ X.length →
      sweepL cut b k ⟨X ++ Y, m, Z⟩ = .ok w →
      ∃ w', sweepL cut b k ⟨X, m, Z⟩ = .ok w' ∧ w.ts = w'.ts ++ Y ∧ w.mat = w'.mat ∧ w.Z = w'.Z ∧
        w'.ts.length = X.length := by
  intro k
  induction k with
  | zero =>
    intro X m Z w _ h
    simp only [sweepL, Except.ok.injEq] at h
    subst h
    exact ⟨_, rfl, rfl, rfl, rfl, rfl⟩
  | succ k ih =>
    intro X m Z w hl h
    have h1 : b + k < X.length := by omega
    simp only [sweepL, getT_pre Y h1, set_pre Y h1] at h ⊢
    split at h
    · cases h
    rename_i t ht
    try simp only [ht]
    split at h
    · cases h
    rename_i a m' z hc
    try simp only [hc]
    by_cases hk : k = 0
    · subst hk
      simp only [Nat.add_zero, gt_iff_lt, lt_irrefl, if_false] at h ⊢
      obtain ⟨w', h2, h3, h4, h5, h6⟩ := ih _ _ _ _ (by simp; omega) h
      exact ⟨w', h2, h3, h4, h5, by simpa using h6⟩
    · rw [if_pos (by omega)] at h ⊢
      have h2 : b + k - 1 < (X.set (b + k) a).length := by simp; omega
      simp only [getT_pre Y h2, set_pre Y h2] at h
      split at h
      · cases h
      rename_i t1 ht1
      try simp only [ht1]
      split at h
      · cases h
      rename_i t1' ha
      try simp only [ha]
      obtain ⟨w', h2, h3, h4, h5, h6⟩ := ih _ _ _ _ (by simp; omega) h
      exact ⟨w', h2, h3, h4, h5, by simpa using h6⟩

/-- The part of an object from site `b` on. -/
def tail (m : MPS) (b : ℕ) : MPS :=
  { m with N := m.N - b, tensors := m.tensors.drop b, pos := m.pos - b }

/-- The part of an object before site `b`. -/
def head (m : MPS) (b : ℕ) : MPS :=
  { m with N := b, tensors := m.tensors.take b }

theorem tail_position {O : LinAlg} {m m' : MPS} {b : ℕ} {sth : ℝ} (hb : b ≤ m.pos) (hN : m.pos ≤ m.N)
    (hl : m.tensors.length = m.N)
    (h : m.position O b sth none = .ok m') : (tail m b).position O 0 sth none = .ok (tail m' b) := by
  unfold MPS.position at h ⊢
  rw [if_neg (by simp; omega), if_neg (by simp)] at h
  rw [if_neg (by simp), if_neg (by simp)]
  simp only [Int.toNat_natCast, Int.toNat_zero] at h ⊢
  have hts : m.tensors = m.tensors.take b ++ m.tensors.drop b := (List.take_append_drop _ _).symm
  have hA : (m.tensors.take b).length = b := by simp; omega
  generalize hAe : m.tensors.take b = A at *
  generalize hXe : m.tensors.drop b = X at *
  by_cases h0 : b = m.pos
  · rw [if_pos h0] at h
    rw [if_pos (by simp [tail]; omega)]
    cases h; rfl
  · rw [if_neg h0, if_neg (by omega)] at h
    rw [if_neg (by simp [tail]; omega), if_neg (by simp)]
    have e1 : m.pos - 1 = A.length + (m.pos - b - 1) := by omega
    rw [hts, e1, getT_shift] at h
    simp only [set_shift] at h
    simp only [tail, hXe]
    split at h
    · cases h
    rename_i t ht
    try simp only [ht]
    split at h
    · cases h
    rename_i t' ht'
    try simp only [ht']
    split at h
    · cases h
    rename_i w hw
    rw [show sweepL _ b = sweepL _ (A.length + 0) by rw [hA, Nat.add_zero]] at hw
    obtain ⟨w', h1, h2, h3, h4⟩ := sweepL_shift _ A 0 _ _ _ _ _ hw
    simp only [Nat.sub_zero]
    simp only [MPS.effSth] at h1 ⊢
    simp only [h1]
    simp only [Except.ok.injEq] at h
    subst h
    simp only [h2, h3, h4, Nat.sub_self]
    rw [List.drop_left' hA]

theorem head_position {O : LinAlg} {m m' : MPS} {sth : ℝ} (hN : m.pos ≤ m.N)
    (hl : m.tensors.length = m.N)
    (h : m.position O 0 sth none = .ok m') : (head m m.pos).position O 0 sth none = .ok (head m' m.pos) := by
  unfold MPS.position at h ⊢
  rw [if_neg (by simp), if_neg (by simp)] at h
  rw [if_neg (by simp), if_neg (by simp)]
  simp only [Int.toNat_zero] at h ⊢
  have hts : m.tensors = m.tensors.take m.pos ++ m.tensors.drop m.pos := (List.take_append_drop _ _).symm
  have hA : (m.tensors.take m.pos).length = m.pos := by simp; omega
  generalize hAe : m.tensors.take m.pos = X at *
  generalize hXe : m.tensors.drop m.pos = Y at *
  by_cases h0 : 0 = m.pos
  · rw [if_pos h0] at h
    rw [if_pos (by simp [head]; omega)]
    cases h; rfl
  · rw [if_neg h0, if_neg (by omega)] at h
    rw [if_neg (by simp [head]; omega), if_neg (by simp)]
    have e1 : m.pos - 1 < X.length := by omega
    rw [hts, getT_pre Y e1] at h
    simp only [set_pre Y e1] at h
    simp only [head, hAe]
    split at h
    · cases h
    rename_i t ht
    try simp only [ht]
    split at h
    · cases h
    rename_i t' ht'
    try simp only [ht']
    split at h
    · cases h
    rename_i w hw
    obtain ⟨w', h1, h2, h3, h4, h5⟩ := sweepL_pre _ Y 0 _ _ _ _ _ (by simp; omega) hw
    simp only [MPS.effSth] at h1 ⊢
    simp only [h1]
    simp only [Except.ok.injEq] at h
    subst h
    simp only [h2, h3, h4]
    rw [List.take_left' (by rw [h5]; simp; omega)]

end

end PyTeN.Idmrg
