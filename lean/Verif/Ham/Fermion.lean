import Verif.Ham.Spin
import Verif.Ham.Fock
import Mathlib.Tactic.FinCases

/-! # Fermionic Hamiltonians of lib/mpslib/Hamiltonians.py -/

namespace PyTeN
open Finset

set_option linter.unusedSimpArgs false
set_option linter.unnecessarySeqFocus false

noncomputable section

/-- `herm`, lib/mpslib/Hamiltonians.py:10. -/
def Mat.herm (M : Mat ℂ) : Mat ℂ := ⟨M.c, M.r, fun i j => star (M.v j i)⟩

/-- `c[0,1]=1.0`, lib/mpslib/Hamiltonians.py:617-618, 950-951. -/
def fC : Mat ℂ := ⟨2, 2, fun i j => if i = 0 ∧ j = 1 then 1 else 0⟩
/-- `P=np.diag([1.0,-1.0])`, lib/mpslib/Hamiltonians.py:619. -/
def fP : Mat ℂ := ⟨2, 2, fun i j => if i = j then (if i = 0 then 1 else -1) else 0⟩

/-! ## SpinlessFermions -/

/-- `SpinlessFermions.__init__`, left tensor, lib/mpslib/Hamiltonians.py:622-627. -/
def sfFirst (V t mu : ℂ) : Mpo ℂ :=
  (((((Mpo.zeros 1 5 2).blk 0 0 ((fC.herm.dot fC).smul' mu)).blk 0 1 ((fC.herm.dot fP).smul' (-1 * t))).blk
    0 2 ((fC.dot fP).smul' (1 * t))).blk 0 3 ((fC.herm.dot fC).smul' V)).blk 0 4 (eyeK ℂ 2)

/-- `SpinlessFermions.__init__`, bulk tensor, lib/mpslib/Hamiltonians.py:631-641. -/
def sfBulk (V t mu : ℂ) : Mpo ℂ :=
  (((((((((Mpo.zeros 5 5 2).blk 0 0 (eyeK ℂ 2)).blk 1 0 fC).blk 2 0 fC.herm).blk 3 0 (fC.herm.dot fC)).blk
    4 0 ((fC.herm.dot fC).smul' mu)).blk 4 1 ((fC.herm.dot fP).smul' (-1 * t))).blk 4 2 ((fC.dot fP).smul' (1 * t))).blk
    4 3 ((fC.herm.dot fC).smul' V)).blk 4 4 (eyeK ℂ 2)

/-- `SpinlessFermions.__init__`, right tensor, lib/mpslib/Hamiltonians.py:644-649. -/
def sfLast (mu : ℂ) : Mpo ℂ :=
  (((((Mpo.zeros 5 1 2).blk 0 0 (eyeK ℂ 2)).blk 1 0 fC).blk 2 0 fC.herm).blk 3 0 (fC.herm.dot fC)).blk
    4 0 ((fC.herm.dot fC).smul' mu)

/-- `SpinlessFermions.__init__`, tensor for `obc=False`, lib/mpslib/Hamiltonians.py:654-664. -/
def sfPeriodic (V t mu : ℂ) : Mpo ℂ :=
  (((((((((Mpo.zeros 5 5 2).blk 0 0 (eyeK ℂ 2)).blk 1 0 (fC.dot fP)).blk 2 0 (fC.herm.dot fP)).blk
    3 0 (fC.herm.dot fC)).blk 4 0 ((fC.herm.dot fC).smul' mu)).blk 4 1 (fC.herm.smul' (-1 * t))).blk
    4 2 (fC.smul' (1 * t))).blk 4 3 ((fC.herm.dot fC).smul' V)).blk 4 4 (eyeK ℂ 2)

/-- `SpinlessFermions.__init__(interaction,hopping,chempot,obc)`, lib/mpslib/Hamiltonians.py:605-664. -/
def spinless (interaction hopping chempot : List ℂ) (obc : Bool) : Res (List (Mpo ℂ)) :=
  if interaction.length = hopping.length ∧ (interaction.length : ℤ) = (chempot.length : ℤ) - 1 then
    let site (f : ℂ → ℂ → ℂ → Mpo ℂ) (n : ℕ) : Res (Mpo ℂ) := do
      let mu ← getE chempot n
      let t ← getE hopping n
      let V ← getE interaction n
      return f V t mu
    if obc then
      openMpo (site sfFirst 0) (site sfBulk) (do return sfLast (← getE chempot (chempot.length - 1))) chempot.length
    else buildE (site sfPeriodic) (List.range chempot.length)
  else .error .assertion

/-! ## HubbardChain -/

/-- `c_down=np.kron(c,np.eye(2))`, lib/mpslib/Hamiltonians.py:952. -/
def cDown : Mat ℂ := fC.kron2 (eyeK ℂ 2)
/-- `c_up=np.kron(np.diag([1.0,-1.0]),c)`, lib/mpslib/Hamiltonians.py:953. -/
def cUp : Mat ℂ := fP.kron2 fC
/-- `P=np.diag([1.0,-1.0,-1.0,1.0])`, lib/mpslib/Hamiltonians.py:954. -/
def hubP : Mat ℂ := ⟨4, 4, fun i j => if i = j then (if i = 0 ∨ i = 3 then 1 else -1) else 0⟩

/-- On-site term, lib/mpslib/Hamiltonians.py:958-960. -/
def hubLoc (U muU muD : ℂ) : Mat ℂ :=
  (((cUp.herm.dot cUp).smul' muU).add' ((cDown.herm.dot cDown).smul' muD)).add'
    (((cUp.herm.dot cUp).dot (cDown.herm.dot cDown)).smul' U)

/-- `HubbardChain.__init__`, left tensor, lib/mpslib/Hamiltonians.py:957-966. -/
def hubFirst (U tU tD muU muD : ℂ) : Mpo ℂ :=
  ((((((Mpo.zeros 1 6 4).blk 0 0 (hubLoc U muU muD)).blk 0 1 ((cUp.herm.dot hubP).smul' (-1 * tU))).blk
    0 2 ((cUp.dot hubP).smul' (1 * tU))).blk 0 3 ((cDown.herm.dot hubP).smul' (-1 * tD))).blk
    0 4 ((cDown.dot hubP).smul' (1 * tD))).blk 0 5 (eyeK ℂ 4)

/-- `HubbardChain.__init__`, bulk tensor, lib/mpslib/Hamiltonians.py:969-985 (and 1004-1020 for `obc=False`). -/
def hubBulk (U tU tD muU muD : ℂ) : Mpo ℂ :=
  (((((((((((Mpo.zeros 6 6 4).blk 0 0 (eyeK ℂ 4)).blk 1 0 cUp).blk 2 0 cUp.herm).blk 3 0 cDown).blk 4 0 cDown.herm).blk
    5 0 (hubLoc U muU muD)).blk 5 1 ((cUp.herm.dot hubP).smul' (-1 * tU))).blk 5 2 ((cUp.dot hubP).smul' (1 * tU))).blk
    5 3 ((cDown.herm.dot hubP).smul' (-1 * tD))).blk 5 4 ((cDown.dot hubP).smul' (1 * tD))).blk 5 5 (eyeK ℂ 4)

/-- `HubbardChain.__init__`, right tensor, lib/mpslib/Hamiltonians.py:989-999. -/
def hubLast (U muU muD : ℂ) : Mpo ℂ :=
  ((((((Mpo.zeros 6 1 4).blk 0 0 (eyeK ℂ 4)).blk 1 0 cUp).blk 2 0 cUp.herm).blk 3 0 cDown).blk 4 0 cDown.herm).blk
    5 0 (hubLoc U muU muD)

/-- `HubbardChain.__init__(U,t_up,t_down,mu_up,mu_down,obc)`, lib/mpslib/Hamiltonians.py:933-1022. -/
def hubbard (U tU tD muU muD : List ℂ) (obc : Bool) : Res (List (Mpo ℂ)) :=
  let N := U.length
  if muU.length = N ∧ muD.length = N ∧ (tU.length : ℤ) = (N : ℤ) - 1 ∧ (tD.length : ℤ) = (N : ℤ) - 1 then
    let site (f : ℂ → ℂ → ℂ → ℂ → ℂ → Mpo ℂ) (n : ℕ) : Res (Mpo ℂ) := do
      let mu ← getE muU n
      let md ← getE muD n
      let u ← getE U n
      let a ← getE tU n
      let b ← getE tD n
      return f u a b mu md
    if obc then
      openMpo (site hubFirst 0) (site hubBulk) (do
        let mu ← getE muU (N - 1)
        let md ← getE muD (N - 1)
        let u ← getE U (N - 1)
        return hubLast u mu md) N
    else buildE (site hubBulk) (List.range N)
  else .error .assertion

/-! ## Local operators -/

/-- Channels of the spinless-fermion tensors. -/
def sfA (V t : ℂ) (k : ℕ) : Mat ℂ :=
  if k = 0 then (fC.herm.dot fP).smul' (-1 * t) else if k = 1 then (fC.dot fP).smul' (1 * t) else (fC.herm.dot fC).smul' V
@[inherit_doc sfA] def sfB (k : ℕ) : Mat ℂ := if k = 0 then fC else if k = 1 then fC.herm else fC.herm.dot fC

theorem sf_first (V t mu : ℂ) (h : ℕ → Mat ℂ) : NNFirst 2 3 (sfFirst V t mu) ⟨(fC.herm.dot fC).smul' mu, sfA V t, h⟩ := by
  refine ⟨rfl, rfl, rfl, rfl, ?_, ?_, ?_⟩
  · intro s _ t _; simp [sfFirst, Mpo.blk]
  · rw [all3]; refine ⟨?_, ?_, ?_⟩ <;> (intro s _ t _; simp [sfFirst, Mpo.blk, sfA])
  · intro s _ t _; simp [sfFirst, Mpo.blk, eyeK]

theorem sf_bulk (V t mu : ℂ) : NNBulk 2 3 (sfBulk V t mu) ⟨(fC.herm.dot fC).smul' mu, sfA V t, sfB⟩ := by
  refine ⟨rfl, rfl, rfl, rfl, ?_, ?_, ?_, ?_, ?_, ?_⟩
  · intro s _ t _; simp [sfBulk, Mpo.blk, eyeK]
  · rw [all3]; refine ⟨?_, ?_, ?_⟩ <;> (intro s _ t _; simp [sfBulk, Mpo.blk, sfB])
  · intro s _ t _; simp [sfBulk, Mpo.blk]
  · rw [all3]; refine ⟨?_, ?_, ?_⟩ <;> (intro s _ t _; simp [sfBulk, Mpo.blk, sfA])
  · intro s _ t _; simp [sfBulk, Mpo.blk, eyeK]
  · intro b hb c hc s _ t _
    have h4 : b ≠ 4 := by omega
    simp [sfBulk, Mpo.blk, Mpo.zeros, h4]

theorem sf_last (mu : ℂ) (A : ℕ → Mat ℂ) : NNLast 2 3 (sfLast mu) ⟨(fC.herm.dot fC).smul' mu, A, sfB⟩ := by
  refine ⟨rfl, rfl, rfl, rfl, ?_, ?_, ?_⟩
  · intro s _ t _; simp [sfLast, Mpo.blk, eyeK]
  · rw [all3]; refine ⟨?_, ?_, ?_⟩ <;> (intro s _ t _; simp [sfLast, Mpo.blk, sfB])
  · intro s _ t _; simp [sfLast, Mpo.blk]

/-- Channels of the Hubbard tensors. -/
def hubA (tU tD : ℂ) (k : ℕ) : Mat ℂ :=
  if k = 0 then (cUp.herm.dot hubP).smul' (-1 * tU) else if k = 1 then (cUp.dot hubP).smul' (1 * tU)
  else if k = 2 then (cDown.herm.dot hubP).smul' (-1 * tD) else (cDown.dot hubP).smul' (1 * tD)
@[inherit_doc hubA] def hubB (k : ℕ) : Mat ℂ :=
  if k = 0 then cUp else if k = 1 then cUp.herm else if k = 2 then cDown else cDown.herm

theorem hub_first (U tU tD muU muD : ℂ) (h : ℕ → Mat ℂ) :
    NNFirst 4 4 (hubFirst U tU tD muU muD) ⟨hubLoc U muU muD, hubA tU tD, h⟩ := by
  refine ⟨rfl, rfl, rfl, rfl, ?_, ?_, ?_⟩
  · intro s _ t _; simp [hubFirst, Mpo.blk]
  · intro k hk s _ t _; interval_cases k <;> simp [hubFirst, Mpo.blk, hubA]
  · intro s _ t _; simp [hubFirst, Mpo.blk, eyeK]

theorem hub_bulk (U tU tD muU muD : ℂ) :
    NNBulk 4 4 (hubBulk U tU tD muU muD) ⟨hubLoc U muU muD, hubA tU tD, hubB⟩ := by
  refine ⟨rfl, rfl, rfl, rfl, ?_, ?_, ?_, ?_, ?_, ?_⟩
  · intro s _ t _; simp [hubBulk, Mpo.blk, eyeK]
  · intro k hk s _ t _; interval_cases k <;> simp [hubBulk, Mpo.blk, hubB]
  · intro s _ t _; simp [hubBulk, Mpo.blk]
  · intro k hk s _ t _; interval_cases k <;> simp [hubBulk, Mpo.blk, hubA]
  · intro s _ t _; simp [hubBulk, Mpo.blk, eyeK]
  · intro b hb c hc s _ t _
    have h4 : b ≠ 5 := by omega
    simp [hubBulk, Mpo.blk, Mpo.zeros, h4]

theorem hub_last (U muU muD : ℂ) (A : ℕ → Mat ℂ) : NNLast 4 4 (hubLast U muU muD) ⟨hubLoc U muU muD, A, hubB⟩ := by
  refine ⟨rfl, rfl, rfl, rfl, ?_, ?_, ?_⟩
  · intro s _ t _; simp [hubLast, Mpo.blk, eyeK]
  · intro k hk s _ t _; interval_cases k <;> simp [hubLast, Mpo.blk, hubB]
  · intro s _ t _; simp [hubLast, Mpo.blk]

/-! ## Local matrix elements as fermionic ones -/

/-- `opEl` of identities is a delta. -/
theorem opEl_eye (d m : ℕ) (s t : List ℕ) (hs : s.length = m) (ht : t.length = m) :
    opEl (List.replicate m (eyeK ℂ d)) s t = if s = t then 1 else 0 := by
  induction m generalizing s t with
  | zero =>
    obtain rfl := List.length_eq_zero_iff.mp hs
    obtain rfl := List.length_eq_zero_iff.mp ht
    simp [opEl]
  | succ m ih =>
    obtain ⟨x, s, rfl⟩ := List.exists_cons_of_length_eq_add_one hs
    obtain ⟨y, t, rfl⟩ := List.exists_cons_of_length_eq_add_one ht
    simp only [List.length_cons, Nat.add_right_cancel_iff] at hs ht
    simp only [List.replicate_succ, opEl, ih s t hs ht, List.cons.injEq]
    simp only [eyeK, delta]
    by_cases h1 : x = y <;> by_cases h2 : s = t <;> simp [h1, h2]

theorem Cf.split {d N n k : ℕ} {s : List ℕ} (h : Cf d N s) (hn : n + k ≤ N) :
    ∃ p w q, s = p ++ w ++ q ∧ Cf d n p ∧ Cf d k w ∧ Cf d (N - n - k) q := by
  refine ⟨s.take n, (s.drop n).take k, (s.drop n).drop k, by simp, ⟨by simp [h.1]; omega, ?_⟩,
    ⟨by simp [h.1]; omega, ?_⟩, ⟨by simp [h.1]; omega, ?_⟩⟩
  · intro x hx; exact h.2 x (List.mem_of_mem_take hx)
  · intro x hx; exact h.2 x (List.mem_of_mem_drop (List.mem_of_mem_take hx))
  · intro x hx; exact h.2 x (List.mem_of_mem_drop (List.mem_of_mem_drop hx))

/-- One- and two-site operators factorise. -/
theorem opEl_at1 {d N n : ℕ} {o : Mat ℂ} {p q p' q' : List ℕ} {x x' : ℕ} (hn : n + 1 ≤ N)
    (hp : p.length = n) (hp' : p'.length = n) (hq : q.length = N - n - 1) (hq' : q'.length = N - n - 1) :
    opEl (at1 d N n o) (p ++ [x] ++ q) (p' ++ [x'] ++ q')
      = (if p = p' then 1 else 0) * o.v x x' * (if q = q' then 1 else 0) := by
  simp only [at1, List.append_assoc, List.cons_append, List.nil_append]
  rw [opEl_append (by simp [hp]) (by simp [hp']), opEl_eye _ _ _ _ hp hp']
  simp only [opEl]
  rw [opEl_eye _ _ _ _ (by omega) (by omega)]; ring

theorem opEl_at2 {d N n : ℕ} {a b : Mat ℂ} {p q p' q' : List ℕ} {x x' y y' : ℕ} (hn : n + 2 ≤ N)
    (hp : p.length = n) (hp' : p'.length = n) (hq : q.length = N - n - 2) (hq' : q'.length = N - n - 2) :
    opEl (at2 d N n a b) (p ++ [x, y] ++ q) (p' ++ [x', y'] ++ q')
      = (if p = p' then 1 else 0) * (a.v x x' * b.v y y') * (if q = q' then 1 else 0) := by
  simp only [at2, List.append_assoc, List.cons_append, List.nil_append]
  rw [opEl_append (by simp [hp]) (by simp [hp']), opEl_eye _ _ _ _ hp hp']
  simp only [opEl]
  rw [opEl_eye _ _ _ _ (by omega) (by omega)]; ring

/-! ### Spinless fermions -/

/-- Integer table of a 2x2 or 4x4 matrix with at most two nonzero entries. -/
def tab (i j : ℕ) (a : ℤ) (i' j' : ℕ) (b : ℤ) (x y : ℕ) : ℤ :=
  if x = i ∧ y = j then a else if x = i' ∧ y = j' then b else 0

theorem fC_tab : ∀ x < 2, ∀ y < 2, fC.v x y = (tab 0 1 1 0 1 1 x y : ℤ) := by
  simp [all2, fC, tab]
theorem fCd_tab : ∀ x < 2, ∀ y < 2, fC.herm.v x y = (tab 1 0 1 1 0 1 x y : ℤ) := by
  simp only [all2]; simp [fC, tab, Mat.herm]
theorem fCdP_tab : ∀ x < 2, ∀ y < 2, (fC.herm.dot fP).v x y = (tab 1 0 1 1 0 1 x y : ℤ) := by
  simp only [all2]; simp [fC, fP, tab, Mat.herm, Mat.dot, sum_range_succ]
theorem fCP_tab : ∀ x < 2, ∀ y < 2, (fC.dot fP).v x y = (tab 0 1 (-1) 0 1 (-1) x y : ℤ) := by
  simp only [all2]; simp [fC, fP, tab, Mat.herm, Mat.dot, sum_range_succ]
theorem fN_tab : ∀ x < 2, ∀ y < 2, (fC.herm.dot fC).v x y = (tab 1 1 1 1 1 1 x y : ℤ) := by
  simp only [all2]; simp [fC, fP, tab, Mat.herm, Mat.dot, sum_range_succ]

theorem sf_right : ∀ x < 2, ∀ y < 2, ∀ x' < 2, ∀ y' < 2,
    tab 1 0 1 1 0 1 x x' * tab 0 1 1 0 1 1 y y' = fEl [(true, 1), (false, 0)] [x, y] [x', y'] := by decide
theorem sf_left : ∀ x < 2, ∀ y < 2, ∀ x' < 2, ∀ y' < 2,
    tab 0 1 (-1) 0 1 (-1) x x' * tab 1 0 1 1 0 1 y y' = -fEl [(true, 0), (false, 1)] [x, y] [x', y'] := by decide
theorem sf_nn : ∀ x < 2, ∀ y < 2, ∀ x' < 2, ∀ y' < 2, tab 1 1 1 1 1 1 x x' * tab 1 1 1 1 1 1 y y'
    = fEl [(true, 0), (false, 0), (true, 1), (false, 1)] [x, y] [x', y'] := by decide
theorem sf_n : ∀ x < 2, ∀ x' < 2, tab 1 1 1 1 1 1 x x' = fEl [(true, 0), (false, 0)] [x] [x'] := by decide

/-- Spec: matrix element of `Σ_n -t_n (a†_n a_{n+1} + a†_{n+1} a_n) + V_n n_n n_{n+1} + Σ_n mu_n n_n`. -/
def sfEl (V t mu : List ℂ) (s u : List ℕ) : ℂ :=
  ∑ n ∈ range (mu.length - 1),
    (-t.getD n 0 * (fEl [(true, n), (false, n + 1)] s u + fEl [(true, n + 1), (false, n)] s u) +
      V.getD n 0 * fEl [(true, n), (false, n), (true, n + 1), (false, n + 1)] s u) +
  ∑ n ∈ range mu.length, mu.getD n 0 * fEl [(true, n), (false, n)] s u

theorem sf_at2 {N n : ℕ} (V t : ℂ) {s u : List ℕ} (hs : Cf 2 N s) (hu : Cf 2 N u) (hn : n + 2 ≤ N) :
    ∑ k ∈ range 3, opEl (at2 2 N n (sfA V t k) (sfB k)) s u
      = -t * (fEl [(true, n), (false, n + 1)] s u + fEl [(true, n + 1), (false, n)] s u) +
        V * fEl [(true, n), (false, n), (true, n + 1), (false, n + 1)] s u := by
  obtain ⟨p, w, q, rfl, hp, hw, hq⟩ := hs.split hn
  obtain ⟨p', w', q', rfl, hp', hw', hq'⟩ := hu.split hn
  obtain ⟨x, w, rfl, hx, hw⟩ := hw.exists_cons
  obtain ⟨y, w, rfl, hy, hw⟩ := hw.exists_cons
  obtain rfl := hw.zero
  obtain ⟨x', w', rfl, hx', hw'⟩ := hw'.exists_cons
  obtain ⟨y', w', rfl, hy', hw'⟩ := hw'.exists_cons
  obtain rfl := hw'.zero
  have e1 := fEl_window [(true, 0), (false, 1)] p [x, y] q p' [x', y'] q' (by simp) (by decide)
    (by rw [hp.1, hp'.1]) (by simp)
  have e2 := fEl_window [(true, 1), (false, 0)] p [x, y] q p' [x', y'] q' (by simp) (by decide)
    (by rw [hp.1, hp'.1]) (by simp)
  have e3 := fEl_window [(true, 0), (false, 0), (true, 1), (false, 1)] p [x, y] q p' [x', y'] q' (by simp) (by decide)
    (by rw [hp.1, hp'.1]) (by simp)
  simp only [List.map_cons, List.map_nil, hp.1, Nat.add_zero] at e1 e2 e3
  rw [e1, e2, e3, ← sf_right x hx y hy x' hx' y' hy', ← sf_nn x hx y hy x' hx' y' hy',
    ← neg_neg (fEl [(true, 0), (false, 1)] [x, y] [x', y']), ← sf_left x hx y hy x' hx' y' hy']
  simp only [sum_range_succ, sum_range_zero, zero_add, opEl_at2 hn hp.1 hp'.1 hq.1 hq'.1]
  simp only [sfA, sfB, Mat.smul', if_true, one_ne_zero, if_false, OfNat.ofNat_ne_zero, OfNat.ofNat_ne_one]
  rw [fC_tab y hy y' hy', fCd_tab y hy y' hy', fCdP_tab x hx x' hx', fCP_tab x hx x' hx', fN_tab x hx x' hx',
    fN_tab y hy y' hy']
  push_cast
  ring

theorem sf_at1 {N n : ℕ} (mu : ℂ) {s u : List ℕ} (hs : Cf 2 N s) (hu : Cf 2 N u) (hn : n + 1 ≤ N) :
    opEl (at1 2 N n ((fC.herm.dot fC).smul' mu)) s u = mu * fEl [(true, n), (false, n)] s u := by
  obtain ⟨p, w, q, rfl, hp, hw, hq⟩ := hs.split hn
  obtain ⟨p', w', q', rfl, hp', hw', hq'⟩ := hu.split hn
  obtain ⟨x, w, rfl, hx, hw⟩ := hw.exists_cons
  obtain rfl := hw.zero
  obtain ⟨x', w', rfl, hx', hw'⟩ := hw'.exists_cons
  obtain rfl := hw'.zero
  have e1 := fEl_window [(true, 0), (false, 0)] p [x] q p' [x'] q' (by simp) (by decide)
    (by rw [hp.1, hp'.1]) (by simp)
  simp only [List.map_cons, List.map_nil, hp.1, Nat.add_zero] at e1
  rw [e1, ← sf_n x hx x' hx', opEl_at1 hn hp.1 hp'.1 hq.1 hq'.1]
  simp only [Mat.smul']
  rw [fN_tab x hx x' hx']
  push_cast
  ring

/-! ### Hubbard model -/

/-- Occupations of the modes (down, up) of every site: site state `2·n_down + n_up`. -/
def bits (s : List ℕ) : List ℕ := s.flatMap fun x => [x / 2, x % 2]

theorem bits_length (s : List ℕ) : (bits s).length = 2 * s.length := by
  induction s with
  | nil => rfl
  | cons x s ih => simp [bits] at ih ⊢; omega

theorem bits_append (s t : List ℕ) : bits (s ++ t) = bits s ++ bits t := by simp [bits]

theorem bits_inj {s t : List ℕ} (h : s.length = t.length) : bits s = bits t ↔ s = t := by
  constructor
  · intro e
    induction s generalizing t with
    | nil => cases t with
      | nil => rfl
      | cons y t => simp at h
    | cons x s ih =>
      cases t with
      | nil => simp at h
      | cons y t =>
        simp [bits] at e
        rw [ih (by simpa using h) (by simpa [bits] using e.2.2)]
        congr 1; omega
  · rintro rfl; rfl

theorem up_tab : ∀ x < 4, ∀ y < 4, cUp.v x y = (tab 0 1 1 2 3 (-1) x y : ℤ) := by
  simp only [all4]; simp [cUp, fC, fP, tab, Mat.kron2]
theorem upd_tab : ∀ x < 4, ∀ y < 4, cUp.herm.v x y = (tab 1 0 1 3 2 (-1) x y : ℤ) := by
  simp only [all4]; simp [cUp, fC, fP, tab, Mat.kron2, Mat.herm]
theorem dn_tab : ∀ x < 4, ∀ y < 4, cDown.v x y = (tab 0 2 1 1 3 1 x y : ℤ) := by
  simp only [all4]; simp [cDown, fC, fP, tab, Mat.kron2, eyeK, delta]
theorem dnd_tab : ∀ x < 4, ∀ y < 4, cDown.herm.v x y = (tab 2 0 1 3 1 1 x y : ℤ) := by
  simp only [all4]; simp [cDown, fC, fP, tab, Mat.kron2, Mat.herm, eyeK, delta]

theorem upP_tab : ∀ x < 4, ∀ y < 4, (cUp.dot hubP).v x y = (tab 0 1 (-1) 2 3 (-1) x y : ℤ) := by
  simp only [all4]; simp [cUp, fC, fP, hubP, tab, Mat.kron2, Mat.dot, sum_range_succ]
theorem updP_tab : ∀ x < 4, ∀ y < 4, (cUp.herm.dot hubP).v x y = (tab 1 0 1 3 2 1 x y : ℤ) := by
  simp only [all4]; simp [cUp, fC, fP, hubP, tab, Mat.kron2, Mat.dot, Mat.herm, sum_range_succ]
theorem dnP_tab : ∀ x < 4, ∀ y < 4, (cDown.dot hubP).v x y = (tab 0 2 (-1) 1 3 1 x y : ℤ) := by
  simp only [all4]; simp [cDown, fC, fP, hubP, tab, Mat.kron2, Mat.dot, eyeK, delta, sum_range_succ]
theorem dndP_tab : ∀ x < 4, ∀ y < 4, (cDown.herm.dot hubP).v x y = (tab 2 0 1 3 1 (-1) x y : ℤ) := by
  simp only [all4]; simp [cDown, fC, fP, hubP, tab, Mat.kron2, Mat.dot, Mat.herm, eyeK, delta, sum_range_succ]
theorem upN_tab : ∀ x < 4, ∀ y < 4, (cUp.herm.dot cUp).v x y = (tab 1 1 1 3 3 1 x y : ℤ) := by
  simp only [all4]; simp [cUp, fC, fP, tab, Mat.kron2, Mat.dot, Mat.herm, sum_range_succ]
theorem dnN_tab : ∀ x < 4, ∀ y < 4, (cDown.herm.dot cDown).v x y = (tab 2 2 1 3 3 1 x y : ℤ) := by
  simp only [all4]; simp [cDown, fC, tab, Mat.kron2, Mat.dot, Mat.herm, eyeK, delta, sum_range_succ]
theorem upc_rows : cUp.herm.r = 4 ∧ (cUp.herm.dot cUp).c = 4 := by simp [cUp, fC, fP, Mat.kron2, Mat.dot, Mat.herm]
theorem uN_tab : ∀ x < 4, ∀ y < 4,
    ((cUp.herm.dot cUp).dot (cDown.herm.dot cDown)).v x y = (tab 3 3 1 3 3 1 x y : ℤ) := by
  intro x hx y hy
  have h : ((cUp.herm.dot cUp).dot (cDown.herm.dot cDown)).v x y
      = ∑ k ∈ range 4, (cUp.herm.dot cUp).v x k * (cDown.herm.dot cDown).v k y := rfl
  rw [h, sum_congr rfl fun k hk => by rw [upN_tab x hx k (mem_range.mp hk), dnN_tab k (mem_range.mp hk) y hy]]
  have : ∀ x < 4, ∀ y < 4, ∑ k ∈ range 4, tab 1 1 1 3 3 1 x k * tab 2 2 1 3 3 1 k y = tab 3 3 1 3 3 1 x y := by decide
  rw [← this x hx y hy]; push_cast; rfl

theorem hub_upR : ∀ x < 4, ∀ y < 4, ∀ x' < 4, ∀ y' < 4, tab 1 0 1 3 2 1 x x' * tab 0 1 1 2 3 (-1) y y'
    = fEl [(true, 3), (false, 1)] (bits [x, y]) (bits [x', y']) := by decide
theorem hub_upL : ∀ x < 4, ∀ y < 4, ∀ x' < 4, ∀ y' < 4, tab 0 1 (-1) 2 3 (-1) x x' * tab 1 0 1 3 2 (-1) y y'
    = -fEl [(true, 1), (false, 3)] (bits [x, y]) (bits [x', y']) := by decide
theorem hub_dnR : ∀ x < 4, ∀ y < 4, ∀ x' < 4, ∀ y' < 4, tab 2 0 1 3 1 (-1) x x' * tab 0 2 1 1 3 1 y y'
    = fEl [(true, 2), (false, 0)] (bits [x, y]) (bits [x', y']) := by decide
theorem hub_dnL : ∀ x < 4, ∀ y < 4, ∀ x' < 4, ∀ y' < 4, tab 0 2 (-1) 1 3 1 x x' * tab 2 0 1 3 1 1 y y'
    = -fEl [(true, 0), (false, 2)] (bits [x, y]) (bits [x', y']) := by decide
theorem hub_up : ∀ x < 4, ∀ x' < 4, tab 1 1 1 3 3 1 x x' = fEl [(true, 1), (false, 1)] (bits [x]) (bits [x']) := by decide
theorem hub_dn : ∀ x < 4, ∀ x' < 4, tab 2 2 1 3 3 1 x x' = fEl [(true, 0), (false, 0)] (bits [x]) (bits [x']) := by decide
theorem hub_u : ∀ x < 4, ∀ x' < 4, tab 3 3 1 3 3 1 x x'
    = fEl [(true, 1), (false, 1), (true, 0), (false, 0)] (bits [x]) (bits [x']) := by decide

/-- Spec: matrix element of the Hubbard Hamiltonian; the mode `2n` is the down orbital and `2n+1` the up orbital of
site `n`. -/
def hubEl (U tU tD muU muD : List ℂ) (s u : List ℕ) : ℂ :=
  ∑ n ∈ range (U.length - 1),
    (-tU.getD n 0 * (fEl [(true, 2 * n + 1), (false, 2 * n + 3)] s u + fEl [(true, 2 * n + 3), (false, 2 * n + 1)] s u) +
      -tD.getD n 0 * (fEl [(true, 2 * n), (false, 2 * n + 2)] s u + fEl [(true, 2 * n + 2), (false, 2 * n)] s u)) +
  ∑ n ∈ range U.length,
    (muU.getD n 0 * fEl [(true, 2 * n + 1), (false, 2 * n + 1)] s u + muD.getD n 0 * fEl [(true, 2 * n), (false, 2 * n)] s u +
      U.getD n 0 * fEl [(true, 2 * n + 1), (false, 2 * n + 1), (true, 2 * n), (false, 2 * n)] s u)

theorem bits_window (w : List (Bool × ℕ)) {n : ℕ} (p s q p' s' q' : List ℕ) (h : ∀ x ∈ w, x.2 < 2 * s.length)
    (he : Even w.length) (hp : p.length = n) (hp' : p'.length = n) (hs : s.length = s'.length)
    (hq : q.length = q'.length) :
    fEl (w.map fun x => (x.1, 2 * n + x.2)) (bits (p ++ s ++ q)) (bits (p' ++ s' ++ q'))
      = (if p = p' then 1 else 0) * fEl w (bits s) (bits s') * (if q = q' then 1 else 0) := by
  have := fEl_window w (bits p) (bits s) (bits q) (bits p') (bits s') (bits q') (by simpa [bits_length] using h) he
    (by simp [bits_length, hp, hp']) (by simp [bits_length, hs])
  rw [bits_length, hp] at this
  simp only [bits_append, this, bits_inj (hp.trans hp'.symm), bits_inj hq]

theorem hub_at2 {N n : ℕ} (tU tD : ℂ) {s u : List ℕ} (hs : Cf 4 N s) (hu : Cf 4 N u) (hn : n + 2 ≤ N) :
    ∑ k ∈ range 4, opEl (at2 4 N n (hubA tU tD k) (hubB k)) s u
      = -tU * (fEl [(true, 2 * n + 1), (false, 2 * n + 3)] (bits s) (bits u) +
          fEl [(true, 2 * n + 3), (false, 2 * n + 1)] (bits s) (bits u)) +
        -tD * (fEl [(true, 2 * n), (false, 2 * n + 2)] (bits s) (bits u) +
          fEl [(true, 2 * n + 2), (false, 2 * n)] (bits s) (bits u)) := by
  obtain ⟨p, w, q, rfl, hp, hw, hq⟩ := hs.split hn
  obtain ⟨p', w', q', rfl, hp', hw', hq'⟩ := hu.split hn
  obtain ⟨x, w, rfl, hx, hw⟩ := hw.exists_cons
  obtain ⟨y, w, rfl, hy, hw⟩ := hw.exists_cons
  obtain rfl := hw.zero
  obtain ⟨x', w', rfl, hx', hw'⟩ := hw'.exists_cons
  obtain ⟨y', w', rfl, hy', hw'⟩ := hw'.exists_cons
  obtain rfl := hw'.zero
  have e1 := bits_window [(true, 1), (false, 3)] p [x, y] q p' [x', y'] q' (by simp) (by decide) hp.1 hp'.1 rfl
    (by rw [hq.1, hq'.1])
  have e2 := bits_window [(true, 3), (false, 1)] p [x, y] q p' [x', y'] q' (by simp) (by decide) hp.1 hp'.1 rfl
    (by rw [hq.1, hq'.1])
  have e3 := bits_window [(true, 0), (false, 2)] p [x, y] q p' [x', y'] q' (by simp) (by decide) hp.1 hp'.1 rfl
    (by rw [hq.1, hq'.1])
  have e4 := bits_window [(true, 2), (false, 0)] p [x, y] q p' [x', y'] q' (by simp) (by decide) hp.1 hp'.1 rfl
    (by rw [hq.1, hq'.1])
  simp only [List.map_cons, List.map_nil, Nat.add_zero] at e1 e2 e3 e4
  rw [e1, e2, e3, e4, ← hub_upR x hx y hy x' hx' y' hy', ← hub_dnR x hx y hy x' hx' y' hy',
    ← neg_neg (fEl [(true, 1), (false, 3)] _ _), ← hub_upL x hx y hy x' hx' y' hy',
    ← neg_neg (fEl [(true, 0), (false, 2)] _ _), ← hub_dnL x hx y hy x' hx' y' hy']
  simp only [sum_range_succ, sum_range_zero, zero_add, opEl_at2 hn hp.1 hp'.1 hq.1 hq'.1]
  simp only [hubA, hubB, Mat.smul', if_true, one_ne_zero, if_false, OfNat.ofNat_ne_zero, OfNat.ofNat_ne_one]
  have h32 : (3 : ℕ) ≠ 2 := by decide
  simp only [h32, if_false]
  rw [up_tab y hy y' hy', upd_tab y hy y' hy', dn_tab y hy y' hy', dnd_tab y hy y' hy', upP_tab x hx x' hx',
    updP_tab x hx x' hx', dnP_tab x hx x' hx', dndP_tab x hx x' hx']
  push_cast
  ring

theorem hub_at1 {N n : ℕ} (U muU muD : ℂ) {s u : List ℕ} (hs : Cf 4 N s) (hu : Cf 4 N u) (hn : n + 1 ≤ N) :
    opEl (at1 4 N n (hubLoc U muU muD)) s u
      = muU * fEl [(true, 2 * n + 1), (false, 2 * n + 1)] (bits s) (bits u) +
        muD * fEl [(true, 2 * n), (false, 2 * n)] (bits s) (bits u) +
        U * fEl [(true, 2 * n + 1), (false, 2 * n + 1), (true, 2 * n), (false, 2 * n)] (bits s) (bits u) := by
  obtain ⟨p, w, q, rfl, hp, hw, hq⟩ := hs.split hn
  obtain ⟨p', w', q', rfl, hp', hw', hq'⟩ := hu.split hn
  obtain ⟨x, w, rfl, hx, hw⟩ := hw.exists_cons
  obtain rfl := hw.zero
  obtain ⟨x', w', rfl, hx', hw'⟩ := hw'.exists_cons
  obtain rfl := hw'.zero
  have e1 := bits_window [(true, 1), (false, 1)] p [x] q p' [x'] q' (by simp) (by decide) hp.1 hp'.1 rfl
    (by rw [hq.1, hq'.1])
  have e2 := bits_window [(true, 0), (false, 0)] p [x] q p' [x'] q' (by simp) (by decide) hp.1 hp'.1 rfl
    (by rw [hq.1, hq'.1])
  have e3 := bits_window [(true, 1), (false, 1), (true, 0), (false, 0)] p [x] q p' [x'] q' (by simp) (by decide) hp.1
    hp'.1 rfl (by rw [hq.1, hq'.1])
  simp only [List.map_cons, List.map_nil, Nat.add_zero] at e1 e2 e3
  rw [e1, e2, e3, ← hub_up x hx x' hx', ← hub_dn x hx x' hx', ← hub_u x hx x' hx',
    opEl_at1 hn hp.1 hp'.1 hq.1 hq'.1]
  simp only [hubLoc, Mat.smul', Mat.add']
  rw [upN_tab x hx x' hx', dnN_tab x hx x' hx', uN_tab x hx x' hx']
  push_cast
  ring

end

end PyTeN
