import Verif.Ham.Fermion
import Verif.Engine.TebdState
import Mathlib.Analysis.Normed.Algebra.MatrixExponential

/-! # Two-site gates of an MPO, `MPO.twoSiteGate` (lib/mpslib/Hamiltonians.py:38-83)

`scipy.linalg.expm` is modelled by the matrix exponential of Mathlib (exact arithmetic). -/

namespace PyTeN
open Finset

noncomputable section

/-! ## Model -/

/-- `np.kron(A,B)`. -/
def Mat.kron (A B : Mat ℂ) : Mat ℂ :=
  ⟨A.r * B.r, A.c * B.c, fun i j => A.v (i / B.r) (j / B.c) * B.v (i % B.r) (j % B.c)⟩

/-- `M/2.0`. -/
def Mat.half (M : Mat ℂ) : Mat ℂ := ⟨M.r, M.c, fun i j => M.v i j / 2⟩

/-- `mpo[m][-1,s,:,:]`, lib/mpslib/Hamiltonians.py:53. -/
def Mpo.lastRow (W : Mpo ℂ) (s : ℕ) : Mat ℂ := ⟨W.din, W.dout, fun x y => W.v (W.l - 1) s x y⟩
/-- `mpo[n][s,0,:,:]`, lib/mpslib/Hamiltonians.py:54. -/
def Mpo.firstCol (W : Mpo ℂ) (s : ℕ) : Mat ℂ := ⟨W.din, W.dout, fun x y => W.v s 0 x y⟩

/-- `for s in range(a,b): h+=np.kron(mpo1[s,:,:],mpo2[s,:,:])`, lib/mpslib/Hamiltonians.py:62-63. -/
def addKrons (W1 W2 : Mpo ℂ) (a b : ℕ) (h : Mat ℂ) : Mat ℂ :=
  (List.range' a (b - a)).foldl (fun h s => h.add' ((W1.lastRow s).kron (W2.firstCol s))) h

/-- The generator `h` of the gate, lib/mpslib/Hamiltonians.py:60-76; `D` is `mpo1.shape[0]`.  No branch assigns `h`
when `nl=0` and `nr=N-1`. -/
def gateGen (N : ℕ) (W1 W2 : Mpo ℂ) (nl nr : ℤ) : Res (Mat ℂ) :=
  let D := W1.r
  let first := (W1.lastRow 0).kron (W2.firstCol 0)
  let firstHalf := (W1.lastRow 0).half.kron (W2.firstCol 0)
  let lastHalf := (W1.lastRow (D - 1)).kron (W2.firstCol (D - 1)).half
  if nl = 0 ∧ nr = (N : ℤ) - 1 then .error .unbound
  else if D = 0 then .error .index
  else if nl ≠ 0 ∧ nr ≠ (N : ℤ) - 1 then .ok ((addKrons W1 W2 1 (D - 1) firstHalf).add' lastHalf)
  else if nl ≠ 0 ∧ nr = (N : ℤ) - 1 then .ok (addKrons W1 W2 1 D firstHalf)
  else .ok ((addKrons W1 W2 1 (D - 1) first).add' lastHalf)

/-- `expm(tau*h)` for a `D×D` array, lib/mpslib/Hamiltonians.py:77. -/
def expMat (D : ℕ) (h : Mat ℂ) (tau : ℂ) : Matrix (Fin D) (Fin D) ℂ :=
  NormedSpace.exp (tau • Matrix.of fun a b : Fin D => h.v a b)

/-- Entry of a square matrix at natural-number indices. -/
def entry {D : ℕ} (M : Matrix (Fin D) (Fin D) ℂ) (i j : ℕ) : ℂ :=
  if h : i < D ∧ j < D then M ⟨i, h.1⟩ ⟨j, h.2⟩ else 0

/-- `np.reshape(sp.linalg.expm(tau*h),(d1,d2,d1,d2))`, lib/mpslib/Hamiltonians.py:77; `expm` rejects an array that
is not square (ValueError). -/
def gateOf (d1 d2 : ℕ) (h : Mat ℂ) (tau : ℂ) : Res Gate2 :=
  if h.r = h.c then
    .ok ⟨d1, d2, d1, d2, fun x y x' y' => entry (expMat (d1 * d2) h tau) (x * d2 + y) (x' * d2 + y')⟩
  else .error .value

/-- `self._mpo[n]` for a Python integer. -/
def getM (Ws : List (Mpo ℂ)) (n : ℤ) : Res (Mpo ℂ) :=
  match pyIdx Ws.length n with
  | some k => getE Ws k
  | none => .error .index

/-- `mpo1=self._mpo[i][-1,:,:,:]`, `mpo2=self._mpo[j][:,0,:,:]` and the assertion, lib/mpslib/Hamiltonians.py:47-57. -/
def gatePair (Ws : List (Mpo ℂ)) (i j : ℤ) : Res (Mpo ℂ × Mpo ℂ) :=
  match getM Ws i with
  | .error e => .error e
  | .ok W1 =>
    if W1.l = 0 then .error .index
    else
      match getM Ws j with
      | .error e => .error e
      | .ok W2 => if W2.r = 0 then .error .index else if W1.r = W2.l then .ok (W1, W2) else .error .assertion

/-- `MPO.twoSiteGate(m,n,tau)`, lib/mpslib/Hamiltonians.py:38-80.  For `n<m` the name `nr` is never assigned (the code
assigns `mr`), for `n=m` not even `mpo1`. -/
def twoSiteGate (Ws : List (Mpo ℂ)) (m n : ℤ) (tau : ℂ) : Res Gate2 :=
  if n < m then
    match gatePair Ws n m with
    | .error e => .error e
    | .ok _ => .error .unbound
  else if m < n then
    match gatePair Ws m n with
    | .error e => .error e
    | .ok (W1, W2) =>
      match gateGen Ws.length W1 W2 m n with
      | .error e => .error e
      | .ok h => gateOf W1.din W2.din h tau
  else .error .unbound

/-! ## Specification -/

/-- Matrix element of a two-site operator at the sites `n`, `n+1`, the identity elsewhere. -/
def bondEl (n : ℕ) (g : ℕ → ℕ → ℕ → ℕ → ℂ) (s t : List ℕ) : ℂ :=
  if s.take n = t.take n ∧ s.drop (n + 2) = t.drop (n + 2) then
    g (s.getD n 0) (s.getD (n + 1) 0) (t.getD n 0) (t.getD (n + 1) 0)
  else 0

/-! ## Lemmas -/

theorem addKrons_v (W1 W2 : Mpo ℂ) (a b : ℕ) (h : Mat ℂ) (i j : ℕ) :
    (addKrons W1 W2 a b h).v i j
      = h.v i j + ∑ s ∈ range (b - a), ((W1.lastRow (a + s)).kron (W2.firstCol (a + s))).v i j := by
  unfold addKrons
  induction b - a generalizing a h with
  | zero => simp
  | succ m ih =>
    rw [List.range'_succ, List.foldl_cons, ih, sum_range_succ']
    simp only [Mat.add', Nat.add_zero]
    rw [sum_congr rfl fun s _ => by rw [show a + 1 + s = a + (s + 1) by omega]]
    ring

theorem addKrons_shape (W1 W2 : Mpo ℂ) (a b : ℕ) (h : Mat ℂ) :
    (addKrons W1 W2 a b h).r = h.r ∧ (addKrons W1 W2 a b h).c = h.c := by
  unfold addKrons
  induction b - a generalizing a h with
  | zero => simp
  | succ m ih => rw [List.range'_succ, List.foldl_cons]; exact ih _ _

/-- Generator of the gate at bond `n` of a nearest-neighbour Hamiltonian: on-site terms are shared equally between the
two bonds of a site and belong completely to the only bond of a boundary site. -/
def nnGen (K N : ℕ) (X : ℕ → Loc) (n x y x' y' : ℕ) : ℂ :=
  (if n = 0 then 1 else 1 / 2) * ((X n).h.v x x' * delta ℂ y y') +
    ∑ k ∈ range K, ((X n).A k).v x x' * ((X (n + 1)).B k).v y y' +
    (if n + 2 = N then 1 else 1 / 2) * (delta ℂ x x' * (X (n + 1)).h.v y y')

/-- What is used of two neighbouring tensors of nearest-neighbour form. -/
structure NNPair (d K : ℕ) (W1 W2 : Mpo ℂ) (X Y : Loc) : Prop where
  r : W1.r = K + 2
  l : W2.l = K + 2
  d1 : W1.din = d
  d1' : W1.dout = d
  d2 : W2.din = d
  d2' : W2.dout = d
  l1 : W1.l ≠ 0
  r2 : W2.r ≠ 0
  h : ∀ x < d, ∀ x' < d, W1.v (W1.l - 1) 0 x x' = X.h.v x x'
  A : ∀ k < K, ∀ x < d, ∀ x' < d, W1.v (W1.l - 1) (k + 1) x x' = (X.A k).v x x'
  one : ∀ x < d, ∀ x' < d, W1.v (W1.l - 1) (K + 1) x x' = delta ℂ x x'
  top : ∀ x < d, ∀ x' < d, W2.v 0 0 x x' = delta ℂ x x'
  B : ∀ k < K, ∀ x < d, ∀ x' < d, W2.v (k + 1) 0 x x' = (Y.B k).v x x'
  h' : ∀ x < d, ∀ x' < d, W2.v (K + 1) 0 x x' = Y.h.v x x'

theorem NNForm.pair {d K N : ℕ} {Ws : List (Mpo ℂ)} {X : ℕ → Loc} (h : NNForm d K N Ws X) {n : ℕ} (hn : n + 1 < N)
    {W1 W2 : Mpo ℂ} (h1 : Ws[n]? = some W1) (h2 : Ws[n + 1]? = some W2) : NNPair d K W1 W2 (X n) (X (n + 1)) := by
  obtain ⟨g1, g2, g3, g4, g5, g6, g7, g8⟩ : W2.l = K + 2 ∧ W2.din = d ∧ W2.dout = d ∧ W2.r ≠ 0 ∧
      (∀ x < d, ∀ x' < d, W2.v 0 0 x x' = delta ℂ x x') ∧
      (∀ k < K, ∀ x < d, ∀ x' < d, W2.v (k + 1) 0 x x' = ((X (n + 1)).B k).v x x') ∧
      (∀ x < d, ∀ x' < d, W2.v (K + 1) 0 x x' = (X (n + 1)).h.v x x') ∧ True := by
    by_cases hl : n + 1 = N - 1
    · rw [hl] at h2 ⊢
      have := h.last W2 h2
      exact ⟨this.l, this.din, this.dout, by rw [this.r]; omega, this.top, this.B, this.h, trivial⟩
    · have := h.bulk (n + 1) W2 (by omega) (by omega) h2
      exact ⟨this.l, this.din, this.dout, by rw [this.r]; omega, this.top, this.B, this.h, trivial⟩
  by_cases hz : n = 0
  · subst hz
    have f := h.first W1 h1
    have e : W1.l - 1 = 0 := by rw [f.l]
    refine ⟨f.r, g1, f.din, f.dout, g2, g3, by rw [f.l]; omega, g4, ?_, ?_, ?_, g5, g6, g7⟩ <;> rw [e]
    exacts [f.h, f.A, f.one]
  · have f := h.bulk n W1 (by omega) (by omega) h1
    have e : W1.l - 1 = K + 1 := by rw [f.l]; omega
    refine ⟨f.r, g1, f.din, f.dout, g2, g3, by rw [f.l]; omega, g4, ?_, ?_, ?_, g5, g6, g7⟩ <;> rw [e]
    exacts [f.h, f.A, f.one]

theorem gateGen_nn {d K N n : ℕ} {W1 W2 : Mpo ℂ} {X : ℕ → Loc} (h : NNPair d K W1 W2 (X n) (X (n + 1)))
    (hN : 3 ≤ N) (hn : n + 1 < N) :
    ∃ M, gateGen N W1 W2 (n : ℤ) ((n : ℤ) + 1) = .ok M ∧ M.r = d * d ∧ M.c = d * d ∧
      ∀ x < d, ∀ y < d, ∀ x' < d, ∀ y' < d, M.v (x * d + y) (x' * d + y') = nnGen K N X n x y x' y' := by
  have hd : ∀ {x y : ℕ}, y < d → (x * d + y) / d = x ∧ (x * d + y) % d = y := by
    intro x y hy
    constructor
    · rw [mul_comm, Nat.mul_add_div (by omega), Nat.div_eq_of_lt hy]; rfl
    · rw [mul_comm, Nat.mul_add_mod, Nat.mod_eq_of_lt hy]
  have first : ∀ x < d, ∀ y < d, ∀ x' < d, ∀ y' < d,
      ((W1.lastRow 0).kron (W2.firstCol 0)).v (x * d + y) (x' * d + y') = (X n).h.v x x' * delta ℂ y y' := by
    intro x hx y hy x' hx' y' hy'
    simp only [Mat.kron, Mpo.lastRow, Mpo.firstCol, h.d2, h.d2', hd hy, hd hy']
    rw [h.h x hx x' hx', h.top y hy y' hy']
  have firstH : ∀ x < d, ∀ y < d, ∀ x' < d, ∀ y' < d,
      ((W1.lastRow 0).half.kron (W2.firstCol 0)).v (x * d + y) (x' * d + y')
        = 1 / 2 * ((X n).h.v x x' * delta ℂ y y') := by
    intro x hx y hy x' hx' y' hy'
    simp only [Mat.kron, Mat.half, Mpo.lastRow, Mpo.firstCol, h.d2, h.d2', hd hy, hd hy']
    rw [h.h x hx x' hx', h.top y hy y' hy']; ring
  have last : ∀ x < d, ∀ y < d, ∀ x' < d, ∀ y' < d,
      ((W1.lastRow (K + 1)).kron (W2.firstCol (K + 1))).v (x * d + y) (x' * d + y')
        = delta ℂ x x' * (X (n + 1)).h.v y y' := by
    intro x hx y hy x' hx' y' hy'
    simp only [Mat.kron, Mpo.lastRow, Mpo.firstCol, h.d2, h.d2', hd hy, hd hy']
    rw [h.one x hx x' hx', h.h' y hy y' hy']
  have lastH : ∀ x < d, ∀ y < d, ∀ x' < d, ∀ y' < d,
      ((W1.lastRow (K + 1)).kron (W2.firstCol (K + 1)).half).v (x * d + y) (x' * d + y')
        = 1 / 2 * (delta ℂ x x' * (X (n + 1)).h.v y y') := by
    intro x hx y hy x' hx' y' hy'
    simp only [Mat.kron, Mat.half, Mpo.lastRow, Mpo.firstCol, h.d2, h.d2', hd hy, hd hy']
    rw [h.one x hx x' hx', h.h' y hy y' hy']; ring
  have mid : ∀ k < K, ∀ x < d, ∀ y < d, ∀ x' < d, ∀ y' < d,
      ((W1.lastRow (1 + k)).kron (W2.firstCol (1 + k))).v (x * d + y) (x' * d + y')
        = ((X n).A k).v x x' * ((X (n + 1)).B k).v y y' := by
    intro k hk x hx y hy x' hx' y' hy'
    simp only [Mat.kron, Mpo.lastRow, Mpo.firstCol, h.d2, h.d2', hd hy, hd hy', add_comm 1 k]
    rw [h.A k hk x hx x' hx', h.B k hk y hy y' hy']
  have hD : W1.r - 1 = K + 1 := by rw [h.r]; omega
  have hD0 : W1.r ≠ 0 := by rw [h.r]; omega
  unfold gateGen
  simp only [hD]
  rw [if_neg (by omega), if_neg hD0]
  by_cases h0 : n = 0
  · have h3 : n + 2 ≠ N := by omega
    rw [if_neg (by omega), if_neg (by omega)]
    refine ⟨_, rfl, ?_, ?_, ?_⟩
    · simp only [Mat.add', addKrons_shape, Mat.kron, Mpo.lastRow, Mpo.firstCol, h.d1, h.d2]
    · simp only [Mat.add', addKrons_shape, Mat.kron, Mpo.lastRow, Mpo.firstCol, h.d1', h.d2']
    · intro x hx y hy x' hx' y' hy'
      simp only [Mat.add', addKrons_v, Nat.add_sub_cancel]
      rw [first x hx y hy x' hx' y' hy', lastH x hx y hy x' hx' y' hy',
        sum_congr rfl fun k hk => mid k (mem_range.mp hk) x hx y hy x' hx' y' hy']
      simp only [nnGen, if_pos h0, if_neg h3]; ring
  · by_cases h3 : n + 2 = N
    · rw [if_neg (by omega), if_pos (by omega)]
      refine ⟨_, rfl, ?_, ?_, ?_⟩
      · simp only [addKrons_shape, Mat.kron, Mat.half, Mpo.lastRow, Mpo.firstCol, h.d1, h.d2]
      · simp only [addKrons_shape, Mat.kron, Mat.half, Mpo.lastRow, Mpo.firstCol, h.d1', h.d2']
      · intro x hx y hy x' hx' y' hy'
        simp only [addKrons_v, hD]
        rw [firstH x hx y hy x' hx' y' hy', sum_range_succ, add_comm 1 K, last x hx y hy x' hx' y' hy',
          sum_congr rfl fun k hk => mid k (mem_range.mp hk) x hx y hy x' hx' y' hy']
        simp only [nnGen, if_neg h0, if_pos h3]; ring
    · rw [if_pos (by omega)]
      refine ⟨_, rfl, ?_, ?_, ?_⟩
      · simp only [Mat.add', addKrons_shape, Mat.kron, Mat.half, Mpo.lastRow, Mpo.firstCol, h.d1, h.d2]
      · simp only [Mat.add', addKrons_shape, Mat.kron, Mat.half, Mpo.lastRow, Mpo.firstCol, h.d1', h.d2']
      · intro x hx y hy x' hx' y' hy'
        simp only [Mat.add', addKrons_v, Nat.add_sub_cancel]
        rw [firstH x hx y hy x' hx' y' hy', lastH x hx y hy x' hx' y' hy',
          sum_congr rfl fun k hk => mid k (mem_range.mp hk) x hx y hy x' hx' y' hy']
        simp only [nnGen, if_neg h0, if_neg h3]

/-! ### The generators sum up to the Hamiltonian -/

theorem opEl_bond2 {d N n : ℕ} {a b : Mat ℂ} {s t : List ℕ} (hs : Cf d N s) (ht : Cf d N t) (hn : n + 2 ≤ N) :
    opEl (at2 d N n a b) s t = bondEl n (fun x y x' y' => a.v x x' * b.v y y') s t := by
  obtain ⟨p, w, q, rfl, hp, hw, hq⟩ := hs.split hn
  obtain ⟨p', w', q', rfl, hp', hw', hq'⟩ := ht.split hn
  obtain ⟨x, w, rfl, hx, hw⟩ := hw.exists_cons
  obtain ⟨y, w, rfl, hy, hw⟩ := hw.exists_cons
  obtain rfl := hw.zero
  obtain ⟨x', w', rfl, hx', hw'⟩ := hw'.exists_cons
  obtain ⟨y', w', rfl, hy', hw'⟩ := hw'.exists_cons
  obtain rfl := hw'.zero
  rw [opEl_at2 hn hp.1 hp'.1 hq.1 hq'.1]
  have e1 : (p ++ [x, y] ++ q).take n = p := by rw [List.append_assoc, ← hp.1, List.take_left]
  have e1' : (p' ++ [x', y'] ++ q').take n = p' := by rw [List.append_assoc, ← hp'.1, List.take_left]
  have e2 : (p ++ [x, y] ++ q).drop (n + 2) = q := List.drop_left' (by simp [hp.1])
  have e2' : (p' ++ [x', y'] ++ q').drop (n + 2) = q' := List.drop_left' (by simp [hp'.1])
  have e3 : (p ++ [x, y] ++ q).getD n 0 = x := by simp [hp.1]
  have e3' : (p' ++ [x', y'] ++ q').getD n 0 = x' := by simp [hp'.1]
  have e4 : (p ++ [x, y] ++ q).getD (n + 1) 0 = y := by simp [hp.1]
  have e4' : (p' ++ [x', y'] ++ q').getD (n + 1) 0 = y' := by simp [hp'.1]
  unfold bondEl
  rw [e1, e1', e2, e2', e3, e3', e4, e4']
  by_cases h1 : p = p' <;> by_cases h2 : q = q' <;> simp [h1, h2]

theorem at1_left (d N n : ℕ) (o : Mat ℂ) (hn : n + 2 ≤ N) : at1 d N n o = at2 d N n o (eyeK ℂ d) := by
  simp only [at1, at2]
  rw [show N - 1 - n = N - 2 - n + 1 by omega, List.replicate_succ]

theorem at1_right (d N n : ℕ) (o : Mat ℂ) (hn : n + 2 ≤ N) : at1 d N (n + 1) o = at2 d N n (eyeK ℂ d) o := by
  simp only [at1, at2]
  rw [List.replicate_succ', List.append_assoc, show N - 1 - (n + 1) = N - 2 - n by omega]; rfl

theorem bondEl_lin (n K : ℕ) (c c' : ℂ) (f f' : ℕ → ℕ → ℕ → ℕ → ℂ) (g : ℕ → ℕ → ℕ → ℕ → ℕ → ℂ) (s t : List ℕ) :
    bondEl n (fun x y x' y' => c * f x y x' y' + ∑ k ∈ range K, g k x y x' y' + c' * f' x y x' y') s t
      = c * bondEl n f s t + ∑ k ∈ range K, bondEl n (g k) s t + c' * bondEl n f' s t := by
  unfold bondEl
  split_ifs <;> simp

/-- The generators of the gates add up to the Hamiltonian. -/
theorem nnGen_sum {d K N : ℕ} (X : ℕ → Loc) (hN : 3 ≤ N) {s t : List ℕ} (hs : Cf d N s) (ht : Cf d N t) :
    ∑ n ∈ range (N - 1), bondEl n (nnGen K N X n) s t = hamEl d K N X s t := by
  have hb : ∀ n ∈ range (N - 1), bondEl n (nnGen K N X n) s t
      = (if n = 0 then 1 else 1 / 2) * opEl (at1 d N n (X n).h) s t +
        ∑ k ∈ range K, opEl (at2 d N n ((X n).A k) ((X (n + 1)).B k)) s t +
        (if n + 2 = N then 1 else 1 / 2) * opEl (at1 d N (n + 1) (X (n + 1)).h) s t := by
    intro n hn
    have hn' : n + 2 ≤ N := by have := mem_range.mp hn; omega
    unfold nnGen
    rw [bondEl_lin n K _ _ _ _ fun k x y x' y' => ((X n).A k).v x x' * ((X (n + 1)).B k).v y y',
      at1_left d N n _ hn', at1_right d N n _ hn', opEl_bond2 hs ht hn', opEl_bond2 hs ht hn',
      sum_congr rfl fun k _ => (opEl_bond2 (a := (X n).A k) (b := (X (n + 1)).B k) hs ht hn').symm]
    rfl
  rw [sum_congr rfl hb, sum_add_distrib, sum_add_distrib, hamEl, add_right_comm]
  congr 1
  obtain ⟨m, rfl⟩ : ∃ m, N = m + 2 := ⟨N - 2, by omega⟩
  generalize hf : (fun n => opEl (at1 d (m + 2) n (X n).h) s t) = f
  have hf' : ∀ n, opEl (at1 d (m + 2) n (X n).h) s t = f n := fun n => by rw [← hf]
  simp only [hf', show m + 2 - 1 = m + 1 by omega]
  rw [sum_range_succ', sum_range_succ (fun n => (if n + 2 = m + 2 then (1 : ℂ) else 1 / 2) * f (n + 1)),
    sum_range_succ, sum_range_succ' f m]
  have e1 : ∑ k ∈ range m, (if k + 1 = 0 then (1 : ℂ) else 1 / 2) * f (k + 1) = ∑ k ∈ range m, 1 / 2 * f (k + 1) :=
    sum_congr rfl fun k _ => by rw [if_neg (by omega)]
  have e2 : ∑ k ∈ range m, (if k + 2 = m + 2 then (1 : ℂ) else 1 / 2) * f (k + 1) = ∑ k ∈ range m, 1 / 2 * f (k + 1) :=
    sum_congr rfl fun k hk => by rw [if_neg (by have := mem_range.mp hk; omega)]
  have e3 : ∑ k ∈ range m, f (k + 1) = ∑ k ∈ range m, 1 / 2 * f (k + 1) + ∑ k ∈ range m, 1 / 2 * f (k + 1) := by
    rw [← sum_add_distrib]; exact sum_congr rfl fun k _ => by ring
  rw [e1, e2, e3]
  simp; ring

/-! ### The gates form a one-parameter group -/

theorem entry_mul {D : ℕ} (M M' : Matrix (Fin D) (Fin D) ℂ) {i j : ℕ} (hi : i < D) (hj : j < D) :
    entry (M * M') i j = ∑ k ∈ range D, entry M i k * entry M' k j := by
  rw [← Fin.sum_univ_eq_sum_range (fun k => entry M i k * entry M' k j) D]
  simp only [entry, hi, hj, and_self, dif_pos, Matrix.mul_apply, Fin.is_lt]

theorem expMat_add (D : ℕ) (h : Mat ℂ) (a b : ℂ) : expMat D h (a + b) = expMat D h a * expMat D h b := by
  unfold expMat
  rw [add_smul]
  exact Matrix.exp_add_of_commute _ _ (((Commute.refl _).smul_left a).smul_right b)

theorem expMat_zero (D : ℕ) (h : Mat ℂ) : expMat D h 0 = 1 := by
  unfold expMat
  rw [zero_smul, NormedSpace.exp_zero]

theorem entry_one {D i j : ℕ} (hi : i < D) (hj : j < D) :
    entry (1 : Matrix (Fin D) (Fin D) ℂ) i j = if i = j then 1 else 0 := by
  simp [entry, hi, hj, Matrix.one_apply]

theorem pairIdx_inj {d2 x y x' y' : ℕ} (hy : y < d2) (hy' : y' < d2) : x * d2 + y = x' * d2 + y' ↔ x = x' ∧ y = y' := by
  constructor
  · intro e
    have h1 := congrArg (· / d2) e
    have h2 := congrArg (· % d2) e
    simp only [mul_comm _ d2, Nat.mul_add_mod, Nat.mod_eq_of_lt hy, Nat.mod_eq_of_lt hy',
      Nat.mul_add_div (show 0 < d2 by omega), Nat.div_eq_of_lt hy, Nat.div_eq_of_lt hy', Nat.add_zero] at h1 h2
    exact ⟨h1, h2⟩
  · rintro ⟨rfl, rfl⟩; rfl

theorem getM_nat {Ws : List (Mpo ℂ)} {n : ℕ} (h : n < Ws.length) : getM Ws (n : ℤ) = .ok Ws[n] := by
  unfold getM
  rw [pyIdx_nat h]
  simp [getE, List.getElem?_eq_getElem h]

/-- Spec: a two-site operator as a matrix. -/
def genMat (d : ℕ) (g : ℕ → ℕ → ℕ → ℕ → ℂ) : Matrix (Fin (d * d)) (Fin (d * d)) ℂ :=
  Matrix.of fun a b => g (a / d) (a % d) (b / d) (b % d)

/-- Spec: the exponential of a two-site operator, as an array with four legs. -/
def expGate (d : ℕ) (g : ℕ → ℕ → ℕ → ℕ → ℂ) (tau : ℂ) : Gate2 :=
  ⟨d, d, d, d, fun x y x' y' => entry (NormedSpace.exp (tau • genMat d g)) (x * d + y) (x' * d + y')⟩

theorem expMat_gen {d : ℕ} {M : Mat ℂ} {g : ℕ → ℕ → ℕ → ℕ → ℂ}
    (h : ∀ x < d, ∀ y < d, ∀ x' < d, ∀ y' < d, M.v (x * d + y) (x' * d + y') = g x y x' y') (tau : ℂ) :
    expMat (d * d) M tau = NormedSpace.exp (tau • genMat d g) := by
  unfold expMat
  congr 2
  ext a b
  simp only [genMat, Matrix.of_apply]
  have hd : 0 < d := by
    rcases Nat.eq_zero_or_pos d with rfl | hd
    · exact absurd a.2 (by simp)
    · exact hd
  rw [← h _ (Nat.div_lt_of_lt_mul a.2) _ (Nat.mod_lt _ hd) _ (Nat.div_lt_of_lt_mul b.2) _ (Nat.mod_lt _ hd)]
  rw [Nat.div_add_mod', Nat.div_add_mod']

/-- `twoSiteGate` on neighbouring sites of an MPO of nearest-neighbour form with at least three sites. -/
theorem twoSiteGate_nn {d K N n : ℕ} {Ws : List (Mpo ℂ)} {X : ℕ → Loc} (h : NNForm d K N Ws X) (hN : 3 ≤ N)
    (hn : n + 1 < N) (tau : ℂ) : twoSiteGate Ws n (n + 1) tau = .ok (expGate d (nnGen K N X n) tau) := by
  have l1 : n < Ws.length := by rw [h.len]; omega
  have l2 : n + 1 < Ws.length := by rw [h.len]; omega
  have hp := h.pair hn (List.getElem?_eq_getElem l1) (List.getElem?_eq_getElem l2)
  obtain ⟨M, hM, hr, hc, hv⟩ := gateGen_nn hp hN hn
  have g2 := getM_nat l2
  push_cast at g2
  have hpair : gatePair Ws n (n + 1) = .ok (Ws[n], Ws[n + 1]) := by
    simp only [gatePair, getM_nat l1, g2]
    rw [if_neg hp.l1, if_neg hp.r2, if_pos (hp.r.trans hp.l.symm)]
  unfold twoSiteGate
  rw [if_neg (by omega), if_pos (by omega), hpair]
  simp only [h.len, hM, gateOf]
  rw [if_pos (hr.trans hc.symm), hp.d1, hp.d2, expMat_gen hv]
  rfl

/-- The gates as a family with the shapes of the sites. -/
def nnGates (d K N : ℕ) (X : ℕ → Loc) (n : ℕ) (tau : ℂ) : Gate2 :=
  ⟨(List.replicate N d).getD n 0, (List.replicate N d).getD (n + 1) 0, (List.replicate N d).getD n 0,
    (List.replicate N d).getD (n + 1) 0, (expGate d (nnGen K N X n) tau).v⟩

/-- The gates of such an MPO satisfy the contract under which TEBD has been treated. -/
theorem gateGroup_nn {d K N : ℕ} {Ws : List (Mpo ℂ)} {X : ℕ → Loc} (h : NNForm d K N Ws X) (hN : 3 ≤ N) :
    GateGroup (twoSiteGate Ws) (List.replicate N d) (nnGates d K N X) := by
  have hg : ∀ n < N, (List.replicate N d).getD n 0 = d := fun n hn => by simp [hn]
  refine ⟨?_, fun _ _ => rfl, fun _ _ => rfl, fun _ _ => rfl, fun _ _ => rfl, ?_, ?_⟩
  · intro n tau hn
    rw [List.length_replicate] at hn
    rw [twoSiteGate_nn h hN hn, nnGates, hg n (by omega), hg _ hn]
    rfl
  · intro n tau tau' hn x hx y hy x' hx' y' hy'
    rw [List.length_replicate] at hn
    rw [hg n (by omega)] at *
    rw [hg _ hn] at *
    simp only [nnGates, expGate]
    rw [← sum_range_mul d d fun k => entry (NormedSpace.exp (tau • genMat d (nnGen K N X n))) (x * d + y) k *
      entry (NormedSpace.exp (tau' • genMat d (nnGen K N X n))) k (x' * d + y'),
      ← entry_mul _ _ (idx_lt hx hy) (idx_lt hx' hy'), add_smul,
      Matrix.exp_add_of_commute _ _ (((Commute.refl _).smul_left tau).smul_right tau')]
  · intro n hn x hx y hy x' hx' y' hy'
    rw [List.length_replicate] at hn
    rw [hg n (by omega)] at *
    rw [hg _ hn] at *
    simp only [nnGates, expGate, zero_smul, NormedSpace.exp_zero]
    rw [entry_one (idx_lt hx hy) (idx_lt hx' hy')]
    simp only [pairIdx_inj hy hy']

end

end PyTeN
