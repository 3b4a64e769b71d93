import Verif.Krylov.Lanczos
import Verif.Krylov.Eigh
import Mathlib.Analysis.InnerProductSpace.Symmetric
import Mathlib.Analysis.InnerProductSpace.PiL2
import Mathlib.LinearAlgebra.Matrix.NonsingularInverse

/-! # C52: the Lanczos solver -/

namespace PyTeN
open Finset Lanczos

noncomputable section

variable {V : Type} [NormedAddCommGroup V] [InnerProductSpace ℂ V]

/-! ## Specification -/

/-- Orthonormal vectors `q_0,…,q_{n-1}` with `H q_i = k_i q_{i-1} + e_i q_i + k_{i+1} q_{i+1}`, where `last` takes the place
of `k_n q_n`. -/
structure Tridiag (H : V →ₗ[ℂ] V) (q : List V) (k : List ℝ) (e : List ℂ) (last : V) : Prop where
  lk : k.length = q.length
  le : e.length = q.length
  pos : ∀ x ∈ k, 0 < x
  real : ∀ x ∈ e, x.im = 0
  orth : ∀ i < q.length, ∀ j < q.length, inner ℂ (q.getD i 0) (q.getD j 0) = delta ℂ i j
  perp : ∀ i < q.length, inner ℂ (q.getD i 0) last = 0
  recur : ∀ i < q.length, H (q.getD i 0) = (if 0 < i then (k.getD i 0 : ℂ) • q.getD (i - 1) 0 else 0)
    + e.getD i 0 • q.getD i 0 + (if i + 1 < q.length then (k.getD (i + 1) 0 : ℂ) • q.getD (i + 1) 0 else last)

/-- The lowest eigenvalues of the tridiagonal matrix after `n` steps. -/
def etaAt (eigh : Eigh) (p : Params) (k : List ℝ) (e : List ℂ) (n : ℕ) : List ℝ :=
  (eigh (heff (k.take n) (e.take n))).1.take p.numeig

/-- After `n` steps the eigenvalues are computed, they were computed `Ndiag` steps before, and changed by less than
`deltaEta` since. -/
def Stop (eigh : Eigh) (p : Params) (k : List ℝ) (e : List ℂ) (n : ℕ) : Prop :=
  (n - 1) % p.Ndiag = 0 ∧ p.Ndiag < n ∧ p.numeig ≤ n - p.Ndiag ∧
    dist2 (etaAt eigh p k e n) (etaAt eigh p k e (n - p.Ndiag)) < p.deltaEta

/-- A complete run of the iteration. -/
structure Run (H : V →ₗ[ℂ] V) (eigh : Eigh) (p : Params) (x0 : V) (st : St V) (last : V) (conv : Bool) : Prop where
  tri : Tridiag H st.vecs st.kn st.eps last
  first : ∀ q, st.vecs.head? = some q → (‖x0‖ : ℂ) • q = x0
  ge : ∀ k ∈ st.kn, p.delta ≤ k
  le : st.vecs.length ≤ p.ncv + 1
  calls : st.calls = st.vecs.length + 1
  before : ∀ m < st.vecs.length, ¬ Stop eigh p st.kn st.eps m
  conv_iff : conv = true ↔ (‖last‖ < p.delta ∧ st.vecs.length ≤ p.ncv) ∨ Stop eigh p st.kn st.eps st.vecs.length
  full : conv = false → st.vecs.length = p.ncv + 1
  start : st.vecs = [] → ‖last‖ = 1

theorem getD_snoc_lt {α : Type} {l : List α} (a d : α) {i : ℕ} (h : i < l.length) : (l ++ [a]).getD i d = l.getD i d := by
  simp [List.getD_eq_getElem?_getD, List.getElem?_append_left h]

theorem getD_snoc_eq {α : Type} {l : List α} (a d : α) {i : ℕ} (h : i = l.length) : (l ++ [a]).getD i d = a := by
  subst h; simp

theorem reorth_id {vecs : List V} {x : V} (h : ∀ v ∈ vecs, inner ℂ v x = 0) : reorth vecs x = x := by
  unfold reorth
  induction vecs with
  | nil => rfl
  | cons v vecs ih =>
    rw [List.foldl_cons, h v (by simp), zero_smul, sub_zero]
    exact ih fun w hw => h w (by simp [hw])

omit [InnerProductSpace ℂ V] in
theorem mem_getD {q : List V} {v : V} (h : v ∈ q) : ∃ i < q.length, v = q.getD i 0 := by
  obtain ⟨i, hi, rfl⟩ := List.mem_iff_getElem.mp h
  exact ⟨i, hi, by simp [List.getD_eq_getElem?_getD, List.getElem?_eq_getElem hi]⟩

/-- One pass of the loop extends the chain by one vector. -/
theorem body_tridiag {H : V →ₗ[ℂ] V} (hH : H.IsSymmetric) {eigh : Eigh} {p : Params} {re : Bool} {st : St V} {xn : V}
    (h : Tridiag H st.vecs st.kn st.eps xn) (hx : 0 < ‖xn‖) {r : St V × V × Bool}
    (hr : body H eigh p re st.vecs.length st xn = r) :
    Tridiag H r.1.vecs r.1.kn r.1.eps r.2.1 ∧ r.1.vecs = st.vecs ++ [((1 / ‖xn‖ : ℝ) : ℂ) • xn] ∧
      r.1.calls = st.calls + 1 := by
  set n := st.vecs.length with hn
  set x : V := ((1 / ‖xn‖ : ℝ) : ℂ) • xn with hxd
  have hxx : ((‖xn‖ : ℝ) : ℂ) • x = xn := by
    rw [hxd, smul_smul, ← Complex.ofReal_mul, mul_one_div_cancel hx.ne', Complex.ofReal_one, one_smul]
  have hxo : ∀ i < n, inner ℂ (st.vecs.getD i 0) x = 0 := by
    intro i hi; rw [hxd, inner_smul_right, h.perp i hi, mul_zero]
  have hxo' : ∀ i < n, inner ℂ x (st.vecs.getD i 0) = 0 := by
    intro i hi; rw [← inner_conj_symm, hxo i hi, map_zero]
  have hx1 : inner ℂ x x = 1 := by
    rw [inner_self_eq_norm_sq_to_K, hxd, norm_smul, Complex.norm_real, Real.norm_of_nonneg (by positivity),
      one_div_mul_cancel hx.ne']
    simp
  have hre : (if re then reorth st.vecs x else x) = x := by
    split_ifs
    · refine reorth_id fun v hv => ?_
      obtain ⟨i, hi, rfl⟩ := mem_getD hv
      exact hxo i hi
    · rfl
  subst hr
  simp only [body]
  rw [← hxd, hre]
  set e : ℂ := inner ℂ x (H x) with he
  have hereal : e.im = 0 := by
    have : (starRingEnd ℂ) e = e := by rw [he, inner_conj_symm, hH x x]
    exact Complex.conj_eq_iff_im.mp this
  have hlen : (st.vecs ++ [x]).length = n + 1 := by simp [hn]
  have Q : ∀ i < n, (st.vecs ++ [x]).getD i 0 = st.vecs.getD i 0 := fun i hi => getD_snoc_lt _ _ hi
  have Qn : (st.vecs ++ [x]).getD n 0 = x := getD_snoc_eq _ _ hn
  have K : ∀ i < n, (st.kn ++ [‖xn‖]).getD i 0 = st.kn.getD i 0 := fun i hi => getD_snoc_lt _ _ (by rw [h.lk]; exact hi)
  have Kn : (st.kn ++ [‖xn‖]).getD n 0 = ‖xn‖ := getD_snoc_eq _ _ h.lk.symm
  have E : ∀ i < n, (st.eps ++ [e]).getD i 0 = st.eps.getD i 0 := fun i hi => getD_snoc_lt _ _ (by rw [h.le]; exact hi)
  have En : (st.eps ++ [e]).getD n 0 = e := getD_snoc_eq _ _ h.le.symm
  -- the new remainder
  generalize hlast : (if n > 0 then H x - e • x - ((‖xn‖ : ℝ) : ℂ) • (st.vecs ++ [x]).getD ((st.vecs ++ [x]).length - 2) 0
    else H x - e • x) = last
  have hlp : 0 < n → last = H x - e • x - ((‖xn‖ : ℝ) : ℂ) • st.vecs.getD (n - 1) 0 := by
    intro hp
    rw [← hlast, if_pos hp, hlen, show n + 1 - 2 = n - 1 by omega, Q _ (by omega)]
  have hl0 : ¬ 0 < n → last = H x - e • x := by
    intro hp
    rw [← hlast, if_neg hp]
  -- inner products of earlier vectors with H x
  have hHx : ∀ i < n, inner ℂ (st.vecs.getD i 0) (H x) = if i + 1 = n then ((‖xn‖ : ℝ) : ℂ) else 0 := by
    intro i hi
    rw [← hH (st.vecs.getD i 0) x, h.recur i hi, inner_add_left, inner_add_left, inner_smul_left]
    have z1 : inner ℂ (if 0 < i then (st.kn.getD i 0 : ℂ) • st.vecs.getD (i - 1) 0 else 0) x = 0 := by
      split_ifs
      · rw [inner_smul_left, hxo (i - 1) (by omega), mul_zero]
      · rw [inner_zero_left]
    rw [z1, hxo i hi, mul_zero, zero_add, zero_add]
    by_cases hc : i + 1 = n
    · rw [if_neg (by omega), if_pos hc]
      conv_lhs => rw [← hxx]
      rw [inner_smul_left, hx1, mul_one, Complex.conj_ofReal]
    · rw [if_pos (by omega), if_neg hc, inner_smul_left, hxo (i + 1) (by omega), mul_zero]
  refine ⟨⟨?_, ?_, ?_, ?_, ?_, ?_, ?_⟩, rfl, trivial⟩
  · simp [h.lk]
  · simp [h.le]
  · intro y hy
    rcases List.mem_append.mp hy with hy | hy
    · exact h.pos y hy
    · rw [List.mem_singleton.mp hy]; exact hx
  · intro y hy
    rcases List.mem_append.mp hy with hy | hy
    · exact h.real y hy
    · rw [List.mem_singleton.mp hy]; exact hereal
  · intro i hi j hj
    rw [hlen] at hi hj
    rcases Nat.lt_succ_iff_lt_or_eq.mp hi with h1 | rfl <;> rcases Nat.lt_succ_iff_lt_or_eq.mp hj with h2 | rfl
    · rw [Q i h1, Q j h2]; exact h.orth i h1 j h2
    · rw [Q i h1, Qn, hxo i h1, delta_ne (by omega)]
    · rw [Q j h2, Qn, hxo' j h2, delta_ne (by omega)]
    · rw [Qn, hx1]; simp [delta]
  · intro i hi
    rw [hlen] at hi
    rcases Nat.lt_succ_iff_lt_or_eq.mp hi with h1 | rfl
    · rw [Q i h1, hlp (by omega), inner_sub_right, inner_sub_right, hHx i h1, inner_smul_right, hxo i h1, inner_smul_right,
        mul_zero, sub_zero, h.orth i h1 (n - 1) (by omega)]
      by_cases hc : i + 1 = n
      · rw [if_pos hc, show n - 1 = i by omega]; simp [delta]
      · rw [if_neg hc, delta_ne (by omega), mul_zero, sub_zero]
    · rw [Qn]
      have z : inner ℂ x (H x - e • x) = 0 := by
        rw [inner_sub_right, inner_smul_right, hx1, mul_one, ← he, sub_self]
      by_cases hp : 0 < n
      · rw [hlp hp, inner_sub_right, z, inner_smul_right, hxo' (n - 1) (by omega), mul_zero, sub_zero]
      · rw [hl0 hp]; exact z
  · intro i hi
    rw [hlen] at hi ⊢
    rcases Nat.lt_succ_iff_lt_or_eq.mp hi with h1 | rfl
    · rw [Q i h1, h.recur i h1, K i h1, E i h1, Q (i - 1) (by omega), if_pos (show i + 1 < n + 1 by omega)]
      congr 1
      by_cases hc : i + 1 = n
      · rw [if_neg (by omega), hc, Kn, Qn, hxx]
      · rw [if_pos (by omega), K _ (by omega), Q _ (by omega)]
    · rw [if_neg (show ¬ n + 1 < n + 1 by omega), Qn, Kn, En]
      by_cases hp : 0 < n
      · rw [hlp hp, if_pos hp, Q (n - 1) (by omega)]; abel
      · rw [hl0 hp, if_neg hp]; abel

theorem mod_pred {n N : ℕ} (hN : 0 < N) (h : n % N ≠ 0) : (n - 1) % N = n % N - 1 := by
  have h1 := Nat.div_add_mod n N
  have h2 := Nat.mod_lt n hN
  have : n - 1 = N * (n / N) + (n % N - 1) := by omega
  rw [this, Nat.mul_add_mod, Nat.mod_eq_of_lt (by omega)]

theorem mod_pred_zero {n N : ℕ} (hn : 0 < n) (hN : 0 < N) (h : n % N = 0) : (n - 1) % N = N - 1 ∧ N ≤ n := by
  have h1 := Nat.div_add_mod n N
  have hd : 0 < n / N := by
    rcases Nat.eq_zero_or_pos (n / N) with h0 | h0
    · rw [h0, h] at h1; omega
    · exact h0
  have h3 : N * (n / N) = N * (n / N - 1) + N := by
    conv_lhs => rw [show n / N = (n / N - 1) + 1 by omega]
    rw [Nat.mul_add, mul_one]
  refine ⟨?_, by omega⟩
  have : n - 1 = N * (n / N - 1) + (N - 1) := by omega
  rw [this, Nat.mul_add_mod, Nat.mod_eq_of_lt (by omega)]

/-- What `etaold` holds after `n` steps. -/
def EtaInv (eigh : Eigh) (p : Params) (st : St V) : Prop :=
  st.etaold = if 1 ≤ st.vecs.length ∧ p.numeig ≤ st.vecs.length - (st.vecs.length - 1) % p.Ndiag then
    some (etaAt eigh p st.kn st.eps (st.vecs.length - (st.vecs.length - 1) % p.Ndiag)) else none

omit [NormedAddCommGroup V] [InnerProductSpace ℂ V] in
theorem etaAt_snoc {eigh : Eigh} {p : Params} {st : St V} (hk : st.kn.length = st.vecs.length) (he : st.eps.length = st.vecs.length)
    (k : ℝ) (e : ℂ) {m : ℕ} (hm : m ≤ st.vecs.length) :
    etaAt eigh p (st.kn ++ [k]) (st.eps ++ [e]) m = etaAt eigh p st.kn st.eps m := by
  unfold etaAt
  rw [List.take_append_of_le_length (by omega), List.take_append_of_le_length (by omega)]

omit [NormedAddCommGroup V] [InnerProductSpace ℂ V] in
theorem stop_snoc {eigh : Eigh} {p : Params} {st : St V} (hk : st.kn.length = st.vecs.length) (he : st.eps.length = st.vecs.length)
    (k : ℝ) (e : ℂ) {m : ℕ} (hm : m ≤ st.vecs.length) :
    Stop eigh p (st.kn ++ [k]) (st.eps ++ [e]) m ↔ Stop eigh p st.kn st.eps m := by
  unfold Stop
  rw [etaAt_snoc hk he k e hm, etaAt_snoc hk he k e (by omega)]

omit [NormedAddCommGroup V] [InnerProductSpace ℂ V] in
/-- The diagonalisation of step `n+1`. -/
theorem diagCheck_spec {eigh : Eigh} {p : Params} (hN : 0 < p.Ndiag) {st : St V} (hk : st.kn.length = st.vecs.length)
    (he : st.eps.length = st.vecs.length) (hE : EtaInv eigh p st) (k : ℝ) (e : ℂ) (v : V) (calls : ℕ) :
    EtaInv eigh p ⟨st.kn ++ [k], st.eps ++ [e], st.vecs ++ [v],
      (diagCheck eigh p st.vecs.length (st.kn ++ [k]) (st.eps ++ [e]) st.etaold).1, calls⟩ ∧
    ((diagCheck eigh p st.vecs.length (st.kn ++ [k]) (st.eps ++ [e]) st.etaold).2 = true ↔
      Stop eigh p (st.kn ++ [k]) (st.eps ++ [e]) (st.vecs.length + 1)) := by
  unfold EtaInv at hE ⊢
  set n := st.vecs.length with hn
  have hfull : (eigh (heff (st.kn ++ [k]) (st.eps ++ [e]))).1.take p.numeig = etaAt eigh p (st.kn ++ [k]) (st.eps ++ [e]) (n + 1) := by
    unfold etaAt
    rw [List.take_of_length_le (l := st.kn ++ [k]) (by simp [hk]), List.take_of_length_le (l := st.eps ++ [e]) (by simp [he])]
  simp only [List.length_append, List.length_singleton, ← hn, Nat.add_sub_cancel]
  by_cases hc : n % p.Ndiag = 0 ∧ (st.eps ++ [e]).length ≥ p.numeig
  · have hc2 : p.numeig ≤ n + 1 := by simpa [he] using hc.2
    unfold diagCheck
    rw [if_pos hc, if_pos ⟨by omega, by rw [hc.1]; exact hc2⟩, hc.1, Nat.sub_zero]
    rw [hfull]
    refine ⟨rfl, ?_⟩
    simp only
    by_cases h0 : 1 ≤ n
    · obtain ⟨m1, m2⟩ := mod_pred_zero h0 hN hc.1
      have e1 : n - (n - 1) % p.Ndiag = n + 1 - p.Ndiag := by omega
      rw [e1] at hE
      by_cases h2 : p.numeig ≤ n + 1 - p.Ndiag
      · rw [if_pos ⟨h0, h2⟩] at hE
        rw [hE]
        simp only [decide_eq_true_eq]
        have e2 : (etaAt eigh p st.kn st.eps (n + 1 - p.Ndiag)).take p.numeig
            = etaAt eigh p (st.kn ++ [k]) (st.eps ++ [e]) (n + 1 - p.Ndiag) := by
          rw [etaAt_snoc hk he k e (by omega)]
          unfold etaAt
          rw [List.take_take, min_self]
        rw [e2]
        exact ⟨fun h => ⟨hc.1, by omega, h2, h⟩, fun h => h.2.2.2⟩
      · rw [if_neg (fun h => h2 h.2)] at hE
        rw [hE]
        exact ⟨fun h => (by cases h), fun h => absurd h.2.2.1 h2⟩
    · rw [if_neg (fun h => h0 h.1)] at hE
      rw [hE]
      refine ⟨fun h => (by cases h), fun h => ?_⟩
      have := h.2.1
      omega
  · unfold diagCheck
    rw [if_neg hc]
    simp only
    constructor
    · rw [hE]
      by_cases hm : n % p.Ndiag = 0
      · have h2 : ¬ p.numeig ≤ n + 1 := fun h => hc ⟨hm, by simpa [he] using h⟩
        rw [if_neg (fun h => h2 (by omega)), if_neg (fun h => h2 (by omega))]
      · have h3 : 0 < n := by
          rcases Nat.eq_zero_or_pos n with h | h
          · rw [h] at hm; simp at hm
          · exact h
        have h4 := mod_pred hN hm
        have h5 : n - (n - 1) % p.Ndiag = n + 1 - n % p.Ndiag := by omega
        rw [h5]
        by_cases h6 : p.numeig ≤ n + 1 - n % p.Ndiag
        · rw [if_pos ⟨h3, h6⟩, if_pos ⟨by omega, h6⟩, etaAt_snoc hk he k e (by omega)]
        · rw [if_neg (fun h => h6 h.2), if_neg (fun h => h6 h.2)]
    · refine ⟨fun h => (by cases h), fun h => absurd ⟨h.1, ?_⟩ hc⟩
      have := h.2.2.1
      simp [he]
      omega

/-- Invariant of the loop at the test of the norm. -/
structure LanInv (H : V →ₗ[ℂ] V) (eigh : Eigh) (p : Params) (x0 : V) (st : St V) (xn : V) : Prop where
  tri : Tridiag H st.vecs st.kn st.eps xn
  first : ∀ q, (st.vecs ++ [((1 / ‖xn‖ : ℝ) : ℂ) • xn]).head? = some q → (‖x0‖ : ℂ) • q = x0
  ge : ∀ k ∈ st.kn, p.delta ≤ k
  calls : st.calls = st.vecs.length + 1
  before : ∀ m ≤ st.vecs.length, ¬ Stop eigh p st.kn st.eps m
  eta : EtaInv eigh p st
  start : st.vecs = [] → ‖xn‖ = 1

theorem head_snoc {α : Type} {l : List α} {a b q : α} (h : ((l ++ [a]) ++ [b]).head? = some q) : (l ++ [a]).head? = some q := by
  rw [List.head?_append] at h
  cases l <;> simpa using h

theorem body_inv {H : V →ₗ[ℂ] V} (hH : H.IsSymmetric) {eigh : Eigh} {p : Params} (hN : 0 < p.Ndiag) {re : Bool} {x0 : V}
    {st : St V} {xn : V} (h : LanInv H eigh p x0 st xn) (hx : 0 < ‖xn‖) (hd : ¬ ‖xn‖ < p.delta) :
    let r := body H eigh p re st.vecs.length st xn
    r.1.vecs.length = st.vecs.length + 1 ∧ (r.2.2 = true ↔ Stop eigh p r.1.kn r.1.eps r.1.vecs.length) ∧
      (∀ m < r.1.vecs.length, ¬ Stop eigh p r.1.kn r.1.eps m) ∧
      (r.2.2 = false → LanInv H eigh p x0 r.1 r.2.1) ∧ Tridiag H r.1.vecs r.1.kn r.1.eps r.2.1 ∧
      (∀ q, r.1.vecs.head? = some q → (‖x0‖ : ℂ) • q = x0) ∧ (∀ k ∈ r.1.kn, p.delta ≤ k) ∧ r.1.calls = r.1.vecs.length + 1 := by
  intro r
  obtain ⟨b1, b2, b3⟩ := body_tridiag (eigh := eigh) (p := p) (re := re) (r := r) hH h.tri hx rfl
  have hl : r.1.vecs.length = st.vecs.length + 1 := by rw [b2]; simp
  have hkn : r.1.kn = st.kn ++ [‖xn‖] := rfl
  obtain ⟨e, heps⟩ : ∃ e, r.1.eps = st.eps ++ [e] := ⟨_, rfl⟩
  have hold : r.1.etaold = (diagCheck eigh p st.vecs.length r.1.kn r.1.eps st.etaold).1 := rfl
  have hflag : r.2.2 = (diagCheck eigh p st.vecs.length r.1.kn r.1.eps st.etaold).2 := rfl
  obtain ⟨d1, d2⟩ := diagCheck_spec hN h.tri.lk h.tri.le h.eta ‖xn‖ e (((1 / ‖xn‖ : ℝ) : ℂ) • xn) r.1.calls
  rw [← hkn, ← heps, ← hold, ← b2] at d1
  rw [← hkn, ← heps, ← hflag] at d2
  have before : ∀ m < r.1.vecs.length, ¬ Stop eigh p r.1.kn r.1.eps m := by
    intro m hm
    rw [hl] at hm
    rw [hkn, heps, stop_snoc h.tri.lk h.tri.le _ _ (by omega)]
    exact h.before m (by omega)
  have first : ∀ q, r.1.vecs.head? = some q → (‖x0‖ : ℂ) • q = x0 := by
    intro q hq; rw [b2] at hq; exact h.first q hq
  have ge : ∀ k ∈ r.1.kn, p.delta ≤ k := by
    intro k hk
    rw [hkn] at hk
    rcases List.mem_append.mp hk with hk | hk
    · exact h.ge k hk
    · rw [List.mem_singleton.mp hk]; exact not_lt.mp hd
  have calls : r.1.calls = r.1.vecs.length + 1 := by rw [b3, hl, h.calls]
  refine ⟨hl, by rw [hl]; exact d2, before, fun hf => ⟨b1, ?_, ge, calls, ?_, d1, fun h => by rw [h] at hl; simp at hl⟩, b1, first, ge, calls⟩
  · intro q hq
    rw [b2] at hq
    exact h.first q (head_snoc hq)
  · intro m hm
    rcases Nat.lt_or_eq_of_le hm with hm | rfl
    · exact before m hm
    · rw [hl, ← d2, hf]; simp

theorem lanLoop_eq (H : V → V) (eigh : Eigh) (p : Params) (re : Bool) (it : ℕ) (st : St V) (xn : V) :
    loop H eigh p re it st xn = if ‖xn‖ < p.delta then .ok (st, xn, true) else if ‖xn‖ = 0 then .error .nan else
      if it + 1 > p.ncv then .ok (body H eigh p re it st xn) else if (body H eigh p re it st xn).2.2 = true then
        .ok (body H eigh p re it st xn)
      else loop H eigh p re (it + 1) (body H eigh p re it st xn).1 (body H eigh p re it st xn).2.1 := by
  rw [loop]

theorem lanLoop_spec {H : V →ₗ[ℂ] V} (hH : H.IsSymmetric) {eigh : Eigh} {p : Params} (hN : 0 < p.Ndiag) {re : Bool} {x0 : V}
    (f : ℕ) : ∀ (st : St V) (xn : V) (r : St V × V × Bool), p.ncv - st.vecs.length = f → st.vecs.length ≤ p.ncv →
    LanInv H eigh p x0 st xn → loop H eigh p re st.vecs.length st xn = .ok r → Run H eigh p x0 r.1 r.2.1 r.2.2 := by
  induction f with
  | zero =>
    intro st xn r hf hle hI h
    rw [lanLoop_eq] at h
    split_ifs at h with h1 h2 h3
    · cases h
      refine ⟨hI.tri, fun q hq => hI.first q ?_, hI.ge, by simp; omega, hI.calls, fun m hm => hI.before m (le_of_lt hm), ?_, by simp, hI.start⟩
      · rw [List.head?_append, hq]; rfl
      · simpa using Or.inl ⟨h1, hle⟩
    · cases h
      obtain ⟨c1, c2, c3, -, c4, c5, c6, c7⟩ := body_inv (re := re) hH hN hI (lt_of_le_of_ne (norm_nonneg _) (Ne.symm h2)) h1
      refine ⟨c4, c5, c6, by omega, c7, c3, ?_, fun _ => by omega, fun h => by rw [h] at c1; simp at c1⟩
      rw [c2]
      exact ⟨Or.inr, fun h => h.resolve_left fun h => by omega⟩
    · omega
    · omega
  | succ f ih =>
    intro st xn r hf hle hI h
    rw [lanLoop_eq] at h
    split_ifs at h with h1 h2 h3 h4
    · cases h
      refine ⟨hI.tri, fun q hq => hI.first q ?_, hI.ge, by simp; omega, hI.calls, fun m hm => hI.before m (le_of_lt hm), ?_, by simp, hI.start⟩
      · rw [List.head?_append, hq]; rfl
      · simpa using Or.inl ⟨h1, hle⟩
    · omega
    · cases h
      obtain ⟨c1, c2, c3, -, c4, c5, c6, c7⟩ := body_inv (re := re) hH hN hI (lt_of_le_of_ne (norm_nonneg _) (Ne.symm h2)) h1
      refine ⟨c4, c5, c6, by omega, c7, c3, ?_, fun hc => (by rw [h4] at hc; cases hc), fun h => by rw [h] at c1; simp at c1⟩
      exact ⟨fun h => Or.inr (c2.mp h), fun _ => h4⟩
    · obtain ⟨c1, c2, c3, c0, c4, c5, c6, c7⟩ := body_inv (re := re) hH hN hI (lt_of_le_of_ne (norm_nonneg _) (Ne.symm h2)) h1
      rw [← c1] at h
      exact ih _ _ r (by omega) (by omega) (c0 (by simpa using h4)) h

/-- The loop raises an error only if `delta` is not positive. -/
theorem lanLoop_ok {H : V →ₗ[ℂ] V} {eigh : Eigh} {p : Params} (hd : 0 < p.delta) {re : Bool} (f : ℕ) :
    ∀ (it : ℕ) (st : St V) (xn : V), p.ncv - it = f → ∃ r, loop H eigh p re it st xn = .ok r := by
  induction f with
  | zero =>
    intro it st xn hf
    rw [lanLoop_eq]
    split_ifs with h1 h2 h3 h4
    · exact ⟨_, rfl⟩
    · rw [h2] at h1; exact absurd hd h1
    · exact ⟨_, rfl⟩
    · omega
    · omega
  | succ f ih =>
    intro it st xn hf
    rw [lanLoop_eq]
    split_ifs with h1 h2 h3 h4
    · exact ⟨_, rfl⟩
    · rw [h2] at h1; exact absurd hd h1
    · exact ⟨_, rfl⟩
    · exact ⟨_, rfl⟩
    · exact ih _ _ _ (by omega)

/-! ## The tridiagonal matrix -/

theorem heff_herm {H : V →ₗ[ℂ] V} {q : List V} {k : List ℝ} {e : List ℂ} {last : V} (h : Tridiag H q k e last) :
    ∀ i < (heff k e).r, ∀ j < (heff k e).r, (starRingEnd ℂ) ((heff k e).v i j) = (heff k e).v j i := by
  intro i hi j hj
  have hi : i < e.length := hi
  have he : (starRingEnd ℂ) (e.getD i 0) = e.getD i 0 := by
    rw [Complex.conj_eq_iff_im]
    simp only [List.getD_eq_getElem?_getD, List.getElem?_eq_getElem hi, Option.getD_some]
    exact h.real _ (List.getElem_mem hi)
  simp only [heff, map_add, Complex.conj_ofReal]
  rcases lt_trichotomy i j with hlt | rfl | hlt
  · rw [if_neg (by omega), if_neg (show ¬ i = j + 1 by omega), if_neg (show ¬ j = i by omega), if_neg (show ¬ j + 1 = i by omega)]
    by_cases hc : i + 1 = j
    · rw [if_pos hc, if_pos hc.symm]; simp
    · rw [if_neg hc, if_neg (fun h => hc h.symm)]; simp
  · rw [if_pos rfl, if_neg (by omega), if_neg (by omega), he]; simp
  · rw [if_neg (by omega), if_neg (show ¬ i + 1 = j by omega), if_neg (show ¬ j = i by omega), if_neg (show ¬ j = i + 1 by omega)]
    by_cases hc : i = j + 1
    · rw [if_pos hc, if_pos hc.symm]; simp
    · rw [if_neg hc, if_neg (fun h => hc h.symm)]; simp

theorem sum_ite_smul {n j : ℕ} (hj : j < n) (c : ℕ → ℂ) (f : ℕ → V) :
    ∑ i ∈ range n, (if i = j then c i else 0) • f i = c j • f j := by
  rw [sum_eq_single j]
  · rw [if_pos rfl]
  · intro b _ hb; rw [if_neg hb, zero_smul]
  · intro h; exact absurd (mem_range.mpr hj) h

/-- The tridiagonal matrix is the operator in the Krylov basis. -/
theorem heff_apply {H : V →ₗ[ℂ] V} {q : List V} {k : List ℝ} {e : List ℂ} {last : V} (h : Tridiag H q k e last) {j : ℕ}
    (hj : j < q.length) : H (q.getD j 0) = ∑ i ∈ range q.length, (heff k e).v i j • q.getD i 0 + if j + 1 = q.length then last else 0 := by
  have h1 : ∑ i ∈ range q.length, (if i = j then e.getD i 0 else 0) • q.getD i 0 = e.getD j 0 • q.getD j 0 :=
    sum_ite_smul hj (fun i => e.getD i 0) _
  have h2 : ∑ i ∈ range q.length, (if i + 1 = j then (((k.drop 1).getD i 0 : ℝ) : ℂ) else 0) • q.getD i 0
      = if 0 < j then (k.getD j 0 : ℂ) • q.getD (j - 1) 0 else 0 := by
    split_ifs with h0
    · have : ∀ i, (if i + 1 = j then (((k.drop 1).getD i 0 : ℝ) : ℂ) else 0) = if i = j - 1 then (((k.drop 1).getD i 0 : ℝ) : ℂ) else 0 := by
        intro i
        by_cases hc : i + 1 = j
        · rw [if_pos hc, if_pos (by omega)]
        · rw [if_neg hc, if_neg (by omega)]
      simp_rw [this]
      rw [sum_ite_smul (by omega) (fun i => (((k.drop 1).getD i 0 : ℝ) : ℂ))]
      simp only [List.getD_eq_getElem?_getD, List.getElem?_drop]
      rw [show 1 + (j - 1) = j by omega]
    · exact sum_eq_zero fun i _ => by rw [if_neg (by omega), zero_smul]
  have h3 : ∑ i ∈ range q.length, (if i = j + 1 then (starRingEnd ℂ) (((k.drop 1).getD j 0 : ℝ) : ℂ) else 0) • q.getD i 0
      = if j + 1 < q.length then (k.getD (j + 1) 0 : ℂ) • q.getD (j + 1) 0 else 0 := by
    split_ifs with h0
    · rw [sum_ite_smul h0 (fun _ => (starRingEnd ℂ) (((k.drop 1).getD j 0 : ℝ) : ℂ))]
      simp only [List.getD_eq_getElem?_getD, List.getElem?_drop, Complex.conj_ofReal]
      rw [show 1 + j = j + 1 by omega]
    · exact sum_eq_zero fun i hi => by rw [if_neg (by have := mem_range.mp hi; omega), zero_smul]
  simp only [heff, add_smul, sum_add_distrib]
  rw [h1, h2, h3, h.recur j hj]
  by_cases hc : j + 1 < q.length
  · rw [if_pos hc, if_pos hc, if_neg (show ¬ j + 1 = q.length by omega)]; abel
  · rw [if_neg hc, if_neg hc, if_pos (show j + 1 = q.length by omega)]; abel

theorem combine_inner {H : V →ₗ[ℂ] V} {q : List V} {k : List ℝ} {e : List ℂ} {last : V} (h : Tridiag H q k e last)
    (a b : ℕ → ℂ) : inner ℂ (∑ n ∈ range q.length, a n • q.getD n 0) (∑ n ∈ range q.length, b n • q.getD n 0)
      = ∑ n ∈ range q.length, (starRingEnd ℂ) (a n) * b n := by
  rw [sum_inner]
  refine sum_congr rfl fun i hi => ?_
  rw [inner_sum]
  have : ∀ j ∈ range q.length, inner ℂ (a i • q.getD i 0) (b j • q.getD j 0) = delta ℂ i j * ((starRingEnd ℂ) (a i) * b j) := by
    intro j hj
    rw [inner_smul_left, inner_smul_right, h.orth i (mem_range.mp hi) j (mem_range.mp hj)]
    ring
  rw [sum_congr rfl this, sum_delta_left (mem_range.mp hi) (fun j => (starRingEnd ℂ) (a i) * b j)]

theorem combine_perp {H : V →ₗ[ℂ] V} {q : List V} {k : List ℝ} {e : List ℂ} {last : V} (h : Tridiag H q k e last)
    (a : ℕ → ℂ) : inner ℂ (∑ n ∈ range q.length, a n • q.getD n 0) last = 0 := by
  rw [sum_inner]
  exact sum_eq_zero fun i hi => by rw [inner_smul_left, h.perp i (mem_range.mp hi), mul_zero]

/-- The action on a linear combination of the Krylov vectors. -/
theorem H_combine {H : V →ₗ[ℂ] V} {q : List V} {k : List ℝ} {e : List ℂ} {last : V} (h : Tridiag H q k e last) (a : ℕ → ℂ) :
    H (∑ n ∈ range q.length, a n • q.getD n 0)
      = ∑ i ∈ range q.length, (∑ j ∈ range q.length, (heff k e).v i j * a j) • q.getD i 0 + (if q.length = 0 then 0 else a (q.length - 1)) • last := by
  rw [map_sum]
  have : ∀ j ∈ range q.length, H (a j • q.getD j 0)
      = ∑ i ∈ range q.length, ((heff k e).v i j * a j) • q.getD i 0 + if j + 1 = q.length then a j • last else 0 := by
    intro j hj
    rw [map_smul, heff_apply h (mem_range.mp hj), smul_add, smul_sum]
    congr 1
    · exact sum_congr rfl fun i _ => by rw [smul_smul, mul_comm]
    · split_ifs <;> simp
  rw [sum_congr rfl this, sum_add_distrib, sum_comm]
  congr 1
  · exact sum_congr rfl fun i _ => by rw [sum_smul]
  · by_cases h0 : q.length = 0
    · rw [h0]; simp
    · rw [if_neg h0, sum_eq_single (q.length - 1)]
      · rw [if_pos (by omega)]
      · intro b _ hb; rw [if_neg (by omega)]
      · intro hn; exact absurd (mem_range.mpr (by omega)) hn

/-- All `states` have norm one, so the last division does nothing. -/
theorem states_spec {q : List V} {u : Mat ℂ} : ∀ (todo : List ℕ), (∀ k ∈ todo, ‖combine q u k‖ = 1) →
    states q u todo = .ok (todo.map (combine q u)) := by
  intro todo
  induction todo with
  | nil => intro _; rfl
  | cons k todo ih =>
    intro h
    rw [states, if_neg (by rw [h k (by simp)]; norm_num), ih fun l hl => h l (by simp [hl]), h k (by simp)]
    simp

theorem norm_one_of_inner {x : V} (h : inner ℂ x x = (1 : ℂ)) : ‖x‖ = 1 := by
  rw [inner_self_eq_norm_sq_to_K] at h
  have h2 : ‖x‖ ^ 2 = 1 := by
    have h3 := congrArg Complex.re h
    have h4 : ((‖x‖ : ℂ) ^ 2).re = ‖x‖ ^ 2 := by rw [← Complex.ofReal_pow, Complex.ofReal_re]
    rw [Complex.one_re] at h3
    exact h4.symm.trans h3
  nlinarith [norm_nonneg x, sq_nonneg (‖x‖ - 1)]

/-- Everything about a successful call. -/
theorem simulate_spec {H : V →ₗ[ℂ] V} (hH : H.IsSymmetric) {eigh : Eigh} (hE : EighSpec eigh) {p : Params} (hN : 0 < p.Ndiag)
    {re : Bool} {x0 : V} (hx : x0 ≠ 0) :
    (∀ o, simulate H eigh p re x0 = .ok o → Run H eigh p x0 o.st o.last o.converged ∧
      o.eta = (eigh (heff o.st.kn o.st.eps)).1.take (min p.numeig o.st.vecs.length) ∧
      o.states = (List.range (min p.numeig o.st.vecs.length)).map (combine o.st.vecs (eigh (heff o.st.kn o.st.eps)).2)) ∧
    (0 < p.delta → ∃ o, simulate H eigh p re x0 = .ok o) := by
  have hx0 : ‖x0‖ ≠ 0 := norm_ne_zero_iff.mpr hx
  set x : V := ((1 / ‖x0‖ : ℝ) : ℂ) • x0 with hxd
  have hx1 : ‖x‖ = 1 := by
    rw [hxd, norm_smul, Complex.norm_real, Real.norm_of_nonneg (by positivity), one_div_mul_cancel hx0]
  have hI : LanInv H eigh p x0 ⟨[], [], [], none, 1⟩ x := by
    refine ⟨⟨rfl, rfl, by simp, by simp, by simp, by simp, by simp⟩, ?_, by simp, rfl, ?_, ?_, fun _ => hx1⟩
    · intro q hq
      simp only [List.nil_append, List.head?_cons, Option.some.injEq, hx1, div_one, Complex.ofReal_one, one_smul] at hq
      rw [← hq, hxd, smul_smul, ← Complex.ofReal_mul, mul_one_div_cancel hx0, Complex.ofReal_one, one_smul]
    · intro m hm h
      have h2 : p.Ndiag < m := h.2.1
      simp only [List.length_nil, nonpos_iff_eq_zero] at hm
      omega
    · simp [EtaInv]
  have main : ∀ r, loop H eigh p re 0 ⟨[], [], [], none, 1⟩ x = .ok r → Run H eigh p x0 r.1 r.2.1 r.2.2 ∧
      (eigh (heff r.1.kn r.1.eps)).1.length = r.1.vecs.length ∧
      states r.1.vecs (eigh (heff r.1.kn r.1.eps)).2 (List.range (min p.numeig r.1.vecs.length))
        = .ok ((List.range (min p.numeig r.1.vecs.length)).map (combine r.1.vecs (eigh (heff r.1.kn r.1.eps)).2)) := by
    intro r hr
    have run := lanLoop_spec hH hN (x0 := x0) p.ncv ⟨[], [], [], none, 1⟩ x r (by simp) (by simp) hI hr
    obtain ⟨e1, -, -, -, e5, -⟩ := hE (heff r.1.kn r.1.eps) rfl (heff_herm run.tri)
    have hr' : (heff r.1.kn r.1.eps).r = r.1.vecs.length := run.tri.le
    rw [hr'] at e1 e5
    refine ⟨run, e1, states_spec _ fun k hk => norm_one_of_inner ?_⟩
    have hk : k < r.1.vecs.length := by
      have := List.mem_range.mp hk
      omega
    unfold combine
    rw [combine_inner run.tri, e5 k hk k hk]
    simp [delta]
  constructor
  · intro o h
    unfold simulate at h
    rw [if_neg hx0] at h
    split at h
    · cases h
    rename_i st last conv hr
    obtain ⟨m1, m2, m3⟩ := main _ hr
    simp only at m1 m2 m3 h
    rw [m2, m3] at h
    cases h
    exact ⟨m1, rfl, rfl⟩
  · intro hd
    obtain ⟨r, hr⟩ := lanLoop_ok (H := H) (eigh := eigh) hd (re := re) p.ncv 0 ⟨[], [], [], none, 1⟩ x (by simp)
    obtain ⟨m1, m2, m3⟩ := main _ hr
    unfold simulate
    rw [if_neg hx0, ← hxd, hr]
    simp only [m2, m3]
    exact ⟨_, rfl⟩

/-! ## Theorems -/

/-- **C52 (iteration).**  The stored vectors are orthonormal and satisfy the three-term recurrence, the first one is the
normalised start vector; there are at most `ncv+1` of them, each costs one product with the operator, and one more product
is made before the loop.  The flag `converged` tells whether the next vector is shorter than `delta` (tested up to `ncv`
vectors) or the eigenvalues changed by less than `deltaEta` between two diagonalisations. -/
theorem C52_run {H : V →ₗ[ℂ] V} (hH : H.IsSymmetric) {eigh : Eigh} (hE : EighSpec eigh) {p : Params} (hN : 0 < p.Ndiag)
    {re : Bool} {x0 : V} (hx : x0 ≠ 0) {o : Out V} (h : simulate H eigh p re x0 = .ok o) :
    Run H eigh p x0 o.st o.last o.converged := ((simulate_spec hH hE hN hx).1 o h).1

/-- **C52 (success).**  With a positive `delta` the solver fails on the zero vector only. -/
theorem C52_total {H : V →ₗ[ℂ] V} (hH : H.IsSymmetric) {eigh : Eigh} (hE : EighSpec eigh) {p : Params} (hN : 0 < p.Ndiag)
    (hd : 0 < p.delta) {re : Bool} {x0 : V} :
    (x0 ≠ 0 → ∃ o, simulate H eigh p re x0 = .ok o) ∧ (x0 = 0 → simulate H eigh p re x0 = .error .nan) := by
  refine ⟨fun hx => (simulate_spec hH hE hN hx).2 hd, ?_⟩
  rintro rfl
  simp [simulate]

/-- **C52 (eigenpairs).**  The solver returns `min(numeig, number of vectors)` eigenvalues in ascending order and as many
orthonormal vectors, in which the operator is diagonal with these eigenvalues; the residual of every pair is at most the
norm of the vector at which the iteration stopped. -/
theorem C52_pairs {H : V →ₗ[ℂ] V} (hH : H.IsSymmetric) {eigh : Eigh} (hE : EighSpec eigh) {p : Params} (hN : 0 < p.Ndiag)
    {re : Bool} {x0 : V} (hx : x0 ≠ 0) {o : Out V} (h : simulate H eigh p re x0 = .ok o) :
    o.eta.length = min p.numeig o.st.vecs.length ∧ o.states.length = o.eta.length ∧ o.eta.Pairwise (· ≤ ·) ∧
      (∀ i < o.states.length, ∀ j < o.states.length, inner ℂ (o.states.getD i 0) (o.states.getD j 0) = delta ℂ i j) ∧
      (∀ i < o.states.length, ∀ j < o.states.length,
        inner ℂ (o.states.getD i 0) (H (o.states.getD j 0)) = ((o.eta.getD i 0 : ℝ) : ℂ) * delta ℂ i j) ∧
      ∀ i < o.states.length, ‖H (o.states.getD i 0) - ((o.eta.getD i 0 : ℝ) : ℂ) • o.states.getD i 0‖ ≤ ‖o.last‖ := by
  obtain ⟨run, e1, e2⟩ := (simulate_spec hH hE hN hx).1 o h
  obtain ⟨s1, s2, -, -, s5, s6⟩ := hE (heff o.st.kn o.st.eps) rfl (heff_herm run.tri)
  set n := o.st.vecs.length with hn
  have hr' : (heff o.st.kn o.st.eps).r = n := run.tri.le
  rw [hr'] at s1 s5 s6
  set u := (eigh (heff o.st.kn o.st.eps)).2 with hu
  set w := (eigh (heff o.st.kn o.st.eps)).1 with hw
  have l1 : o.eta.length = min p.numeig n := by rw [e1, List.length_take, s1]; omega
  have l2 : o.states.length = min p.numeig n := by rw [e2]; simp
  have g1 : ∀ i < o.states.length, o.states.getD i 0 = ∑ m ∈ range n, u.v m i • o.st.vecs.getD m 0 := by
    intro i hi
    rw [l2] at hi
    rw [e2]
    simp only [List.getD_eq_getElem?_getD, List.getElem?_map, List.getElem?_range hi, Option.map_some, Option.getD_some]
    simp only [combine, ← hn, List.getD_eq_getElem?_getD]
  have g2 : ∀ i < o.states.length, o.eta.getD i 0 = w.getD i 0 := by
    intro i hi
    rw [l2] at hi
    rw [e1]
    simp only [List.getD_eq_getElem?_getD, List.getElem?_take, if_pos hi]
  have g3 : ∀ i < o.states.length, H (o.states.getD i 0) = ((o.eta.getD i 0 : ℝ) : ℂ) • o.states.getD i 0
      + (if n = 0 then 0 else u.v (n - 1) i) • o.last := by
    intro i hi
    have hi' : i < n := by omega
    rw [g1 i hi, g2 i hi, H_combine run.tri (fun m => u.v m i)]
    congr 1
    rw [smul_sum]
    refine sum_congr rfl fun m hm => ?_
    rw [smul_smul, s6 i hi' m (mem_range.mp hm)]
  refine ⟨l1, by omega, ?_, ?_, ?_, ?_⟩
  · rw [e1]; exact s2.sublist (List.take_sublist _ _)
  · intro i hi j hj
    rw [g1 i hi, g1 j hj, combine_inner run.tri]
    exact s5 i (by omega) j (by omega)
  · intro i hi j hj
    rw [g3 j hj, inner_add_right, inner_smul_right, inner_smul_right]
    have z : inner ℂ (o.states.getD i 0) o.last = 0 := by rw [g1 i hi]; exact combine_perp run.tri _
    have d : inner ℂ (o.states.getD i 0) (o.states.getD j 0) = delta ℂ i j := by
      rw [g1 i hi, g1 j hj, combine_inner run.tri]
      exact s5 i (by omega) j (by omega)
    rw [z, d, mul_zero, add_zero]
    by_cases hij : i = j
    · rw [hij]
    · rw [delta_ne hij, mul_zero, mul_zero]
  · intro i hi
    have hi' : i < n := by omega
    rw [g3 i hi, add_sub_cancel_left, norm_smul, if_neg (by omega)]
    have : ‖u.v (n - 1) i‖ ≤ 1 := by
      have h1 := s5 i hi' i hi'
      have h2 : ∑ m ∈ range n, ‖u.v m i‖ ^ 2 = 1 := by
        have h3 := congrArg Complex.re h1
        rw [Complex.re_sum] at h3
        rw [show (delta ℂ i i).re = 1 by simp [delta]] at h3
        rw [← h3]
        refine sum_congr rfl fun m _ => ?_
        rw [← Complex.normSq_eq_conj_mul_self, Complex.ofReal_re, Complex.normSq_eq_norm_sq]
      have h4 : ‖u.v (n - 1) i‖ ^ 2 ≤ ∑ m ∈ range n, ‖u.v m i‖ ^ 2 :=
        single_le_sum (f := fun m => ‖u.v m i‖ ^ 2) (fun m _ => sq_nonneg _) (mem_range.mpr (by omega))
      nlinarith [norm_nonneg (u.v (n - 1) i)]
    nlinarith [norm_nonneg o.last]

/-- **C52 (variational).**  The lowest eigenvalue is a lower bound of the energy of every combination of the Krylov
vectors, in particular it does not exceed the energy of the start vector. -/
theorem C52_variational {H : V →ₗ[ℂ] V} (hH : H.IsSymmetric) {eigh : Eigh} (hE : EighSpec eigh) {p : Params} (hN : 0 < p.Ndiag)
    {re : Bool} {x0 : V} (hx : x0 ≠ 0) {o : Out V} (h : simulate H eigh p re x0 = .ok o) {w : ℝ} (hw : o.eta.head? = some w) :
    (∀ c : ℕ → ℂ, w * ‖∑ n ∈ range o.st.vecs.length, c n • o.st.vecs.getD n 0‖ ^ 2
      ≤ (inner ℂ (∑ n ∈ range o.st.vecs.length, c n • o.st.vecs.getD n 0)
          (H (∑ n ∈ range o.st.vecs.length, c n • o.st.vecs.getD n 0))).re) ∧
    w * ‖x0‖ ^ 2 ≤ (inner ℂ x0 (H x0)).re := by
  obtain ⟨run, e1, e2⟩ := (simulate_spec hH hE hN hx).1 o h
  obtain ⟨s1, s2, -, -, s5, s6⟩ := hE (heff o.st.kn o.st.eps) rfl (heff_herm run.tri)
  set n := o.st.vecs.length with hn
  have hr' : (heff o.st.kn o.st.eps).r = n := run.tri.le
  rw [hr'] at s1 s5 s6
  set u := (eigh (heff o.st.kn o.st.eps)).2 with hu
  set ws := (eigh (heff o.st.kn o.st.eps)).1 with hws
  have n0 : 0 < n := by
    rcases Nat.eq_zero_or_pos n with h0 | h0
    · rw [e1, h0] at hw; simp at hw
    · exact h0
  have hw0 : ∀ k < n, w ≤ ws.getD k 0 := by
    intro k hk
    rw [e1] at hw
    have hw' : ws.head? = some w := by
      cases hws' : ws with
      | nil => rw [hws'] at hw; simp at hw
      | cons a l =>
        rw [hws'] at hw
        cases hm : min p.numeig n with
        | zero => rw [hm] at hw; simp at hw
        | succ m => rw [hm] at hw; simpa using hw
    cases hws' : ws with
    | nil => rw [hws'] at hw'; cases hw'
    | cons a l =>
      rw [hws'] at hw' s2 s1
      cases hw'
      cases k with
      | zero => simp
      | succ k =>
        have hk' : k < l.length := by simp at s1; omega
        rw [List.getD_cons_succ, List.getD_eq_getElem?_getD, List.getElem?_eq_getElem hk', Option.getD_some]
        exact (List.pairwise_cons.mp s2).1 _ (List.getElem_mem hk')
  -- the eigenvectors are complete
  have comp : ∀ i < n, ∀ j < n, ∑ k ∈ range n, u.v i k * (starRingEnd ℂ) (u.v j k) = delta ℂ i j := by
    let U : Matrix (Fin n) (Fin n) ℂ := fun i k => u.v i k
    have h1 : U.conjTranspose * U = 1 := by
      ext k l
      rw [Matrix.mul_apply, Matrix.one_apply]
      have := s5 k k.2 l l.2
      rw [Finset.sum_range] at this
      rw [show (if k = l then (1 : ℂ) else 0) = delta ℂ (k : ℕ) (l : ℕ) by simp [delta, Fin.ext_iff], ← this]
      rfl
    have h2 : U * U.conjTranspose = 1 := mul_eq_one_comm.mp h1
    intro i hi j hj
    have h3 := congrFun (congrFun h2 ⟨i, hi⟩) ⟨j, hj⟩
    rw [Matrix.mul_apply, Matrix.one_apply] at h3
    rw [Finset.sum_range]
    rw [show delta ℂ i j = if (⟨i, hi⟩ : Fin n) = ⟨j, hj⟩ then (1 : ℂ) else 0 by simp [delta], ← h3]
    rfl
  have main : ∀ c : ℕ → ℂ, w * ‖∑ m ∈ range n, c m • o.st.vecs.getD m 0‖ ^ 2
      ≤ (inner ℂ (∑ m ∈ range n, c m • o.st.vecs.getD m 0) (H (∑ m ∈ range n, c m • o.st.vecs.getD m 0))).re := by
    intro c
    let a : ℕ → ℂ := fun k => ∑ i ∈ range n, (starRingEnd ℂ) (u.v i k) * c i
    have hc : ∀ i < n, c i = ∑ k ∈ range n, u.v i k * a k := by
      intro i hi
      simp only [a, mul_sum]
      rw [sum_comm]
      have : ∀ j ∈ range n, ∑ k ∈ range n, u.v i k * ((starRingEnd ℂ) (u.v j k) * c j) = delta ℂ i j * c j := by
        intro j hj
        rw [← comp i hi j (mem_range.mp hj), sum_mul]
        exact sum_congr rfl fun _ _ => by ring
      rw [sum_congr rfl this, sum_delta_left hi]
    have ha : ∀ k, (starRingEnd ℂ) (a k) = ∑ i ∈ range n, u.v i k * (starRingEnd ℂ) (c i) := by
      intro k; simp [a, map_sum]
    have nrm : ((‖∑ m ∈ range n, c m • o.st.vecs.getD m 0‖ ^ 2 : ℝ) : ℂ) = ∑ k ∈ range n, (starRingEnd ℂ) (a k) * a k := by
      have h1 : ((‖∑ m ∈ range n, c m • o.st.vecs.getD m 0‖ ^ 2 : ℝ) : ℂ)
          = inner ℂ (∑ m ∈ range n, c m • o.st.vecs.getD m 0) (∑ m ∈ range n, c m • o.st.vecs.getD m 0) := by
        rw [inner_self_eq_norm_sq_to_K]; push_cast; rfl
      rw [h1, combine_inner run.tri]
      have : ∀ i ∈ range n, (starRingEnd ℂ) (c i) * c i = ∑ k ∈ range n, u.v i k * (starRingEnd ℂ) (c i) * a k := by
        intro i hi
        conv_lhs => rw [hc i (mem_range.mp hi)]
        rw [← hc i (mem_range.mp hi), hc i (mem_range.mp hi), mul_sum]
        exact sum_congr rfl fun _ _ => by ring
      rw [sum_congr rfl this, sum_comm]
      refine sum_congr rfl fun k _ => ?_
      rw [ha, sum_mul]
    have en : inner ℂ (∑ m ∈ range n, c m • o.st.vecs.getD m 0) (H (∑ m ∈ range n, c m • o.st.vecs.getD m 0))
        = ∑ k ∈ range n, ((ws.getD k 0 : ℝ) : ℂ) * ((starRingEnd ℂ) (a k) * a k) := by
      rw [H_combine run.tri, inner_add_right, inner_smul_right, combine_perp run.tri, mul_zero, add_zero, combine_inner run.tri]
      have : ∀ i ∈ range n, (starRingEnd ℂ) (c i) * ∑ j ∈ range n, (heff o.st.kn o.st.eps).v i j * c j
          = ∑ k ∈ range n, u.v i k * (starRingEnd ℂ) (c i) * (((ws.getD k 0 : ℝ) : ℂ) * a k) := by
        intro i hi
        have h2 : ∑ j ∈ range n, (heff o.st.kn o.st.eps).v i j * c j = ∑ k ∈ range n, ((ws.getD k 0 : ℝ) : ℂ) * u.v i k * a k := by
          have h3 : ∀ j ∈ range n, (heff o.st.kn o.st.eps).v i j * c j
              = ∑ k ∈ range n, (heff o.st.kn o.st.eps).v i j * u.v j k * a k := by
            intro j hj
            rw [hc j (mem_range.mp hj), mul_sum]
            exact sum_congr rfl fun _ _ => by ring
          rw [sum_congr rfl h3, sum_comm]
          refine sum_congr rfl fun k hk => ?_
          rw [← sum_mul, s6 k (mem_range.mp hk) i (mem_range.mp hi)]
        rw [h2, mul_sum]
        exact sum_congr rfl fun _ _ => by ring
      rw [sum_congr rfl this, sum_comm]
      refine sum_congr rfl fun k _ => ?_
      rw [ha, ← sum_mul]
      ring
    have nrm' : ‖∑ m ∈ range n, c m • o.st.vecs.getD m 0‖ ^ 2 = ∑ k ∈ range n, Complex.normSq (a k) := by
      have := congrArg Complex.re nrm
      rw [Complex.ofReal_re, Complex.re_sum] at this
      rw [this]
      exact sum_congr rfl fun k _ => by rw [← Complex.normSq_eq_conj_mul_self, Complex.ofReal_re]
    rw [nrm', en, Complex.re_sum, mul_sum]
    refine sum_le_sum fun k hk => ?_
    rw [← Complex.normSq_eq_conj_mul_self, ← Complex.ofReal_mul, Complex.ofReal_re]
    exact mul_le_mul_of_nonneg_right (hw0 k (mem_range.mp hk)) (Complex.normSq_nonneg _)
  refine ⟨main, ?_⟩
  have hq : o.st.vecs.head? = some (o.st.vecs.getD 0 0) := by
    cases hv : o.st.vecs with
    | nil => rw [hn, hv] at n0; simp at n0
    | cons a l => simp
  have h1 := run.first _ hq
  have h2 := main fun m => if m = 0 then (‖x0‖ : ℂ) else 0
  rw [sum_ite_smul n0 (fun _ => (‖x0‖ : ℂ)), h1] at h2
  exact h2

/-- **C52 (exhausted space).**  There are never more vectors than dimensions, and if there are as many, the pairs are exact
eigenpairs. -/
theorem C52_exact [FiniteDimensional ℂ V] {H : V →ₗ[ℂ] V} (hH : H.IsSymmetric) {eigh : Eigh} (hE : EighSpec eigh) {p : Params}
    (hN : 0 < p.Ndiag) {re : Bool} {x0 : V} (hx : x0 ≠ 0) {o : Out V} (h : simulate H eigh p re x0 = .ok o) :
    o.st.vecs.length ≤ Module.finrank ℂ V ∧ (o.st.vecs.length = Module.finrank ℂ V →
      ∀ i < o.states.length, H (o.states.getD i 0) = ((o.eta.getD i 0 : ℝ) : ℂ) • o.states.getD i 0) := by
  have run := C52_run hH hE hN hx h
  have on : Orthonormal ℂ fun i : Fin o.st.vecs.length => o.st.vecs.getD i 0 := by
    rw [orthonormal_iff_ite]
    intro i j
    rw [run.tri.orth i i.2 j j.2]
    simp [delta, Fin.ext_iff]
  have hle := on.linearIndependent.fintype_card_le_finrank
  rw [Fintype.card_fin] at hle
  refine ⟨hle, fun heq i hi => ?_⟩
  have hlast : o.last = 0 := by
    have hs : Submodule.span ℂ (Set.range fun i : Fin o.st.vecs.length => o.st.vecs.getD i 0) = ⊤ :=
      on.linearIndependent.span_eq_top_of_card_eq_finrank' (by rw [Fintype.card_fin]; exact heq)
    have : o.last ∈ Submodule.span ℂ (Set.range fun i : Fin o.st.vecs.length => o.st.vecs.getD i 0) := by rw [hs]; trivial
    have h0 : ∀ y ∈ Submodule.span ℂ (Set.range fun i : Fin o.st.vecs.length => o.st.vecs.getD i 0), inner ℂ y o.last = 0 := by
      intro y hy
      induction hy using Submodule.span_induction with
      | mem y hy =>
        obtain ⟨i, rfl⟩ := hy
        exact run.tri.perp i i.2
      | zero => exact inner_zero_left _
      | add y z _ _ hy hz => rw [inner_add_left, hy, hz, add_zero]
      | smul c y _ hy => rw [inner_smul_left, hy, mul_zero]
    exact inner_self_eq_zero.mp (h0 _ this)
  have h6 := (C52_pairs hH hE hN hx h).2.2.2.2.2 i hi
  rw [hlast, norm_zero] at h6
  exact sub_eq_zero.mp (norm_eq_zero.mp (le_antisymm h6 (norm_nonneg _)))

/-- **C52 (at least one pair).**  With `delta ≤ 1` there is at least one vector. -/
theorem run_pos {H : V →ₗ[ℂ] V} {eigh : Eigh} {p : Params} (hd : p.delta ≤ 1) {x0 : V} {st : St V} {last : V} {conv : Bool}
    (run : Run H eigh p x0 st last conv) : 1 ≤ st.vecs.length := by
  rcases Nat.eq_zero_or_pos st.vecs.length with h0 | h0
  · have h1 := run.start (List.length_eq_zero_iff.mp h0)
    have h2 := run.conv_iff
    have h3 := run.full
    cases hc : conv with
    | false => have := h3 hc; omega
    | true =>
      rcases h2.mp hc with ⟨h4, -⟩ | h4
      · rw [h1] at h4; linarith
      · have := h4.2.1; omega
  · exact h0

/-- **C52 (wrapper).**  `lanczos` and `lanczosbond` reject invalid parameters with an AssertionError; otherwise they return
`numeig` pairs, or raise an IndexError if the Krylov space has fewer dimensions than that. -/
theorem C52_lanczos {H : V →ₗ[ℂ] V} (hH : H.IsSymmetric) {eigh : Eigh} (hE : EighSpec eigh) {p : Params} (hd : 0 < p.delta)
    (hd1 : p.delta ≤ 1) {x0 : V} (hx : x0 ≠ 0) :
    (p.ncv < p.numeig ∨ p.Ndiag = 0 → lanczosFn H eigh p x0 = .error .assertion) ∧
    (p.numeig ≤ p.ncv → 0 < p.Ndiag → ∃ o, simulate H eigh p false x0 = .ok o ∧
      (o.st.vecs.length < p.numeig → lanczosFn H eigh p x0 = .error .index) ∧
      (p.numeig ≤ o.st.vecs.length → lanczosFn H eigh p x0 = .ok (o.eta.zip o.states) ∧ (o.eta.zip o.states).length = p.numeig)) := by
  constructor
  · intro h
    unfold lanczosFn init
    by_cases h1 : p.ncv ≥ p.numeig
    · rw [if_neg (not_not.mpr h1), if_pos (by omega)]
    · rw [if_pos h1]
  · intro h1 hN
    obtain ⟨o, ho⟩ := (simulate_spec hH hE hN hx (re := false)).2 hd
    obtain ⟨l1, l2, -⟩ := C52_pairs hH hE hN hx ho
    have pos := run_pos hd1 (C52_run hH hE hN hx ho)
    have hi : init p = .ok p := by unfold init; rw [if_neg (not_not.mpr h1), if_neg (by omega)]
    refine ⟨o, ho, fun h2 => ?_, fun h2 => ?_⟩
    · unfold lanczosFn
      rw [hi]
      simp only [ho]
      rw [if_pos]
      split_ifs with h3 <;> omega
    · have hl : (o.eta.zip o.states).length = p.numeig := by rw [List.length_zip]; omega
      refine ⟨?_, hl⟩
      unfold lanczosFn
      rw [hi]
      simp only [ho]
      rw [if_neg, List.take_of_length_le (by omega)]
      split_ifs with h3 <;> omega

/-! ## Disagreements -/

/-- **The wrapper fails on an eigenvector.**  If the start vector is an eigenvector, `lanczos(…,numeig≥2)` raises an
IndexError, although the operator has that many eigenvalues. -/
theorem C52_violated_index {H : V →ₗ[ℂ] V} (hH : H.IsSymmetric) {eigh : Eigh} (hE : EighSpec eigh) {p : Params} (hd : 0 < p.delta)
    (hd1 : p.delta ≤ 1) (h1 : p.numeig ≤ p.ncv) (hN : 0 < p.Ndiag) (h2 : 2 ≤ p.numeig) {x0 : V} (hx : x0 ≠ 0) {z : ℂ}
    (hz : H x0 = z • x0) : lanczosFn H eigh p x0 = .error .index := by
  obtain ⟨o, ho, e1, -⟩ := (C52_lanczos hH hE hd hd1 hx).2 h1 hN
  have run := C52_run hH hE hN hx ho
  refine e1 (by
    by_contra hcon
    have hl : 1 < o.st.vecs.length := by omega
    have hq : o.st.vecs.head? = some (o.st.vecs.getD 0 0) := by
      cases hv : o.st.vecs with
      | nil => rw [hv] at hl; simp at hl
      | cons a l => simp
    have hf := run.first _ hq
    have hx0 : (‖x0‖ : ℂ) ≠ 0 := by exact_mod_cast norm_ne_zero_iff.mpr hx
    have hq0 : H (o.st.vecs.getD 0 0) = z • o.st.vecs.getD 0 0 := by
      have : (‖x0‖ : ℂ) • H (o.st.vecs.getD 0 0) = (‖x0‖ : ℂ) • z • o.st.vecs.getD 0 0 := by
        rw [← map_smul, hf, hz, smul_comm, hf]
      exact smul_right_injective V hx0 this
    have hr := run.tri.recur 0 (by omega)
    rw [hq0, if_neg (lt_irrefl _), zero_add, if_pos (by omega)] at hr
    have h3 := congrArg (inner ℂ (o.st.vecs.getD 1 0)) hr
    rw [inner_add_right, inner_smul_right, inner_smul_right, inner_smul_right, run.tri.orth 1 hl 0 (by omega),
      run.tri.orth 1 hl (0 + 1) hl, delta_ne one_ne_zero] at h3
    simp only [mul_zero, zero_add, delta, if_true, mul_one] at h3
    have hk : 1 < o.st.kn.length := by rw [run.tri.lk]; exact hl
    have := run.tri.pos (o.st.kn.getD 1 0) (by
      rw [List.getD_eq_getElem?_getD, List.getElem?_eq_getElem hk, Option.getD_some]; exact List.getElem_mem hk)
    have h4 : o.st.kn.getD 1 0 = 0 := by exact_mod_cast h3.symm
    rw [h4] at this
    exact lt_irrefl _ this)

/-- The Pauli matrix `σ^x` on `ℂ²`. -/
def sigmaX : EuclideanSpace ℂ (Fin 2) →ₗ[ℂ] EuclideanSpace ℂ (Fin 2) := Matrix.toEuclideanLin !![0, 1; 1, 0]

theorem sigmaX_symm : sigmaX.IsSymmetric := by
  unfold sigmaX
  rw [Matrix.isSymmetric_toEuclideanLin_iff]
  ext i j
  fin_cases i <;> fin_cases j <;> simp [Matrix.conjTranspose_apply]

/-- **The step limit is exceeded by one.**  For `ncv=1` the solver builds two Krylov vectors and multiplies three times
with the operator. -/
theorem C52_violated_ncv {eigh : Eigh} (hE : EighSpec eigh) :
    ∃ o, simulate sigmaX eigh ⟨2, 1, 1, 1 / 2, 1⟩ false (EuclideanSpace.single 0 1) = .ok o ∧
      o.st.vecs.length = 2 ∧ o.st.calls = 3 := by
  have hx : (EuclideanSpace.single 0 1 : EuclideanSpace ℂ (Fin 2)) ≠ 0 := by
    intro h; simpa using congrArg (fun v : EuclideanSpace ℂ (Fin 2) => v 0) h
  obtain ⟨o, ho⟩ := (simulate_spec sigmaX_symm hE (p := ⟨2, 1, 1, 1 / 2, 1⟩) (by norm_num) hx (re := false)).2 (by norm_num)
  have run := C52_run sigmaX_symm hE (p := ⟨2, 1, 1, 1 / 2, 1⟩) (by norm_num) hx ho
  have h1 := run_pos (p := ⟨2, 1, 1, 1 / 2, 1⟩) (by norm_num) run
  have h2 : o.st.vecs.length ≤ 2 := run.le
  have h3 : o.st.vecs.length = 2 := by
    by_contra hcon
    have hl : o.st.vecs.length = 1 := by omega
    cases hc : o.converged with
    | false => have : o.st.vecs.length = 2 := run.full hc; omega
    | true =>
      rcases run.conv_iff.mp hc with ⟨h4, -⟩ | h4
      · have h4 : ‖o.last‖ < 1 / 2 := h4
        have hf := run.first (o.st.vecs.getD 0 0) (by
          cases hv : o.st.vecs with
          | nil => rw [hv] at hl; simp at hl
          | cons a l => simp)
        simp only [PiLp.norm_single, norm_one, Complex.ofReal_one, one_smul] at hf
        have hr := run.tri.recur 0 (by omega)
        rw [hl, if_neg (lt_irrefl _), if_neg (lt_irrefl _), zero_add, hf] at hr
        have h5 : o.last 1 = 1 := by
          have := congrArg (fun v : EuclideanSpace ℂ (Fin 2) => v 1) hr
          simp [sigmaX, Matrix.toLpLin_apply] at this
          exact this.symm
        have h6 := PiLp.norm_apply_le o.last 1
        rw [h5, norm_one] at h6
        linarith
      · have := h4.2.1; simp at this; omega
  exact ⟨o, ho, h3, by rw [run.calls, h3]⟩

/-- A chain of three sites whose first link is weak. -/
def weakLink : EuclideanSpace ℂ (Fin 3) →ₗ[ℂ] EuclideanSpace ℂ (Fin 3) :=
  Matrix.toEuclideanLin !![0, ((1e-6 : ℝ) : ℂ), 0; ((1e-6 : ℝ) : ℂ), 0, 1; 0, 1, 0]

theorem weakLink_symm : weakLink.IsSymmetric := by
  unfold weakLink
  rw [Matrix.isSymmetric_toEuclideanLin_iff]
  ext i j
  have hc : ∀ x : ℝ, star (x : ℂ) = x := fun x => Complex.conj_ofReal x
  fin_cases i <;> fin_cases j <;> first | exact hc 1e-6 | simp [Matrix.conjTranspose_apply]

theorem eps_eq {H : V →ₗ[ℂ] V} {q : List V} {k : List ℝ} {e : List ℂ} {last : V} (h : Tridiag H q k e last) {i : ℕ}
    (hi : i < q.length) : e.getD i 0 = inner ℂ (q.getD i 0) (H (q.getD i 0)) := by
  rw [h.recur i hi, inner_add_right, inner_add_right, inner_smul_right, h.orth i hi i hi]
  have z1 : inner ℂ (q.getD i 0) (if 0 < i then (k.getD i 0 : ℂ) • q.getD (i - 1) 0 else 0) = 0 := by
    split_ifs with h0
    · rw [inner_smul_right, h.orth i hi (i - 1) (by omega), delta_ne (by omega), mul_zero]
    · exact inner_zero_right _
  have z2 : inner ℂ (q.getD i 0) (if i + 1 < q.length then (k.getD (i + 1) 0 : ℂ) • q.getD (i + 1) 0 else last) = 0 := by
    split_ifs with h0
    · rw [inner_smul_right, h.orth i hi (i + 1) h0, delta_ne (by omega), mul_zero]
    · exact h.perp i hi
  rw [z1, z2]
  simp [delta]

/-- The eigenvalue of a 1×1 matrix. -/
theorem eigh_one {eigh : Eigh} (hE : EighSpec eigh) (k : ℝ) : (eigh (heff [k] [0])).1 = [0] := by
  obtain ⟨s1, -, -, -, s5, s6⟩ := hE (heff [k] [0]) rfl (by
    intro i hi j hj
    have hi : i < 1 := hi
    have hj : j < 1 := hj
    obtain rfl : i = 0 := by omega
    obtain rfl : j = 0 := by omega
    simp [heff])
  have h1 : (heff [k] [0]).r = 1 := rfl
  rw [h1] at s1 s5 s6
  have a := s5 0 one_pos 0 one_pos
  have b := s6 0 one_pos 0 one_pos
  obtain ⟨w, hw⟩ := List.length_eq_one_iff.mp s1
  rw [hw] at b ⊢
  have hu : (eigh (heff [k] [0])).2.v 0 0 ≠ 0 := by
    intro h; simp [h, delta] at a
  have hz : (heff [k] [0]).v 0 0 = 0 := by simp [heff]
  rw [sum_range_one, hz, zero_mul] at b
  rcases mul_eq_zero.mp b.symm with h | h
  · have : w = 0 := by simpa using h
    rw [this]
  · exact absurd h hu

/-- The eigenvalues of `[[0,ε],[ε,0]]`. -/
theorem eigh_two {eigh : Eigh} (hE : EighSpec eigh) (k ε : ℝ) :
    ∃ a b, (eigh (heff [k, ε] [0, 0])).1 = [a, b] ∧ a ^ 2 = ε ^ 2 := by
  have v00 : (heff [k, ε] [0, 0]).v 0 0 = 0 := by simp [heff]
  have v01 : (heff [k, ε] [0, 0]).v 0 1 = ε := by simp [heff]
  have v10 : (heff [k, ε] [0, 0]).v 1 0 = ε := by simp [heff]
  have v11 : (heff [k, ε] [0, 0]).v 1 1 = 0 := by simp [heff]
  obtain ⟨s1, -, -, -, s5, s6⟩ := hE (heff [k, ε] [0, 0]) rfl (by
    intro i hi j hj
    have hi : i < 2 := hi
    have hj : j < 2 := hj
    interval_cases i <;> interval_cases j <;> simp [v00, v01, v10, v11])
  have h1 : (heff [k, ε] [0, 0]).r = 2 := rfl
  rw [h1] at s1 s5 s6
  have n := s5 0 two_pos 0 two_pos
  have b0 := s6 0 two_pos 0 two_pos
  have b1 := s6 0 two_pos 1 one_lt_two
  obtain ⟨a, b, hw⟩ := List.length_eq_two.mp s1
  refine ⟨a, b, hw, ?_⟩
  rw [hw, sum_range_succ, sum_range_one] at b0 b1
  rw [sum_range_succ, sum_range_one] at n
  rw [v00, v01, zero_mul, zero_add, List.getD_cons_zero] at b0
  rw [v10, v11, zero_mul, add_zero, List.getD_cons_zero] at b1
  set x := (eigh (heff [k, ε] [0, 0])).2.v 0 0
  set y := (eigh (heff [k, ε] [0, 0])).2.v 1 0
  have e0 : ((a : ℂ) ^ 2 - (ε : ℂ) ^ 2) * x = 0 := by linear_combination (-(a : ℂ)) * b0 - (ε : ℂ) * b1
  have e1 : ((a : ℂ) ^ 2 - (ε : ℂ) ^ 2) * y = 0 := by linear_combination (-(a : ℂ)) * b1 - (ε : ℂ) * b0
  have hne : ((a : ℂ) ^ 2 - (ε : ℂ) ^ 2) = 0 := by
    by_contra hc
    have hx := (mul_eq_zero.mp e0).resolve_left hc
    have hy := (mul_eq_zero.mp e1).resolve_left hc
    rw [hx, hy] at n
    simp [delta] at n
  have := sub_eq_zero.mp hne
  exact_mod_cast this

theorem take_one_getD {α : Type} (d : α) : ∀ {l : List α}, 1 ≤ l.length → l.take 1 = [l.getD 0 d] := by
  intro l h
  cases l with
  | nil => simp at h
  | cons a l => simp

theorem take_two_getD {α : Type} (d : α) : ∀ {l : List α}, 2 ≤ l.length → l.take 2 = [l.getD 0 d, l.getD 1 d] := by
  intro l h
  match l with
  | [] => simp at h
  | [a] => simp at h
  | a :: b :: l => simp

/-- **`converged` does not imply accuracy.**  With the default tolerances of `lanczos` (and a diagonalisation in every
step) the solver reports convergence with an eigenvalue of at least `-1e-6`, while a vector of energy `-1` exists. -/
theorem C52_violated_converged {eigh : Eigh} (hE : EighSpec eigh) :
    ∃ o w, simulate weakLink eigh ⟨1, 500, 1, 1e-8, 1e-5⟩ false (EuclideanSpace.single 0 1) = .ok o ∧
      o.converged = true ∧ o.eta = [w] ∧ -1e-6 ≤ w ∧
      ∃ y : EuclideanSpace ℂ (Fin 3), y ≠ 0 ∧ (inner ℂ y (weakLink y)).re = -1 * ‖y‖ ^ 2 := by
  set p : Params := ⟨1, 500, 1, 1e-8, 1e-5⟩ with hp
  have hx : (EuclideanSpace.single 0 1 : EuclideanSpace ℂ (Fin 3)) ≠ 0 := by
    intro h; simpa using congrArg (fun v : EuclideanSpace ℂ (Fin 3) => v 0) h
  have hN : 0 < p.Ndiag := by norm_num [hp]
  obtain ⟨o, ho⟩ := (simulate_spec weakLink_symm hE (p := p) hN hx (re := false)).2 (by norm_num [hp])
  have run := C52_run weakLink_symm hE hN hx ho
  have h1 := run_pos (by norm_num [hp]) run
  have hf := run.first (o.st.vecs.getD 0 0) (by
    cases hv : o.st.vecs with
    | nil => rw [hv] at h1; simp at h1
    | cons a l => simp)
  simp only [PiLp.norm_single, norm_one, Complex.ofReal_one, one_smul] at hf
  have hr := run.tri.recur 0 (by omega)
  rw [if_neg (lt_irrefl _), zero_add, hf] at hr
  have hHe : weakLink (EuclideanSpace.single 0 1) = ((1e-6 : ℝ) : ℂ) • EuclideanSpace.single 1 1 := by
    ext i
    fin_cases i <;> simp [weakLink, Matrix.toLpLin_apply]
  have he0 : o.st.eps.getD 0 0 = 0 := by
    rw [eps_eq run.tri (by omega), hf, hHe]
    simp [PiLp.inner_apply]
  rw [hHe, he0, zero_smul, zero_add] at hr
  have h2 : 2 ≤ o.st.vecs.length := by
    by_contra hcon
    have hl : o.st.vecs.length = 1 := by omega
    rw [hl, if_neg (lt_irrefl _)] at hr
    cases hc : o.converged with
    | false => have : o.st.vecs.length = 501 := run.full hc; omega
    | true =>
      rcases run.conv_iff.mp hc with ⟨h4, -⟩ | h4
      · have h4 : ‖o.last‖ < 1e-8 := h4
        rw [← hr, norm_smul, Complex.norm_real, PiLp.norm_single, norm_one] at h4
        norm_num at h4
      · have h5 : 1 < o.st.vecs.length := h4.2.1
        omega
  rw [if_pos (by omega)] at hr
  have hl1 : 1 < o.st.kn.length := by rw [run.tri.lk]; omega
  have hk1 : o.st.kn.getD 1 0 = 1e-6 := by
    have hpos := run.tri.pos (o.st.kn.getD 1 0) (by
      rw [List.getD_eq_getElem?_getD, List.getElem?_eq_getElem hl1, Option.getD_some]; exact List.getElem_mem hl1)
    have hq1 : ‖o.st.vecs.getD 1 0‖ = 1 := norm_one_of_inner (by rw [run.tri.orth 1 (by omega) 1 (by omega)]; simp [delta])
    have := congrArg norm hr
    rw [norm_smul, norm_smul, Complex.norm_real, Complex.norm_real, PiLp.norm_single, norm_one, zero_add, hq1, mul_one, mul_one,
      Real.norm_of_nonneg (by norm_num), Real.norm_of_nonneg hpos.le] at this
    exact this.symm
  have hq1 : o.st.vecs.getD 1 0 = EuclideanSpace.single 1 1 := by
    rw [zero_add, hk1] at hr
    exact (smul_right_injective _ (by norm_num : ((1e-6 : ℝ) : ℂ) ≠ 0) hr).symm
  have he1 : o.st.eps.getD 1 0 = 0 := by
    rw [eps_eq run.tri (by omega), hq1]
    simp [PiLp.inner_apply, weakLink, Matrix.toLpLin_apply]
  have tk1 : o.st.kn.take 1 = [o.st.kn.getD 0 0] := take_one_getD 0 (by omega)
  have te1 : o.st.eps.take 1 = [0] := by rw [take_one_getD 0 (by rw [run.tri.le]; omega), he0]
  have tk2 : o.st.kn.take 2 = [o.st.kn.getD 0 0, 1e-6] := by rw [take_two_getD 0 (by omega), hk1]
  have te2 : o.st.eps.take 2 = [0, 0] := by rw [take_two_getD 0 (by rw [run.tri.le]; omega), he0, he1]
  obtain ⟨a, b, hab, ha⟩ := eigh_two hE (o.st.kn.getD 0 0) 1e-6
  have habs : |a| = 1e-6 := by rw [← abs_of_pos (show (0 : ℝ) < 1e-6 by norm_num)]; exact (sq_eq_sq_iff_abs_eq_abs _ _).mp ha
  have stop : Stop eigh p o.st.kn o.st.eps 2 := by
    refine ⟨by simp [hp], by norm_num [hp], by norm_num [hp], ?_⟩
    have e2 : etaAt eigh p o.st.kn o.st.eps 2 = [a] := by
      unfold etaAt; rw [tk2, te2, hab]; rfl
    have e1 : etaAt eigh p o.st.kn o.st.eps (2 - p.Ndiag) = [0] := by
      unfold etaAt
      rw [show 2 - p.Ndiag = 1 from rfl, tk1, te1, eigh_one hE]; rfl
    rw [e1, e2]
    simp only [dist2, List.zipWith_cons_cons, List.zipWith_nil_left, List.sum_cons, List.sum_nil, add_zero, sub_zero]
    rw [Real.sqrt_sq_eq_abs, habs]
    norm_num [hp]
  have hl2 : o.st.vecs.length = 2 := by
    by_contra hcon
    exact run.before 2 (by omega) stop
  refine ⟨o, a, ho, run.conv_iff.mpr (Or.inr (by rw [hl2]; exact stop)), ?_, ?_, EuclideanSpace.single 1 1 - EuclideanSpace.single 2 1, ?_, ?_⟩
  · rw [((simulate_spec weakLink_symm hE hN hx).1 o ho).2.1, hl2]
    have f1 : o.st.kn = [o.st.kn.getD 0 0, 1e-6] := by
      rw [← tk2, List.take_of_length_le (by rw [run.tri.lk, hl2])]
    have f2 : o.st.eps = [0, 0] := by rw [← te2, List.take_of_length_le (by rw [run.tri.le, hl2])]
    rw [show heff o.st.kn o.st.eps = heff [o.st.kn.getD 0 0, 1e-6] [0, 0] from congrArg₂ heff f1 f2, hab]
    rfl
  · rw [← habs]; exact neg_abs_le a
  · intro h
    simpa using congrArg (fun v : EuclideanSpace ℂ (Fin 3) => v 1) h
  · rw [EuclideanSpace.norm_sq_eq]
    simp [PiLp.inner_apply, weakLink, Matrix.toLpLin_apply, Fin.sum_univ_three]

end

end PyTeN
