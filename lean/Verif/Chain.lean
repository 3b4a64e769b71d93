import Verif.Basic

/-!
# The state represented by a list of MPS tensors (specification side)

`chain ts s i j` is the matrix product `ts[0][:,:,s0] · ts[1][:,:,s1] ⋯` at entry `(i,j)`, i.e. the
(boundary-open) amplitude of the configuration `s`.  This is the specification against which the
MPS class is judged; the modelled code never calls it.
-/

namespace PyTeN
open Finset

variable {K : Type*} [CommSemiring K]

/-- Spec: entry `(i,j)` of the product of the site matrices selected by the configuration `s`
(`0` if the configuration has the wrong length). -/
def chain : List (Ten K) → List ℕ → ℕ → ℕ → K
  | [], [], i, j => delta K i j
  | t :: ts, s :: ss, i, j => ∑ k ∈ range t.r, t.v i k s * chain ts ss k j
  | _, _, _, _ => 0

/-- Spec: bond dimensions match along the list, from `l` on the left to `r` on the right. -/
def Linked : ℕ → List (Ten K) → ℕ → Prop
  | l, [], r => l = r
  | l, t :: ts, r => t.l = l ∧ Linked t.r ts r

/-- Spec: `s` is a configuration of the chain (right length, digits below the local dimensions). -/
def Cfg (ts : List (Ten K)) (s : List ℕ) : Prop := List.Forall₂ (fun t x => x < t.d) ts s

/-- right bond dimension of a list which has left dimension `l`. -/
def rdim (l : ℕ) : List (Ten K) → ℕ
  | [] => l
  | t :: ts => rdim t.r ts

omit [CommSemiring K] in
theorem linked_rdim {l r : ℕ} {ts : List (Ten K)} (h : Linked l ts r) : rdim l ts = r := by
  induction ts generalizing l with
  | nil => simpa [Linked, rdim] using h
  | cons t ts ih => exact ih h.2

omit [CommSemiring K] in
theorem linked_append {l r : ℕ} {A B : List (Ten K)} :
    Linked l (A ++ B) r ↔ ∃ m, Linked l A m ∧ Linked m B r := by
  induction A generalizing l with
  | nil => simp [Linked]
  | cons t A ih =>
    simp only [List.cons_append, Linked, ih]
    constructor
    · rintro ⟨h, m, h1, h2⟩; exact ⟨m, ⟨h, h1⟩, h2⟩
    · rintro ⟨m, ⟨h, h1⟩, h2⟩; exact ⟨h, m, h1, h2⟩

/-- The amplitude of a concatenation is the matrix product of the amplitudes. -/
theorem chain_append {l m : ℕ} {A B : List (Ten K)} (hA : Linked l A m) (sA sB : List ℕ)
    (hlen : sA.length = A.length) {i : ℕ} (hi : i < l) (j : ℕ) :
    chain (A ++ B) (sA ++ sB) i j = ∑ k ∈ range m, chain A sA i k * chain B sB k j := by
  induction A generalizing l i sA with
  | nil =>
    obtain rfl : sA = [] := by simpa using hlen
    simp only [Linked] at hA
    subst hA
    simp only [List.nil_append, chain]
    rw [sum_delta_left hi]
  | cons t A ih =>
    cases sA with
    | nil => simp at hlen
    | cons s sA =>
      simp only [List.cons_append, chain]
      simp only [List.length_cons, Nat.add_right_cancel_iff] at hlen
      simp_rw [sum_mul]
      rw [sum_comm]
      apply sum_congr rfl
      intro k hk
      rw [ih hA.2 sA hlen (mem_range.mp hk), mul_sum]
      apply sum_congr rfl
      intro x _
      ring

theorem chain_length_ne {A : List (Ten K)} {s : List ℕ} (h : s.length ≠ A.length) (i j : ℕ) :
    chain A s i j = 0 := by
  induction A generalizing s i with
  | nil =>
    cases s with
    | nil => simp at h
    | cons _ _ => rfl
  | cons t A ih =>
    cases s with
    | nil => rfl
    | cons x s =>
      simp only [chain]
      apply sum_eq_zero
      intro k _
      rw [ih (by simpa using h), mul_zero]

/-- Spec: sum of `f` over all configurations with local dimensions `ds`. -/
def sumCfg : List ℕ → (List ℕ → K) → K
  | [], f => f []
  | d :: ds, f => ∑ s ∈ range d, sumCfg ds (fun ss => f (s :: ss))

theorem sumCfg_congr {ds : List ℕ} {f g : List ℕ → K}
    (h : ∀ s, List.Forall₂ (fun d x => x < d) ds s → f s = g s) : sumCfg ds f = sumCfg ds g := by
  induction ds generalizing f g with
  | nil => exact h [] List.Forall₂.nil
  | cons d ds ih =>
    simp only [sumCfg]
    apply sum_congr rfl
    intro s hs
    apply ih
    intro ss hss
    exact h _ (List.Forall₂.cons (mem_range.mp hs) hss)

theorem sumCfg_append (ds es : List ℕ) (f : List ℕ → K) :
    sumCfg (ds ++ es) f = sumCfg ds (fun a => sumCfg es (fun b => f (a ++ b))) := by
  induction ds generalizing f with
  | nil => simp [sumCfg]
  | cons d ds ih => simp [sumCfg, ih]

theorem sumCfg_add (ds : List ℕ) (f g : List ℕ → K) :
    sumCfg ds (fun s => f s + g s) = sumCfg ds f + sumCfg ds g := by
  induction ds generalizing f g with
  | nil => rfl
  | cons d ds ih => simp [sumCfg, ih, sum_add_distrib]

theorem sumCfg_mul (ds : List ℕ) (c : K) (f : List ℕ → K) :
    sumCfg ds (fun s => c * f s) = c * sumCfg ds f := by
  induction ds generalizing f with
  | nil => rfl
  | cons d ds ih => simp [sumCfg, ih, mul_sum]

theorem sumCfg_mul_right (ds : List ℕ) (c : K) (f : List ℕ → K) :
    sumCfg ds (fun s => f s * c) = sumCfg ds f * c := by
  simp_rw [mul_comm _ c]; rw [sumCfg_mul]

theorem sumCfg_zero (ds : List ℕ) : sumCfg ds (fun _ => (0 : K)) = 0 := by
  induction ds with
  | nil => rfl
  | cons d ds ih => simp [sumCfg, ih]

theorem sumCfg_sum (ds : List ℕ) (n : ℕ) (f : ℕ → List ℕ → K) :
    sumCfg ds (fun s => ∑ i ∈ range n, f i s) = ∑ i ∈ range n, sumCfg ds (f i) := by
  induction n with
  | zero => simp [sumCfg_zero]
  | succ n ih => simp only [sum_range_succ]; rw [sumCfg_add, ih]

theorem sumCfg_comm (ds es : List ℕ) (f : List ℕ → List ℕ → K) :
    sumCfg ds (fun a => sumCfg es (fun b => f a b))
      = sumCfg es (fun b => sumCfg ds (fun a => f a b)) := by
  induction ds generalizing f with
  | nil => rfl
  | cons d ds ih =>
    simp only [sumCfg]
    rw [sumCfg_sum]
    apply sum_congr rfl
    intro s _
    exact ih _

end PyTeN
