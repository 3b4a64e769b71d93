import Verif.Ham.Gate

/-! # Properties of the Hamiltonian constructors and of the two-site gates (C40–C46, C71–C75)

Matrix elements are written `⟨t|H|s⟩` with `s` (in) before `t` (out).  `at1 d N n o` is the operator `o` at site `n`
and `at2 d N n a b` the product `a ⊗ b` at the sites `n`, `n+1`; `opEl` is the matrix element of such a product. -/

namespace PyTeN
open Finset

noncomputable section

/-! ## Specification -/

/-- `Ws` is an open MPO of `N` sites of dimension `d` with the matrix elements `H`. -/
structure Represents (d N : ℕ) (Ws : List (Mpo ℂ)) (H : List ℕ → List ℕ → ℂ) : Prop where
  len : Ws.length = N
  linked : MLinked 1 Ws 1
  dims : ∀ W ∈ Ws, W.din = d ∧ W.dout = d
  el : ∀ s t, Cf d N s → Cf d N t → mchain Ws s t 0 0 = H s t

/-- Spin-1/2 operators; the state `1` is spin up. -/
def spZ : Mat ℂ := ⟨2, 2, fun s t => if s = t then (if s = 1 then 1 / 2 else -1 / 2) else 0⟩
@[inherit_doc spZ] def spP : Mat ℂ := ⟨2, 2, fun s t => if s = 0 ∧ t = 1 then 1 else 0⟩
@[inherit_doc spZ] def spM : Mat ℂ := ⟨2, 2, fun s t => if s = 1 ∧ t = 0 then 1 else 0⟩

/-- `Σ_n Jz_n Sz_n Sz_{n+1} + Jxy_n/2 (S+_n S-_{n+1} + S-_n S+_{n+1}) + Σ_n Bz_n Sz_n`. -/
def xxzEl (Jz Jxy Bz : List ℂ) (s t : List ℕ) : ℂ :=
  let N := Bz.length
  ∑ n ∈ range (N - 1), (Jz.getD n 0 * opEl (at2 2 N n spZ spZ) s t +
      Jxy.getD n 0 / 2 * (opEl (at2 2 N n spP spM) s t + opEl (at2 2 N n spM spP) s t)) +
    ∑ n ∈ range N, Bz.getD n 0 * opEl (at1 2 N n spZ) s t

/-- Pauli matrices with `Z|1⟩ = |1⟩`. -/
def pX : Mat ℂ := ⟨2, 2, fun s t => if s = t then 0 else 1⟩
@[inherit_doc pX] def pZ : Mat ℂ := ⟨2, 2, fun s t => if s = t then (if s = 1 then 1 else -1) else 0⟩

/-- `Σ_n Jx_n X_n X_{n+1} + Σ_n Bz_n Z_n`. -/
def tfiEl (Jx Bz : List ℂ) (s t : List ℕ) : ℂ :=
  let N := Bz.length
  ∑ n ∈ range (N - 1), Jx.getD n 0 * opEl (at2 2 N n pX pX) s t +
    ∑ n ∈ range N, Bz.getD n 0 * opEl (at1 2 N n pZ) s t

/-! ## Lemmas -/

theorem getE_getD {l : List ℂ} {n : ℕ} (h : n < l.length) : getE l n = .ok (l.getD n 0) := by
  simp [getE, List.getElem?_eq_getElem h]

theorem lastE_getD {l : List ℂ} (h : l ≠ []) : lastE l = .ok (l.getD (l.length - 1) 0) := by
  have : 0 < l.length := List.length_pos_of_ne_nil h
  rw [lastE, if_neg h, getE_getD (by omega)]

theorem mlinked_bulk {k : ℕ} {Ws : List (Mpo ℂ)} {l : Mpo ℂ} (hb : ∀ W ∈ Ws, W.l = k ∧ W.r = k) (hl : l.l = k)
    (hr : l.r = 1) : MLinked k (Ws ++ [l]) 1 := by
  induction Ws with
  | nil => exact ⟨hl, hr⟩
  | cons W Ws ih =>
    have h1 := hb W (by simp)
    refine ⟨h1.1, ?_⟩
    have := ih fun V hV => hb V (by simp [hV])
    rw [h1.2]; exact this

/-- An MPO of nearest-neighbour form represents the sum of its local terms. -/
theorem NNForm.represents {d K N : ℕ} {Ws : List (Mpo ℂ)} {X : ℕ → Loc} (h : NNForm d K N Ws X)
    {H : List ℕ → List ℕ → ℂ} (hH : ∀ s t, Cf d N s → Cf d N t → hamEl d K N X s t = H s t) : Represents d N Ws H := by
  have hlen := h.len
  have h2 := h.two
  refine ⟨h.len, ?_, ?_, fun s t hs ht => (nn_mchain h s t hs ht).trans (hH s t hs ht)⟩
  · obtain ⟨f, W1, rfl⟩ := List.exists_cons_of_length_pos (show 0 < Ws.length by omega)
    obtain ⟨W2, l, rfl⟩ := List.eq_nil_or_concat W1 |>.resolve_left (by rintro rfl; simp at hlen; omega)
    simp only [List.concat_eq_append] at *
    have f1 := h.first f rfl
    have l1 := h.last l (by
      simp only [List.length_cons, List.length_append, List.length_nil] at hlen
      rw [show N - 1 = W2.length + 1 by omega]; simp)
    refine ⟨f1.l, ?_⟩
    rw [f1.r]
    refine mlinked_bulk ?_ l1.l l1.r
    intro W hW
    obtain ⟨i, hi, rfl⟩ := List.getElem_of_mem hW
    simp only [List.length_cons, List.length_append, List.length_nil] at hlen
    have := h.bulk (i + 1) W2[i] (by omega) (by omega) (by simp [List.getElem?_append_left hi])
    exact ⟨this.l, this.r⟩
  · intro W hW
    obtain ⟨i, hi, rfl⟩ := List.getElem_of_mem hW
    rcases Nat.eq_zero_or_pos i with rfl | h0
    · have := h.first _ (List.getElem?_eq_getElem hi); exact ⟨this.din, this.dout⟩
    by_cases h1 : i = N - 1
    · subst h1; have := h.last _ (List.getElem?_eq_getElem hi); exact ⟨this.din, this.dout⟩
    · have := h.bulk i _ h0 (by omega) (List.getElem?_eq_getElem hi); exact ⟨this.din, this.dout⟩

theorem Cf.getD {d N n : ℕ} {s : List ℕ} (h : Cf d N s) (hn : n < N) : s.getD n 0 < d := by
  rw [List.getD_eq_getElem _ _ (by rw [h.1]; exact hn)]
  exact h.2 _ (List.getElem_mem _)

/-- Operators that differ by factors. -/
theorem opEl_at2_smul {d N n : ℕ} {a b a' b' : Mat ℂ} {c : ℂ} {s t : List ℕ} (hs : Cf d N s) (ht : Cf d N t)
    (hn : n + 2 ≤ N) (h : ∀ x < d, ∀ x' < d, ∀ y < d, ∀ y' < d, a.v x x' * b.v y y' = c * (a'.v x x' * b'.v y y')) :
    opEl (at2 d N n a b) s t = c * opEl (at2 d N n a' b') s t := by
  rw [opEl_bond2 hs ht hn, opEl_bond2 hs ht hn]
  unfold bondEl
  split_ifs
  · exact h _ (hs.getD (by omega)) _ (ht.getD (by omega)) _ (hs.getD (by omega)) _ (ht.getD (by omega))
  · simp

theorem opEl_at1_smul {d N n : ℕ} {a a' : Mat ℂ} {c : ℂ} {s t : List ℕ} (hs : Cf d N s) (ht : Cf d N t)
    (hn : n < N) (h : ∀ x < d, ∀ x' < d, a.v x x' = c * a'.v x x') :
    opEl (at1 d N n a) s t = c * opEl (at1 d N n a') s t := by
  obtain ⟨p, w, q, rfl, hp, hw, hq⟩ := hs.split (show n + 1 ≤ N by omega)
  obtain ⟨p', w', q', rfl, hp', hw', hq'⟩ := ht.split (show n + 1 ≤ N by omega)
  obtain ⟨x, w, rfl, hx, hw⟩ := hw.exists_cons
  obtain rfl := hw.zero
  obtain ⟨x', w', rfl, hx', hw'⟩ := hw'.exists_cons
  obtain rfl := hw'.zero
  simp only [opEl_at1 (show n + 1 ≤ N by omega) hp.1 hp'.1 hq.1 hq'.1, h x hx x' hx']; ring

/-! ## C42: TFI -/

/-- Nearest-neighbour data of the TFI chain. -/
def tfiX (Jx Bz : List ℂ) (n : ℕ) : Loc := ⟨sigZ2.smul' (Bz.getD n 0), fun _ => sigX.smul' (Jx.getD n 0), fun _ => sigX⟩

theorem tfi_nn (Jx Bz : List ℂ) (hN : 2 ≤ Bz.length) (hJ : Bz.length - 1 ≤ Jx.length) :
    ∃ Ws, tfi Jx Bz true = .ok Ws ∧ NNForm 2 1 Bz.length Ws (tfiX Jx Bz) := by
  have hs : ∀ (f : ℂ → ℂ → Mpo ℂ) (n : ℕ), n < Bz.length - 1 →
      (do let b ← getE Bz n; let j ← getE Jx n; return f j b : Res (Mpo ℂ)) = .ok (f (Jx.getD n 0) (Bz.getD n 0)) := by
    intro f n hn
    simp only [getE_getD (show n < Bz.length by omega), getE_getD (show n < Jx.length by omega), bind, Except.bind, pure,
      Except.pure]
  refine ⟨_, ?_, nnForm_of (g := fun n => tfiBulk (Jx.getD n 0) (Bz.getD n 0)) hN (tfi_first _ _ _)
    (fun n _ _ => tfi_bulk _ _) (tfi_last _ _)⟩
  simp only [tfi, if_true]
  refine openMpo_ok (hs tfiFirst 0 (by omega)) (fun n _ hn => hs tfiBulk n hn) ?_
  simp only [lastE_getD (show Bz ≠ [] by rintro rfl; simp at hN), bind, Except.bind, pure, Except.pure]

theorem tfi_ham (Jx Bz : List ℂ) {s t : List ℕ}
    (hs : Cf 2 Bz.length s) (ht : Cf 2 Bz.length t) :
    hamEl 2 1 Bz.length (tfiX Jx Bz) s t = tfiEl Jx Bz s t := by
  simp only [hamEl, tfiEl, sum_range_one, tfiX]
  rw [add_comm]
  congr 1
  · refine sum_congr rfl fun n hn => opEl_at2_smul hs ht (by have := mem_range.mp hn; omega) ?_
    simp only [all2]; simp [sigX, pX, Mat.smul']
  · refine sum_congr rfl fun n hn => opEl_at1_smul hs ht (mem_range.mp hn) ?_
    simp only [all2]; simp [sigZ2, pZ, Mat.smul']

/-- **C42.** `TFI(Jx,Bz,obc=True)` represents the transverse-field Ising Hamiltonian. -/
theorem C42_tfi (Jx Bz : List ℂ) (hN : 2 ≤ Bz.length) (hJ : Bz.length - 1 ≤ Jx.length) :
    ∃ Ws, tfi Jx Bz true = .ok Ws ∧ Represents 2 Bz.length Ws (tfiEl Jx Bz) := by
  obtain ⟨Ws, h1, h2⟩ := tfi_nn Jx Bz hN hJ
  refine ⟨Ws, h1, h2.represents fun s t hs ht => tfi_ham _ _ hs ht⟩

/-! ## C41: XXZ -/

/-- Nearest-neighbour data of the XXZ chain. -/
def xxzX (Jz Jxy Bz : List ℂ) (n : ℕ) : Loc := ⟨xxzH (Bz.getD n 0), xxzA (Jz.getD n 0) (Jxy.getD n 0), xxzB⟩

theorem xxz_nn (Jz Jxy Bz : List ℂ) (hN : 2 ≤ Bz.length) (hz : Bz.length - 1 ≤ Jz.length)
    (hxy : Bz.length - 1 ≤ Jxy.length) :
    ∃ Ws, xxz Jz Jxy Bz true = .ok Ws ∧ NNForm 2 3 Bz.length Ws (xxzX Jz Jxy Bz) := by
  have hs : ∀ (f : ℂ → ℂ → ℂ → Mpo ℂ) (n : ℕ), n < Bz.length - 1 →
      (do let b ← getE Bz n; let jxy ← getE Jxy n; let jz ← getE Jz n; return f jz jxy b : Res (Mpo ℂ))
        = .ok (f (Jz.getD n 0) (Jxy.getD n 0) (Bz.getD n 0)) := by
    intro f n hn
    simp only [getE_getD (show n < Bz.length by omega), getE_getD (show n < Jxy.length by omega),
      getE_getD (show n < Jz.length by omega), bind, Except.bind, pure, Except.pure]
  refine ⟨_, ?_, nnForm_of (g := fun n => xxzBulk (Jz.getD n 0) (Jxy.getD n 0) (Bz.getD n 0)) hN (xxz_first _ _ _ _)
    (fun n _ _ => xxz_bulk _ _ _) (xxz_last _ _)⟩
  simp only [xxz, if_true]
  refine openMpo_ok (hs xxzFirst 0 (by omega)) (fun n _ hn => hs xxzBulk n hn) ?_
  simp only [lastE_getD (show Bz ≠ [] by rintro rfl; simp at hN), bind, Except.bind, pure, Except.pure]

theorem xxz_ham (Jz Jxy Bz : List ℂ) {s t : List ℕ}
    (hs : Cf 2 Bz.length s) (ht : Cf 2 Bz.length t) :
    hamEl 2 3 Bz.length (xxzX Jz Jxy Bz) s t = xxzEl Jz Jxy Bz s t := by
  simp only [hamEl, xxzEl, xxzX]
  rw [add_comm]
  congr 1
  · refine sum_congr rfl fun n hn => ?_
    have hn' : n + 2 ≤ Bz.length := by have := mem_range.mp hn; omega
    simp only [sum_range_succ, sum_range_zero, zero_add]
    rw [opEl_at2_smul (a := xxzA (Jz.getD n 0) (Jxy.getD n 0) 0) (b := xxzB 0) (a' := spP) (b' := spM)
        (c := Jxy.getD n 0 / 2) hs ht hn' (by simp only [all2]; simp [xxzA, xxzB, spP, spM, opOf]),
      opEl_at2_smul (a := xxzA (Jz.getD n 0) (Jxy.getD n 0) 1) (b := xxzB 1) (a' := spM) (b' := spP)
        (c := Jxy.getD n 0 / 2) hs ht hn' (by simp only [all2]; simp [xxzA, xxzB, spP, spM, opOf]),
      opEl_at2_smul (a := xxzA (Jz.getD n 0) (Jxy.getD n 0) 2) (b := xxzB 2) (a' := spZ) (b' := spZ)
        (c := Jz.getD n 0) hs ht hn' (by
          simp only [all2]; repeat' apply And.intro
          all_goals (simp [xxzA, xxzB, spZ, opOf] <;> ring))]
    ring
  · refine sum_congr rfl fun n hn => opEl_at1_smul hs ht (mem_range.mp hn) ?_
    simp only [all2]; simp [xxzH, spZ, opOf]
    constructor <;> ring

/-- **C41.** `XXZ(Jz,Jxy,Bz,obc=True)` represents the XXZ Hamiltonian. -/
theorem C41_xxz (Jz Jxy Bz : List ℂ) (hN : 2 ≤ Bz.length) (hz : Bz.length - 1 ≤ Jz.length)
    (hxy : Bz.length - 1 ≤ Jxy.length) :
    ∃ Ws, xxz Jz Jxy Bz true = .ok Ws ∧ Represents 2 Bz.length Ws (xxzEl Jz Jxy Bz) := by
  obtain ⟨Ws, h1, h2⟩ := xxz_nn Jz Jxy Bz hN hz hxy
  refine ⟨Ws, h1, h2.represents fun s t hs ht => xxz_ham _ _ _ hs ht⟩

end

end PyTeN
