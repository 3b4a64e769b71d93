import Verif.Props.Ham2

/-! # Two-site gates, periodic constructors, Hermiticity (C40, C46, C73–C75) -/

namespace PyTeN
open Finset

noncomputable section

/-! ## C40: twoSiteGate -/

/-- One two-site operator per bond. -/
abbrev Gens := ℕ → ℕ → ℕ → ℕ → ℕ → ℂ

/-- **C40 (partial).** For an MPO of nearest-neighbour form with at least three sites every call
`twoSiteGate(n,n+1,tau)` returns `exp(tau h_n)`, and the generators `h_n` add up to the Hamiltonian.  Missing: two
sites, where the call fails (below). -/
theorem C40_generators_partial {d K N : ℕ} {Ws : List (Mpo ℂ)} {X : ℕ → Loc} (h : NNForm d K N Ws X) (hN : 3 ≤ N) :
    ∃ g : ℕ → ℕ → ℕ → ℕ → ℕ → ℂ,
      (∀ n : ℕ, n + 1 < N → ∀ tau, twoSiteGate Ws n (n + 1) tau = .ok (expGate d (g n) tau)) ∧
      ∀ s t, Cf d N s → Cf d N t → ∑ n ∈ range (N - 1), bondEl n (g n) s t = mchain Ws s t 0 0 :=
  ⟨nnGen K N X, fun _ hn tau => twoSiteGate_nn h hN hn tau,
    fun s t hs ht => (nnGen_sum X hN hs ht).trans (nn_mchain h s t hs ht).symm⟩

/-- **C40 is violated** for two sites: no branch assigns the generator (UnboundLocalError). -/
theorem C40_two_sites_violated {d K : ℕ} {Ws : List (Mpo ℂ)} {X : ℕ → Loc} (h : NNForm d K 2 Ws X) (tau : ℂ) :
    twoSiteGate Ws 0 1 tau = .error .unbound := by
  have l1 : 0 < Ws.length := by rw [h.len]; omega
  have l2 : 0 + 1 < Ws.length := by rw [h.len]; omega
  have hp := h.pair (n := 0) (by omega) (List.getElem?_eq_getElem l1) (List.getElem?_eq_getElem l2)
  have g1 : getM Ws 0 = .ok Ws[0] := getM_nat l1
  have g2 : getM Ws 1 = .ok Ws[1] := getM_nat l2
  simp only [twoSiteGate, gatePair, g1, g2]
  rw [if_neg (by omega), if_pos (by omega), if_neg hp.l1, if_neg hp.r2, if_pos (hp.r.trans hp.l.symm)]
  simp [gateGen, h.len]

/-- **C40 is violated** for the reversed order of the sites, which the code has a branch for: the call never returns. -/
theorem C40_reversed_violated (Ws : List (Mpo ℂ)) (m n : ℤ) (h : n ≤ m) (tau : ℂ) :
    ∃ e, twoSiteGate Ws m n tau = .error e := by
  unfold twoSiteGate
  by_cases h1 : n < m
  · rw [if_pos h1]
    cases gatePair Ws n m with
    | error e => exact ⟨e, rfl⟩
    | ok _ => exact ⟨.unbound, rfl⟩
  · rw [if_neg h1, if_neg (by omega)]; exact ⟨.unbound, rfl⟩

/-- Instances: the chains of C41–C44 and C71. -/
theorem C40_chains_partial :
    (∀ Jx Bz : List ℂ, 3 ≤ Bz.length → Bz.length - 1 ≤ Jx.length → ∃ (Ws : List (Mpo ℂ)) (g : Gens), tfi Jx Bz true = .ok Ws ∧
      (∀ n : ℕ, n + 1 < Bz.length → ∀ tau, twoSiteGate Ws n (n + 1) tau = .ok (expGate 2 (g n) tau)) ∧
      ∀ s t, Cf 2 Bz.length s → Cf 2 Bz.length t → ∑ n ∈ range (Bz.length - 1), bondEl n (g n) s t = tfiEl Jx Bz s t) ∧
    (∀ Jz Jxy Bz : List ℂ, 3 ≤ Bz.length → Bz.length - 1 ≤ Jz.length → Bz.length - 1 ≤ Jxy.length →
      ∃ (Ws : List (Mpo ℂ)) (g : Gens), xxz Jz Jxy Bz true = .ok Ws ∧
      (∀ n : ℕ, n + 1 < Bz.length → ∀ tau, twoSiteGate Ws n (n + 1) tau = .ok (expGate 2 (g n) tau)) ∧
      ∀ s t, Cf 2 Bz.length s → Cf 2 Bz.length t →
        ∑ n ∈ range (Bz.length - 1), bondEl n (g n) s t = xxzEl Jz Jxy Bz s t) ∧
    (∀ V t mu : List ℂ, 3 ≤ mu.length → V.length = mu.length - 1 → t.length = mu.length - 1 →
      ∃ (Ws : List (Mpo ℂ)) (g : Gens), spinless V t mu true = .ok Ws ∧
      (∀ n : ℕ, n + 1 < mu.length → ∀ tau, twoSiteGate Ws n (n + 1) tau = .ok (expGate 2 (g n) tau)) ∧
      ∀ s u, Cf 2 mu.length s → Cf 2 mu.length u →
        ∑ n ∈ range (mu.length - 1), bondEl n (g n) s u = sfEl V t mu s u) ∧
    (∀ U tU tD muU muD : List ℂ, 3 ≤ U.length → muU.length = U.length → muD.length = U.length →
      tU.length = U.length - 1 → tD.length = U.length - 1 → ∃ (Ws : List (Mpo ℂ)) (g : Gens), hubbard U tU tD muU muD true = .ok Ws ∧
      (∀ n : ℕ, n + 1 < U.length → ∀ tau, twoSiteGate Ws n (n + 1) tau = .ok (expGate 4 (g n) tau)) ∧
      ∀ s u, Cf 4 U.length s → Cf 4 U.length u →
        ∑ n ∈ range (U.length - 1), bondEl n (g n) s u = hubEl U tU tD muU muD (bits s) (bits u)) := by
  refine ⟨fun Jx Bz h1 h2 => ?_, fun Jz Jxy Bz h1 h2 h3 => ?_, fun V t mu h1 h2 h3 => ?_,
    fun U tU tD muU muD h1 h2 h3 h4 h5 => ?_⟩
  · obtain ⟨Ws, e1, e2⟩ := tfi_nn Jx Bz (by omega) h2
    exact ⟨Ws, _, e1, fun _ hn tau => twoSiteGate_nn e2 h1 hn tau,
      fun s t hs ht => (nnGen_sum _ h1 hs ht).trans (tfi_ham Jx Bz hs ht)⟩
  · obtain ⟨Ws, e1, e2⟩ := xxz_nn Jz Jxy Bz (by omega) h2 h3
    exact ⟨Ws, _, e1, fun _ hn tau => twoSiteGate_nn e2 h1 hn tau,
      fun s t hs ht => (nnGen_sum _ h1 hs ht).trans (xxz_ham Jz Jxy Bz hs ht)⟩
  · obtain ⟨Ws, e1, e2⟩ := spinless_nn V t mu (by omega) h2 h3
    obtain ⟨Ws', e1', e3⟩ := C43_spinless V t mu (by omega) h2 h3
    obtain rfl : Ws = Ws' := by rw [e1] at e1'; exact Except.ok.inj e1'
    exact ⟨Ws, _, e1, fun _ hn tau => twoSiteGate_nn e2 h1 hn tau,
      fun s u hs hu => (nnGen_sum _ h1 hs hu).trans ((nn_mchain e2 s u hs hu).symm.trans (e3.el s u hs hu))⟩
  · obtain ⟨Ws, e1, e2⟩ := hubbard_nn U tU tD muU muD (by omega) h2 h3 h4 h5
    obtain ⟨Ws', e1', e3⟩ := C44_hubbard U tU tD muU muD (by omega) h2 h3 h4 h5
    obtain rfl : Ws = Ws' := by rw [e1] at e1'; exact Except.ok.inj e1'
    exact ⟨Ws, _, e1, fun _ hn tau => twoSiteGate_nn e2 h1 hn tau,
      fun s u hs hu => (nnGen_sum _ h1 hs hu).trans ((nn_mchain e2 s u hs hu).symm.trans (e3.el s u hs hu))⟩

/-! ## C46: periodic constructors -/

/-- `N` bulk tensors with bond dimension `k` on both sides; with the last row on the left and the first column on the
right they have the matrix elements `H`. -/
structure Cell (d k N : ℕ) (Ws : List (Mpo ℂ)) (H : List ℕ → List ℕ → ℂ) : Prop where
  len : Ws.length = N
  dims : ∀ W ∈ Ws, W.l = k ∧ W.r = k ∧ W.din = d ∧ W.dout = d
  el : ∀ s t, Cf d N s → Cf d N t → mchain Ws s t (k - 1) 0 = H s t

theorem NNBulk.toLast {d K : ℕ} {W : Mpo ℂ} {X : Loc} (h : NNBulk d K W X) : NNLast d K { W with r := 1 } X :=
  ⟨h.l, rfl, h.din, h.dout, h.top, h.B, h.h⟩

theorem mchain_cut {Ws : List (Mpo ℂ)} {W : Mpo ℂ} (hr : 0 < W.r) (s t : List ℕ) (b : ℕ) :
    mchain (Ws ++ [W]) s t b 0 = mchain (Ws ++ [{ W with r := 1 }]) s t b 0 := by
  induction Ws generalizing s t b with
  | nil =>
    cases s with
    | nil => cases t <;> simp [mchain]
    | cons x s =>
      cases t with
      | nil => simp [mchain]
      | cons y t =>
        simp only [List.nil_append, mchain, sum_range_one]
        rw [sum_eq_single_of_mem 0 (mem_range.mpr hr)]
        intro c _ hc
        cases s <;> cases t <;> simp [mchain, delta, hc]
  | cons V Ws ih =>
    cases s with
    | nil => cases t <;> simp [mchain]
    | cons x s =>
      cases t with
      | nil => simp [mchain]
      | cons y t =>
        simp only [List.cons_append, mchain]
        exact sum_congr rfl fun c _ => by rw [ih]

/-- Bulk tensors between the boundary row and column. -/
theorem cell_of {d K N : ℕ} {X : ℕ → Loc} {g : ℕ → Mpo ℂ} (hN : 1 ≤ N) (hb : ∀ n < N, NNBulk d K (g n) (X n))
    {H : List ℕ → List ℕ → ℂ} (hH : ∀ s t, Cf d N s → Cf d N t → hamEl d K N X s t = H s t) :
    Cell d (K + 2) N ((List.range N).map g) H := by
  refine ⟨by simp, ?_, ?_⟩
  · intro W hW
    obtain ⟨n, hn, rfl⟩ := List.mem_map.mp hW
    have := hb n (List.mem_range.mp hn)
    exact ⟨this.l, this.r, this.din, this.dout⟩
  · intro s t hs ht
    obtain ⟨m, rfl⟩ : ∃ m, N = m + 1 := ⟨N - 1, by omega⟩
    rw [List.range_succ, List.map_append, List.map_singleton,
      mchain_cut (by rw [(hb m (by omega)).r]; omega), List.range_eq_range']
    have := (right_env (X := X) (g := g) (l := { g m with r := 1 }) m 0
      (fun i _ hi => hb i (by omega)) (by rw [Nat.zero_add]; exact (hb m (by omega)).toLast) s t hs ht).2.2
    rw [show K + 2 - 1 = K + 1 by omega, this, hamRec_eq _ _ _ _ _ _ _ hs.1 ht.1]
    simp only [Nat.zero_add]
    exact hH s t hs ht

theorem tfi2_bulk (J B : ℂ) : NNBulk 2 1 (tfi2Bulk J B) ⟨sigX.smul' B, fun _ => sigZ2.smul' J, fun _ => sigZ2⟩ := by
  refine ⟨rfl, rfl, rfl, rfl, ?_, ?_, ?_, ?_, ?_, ?_⟩
  · intro s _ t _; simp [tfi2Bulk, Mpo.blk, eyeK]
  · rw [all1]; intro s _ t _; simp [tfi2Bulk, Mpo.blk]
  · intro s _ t _; simp [tfi2Bulk, Mpo.blk]
  · rw [all1]; intro s _ t _; simp [tfi2Bulk, Mpo.blk]
  · intro s _ t _; simp [tfi2Bulk, Mpo.blk, eyeK]
  · intro b hb c hc s _ t _
    have h2 : b ≠ 2 := by omega
    simp [tfi2Bulk, Mpo.blk, Mpo.zeros, h2]

/-- `Σ_n Jz_n Z_n Z_{n+1} + Σ_n Bx_n X_n`. -/
def tfi2El (Jz Bx : List ℂ) (s t : List ℕ) : ℂ :=
  let N := Bx.length
  ∑ n ∈ range (N - 1), Jz.getD n 0 * opEl (at2 2 N n pZ pZ) s t +
    ∑ n ∈ range N, Bx.getD n 0 * opEl (at1 2 N n pX) s t

/-- **C46 (partial).** `TFI`, `TFI_2`, `XXZ`, `JessHamiltonian` and `XXZflipped(dtype=complex)` with `obc=False` and
arrays of length `N ≥ 1` return `N` bulk tensors; between the boundary vectors of an open chain they represent the open
Hamiltonian (for `XXZflipped` the one of C45).  Missing: `SpinlessFermions` and `HubbardChain` (below). -/
theorem C46_spin_partial :
    (∀ Jx Bz : List ℂ, 1 ≤ Bz.length → Jx.length = Bz.length →
      ∃ Ws, tfi Jx Bz false = .ok Ws ∧ Cell 2 3 Bz.length Ws (tfiEl Jx Bz)) ∧
    (∀ Jz Bx : List ℂ, 1 ≤ Bx.length → Jz.length = Bx.length →
      ∃ Ws, tfi2 Jz Bx false = .ok Ws ∧ Cell 2 3 Bx.length Ws (tfi2El Jz Bx)) ∧
    (∀ Jz Jxy Bz : List ℂ, 1 ≤ Bz.length → Jz.length = Bz.length → Jxy.length = Bz.length →
      ∃ Ws, xxz Jz Jxy Bz false = .ok Ws ∧ Cell 2 5 Bz.length Ws (xxzEl Jz Jxy Bz)) ∧
    (∀ J w chi : List ℂ, 1 ≤ chi.length → J.length = chi.length → w.length = chi.length →
      ∃ Ws, jess J w chi false = .ok Ws ∧ Cell 4 8 chi.length Ws (jessEl J w chi)) ∧
    (∀ Delta J : List ℂ, 1 ≤ Delta.length → J.length = Delta.length →
      ∃ Ws, xxzFlipped Delta J false .complex = .ok Ws ∧ Cell 2 5 Delta.length Ws
        (flipEl Delta.length (fun _ => J.getD 0 0) fun n => Delta.getD n 0 * J.getD n 0)) := by
  refine ⟨fun Jx Bz h1 h2 => ?_, fun Jz Bx h1 h2 => ?_, fun Jz Jxy Bz h1 h2 h3 => ?_, fun J w chi h1 h2 h3 => ?_,
    fun Delta J h1 h2 => ?_⟩
  · refine ⟨_, ?_, cell_of (g := fun n => tfiBulk (Jx.getD n 0) (Bz.getD n 0)) (X := tfiX Jx Bz) h1
      (fun n _ => tfi_bulk _ _) (fun s t hs ht => tfi_ham Jx Bz hs ht)⟩
    simp only [tfi, Bool.false_eq_true, if_false]
    rw [if_pos h2.symm]
    refine buildE_ok fun n hn => ?_
    have hn := List.mem_range.mp hn
    simp only [getE_getD hn, getE_getD (show n < Jx.length by omega), bind, Except.bind, pure, Except.pure]
  · refine ⟨_, ?_, cell_of (g := fun n => tfi2Bulk (Jz.getD n 0) (Bx.getD n 0)) h1 (fun n _ => tfi2_bulk _ _)
      (fun s t hs ht => ?_)⟩
    · simp only [tfi2, Bool.false_eq_true, if_false]
      rw [if_pos h2.symm]
      refine buildE_ok fun n hn => ?_
      have hn := List.mem_range.mp hn
      simp only [getE_getD hn, getE_getD (show n < Jz.length by omega), bind, Except.bind, pure, Except.pure]
    · simp only [hamEl, tfi2El, sum_range_one]
      rw [add_comm]
      congr 1
      · refine sum_congr rfl fun n hn => opEl_at2_smul hs ht (by have := mem_range.mp hn; omega) ?_
        simp only [all2]; simp [sigZ2, pZ, Mat.smul']
      · refine sum_congr rfl fun n hn => opEl_at1_smul hs ht (mem_range.mp hn) ?_
        simp only [all2]; simp [sigX, pX, Mat.smul']
  · refine ⟨_, ?_, cell_of (g := fun n => xxzBulk (Jz.getD n 0) (Jxy.getD n 0) (Bz.getD n 0)) (X := xxzX Jz Jxy Bz) h1
      (fun n _ => xxz_bulk _ _ _) (fun s t hs ht => xxz_ham Jz Jxy Bz hs ht)⟩
    simp only [xxz, Bool.false_eq_true, if_false]
    rw [if_pos (by omega)]
    refine buildE_ok fun n hn => ?_
    have hn := List.mem_range.mp hn
    simp only [getE_getD hn, getE_getD (show n < Jz.length by omega), getE_getD (show n < Jxy.length by omega), bind,
      Except.bind, pure, Except.pure]
  · refine ⟨_, ?_, cell_of (g := fun n => jessBulk (J.getD n 0) (w.getD n 0) (chi.getD n 0)) (X := jessX J w chi) h1
      (fun n _ => jess_bulk _ _ _) (fun s t hs ht => jess_ham J w chi hs ht)⟩
    simp only [jess, Bool.false_eq_true, if_false]
    rw [if_neg (by omega)]
    refine buildE_ok fun n hn => ?_
    have hn := List.mem_range.mp hn
    simp only [getE_getD hn, getE_getD (show n < J.length by omega), getE_getD (show n < w.length by omega), bind,
      Except.bind, pure, Except.pure]
  · refine ⟨_, ?_, cell_of (g := fun n => flipBulk (J.getD 0 0) (Delta.getD n 0 * J.getD n 0)) (X := flipX Delta J) h1
      (fun n _ => flip_bulk _ _) (fun s t hs ht => flip_ham Delta J hs ht)⟩
    simp only [xxzFlipped, Bool.false_eq_true, if_false, reduceCtorEq]
    refine buildE_ok fun n hn => ?_
    have hn := List.mem_range.mp hn
    simp only [getE_getD hn, getE_getD (show n < J.length by omega), getE_getD (show 0 < J.length by omega), bind,
      Except.bind, pure, Except.pure]

theorem buildE_last {α : Type*} {f : ℕ → Res α} {e : PyErr} {N : ℕ} (hN : 1 ≤ N) (ho : ∀ n < N - 1, ∃ a, f n = .ok a)
    (he : f (N - 1) = .error e) : buildE f (List.range N) = .error e := by
  have key : ∀ l : List ℕ, (∀ n ∈ l, ∃ a, f n = .ok a) → buildE f (l ++ [N - 1]) = .error e := by
    intro l hl
    induction l with
    | nil => simp [buildE, he]
    | cons n l ih =>
      obtain ⟨a, ha⟩ := hl n (by simp)
      simp only [List.cons_append, buildE, ha, ih fun m hm => hl m (by simp [hm])]
  obtain ⟨m, rfl⟩ : ∃ m, N = m + 1 := ⟨N - 1, by omega⟩
  rw [List.range_succ]
  exact key _ fun n hn => ho n (by have := List.mem_range.mp hn; omega)

theorem getE_len {l : List ℂ} : getE l l.length = .error .index := by simp [getE]

/-- **C46 is violated** by `SpinlessFermions`: with arrays of the asserted lengths `N-1`, `N-1`, `N`, `obc=False` always
raises an IndexError; other lengths fail the assertion. -/
theorem C46_spinless_violated (V t mu : List ℂ) (hN : 1 ≤ mu.length) :
    spinless V t mu false = .error
      (if V.length = t.length ∧ (V.length : ℤ) = (mu.length : ℤ) - 1 then .index else .assertion) := by
  simp only [spinless, Bool.false_eq_true, if_false]
  by_cases h : V.length = t.length ∧ (V.length : ℤ) = (mu.length : ℤ) - 1
  · rw [if_pos h, if_pos h]
    have hl : t.length = mu.length - 1 := by omega
    have hV : V.length = mu.length - 1 := by omega
    refine buildE_last hN ?_ ?_
    · intro n hn
      refine ⟨sfPeriodic (V.getD n 0) (t.getD n 0) (mu.getD n 0), ?_⟩
      simp only [getE_getD (show n < mu.length by omega), getE_getD (show n < t.length by omega),
        getE_getD (show n < V.length by omega), bind, Except.bind, pure, Except.pure]
    · have := getE_len (l := t)
      rw [hl] at this
      simp only [getE_getD (show mu.length - 1 < mu.length by omega), this, bind, Except.bind]
  · rw [if_neg h, if_neg h]

/-- **C46 is violated** by `HubbardChain` in the same way. -/
theorem C46_hubbard_violated (U tU tD muU muD : List ℂ) (hN : 1 ≤ U.length) :
    hubbard U tU tD muU muD false = .error (if muU.length = U.length ∧ muD.length = U.length ∧
      (tU.length : ℤ) = (U.length : ℤ) - 1 ∧ (tD.length : ℤ) = (U.length : ℤ) - 1 then .index else .assertion) := by
  simp only [hubbard, Bool.false_eq_true, if_false]
  by_cases h : muU.length = U.length ∧ muD.length = U.length ∧ (tU.length : ℤ) = (U.length : ℤ) - 1 ∧
      (tD.length : ℤ) = (U.length : ℤ) - 1
  · rw [if_pos h, if_pos h]
    obtain ⟨h1, h2, h3, h4⟩ := h
    have hl : tU.length = U.length - 1 := by omega
    refine buildE_last hN ?_ ?_
    · intro n hn
      refine ⟨hubBulk (U.getD n 0) (tU.getD n 0) (tD.getD n 0) (muU.getD n 0) (muD.getD n 0), ?_⟩
      simp only [getE_getD (show n < muU.length by omega), getE_getD (show n < muD.length by omega),
        getE_getD (show n < U.length by omega), getE_getD (show n < tU.length by omega),
        getE_getD (show n < tD.length by omega), bind, Except.bind, pure, Except.pure]
    · have := getE_len (l := tU)
      rw [hl] at this
      simp only [getE_getD (show U.length - 1 < U.length by omega), getE_getD (show U.length - 1 < muU.length by omega),
        getE_getD (show U.length - 1 < muD.length by omega), this, bind, Except.bind]
  · rw [if_neg h, if_neg h]

/-! ## C73: TEBD with the gates of an MPO -/

variable {O : LinAlg}

/-- **C73.** TEBD driven by the gates of an MPO of nearest-neighbour form with at least three sites: from a canonical
state and with `Dmax` at least the dimension of the space, the run returns, discards nothing and applies `numsteps`
symmetric Trotter steps of gates `exp(tau h_n)` whose generators add up to the Hamiltonian of the MPO. -/
theorem C73_tebd_mpo (hO : O.Spec) {d K N : ℕ} {Ws : List (Mpo ℂ)} {X : ℕ → Loc} (h : NNForm d K N Ws X) (hN : 3 ≤ N) :
    ∃ (g : ℕ → ℕ → ℕ → ℕ → ℕ → ℂ) (G : ℕ → ℂ → Gate2),
      (∀ s t, Cf d N s → Cf d N t → ∑ n ∈ range (N - 1), bondEl n (g n) s t = mchain Ws s t 0 0) ∧
      (∀ n, n + 1 < N → ∀ tau, G n tau = expGate d (g n) tau) ∧
      ∀ {l r D : ℕ}, 1 ≤ D → l * d ^ N ≤ D → ∀ (dt : ℂ) (n : ℕ) (v : ℤ) {cp : Option ℤ}, cp ≠ some 0 → ∀ (keep : Bool)
        {w : World}, Good (List.replicate N d) l r w.evo.eng.mps →
        ∃ w', doTEBD O (twoSiteGate Ws) dt ((n : ℤ) + 1) (some D) 0 v cp keep w = .ok w' ∧ w'.evo.tw = w.evo.tw ∧
          w'.evo.eng.mps.normSq l r = 1 ∧ ∃ c : ℂ, c ≠ 0 ∧ ∀ s, Conf (List.replicate N d) s → ∀ i < l, ∀ j,
            opEvs G (layersEvs N (symSteps dt (n + 1))) (fun s => w.evo.eng.mps.amp s i j) s
              = c * w'.evo.eng.mps.amp s i j := by
  refine ⟨nnGen K N X, nnGates d K N X,
    fun s t hs ht => (nnGen_sum X hN hs ht).trans (nn_mchain h s t hs ht).symm, ?_, ?_⟩
  · intro n hn tau
    have hg : ∀ n < N, (List.replicate N d).getD n 0 = d := fun n hn => by simp [hn]
    rw [nnGates, hg n (by omega), hg _ hn]
    rfl
  · intro l r D hD hl dt n v cp hcp keep w hm
    have := C69_exact hO (gateGroup_nn h hN) hD (by simpa using hl) dt n v hcp keep hm
    rw [List.length_replicate] at this
    exact this

/-! ## C74: unitary gates -/

theorem entry_star {D : ℕ} (M : Matrix (Fin D) (Fin D) ℂ) (i j : ℕ) : entry M.conjTranspose i j = star (entry M j i) := by
  unfold entry
  by_cases h : i < D ∧ j < D
  · rw [dif_pos h, dif_pos ⟨h.2, h.1⟩]; rfl
  · rw [dif_neg h, dif_neg (fun h' => h ⟨h'.2, h'.1⟩)]; simp

/-- **C74.** The gate of a Hermitian generator is unitary for every purely imaginary `tau` (real-time evolution). -/
theorem C74_unitary {d : ℕ} {g : ℕ → ℕ → ℕ → ℕ → ℂ}
    (hg : ∀ x < d, ∀ y < d, ∀ x' < d, ∀ y' < d, star (g x' y' x y) = g x y x' y') {tau : ℂ} (ht : star tau = -tau)
    {x y x' y' : ℕ} (hx : x < d) (hy : y < d) (hx' : x' < d) (hy' : y' < d) :
    ∑ u ∈ range d, ∑ w ∈ range d, (expGate d g tau).v x y u w * star ((expGate d g tau).v x' y' u w)
      = if x = x' ∧ y = y' then 1 else 0 := by
  have hM : (genMat d g).conjTranspose = genMat d g := by
    ext a b
    have hd : 0 < d := by omega
    simp only [genMat, Matrix.conjTranspose_apply, Matrix.of_apply]
    exact hg _ (Nat.div_lt_of_lt_mul a.2) _ (Nat.mod_lt _ hd) _ (Nat.div_lt_of_lt_mul b.2) _ (Nat.mod_lt _ hd)
  have hU : NormedSpace.exp (tau • genMat d g) * (NormedSpace.exp (tau • genMat d g)).conjTranspose = 1 := by
    rw [← Matrix.exp_conjTranspose, Matrix.conjTranspose_smul, hM, ht, neg_smul,
      ← Matrix.exp_add_of_commute _ _ ((Commute.refl (tau • genMat d g)).neg_right), add_neg_cancel, NormedSpace.exp_zero]
  have := entry_mul (NormedSpace.exp (tau • genMat d g)) (NormedSpace.exp (tau • genMat d g)).conjTranspose
    (idx_lt hx hy) (idx_lt hx' hy')
  rw [hU, entry_one (idx_lt hx hy) (idx_lt hx' hy'), sum_range_mul] at this
  simp only [entry_star, pairIdx_inj hy hy'] at this
  exact this.symm

/-- All entries real. -/
def RealL (l : List ℂ) : Prop := ∀ x ∈ l, star x = x

theorem RealL.getD {l : List ℂ} (h : RealL l) (n : ℕ) : star (l.getD n 0) = l.getD n 0 := by
  rcases Nat.lt_or_ge n l.length with hn | hn
  · rw [List.getD_eq_getElem _ _ hn]; exact h _ (List.getElem_mem hn)
  · rw [List.getD_eq_default _ _ hn]; simp

theorem nnGen_star {d K N : ℕ} {X : ℕ → Loc} (hh : ∀ n, ∀ x < d, ∀ x' < d, star ((X n).h.v x' x) = (X n).h.v x x')
    (hb : ∀ n, ∀ x < d, ∀ y < d, ∀ x' < d, ∀ y' < d,
      ∑ k ∈ range K, star (((X n).A k).v x' x * ((X (n + 1)).B k).v y' y)
        = ∑ k ∈ range K, ((X n).A k).v x x' * ((X (n + 1)).B k).v y y') (n : ℕ) :
    ∀ x < d, ∀ y < d, ∀ x' < d, ∀ y' < d, star (nnGen K N X n x' y' x y) = nnGen K N X n x y x' y' := by
  intro x hx y hy x' hx' y' hy'
  have hc : ∀ p : Prop, [Decidable p] → star (if p then (1 : ℂ) else 1 / 2) = if p then 1 else 1 / 2 := by
    intro p _; split_ifs <;> simp
  have hd : ∀ a b : ℕ, star (delta ℂ a b) = delta ℂ b a := by
    intro a b; unfold delta; by_cases h : a = b
    · subst h; simp
    · simp [h, Ne.symm h]
  simp only [nnGen, star_add, star_sum, star_mul', hc, hd, hh n x hx x' hx', hh (n + 1) y hy y' hy']
  rw [← hb n x hx y hy x' hx' y' hy']
  simp only [star_mul']

theorem conj_half : (starRingEnd ℂ) (0.5 : ℂ) = 0.5 := by
  have : (0.5 : ℂ) = ((0.5 : ℝ) : ℂ) := by norm_num
  rw [this, Complex.conj_ofReal]

/-- **C74** for the transverse-field Ising chain with real couplings. -/
theorem C74_tfi (Jx Bz : List ℂ) (hN : 3 ≤ Bz.length) (hJ : Bz.length - 1 ≤ Jx.length) (h1 : RealL Jx) (h2 : RealL Bz)
    {tau : ℂ} (ht : star tau = -tau) : ∃ Ws, tfi Jx Bz true = .ok Ws ∧ ∀ n : ℕ, n + 1 < Bz.length →
      ∃ G, twoSiteGate Ws n (n + 1) tau = .ok G ∧ ∀ x < 2, ∀ y < 2, ∀ x' < 2, ∀ y' < 2,
        ∑ u ∈ range 2, ∑ w ∈ range 2, G.v x y u w * star (G.v x' y' u w) = if x = x' ∧ y = y' then 1 else 0 := by
  obtain ⟨Ws, e1, e2⟩ := tfi_nn Jx Bz (by omega) hJ
  refine ⟨Ws, e1, fun n hn => ⟨_, twoSiteGate_nn e2 hN hn tau, fun x hx y hy x' hx' y' hy' =>
    C74_unitary (nnGen_star ?_ ?_ n) ht hx hy hx' hy'⟩⟩
  · intro n
    have := h2.getD n
    simp only [all2, tfiX, sigZ2, Mat.smul', star_mul', this]; simp
  · intro n
    have := h1.getD n
    simp only [all2, tfiX, sigX, Mat.smul', sum_range_one, star_mul', this]; simp

/-- **C74** for the XXZ chain with real couplings. -/
theorem C74_xxz (Jz Jxy Bz : List ℂ) (hN : 3 ≤ Bz.length) (hz : Bz.length - 1 ≤ Jz.length)
    (hxy : Bz.length - 1 ≤ Jxy.length) (h1 : RealL Jz) (h2 : RealL Jxy) (h3 : RealL Bz) {tau : ℂ}
    (ht : star tau = -tau) : ∃ Ws, xxz Jz Jxy Bz true = .ok Ws ∧ ∀ n : ℕ, n + 1 < Bz.length →
      ∃ G, twoSiteGate Ws n (n + 1) tau = .ok G ∧ ∀ x < 2, ∀ y < 2, ∀ x' < 2, ∀ y' < 2,
        ∑ u ∈ range 2, ∑ w ∈ range 2, G.v x y u w * star (G.v x' y' u w) = if x = x' ∧ y = y' then 1 else 0 := by
  obtain ⟨Ws, e1, e2⟩ := xxz_nn Jz Jxy Bz (by omega) hz hxy
  refine ⟨Ws, e1, fun n hn => ⟨_, twoSiteGate_nn e2 hN hn tau, fun x hx y hy x' hx' y' hy' =>
    C74_unitary (nnGen_star ?_ ?_ n) ht hx hy hx' hy'⟩⟩
  · intro n
    have a3 : (starRingEnd ℂ) (Bz.getD n 0) = Bz.getD n 0 := h3.getD n
    simp only [all2, xxzX, xxzH, opOf]
    generalize Bz.getD n 0 = b at *
    simp [a3, conj_half]
  · intro n
    have a1 : (starRingEnd ℂ) (Jz.getD n 0) = Jz.getD n 0 := h1.getD n
    have a2 : (starRingEnd ℂ) (Jxy.getD n 0) = Jxy.getD n 0 := h2.getD n
    simp only [all2, xxzX, xxzA, xxzB, opOf, sum_range_succ, sum_range_zero]
    generalize Jz.getD n 0 = b at *
    generalize Jxy.getD n 0 = c at *
    simp [a1, a2, conj_half]

/-! ## C75: Hermiticity -/

theorem opEl_at2_star {d N n : ℕ} {a b a' b' : Mat ℂ} {s t : List ℕ} (hs : Cf d N s) (ht : Cf d N t)
    (hn : n + 2 ≤ N) (ha : ∀ x < d, ∀ x' < d, star (a.v x' x) = a'.v x x')
    (hb : ∀ x < d, ∀ x' < d, star (b.v x' x) = b'.v x x') :
    star (opEl (at2 d N n a b) t s) = opEl (at2 d N n a' b') s t := by
  rw [opEl_bond2 ht hs hn, opEl_bond2 hs ht hn]
  unfold bondEl
  by_cases h : s.take n = t.take n ∧ s.drop (n + 2) = t.drop (n + 2)
  · rw [if_pos h, if_pos ⟨h.1.symm, h.2.symm⟩, star_mul', ha _ (hs.getD (by omega)) _ (ht.getD (by omega)),
      hb _ (hs.getD (by omega)) _ (ht.getD (by omega))]
  · rw [if_neg h, if_neg fun h' => h ⟨h'.1.symm, h'.2.symm⟩, star_zero]

theorem opEl_at1_star {d N n : ℕ} {a a' : Mat ℂ} {s t : List ℕ} (hs : Cf d N s) (ht : Cf d N t)
    (hn : n < N) (ha : ∀ x < d, ∀ x' < d, star (a.v x' x) = a'.v x x') :
    star (opEl (at1 d N n a) t s) = opEl (at1 d N n a') s t := by
  obtain ⟨p, w, q, rfl, hp, hw, hq⟩ := hs.split (show n + 1 ≤ N by omega)
  obtain ⟨p', w', q', rfl, hp', hw', hq'⟩ := ht.split (show n + 1 ≤ N by omega)
  obtain ⟨x, w, rfl, hx, hw⟩ := hw.exists_cons
  obtain rfl := hw.zero
  obtain ⟨x', w', rfl, hx', hw'⟩ := hw'.exists_cons
  obtain rfl := hw'.zero
  rw [opEl_at1 (show n + 1 ≤ N by omega) hp.1 hp'.1 hq.1 hq'.1, opEl_at1 (show n + 1 ≤ N by omega) hp'.1 hp.1 hq'.1 hq.1,
    ← ha x hx x' hx']
  have e : ∀ u v : List ℕ, star (if u = v then (1 : ℂ) else 0) = if v = u then 1 else 0 := by
    intro u v
    by_cases h : u = v
    · subst h; simp
    · rw [if_neg h, if_neg (Ne.symm h), star_zero]
  simp only [star_mul', e]

/-- The MPO is Hermitian. -/
def Herm (d N : ℕ) (Ws : List (Mpo ℂ)) : Prop :=
  ∀ s t, Cf d N s → Cf d N t → star (mchain Ws t s 0 0) = mchain Ws s t 0 0

theorem Represents.herm {d N : ℕ} {Ws : List (Mpo ℂ)} {H : List ℕ → List ℕ → ℂ} (h : Represents d N Ws H)
    (hH : ∀ s t, Cf d N s → Cf d N t → star (H t s) = H s t) : Herm d N Ws := by
  intro s t hs ht
  rw [h.el t s ht hs, h.el s t hs ht, hH s t hs ht]

theorem fEl_star (w : List (Bool × ℕ)) {s t : List ℕ} (hw : ∀ x ∈ w, x.2 < t.length) (hl : t.length = s.length) :
    star ((fEl w t s : ℤ) : ℂ) = (fEl (adj w) s t : ℤ) := by
  rw [fEl_adj w t s hw hl]; simp

theorem word_num {n : ℕ} {s : List ℕ} (hn : n < s.length) :
    (s.getD n 0 = 1 → word [(true, n), (false, n)] s = (1, s)) ∧
    (s.getD n 0 ≠ 1 → (word [(true, n), (false, n)] s).1 = 0) := by
  constructor
  · intro h
    have g1 : (s.set n 0).getD n 0 = 0 := by simp [List.getD_eq_getElem?_getD, List.getElem?_set_self hn]
    have g3 : s.set n 1 = s := by rw [← h, List.getD_eq_getElem _ _ hn, List.set_getElem_self]
    simp only [word, one, can, h, g1, List.take_set_of_le (le_refl _), List.set_set, cond_true, cond_false, if_true, g3,
      one_mul, mul_one, ← pow_add, ← two_mul, pow_mul]
    simp
  · intro h
    have : can false (s.getD n 0) = 0 := by simp only [can, cond_false, if_neg h]
    simp [word, one, this, -List.getD_eq_getElem?_getD]

/-- Product of two occupation numbers. -/
theorem fEl_num {n m : ℕ} {s t : List ℕ} (hn : n < s.length) (hm : m < s.length) :
    fEl [(true, n), (false, n), (true, m), (false, m)] s t
      = if s.getD n 0 = 1 ∧ s.getD m 0 = 1 ∧ s = t then 1 else 0 := by
  have e : [(true, n), (false, n), (true, m), (false, m)]
      = ([(true, n), (false, n)] ++ [(true, m), (false, m)] : List (Bool × ℕ)) := rfl
  rw [e, fEl, word_append]
  by_cases h1 : s.getD m 0 = 1
  · rw [(word_num hm).1 h1]
    by_cases h2 : s.getD n 0 = 1
    · rw [(word_num hn).1 h2]; simp only [h1, h2, true_and, mul_one]
    · simp only [(word_num hn).2 h2, h2, false_and, if_false, zero_mul, ite_self]
  · simp only [(word_num hm).2 h1, h1, false_and, and_false, if_false, mul_zero, ite_self]

theorem fEl_num_comm {n m : ℕ} {s t : List ℕ} (hn : n < s.length) (hm : m < s.length) :
    fEl [(true, n), (false, n), (true, m), (false, m)] s t = fEl [(true, m), (false, m), (true, n), (false, n)] s t := by
  rw [fEl_num hn hm, fEl_num hm hn]
  exact if_congr (by tauto) rfl rfl

/-- **C75.** With real couplings the MPOs of the open chains are Hermitian. -/
theorem C75_hermitian :
    (∀ Jx Bz : List ℂ, 2 ≤ Bz.length → Bz.length - 1 ≤ Jx.length → RealL Jx → RealL Bz →
      ∃ Ws, tfi Jx Bz true = .ok Ws ∧ Herm 2 Bz.length Ws) ∧
    (∀ Jz Jxy Bz : List ℂ, 2 ≤ Bz.length → Bz.length - 1 ≤ Jz.length → Bz.length - 1 ≤ Jxy.length → RealL Jz →
      RealL Jxy → RealL Bz → ∃ Ws, xxz Jz Jxy Bz true = .ok Ws ∧ Herm 2 Bz.length Ws) ∧
    (∀ V t mu : List ℂ, 2 ≤ mu.length → V.length = mu.length - 1 → t.length = mu.length - 1 → RealL V → RealL t →
      RealL mu → ∃ Ws, spinless V t mu true = .ok Ws ∧ Herm 2 mu.length Ws) ∧
    (∀ U tU tD muU muD : List ℂ, 2 ≤ U.length → muU.length = U.length → muD.length = U.length →
      tU.length = U.length - 1 → tD.length = U.length - 1 → RealL U → RealL tU → RealL tD → RealL muU → RealL muD →
      ∃ Ws, hubbard U tU tD muU muD true = .ok Ws ∧ Herm 4 U.length Ws) ∧
    (∀ J w chi : List ℂ, 2 ≤ chi.length → J.length = chi.length - 1 → w.length = chi.length → RealL J → RealL w →
      RealL chi → ∃ Ws, jess J w chi true = .ok Ws ∧ Herm 4 chi.length Ws) := by
  refine ⟨fun Jx Bz h1 h2 r1 r2 => ?_, fun Jz Jxy Bz h1 h2 h3 r1 r2 r3 => ?_, fun V t mu h1 h2 h3 r1 r2 r3 => ?_,
    fun U tU tD muU muD h1 h2 h3 h4 h5 r1 r2 r3 r4 r5 => ?_, fun J w chi h1 h2 h3 r1 r2 r3 => ?_⟩
  · obtain ⟨Ws, e1, e2⟩ := C42_tfi Jx Bz h1 h2
    refine ⟨Ws, e1, e2.herm fun s t hs ht => ?_⟩
    simp only [tfiEl, star_add, star_sum, star_mul', r1.getD, r2.getD]
    congr 1
    · refine sum_congr rfl fun n hn => ?_
      rw [opEl_at2_star hs ht (by have := mem_range.mp hn; omega)] <;> (simp only [all2]; simp [pX])
    · refine sum_congr rfl fun n hn => ?_
      rw [opEl_at1_star hs ht (mem_range.mp hn)]; simp only [all2]; simp [pZ]
  · obtain ⟨Ws, e1, e2⟩ := C41_xxz Jz Jxy Bz h1 h2 h3
    refine ⟨Ws, e1, e2.herm fun s t hs ht => ?_⟩
    have zz : ∀ x < 2, ∀ x' < 2, star (spZ.v x' x) = spZ.v x x' := by simp only [all2]; simp [spZ]
    have pm : ∀ x < 2, ∀ x' < 2, star (spP.v x' x) = spM.v x x' := by simp only [all2]; simp [spP, spM]
    have mp : ∀ x < 2, ∀ x' < 2, star (spM.v x' x) = spP.v x x' := by simp only [all2]; simp [spP, spM]
    have two : star (2 : ℂ) = 2 := by simp
    simp only [xxzEl, star_add, star_sum, star_mul', star_div₀, r1.getD, r2.getD, r3.getD, two]
    congr 1
    · refine sum_congr rfl fun n hn => ?_
      have hn' : n + 2 ≤ Bz.length := by have := mem_range.mp hn; omega
      rw [opEl_at2_star hs ht hn' zz zz, opEl_at2_star hs ht hn' pm mp, opEl_at2_star hs ht hn' mp pm]; ring
    · refine sum_congr rfl fun n hn => ?_
      rw [opEl_at1_star hs ht (mem_range.mp hn) zz]
  · obtain ⟨Ws, e1, e2⟩ := C43_spinless V t mu h1 h2 h3
    refine ⟨Ws, e1, e2.herm fun s u hs hu => ?_⟩
    simp only [sfEl, star_add, star_sum, star_mul', star_neg, r1.getD, r2.getD, r3.getD]
    congr 1
    · refine sum_congr rfl fun n hn => ?_
      have hn' : n + 2 ≤ mu.length := by have := mem_range.mp hn; omega
      rw [fEl_star _ (by simp [hu.1]; omega) (hu.1.trans hs.1.symm), fEl_star _ (by simp [hu.1]; omega) (hu.1.trans hs.1.symm),
        fEl_star _ (by simp [hu.1]; omega) (hu.1.trans hs.1.symm)]
      simp only [adj, List.map_cons, List.map_nil, Bool.not_true, Bool.not_false, List.reverse_cons, List.reverse_nil,
        List.nil_append, List.cons_append]
      rw [fEl_num_comm (n := n + 1) (by rw [hs.1]; omega) (by rw [hs.1]; omega)]
      ring
    · refine sum_congr rfl fun n hn => ?_
      rw [fEl_star _ (by have := mem_range.mp hn; simp [hu.1]; omega) (hu.1.trans hs.1.symm)]
      simp [adj]
  · obtain ⟨Ws, e1, e2⟩ := C44_hubbard U tU tD muU muD h1 h2 h3 h4 h5
    refine ⟨Ws, e1, e2.herm fun s u hs hu => ?_⟩
    have ls : (bits s).length = 2 * U.length := by rw [bits_length, hs.1]
    have lu : (bits u).length = 2 * U.length := by rw [bits_length, hu.1]
    simp only [hubEl, star_add, star_sum, star_mul', star_neg, r1.getD, r2.getD, r3.getD, r4.getD, r5.getD]
    congr 1
    · refine sum_congr rfl fun n hn => ?_
      have hn' : n + 2 ≤ U.length := by have := mem_range.mp hn; omega
      rw [fEl_star _ (by simp [lu]; omega) (lu.trans ls.symm), fEl_star _ (by simp [lu]; omega) (lu.trans ls.symm),
        fEl_star _ (by simp [lu]; omega) (lu.trans ls.symm), fEl_star _ (by simp [lu]; omega) (lu.trans ls.symm)]
      simp only [adj, List.map_cons, List.map_nil, Bool.not_true, Bool.not_false, List.reverse_cons, List.reverse_nil,
        List.nil_append, List.cons_append]
      ring
    · refine sum_congr rfl fun n hn => ?_
      have hn' := mem_range.mp hn
      rw [fEl_star _ (by simp [lu]; omega) (lu.trans ls.symm), fEl_star _ (by simp [lu]; omega) (lu.trans ls.symm),
        fEl_star _ (by simp [lu]; omega) (lu.trans ls.symm)]
      simp only [adj, List.map_cons, List.map_nil, Bool.not_true, Bool.not_false, List.reverse_cons, List.reverse_nil,
        List.nil_append, List.cons_append]
      rw [fEl_num_comm (n := 2 * n) (by rw [ls]; omega) (by rw [ls]; omega)]
  · obtain ⟨Ws, e1, e2⟩ := C71_jess J w chi h1 h2 h3
    refine ⟨Ws, e1, e2.herm fun s t hs ht => ?_⟩
    have hX : ∀ x < 4, ∀ x' < 4, star ((onHi pX).v x' x) = (onHi pX).v x x' := by simp only [all4]; simp [onHi, pX]
    have hY : ∀ x < 4, ∀ x' < 4, star ((onHi pY).v x' x) = (onHi pY).v x x' := by simp only [all4]; simp [onHi, pY]
    have hZ : ∀ x < 4, ∀ x' < 4, star ((onHi pZ').v x' x) = (onHi pZ').v x x' := by simp only [all4]; simp [onHi, pZ']
    have lX : ∀ x < 4, ∀ x' < 4, star ((onLo pX).v x' x) = (onLo pX).v x x' := by simp only [all4]; simp [onLo, pX]
    have lY : ∀ x < 4, ∀ x' < 4, star ((onLo pY).v x' x) = (onLo pY).v x x' := by simp only [all4]; simp [onLo, pY]
    have lZ : ∀ x < 4, ∀ x' < 4, star ((onLo pZ').v x' x) = (onLo pZ').v x x' := by simp only [all4]; simp [onLo, pZ']
    have hl : ∀ x < 4, ∀ x' < 4, star (((onHi pX).dot (onLo pX)).v x' x) = ((onHi pX).dot (onLo pX)).v x x' := by
      simp only [all4]; simp [onHi, onLo, pX, Mat.dot, sum_range_succ]
    simp only [jessEl, star_add, star_sum, star_mul', r1.getD, r2.getD, r3.getD]
    congr 1
    · refine sum_congr rfl fun n hn => ?_
      have hn' : n + 2 ≤ chi.length := by have := mem_range.mp hn; omega
      rw [opEl_at2_star hs ht hn' hX hX, opEl_at2_star hs ht hn' hY hY, opEl_at2_star hs ht hn' hZ hZ,
        opEl_at2_star hs ht hn' lX lX, opEl_at2_star hs ht hn' lY lY, opEl_at2_star hs ht hn' lZ lZ]
    · refine sum_congr rfl fun n hn => ?_
      have hn' := mem_range.mp hn
      rw [opEl_at1_star hs ht hn' hX, opEl_at1_star hs ht hn' lX, opEl_at1_star hs ht hn' hl]

/-! ## Examples -/

/-- Three sites meet the hypotheses of C40 and C73. -/
example : ∃ (Ws : List (Mpo ℂ)) (X : ℕ → Loc), tfi [1, 2] [3, 4, 5] true = .ok Ws ∧ NNForm 2 1 3 Ws X := by
  obtain ⟨Ws, e1, e2⟩ := tfi_nn [1, 2] [3, 4, 5] (by simp) (by simp)
  exact ⟨Ws, _, e1, e2⟩

/-- The field of the middle site is shared between the two gates. -/
example : nnGen 1 3 (tfiX [1, 2] [3, 4, 5]) 0 1 1 1 1 + nnGen 1 3 (tfiX [1, 2] [3, 4, 5]) 1 1 1 1 1 = 12 := by
  simp [nnGen, tfiX, sigZ2, sigX, Mat.smul', delta]
  norm_num

/-- Two sites and reversed sites fail. -/
example : ∃ Ws, tfi [1] [3, 4] true = .ok Ws ∧ twoSiteGate Ws 0 1 Complex.I = .error .unbound ∧
    ∃ e, twoSiteGate Ws 1 0 Complex.I = .error e := by
  obtain ⟨Ws, e1, e2⟩ := tfi_nn [1] [3, 4] (by simp) (by simp)
  exact ⟨Ws, e1, C40_two_sites_violated e2 _, C40_reversed_violated Ws 1 0 (by omega) _⟩

/-- A unit cell of two sites. -/
example : ∃ Ws, xxz [1, 2] [3, 4] [5, 6] false = .ok Ws ∧ Cell 2 5 2 Ws (xxzEl [1, 2] [3, 4] [5, 6]) :=
  C46_spin_partial.2.2.1 [1, 2] [3, 4] [5, 6] (by simp) rfl rfl

example : spinless [1] [2] [3, 4] false = .error .index := by
  rw [C46_spinless_violated [1] [2] [3, 4] (by simp)]; simp

/-- Real time: `tau = -i dt`. -/
example : ∃ Ws, tfi [1, 2] [3, 4, 5] true = .ok Ws ∧ ∃ G, twoSiteGate Ws 1 2 (-Complex.I) = .ok G ∧
    ∑ u ∈ range 2, ∑ w ∈ range 2, G.v 0 1 u w * star (G.v 0 1 u w) = 1 := by
  obtain ⟨Ws, e1, h⟩ := C74_tfi [1, 2] [3, 4, 5] (by simp) (by simp) (by simp [RealL, Complex.conj_ofNat]) (by simp [RealL, Complex.conj_ofNat])
    (tau := -Complex.I) (by simp)
  obtain ⟨G, e2, h⟩ := h 1 (by simp)
  exact ⟨Ws, e1, G, e2, by simpa using h 0 (by omega) 1 (by omega) 0 (by omega) 1 (by omega)⟩

example : ∃ Ws, hubbard [1, 2] [3] [4] [5, 6] [7, 8] true = .ok Ws ∧ Herm 4 2 Ws :=
  C75_hermitian.2.2.2.1 [1, 2] [3] [4] [5, 6] [7, 8] (by simp) rfl rfl rfl rfl (by simp [RealL, Complex.conj_ofNat]) (by simp [RealL, Complex.conj_ofNat])
    (by simp [RealL, Complex.conj_ofNat]) (by simp [RealL, Complex.conj_ofNat]) (by simp [RealL, Complex.conj_ofNat])

end

end PyTeN
