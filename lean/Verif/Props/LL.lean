import Verif.Props.Boson

/-! # Properties of the Lieb-Liniger Hamiltonians (C94, C95) -/

namespace PyTeN.Boson
open Finset

set_option linter.unusedSimpArgs false
set_option linter.unusedVariables false

noncomputable section

/-! ## Specification -/

/-- The projector on the empty state. -/
def vac (d : ℕ) : Mat ℂ := ⟨d, d, fun s t => if s = 0 ∧ t = 0 then 1 else 0⟩

/-- `Σ_n (w_n n̂_n + u_n a†_n^2 a_n^2) + Σ_n (v_n n̂_n n̂_{n+1} + k_n (n̂_n P_{n+1} + P_n n̂_{n+1}) - J_n (a†_n a_{n+1} + h.c.))` with
the projector `P` on the empty state. -/
def llEl (d N : ℕ) (w u v k J : ℕ → ℂ) (s t : List ℕ) : ℂ :=
  ∑ n ∈ range N, (w n * opEl (at1 d N n (nord d 1 1)) s t + u n * opEl (at1 d N n (nord d 2 2)) s t) +
    ∑ n ∈ range (N - 1), (v n * opEl (at2 d N n (nord d 1 1) (nord d 1 1)) s t +
      k n * (opEl (at2 d N n (nord d 1 1) (vac d)) s t + opEl (at2 d N n (vac d) (nord d 1 1)) s t) - J n * hopEl d N n s t)

/-- A list of `N` tensors with `b` channels each whose product, read from the last row to the first column, is the operator `H`. -/
structure Unclosed (d N b : ℕ) (Ws : List (Mpo ℂ)) (H : List ℕ → List ℕ → ℂ) : Prop where
  len : Ws.length = N
  dims : ∀ W ∈ Ws, W.l = b ∧ W.r = b ∧ W.din = d ∧ W.dout = d
  el : ∀ s t, Cf d N s → Cf d N t → mchain Ws s t (b - 1) 0 = H s t

theorem Unclosed.of {d K N : ℕ} {W : Mpo ℂ} {X : Loc} (hN : 1 ≤ N) (h : NNBulk d K W X) {H : List ℕ → List ℕ → ℂ}
    (hH : ∀ s t, Cf d N s → Cf d N t → hamEl d K N (fun _ => X) s t = H s t) : Unclosed d N (K + 2) (List.replicate N W) H := by
  refine ⟨by simp, fun V hV => ?_, fun s t hs ht => ?_⟩
  · rw [List.eq_of_mem_replicate hV]; exact ⟨h.l, h.r, h.din, h.dout⟩
  · have := stretch hN h s t hs ht
    rw [h.l] at this
    rw [this, hH s t hs ht]

/-! ## Lemmas -/

theorem all5 {P : ℕ → Prop} : (∀ s < 5, P s) ↔ P 0 ∧ P 1 ∧ P 2 ∧ P 3 ∧ P 4 :=
  ⟨fun h => ⟨h 0 (by omega), h 1 (by omega), h 2 (by omega), h 3 (by omega), h 4 (by omega)⟩,
    fun h s hs => by
      interval_cases s
      exacts [h.1, h.2.1, h.2.2.1, h.2.2.2.1, h.2.2.2.2]⟩

theorem at2_same {d N n : ℕ} {c : ℂ} {A B A' B' : Mat ℂ} {s t : List ℕ} (hs : Cf d N s) (ht : Cf d N t) (hn : n + 2 ≤ N)
    (hA : Same d A A') (hB : Same d B B') : opEl (at2 d N n (A.smul' c) B) s t = c * opEl (at2 d N n A' B') s t :=
  opEl_at2_smul hs ht hn fun x hx x' hx' y hy y' hy' => by
    simp only [Mat.smul']; rw [hA x hx x' hx', hB y hy y' hy']; ring

theorem at2_same' {d N n : ℕ} {c : ℂ} {A B A' B' : Mat ℂ} {s t : List ℕ} (hs : Cf d N s) (ht : Cf d N t) (hn : n + 2 ≤ N)
    (hA : Same d A A') (hB : Same d B B') : opEl (at2 d N n A (B.smul' c)) s t = c * opEl (at2 d N n A' B') s t :=
  opEl_at2_smul hs ht hn fun x hx x' hx' y hy y' hy' => by
    simp only [Mat.smul']; rw [hA x hx x' hx', hB y hy y' hy']; ring

theorem llLoc_at {d N n : ℕ} {w u : ℂ} {s t : List ℕ} (hs : Cf d N s) (ht : Cf d N t) (hn : n < N) :
    opEl (at1 d N n (((bN d).smul' w).add' ((bDDCC d).smul' u))) s t
      = w * opEl (at1 d N n (nord d 1 1)) s t + u * opEl (at1 d N n (nord d 2 2)) s t := by
  rw [at1_lin (l := [(w, nord d 1 1), (u, nord d 2 2)]) hs ht hn (by
    intro x hx y hy
    simp only [Mat.add', Mat.smul', List.map_cons, List.map_nil, List.sum_cons, List.sum_nil]
    rw [same_N d x hx y hy, same_DDCC d x hx y hy]; ring)]
  simp only [List.map_cons, List.map_nil, List.sum_cons, List.sum_nil]; ring

theorem same_P2 : Same 2 (oneMinus 2 (bN 2)) (vac 2) := by
  intro s hs t ht
  have := same_N 2 s hs t ht
  simp only [oneMinus, Mat.add', Mat.smul']
  rw [this]
  interval_cases s <;> interval_cases t <;> simp [nord, vac, eyeK, delta]

theorem same_proj (d : ℕ) : Same d (bProj d) (vac d) := by
  intro s hs t ht
  simp only [bProj, vac]
  congr 1
  apply propext
  constructor <;> rintro ⟨h1, h2⟩ <;> constructor <;> omega

/-! ## C94: uniform chains -/

/-- **C94.** `LiebLinigermpo`. -/
theorem C94_ll0 (mu g mass dx : ℂ) (N d : ℕ) (hN : 1 ≤ N) (hm : mass ≠ 0) (hdx : dx ≠ 0) :
    ∃ Ws, ll0 mu g mass N dx d = .ok Ws ∧ Unclosed d N 4 Ws (llEl d N (fun _ => mu + 2 / (2 * mass * dx ^ 2)) (fun _ => g / dx)
      (fun _ => 0) (fun _ => 0) (fun _ => 1 / (2 * mass * dx ^ 2))) := by
  refine ⟨_, loopMpo_ok (by simp [hm.symm, hdx.symm]), Unclosed.of hN (four_bulk _ _ _) fun s t hs ht => ?_⟩
  rw [hop_ham _ _ (fun _ => _) _ hs ht, llEl, sub_eq_add_neg, mul_sum, ← sum_neg_distrib]
  congr 1
  · exact sum_congr rfl fun n hn => llLoc_at hs ht (mem_range.mp hn)
  · exact sum_congr rfl fun n hn => by ring

/-- Local data of the tensors with six channels. -/
def llX6 (d : ℕ) (h : Mat ℂ) (x J : ℂ) : Loc :=
  ⟨h, fun k => [neg' J (bC d), neg' J (bD d), (eyeK ℂ d).smul' x, bN d].getD k (eyeK ℂ d),
   fun k => [bD d, bC d, bN d, (eyeK ℂ d).smul' x].getD k (eyeK ℂ d)⟩

/-- Local data of the tensors with seven channels. -/
def llX7 (d : ℕ) (h : Mat ℂ) (x u J : ℂ) : Loc :=
  ⟨h, fun k => [neg' J (bC d), neg' J (bD d), (eyeK ℂ d).smul' x, bN d, (bN d).smul' u].getD k (eyeK ℂ d),
   fun k => [bD d, bC d, bN d, (eyeK ℂ d).smul' x, bN d].getD k (eyeK ℂ d)⟩

/-- **C94.** `LiebLinigermpo1`. -/
theorem C94_ll1 (mu g mass dx : ℂ) (N d : ℕ) (hN : 1 ≤ N) (hm : mass ≠ 0) (hdx : dx ≠ 0) :
    ∃ Ws, ll1 mu g mass N dx d = .ok Ws ∧ Unclosed d N 6 Ws (llEl d N (fun n => deg N n * (mu / 2 + 1 / (2 * mass * dx ^ 2)))
      (fun _ => g / dx) (fun _ => 0) (fun _ => 0) (fun _ => 1 / (2 * mass * dx ^ 2))) := by
  refine ⟨_, loopMpo_ok (by simp [hm.symm, hdx.symm]), Unclosed.of (K := 4) (X := llX6 d ((bDDCC d).smul' (g / dx))
    (mu / 2 + 1 / (2 * mass * dx ^ 2)) (1 / (2 * mass * dx ^ 2))) hN ?_ ?_⟩
  · refine ⟨rfl, rfl, rfl, rfl, ?_, ?_, ?_, ?_, ?_, ?_⟩
    · intro s _ t _; simp [fill, Mpo.blk, eyeK]
    · rw [all4]; refine ⟨?_, ?_, ?_, ?_⟩ <;> (intro s _ t _; simp [fill, Mpo.blk, llX6])
    · intro s _ t _; simp [fill, Mpo.blk, llX6]
    · rw [all4]; refine ⟨?_, ?_, ?_, ?_⟩ <;> (intro s _ t _; simp [fill, Mpo.blk, llX6])
    · intro s _ t _; simp [fill, Mpo.blk, eyeK]
    · intro b hb c hc s _ t _
      have h9 : b ≠ 5 := by omega
      simp [fill, Mpo.blk, Mpo.zeros, h9]
  · intro s t hs ht
    generalize mu / 2 + 1 / (2 * mass * dx ^ 2) = x
    generalize 1 / (2 * mass * dx ^ 2) = J
    have e2 : ∀ n ∈ range (N - 1), ∑ k ∈ range 4, opEl (at2 d N n ((llX6 d ((bDDCC d).smul' (g / dx)) x J).A k)
        ((llX6 d ((bDDCC d).smul' (g / dx)) x J).B k)) s t
        = -(J * hopEl d N n s t) + (x * opEl (at1 d N n (nord d 1 1)) s t + x * opEl (at1 d N (n + 1) (nord d 1 1)) s t) := by
      intro n hn
      have hn' : n + 2 ≤ N := by have := mem_range.mp hn; omega
      simp only [sum_range_succ, sum_range_zero, zero_add, llX6, List.getD_cons_zero, List.getD_cons_succ]
      rw [hop_term hs ht hn', bond_left hs ht hn' (same_N d), bond_right hs ht hn' (same_N d)]
      ring
    have e1 : ∀ n ∈ range N, opEl (at1 d N n (llX6 d ((bDDCC d).smul' (g / dx)) x J).h) s t
        = g / dx * opEl (at1 d N n (nord d 2 2)) s t := fun n hn => at1_same hs ht (mem_range.mp hn) (same_DDCC d)
    rw [hamEl, sum_congr rfl e1, sum_congr rfl e2, sum_add_distrib, sum_bonds N (fun n => x * opEl (at1 d N n (nord d 1 1)) s t)]
    simp only [llEl, zero_mul, zero_add, zero_sub, sum_add_distrib, mul_assoc]
    ring

theorem ll7_ham (d N : ℕ) (h : Mat ℂ) (x u J : ℂ) {s t : List ℕ} (hs : Cf d N s) (ht : Cf d N t) :
    hamEl d 5 N (fun _ => llX7 d h x u J) s t
      = ∑ n ∈ range N, opEl (at1 d N n h) s t + llEl d N (fun n => deg N n * x) (fun _ => 0) (fun _ => u) (fun _ => 0) (fun _ => J) s t := by
  have e2 : ∀ n ∈ range (N - 1), ∑ k ∈ range 5, opEl (at2 d N n ((llX7 d h x u J).A k) ((llX7 d h x u J).B k)) s t
      = (u * opEl (at2 d N n (nord d 1 1) (nord d 1 1)) s t - J * hopEl d N n s t)
        + (x * opEl (at1 d N n (nord d 1 1)) s t + x * opEl (at1 d N (n + 1) (nord d 1 1)) s t) := by
    intro n hn
    have hn' : n + 2 ≤ N := by have := mem_range.mp hn; omega
    simp only [sum_range_succ, sum_range_zero, zero_add, llX7, List.getD_cons_zero, List.getD_cons_succ]
    rw [hop_term hs ht hn', bond_left hs ht hn' (same_N d), bond_right hs ht hn' (same_N d),
      at2_same hs ht hn' (same_N d) (same_N d)]
    ring
  rw [hamEl, sum_congr rfl e2, sum_add_distrib, sum_bonds N (fun n => x * opEl (at1 d N n (nord d 1 1)) s t)]
  simp only [llEl, zero_mul, add_zero, mul_assoc, llX7]
  ring

/-- **C94.** `LiebLinigermpo2`. -/
theorem C94_ll2 (mu g mass dx : ℂ) (N d : ℕ) (hN : 1 ≤ N) (hm : mass ≠ 0) (hdx : dx ≠ 0) :
    ∃ Ws, ll2 mu g mass N dx d = .ok Ws ∧ Unclosed d N 7 Ws (llEl d N (fun n => deg N n * (mu / 2 + 1 / (2 * mass * dx ^ 2)))
      (fun _ => 0) (fun _ => g / dx) (fun _ => 0) (fun _ => 1 / (2 * mass * dx ^ 2))) := by
  refine ⟨_, loopMpo_ok (by simp [hm.symm, hdx.symm]), Unclosed.of (K := 5) (X := llX7 d ((bN d).smul' 0)
    (mu / 2 + 1 / (2 * mass * dx ^ 2)) (g / dx) (1 / (2 * mass * dx ^ 2))) hN ?_ ?_⟩
  · refine ⟨rfl, rfl, rfl, rfl, ?_, ?_, ?_, ?_, ?_, ?_⟩
    · intro s _ t _; simp [fill, Mpo.blk, eyeK]
    · rw [all5]; refine ⟨?_, ?_, ?_, ?_, ?_⟩ <;> (intro s _ t _; simp [fill, Mpo.blk, llX7])
    · intro s _ t _; simp [fill, Mpo.blk, llX7, Mpo.zeros, Mat.smul']
    · rw [all5]; refine ⟨?_, ?_, ?_, ?_, ?_⟩ <;> (intro s _ t _; simp [fill, Mpo.blk, llX7])
    · intro s _ t _; simp [fill, Mpo.blk, eyeK]
    · intro b hb c hc s _ t _
      have h9 : b ≠ 6 := by omega
      simp [fill, Mpo.blk, Mpo.zeros, h9]
  · intro s t hs ht
    rw [ll7_ham _ _ _ _ _ _ hs ht, sum_eq_zero fun n hn => by rw [at1_same hs ht (mem_range.mp hn) (same_N d), zero_mul], zero_add]

/-- **C94.** `LiebLinigermpo3`. -/
theorem C94_ll3 (mu g mass dx : ℂ) (N d : ℕ) (hN : 1 ≤ N) (hm : mass ≠ 0) (hdx : dx ≠ 0) :
    ∃ Ws, ll3 mu g mass N dx d = .ok Ws ∧ Unclosed d N 7 Ws (llEl d N (fun n => mu + deg N n * (1 / (2 * mass * dx ^ 2)))
      (fun _ => 0) (fun _ => g / dx) (fun _ => 0) (fun _ => 1 / (2 * mass * dx ^ 2))) := by
  refine ⟨_, loopMpo_ok (by simp [hm.symm, hdx.symm]), Unclosed.of (K := 5) (X := llX7 d ((bN d).smul' mu)
    (1 / (2 * mass * dx ^ 2)) (g / dx) (1 / (2 * mass * dx ^ 2))) hN ?_ ?_⟩
  · refine ⟨rfl, rfl, rfl, rfl, ?_, ?_, ?_, ?_, ?_, ?_⟩
    · intro s _ t _; simp [fill, Mpo.blk, eyeK]
    · rw [all5]; refine ⟨?_, ?_, ?_, ?_, ?_⟩ <;> (intro s _ t _; simp [fill, Mpo.blk, llX7])
    · intro s _ t _; simp [fill, Mpo.blk, llX7]
    · rw [all5]; refine ⟨?_, ?_, ?_, ?_, ?_⟩ <;> (intro s _ t _; simp [fill, Mpo.blk, llX7])
    · intro s _ t _; simp [fill, Mpo.blk, eyeK]
    · intro b hb c hc s _ t _
      have h9 : b ≠ 6 := by omega
      simp [fill, Mpo.blk, Mpo.zeros, h9]
  · intro s t hs ht
    rw [ll7_ham _ _ _ _ _ _ hs ht, sum_congr rfl fun n hn => at1_same hs ht (mem_range.mp hn) (same_N d), llEl, llEl, ← add_assoc,
      ← sum_add_distrib]
    congr 1
    exact sum_congr rfl fun n _ => by ring

/-! ## C94: open chains with a projector in the kinetic energy -/

/-- Local data of `projectedLiebLinigermpo`, `projectedLiebLinigermpo2`. -/
def pX (d : ℕ) (h A0 A1 B0 B1 B4 : Mat ℂ) (J u : ℂ) : Loc :=
  ⟨h, fun k => [A0, A1, neg' J (bC d), neg' J (bD d), (bN d).smul' u].getD k (eyeK ℂ d),
   fun k => [B0, B1, bD d, bC d, B4].getD k (eyeK ℂ d)⟩

theorem p_first (d : ℕ) (h A1 B0 B1 B4 : Mat ℂ) (J u : ℂ) :
    NNFirst d 5 (fill (Mpo.zeros 1 7 d) (projRow d h A1 J u 0)) (pX d h ((bN d).smul' J) A1 B0 B1 B4 J u) := by
  refine ⟨rfl, rfl, rfl, rfl, ?_, ?_, ?_⟩
  · intro s _ t _; simp [fill, Mpo.blk, pX, projRow]
  · rw [all5]; refine ⟨?_, ?_, ?_, ?_, ?_⟩ <;> (intro s _ t _; simp [fill, Mpo.blk, pX, projRow])
  · intro s _ t _; simp [fill, Mpo.blk, eyeK, projRow]

theorem p_last (d : ℕ) (h A0 A1 B0 B1 B4 : Mat ℂ) (J u : ℂ) :
    NNLast d 5 (fill (Mpo.zeros 7 1 d) (projCol d B0 B1 B4 ++ [(6, 0, h)])) (pX d h A0 A1 B0 B1 B4 J u) := by
  refine ⟨rfl, rfl, rfl, rfl, ?_, ?_, ?_⟩
  · intro s _ t _; simp [fill, Mpo.blk, eyeK, projCol]
  · rw [all5]; refine ⟨?_, ?_, ?_, ?_, ?_⟩ <;> (intro s _ t _; simp [fill, Mpo.blk, pX, projCol])
  · intro s _ t _; simp [fill, Mpo.blk, pX, projCol]

theorem p_bulk (d : ℕ) (h A1 B0 B1 B4 : Mat ℂ) (J u : ℂ) :
    NNBulk d 5 (fill (Mpo.zeros 7 7 d) (projCol d B0 B1 B4 ++ projRow d h A1 J u 6)) (pX d h ((bN d).smul' J) A1 B0 B1 B4 J u) := by
  refine ⟨rfl, rfl, rfl, rfl, ?_, ?_, ?_, ?_, ?_, ?_⟩
  · intro s _ t _; simp [fill, Mpo.blk, eyeK, projCol, projRow]
  · rw [all5]; refine ⟨?_, ?_, ?_, ?_, ?_⟩ <;> (intro s _ t _; simp [fill, Mpo.blk, pX, projCol, projRow])
  · intro s _ t _; simp [fill, Mpo.blk, pX, projCol, projRow]
  · rw [all5]; refine ⟨?_, ?_, ?_, ?_, ?_⟩ <;> (intro s _ t _; simp [fill, Mpo.blk, pX, projCol, projRow])
  · intro s _ t _; simp [fill, Mpo.blk, eyeK, projCol, projRow]
  · intro b hb c hc s _ t _
    have h9 : b ≠ 6 := by omega
    simp [fill, Mpo.blk, Mpo.zeros, h9, projCol, projRow]

/-- Weight of the chemical potential of `projectedLiebLinigermpo` with open boundaries: one half at the two ends. -/
def endHalf (N n : ℕ) : ℂ := if n = 0 ∨ n + 1 = N then 1 / 2 else 1

/-- **C94.** `projectedLiebLinigermpo(mu,interact,mass,N,dx,obc=True)`; the number of sites is `len(mu)`. -/
theorem C94_proj (mu : List ℂ) (g mass dx : ℂ) (hN : 2 ≤ mu.length) (hm : mass ≠ 0) (hdx : dx ≠ 0) :
    ∃ Ws, projLL mu g mass dx true = .ok Ws ∧ Represents 2 mu.length Ws (llEl 2 mu.length
      (fun n => endHalf mu.length n * mu.getD n 0) (fun _ => 0) (fun _ => g / dx) (fun _ => 1 / (2 * mass * dx ^ 2))
      (fun _ => 1 / (2 * mass * dx ^ 2))) := by
  have hz : ¬ (0 : ℂ) ∈ [mass, dx] := by simp [hm.symm, hdx.symm]
  refine ⟨_, ?_, NNForm.represents (nnForm_of (K := 5) (d := 2)
    (X := fun n => pX 2 ((bN 2).smul' (endHalf mu.length n * mu.getD n 0)) ((bN 2).smul' (1 / (2 * mass * dx ^ 2))) (oneMinus 2 (bN 2))
      (oneMinus 2 (bN 2)) ((bN 2).smul' (1 / (2 * mass * dx ^ 2))) (bN 2) (1 / (2 * mass * dx ^ 2)) (g * 1 / dx))
    (g := fun n => fill (Mpo.zeros 7 7 2) (projCol 2 (oneMinus 2 (bN 2)) ((bN 2).smul' (1 / (2 * mass * dx ^ 2))) (bN 2) ++
      projRow 2 ((bN 2).smul' (mu.getD n 0)) (oneMinus 2 (bN 2)) (1 / (2 * mass * dx ^ 2)) (g * 1 / dx) 6)) hN
    (p_first _ _ _ _ _ _ _ _) ?_ (p_last _ _ _ _ _ _ _ _ _)) ?_⟩
  · simp only [projLL, if_true]
    rw [openMpo_ok]
    · simp only [getE_getD (show 0 < mu.length by omega), bind, Except.bind, pure, Except.pure, if_neg hz, endHalf]
      simp [div_eq_inv_mul]
    · intro n h0 h1
      simp only [getE_getD (show n < mu.length by omega), bind, Except.bind, pure, Except.pure, if_neg hz]
    · simp only [lastE_getD (show mu ≠ [] by rintro rfl; simp at hN), bind, Except.bind, pure, Except.pure, if_neg hz, endHalf]
      simp [div_eq_inv_mul, show mu.length - 1 + 1 = mu.length by omega]
  · intro n h0 h1
    have : endHalf mu.length n = 1 := if_neg (by omega)
    simp only [this, one_mul]
    exact p_bulk _ _ _ _ _ _ _ _
  · intro s t hs ht
    rw [hamEl, llEl]
    congr 1
    · refine sum_congr rfl fun n hn => ?_
      simp only [pX]
      rw [at1_same hs ht (mem_range.mp hn) (same_N 2)]; ring
    · refine sum_congr rfl fun n hn => ?_
      have hn' : n + 2 ≤ mu.length := by have := mem_range.mp hn; omega
      simp only [sum_range_succ, sum_range_zero, zero_add, pX, List.getD_cons_zero, List.getD_cons_succ]
      rw [at2_same hs ht hn' (same_N 2) same_P2, at2_same' hs ht hn' same_P2 (same_N 2), at2_same hs ht hn' (same_N 2) (same_N 2)]
      have := hop_term (J := 1 / (2 * mass * dx ^ 2)) hs ht hn'
      linear_combination this

/-- **C94.** `projectedLiebLinigermpo(mu,interact,mass,N,dx,obc=False)`: here the ends carry the full chemical potential. -/
theorem C94_proj_unclosed (mu : List ℂ) (g mass dx : ℂ) (hN : 1 ≤ mu.length) (hm : mass ≠ 0) (hdx : dx ≠ 0) :
    ∃ Ws, projLL mu g mass dx false = .ok Ws ∧ Unclosed 2 mu.length 7 Ws (llEl 2 mu.length
      (fun n => mu.getD n 0) (fun _ => 0) (fun _ => g / dx) (fun _ => 1 / (2 * mass * dx ^ 2))
      (fun _ => 1 / (2 * mass * dx ^ 2))) := by
  have hz : ¬ (0 : ℂ) ∈ [mass, dx] := by simp [hm.symm, hdx.symm]
  let G : ℕ → Mpo ℂ := fun n => fill (Mpo.zeros 7 7 2) (projCol 2 (oneMinus 2 (bN 2)) ((bN 2).smul' (1 / (2 * mass * dx ^ 2))) (bN 2) ++
      projRow 2 ((bN 2).smul' (mu.getD n 0)) (oneMinus 2 (bN 2)) (1 / (2 * mass * dx ^ 2)) (g * 1 / dx) 6)
  let X : ℕ → Loc := fun n => pX 2 ((bN 2).smul' (mu.getD n 0)) ((bN 2).smul' (1 / (2 * mass * dx ^ 2))) (oneMinus 2 (bN 2))
      (oneMinus 2 (bN 2)) ((bN 2).smul' (1 / (2 * mass * dx ^ 2))) (bN 2) (1 / (2 * mass * dx ^ 2)) (g * 1 / dx)
  refine ⟨(List.range mu.length).map G, ?_, by simp, ?_, ?_⟩
  · simp only [projLL, Bool.false_eq_true, if_false]
    rw [buildE_ok (g := G)]
    intro n hn
    simp only [getE_getD (show n < mu.length from List.mem_range.mp hn), bind, Except.bind, pure, Except.pure, if_neg hz, G]
  · intro W hW
    obtain ⟨n, -, rfl⟩ := List.mem_map.mp hW
    exact ⟨rfl, rfl, rfl, rfl⟩
  · intro s t hs ht
    obtain ⟨m, hm'⟩ : ∃ m, mu.length = m + 1 := ⟨mu.length - 1, by omega⟩
    have := (stretch_env (d := 2) (K := 5) (X := X) (g := G) m 0 (fun n _ _ => p_bulk _ _ _ _ _ _ _ _) s t (hm' ▸ hs) (hm' ▸ ht)).2.2
    rw [hamRec_eq 2 5 _ m 0 s t (hm' ▸ hs).1 (hm' ▸ ht).1] at this
    rw [List.range_eq_range', hm', show 7 - 1 = 5 + 1 from rfl, this, ← hm', hamEl, llEl]
    simp only [zero_add]
    congr 1
    · refine sum_congr rfl fun n hn => ?_
      simp only [X, pX]
      rw [at1_same hs ht (mem_range.mp hn) (same_N 2)]; ring
    · refine sum_congr rfl fun n hn => ?_
      have hn' : n + 2 ≤ mu.length := by have := mem_range.mp hn; omega
      simp only [X, sum_range_succ, sum_range_zero, zero_add, pX, List.getD_cons_zero, List.getD_cons_succ]
      rw [at2_same hs ht hn' (same_N 2) same_P2, at2_same' hs ht hn' same_P2 (same_N 2), at2_same hs ht hn' (same_N 2) (same_N 2)]
      have := hop_term (J := 1 / (2 * mass * dx ^ 2)) hs ht hn'
      linear_combination this

/-- **C94.** `projectedLiebLinigermpo2(mu,interact,mass,N,d,dx,obc)`: with open boundaries the full chemical potential everywhere and the
contact interaction; otherwise UnboundLocalError. -/
theorem C94_proj2 (mu : List ℂ) (g mass dx : ℂ) (d : ℕ) (hN : 2 ≤ mu.length) (hm : mass ≠ 0) (hdx : dx ≠ 0) :
    (∃ Ws, projLL2 mu g mass d dx true = .ok Ws ∧ Represents d mu.length Ws (llEl d mu.length
      (fun n => mu.getD n 0) (fun _ => g / dx) (fun _ => 0) (fun _ => 1 / (2 * mass * dx ^ 2))
      (fun _ => 1 / (2 * mass * dx ^ 2)))) ∧ projLL2 mu g mass d dx false = .error .unbound := by
  have hz : ¬ (0 : ℂ) ∈ [mass, dx] := by simp [hm.symm, hdx.symm]
  refine ⟨⟨_, ?_, NNForm.represents (nnForm_of (K := 5) (d := d)
    (X := fun n => pX d (((bN d).smul' (mu.getD n 0)).add' ((bDDCC d).smul' (g / dx))) ((bN d).smul' (1 / (2 * mass * dx ^ 2)))
      ((bProj d).smul' (1 / (2 * mass * dx ^ 2))) (bProj d) (bN d) (if n + 1 = mu.length then (bN d).smul' 0 else bN d)
      (1 / (2 * mass * dx ^ 2)) ((g * 1 / dx) * 0))
    (g := fun n => fill (Mpo.zeros 7 7 d) (projCol d (bProj d) (bN d) (bN d) ++
      projRow d (((bN d).smul' (mu.getD n 0)).add' ((bDDCC d).smul' (g / dx))) ((bProj d).smul' (1 / (2 * mass * dx ^ 2)))
        (1 / (2 * mass * dx ^ 2)) ((g * 1 / dx) * 0) 6)) hN
    (p_first _ _ _ _ _ _ _ _) ?_ (p_last _ _ _ _ _ _ _ _ _)) ?_⟩, rfl⟩
  · simp only [projLL2, if_true]
    rw [openMpo_ok]
    · simp only [getE_getD (show 0 < mu.length by omega), bind, Except.bind, pure, Except.pure, if_neg hz]
    · intro n h0 h1
      simp only [getE_getD (show n < mu.length by omega), bind, Except.bind, pure, Except.pure, if_neg hz]
    · simp only [lastE_getD (show mu ≠ [] by rintro rfl; simp at hN), bind, Except.bind, pure, Except.pure, if_neg hz,
        show mu.length - 1 + 1 = mu.length by omega, if_true]
  · intro n h0 h1
    rw [if_neg (by omega)]
    exact p_bulk _ _ _ _ _ _ _ _
  · intro s t hs ht
    rw [hamEl, llEl]
    congr 1
    · exact sum_congr rfl fun n hn => llLoc_at hs ht (mem_range.mp hn)
    · refine sum_congr rfl fun n hn => ?_
      have hn' : n + 2 ≤ mu.length := by have := mem_range.mp hn; omega
      simp only [sum_range_succ, sum_range_zero, zero_add, pX, List.getD_cons_zero, List.getD_cons_succ]
      rw [at2_same hs ht hn' (same_N d) (same_proj d), at2_same hs ht hn' (same_proj d) (same_N d),
        opEl_at2_smul (a := (bN d).smul' (g * 1 / dx * 0)) (a' := nord d 1 1) (b' := nord d 1 1) (c := 0) hs ht hn'
          (fun _ _ _ _ _ _ _ _ => by simp [Mat.smul'])]
      have := hop_term (J := 1 / (2 * mass * dx ^ 2)) hs ht hn'
      linear_combination this

/-- The chemical potentials that `projectedLiebLinigermpo` puts on an open chain are not the ones it was given: with `mu=[1,1]`, `g=0`,
a particle on the first site has the energy `1/2+1/2` instead of `1+1/2`. -/
theorem C94_violated_ends :
    ∃ Ws Vs, projLL [1, 1] 0 1 1 true = .ok Ws ∧ projLL2 [1, 1] 0 1 2 1 true = .ok Vs ∧
      mchain Ws [1, 0] [1, 0] 0 0 = 1 / 2 + 1 / 2 ∧ mchain Vs [1, 0] [1, 0] 0 0 = 1 + 1 / 2 := by
  obtain ⟨Ws, h1, r1⟩ := C94_proj [1, 1] 0 1 1 (by simp) one_ne_zero one_ne_zero
  obtain ⟨⟨Vs, h2, r2⟩, -⟩ := C94_proj2 [1, 1] 0 1 1 2 (by simp) one_ne_zero one_ne_zero
  refine ⟨Ws, Vs, h1, h2, ?_, ?_⟩
  · rw [r1.el _ _ (by simp [Cf]) (by simp [Cf])]
    simp [llEl, sum_range_succ, endHalf, hopEl, opEl, at1, at2, nord, vac, eyeK, delta]
  · rw [r2.el _ _ (by simp [Cf]) (by simp [Cf])]
    simp [llEl, sum_range_succ, hopEl, opEl, at1, at2, nord, vac, eyeK, delta, Nat.descFactorial]

/-- **C94.** `HomogeneousLiebLinigermpo`: the first, the middle and the last tensor form chains of any length `N ≥ 2`. -/
theorem C94_homog (g mass : ℂ) (N : ℕ) (hN : 2 ≤ N) (hm : mass ≠ 0) :
    ∃ F W L, llHomog g mass = .ok [F, W, L] ∧ Represents 2 N (F :: List.replicate (N - 2) W ++ [L]) (llEl 2 N
      (fun _ => 0) (fun _ => 0) (fun _ => g) (fun _ => 1 / (2 * mass)) (fun _ => 1 / (2 * mass))) := by
  let X : Loc := ⟨(bN 2).smul' 0, fun k => [neg' (1 / (2 * mass)) (bC 2), neg' (1 / (2 * mass)) (bD 2),
      (oneMinus 2 (bN 2)).smul' (1 / (2 * mass)), (bN 2).smul' (1 / (2 * mass)), (bN 2).smul' g].getD k (eyeK ℂ 2),
    fun k => [bD 2, bC 2, bN 2, oneMinus 2 (bN 2), bN 2].getD k (eyeK ℂ 2)⟩
  rw [llHomog, if_neg hm]
  refine ⟨_, _, _, rfl, ?_⟩
  have e : ∀ W : Mpo ℂ, List.replicate (N - 2) W = (List.range' 1 (N - 2)).map fun _ => W := fun W => by simp [List.map_const']
  rw [e]
  refine NNForm.represents (nnForm_of (K := 5) (d := 2) (X := fun _ => X) hN ?_ (fun _ _ _ => ?_) ?_) ?_
  · refine ⟨rfl, rfl, rfl, rfl, ?_, ?_, ?_⟩
    · intro s _ t _; simp [fill, Mpo.blk, X, Mpo.zeros, Mat.smul']
    · rw [all5]; refine ⟨?_, ?_, ?_, ?_, ?_⟩ <;> (intro s _ t _; simp [fill, Mpo.blk, X])
    · intro s _ t _; simp [fill, Mpo.blk, eyeK]
  · refine ⟨rfl, rfl, rfl, rfl, ?_, ?_, ?_, ?_, ?_, ?_⟩
    · intro s _ t _; simp [fill, Mpo.blk, eyeK]
    · rw [all5]; refine ⟨?_, ?_, ?_, ?_, ?_⟩ <;> (intro s _ t _; simp [fill, Mpo.blk, X])
    · intro s _ t _; simp [fill, Mpo.blk, X, Mpo.zeros, Mat.smul']
    · rw [all5]; refine ⟨?_, ?_, ?_, ?_, ?_⟩ <;> (intro s _ t _; simp [fill, Mpo.blk, X])
    · intro s _ t _; simp [fill, Mpo.blk, eyeK]
    · intro b hb c hc s _ t _
      have h9 : b ≠ 6 := by omega
      simp [fill, Mpo.blk, Mpo.zeros, h9]
  · refine ⟨rfl, rfl, rfl, rfl, ?_, ?_, ?_⟩
    · intro s _ t _; simp [fill, Mpo.blk, eyeK]
    · rw [all5]; refine ⟨?_, ?_, ?_, ?_, ?_⟩ <;> (intro s _ t _; simp [fill, Mpo.blk, X])
    · intro s _ t _; simp [fill, Mpo.blk, X, Mpo.zeros, Mat.smul']
  · intro s t hs ht
    rw [hamEl, llEl]
    congr 1
    · refine sum_congr rfl fun n hn => ?_
      simp only [X]
      rw [at1_same hs ht (mem_range.mp hn) (same_N 2)]; ring
    · refine sum_congr rfl fun n hn => ?_
      have hn' : n + 2 ≤ N := by have := mem_range.mp hn; omega
      simp only [X, sum_range_succ, sum_range_zero, zero_add, List.getD_cons_zero, List.getD_cons_succ]
      rw [hop_term hs ht hn', at2_same hs ht hn' same_P2 (same_N 2), at2_same hs ht hn' (same_N 2) same_P2,
        at2_same hs ht hn' (same_N 2) (same_N 2)]
      ring

/-- **C94.** `LocalLiebLinigermpo` on two sites: half of the on-site terms of either site and the full hopping. -/
theorem C94_local (mu : List ℂ) (g mass dx : ℂ) (d : ℕ) (hmu : mu ≠ []) (hm : mass ≠ 0) (hdx : dx ≠ 0) :
    ∃ Ws, llLocal mu g mass dx d = .ok Ws ∧ Represents d 2 Ws (llEl d 2
      (fun n => (if n = 0 then mu.getD 0 0 else mu.getD (mu.length - 1) 0) / 2 + 1 / (2 * mass * dx ^ 2)) (fun _ => g / (2 * dx))
      (fun _ => 0) (fun _ => 0) (fun _ => 1 / (2 * mass * dx ^ 2))) := by
  have hz : ¬ (0 : ℂ) ∈ [mass, dx] := by simp [hm.symm, hdx.symm]
  simp only [llLocal, getE_getD (List.length_pos_of_ne_nil hmu), lastE_getD hmu, bind, Except.bind, pure, Except.pure, if_neg hz]
  refine ⟨_, rfl, NNForm.represents (K := 2) (X := fun n => hopX d (((bN d).smul'
    ((if n = 0 then mu.getD 0 0 else mu.getD (mu.length - 1) 0) / 2 + 1 / (2 * mass * dx ^ 2))).add'
      ((bDDCC d).smul' (g / (2 * dx)))) (1 / (2 * mass * dx ^ 2))) ?_ ?_⟩
  · refine ⟨le_rfl, rfl, ?_, fun n W h0 h1 => by omega, ?_⟩
    · intro W hW
      simp only [List.getElem?_cons_zero, Option.some.injEq] at hW
      subst hW
      refine ⟨rfl, rfl, rfl, rfl, ?_, ?_, ?_⟩
      · intro s _ t _; simp [fill, Mpo.blk, hopX]
      · rw [all2]; refine ⟨?_, ?_⟩ <;> (intro s _ t _; simp [fill, Mpo.blk, hopX])
      · intro s _ t _; simp [fill, Mpo.blk, eyeK]
    · intro W hW
      simp only [show 2 - 1 = 0 + 1 from rfl, List.getElem?_cons_succ, List.getElem?_cons_zero, Option.some.injEq] at hW
      subst hW
      refine ⟨rfl, rfl, rfl, rfl, ?_, ?_, ?_⟩
      · intro s _ t _; simp [fill, Mpo.blk, eyeK]
      · rw [all2]; refine ⟨?_, ?_⟩ <;> (intro s _ t _; simp [fill, Mpo.blk, hopX])
      · intro s _ t _; simp [fill, Mpo.blk, hopX, mul_comm dx 2]
  · intro s t hs ht
    rw [hop_ham _ _ (fun n => _) _ hs ht, llEl, sub_eq_add_neg, mul_sum, ← sum_neg_distrib]
    congr 1
    · exact sum_congr rfl fun n hn => llLoc_at hs ht (mem_range.mp hn)
    · exact sum_congr rfl fun n hn => by ring

/-- A two-site term with half weights on a bond. -/
theorem llBond {d N n : ℕ} (w : ℕ → ℂ) (u J : ℂ) {s t : List ℕ} (hs : Cf d N s) (ht : Cf d N t) (hn : n + 2 ≤ N) :
    bondEl n (fun x y x' y' => llEl d 2 w (fun _ => u) (fun _ => 0) (fun _ => 0) (fun _ => J) [x, y] [x', y']) s t
      = w 0 * opEl (at1 d N n (nord d 1 1)) s t + w 1 * opEl (at1 d N (n + 1) (nord d 1 1)) s t
        + u * (opEl (at1 d N n (nord d 2 2)) s t + opEl (at1 d N (n + 1) (nord d 2 2)) s t) - J * hopEl d N n s t := by
  rw [← at2_eye_right hn (nord d 1 1), ← at2_eye_right hn (nord d 2 2), ← at2_eye_left d N n (nord d 1 1),
    ← at2_eye_left d N n (nord d 2 2), hopEl]
  simp only [opEl_bond2 hs ht hn]
  unfold bondEl
  split_ifs
  · simp only [llEl, hopEl, sum_range_succ, sum_range_zero, at1, at2, opEl, List.replicate, List.nil_append, List.cons_append,
      Nat.reduceSub, mul_one, zero_add, zero_mul]
    ring
  · ring

/-- **C94.** The two-site terms of `LocalLiebLinigermpo` add up to the open chain with half of the on-site terms at the ends. -/
theorem C94_bonds (mu : List ℂ) (g mass dx : ℂ) (d : ℕ) (hm : mass ≠ 0) (hdx : dx ≠ 0) :
    ∃ Ws : ℕ → List (Mpo ℂ), (∀ n, n + 1 < mu.length → llLocal [mu.getD n 0, mu.getD (n + 1) 0] g mass dx d = .ok (Ws n)) ∧
      ∀ s t, Cf d mu.length s → Cf d mu.length t →
        ∑ n ∈ range (mu.length - 1), bondEl n (fun x y x' y' => mchain (Ws n) [x, y] [x', y'] 0 0) s t
          = llEl d mu.length (fun n => deg mu.length n * (mu.getD n 0 / 2 + 1 / (2 * mass * dx ^ 2)))
            (fun n => deg mu.length n * (g / (2 * dx))) (fun _ => 0) (fun _ => 0) (fun _ => 1 / (2 * mass * dx ^ 2)) s t := by
  choose Ws h1 h2 using fun n => C94_local [mu.getD n 0, mu.getD (n + 1) 0] g mass dx d (by simp) hm hdx
  refine ⟨Ws, fun n _ => h1 n, fun s t hs ht => ?_⟩
  set N := mu.length
  have e : ∀ n ∈ range (N - 1), bondEl n (fun x y x' y' => mchain (Ws n) [x, y] [x', y'] 0 0) s t
      = -(1 / (2 * mass * dx ^ 2) * hopEl d N n s t) +
        ((mu.getD n 0 / 2 + 1 / (2 * mass * dx ^ 2)) * opEl (at1 d N n (nord d 1 1)) s t +
          (mu.getD (n + 1) 0 / 2 + 1 / (2 * mass * dx ^ 2)) * opEl (at1 d N (n + 1) (nord d 1 1)) s t)
        + (g / (2 * dx) * opEl (at1 d N n (nord d 2 2)) s t + g / (2 * dx) * opEl (at1 d N (n + 1) (nord d 2 2)) s t) := by
    intro n hn
    have hn' : n + 2 ≤ N := by have := mem_range.mp hn; omega
    have := llBond (fun k => (if k = 0 then mu.getD n 0 else mu.getD (n + 1) 0) / 2 + 1 / (2 * mass * dx ^ 2)) (g / (2 * dx))
      (1 / (2 * mass * dx ^ 2)) hs ht hn'
    rw [show bondEl n (fun x y x' y' => mchain (Ws n) [x, y] [x', y'] 0 0) s t = bondEl n (fun x y x' y' =>
        llEl d 2 (fun k => (if k = 0 then mu.getD n 0 else mu.getD (n + 1) 0) / 2 + 1 / (2 * mass * dx ^ 2)) (fun _ => g / (2 * dx))
        (fun _ => 0) (fun _ => 0) (fun _ => 1 / (2 * mass * dx ^ 2)) [x, y] [x', y']) s t from ?_, this]
    · simp only [if_true, one_ne_zero, if_false]; ring
    · unfold bondEl
      split_ifs
      · have hcf : ∀ r : List ℕ, Cf d N r → Cf d 2 [r.getD n 0, r.getD (n + 1) 0] := by
          intro r hr
          refine ⟨rfl, fun z hz => ?_⟩
          simp only [List.mem_cons, List.not_mem_nil, or_false] at hz
          rcases hz with rfl | rfl
          · exact hr.getD (by omega)
          · exact hr.getD (by omega)
        exact (h2 n).el _ _ (hcf s hs) (hcf t ht)
      · rfl
  rw [sum_congr rfl e, sum_add_distrib, sum_add_distrib,
    sum_bonds N (fun n => (mu.getD n 0 / 2 + 1 / (2 * mass * dx ^ 2)) * opEl (at1 d N n (nord d 1 1)) s t),
    sum_bonds N (fun n => g / (2 * dx) * opEl (at1 d N n (nord d 2 2)) s t)]
  simp only [llEl, zero_mul, zero_add, zero_sub, sum_add_distrib, mul_assoc]
  ring

/-- **C94.** `LiebLinigermpo` and `LiebLinigermpo1` differ at the two ends only, and so do `LiebLinigermpo3` and `LiebLinigermpo2`. -/
theorem C94_ends (mu g mass dx : ℂ) (N d : ℕ) (hN : 2 ≤ N) (hm : mass ≠ 0) (hdx : dx ≠ 0) :
    ∃ W0 W1 W2 W3, ll0 mu g mass N dx d = .ok W0 ∧ ll1 mu g mass N dx d = .ok W1 ∧ ll2 mu g mass N dx d = .ok W2 ∧
      ll3 mu g mass N dx d = .ok W3 ∧ ∀ s t, Cf d N s → Cf d N t →
        mchain W0 s t 3 0 = mchain W1 s t 5 0 + (mu / 2 + 1 / (2 * mass * dx ^ 2)) *
          (opEl (at1 d N 0 (nord d 1 1)) s t + opEl (at1 d N (N - 1) (nord d 1 1)) s t) ∧
        mchain W3 s t 6 0 = mchain W2 s t 6 0 + mu / 2 *
          (opEl (at1 d N 0 (nord d 1 1)) s t + opEl (at1 d N (N - 1) (nord d 1 1)) s t) := by
  obtain ⟨W0, h0, r0⟩ := C94_ll0 mu g mass dx N d (by omega) hm hdx
  obtain ⟨W1, h1, r1⟩ := C94_ll1 mu g mass dx N d (by omega) hm hdx
  obtain ⟨W2, h2, r2⟩ := C94_ll2 mu g mass dx N d (by omega) hm hdx
  obtain ⟨W3, h3, r3⟩ := C94_ll3 mu g mass dx N d (by omega) hm hdx
  refine ⟨W0, W1, W2, W3, h0, h1, h2, h3, fun s t hs ht => ?_⟩
  rw [show mchain W0 s t 3 0 = _ from r0.el s t hs ht, show mchain W1 s t 5 0 = _ from r1.el s t hs ht,
    show mchain W2 s t 6 0 = _ from r2.el s t hs ht, show mchain W3 s t 6 0 = _ from r3.el s t hs ht]
  have key : ∀ f : ℕ → ℂ, ∑ n ∈ range N, (deg N n : ℂ) * f n = 2 * ∑ n ∈ range N, f n - (f 0 + f (N - 1)) := by
    intro f
    obtain ⟨m, rfl⟩ : ∃ m, N = m + 1 + 1 := ⟨N - 2, by omega⟩
    rw [sum_range_succ, sum_range_succ', sum_range_succ f, sum_range_succ' f, mul_add, mul_add, mul_sum]
    have : ∀ n ∈ range m, (deg (m + 1 + 1) (n + 1) : ℂ) * f (n + 1) = 2 * f (n + 1) := by
      intro n hn
      rw [deg_inner (by omega) (by have := mem_range.mp hn; omega)]; simp
    rw [sum_congr rfl this]
    simp [deg]; ring
  have f1 : ∀ (x y : ℂ) (f : ℕ → ℂ), ∑ n ∈ range N, (y + deg N n * x) * f n = (y + 2 * x) * ∑ n ∈ range N, f n - x * (f 0 + f (N - 1)) := by
    intro x y f
    have : ∀ n ∈ range N, (y + deg N n * x) * f n = y * f n + x * (deg N n * f n) := fun n _ => by ring
    rw [sum_congr rfl this, sum_add_distrib, ← mul_sum, ← mul_sum, key]; ring
  have f0 : ∀ (x : ℂ) (f : ℕ → ℂ), ∑ n ∈ range N, (deg N n * x) * f n = (2 * x) * ∑ n ∈ range N, f n - x * (f 0 + f (N - 1)) := by
    intro x f
    have := f1 x 0 f
    simpa using this
  simp only [llEl, sum_add_distrib (f := fun n => _ * opEl (at1 d N n (nord d 1 1)) s t)]
  rw [f1 _ _ (fun n => opEl (at1 d N n (nord d 1 1)) s t), f0 _ (fun n => opEl (at1 d N n (nord d 1 1)) s t)]
  simp only [← mul_sum]
  constructor
  · ring
  · ring

/-! ## C95: the energy density -/

theorem ones_left {d k : ℕ} {one : Mpo ℂ} (h1 : one.r = 1) (hv : ∀ x y, one.v 0 0 x y = delta ℂ x y) (Ws : List (Mpo ℂ))
    (p p' s t : List ℕ) (hp : p.length = k) (hp' : p'.length = k) (b : ℕ) :
    mchain (List.replicate k one ++ Ws) (p ++ s) (p' ++ t) 0 b = (if p = p' then 1 else 0) * mchain Ws s t 0 b := by
  induction k generalizing p p' with
  | zero =>
    obtain rfl := List.length_eq_zero_iff.mp hp
    obtain rfl := List.length_eq_zero_iff.mp hp'
    simp
  | succ k ih =>
    obtain ⟨x, p, rfl⟩ := List.exists_cons_of_length_eq_add_one hp
    obtain ⟨y, p', rfl⟩ := List.exists_cons_of_length_eq_add_one hp'
    simp only [List.replicate_succ, List.cons_append, mchain, h1, sum_range_one]
    rw [ih p p' (by simpa using hp) (by simpa using hp'), hv]
    by_cases hxy : x = y
    · subst hxy; simp [delta]
    · simp [delta, hxy]

theorem ones_all {d k : ℕ} {one : Mpo ℂ} (h1 : one.r = 1) (hv : ∀ x y, one.v 0 0 x y = delta ℂ x y)
    (p p' : List ℕ) (hp : p.length = k) (hp' : p'.length = k) :
    mchain (List.replicate k one) p p' 0 0 = if p = p' then 1 else 0 := by
  have := ones_left (d := d) h1 hv [] p p' [] [] hp hp' 0
  simpa [mchain, delta] using this

/-- **C95.** `LiebLinigerEdens` returns `N+1` tensors. Their product is the operator
`n̂/(m dx^2) + g/dx a†^2 a^2 - (a†_{site-1} a_site + a_site a†_{site+1})/(2 m dx^2)`. -/
theorem C95_edens (g mass dx : ℂ) (d N site : ℕ) (h1 : 1 < site) (h2 : site + 1 < N) (hm : mass ≠ 0) (hdx : dx ≠ 0) :
    ∃ Ws, llEdens g mass dx d N site = .ok Ws ∧ Represents d (N + 1) Ws (fun s t =>
      1 / (mass * dx ^ 2) * opEl (at1 d (N + 1) site (nord d 1 1)) s t + g / dx * opEl (at1 d (N + 1) site (nord d 2 2)) s t
        - 1 / (2 * mass * dx ^ 2) * (opEl (at2 d (N + 1) (site - 1) (nord d 1 0) (nord d 0 1)) s t +
          opEl (at2 d (N + 1) site (nord d 0 1) (nord d 1 0)) s t)) := by
  have hz : ¬ (0 : ℂ) ∈ [mass, dx] := by simp [hm.symm, hdx.symm]
  obtain ⟨k, rfl⟩ : ∃ k, site = k + 1 := ⟨site - 1, by omega⟩
  rw [llEdens, if_neg (by omega), if_neg (by omega), if_neg hz]
  set one := fill (Mpo.zeros 1 1 d) [(0, 0, eyeK ℂ d)] with hone
  have o1 : one.r = 1 := rfl
  have ol : one.l = 1 := rfl
  have ov : ∀ x y, one.v 0 0 x y = delta ℂ x y := fun x y => by simp [hone, fill, Mpo.blk, eyeK]
  have hrep : [one] ++ List.replicate (k + 1 - 1 - 1) one = List.replicate k one := by
    rw [show k = (k - 1) + 1 by omega, List.replicate_succ]; simp
  simp only [hrep]
  refine ⟨_, rfl, ?_, ?_, ?_, ?_⟩
  · simp; omega
  · have hl : ∀ (m : ℕ) (Ws : List (Mpo ℂ)), MLinked 1 Ws 1 → MLinked 1 (List.replicate m one ++ Ws) 1 := by
      intro m Ws hW
      induction m with
      | zero => simpa using hW
      | succ m ih => simp only [List.replicate_succ, List.cons_append, MLinked]; exact ⟨ol, by rw [o1]; exact ih⟩
    rw [List.append_assoc]
    refine hl _ _ ?_
    have := hl (N - (k + 1 + 1)) [] rfl
    rw [List.append_nil] at this
    exact ⟨rfl, rfl, rfl, this⟩
  · intro W hW
    simp only [List.mem_append, List.mem_replicate, List.mem_cons, List.not_mem_nil, or_false] at hW
    rcases hW with ((⟨-, rfl⟩ | rfl | rfl | rfl) | ⟨-, rfl⟩) <;> exact ⟨rfl, rfl⟩
  · intro s t hs ht
    obtain ⟨p, w, q, rfl, hp, hw, hq⟩ := hs.split (show k + 3 ≤ N + 1 by omega)
    obtain ⟨p', w', q', rfl, hp', hw', hq'⟩ := ht.split (show k + 3 ≤ N + 1 by omega)
    obtain ⟨x, w, rfl, hx, hw⟩ := hw.exists_cons
    obtain ⟨y, w, rfl, hy, hw⟩ := hw.exists_cons
    obtain ⟨z, w, rfl, hz, hw⟩ := hw.exists_cons
    obtain rfl := hw.zero
    obtain ⟨x', w', rfl, hx', hw'⟩ := hw'.exists_cons
    obtain ⟨y', w', rfl, hy', hw'⟩ := hw'.exists_cons
    obtain ⟨z', w', rfl, hz', hw'⟩ := hw'.exists_cons
    obtain rfl := hw'.zero
    have hpl := hp.1
    have hpl' := hp'.1
    have hql : q.length = N - (k + 1 + 1) := by have := hq.1; omega
    have hql' : q'.length = N - (k + 1 + 1) := by have := hq'.1; omega
    simp only [List.append_assoc]
    rw [ones_left (d := d) o1 ov _ p p' _ _ hpl hpl' 0]
    have e1 : ∀ M : Mat ℂ, opEl (at1 d (N + 1) (k + 1) M) (p ++ ([x, y, z] ++ q)) (p' ++ ([x', y', z'] ++ q'))
        = (if p = p' then 1 else 0) * (delta ℂ x x' * M.v y y' * delta ℂ z z') * (if q = q' then 1 else 0) := by
      intro M
      have := opEl_at1 (d := d) (N := N + 1) (n := k + 1) (o := M) (p := p ++ [x]) (p' := p' ++ [x']) (x := y) (x' := y')
        (q := z :: q) (q' := z' :: q') (by omega) (by simp [hpl]) (by simp [hpl']) (by simp; omega) (by simp; omega)
      simp only [List.append_assoc, List.cons_append, List.nil_append] at this ⊢
      rw [this]
      have a1 : (p ++ [x] = p' ++ [x']) ↔ p = p' ∧ x = x' := by
        rw [← List.concat_eq_append, ← List.concat_eq_append]; simp
      simp only [a1, List.cons.injEq, delta]
      by_cases c1 : p = p' <;> by_cases c2 : x = x' <;> by_cases c3 : z = z' <;> by_cases c4 : q = q' <;> simp [c1, c2, c3, c4]
    have e2 : ∀ A B : Mat ℂ, opEl (at2 d (N + 1) k A B) (p ++ ([x, y, z] ++ q)) (p' ++ ([x', y', z'] ++ q'))
        = (if p = p' then 1 else 0) * (A.v x x' * B.v y y' * delta ℂ z z') * (if q = q' then 1 else 0) := by
      intro A B
      have := opEl_at2 (d := d) (N := N + 1) (n := k) (a := A) (b := B) (p := p) (p' := p') (x := x) (x' := x') (y := y) (y' := y')
        (q := z :: q) (q' := z' :: q') (by omega) (by simp [hpl]) (by simp [hpl']) (by simp; omega) (by simp; omega)
      simp only [List.append_assoc, List.cons_append, List.nil_append] at this ⊢
      rw [this]
      simp only [List.cons.injEq, delta]
      by_cases c3 : z = z' <;> by_cases c4 : q = q' <;> simp [c3, c4]
    have e3 : ∀ A B : Mat ℂ, opEl (at2 d (N + 1) (k + 1) A B) (p ++ ([x, y, z] ++ q)) (p' ++ ([x', y', z'] ++ q'))
        = (if p = p' then 1 else 0) * (delta ℂ x x' * A.v y y' * B.v z z') * (if q = q' then 1 else 0) := by
      intro A B
      have := opEl_at2 (d := d) (N := N + 1) (n := k + 1) (a := A) (b := B) (p := p ++ [x]) (p' := p' ++ [x']) (x := y) (x' := y')
        (y := z) (y' := z') (q := q) (q' := q') (by omega) (by simp [hpl]) (by simp [hpl']) (by omega) (by omega)
      simp only [List.append_assoc, List.cons_append, List.nil_append] at this ⊢
      rw [this]
      have a1 : (p ++ [x] = p' ++ [x']) ↔ p = p' ∧ x = x' := by
        rw [← List.concat_eq_append, ← List.concat_eq_append]; simp
      simp only [a1, delta]
      by_cases c1 : p = p' <;> by_cases c2 : x = x' <;> simp [c1, c2]
    rw [e1, e1, show k + 1 - 1 = k from rfl, e2, e3]
    simp only [List.cons_append, List.nil_append, mchain, fill, List.foldl, Mpo.blk, Mpo.zeros, sum_range_succ, sum_range_zero,
      ones_all (d := d) o1 ov q q' hql hql']
    simp only [Mat.add', Mat.smul', same_N d y hy y' hy', same_DDCC d y hy y' hy', same_C d x hx x' hx', same_D d y hy y' hy',
      same_C d z hz z' hz', eyeK]
    by_cases c1 : p = p' <;> by_cases c4 : q = q' <;> simp [c1, c4]
    ring

/-- **C95.** The number of tensors is not the `N` asked for, and the operator is not Hermitian: it contains one direction of the hopping
only. -/
theorem C95_violated :
    ∃ Ws, llEdens 0 1 1 2 4 2 = .ok Ws ∧ Ws.length = 5 ∧ mchain Ws [0, 0, 1, 0, 0] [0, 1, 0, 0, 0] 0 0 = -1 / 2 ∧
      mchain Ws [0, 1, 0, 0, 0] [0, 0, 1, 0, 0] 0 0 = 0 := by
  obtain ⟨Ws, h, r⟩ := C95_edens 0 1 1 2 4 2 (by norm_num) (by norm_num) one_ne_zero one_ne_zero
  refine ⟨Ws, h, r.len, ?_, ?_⟩
  · rw [r.el _ _ (by simp [Cf]) (by simp [Cf])]
    simp [opEl, at1, at2, nord, eyeK, delta]
    norm_num
  · rw [r.el _ _ (by simp [Cf]) (by simp [Cf])]
    simp [opEl, at1, at2, nord, eyeK, delta]

/-- **C95.** Sites without two neighbours on either side are refused. -/
theorem C95_errors (g mass dx : ℂ) (d N site : ℕ) (h : site ≤ 1 ∨ N ≤ site + 1) :
    llEdens g mass dx d N site = .error .assertion := by
  rw [llEdens]
  split_ifs <;> first | rfl | omega

/-- Instances of the hypotheses. -/
example : ∃ Ws, ll1 (-1) 2 (1 / 2) 3 (1 / 10) 4 = .ok Ws ∧ Ws.length = 3 :=
  let ⟨Ws, h, r⟩ := C94_ll1 (-1) 2 (1 / 2) (1 / 10) 3 4 (by norm_num) (by norm_num) (by norm_num)
  ⟨Ws, h, r.len⟩
example : ∃ Ws, projLL [1, 2, 3] 2 (1 / 2) (1 / 10) true = .ok Ws ∧ Ws.length = 3 :=
  let ⟨Ws, h, r⟩ := C94_proj [1, 2, 3] 2 (1 / 2) (1 / 10) (by simp) (by norm_num) (by norm_num)
  ⟨Ws, h, r.len⟩

end

end PyTeN.Boson
