import Verif.Ham.Boson
import Verif.Props.Ham

/-! # Properties of the bosonic Hamiltonians (C93–C96)

`nord d q p` is the matrix of `a†^q a^p` on the states `0, …, d-1`, given by its matrix elements. -/

namespace PyTeN.Boson
open Finset

set_option linter.unusedSimpArgs false
set_option linter.unusedVariables false

noncomputable section

/-! ## Specification -/

/-- `a†_n a_{n+1} + a_n a†_{n+1}`. -/
def hopEl (d N n : ℕ) (s t : List ℕ) : ℂ :=
  opEl (at2 d N n (nord d 1 0) (nord d 0 1)) s t + opEl (at2 d N n (nord d 0 1) (nord d 1 0)) s t

/-- Normally ordered `(a_n+a†_n)^4`. -/
def quartEl (d N n : ℕ) (s t : List ℕ) : ℂ :=
  opEl (at1 d N n (nord d 0 4)) s t + 4 * opEl (at1 d N n (nord d 1 3)) s t + 6 * opEl (at1 d N n (nord d 2 2)) s t +
    4 * opEl (at1 d N n (nord d 3 1)) s t + opEl (at1 d N n (nord d 4 0)) s t

/-- `Σ_n (w_n a†_n a_n + k_n (a_n^2 + a†_n^2) + q_n :(a_n+a†_n)^4:) - J Σ_n (a†_n a_{n+1} + h.c.)`. -/
def phiEl (d N : ℕ) (w k q : ℕ → ℂ) (J : ℂ) (s t : List ℕ) : ℂ :=
  ∑ n ∈ range N, (w n * opEl (at1 d N n (nord d 1 1)) s t +
      k n * (opEl (at1 d N n (nord d 2 0)) s t + opEl (at1 d N n (nord d 0 2)) s t) + q n * quartEl d N n s t) -
    J * ∑ n ∈ range (N - 1), hopEl d N n s t

/-! ## Lemmas -/

theorem hop_term {d N n : ℕ} {J : ℂ} {s t : List ℕ} (hs : Cf d N s) (ht : Cf d N t) (hn : n + 2 ≤ N) :
    opEl (at2 d N n (neg' J (bC d)) (bD d)) s t + opEl (at2 d N n (neg' J (bD d)) (bC d)) s t = -(J * hopEl d N n s t) := by
  rw [opEl_at2_smul (a := neg' J (bC d)) (b := bD d) (a' := nord d 1 0) (b' := nord d 0 1) (c := -J) hs ht hn (by
      intro x hx x' hx' y hy y' hy'
      simp only [neg', Mat.smul']; rw [same_C d x hx x' hx', same_D d y hy y' hy']; ring),
    opEl_at2_smul (a := neg' J (bD d)) (b := bC d) (a' := nord d 0 1) (b' := nord d 1 0) (c := -J) hs ht hn (by
      intro x hx x' hx' y hy y' hy'
      simp only [neg', Mat.smul']; rw [same_D d x hx x' hx', same_C d y hy y' hy']; ring)]
  simp only [hopEl]; ring

theorem at1_same {d N n : ℕ} {c : ℂ} {A B : Mat ℂ} {s t : List ℕ} (hs : Cf d N s) (ht : Cf d N t) (hn : n < N) (h : Same d A B) :
    opEl (at1 d N n (A.smul' c)) s t = c * opEl (at1 d N n B) s t :=
  opEl_at1_smul hs ht hn (fun x hx y hy => by simp only [Mat.smul']; rw [h x hx y hy])

theorem at1_same1 {d N n : ℕ} {A B : Mat ℂ} {s t : List ℕ} (hs : Cf d N s) (ht : Cf d N t) (hn : n < N) (h : Same d A B) :
    opEl (at1 d N n A) s t = opEl (at1 d N n B) s t := by
  have := opEl_at1_smul (a := A) (a' := B) (c := 1) hs ht hn (fun x hx y hy => by rw [h x hx y hy, one_mul])
  rwa [one_mul] at this

/-- A multiple of the identity on one end of a bond. -/
theorem bond_left {d N n : ℕ} {c : ℂ} {A B : Mat ℂ} {s t : List ℕ} (hs : Cf d N s) (ht : Cf d N t) (hn : n + 2 ≤ N) (h : Same d A B) :
    opEl (at2 d N n ((eyeK ℂ d).smul' c) A) s t = c * opEl (at1 d N (n + 1) B) s t := by
  rw [opEl_at2_smul (a' := eyeK ℂ d) (b' := B) (c := c) hs ht hn (by
    intro x hx x' hx' y hy y' hy'
    simp only [Mat.smul']; rw [h y hy y' hy']; ring), at2_eye_left]

theorem bond_right {d N n : ℕ} {c : ℂ} {A B : Mat ℂ} {s t : List ℕ} (hs : Cf d N s) (ht : Cf d N t) (hn : n + 2 ≤ N) (h : Same d A B) :
    opEl (at2 d N n A ((eyeK ℂ d).smul' c)) s t = c * opEl (at1 d N n B) s t := by
  rw [opEl_at2_smul (a' := B) (b' := eyeK ℂ d) (c := c) hs ht hn (by
    intro x hx x' hx' y hy y' hy'
    simp only [Mat.smul']; rw [h x hx x' hx']; ring), at2_eye_right hn]

theorem quart_at {d N n : ℕ} {c : ℂ} {s t : List ℕ} (hs : Cf d N s) (ht : Cf d N t) (hn : n < N) :
    opEl (at1 d N n ((bQuart d).smul' c)) s t = c * quartEl d N n s t := by
  rw [at1_lin (l := [(c, nord d 0 4), (4 * c, nord d 1 3), (6 * c, nord d 2 2), (4 * c, nord d 3 1), (c, nord d 4 0)]) hs ht hn (by
    intro x hx y hy
    simp only [Mat.smul', List.map_cons, List.map_nil, List.sum_cons, List.sum_nil]
    rw [same_quart d x hx y hy]; ring)]
  simp only [List.map_cons, List.map_nil, List.sum_cons, List.sum_nil, quartEl]; ring

theorem phiLoc_at {d N n : ℕ} {w k q : ℂ} {s t : List ℕ} (hs : Cf d N s) (ht : Cf d N t) (hn : n < N) :
    opEl (at1 d N n (phiLoc d w k q)) s t = w * opEl (at1 d N n (nord d 1 1)) s t +
      k * (opEl (at1 d N n (nord d 2 0)) s t + opEl (at1 d N n (nord d 0 2)) s t) + q * quartEl d N n s t := by
  rw [at1_lin (l := [(w, nord d 1 1), (k, nord d 2 0), (k, nord d 0 2), (1, (bQuart d).smul' q)]) hs ht hn (by
    intro x hx y hy
    simp only [phiLoc, Mat.add', Mat.smul', List.map_cons, List.map_nil, List.sum_cons, List.sum_nil]
    rw [same_N d x hx y hy, same_CC d x hx y hy, same_DD d x hx y hy]; ring)]
  simp only [List.map_cons, List.map_nil, List.sum_cons, List.sum_nil, quart_at hs ht hn]; ring

theorem all8 {P : ℕ → Prop} : (∀ s < 8, P s) ↔ P 0 ∧ P 1 ∧ P 2 ∧ P 3 ∧ P 4 ∧ P 5 ∧ P 6 ∧ P 7 :=
  ⟨fun h => ⟨h 0 (by omega), h 1 (by omega), h 2 (by omega), h 3 (by omega), h 4 (by omega), h 5 (by omega), h 6 (by omega),
    h 7 (by omega)⟩,
    fun h s hs => by
      interval_cases s
      exacts [h.1, h.2.1, h.2.2.1, h.2.2.2.1, h.2.2.2.2.1, h.2.2.2.2.2.1, h.2.2.2.2.2.2.1, h.2.2.2.2.2.2.2]⟩

/-! ## C93: the phi^4 models -/

/-- Local data of the tensor with ten channels. -/
def phiX10 (d : ℕ) (x y q J : ℂ) : Loc :=
  ⟨(bQuart d).smul' q,
   fun k => [neg' J (bC d), neg' J (bD d), (eyeK ℂ d).smul' x, bN d, (eyeK ℂ d).smul' y, bCC d, (eyeK ℂ d).smul' y, bDD d].getD k (eyeK ℂ d),
   fun k => [bD d, bC d, bN d, (eyeK ℂ d).smul' x, bCC d, (eyeK ℂ d).smul' y, bDD d, (eyeK ℂ d).smul' y].getD k (eyeK ℂ d)⟩

theorem phi10_bulk (d : ℕ) (x y q J : ℂ) : NNBulk d 8 (phiTen10 d x y q J) (phiX10 d x y q J) := by
  refine ⟨rfl, rfl, rfl, rfl, ?_, ?_, ?_, ?_, ?_, ?_⟩
  · intro s _ t _; simp [phiTen10, fill, Mpo.blk, eyeK]
  · rw [all8]; refine ⟨?_, ?_, ?_, ?_, ?_, ?_, ?_, ?_⟩ <;> (intro s _ t _; simp [phiTen10, fill, Mpo.blk, phiX10])
  · intro s _ t _; simp [phiTen10, fill, Mpo.blk, phiX10]
  · rw [all8]; refine ⟨?_, ?_, ?_, ?_, ?_, ?_, ?_, ?_⟩ <;> (intro s _ t _; simp [phiTen10, fill, Mpo.blk, phiX10])
  · intro s _ t _; simp [phiTen10, fill, Mpo.blk, eyeK]
  · intro b hb c hc s _ t _
    have h9 : b ≠ 9 := by omega
    simp [phiTen10, fill, Mpo.blk, Mpo.zeros, h9]

theorem phi10_ham (d N : ℕ) (x y q J : ℂ) {s t : List ℕ} (hs : Cf d N s) (ht : Cf d N t) :
    hamEl d 8 N (fun _ => phiX10 d x y q J) s t = phiEl d N (fun n => deg N n * x) (fun n => deg N n * y) (fun _ => q) J s t := by
  have e1 : ∀ n ∈ range N, opEl (at1 d N n (phiX10 d x y q J).h) s t = q * quartEl d N n s t :=
    fun n hn => quart_at hs ht (mem_range.mp hn)
  have e2 : ∀ n ∈ range (N - 1), ∑ k ∈ range 8, opEl (at2 d N n ((phiX10 d x y q J).A k) ((phiX10 d x y q J).B k)) s t
      = -(J * hopEl d N n s t) + (x * opEl (at1 d N n (nord d 1 1)) s t + x * opEl (at1 d N (n + 1) (nord d 1 1)) s t)
        + (y * (opEl (at1 d N n (nord d 2 0)) s t + opEl (at1 d N n (nord d 0 2)) s t) +
          y * (opEl (at1 d N (n + 1) (nord d 2 0)) s t + opEl (at1 d N (n + 1) (nord d 0 2)) s t)) := by
    intro n hn
    have hn' : n + 2 ≤ N := by have := mem_range.mp hn; omega
    simp only [sum_range_succ, sum_range_zero, zero_add, phiX10, List.getD_cons_zero, List.getD_cons_succ]
    rw [hop_term hs ht hn', bond_left hs ht hn' (same_N d), bond_right hs ht hn' (same_N d), bond_left hs ht hn' (same_CC d),
      bond_right hs ht hn' (same_CC d), bond_left hs ht hn' (same_DD d), bond_right hs ht hn' (same_DD d)]
    ring
  rw [hamEl, sum_congr rfl e1, sum_congr rfl e2, sum_add_distrib, sum_add_distrib,
    sum_bonds N (fun n => x * opEl (at1 d N n (nord d 1 1)) s t),
    sum_bonds N (fun n => y * (opEl (at1 d N n (nord d 2 0)) s t + opEl (at1 d N n (nord d 0 2)) s t))]
  simp only [phiEl, sum_add_distrib, mul_sum, sum_neg_distrib, mul_assoc]
  ring

/-- Local data of the tensor with six channels. -/
def phiX6 (d : ℕ) (h : Mat ℂ) (J : ℂ) : Loc :=
  ⟨h, fun k => [neg' J (bC d), neg' J (bD d), (bN d).smul' J, eyeK ℂ d].getD k (eyeK ℂ d),
   fun k => [bD d, bC d, eyeK ℂ d, (bN d).smul' J].getD k (eyeK ℂ d)⟩

/-- Local data of the tensors with four channels. -/
def hopX (d : ℕ) (h : Mat ℂ) (J : ℂ) : Loc :=
  ⟨h, fun k => [neg' J (bC d), neg' J (bD d)].getD k (eyeK ℂ d), fun k => [bD d, bC d].getD k (eyeK ℂ d)⟩

theorem four_bulk (d : ℕ) (h : Mat ℂ) (J : ℂ) : NNBulk d 2 (fill (Mpo.zeros 4 4 d)
    [(0, 0, eyeK ℂ d), (1, 0, bD d), (2, 0, bC d), (3, 0, h), (3, 1, neg' J (bC d)), (3, 2, neg' J (bD d)), (3, 3, eyeK ℂ d)])
    (hopX d h J) := by
  refine ⟨rfl, rfl, rfl, rfl, ?_, ?_, ?_, ?_, ?_, ?_⟩
  · intro s _ t _; simp [fill, Mpo.blk, eyeK]
  · rw [all2]; refine ⟨?_, ?_⟩ <;> (intro s _ t _; simp [fill, Mpo.blk, hopX])
  · intro s _ t _; simp [fill, Mpo.blk, hopX]
  · rw [all2]; refine ⟨?_, ?_⟩ <;> (intro s _ t _; simp [fill, Mpo.blk, hopX])
  · intro s _ t _; simp [fill, Mpo.blk, eyeK]
  · intro b hb c hc s _ t _
    have h9 : b ≠ 3 := by omega
    simp [fill, Mpo.blk, Mpo.zeros, h9]

theorem six_bulk (d : ℕ) (h : Mat ℂ) (J : ℂ) : NNBulk d 4 (fill (Mpo.zeros 6 6 d)
    [(0, 0, eyeK ℂ d), (1, 0, bD d), (2, 0, bC d), (3, 0, eyeK ℂ d), (4, 0, (bN d).smul' J), (5, 0, h), (5, 1, neg' J (bC d)),
     (5, 2, neg' J (bD d)), (5, 3, (bN d).smul' J), (5, 4, eyeK ℂ d), (5, 5, eyeK ℂ d)]) (phiX6 d h J) := by
  refine ⟨rfl, rfl, rfl, rfl, ?_, ?_, ?_, ?_, ?_, ?_⟩
  · intro s _ t _; simp [fill, Mpo.blk, eyeK]
  · rw [all4]; refine ⟨?_, ?_, ?_, ?_⟩ <;> (intro s _ t _; simp [fill, Mpo.blk, phiX6])
  · intro s _ t _; simp [fill, Mpo.blk, phiX6]
  · rw [all4]; refine ⟨?_, ?_, ?_, ?_⟩ <;> (intro s _ t _; simp [fill, Mpo.blk, phiX6])
  · intro s _ t _; simp [fill, Mpo.blk, eyeK]
  · intro b hb c hc s _ t _
    have h9 : b ≠ 5 := by omega
    simp [fill, Mpo.blk, Mpo.zeros, h9]

theorem hop_ham (d N : ℕ) (h : ℕ → Mat ℂ) (J : ℂ) {s t : List ℕ} (hs : Cf d N s) (ht : Cf d N t) :
    hamEl d 2 N (fun n => hopX d (h n) J) s t
      = ∑ n ∈ range N, opEl (at1 d N n (h n)) s t - J * ∑ n ∈ range (N - 1), hopEl d N n s t := by
  have e2 : ∀ n ∈ range (N - 1), ∑ k ∈ range 2, opEl (at2 d N n ((hopX d (h n) J).A k) ((hopX d (h (n + 1)) J).B k)) s t
      = -(J * hopEl d N n s t) := by
    intro n hn
    have hn' : n + 2 ≤ N := by have := mem_range.mp hn; omega
    simp only [sum_range_succ, sum_range_zero, zero_add, hopX, List.getD_cons_zero, List.getD_cons_succ]
    rw [hop_term hs ht hn']
  rw [hamEl, sum_congr rfl e2, sum_neg_distrib, mul_sum, sub_eq_add_neg]
  rfl

theorem six_ham (d N : ℕ) (h : Mat ℂ) (J : ℂ) {s t : List ℕ} (hs : Cf d N s) (ht : Cf d N t) :
    hamEl d 4 N (fun _ => phiX6 d h J) s t
      = ∑ n ∈ range N, (opEl (at1 d N n h) s t + deg N n * (J * opEl (at1 d N n (nord d 1 1)) s t))
        - J * ∑ n ∈ range (N - 1), hopEl d N n s t := by
  have e2 : ∀ n ∈ range (N - 1), ∑ k ∈ range 4, opEl (at2 d N n ((phiX6 d h J).A k) ((phiX6 d h J).B k)) s t
      = -(J * hopEl d N n s t) + (J * opEl (at1 d N n (nord d 1 1)) s t + J * opEl (at1 d N (n + 1) (nord d 1 1)) s t) := by
    intro n hn
    have hn' : n + 2 ≤ N := by have := mem_range.mp hn; omega
    simp only [sum_range_succ, sum_range_zero, zero_add, phiX6, List.getD_cons_zero, List.getD_cons_succ]
    rw [hop_term hs ht hn', at2_eye_left, at2_eye_right hn', at1_same hs ht (by omega) (same_N d),
      at1_same hs ht (by omega) (same_N d)]
    ring
  rw [hamEl, sum_congr rfl e2, sum_add_distrib, sum_bonds N (fun n => J * opEl (at1 d N n (nord d 1 1)) s t), sum_neg_distrib, mul_sum,
    sum_add_distrib]
  simp only [phiX6]
  ring

/-- **C93.** `PhiFourmpo(mu,nu,g,N,dx,cutoff,obc=True)`. -/
theorem C93_phi1 (mu nu g dx : ℂ) (N d : ℕ) (hN : 2 ≤ N) (hnu : nu ≠ 0) (hdx : dx ≠ 0) :
    ∃ Ws, phiFour1 mu nu g N dx d true = .ok Ws ∧ Represents d N Ws (phiEl d N
      (fun n => deg N n * ((mu ^ 2 + nu ^ 2) / (8 * nu) + 1 / (2 * nu * dx ^ 2))) (fun n => deg N n * ((mu ^ 2 - nu ^ 2) / (16 * nu)))
      (fun _ => g / (96 * nu ^ 2 * dx)) (1 / (2 * nu * dx ^ 2))) := by
  obtain ⟨Ws, h1, h2⟩ := closeObc_nn hN (phi10_bulk d ((mu ^ 2 + nu ^ 2) / (8 * nu) + 1 / (2 * nu * dx ^ 2))
    ((mu ^ 2 - nu ^ 2) / (16 * nu)) (g / (96 * nu ^ 2 * dx)) (1 / (2 * nu * dx ^ 2)))
  refine ⟨Ws, ?_, h2.represents fun s t hs ht => phi10_ham _ _ _ _ _ _ hs ht⟩
  rw [phiFour1, loopMpo_ok (by simp [hnu.symm, hdx.symm])]; exact h1

/-- **C93.** `PhiFourmpo2(mu,nu,g,N,dx,cutoff,obc=True)`. -/
theorem C93_phi2 (mu nu g dx : ℂ) (N d : ℕ) (hN : 2 ≤ N) (hnu : nu ≠ 0) (hdx : dx ≠ 0) :
    ∃ Ws, phiFour2 mu nu g N dx d true = .ok Ws ∧ Represents d N Ws (phiEl d N
      (fun n => deg N n * ((mu ^ 2 + nu ^ 2) / 4 + 1 / dx ^ 2)) (fun n => deg N n * ((mu ^ 2 - nu ^ 2) / 8))
      (fun _ => g / (96 * nu * dx)) (1 / dx ^ 2)) := by
  obtain ⟨Ws, h1, h2⟩ := closeObc_nn hN (phi10_bulk d ((mu ^ 2 + nu ^ 2) / 4 + 1 / dx ^ 2) ((mu ^ 2 - nu ^ 2) / 8)
    (g / (96 * nu * dx)) (1 / (1 * dx ^ 2)))
  refine ⟨Ws, ?_, h2.represents fun s t hs ht => ?_⟩
  · rw [phiFour2, loopMpo_ok (by simp [hnu.symm, hdx.symm])]; exact h1
  · rw [phi10_ham _ _ _ _ _ _ hs ht, one_mul]

/-- **C93.** `PhiFourmpo3(mu,nu,g,N,dx,cutoff,obc=True)`. -/
theorem C93_phi3 (mu nu g dx : ℂ) (N d : ℕ) (hN : 2 ≤ N) (hnu : nu ≠ 0) (hdx : dx ≠ 0) :
    ∃ Ws, phiFour3 mu nu g N dx d true = .ok Ws ∧ Represents d N Ws (phiEl d N
      (fun n => (mu ^ 2 + nu ^ 2) / 2 + deg N n * (1 / dx ^ 2)) (fun _ => (mu ^ 2 - nu ^ 2) / 4) (fun _ => g / (96 * nu * dx))
      (1 / dx ^ 2)) := by
  obtain ⟨Ws, h1, h2⟩ := closeObc_nn hN (six_bulk d (phiLoc d ((mu ^ 2 + nu ^ 2) / 2) ((mu ^ 2 - nu ^ 2) / 4) (g / (96 * nu * dx)))
    (1 / dx ^ 2))
  refine ⟨Ws, ?_, h2.represents fun s t hs ht => ?_⟩
  · rw [phiFour3, loopMpo_ok (by simp [hnu.symm, hdx.symm])]; exact h1
  · rw [six_ham _ _ _ _ hs ht, phiEl]
    congr 1
    refine sum_congr rfl fun n hn => ?_
    rw [phiLoc_at hs ht (mem_range.mp hn)]; ring

/-- **C93.** `PhiFourmpo4(mu,nu,g,N,dx,cutoff,obc=True)`. -/
theorem C93_phi4 (mu nu g dx : ℂ) (N d : ℕ) (hN : 2 ≤ N) (hnu : nu ≠ 0) (hdx : dx ≠ 0) :
    ∃ Ws, phiFour4 mu nu g N dx d true = .ok Ws ∧ Represents d N Ws (phiEl d N
      (fun _ => (mu ^ 2 + nu ^ 2) / 2 + 2 / dx ^ 2) (fun _ => (mu ^ 2 - nu ^ 2) / 4) (fun _ => g / (96 * nu * dx))
      (1 / dx ^ 2)) := by
  obtain ⟨Ws, h1, h2⟩ := closeObc_nn hN (four_bulk d
    (phiLoc d ((mu ^ 2 + nu ^ 2) / 2 + 2 / dx ^ 2) ((mu ^ 2 - nu ^ 2) / 4) (g / (96 * nu * dx))) (1 / dx ^ 2))
  refine ⟨Ws, ?_, h2.represents fun s t hs ht => ?_⟩
  · rw [phiFour4, loopMpo_ok (by simp [hnu.symm, hdx.symm])]; exact h1
  · rw [hop_ham _ _ (fun _ => _) _ hs ht, phiEl]
    congr 1
    exact sum_congr rfl fun n hn => phiLoc_at hs ht (mem_range.mp hn)

/-- **C93.** `TwoSitePhiFourMPO`: half of the on-site terms of `PhiFourmpo4` on either site. -/
theorem C93_two_site (mu nu g dx : ℂ) (d : ℕ) (hnu : nu ≠ 0) (hdx : dx ≠ 0) :
    ∃ Ws, phiTwoSite mu nu g dx d = .ok Ws ∧ Represents d 2 Ws (phiEl d 2
      (fun _ => ((mu ^ 2 + nu ^ 2) / 2 + 2 / dx ^ 2) / 2) (fun _ => (mu ^ 2 - nu ^ 2) / 4 / 2) (fun _ => g / (96 * nu * dx) / 2)
      (1 / dx ^ 2)) := by
  rw [phiTwoSite, if_neg (by simp [hnu.symm, hdx.symm])]
  refine ⟨_, rfl, NNForm.represents (K := 2) (X := fun _ => hopX d ((phiLoc d ((mu ^ 2 + nu ^ 2) / 2 + 2 / dx ^ 2)
    ((mu ^ 2 - nu ^ 2) / 4) (g / (96 * nu * dx))).smul' (1 / 2)) (1 / dx ^ 2)) ?_ ?_⟩
  · refine ⟨le_rfl, rfl, ?_, fun n W h0 h1 => by omega, ?_⟩
    · intro W hW
      simp only [List.getElem?_cons_zero, Option.some.injEq] at hW
      subst hW
      refine ⟨rfl, rfl, rfl, rfl, ?_, ?_, ?_⟩
      · intro s _ t _; simp [fill, Mpo.blk, hopX]
      · rw [all2]; refine ⟨?_, ?_⟩ <;> (intro s _ t _; simp [fill, Mpo.blk, hopX])
      · intro s _ t _; simp [fill, Mpo.blk, eyeK]
    · intro W hW
      simp only [show 2 - 1 = 0 + 1 from rfl, List.getElem?_cons_succ, List.getElem?_cons_zero, Option.some.injEq] at hW
      subst hW
      refine ⟨rfl, rfl, rfl, rfl, ?_, ?_, ?_⟩
      · intro s _ t _; simp [fill, Mpo.blk, eyeK]
      · rw [all2]; refine ⟨?_, ?_⟩ <;> (intro s _ t _; simp [fill, Mpo.blk, hopX])
      · intro s _ t _; simp [fill, Mpo.blk, hopX]
  · intro s t hs ht
    rw [hop_ham _ _ (fun _ => _) _ hs ht, phiEl]
    congr 1
    refine sum_congr rfl fun n hn => ?_
    rw [opEl_at1_smul (a' := phiLoc d ((mu ^ 2 + nu ^ 2) / 2 + 2 / dx ^ 2) ((mu ^ 2 - nu ^ 2) / 4) (g / (96 * nu * dx))) (c := 1 / 2)
      hs ht (mem_range.mp hn) (fun _ _ _ _ => rfl), phiLoc_at hs ht (mem_range.mp hn)]
    ring

theorem deg_inner {N n : ℕ} (h0 : 0 < n) (h1 : n + 1 < N) : deg N n = 2 := by simp [deg, h0, h1]

/-- **C93.** The variants 2, 3 and 4 differ at the two ends only. -/
theorem C93_ends (mu nu g dx : ℂ) (N d : ℕ) (hN : 2 ≤ N) (hnu : nu ≠ 0) (hdx : dx ≠ 0) :
    ∃ W2 W3 W4, phiFour2 mu nu g N dx d true = .ok W2 ∧ phiFour3 mu nu g N dx d true = .ok W3 ∧ phiFour4 mu nu g N dx d true = .ok W4 ∧
      ∀ s t, Cf d N s → Cf d N t →
        mchain W3 s t 0 0 = mchain W4 s t 0 0
          - 1 / dx ^ 2 * (opEl (at1 d N 0 (nord d 1 1)) s t + opEl (at1 d N (N - 1) (nord d 1 1)) s t) ∧
        mchain W2 s t 0 0 = mchain W4 s t 0 0
          - ((mu ^ 2 + nu ^ 2) / 4 + 1 / dx ^ 2) * (opEl (at1 d N 0 (nord d 1 1)) s t + opEl (at1 d N (N - 1) (nord d 1 1)) s t)
          - (mu ^ 2 - nu ^ 2) / 8 * (opEl (at1 d N 0 (nord d 2 0)) s t + opEl (at1 d N 0 (nord d 0 2)) s t +
            (opEl (at1 d N (N - 1) (nord d 2 0)) s t + opEl (at1 d N (N - 1) (nord d 0 2)) s t)) := by
  obtain ⟨W2, h2, r2⟩ := C93_phi2 mu nu g dx N d hN hnu hdx
  obtain ⟨W3, h3, r3⟩ := C93_phi3 mu nu g dx N d hN hnu hdx
  obtain ⟨W4, h4, r4⟩ := C93_phi4 mu nu g dx N d hN hnu hdx
  refine ⟨W2, W3, W4, h2, h3, h4, fun s t hs ht => ?_⟩
  rw [r2.el s t hs ht, r3.el s t hs ht, r4.el s t hs ht]
  have key : ∀ f : ℕ → ℂ, ∑ n ∈ range N, (deg N n : ℂ) * f n = 2 * ∑ n ∈ range N, f n - (f 0 + f (N - 1)) := by
    intro f
    obtain ⟨m, rfl⟩ : ∃ m, N = m + 1 + 1 := ⟨N - 2, by omega⟩
    rw [sum_range_succ, sum_range_succ', sum_range_succ f, sum_range_succ' f, mul_add, mul_add, mul_sum]
    have : ∀ n ∈ range m, (deg (m + 1 + 1) (n + 1) : ℂ) * f (n + 1) = 2 * f (n + 1) := by
      intro n hn
      rw [deg_inner (by omega) (by have := mem_range.mp hn; omega)]; simp
    rw [sum_congr rfl this]
    simp [deg]; ring
  have f1 : ∀ (x y : ℂ) (f : ℕ → ℂ), ∑ n ∈ range N, (y + deg N n * x) * f n = (y + 2 * x) * ∑ n ∈ range N, f n - x * (f 0 + f (N - 1)) := by
    intro x y f
    have : ∀ n ∈ range N, (y + deg N n * x) * f n = y * f n + x * (deg N n * f n) := fun n _ => by ring
    rw [sum_congr rfl this, sum_add_distrib, ← mul_sum, ← mul_sum, key]; ring
  have f0 : ∀ (x : ℂ) (f : ℕ → ℂ), ∑ n ∈ range N, (deg N n * x) * f n = (2 * x) * ∑ n ∈ range N, f n - x * (f 0 + f (N - 1)) := by
    intro x f
    have := f1 x 0 f
    simpa using this
  simp only [phiEl, sum_add_distrib (f := fun n => _ + _ * (_ + _)), sum_add_distrib (f := fun n => _ * opEl (at1 d N n (nord d 1 1)) s t)]
  rw [f1 _ _ (fun n => opEl (at1 d N n (nord d 1 1)) s t), f0 _ (fun n => opEl (at1 d N n (nord d 1 1)) s t),
    f0 _ (fun n => opEl (at1 d N n (nord d 2 0)) s t + opEl (at1 d N n (nord d 0 2)) s t)]
  simp only [← mul_sum]
  constructor
  · ring
  · ring

/-- **C93.** In units of `2 nu` the first variant has twice the quartic coupling of the second one. -/
theorem C93_quartic (mu nu g dx : ℂ) (N d : ℕ) (hN : 2 ≤ N) (hnu : nu ≠ 0) (hdx : dx ≠ 0) :
    ∃ W1 W2, phiFour1 mu nu g N dx d true = .ok W1 ∧ phiFour2 mu nu g N dx d true = .ok W2 ∧
      ∀ s t, Cf d N s → Cf d N t →
        2 * nu * mchain W1 s t 0 0 = mchain W2 s t 0 0 + g / (96 * nu * dx) * ∑ n ∈ range N, quartEl d N n s t := by
  obtain ⟨W1, h1, r1⟩ := C93_phi1 mu nu g dx N d hN hnu hdx
  obtain ⟨W2, h2, r2⟩ := C93_phi2 mu nu g dx N d hN hnu hdx
  refine ⟨W1, W2, h1, h2, fun s t hs ht => ?_⟩
  rw [r1.el s t hs ht, r2.el s t hs ht]
  simp only [phiEl, mul_sub, mul_sum, ← sum_sub_distrib]
  rw [sub_add_eq_add_sub, ← sum_add_distrib]
  congr 1
  · refine sum_congr rfl fun n _ => ?_
    field_simp
    ring
  · refine sum_congr rfl fun n _ => ?_
    field_simp

/-- **C93.** The claim that all variants describe one model is false: for `mu=nu=dx=1`, `g=96`, two sites and three levels the first
variant differs from the second one divided by `2 nu`. -/
theorem C93_violated_quartic :
    ∃ W1 W2, phiFour1 1 1 96 2 1 3 true = .ok W1 ∧ phiFour2 1 1 96 2 1 3 true = .ok W2 ∧
      2 * 1 * mchain W1 [2, 0] [2, 0] 0 0 = mchain W2 [2, 0] [2, 0] 0 0 + 12 := by
  obtain ⟨W1, W2, h1, h2, h⟩ := C93_quartic 1 1 96 1 2 3 le_rfl one_ne_zero one_ne_zero
  refine ⟨W1, W2, h1, h2, ?_⟩
  rw [h [2, 0] [2, 0] (by simp [Cf]) (by simp [Cf])]
  congr 1
  simp [sum_range_succ, quartEl, opEl, at1, nord, eyeK, delta, Nat.descFactorial]
  norm_num

/-- **C93.** Failures: without sites the end of the functions raises IndexError, and with sites `nu=0` or `dx=0` raises
ZeroDivisionError. -/
theorem C93_errors (mu nu g dx : ℂ) (N d : ℕ) (obc : Bool) :
    phiFour4 mu nu g 0 dx d true = .error .index ∧
    (nu = 0 ∨ dx = 0 → phiFour1 mu nu g (N + 1) dx d obc = .error .zerodiv ∧ phiFour2 mu nu g (N + 1) dx d obc = .error .zerodiv ∧
      phiFour3 mu nu g (N + 1) dx d obc = .error .zerodiv ∧ phiFour4 mu nu g (N + 1) dx d obc = .error .zerodiv) := by
  refine ⟨rfl, fun h => ?_⟩
  have hl : ∀ W, loopMpo (N + 1) [nu, dx] W = .error .zerodiv := by
    intro W
    have hm : (0 : ℂ) ∈ [nu, dx] := by rcases h with rfl | rfl <;> simp
    simp [loopMpo, hm, List.range_succ_eq_map, buildE]
  simp only [phiFour1, phiFour2, phiFour3, phiFour4, hl, and_self]

/-- An instance of the hypotheses. -/
example : ∃ Ws, phiFour4 (1 / 2) 1 3 3 (1 / 10) 4 true = .ok Ws :=
  let ⟨Ws, h, _⟩ := C93_phi4 (1 / 2) 1 3 (1 / 10) 3 4 (by norm_num) one_ne_zero (by norm_num)
  ⟨Ws, h⟩

end

end PyTeN.Boson
