import Verif.Props.LL
import Verif.Ham.Grid

/-! # Properties of the Lieb-Liniger Hamiltonians with site-dependent couplings (C96) -/

namespace PyTeN.Boson
open Finset

set_option linter.unusedSimpArgs false
set_option linter.unusedVariables false

noncomputable section

/-! ## Unit cells for excitations -/

theorem range_two (m : ℕ) : List.range' 1 (2 * (m + 2) - 2) = List.range' 1 m ++ (m + 1) :: (m + 2) :: List.range' (m + 3) m := by
  have h1 := List.range'_append (s := 1) (m := m) (n := m + 2) (step := 1)
  rw [show 2 * (m + 2) - 2 = m + (m + 2) by omega, ← h1, List.range'_succ, List.range'_succ]
  simp [Nat.add_comm, Nat.add_left_comm]

/-- Two open cells one after the other, as one open chain. -/
theorem two_cells {N : ℕ} (hN : 2 ≤ N) (f l f' l' : Mpo ℂ) (g : ℕ → Mpo ℂ) :
    (f :: (List.range' 1 (N - 2)).map g ++ [l]) ++ (f' :: (List.range' 1 (N - 2)).map g ++ [l'])
      = f :: (List.range' 1 (2 * N - 2)).map (fun n => if n + 1 < N then g n else if n + 1 = N then l else if n = N then f' else g (n - N))
        ++ [l'] := by
  obtain ⟨m, rfl⟩ : ∃ m, N = m + 2 := ⟨N - 2, by omega⟩
  rw [range_two, Nat.add_sub_cancel]
  simp only [List.map_append, List.map_cons, List.cons_append, List.append_assoc, List.nil_append, List.cons.injEq, true_and]
  have e1 : (List.range' 1 m).map (fun n => if n + 1 < m + 2 then g n else if n + 1 = m + 2 then l else if n = m + 2 then f' else g (n - (m + 2)))
      = (List.range' 1 m).map g := List.map_congr_left fun n hn => by
    simp only [List.mem_range'_1] at hn; rw [if_pos (by omega)]
  have e2 : (List.range' (m + 3) m).map (fun n => if n + 1 < m + 2 then g n else if n + 1 = m + 2 then l else if n = m + 2 then f' else g (n - (m + 2)))
      = (List.range' 1 m).map g := by
    rw [show List.range' (m + 3) m = (List.range' 1 m).map (fun n => (m + 2) + n) by
      rw [List.map_add_range'], List.map_map]
    refine List.map_congr_left fun n hn => ?_
    simp only [List.mem_range'_1] at hn
    simp only [Function.comp]
    rw [if_neg (by omega), if_neg (by omega), if_neg (by omega), Nat.add_sub_cancel_left]
  rw [e1, e2]
  simp

/-- The chemical potential that `UnitcellExLiebLinigermpo` uses at site `n` of the two cells: that of site `N-2` at the last site of the
first cell and the first site of the second cell. -/
def muStale (mu : List ℂ) (N n : ℕ) : ℂ := if n + 1 = N ∨ n = N then mu.getD (N - 2) 0 else mu.getD (if n < N then n else n - N) 0

theorem hop_ham' (d N : ℕ) (h : ℕ → Mat ℂ) (J : ℕ → ℂ) {s t : List ℕ} (hs : Cf d N s) (ht : Cf d N t) :
    hamEl d 2 N (fun n => hopX d (h n) (J n)) s t
      = ∑ n ∈ range N, opEl (at1 d N n (h n)) s t + ∑ n ∈ range (N - 1), -(J n * hopEl d N n s t) := by
  rw [hamEl]
  congr 1
  refine sum_congr rfl fun n hn => ?_
  have hn' : n + 2 ≤ N := by have := mem_range.mp hn; omega
  simp only [sum_range_succ, sum_range_zero, zero_add, hopX, List.getD_cons_zero, List.getD_cons_succ]
  rw [hop_term hs ht hn']

/-- **C96.** `UnitcellExLiebLinigermpo`: the two returned lists form an open chain of two cells with half of the on-site terms, half of the
hopping inside of the cells and the full hopping between them.  The chemical potentials are not the ones of the sites. -/
theorem C96_unitcell (mu : List ℂ) (g mass dx : ℂ) (N d : ℕ) (hN : 3 ≤ N) (hmu : N ≤ mu.length) (hm : mass ≠ 0) (hdx : dx ≠ 0) :
    ∃ Wl Wr, uniLL mu g mass N dx d = .ok (Wl, Wr) ∧ Wl.length = N ∧ Wr.length = N ∧ Represents d (2 * N) (Wl ++ Wr) (llEl d (2 * N)
      (fun n => muStale mu N n / 2 + 1 / (2 * mass * dx ^ 2)) (fun _ => g / (2 * dx)) (fun _ => 0) (fun _ => 0)
      (fun n => if n + 1 = N then 1 / (2 * mass * dx ^ 2) else 1 / (4 * mass * dx ^ 2))) := by
  have hz : ¬ (0 : ℂ) ∈ [mass, dx] := by simp [hm.symm, hdx.symm]
  have hb : buildE (fun n => do
      let m ← getE mu n
      return uniTen d (uniLoc d m g mass dx) (1 / (4 * mass * dx ^ 2))) (List.range' 1 (N - 2))
      = .ok ((List.range' 1 (N - 2)).map fun n => uniTen d (uniLoc d (mu.getD n 0) g mass dx) (1 / (4 * mass * dx ^ 2))) :=
    buildE_ok (by
      intro n hn
      simp only [List.mem_range'_1] at hn
      simp only [getE_getD (show n < mu.length by omega), bind, Except.bind, pure, Except.pure])
  have e : (1 : ℂ) / (2 * mass * dx ^ 2) = 2 * (1 / (4 * mass * dx ^ 2)) := by field_simp; norm_num
  simp only [uniLL, if_neg hz, getE_getD (show 0 < mu.length by omega), staleN, if_pos hN, getE_getD (show N - 2 < mu.length by omega),
    getLast', if_neg (show N ≠ 0 by omega), getE_getD (show N - 1 < mu.length by omega)]
  simp only [bind, Except.bind, pure, Except.pure] at hb ⊢
  simp only [hb, getE_getD (show N - 2 < mu.length by omega)]
  refine ⟨_, _, rfl, by simp; omega, by simp; omega, ?_⟩
  rw [two_cells (by omega)]
  refine NNForm.represents (nnForm_of (K := 2) (d := d) (X := fun n => hopX d (uniLoc d (muStale mu N n) g mass dx)
    (if n + 1 = N then 2 * (1 / (4 * mass * dx ^ 2)) else 1 / (4 * mass * dx ^ 2))) (by omega) ?_ ?_ ?_) ?_
  · rw [if_neg (show ¬ 0 + 1 = N by omega), show muStale mu N 0 = mu.getD 0 0 by
      simp only [muStale]; rw [if_neg (by omega), if_pos (by omega)]]
    refine ⟨rfl, rfl, rfl, rfl, ?_, ?_, ?_⟩
    · intro s _ t _; simp [fill, Mpo.blk, hopX]
    · rw [all2]; refine ⟨?_, ?_⟩ <;> (intro s _ t _; simp [fill, Mpo.blk, hopX])
    · intro s _ t _; simp [fill, Mpo.blk, eyeK]
  · intro n h0 h1
    by_cases c1 : n + 1 < N
    · rw [if_pos c1, if_neg (by omega), show muStale mu N n = mu.getD n 0 by
        simp only [muStale]; rw [if_neg (by omega), if_pos (by omega)]]
      exact four_bulk _ _ _
    · rw [if_neg c1]
      by_cases c2 : n + 1 = N
      · rw [if_pos c2, if_pos c2, show muStale mu N n = mu.getD (N - 2) 0 by simp only [muStale]; rw [if_pos (by omega)]]
        exact four_bulk _ _ _
      · rw [if_neg c2, if_neg c2]
        by_cases c3 : n = N
        · rw [if_pos c3, show muStale mu N n = mu.getD (N - 2) 0 by simp only [muStale]; rw [if_pos (by omega)]]
          exact four_bulk _ _ _
        · rw [if_neg c3, show muStale mu N n = mu.getD (n - N) 0 by simp only [muStale]; rw [if_neg (by omega), if_neg (by omega)]]
          exact four_bulk _ _ _
  · rw [show muStale mu N (2 * N - 1) = mu.getD (N - 1) 0 by
      simp only [muStale]; rw [if_neg (by omega), if_neg (by omega)]; congr 1; omega]
    refine ⟨rfl, rfl, rfl, rfl, ?_, ?_, ?_⟩
    · intro s _ t _; simp [fill, Mpo.blk, eyeK]
    · rw [all2]; refine ⟨?_, ?_⟩ <;> (intro s _ t _; simp [fill, Mpo.blk, hopX])
    · intro s _ t _; simp [fill, Mpo.blk, hopX]
  · intro s t hs ht
    rw [hop_ham' d (2 * N) (fun n => uniLoc d (muStale mu N n) g mass dx) _ hs ht, llEl]
    congr 1
    · exact sum_congr rfl fun n hn => llLoc_at hs ht (mem_range.mp hn)
    · refine sum_congr rfl fun n _ => ?_
      rw [e]; ring

/-- **C96.** The last site of the first cell does not carry its own chemical potential: with `mu=[0,0,1]` a particle there has the energy
`1/2` instead of `1/2+1/2`. -/
theorem C96_violated_unitcell :
    ∃ Wl Wr, uniLL [0, 0, 1] 0 1 3 1 2 = .ok (Wl, Wr) ∧
      mchain (Wl ++ Wr) [0, 0, 1, 0, 0, 0] [0, 0, 1, 0, 0, 0] 0 0 = 1 / 2 := by
  obtain ⟨Wl, Wr, h, -, -, r⟩ := C96_unitcell [0, 0, 1] 0 1 1 3 2 le_rfl (by simp) one_ne_zero one_ne_zero
  refine ⟨Wl, Wr, h, ?_⟩
  rw [r.el _ _ (by simp [Cf]) (by simp [Cf])]
  simp [llEl, sum_range_succ, muStale, hopEl, opEl, at1, at2, nord, eyeK, delta]

/-- **C96.** With two sites per cell the value of `n` is left over from the construction of the operators: `cutoff=3` reads `mu[2]`. -/
theorem C96_unitcell_short (g mass dx m0 m1 : ℂ) (hm : mass ≠ 0) (hdx : dx ≠ 0) :
    uniLL [m0, m1] g mass 2 dx 3 = .error .index := by
  have hz : ¬ (0 : ℂ) ∈ [mass, dx] := by simp [hm.symm, hdx.symm]
  simp [uniLL, hm, hdx, hm.symm, hdx.symm, getE, staleN, buildE, bind, Except.bind]

/-- **C96.** `projectedUnitcellExLiebLinigermpo`: the two returned lists form an open chain of two cells, every site with its own
chemical potential. -/
theorem C96_proj_unitcell (mu : List ℂ) (g mass dx : ℂ) (N : ℕ) (hN : 2 ≤ N) (hmu : N ≤ mu.length) (hm : mass ≠ 0) (hdx : dx ≠ 0) :
    ∃ Wl Wr, projUniLL mu g mass N dx = .ok (Wl, Wr) ∧ Wl.length = N ∧ Wr.length = N ∧ Represents 2 (2 * N) (Wl ++ Wr) (llEl 2 (2 * N)
      (fun n => mu.getD (n % N) 0) (fun _ => 0) (fun _ => g / dx) (fun _ => 1 / (2 * mass * dx ^ 2))
      (fun n => 1 / (2 * mass * dx ^ 2))) := by
  have hz : ¬ (0 : ℂ) ∈ [mass, dx] := by simp [hm.symm, hdx.symm]
  have hb : buildE (fun n => do
      let m ← getE mu n
      return fill (Mpo.zeros 7 7 2) (projCol 2 (oneMinus 2 (bN 2)) (bN 2) (bN 2) ++ projRow 2 ((bN 2).smul' (m / 1))
        ((oneMinus 2 (bN 2)).smul' (1 / (2 * mass * dx ^ 2))) (1 / (2 * mass * dx ^ 2)) (g * 1 / (1 * dx)) 6)) (List.range' 1 (N - 2))
      = .ok ((List.range' 1 (N - 2)).map fun n => fill (Mpo.zeros 7 7 2) (projCol 2 (oneMinus 2 (bN 2)) (bN 2) (bN 2) ++
        projRow 2 ((bN 2).smul' (mu.getD n 0 / 1))
        ((oneMinus 2 (bN 2)).smul' (1 / (2 * mass * dx ^ 2))) (1 / (2 * mass * dx ^ 2)) (g * 1 / (1 * dx)) 6)) :=
    buildE_ok (by
      intro n hn
      simp only [List.mem_range'_1] at hn
      simp only [getE_getD (show n < mu.length by omega), bind, Except.bind, pure, Except.pure])
  simp only [projUniLL, if_neg hz, getE_getD (show 0 < mu.length by omega),
    getLast', if_neg (show N ≠ 0 by omega), getE_getD (show N - 1 < mu.length by omega)]
  simp only [bind, Except.bind, pure, Except.pure] at hb ⊢
  simp only [hb]
  refine ⟨_, _, rfl, by simp; omega, by simp; omega, ?_⟩
  rw [two_cells hN]
  refine NNForm.represents (nnForm_of (K := 5) (d := 2) (X := fun n => pX 2 ((bN 2).smul' (mu.getD (n % N) 0 / 1))
    ((bN 2).smul' (1 / (2 * mass * dx ^ 2))) ((oneMinus 2 (bN 2)).smul' (1 / (2 * mass * dx ^ 2))) (oneMinus 2 (bN 2)) (bN 2) (bN 2)
    (1 / (2 * mass * dx ^ 2)) (g * 1 / (1 * dx))) (by omega) ?_ ?_ ?_) ?_
  · simp only [Nat.zero_mod]
    exact p_first _ _ _ _ _ _ _ _
  · intro n h0 h1
    by_cases c1 : n + 1 < N
    · rw [if_pos c1, Nat.mod_eq_of_lt (show n < N by omega)]
      exact p_bulk _ _ _ _ _ _ _ _
    · rw [if_neg c1]
      by_cases c2 : n + 1 = N
      · rw [if_pos c2, Nat.mod_eq_of_lt (show n < N by omega), show n = N - 1 by omega]
        exact p_bulk _ _ _ _ _ _ _ _
      · rw [if_neg c2]
        by_cases c3 : n = N
        · rw [if_pos c3, c3, Nat.mod_self]
          exact p_bulk _ _ _ _ _ _ _ _
        · rw [if_neg c3, Nat.mod_eq_sub_mod (show n ≥ N by omega), Nat.mod_eq_of_lt (show n - N < N by omega)]
          exact p_bulk _ _ _ _ _ _ _ _
  · rw [show (2 * N - 1) % N = N - 1 by
      rw [Nat.mod_eq_sub_mod (show 2 * N - 1 ≥ N by omega), Nat.mod_eq_of_lt (by omega)]; omega]
    exact p_last _ _ _ _ _ _ _ _ _
  · intro s t hs ht
    rw [hamEl, llEl]
    congr 1
    · refine sum_congr rfl fun n hn => ?_
      simp only [pX]
      rw [at1_same hs ht (mem_range.mp hn) (same_N 2)]; ring
    · refine sum_congr rfl fun n hn => ?_
      have hn' : n + 2 ≤ 2 * N := by have := mem_range.mp hn; omega
      simp only [sum_range_succ, sum_range_zero, zero_add, pX, List.getD_cons_zero, List.getD_cons_succ]
      rw [at2_same hs ht hn' (same_N 2) same_P2, at2_same hs ht hn' same_P2 (same_N 2), at2_same hs ht hn' (same_N 2) (same_N 2)]
      have := hop_term (J := 1 / (2 * mass * dx ^ 2)) hs ht hn'
      linear_combination this

/-! ## Non-uniform grids -/

/-- `Σ_n [α_n n̂_n + β_{n+1} n̂_{n+1} + (n̂_n P_{n+1}/δ_n + P_n n̂_{n+1}/δ_{n+1} - (a†_n a_{n+1} + h.c.)/√(δ_n δ_{n+1}))/(2 m τ_n)
+ g τ_n n̂_n n̂_{n+1}/(δ_n δ_{n+1})]` over the bonds of an open chain. -/
def gridEl (N : ℕ) (α β : ℕ → ℂ) (τ δ : ℕ → ℝ) (mass g : ℂ) (s t : List ℕ) : ℂ :=
  ∑ n ∈ range (N - 1), (α n * opEl (at1 2 N n (nord 2 1 1)) s t + β (n + 1) * opEl (at1 2 N (n + 1) (nord 2 1 1)) s t +
    1 / (2 * mass * τ n) * (opEl (at2 2 N n (nord 2 1 1) (vac 2)) s t / δ n + opEl (at2 2 N n (vac 2) (nord 2 1 1)) s t / δ (n + 1) -
      hopEl 2 N n s t / (Real.sqrt (δ n * δ (n + 1)) : ℝ)) +
    g * τ n / (δ n * δ (n + 1)) * opEl (at2 2 N n (nord 2 1 1) (nord 2 1 1)) s t)

/-- Local data of `projectedLiebLinigermpo3`. -/
def gX (mass g : ℂ) (τ δ : ℝ) (a b : ℂ) : Loc :=
  ⟨(bN 2).smul' 0, fun k => [(bN 2).smul' (1 / (2 * mass * τ) / δ), (oneMinus 2 (bN 2)).smul' (1 / (2 * mass * τ)),
   (bC 2).smul' (-1 / (2 * mass * τ) / (Real.sqrt δ : ℝ)), (bD 2).smul' (-1 / (2 * mass * τ) / (Real.sqrt δ : ℝ)),
   (bN 2).smul' (g * τ / δ), eyeK ℂ 2, (bN 2).smul' a].getD k (eyeK ℂ 2),
   fun k => [oneMinus 2 (bN 2), (bN 2).smul' (1 / δ), (bD 2).smul' (1 / (Real.sqrt δ : ℝ)),
   (bC 2).smul' (1 / (Real.sqrt δ : ℝ)), (bN 2).smul' (1 / δ), (bN 2).smul' b, eyeK ℂ 2].getD k (eyeK ℂ 2)⟩

theorem all7 {P : ℕ → Prop} : (∀ s < 7, P s) ↔ P 0 ∧ P 1 ∧ P 2 ∧ P 3 ∧ P 4 ∧ P 5 ∧ P 6 :=
  ⟨fun h => ⟨h 0 (by omega), h 1 (by omega), h 2 (by omega), h 3 (by omega), h 4 (by omega), h 5 (by omega), h 6 (by omega)⟩,
    fun h s hs => by
      interval_cases s
      exacts [h.1, h.2.1, h.2.2.1, h.2.2.2.1, h.2.2.2.2.1, h.2.2.2.2.2.1, h.2.2.2.2.2.2]⟩

theorem g_first (mass g : ℂ) (τ δ : ℝ) (a b : ℂ) :
    NNFirst 2 7 (fill (Mpo.zeros 1 9 2) (gridRow mass g τ δ a 0)) (gX mass g τ δ a b) := by
  refine ⟨rfl, rfl, rfl, rfl, ?_, ?_, ?_⟩
  · intro s _ t _; simp [fill, Mpo.blk, gX, gridRow, Mpo.zeros, Mat.smul']
  · rw [all7]; refine ⟨?_, ?_, ?_, ?_, ?_, ?_, ?_⟩ <;> (intro s _ t _; simp [fill, Mpo.blk, gX, gridRow])
  · intro s _ t _; simp [fill, Mpo.blk, eyeK, gridRow]

theorem g_last (mass g : ℂ) (τ δ : ℝ) (a b : ℂ) :
    NNLast 2 7 (fill (Mpo.zeros 9 1 2) (gridCol δ b)) (gX mass g τ δ a b) := by
  refine ⟨rfl, rfl, rfl, rfl, ?_, ?_, ?_⟩
  · intro s _ t _; simp [fill, Mpo.blk, eyeK, gridCol]
  · rw [all7]; refine ⟨?_, ?_, ?_, ?_, ?_, ?_, ?_⟩ <;> (intro s _ t _; simp [fill, Mpo.blk, gX, gridCol])
  · intro s _ t _; simp [fill, Mpo.blk, gX, gridCol, Mpo.zeros, Mat.smul']

theorem g_bulk (mass g : ℂ) (τ δ : ℝ) (a b : ℂ) :
    NNBulk 2 7 (fill (Mpo.zeros 9 9 2) (gridCol δ b ++ gridRow mass g τ δ a 8)) (gX mass g τ δ a b) := by
  refine ⟨rfl, rfl, rfl, rfl, ?_, ?_, ?_, ?_, ?_, ?_⟩
  · intro s _ t _; simp [fill, Mpo.blk, eyeK, gridCol, gridRow]
  · rw [all7]; refine ⟨?_, ?_, ?_, ?_, ?_, ?_, ?_⟩ <;> (intro s _ t _; simp [fill, Mpo.blk, gX, gridCol, gridRow])
  · intro s _ t _; simp [fill, Mpo.blk, gX, gridCol, gridRow, Mpo.zeros, Mat.smul']
  · rw [all7]; refine ⟨?_, ?_, ?_, ?_, ?_, ?_, ?_⟩ <;> (intro s _ t _; simp [fill, Mpo.blk, gX, gridCol, gridRow])
  · intro s _ t _; simp [fill, Mpo.blk, eyeK, gridCol, gridRow]
  · intro b hb c hc s _ t _
    have h9 : b ≠ 8 := by omega
    simp [fill, Mpo.blk, Mpo.zeros, h9, gridCol, gridRow]

theorem grid_ham (N : ℕ) (mass g : ℂ) (τ δ : ℕ → ℝ) (a b : ℕ → ℂ) (hδ : ∀ n < N, 0 < δ n) {s t : List ℕ} (hs : Cf 2 N s) (ht : Cf 2 N t) :
    hamEl 2 7 N (fun n => gX mass g (τ n) (δ n) (a n) (b n)) s t = gridEl N a b τ δ mass g s t := by
  rw [hamEl, gridEl, sum_eq_zero (s := range N) fun n hn => by
    simp only [gX]; rw [at1_same hs ht (mem_range.mp hn) (same_N 2), zero_mul], zero_add]
  refine sum_congr rfl fun n hn => ?_
  have hn' : n + 2 ≤ N := by have := mem_range.mp hn; omega
  simp only [sum_range_succ, sum_range_zero, zero_add, gX, List.getD_cons_zero, List.getD_cons_succ]
  rw [at2_same hs ht hn' (same_N 2) same_P2, at2_eye_left, at2_eye_right hn', at1_same hs ht (by omega) (same_N 2),
    at1_same hs ht (by omega) (same_N 2),
    opEl_at2_smul (a := (oneMinus 2 (bN 2)).smul' (1 / (2 * mass * τ n))) (b := (bN 2).smul' (1 / δ (n + 1))) (a' := vac 2) (b' := nord 2 1 1)
      (c := 1 / (2 * mass * τ n) / δ (n + 1)) hs ht hn' (fun x hx x' hx' y hy y' hy' => by
        simp only [Mat.smul']; rw [same_P2 x hx x' hx', same_N 2 y hy y' hy']; ring),
    opEl_at2_smul (a := (bN 2).smul' (g * τ n / δ n)) (b := (bN 2).smul' (1 / δ (n + 1))) (a' := nord 2 1 1) (b' := nord 2 1 1)
      (c := g * τ n / (δ n * δ (n + 1))) hs ht hn' (fun x hx x' hx' y hy y' hy' => by
        simp only [Mat.smul']; rw [same_N 2 x hx x' hx', same_N 2 y hy y' hy', div_mul_eq_div_div]; ring),
    opEl_at2_smul (a := (bC 2).smul' (-1 / (2 * mass * τ n) / (Real.sqrt (δ n) : ℝ))) (b := (bD 2).smul' (1 / (Real.sqrt (δ (n + 1)) : ℝ)))
      (a' := nord 2 1 0) (b' := nord 2 0 1) (c := -1 / (2 * mass * τ n) / (Real.sqrt (δ n) : ℝ) / (Real.sqrt (δ (n + 1)) : ℝ)) hs ht hn'
      (fun x hx x' hx' y hy y' hy' => by
        simp only [Mat.smul']; rw [same_C 2 x hx x' hx', same_D 2 y hy y' hy']; ring),
    opEl_at2_smul (a := (bD 2).smul' (-1 / (2 * mass * τ n) / (Real.sqrt (δ n) : ℝ))) (b := (bC 2).smul' (1 / (Real.sqrt (δ (n + 1)) : ℝ)))
      (a' := nord 2 0 1) (b' := nord 2 1 0) (c := -1 / (2 * mass * τ n) / (Real.sqrt (δ n) : ℝ) / (Real.sqrt (δ (n + 1)) : ℝ)) hs ht hn'
      (fun x hx x' hx' y hy y' hy' => by
        simp only [Mat.smul']; rw [same_D 2 x hx x' hx', same_C 2 y hy y' hy']; ring)]
  rw [Real.sqrt_mul (hδ n (by omega)).le, Complex.ofReal_mul]
  simp only [hopEl, div_eq_mul_inv, mul_inv]
  ring

/-- Spacing of the midpoints of neighbouring cells; the last one belongs to the bond from the last site to the first one. -/
def midGrid (dx : List ℝ) (N n : ℕ) : ℝ := (dx.getD (if n + 1 < N then n + 1 else 0) 0 + dx.getD n 0) / 2

theorem getE_getR {l : List ℝ} {n : ℕ} (h : n < l.length) : getE l n = .ok (l.getD n 0) := by
  simp [getE, List.getElem?_eq_getElem h]

theorem getD_pos {l : List ℝ} (h : ∀ x ∈ l, 0 < x) {n : ℕ} (hn : n < l.length) : 0 < l.getD n 0 := by
  rw [List.getD_eq_getElem?_getD, List.getElem?_eq_getElem hn]
  exact h _ (List.getElem_mem hn)

theorem dxt_ok {dx : List ℝ} {N n : ℕ} (hn : n < N) (hd : N ≤ dx.length) : dxt dx N n = .ok (midGrid dx N n) := by
  simp only [dxt, midGrid]
  by_cases h : n + 1 < N
  · simp only [if_pos h, getE_getR (show n + 1 < dx.length by omega), getE_getR (show n < dx.length by omega), bind, Except.bind, pure,
      Except.pure]
  · simp only [if_neg h, if_pos (show n + 1 = N by omega), getE_getR (show 0 < dx.length by omega),
      getE_getR (show n < dx.length by omega), bind, Except.bind, pure, Except.pure]

theorem midGrid_pos {dx : List ℝ} {N n : ℕ} (hp : ∀ x ∈ dx, 0 < x) (hn : n < N) (hd : N ≤ dx.length) : 0 < midGrid dx N n := by
  have h1 := getD_pos hp (show n < dx.length by omega)
  have h2 : 0 < dx.getD (if n + 1 < N then n + 1 else 0) 0 := getD_pos hp (by split_ifs <;> omega)
  simp only [midGrid]; linarith

theorem okTen_ok {mass : ℂ} {ds : List ℝ} {W : Mpo ℂ} (hm : mass ≠ 0) (h : ∀ x ∈ ds, 0 < x) : okTen mass ds W = .ok W := by
  rw [okTen, if_neg]
  rintro (h1 | ⟨x, hx, h2⟩)
  · exact hm h1
  · exact absurd (h x hx) (not_lt.mpr h2)

/-- **C96.** `projectedLiebLinigermpo3(mu,interact,mass,dx,obc=False)` on any grid: every bond has the spacing of the midpoints and every
site its own spacing and chemical potential. -/
theorem C96_grid (mu : List ℂ) (g mass : ℂ) (dx : List ℝ) (hN : 1 ≤ mu.length) (hd : mu.length ≤ dx.length) (hm : mass ≠ 0)
    (hp : ∀ x ∈ dx, 0 < x) :
    ∃ Ws, projLL3 mu g mass dx false = .ok Ws ∧ Unclosed 2 mu.length 9 Ws (gridEl mu.length (fun n => mu.getD n 0 / 2)
      (fun n => mu.getD n 0 / 2) (midGrid dx mu.length) (fun n => dx.getD n 0) mass g) := by
  let G : ℕ → Mpo ℂ := fun n => fill (Mpo.zeros 9 9 2) (gridCol (dx.getD n 0) (mu.getD n 0 / 2) ++
      gridRow mass g (midGrid dx mu.length n) (dx.getD n 0) (mu.getD n 0 / 2) 8)
  let X : ℕ → Loc := fun n => gX mass g (midGrid dx mu.length n) (dx.getD n 0) (mu.getD n 0 / 2) (mu.getD n 0 / 2)
  refine ⟨(List.range mu.length).map G, ?_, by simp, ?_, ?_⟩
  · simp only [projLL3, Bool.false_eq_true, if_false]
    rw [buildE_ok (g := G)]
    intro n hn
    have hn := List.mem_range.mp hn
    simp only [dxt_ok hn hd, getE_getR (show n < dx.length by omega), getE_getD hn, bind, Except.bind]
    rw [okTen_ok hm]
    intro x hx
    simp only [List.mem_cons, List.not_mem_nil, or_false] at hx
    rcases hx with rfl | rfl
    · exact midGrid_pos hp hn hd
    · exact getD_pos hp (by omega)
  · intro W hW
    obtain ⟨n, -, rfl⟩ := List.mem_map.mp hW
    exact ⟨rfl, rfl, rfl, rfl⟩
  · intro s t hs ht
    obtain ⟨m, hm'⟩ : ∃ m, mu.length = m + 1 := ⟨mu.length - 1, by omega⟩
    have := (stretch_env (d := 2) (K := 7) (X := X) (g := G) m 0 (fun n _ _ => g_bulk _ _ _ _ _ _) s t (hm' ▸ hs) (hm' ▸ ht)).2.2
    rw [hamRec_eq 2 7 _ m 0 s t (hm' ▸ hs).1 (hm' ▸ ht).1] at this
    rw [List.range_eq_range', hm', show 9 - 1 = 7 + 1 from rfl, this, ← hm']
    simp only [zero_add]
    exact grid_ham mu.length mass g (midGrid dx mu.length) (fun n => dx.getD n 0) _ _ (fun n hn => getD_pos hp (by omega)) hs ht

/-- The spacings and halves of the chemical potentials that `projectedLiebLinigermpo3(…,obc=True)` uses. -/
def obcTau (dx : List ℝ) (N n : ℕ) : ℝ := if n = 0 then midGrid dx N 1 else dx.getD n 0
@[inherit_doc obcTau] def obcDelta (dx : List ℝ) (N n : ℕ) : ℝ :=
  if n + 1 = N then dx.getD (if 3 ≤ N then N - 2 else 1) 0 else dx.getD n 0
@[inherit_doc obcTau] def obcA (mu : List ℂ) (dx : List ℝ) (n : ℕ) : ℂ :=
  if n = 0 then mu.getD 0 0 / 2 * (midGrid dx mu.length 1 : ℝ) / (dx.getD 1 0 : ℝ) else mu.getD n 0 / 2
@[inherit_doc obcTau] def obcB (mu : List ℂ) (dx : List ℝ) (n : ℕ) : ℂ :=
  if n + 1 = mu.length then mu.getD n 0 / 2 * (dx.getD n 0 : ℝ) / (obcDelta dx mu.length n : ℝ) else mu.getD n 0 / 2

/-- **C96.** `projectedLiebLinigermpo3(mu,interact,mass,dx,obc=True)`: what the code builds. -/
theorem C96_grid_obc (mu : List ℂ) (g mass : ℂ) (dx : List ℝ) (hN : 2 ≤ mu.length) (hd : mu.length ≤ dx.length) (hm : mass ≠ 0)
    (hp : ∀ x ∈ dx, 0 < x) :
    ∃ Ws, projLL3 mu g mass dx true = .ok Ws ∧ Represents 2 mu.length Ws (gridEl mu.length (obcA mu dx) (obcB mu dx)
      (obcTau dx mu.length) (obcDelta dx mu.length) mass g) := by
  have hδ : ∀ n < mu.length, 0 < obcDelta dx mu.length n := by
    intro n hn
    simp only [obcDelta]
    split_ifs
    · exact getD_pos hp (by omega)
    · exact getD_pos hp (by omega)
    · exact getD_pos hp (by omega)
  refine ⟨_, ?_, NNForm.represents (nnForm_of (K := 7) (d := 2)
    (X := fun n => gX mass g (obcTau dx mu.length n) (obcDelta dx mu.length n) (obcA mu dx n) (obcB mu dx n))
    (g := fun n => fill (Mpo.zeros 9 9 2) (gridCol (dx.getD n 0) (mu.getD n 0 / 2) ++
      gridRow mass g (dx.getD n 0) (dx.getD n 0) (mu.getD n 0 / 2 * (dx.getD n 0 : ℝ) / (dx.getD n 0 : ℝ)) 8)) hN
    (g_first _ _ _ _ _ _) ?_ (g_last _ _ _ _ _ _)) ?_⟩
  · simp only [projLL3, if_true]
    rw [openMpo_ok]
    · simp only [dxt_ok (show 1 < mu.length by omega) hd, getE_getR (show 0 < dx.length by omega), getE_getD (show 0 < mu.length by omega),
        getE_getR (show 1 < dx.length by omega), bind, Except.bind]
      rw [okTen_ok hm]
      · simp only [obcTau, obcDelta, obcA, if_true, if_neg (show ¬ 0 + 1 = mu.length by omega)]
      · intro x hx
        simp only [List.mem_cons, List.not_mem_nil, or_false] at hx
        rcases hx with rfl | rfl | rfl
        · exact midGrid_pos hp (by omega) hd
        · exact getD_pos hp (by omega)
        · exact getD_pos hp (by omega)
    · intro n h0 h1
      simp only [getE_getR (show n < dx.length by omega), getE_getD (show n < mu.length by omega), bind, Except.bind]
      rw [okTen_ok hm]
      intro x hx
      simp only [List.mem_cons, List.not_mem_nil, or_false] at hx
      subst hx
      exact getD_pos hp (by omega)
    · simp only [getE_getR (show mu.length - 1 < dx.length by omega), getE_getD (show mu.length - 1 < mu.length by omega),
        getE_getR (show (if 3 ≤ mu.length then mu.length - 2 else 1) < dx.length by split_ifs <;> omega), bind, Except.bind]
      rw [okTen_ok hm]
      · simp only [obcDelta, obcB, if_pos (show mu.length - 1 + 1 = mu.length by omega)]
      · intro x hx
        simp only [List.mem_cons, List.not_mem_nil, or_false] at hx
        rcases hx with rfl | rfl
        · exact getD_pos hp (by omega)
        · exact getD_pos hp (by split_ifs <;> omega)
  · intro n h0 h1
    have hx : ((dx.getD n 0 : ℝ) : ℂ) ≠ 0 := by
      have := getD_pos hp (show n < dx.length by omega)
      exact_mod_cast this.ne'
    rw [show obcTau dx mu.length n = dx.getD n 0 from if_neg (by omega), show obcDelta dx mu.length n = dx.getD n 0 from if_neg (by omega),
      show obcA mu dx n = mu.getD n 0 / 2 from if_neg (by omega), show obcB mu dx n = mu.getD n 0 / 2 from if_neg (by omega),
      mul_div_cancel_right₀ _ hx]
    exact g_bulk _ _ _ _ _ _
  · intro s t hs ht
    exact grid_ham mu.length mass g _ _ _ _ hδ hs ht

/-- **C96.** On a uniform grid both boundary conditions give the same operator. -/
theorem C96_uniform (mu : List ℂ) (g mass : ℂ) (h : ℝ) (hN : 2 ≤ mu.length) (hm : mass ≠ 0) (hp : 0 < h) :
    ∃ Ws Vs, projLL3 mu g mass (List.replicate mu.length h) true = .ok Ws ∧ projLL3 mu g mass (List.replicate mu.length h) false = .ok Vs ∧
      ∀ s t, Cf 2 mu.length s → Cf 2 mu.length t → mchain Ws s t 0 0 = mchain Vs s t 8 0 := by
  have hp' : ∀ x ∈ List.replicate mu.length h, 0 < x := fun x hx => by rw [List.eq_of_mem_replicate hx]; exact hp
  obtain ⟨Ws, h1, r1⟩ := C96_grid_obc mu g mass (List.replicate mu.length h) hN (by simp) hm hp'
  obtain ⟨Vs, h2, r2⟩ := C96_grid mu g mass (List.replicate mu.length h) (by omega) (by simp) hm hp'
  refine ⟨Ws, Vs, h1, h2, fun s t hs ht => ?_⟩
  rw [r1.el s t hs ht, show mchain Vs s t 8 0 = _ from r2.el s t hs ht]
  have hg : ∀ n < mu.length, (List.replicate mu.length h).getD n 0 = h := fun n hn => by
    simp [List.getD_eq_getElem?_getD, hn]
  have hmid : ∀ n < mu.length, midGrid (List.replicate mu.length h) mu.length n = h := fun n hn => by
    simp only [midGrid]
    rw [hg n hn, hg _ (by split_ifs <;> omega)]; ring
  have hh : (h : ℂ) ≠ 0 := by exact_mod_cast hp.ne'
  have hD : ∀ n < mu.length, obcDelta (List.replicate mu.length h) mu.length n = h := fun n hn => by
    simp only [obcDelta]
    split_ifs
    · exact hg _ (by omega)
    · exact hg _ (by omega)
    · exact hg _ hn
  simp only [gridEl]
  refine sum_congr rfl fun n hn => ?_
  have hn := mem_range.mp hn
  have a1 : obcTau (List.replicate mu.length h) mu.length n = h := by
    simp only [obcTau]
    split_ifs
    · exact hmid 1 (by omega)
    · exact hg n (by omega)
  have a2 : obcA mu (List.replicate mu.length h) n = mu.getD n 0 / 2 := by
    simp only [obcA]
    split_ifs with h0
    · rw [hmid 1 (by omega), hg 1 (by omega), h0, mul_div_cancel_right₀ _ hh]
    · rfl
  have a3 : obcB mu (List.replicate mu.length h) (n + 1) = mu.getD (n + 1) 0 / 2 := by
    simp only [obcB]
    split_ifs with h0
    · rw [hD _ (by omega), hg _ (by omega), mul_div_cancel_right₀ _ hh]
    · rfl
  rw [a1, a2, a3, hD n (by omega), hD (n + 1) (by omega), hmid n (by omega), hg n (by omega), hg (n + 1) (by omega)]

/-- **C96.** On other grids the two boundary conditions give different operators in the bulk: on the grid `[1,1,4]` the first bond has the
spacing `5/2` of the second one. -/
theorem C96_violated_grid :
    ∃ Ws Vs, projLL3 [0, 0, 0] 0 (1 / 2) [1, 1, 4] true = .ok Ws ∧ projLL3 [0, 0, 0] 0 (1 / 2) [1, 1, 4] false = .ok Vs ∧
      mchain Ws [1, 0, 0] [1, 0, 0] 0 0 = 2 / 5 ∧ mchain Vs [1, 0, 0] [1, 0, 0] 8 0 = 1 := by
  have hp : ∀ x ∈ ([1, 1, 4] : List ℝ), 0 < x := by
    intro x hx; simp at hx; rcases hx with rfl | rfl <;> norm_num
  obtain ⟨Ws, h1, r1⟩ := C96_grid_obc [0, 0, 0] 0 (1 / 2) [1, 1, 4] (by simp) (by simp) (by norm_num) hp
  obtain ⟨Vs, h2, r2⟩ := C96_grid [0, 0, 0] 0 (1 / 2) [1, 1, 4] (by simp) (by simp) (by norm_num) hp
  refine ⟨Ws, Vs, h1, h2, ?_, ?_⟩
  · rw [r1.el _ _ (by simp [Cf]) (by simp [Cf])]
    simp [gridEl, sum_range_succ, obcA, obcB, obcTau, obcDelta, midGrid, hopEl, opEl, at1, at2, nord, vac, eyeK, delta]
    norm_num
  · rw [show mchain Vs [1, 0, 0] [1, 0, 0] 8 0 = _ from r2.el _ _ (by simp [Cf]) (by simp [Cf])]
    simp [gridEl, sum_range_succ, midGrid, hopEl, opEl, at1, at2, nord, vac, eyeK, delta]
    norm_num

/-- **C96.** One site: `dxtilde` is used without having been assigned. -/
theorem C96_one_site (m g mass : ℂ) (dx : List ℝ) : projLL3 [m] g mass dx true = .error .unbound := rfl

/-- An instance of the hypotheses. -/
example : ∃ Wl Wr, projUniLL [1, 2, 3] 2 (1 / 2) 3 (1 / 10) = .ok (Wl, Wr) ∧ Wl.length = 3 :=
  let ⟨Wl, Wr, h, l, _⟩ := C96_proj_unitcell [1, 2, 3] 2 (1 / 2) (1 / 10) 3 (by norm_num) (by simp) (by norm_num) (by norm_num)
  ⟨Wl, Wr, h, l⟩

end

end PyTeN.Boson
