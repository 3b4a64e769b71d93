import Verif.Props.Gates
import Verif.Props.Schmidt
import Verif.Mps.RegaugeAlg

/-! # The truncation of `applyTwoSiteGate` is the best one (C23) -/

namespace PyTeN
open Finset

noncomputable section

namespace GateBest

/-- The isometry which joins the left bond and a site into one index. -/
def joinL (L a : ℕ) : Ten ℂ := ⟨L, L * a, a, fun i p x => delta ℂ p (i * a + x)⟩

/-- The isometry which joins a site and the right bond into one index. -/
def joinR (b R : ℕ) : Ten ℂ := ⟨b * R, R, b, fun q j y => delta ℂ q (y * R + j)⟩

theorem joinL_orth (L a : ℕ) : LeftOrth (joinL L a) := by
  intro j hj j' hj'
  change j < L * a at hj
  change ∑ s ∈ range a, ∑ i ∈ range L, star (delta ℂ j (i * a + s)) * delta ℂ j' (i * a + s) = _
  rw [← sum_range_mul' L a (fun p => star (delta ℂ j p) * delta ℂ j' p), sum_eq_single j]
  · simp [delta, eq_comm]
  · intro p _ hp; simp [delta, Ne.symm hp]
  · intro h; exact absurd (mem_range.mpr hj) h

theorem joinR_orth (b R : ℕ) : RightOrth (joinR b R) := by
  intro j hj j' hj'
  change j < b * R at hj
  change ∑ s ∈ range b, ∑ i ∈ range R, delta ℂ j (s * R + i) * star (delta ℂ j' (s * R + i)) = _
  rw [← sum_range_mul b R (fun p => delta ℂ j p * star (delta ℂ j' p)), sum_eq_single j]
  · simp [delta, eq_comm]
  · intro p _ hp; simp [delta, Ne.symm hp]
  · intro h; exact absurd (mem_range.mpr hj) h

end GateBest

open GateBest in
/-- **C23**, the truncation is the best one: on an open chain in canonical form, with the wave function after the
exact gate called `φ`, the returned weight `tw` is, times the squared norm of the state before the gate, the smallest
squared distance from `φ` to any sum of `k` products across the bond of the gate.  The returned object is such a sum,
and a multiple of it attains the distance. -/
theorem C23_best {O : LinAlg} (hO : O.Spec) {m p : MPS} {n : ℕ} {g : Gate2}
    {D : ℕ} {th tw : ℝ} {k : ℕ} (hw : m.WF 1 1) (hs : m.sth < 1e-15) (hn : n + 1 < m.N) (hc : m.Canonical)
    (h : m.applyTwoSiteGate O g n (some D) th = .ok (tw, k, p)) :
    RankDist p.ds (n + 1) k (act2 n g.a g.b g.v (fun s => m.amp s 0 0)) (m.normSq 1 1 * tw) ∧
    (∃ L R : ℕ → List ℕ → ℂ, ∀ s, p.amp s 0 0 = ∑ κ ∈ range k, L κ (s.take (n + 1)) * R κ (s.drop (n + 1))) ∧
    ∃ z : ℝ, sumCfg p.ds (fun s => Complex.normSq
      (act2 n g.a g.b g.v (fun s => m.amp s 0 0) s - z * p.amp s 0 0)) = m.normSq 1 1 * tw := by
  have hT := C23_applyTwoSiteGate_truncation hO hw hs hn h
  have hG := applyTwoSiteGate_ok hO hw hs hn h
  obtain ⟨m1, A, B, L, R, M, U, S, V, z, hM, hcan, hA, hLA, hRB, hMr, hMc, hsv, hk, htw, hz, hzp,
    ⟨t, w, hpt, htd, hwd, htl, htr, hwl, hwr, htO, hwO⟩, ⟨dA, dB, hds, hdA, hdB⟩, hmr, hmc, hmn, hpos, hN,
    hZ, hdiag, hamp⟩ := hG.blocks
  obtain ⟨hc1, hlO, hrO⟩ := hcan hc
  have hpds : p.ds = A.map Ten.d ++ g.a' :: g.b' :: B.map Ten.d := by
    unfold MPS.ds; rw [hpt]; simp [htd, hwd]
  have hmZ : m.normSq 1 1 = Complex.normSq p.Z := by
    rw [hZ, ← canonical_normSq hM.wf hc1]
    unfold MPS.normSq
    rw [hM.ds]
    apply sumCfg_congr; intro s hcfg
    apply sum_congr rfl; intro i hi
    apply sum_congr rfl; intro j _
    rw [hM.amp s (cfg_iff_map.mpr hcfg) i (mem_range.mp hi) j]
  refine ⟨?_, ?_, ?_⟩
  · let F : MPS := { p with N := (A ++ joinL L g.a' :: joinR g.b' R :: B).length
                            tensors := A ++ joinL L g.a' :: joinR g.b' R :: B
                            mat := M, pos := n + 1 }
    have e1 : F.tensors.take F.pos = A ++ [joinL L g.a'] := take_mid A _ _ hA
    have e2 : F.tensors.drop F.pos = joinR g.b' R :: B := drop_mid A _ _ hA
    have hFw : F.WF 1 1 := by
      refine ⟨rfl, ?_, ?_, ?_⟩
      · change n + 1 ≤ (A ++ joinL L g.a' :: joinR g.b' R :: B).length
        simp [hA]
      · rw [e1, Regauge.linked_append_iff]
        exact ⟨L, hLA, rfl, hMr.symm⟩
      · rw [e2]
        exact ⟨hMc.symm, hRB⟩
    have hFl : ∀ t ∈ F.tensors.take F.pos, LeftOrth t := by
      rw [e1]
      intro t ht
      rcases List.mem_append.mp ht with h1 | h1
      · exact hlO t h1
      · rw [List.mem_singleton.mp h1]; exact joinL_orth _ _
    have hFr : ∀ t ∈ F.tensors.drop F.pos, RightOrth t := by
      rw [e2]
      intro t ht
      rcases List.mem_cons.mp ht with h1 | h1
      · rw [h1]; exact joinR_orth _ _
      · exact hrO t h1
    have hFds : F.ds = p.ds := by
      rw [hpds]
      change (A ++ joinL L g.a' :: joinR g.b' R :: B).map Ten.d = _
      simp [joinL, joinR]
    have hFa : ∀ s, Conf p.ds s → act2 n g.a g.b g.v (fun s => m.amp s 0 0) s = F.amp s 0 0 := by
      intro s hsc
      have hcfg : Cfg (A ++ t :: w :: B) s := by rw [← hpt]; exact cfg_iff_map.mpr hsc
      obtain ⟨sA, x, sB', rfl, hl, hcA, hx, hcB'⟩ := cfg_split_at hcfg
      rw [htd] at hx
      cases hcB' with
      | cons hy hcB =>
          rename_i y sB
          rw [hwd] at hy
          rw [(hamp sA x y sB hcA hx hy hcB 0 (by norm_num) 0).1]
          rw [amp_eq_split, e1, e2]
          have e3 : (sA ++ x :: y :: sB).take F.pos = sA ++ [x] := take_mid sA _ _ (hl.trans hA)
          have e4 : (sA ++ x :: y :: sB).drop F.pos = y :: sB := drop_mid sA _ _ (hl.trans hA)
          rw [e3, e4, split_block (l := 1) (t := joinL L g.a') hLA hMr.symm hl x y sB (by norm_num) 0]
          change _ = p.Z * _
          congr 1
          apply block_congr; intro a ha b hb
          change a < L at ha
          change b < R at hb
          change _ = ∑ k ∈ range M.r, ∑ k' ∈ range M.c, delta ℂ k (a * g.a' + x) * M.v k k' * delta ℂ k' (y * R + b)
          rw [sum_eq_single (a * g.a' + x), sum_eq_single (y * R + b)]
          · simp [delta]
          · intro q _ hq; simp [delta, hq]
          · intro hq; exact absurd (mem_range.mpr (by rw [hMc]; exact idx_lt hy hb)) hq
          · intro q _ hq; simp [delta, hq]
          · intro hq; exact absurd (mem_range.mpr (by rw [hMr]; exact idx_lt ha hx)) hq
    have hb := ortho_bip hFw hFl hFr hsv k
    rw [hFds] at hb
    refine RankDist.congr (ψ := fun s => F.amp s 0 0) ?_ hFa
    rw [hmZ, htw]
    refine ⟨hb.2, ?_⟩
    rintro x ⟨L, R, rfl⟩
    exact hb.1 L R
  · refine ⟨fun κ s => p.Z * chain (p.tensors.take p.pos) s 0 κ,
      fun κ s => ∑ k' ∈ range p.mat.c, p.mat.v κ k' * chain (p.tensors.drop p.pos) s k' 0, fun s => ?_⟩
    unfold MPS.amp
    rw [hmr, mul_sum, hpos]
    refine sum_congr rfl fun κ _ => ?_
    rw [mul_sum, mul_sum]
    exact sum_congr rfl fun k' _ => by ring
  · obtain ⟨-, -, -, -, -, S', z', -, -, -, -, -, -, -, h8⟩ := hT
    refine ⟨z', ?_⟩
    have := (h8 hc).2.2
    unfold distSq at this
    simpa only [sum_range_one] using this

/-- C23_best applies to the entangled state `ghz` after a full sweep, with a swap of the first two sites and one kept
value: no product state across that bond is closer to the swapped state. -/
example : ∃ O : LinAlg, O.Spec ∧ ∃ m tw k p, ghz.positions O [0, 3, 1] = .ok m ∧
    m.applyTwoSiteGate O swapGate 0 (some 1) 0 = .ok (tw, k, p) ∧ k ≤ 1 ∧
    RankDist p.ds 1 k (act2 0 2 2 swapGate.v (fun s => m.amp s 0 0)) (m.normSq 1 1 * tw) := by
  obtain ⟨O, hO, m, hm, hw, hs, hc, ho, hds, hN, hb0, ha⟩ := ghz_canonical
  have h0 := ha 0 (by norm_num) 0 (by norm_num) 0 (by norm_num)
  have hn : 0 + 1 < m.N := by rw [hN]; norm_num
  obtain ⟨tw, k, p, h⟩ := C22_applyTwoSiteGate_succeeds hO (n := 0) (g := swapGate) 1 hw hs hn
    (by rw [hds]; rfl) (by rw [hds]; rfl) le_rfl h0.1 (i := 0) (j := 0) (by norm_num) (by rw [h0.2]; norm_num)
  exact ⟨O, hO, m, tw, k, p, hm, by simpa using h, (C23_applyTwoSiteGate_truncation hO hw hs hn h).1, (C23_best hO hw hs hn hc h).1⟩

end

end PyTeN
