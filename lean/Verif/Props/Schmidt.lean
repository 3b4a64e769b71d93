import Verif.Mps.Schmidt
import Verif.Props.Measure

/-! # The Schmidt values returned by `getSchmidt` (C105) -/

namespace PyTeN
open Finset

noncomputable section

/-- Spec: `w` is the smallest squared distance between `ψ` and the wave functions which are sums of `D`
products across bond `n`. -/
def RankDist (ds : List ℕ) (n D : ℕ) (ψ : List ℕ → ℂ) (w : ℝ) : Prop :=
  IsLeast {x : ℝ | ∃ L R : ℕ → List ℕ → ℂ, x = sumCfg ds (fun t =>
    Complex.normSq (ψ t - ∑ κ ∈ range D, L κ (t.take n) * R κ (t.drop n)))} w

theorem RankDist.scale {ds : List ℕ} {n D : ℕ} {ψ φ : List ℕ → ℂ} {w : ℝ} {c : ℂ} (hc : c ≠ 0) (h : RankDist ds n D ψ w)
    (hφ : ∀ s, Conf ds s → φ s = c * ψ s) : RankDist ds n D φ (Complex.normSq c * w) := by
  have e : ∀ L R : ℕ → List ℕ → ℂ, sumCfg ds (fun t => Complex.normSq (φ t - ∑ κ ∈ range D, (c * L κ (t.take n)) * R κ (t.drop n)))
      = Complex.normSq c * sumCfg ds (fun t => Complex.normSq (ψ t - ∑ κ ∈ range D, L κ (t.take n) * R κ (t.drop n))) := by
    intro L R
    rw [← sumCfg_mul]
    refine sumCfg_congr fun t ht => ?_
    rw [hφ t ht, ← Complex.normSq_mul, mul_sub, mul_sum]
    simp only [mul_assoc]
  obtain ⟨⟨L, R, h1⟩, h2⟩ := h
  refine ⟨⟨fun κ t => c * L κ t, R, by rw [e, h1]⟩, ?_⟩
  rintro x ⟨L', R', rfl⟩
  have := h2 ⟨fun κ t => c⁻¹ * L' κ t, R', rfl⟩
  have h3 := e (fun κ t => c⁻¹ * L' κ t) R'
  simp only [mul_inv_cancel_left₀ hc] at h3
  rw [h3]
  exact mul_le_mul_of_nonneg_left this (Complex.normSq_nonneg c)

theorem RankDist.congr {ds : List ℕ} {n D : ℕ} {ψ φ : List ℕ → ℂ} {w : ℝ} (h : RankDist ds n D ψ w)
    (hφ : ∀ s, Conf ds s → φ s = ψ s) : RankDist ds n D φ w := by
  have := h.scale one_ne_zero (φ := φ) (fun s hs => by rw [hφ s hs, one_mul])
  rwa [map_one, one_mul] at this

/-- **C105**: on an object in canonical form `getSchmidt(n)` returns the Schmidt values of the normalised
state across bond `n`: a descending list of non-negative numbers with squares summing to 1, whose tail weights
are the squared distances of the state to the states of smaller rank.  The centre moves to `n`, the state stays. -/
theorem C105_schmidt {O : LinAlg} (hO : O.Spec) {m m' : MPS} {n : ℤ} {S : List ℝ} (hw : m.WF 1 1) (hs : m.sth < 1e-15)
    (hc : m.Canonical) (h : m.getSchmidt O n = .ok (S, m')) :
    0 ≤ n ∧ n ≤ m.N ∧ S.Pairwise (· ≥ ·) ∧ (∀ x ∈ S, 0 ≤ x) ∧ (S.map (fun x => x ^ 2)).sum = 1 ∧
      S.length ≤ m.bondDim n.toNat ∧
      (∀ D, RankDist m.ds n.toNat D (fun s => m.amp s 0 0) (m.normSq 1 1 * ((S.drop D).map (fun x => x ^ 2)).sum)) ∧
      (m'.pos : ℤ) = n ∧ m'.WF 1 1 ∧ m'.Canonical ∧ m'.ds = m.ds ∧ ∀ s, Conf m.ds s → m'.amp s 0 0 = m.amp s 0 0 := by
  unfold MPS.getSchmidt at h
  split at h
  · cases h
  rename_i m1 hp
  cases h
  obtain ⟨h0, h1, hM, hcan⟩ := position_one hO hs hw hp
  have hc' := hcan hc
  have hsv := hO.svd m'.mat
  have hamp : ∀ s, Conf m.ds s → m'.amp s 0 0 = m.amp s 0 0 := fun s hs => hM.amp s (cfg_iff_map.mpr hs) 0 (by norm_num) 0
  have hN : m.normSq 1 1 = Complex.normSq m'.Z := by
    rw [← canonical_normSq hM.wf hc']
    unfold MPS.normSq
    rw [hM.ds]
    refine sumCfg_congr fun s hs => ?_
    simp only [sum_range_one]
    rw [hamp s hs]
  have hsum : ((O.svd m'.mat).2.1.map (fun x => x ^ 2)).sum = 1 := by
    have e := hsv.truncErr (k := 0) (Nat.zero_le _)
    simp only [range_zero, sum_empty, sub_zero, List.drop_zero] at e
    rw [← e]
    have := hc'.norm
    unfold normF at this
    have h2 := (Real.sqrt_eq_iff_eq_sq (sum_nonneg fun _ _ => sum_nonneg fun _ _ =>
      Complex.normSq_nonneg _) zero_le_one).mp this
    rw [h2]; simp
  refine ⟨h0, h1, hsv.sorted, hsv.nonneg, hsum, ?_, ?_, by rw [hM.pos]; omega, hM.wf, hc', hM.ds, hamp⟩
  · refine le_trans ?_ (hM.bond n.toNat (by omega))
    rw [hsv.len]
    unfold MPS.bondDim
    rw [if_pos hM.pos.symm]
    exact (min_le_left _ _).trans (le_max_left _ _)
  · intro D
    have hb := canonical_bip hM.wf hc' hsv D
    rw [hM.pos, hM.ds] at hb
    refine RankDist.congr (ψ := fun s => m'.amp s 0 0) ?_ fun s hs => (hamp s hs).symm
    rw [hN]
    refine ⟨hb.2, ?_⟩
    rintro x ⟨L, R, rfl⟩
    exact hb.1 L R

/-- **C105**, the values belong to the state, not to the tensors: two objects in canonical form which
represent the same state up to a factor return the same values, up to trailing zeros. -/
theorem C105_gauge {O O₂ : LinAlg} (hO : O.Spec) (hO₂ : O₂.Spec) {m m' m₂ m₂' : MPS} {n : ℤ} {S S₂ : List ℝ} {c : ℂ}
    (hw : m.WF 1 1) (hs : m.sth < 1e-15) (hc : m.Canonical) (hw₂ : m₂.WF 1 1) (hs₂ : m₂.sth < 1e-15) (hc₂ : m₂.Canonical)
    (hds : m₂.ds = m.ds) (hne : c ≠ 0) (hamp : ∀ s, Conf m.ds s → m₂.amp s 0 0 = c * m.amp s 0 0)
    (h0 : ∃ s, Conf m.ds s ∧ m.amp s 0 0 ≠ 0)
    (h : m.getSchmidt O n = .ok (S, m')) (h₂ : m₂.getSchmidt O₂ n = .ok (S₂, m₂')) (k : ℕ) : S₂.getD k 0 = S.getD k 0 := by
  obtain ⟨-, -, -, b1, b2, -, b3, -⟩ := C105_schmidt hO hw hs hc h
  obtain ⟨-, -, -, d1, d2, -, d3, -⟩ := C105_schmidt hO₂ hw₂ hs₂ hc₂ h₂
  rw [hds] at d3
  have key : ∀ D, m₂.normSq 1 1 * ((S₂.drop D).map (fun x => x ^ 2)).sum
      = Complex.normSq c * (m.normSq 1 1 * ((S.drop D).map (fun x => x ^ 2)).sum) :=
    fun D => (d3 D).unique ((b3 D).scale hne hamp)
  have h1 := key 0
  rw [List.drop_zero, List.drop_zero, b2, d2, mul_one, mul_one] at h1
  have hpos : m.normSq 1 1 ≠ 0 := by
    obtain ⟨s, hs, hne⟩ := h0
    intro h0
    unfold MPS.normSq at h0
    have := sumCfg_eq_zero m.ds _ (fun _ => sum_nonneg fun _ _ => sum_nonneg fun _ _ => Complex.normSq_nonneg _) h0 s hs
    simp only [sum_range_one] at this
    exact hne (Complex.normSq_eq_zero.mp this)
  refine tails_determine d1 b1 (fun D => ?_) k
  have h2 := key D
  rw [h1, mul_assoc] at h2
  exact mul_left_cancel₀ hpos (mul_left_cancel₀ (by rwa [Ne, Complex.normSq_eq_zero]) h2)

/-- **C105**, success: on a state that does not vanish every bond `0..N` is answered. -/
theorem C105_succeeds {O : LinAlg} (hO : O.Spec) {m : MPS} {n : ℤ} (hw : m.WF 1 1) (hs : m.sth < 1e-15) (h0 : 0 ≤ n) (h1 : n ≤ m.N)
    (hne : ∃ s, Conf m.ds s ∧ m.amp s 0 0 ≠ 0) : ∃ S m', m.getSchmidt O n = .ok (S, m') := by
  obtain ⟨s, hs', hne⟩ := hne
  obtain ⟨m', hm⟩ := C07_position_succeeds hO [n] hw hs (by intro b hb; simp at hb; omega)
    ⟨s, 0, 0, cfg_iff_map.mpr hs', by norm_num, hne⟩
  simp only [MPS.positions] at hm
  split at hm
  · cases hm
  rename_i m1 h1
  cases hm
  exact ⟨_, _, by unfold MPS.getSchmidt; rw [h1]⟩

/-- **C105**, range: outside of `0..N`, and only there, the assertion of `__position__` fails. -/
theorem C105_range {O : LinAlg} (hO : O.Spec) {m : MPS} (hw : m.WF 1 1) (hs : m.sth < 1e-15) (n : ℤ) :
    m.getSchmidt O n = .error .assertion ↔ (n < 0 ∨ (m.N : ℤ) < n) := by
  rw [← C09_position_range hO hw hs n]
  unfold MPS.getSchmidt
  split
  · rename_i e he; rw [he]; simp
  · rename_i e he; rw [he]; simp

/-- The product state `|00>` written with a superfluous second bond index and not in canonical form. -/
def skew : MPS :=
  { N := 2, Dmax := 2, obc := true, sth := 1e-16, rth := 1e-14
    tensors := [⟨1, 2, 2, fun _ k s => delta ℂ k 0 * delta ℂ s 0⟩, ⟨2, 1, 2, fun i _ s => delta ℂ i s⟩]
    mat := ⟨1, 1, fun _ _ => 1⟩, conn := ⟨1, 1, fun _ _ => 1⟩, pos := 2, Z := 1 }

theorem skew_wf : skew.WF 1 1 := by
  refine ⟨rfl, le_rfl, ?_, ?_⟩ <;> simp [skew, Linked]

theorem skew_amp (a b : ℕ) : skew.amp [a, b] 0 0 = delta ℂ a 0 * delta ℂ b 0 := by
  simp only [MPS.amp, skew, List.take, List.drop, chain, sum_range_succ, range_zero, sum_empty]
  simp [delta, eq_comm]

/-- **C105 is violated** for objects which are not in canonical form: the centre of a fresh object sits at
the right end, the tensors to the left of `n` are used as they are.  For the product state `skew`
`getSchmidt(1)` returns two non-zero values. -/
theorem C105_violated_fresh {O : LinAlg} (hO : O.Spec) : ∃ S m', skew.getSchmidt O 1 = .ok (S, m') ∧ 0 < S.getD 1 0 ∧
    ¬ RankDist skew.ds 1 1 (fun s => skew.amp s 0 0) (skew.normSq 1 1 * ((S.drop 1).map (fun x => x ^ 2)).sum) := by
  have hs : skew.sth < 1e-15 := by norm_num [skew]
  have c00 : Conf skew.ds [0, 0] := by
    refine List.Forall₂.cons ?_ (List.Forall₂.cons ?_ List.Forall₂.nil) <;> norm_num
  obtain ⟨S, m', h⟩ := C105_succeeds hO skew_wf hs (n := 1) (by norm_num) (by norm_num [skew])
    ⟨[0, 0], c00, by rw [skew_amp]; simp⟩
  have hsv : ∃ mat u v, SVDSpec mat u S v ∧ mat.r = 2 ∧ ∃ (z : ℝ) (a : Ten ℂ), ∀ i < 2, ∀ s < 2,
      delta ℂ i s = (z : ℂ) * ∑ k ∈ range mat.c, mat.v i k * a.v k 0 s := by
    have h' := h
    unfold MPS.getSchmidt at h'
    split at h'
    · cases h'
    rename_i m1 hp
    cases h'
    refine ⟨m'.mat, _, _, hO.svd m'.mat, ?_⟩
    unfold MPS.position at hp
    have hg : getT skew.tensors (skew.pos - 1) = .ok ⟨2, 1, 2, fun i _ s => delta ℂ i s⟩ := rfl
    rw [if_neg (by norm_num [skew]), if_neg (by norm_num)] at hp
    simp only at hp
    rw [if_neg (by norm_num [skew]), if_neg (by norm_num [skew]), hg] at hp
    have ha : absorbR ⟨2, 1, 2, fun i _ s => delta ℂ i s⟩ skew.mat = .ok ⟨2, 1, 2, fun i _ s => ∑ _k ∈ range 1, delta ℂ i s * 1⟩ := rfl
    have hsth : skew.effSth 1e-16 < 1e-15 := effSth_default hs
    simp only [ha] at hp
    have hset : getT (skew.tensors.set (skew.pos - 1) ⟨2, 1, 2, fun i _ s => ∑ _k ∈ range 1, delta ℂ i s * 1⟩) ((1 : ℤ).toNat + 0)
      = .ok ⟨2, 1, 2, fun i _ s => ∑ _k ∈ range 1, delta ℂ i s * 1⟩ := rfl
    simp only [show skew.pos - (1 : ℤ).toNat = 0 + 1 from rfl, sweepL, hset] at hp
    cases hcut : cutL O (skew.effSth 1e-16) none ⟨2, 1, 2, fun i _ s => ∑ _k ∈ range 1, delta ℂ i s * 1⟩ with
    | error e => rw [hcut] at hp; cases hp
    | ok r =>
      obtain ⟨a, mm, z⟩ := r
      have hx := cutL_exact hO hsth _ _ _ _ hcut
      rw [hcut] at hp
      simp at hp
      subst hp
      refine ⟨hx.rr, z, a, fun i hi s hs => ?_⟩
      have := hx.prod i hi 0 (by norm_num) s hs
      simp only [sum_range_one, mul_one] at this
      exact this
  have hpos : 0 < S.getD 1 0 := by
    obtain ⟨mat, u, v, hv, hr, z, a, hd⟩ := hsv
    have h1 : 0 ≤ S.getD 1 0 := by
      rcases lt_or_ge 1 S.length with hk | hk
      · rw [List.getD_eq_getElem _ _ hk]; exact hv.nonneg _ (List.getElem_mem hk)
      · rw [List.getD_eq_default _ _ hk]
    refine lt_of_le_of_ne h1 fun h2 => ?_
    have hm : ∀ i < 2, ∀ k < mat.c, mat.v i k = u.v i 0 * ((S.getD 0 0 : ℝ) : ℂ) * v.v 0 k := by
      intro i hi k hk
      rw [← hv.prod i (by omega) k hk]
      have h3 : min mat.r mat.c = 1 ∨ min mat.r mat.c = 2 := by omega
      rcases h3 with h3 | h3
      · rw [h3, sum_range_one]
      · rw [h3, sum_range_succ, sum_range_one, ← h2]; simp
    have hf : ∀ i < 2, ∀ s < 2, delta ℂ i s = u.v i 0 * ((z : ℂ) * ((S.getD 0 0 : ℝ) : ℂ) * ∑ k ∈ range mat.c, v.v 0 k * a.v k 0 s) := by
      intro i hi s hs
      rw [hd i hi s hs, sum_congr rfl fun k hk => by rw [hm i hi k (mem_range.mp hk)], mul_sum, mul_sum, mul_sum]
      exact sum_congr rfl fun k _ => by ring
    have f00 := hf 0 (by norm_num) 0 (by norm_num)
    have f11 := hf 1 (by norm_num) 1 (by norm_num)
    have f01 := hf 0 (by norm_num) 1 (by norm_num)
    simp only [delta, if_true, zero_ne_one, if_false] at f00 f11 f01
    rcases mul_eq_zero.mp f01.symm with e | e
    · rw [e, zero_mul] at f00; exact one_ne_zero f00
    · rw [e, mul_zero] at f11; exact one_ne_zero f11
  refine ⟨S, m', h, hpos, ?_⟩
  rintro ⟨-, hle⟩
  have h0 := hle ⟨fun _ t => delta ℂ (t.getD 0 0) 0, fun _ t => delta ℂ (t.getD 0 0) 0, rfl⟩
  have h1 : sumCfg skew.ds (fun t => Complex.normSq (skew.amp t 0 0 - ∑ κ ∈ range 1,
      delta ℂ ((t.take 1).getD 0 0) 0 * delta ℂ ((t.drop 1).getD 0 0) 0)) = 0 := by
    have hds : skew.ds = [2, 2] := rfl
    rw [hds]
    simp only [sumCfg, sum_range_succ, range_zero, sum_empty, skew_amp]
    simp
  have h2 : 0 < ((S.drop 1).map (fun x => x ^ 2)).sum := by
    have hl : 1 < S.length := by
      by_contra hc
      rw [List.getD_eq_default _ _ (by omega)] at hpos
      exact lt_irrefl _ hpos
    rw [List.drop_eq_getElem_cons hl, List.map_cons, List.sum_cons]
    rw [List.getD_eq_getElem _ _ hl] at hpos
    have : 0 ≤ ((S.drop (1 + 1)).map (fun x => x ^ 2)).sum := by
      refine List.sum_nonneg fun y hy => ?_
      obtain ⟨x, -, rfl⟩ := List.mem_map.mp hy
      exact sq_nonneg x
    positivity
  have h3 : skew.normSq 1 1 = 1 := by
    have hds : skew.ds = [2, 2] := rfl
    unfold MPS.normSq
    rw [hds]
    simp only [sumCfg, sum_range_succ, range_zero, sum_empty, skew_amp]
    simp [delta]
  rw [h3, one_mul] at h0
  rw [h1] at h0
  exact absurd h0 (not_le.mpr h2)

/-- C105 applies to the entangled state `ghz` after a full sweep: bond 1 carries two values, whose squares sum to 1. -/
example : ∃ O : LinAlg, O.Spec ∧ ∃ m S m', ghz.positions O [0, 3, 1] = .ok m ∧ m.getSchmidt O 2 = .ok (S, m') ∧
    (S.map (fun x => x ^ 2)).sum = 1 ∧ RankDist [2, 2, 2] 2 1 (fun s => m.amp s 0 0) (m.normSq 1 1 * ((S.drop 1).map (fun x => x ^ 2)).sum) := by
  obtain ⟨O, hO, m, hm, hw, hs, hc, ho, hds, hN, hb0, ha⟩ := ghz_canonical
  have h0 := ha 0 (by norm_num) 0 (by norm_num) 0 (by norm_num)
  obtain ⟨S, m', h⟩ := C105_succeeds hO hw hs (n := 2) (by norm_num) (by rw [hN]; norm_num)
    ⟨[0, 0, 0], cfg_iff_map.mp h0.1, by rw [h0.2]; norm_num⟩
  obtain ⟨-, -, -, -, h1, -, h2, -⟩ := C105_schmidt hO hw hs hc h
  have := h2 1
  rw [hds] at this
  exact ⟨O, hO, m, S, m', hm, h, h1, this⟩

end

end PyTeN
