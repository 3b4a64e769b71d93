import Verif.Mps.Measure
import Verif.Mps.Ghz
import Verif.Props.Access

/-! # C18 (overlap), C19 (measureLocal), C20 (measureList) -/

namespace PyTeN
open Finset

noncomputable section

/-! ## C18 -/

/-- Spec: the inner product `Σ_s ψ1(s) conj ψ2(s)` of two open chains. -/
def MPS.inner (m1 m2 : MPS) : ℂ := sumCfg m1.ds fun s => m1.amp s 0 0 * star (m2.amp s 0 0)

theorem fits_ids_ds {As Bs : List (Ten ℂ)} {m : ℕ} (h : Fits As (As.map fun t => idMpo ℂ m t.d) Bs) :
    As.map Ten.d = Bs.map Ten.d := by
  induction As generalizing Bs with
  | nil => cases Bs with
    | nil => rfl
    | cons _ _ => exact h.elim
  | cons A As ih => cases Bs with
    | nil => exact h.elim
    | cons B Bs =>
      obtain ⟨_, h2, h3⟩ := h
      simp only [List.map_cons, ih h3]
      rw [show A.d = B.d from h2]

theorem overlapFirst_eq {A B : Ten ℂ} {L : Env ℂ} (ha : A.l = 1) (hb : B.l = 1) (h : overlapFirst A B = .ok L) :
    ∃ L', addELayerR oneEnv A B = .ok L' ∧ L'.u = L.u ∧ L'.w = L.w ∧ L'.m = L.m ∧
      ∀ j j' b, L.v j j' b = L'.v j j' b := by
  unfold overlapFirst at h
  split_ifs at h with hs
  simp only [Except.ok.injEq] at h
  subst h
  unfold addELayerR
  rw [if_pos ⟨ha.symm, hb.symm, hs.2⟩]
  refine ⟨_, rfl, rfl, rfl, rfl, fun j j' b => ?_⟩
  simp only [oneEnv, ha, sum_range_one, one_mul]

theorem overlapL_spec {ts1 ts2 : List (Ten ℂ)} {L : Env ℂ} (h : overlapL ts1 ts2 = .ok L) :
    ∃ a z b y, ts1.head? = some a ∧ ts1.getLast? = some z ∧ ts2.head? = some b ∧ ts2.getLast? = some y ∧
      a.l = 1 ∧ z.r = 1 ∧ b.l = 1 ∧ y.r = 1 ∧
      (Linked 1 ts1 1 → Linked 1 ts2 1 → ts1.map Ten.d = ts2.map Ten.d ∧
        L.trace = sumCfg (ts1.map Ten.d) fun s => chain ts1 s 0 0 * star (chain ts2 s 0 0)) := by
  unfold overlapL at h
  split_ifs at h with hlen
  split at h
  swap
  · cases h
  rename_i a z b y e1 e2 e3 e4
  split_ifs at h with h1 h2 h3 h4
  split at h
  · cases h
  rename_i L0 h0
  refine ⟨a, z, b, y, e1, e2, e3, e4, by tauto, by tauto, by tauto, by tauto, ?_⟩
  intro k1 k2
  simp only [not_not] at h1 h3 hlen
  obtain ⟨L', g1, g2, g3, g4, g5⟩ := overlapFirst_eq h1 h3 h0
  obtain ⟨g6, g7⟩ := isL_snocE (isL_nil oneEnv) g1
  have g8 : IsL oneEnv [a] [idMpo ℂ 1 a.d] [b] L0 :=
    g7.congr g2.symm g3.symm g4.symm (fun j _ j' _ b _ => g5 j j' b)
  obtain ⟨q1, q2⟩ := elayersR_isL _ _ _ _ g8 h
  have hm0 : L0.m = 1 := by rw [← g4, g6]; rfl
  have ea : ts1 = a :: ts1.drop 1 := by
    cases ts1 with
    | nil => simp at e1
    | cons x xs => simp at e1; simp [e1]
  have eb : ts2 = b :: ts2.drop 1 := by
    cases ts2 with
    | nil => simp at e3
    | cons x xs => simp at e3; simp [e3]
  have et1 : (ts1.drop 1).take (ts1.length - 1) = ts1.drop 1 := List.take_of_length_le (by simp)
  have et2 : (ts2.drop 1).take (ts1.length - 1) = ts2.drop 1 := List.take_of_length_le (by simp [hlen])
  rw [et1, et2, hm0] at q2
  have q3 : IsL oneEnv ts1 (ts1.map fun t => idMpo ℂ 1 t.d) ts2 L := by
    have e5 : (ts1.map fun t => idMpo ℂ 1 t.d) = [idMpo ℂ 1 a.d] ++ (ts1.drop 1).map (fun t => idMpo ℂ 1 t.d) := by
      conv_lhs => rw [ea]
      simp
    rw [e5]
    have := q2
    rw [List.singleton_append, ← ea, List.singleton_append (x := b), ← eb] at this
    exact this
  have hd := fits_ids_ds q3.fits
  refine ⟨hd, ?_⟩
  have hu : L.u = 1 := by rw [← linked_rdim q3.u, ← linked_rdim k1]; rfl
  have hw : L.w = 1 := by rw [← linked_rdim q3.w, ← linked_rdim k2]; rfl
  have hm : L.m = 1 := q1.trans hm0
  unfold Env.trace
  rw [hu, hw, min_self, sum_range_one, q3.v 0 (by omega) 0 (by omega) 0 (by omega)]
  have := contrL_id (oneEnv : Env ℂ) ts1 ts2 hd 0 0 0 (by simp [oneEnv])
  simp only [oneEnv, sum_range_one, one_mul] at this
  exact this

/-- Everything `overlap` does on a successful call, with the intermediate objects named. -/
theorem overlap_full {O : LinAlg} (hO : O.Spec) {m1 m2 p1 p2 : MPS} {c : ℂ} (w1 : m1.WF 1 1) (w2 : m2.WF 1 1)
    (s1 : m1.sth < 1e-15) (s2 : m2.sth < 1e-15) (h : overlap O m1 m2 = .ok (c, p1, p2)) :
    ∃ (b1 b2 : ℤ) (n1 n2 : MPS), (b1, b2) = (if (m1.N : ℤ) - m1.pos > m1.pos then (0, 0) else ((m1.N : ℤ), (m2.N : ℤ))) ∧
      m1.position O b1 = .ok n1 ∧ m2.position O b2 = .ok n2 ∧
      Back m1 n1 p1 1 1 b1.toNat ∧ Back m2 n2 p2 1 1 b2.toNat ∧ m1.ds = m2.ds ∧
      n1.mat.r = 1 ∧ n1.mat.c = 1 ∧ n2.mat.r = 1 ∧ n2.mat.c = 1 ∧
      c * (n1.mat.v 0 0 * star (n2.mat.v 0 0)) = m1.inner m2 := by
  unfold overlap at h
  simp only at h
  set b : ℤ × ℤ := if (m1.N : ℤ) - m1.pos > m1.pos then (0, 0) else ((m1.N : ℤ), (m2.N : ℤ)) with hb
  split at h
  · cases h
  rename_i n1 e1
  split at h
  · cases h
  rename_i n2 e2
  split at h
  · cases h
  rename_i L hL
  split at h
  · cases h
  rename_i q1 e3
  split at h
  · cases h
  rename_i q2 e4
  simp only [Except.ok.injEq, Prod.mk.injEq] at h
  obtain ⟨hc, rfl, rfl⟩ := h
  obtain ⟨hb1, B1⟩ := position_back' hO w1 s1 e1 e3
  obtain ⟨hb2, B2⟩ := position_back' hO w2 s2 e2 e4
  obtain ⟨a, z, b', y, f1, f2, f3, f4, d1, d2, d3, d4, hsp⟩ := overlapL_spec hL
  have end1 : ∀ {n : MPS} {t u : Ten ℂ}, n.WF 1 1 → n.tensors.head? = some t → n.tensors.getLast? = some u →
      t.l = 1 → u.r = 1 → (n.pos = 0 ∨ n.pos = n.N) →
      (n.pos = 0 ∧ n.mat.c = 1 ∨ n.pos = n.N ∧ n.mat.r = 1) := by
    intro n t u hw ht hu htl hur hp
    rcases hp with hp | hp
    · left
      refine ⟨hp, ?_⟩
      have h1 := hw.right
      rw [hp, List.drop_zero] at h1
      cases hts : n.tensors with
      | nil => rw [hts] at ht; simp at ht
      | cons x xs =>
        rw [hts] at ht h1
        simp only [List.head?_cons, Option.some.injEq] at ht
        subst ht
        exact h1.1.symm.trans htl
    · right
      refine ⟨hp, ?_⟩
      have h1 := hw.left
      rw [hp, ← hw.len, List.take_length] at h1
      obtain ⟨ys, hys⟩ := List.getLast?_eq_some_iff.mp hu
      rw [hys] at h1
      obtain ⟨k, _, hk⟩ := linked_append.mp h1
      exact hk.2.symm.trans hur
  have hpos : (n1.pos = 0 ∨ n1.pos = n1.N) ∧ (n2.pos = 0 ∨ n2.pos = n2.N) := by
    rw [B1.fst.pos, B2.fst.pos, B1.fst.N, B2.fst.N, hb]
    split_ifs <;> simp
  obtain ⟨k1, k2, k3, k4⟩ := amp_end B1.fst.wf (end1 B1.fst.wf f1 f2 d1 d2 hpos.1)
  obtain ⟨k1', k2', k3', k4'⟩ := amp_end B2.fst.wf (end1 B2.fst.wf f3 f4 d3 d4 hpos.2)
  obtain ⟨hd, htr⟩ := hsp k1 k1'
  have hds : m1.ds = m2.ds := by rw [← B1.fst.ds, ← B2.fst.ds]; exact hd
  refine ⟨b.1, b.2, n1, n2, rfl, e1, e2, B1, B2, hds, k2, k3, k2', k3', ?_⟩
  rw [← hc, htr, B1.Z, B2.Z]
  unfold MPS.inner
  rw [← B1.fst.ds]
  have : ∀ x y z u v : ℂ, x * y * z * (u * v) = (y * z * (u * v)) * x := by intros; ring
  rw [this]
  change _ * sumCfg n1.ds _ = _
  rw [← sumCfg_mul]
  apply sumCfg_congr; intro s hs
  have hs1 : Cfg n1.tensors s := cfg_iff_map.mpr hs
  have hs2 : Cfg n2.tensors s := by
    apply cfg_iff_map.mpr
    have : n2.tensors.map Ten.d = n1.ds := hd.symm
    rw [this]; exact hs
  rw [← B1.fst.amp s (cfg_of_ds B1.fst.ds.symm hs1) 0 (by norm_num) 0,
    ← B2.fst.amp s (cfg_of_ds B2.fst.ds.symm hs2) 0 (by norm_num) 0, k4 s hs1.length_eq.symm, k4' s hs2.length_eq.symm]
  simp only [star_mul']
  ring

/-- **C18**, what holds in every case: both objects keep their positions, local dimensions and states,
and the value is the inner product up to the phases `u1`, `conj u2` of the `1×1` centre matrices at the
end of the chain, which the code leaves out. -/
theorem C18_overlap_partial {O : LinAlg} (hO : O.Spec) {m1 m2 p1 p2 : MPS} {c : ℂ} (w1 : m1.WF 1 1) (w2 : m2.WF 1 1)
    (s1 : m1.sth < 1e-15) (s2 : m2.sth < 1e-15) (n1 : normF m1.mat = 1) (n2 : normF m2.mat = 1)
    (h : overlap O m1 m2 = .ok (c, p1, p2)) :
    m1.ds = m2.ds ∧ p1.WF 1 1 ∧ p2.WF 1 1 ∧ p1.pos = m1.pos ∧ p2.pos = m2.pos ∧
      (∀ s, Cfg m1.tensors s → p1.amp s 0 0 = m1.amp s 0 0) ∧ (∀ s, Cfg m2.tensors s → p2.amp s 0 0 = m2.amp s 0 0) ∧
      (∃ u1 u2 : ℂ, u1 * star u1 = 1 ∧ u2 * star u2 = 1 ∧ c * (u1 * star u2) = m1.inner m2) ∧
      ‖c‖ = ‖m1.inner m2‖ := by
  obtain ⟨b1, b2, k1, k2, hb, e1, e2, B1, B2, hd, d1, d2, d3, d4, hc⟩ := overlap_full hO w1 w2 s1 s2 h
  have hn : ∀ {m k p : MPS} {b : ℤ}, normF m.mat = 1 → m.position O b = .ok k → Back m k p 1 1 b.toNat →
      normF k.mat = 1 := by
    intro m k p b hm he hB
    by_cases hbp : b.toNat = m.pos
    · rw [position_same he hbp]; exact hm
    · exact hB.fst.norm hbp
  have u1 := normF_one_by_one d1 d2 (hn n1 e1 B1)
  have u2 := normF_one_by_one d3 d4 (hn n2 e2 B2)
  refine ⟨hd, B1.snd.wf, B2.snd.wf, B1.snd.pos, B2.snd.pos, fun s hs => B1.amp s hs 0 (by norm_num) 0,
    fun s hs => B2.amp s hs 0 (by norm_num) 0, ⟨_, _, u1, u2, hc⟩, ?_⟩
  have hu : ∀ {u : ℂ}, u * star u = 1 → ‖u‖ = 1 := by
    intro u h
    have h2 := congrArg norm h
    rw [norm_mul, norm_star, norm_one] at h2
    nlinarith [norm_nonneg u]
  rw [← hc, norm_mul, norm_mul, norm_star, hu u1, hu u2]
  ring

/-- **C18**, self-overlap: the overlap of a state with itself is exactly its squared norm. -/
theorem C18_overlap_self {O : LinAlg} (hO : O.Spec) {m p1 p2 : MPS} {c : ℂ} (w : m.WF 1 1)
    (hs : m.sth < 1e-15) (hn : normF m.mat = 1) (h : overlap O m m = .ok (c, p1, p2)) :
    c = m.normSq 1 1 := by
  obtain ⟨b1, b2, k1, k2, hb, e1, e2, B1, B2, hd, d1, d2, d3, d4, hc⟩ := overlap_full hO w w hs hs h
  have hbb : b1 = b2 := by
    split_ifs at hb <;> simp only [Prod.mk.injEq] at hb <;> omega
  subst hbb
  rw [e1] at e2
  obtain rfl := Except.ok.inj e2
  have u1 : k1.mat.v 0 0 * star (k1.mat.v 0 0) = 1 := by
    apply normF_one_by_one d1 d2
    by_cases hbp : b1.toNat = m.pos
    · rw [position_same e1 hbp]; exact hn
    · exact B1.fst.norm hbp
  rw [u1, mul_one] at hc
  rw [hc]
  unfold MPS.inner MPS.normSq
  rw [sumCfg_ofReal]
  apply sumCfg_congr; intro s _
  simp only [sum_range_one]
  rw [mul_comm, Complex.normSq_eq_conj_mul_self]; rfl

/-- **C18**, exact when both objects already sit at the end that `overlap` moves to and carry the centre
matrix `[[1]]` (every freshly constructed MPS). -/
theorem C18_overlap_fresh {O : LinAlg} (hO : O.Spec) {m1 m2 p1 p2 : MPS} {c : ℂ} (w1 : m1.WF 1 1) (w2 : m2.WF 1 1)
    (s1 : m1.sth < 1e-15) (s2 : m2.sth < 1e-15) (hp1 : m1.pos = m1.N) (hp2 : m2.pos = m2.N)
    (h1 : m1.mat.v 0 0 = 1) (h2 : m2.mat.v 0 0 = 1)
    (h : overlap O m1 m2 = .ok (c, p1, p2)) : c = m1.inner m2 := by
  obtain ⟨b1, b2, k1, k2, hb, e1, e2, B1, B2, hd, d1, d2, d3, d4, hc⟩ := overlap_full hO w1 w2 s1 s2 h
  rw [if_neg (by omega)] at hb
  simp only [Prod.mk.injEq] at hb
  obtain ⟨rfl, rfl⟩ := hb
  have x1 := position_same e1 (by rw [hp1]; simp)
  have x2 := position_same e2 (by rw [hp2]; simp)
  rw [x1, x2, h1, h2] at hc
  simpa using hc

/-- **C18**: chains of different length are rejected with ValueError, after both have been moved. -/
theorem C18_overlap_length {O : LinAlg} (hO : O.Spec) {m1 m2 : MPS} (w1 : m1.WF 1 1) (w2 : m2.WF 1 1)
    (s1 : m1.sth < 1e-15) (s2 : m2.sth < 1e-15)
    (a1 : ∃ s, Cfg m1.tensors s ∧ m1.amp s 0 0 ≠ 0) (a2 : ∃ s, Cfg m2.tensors s ∧ m2.amp s 0 0 ≠ 0)
    (hN : m1.N ≠ m2.N) : overlap O m1 m2 = .error .value := by
  obtain ⟨b1, b2, hb, r1, r2⟩ : ∃ b1 b2 : ℕ,
      (if (m1.N : ℤ) - m1.pos > m1.pos then ((0, 0) : ℤ × ℤ) else ((m1.N : ℤ), (m2.N : ℤ))) = ((b1 : ℤ), (b2 : ℤ)) ∧
      b1 ≤ m1.N ∧ b2 ≤ m2.N := by
    split_ifs
    · exact ⟨0, 0, by simp, by omega, by omega⟩
    · exact ⟨m1.N, m2.N, rfl, le_rfl, le_rfl⟩
  have ok : ∀ {m : MPS} {b : ℕ}, m.WF 1 1 → m.sth < 1e-15 → (∃ s, Cfg m.tensors s ∧ m.amp s 0 0 ≠ 0) → b ≤ m.N →
      ∃ k, m.position O b = .ok k := by
    intro m b hw hs ⟨s, hc, ha⟩ hb
    cases hk : m.position O b with
    | ok k => exact ⟨k, rfl⟩
    | error e => exact absurd ((position_err hO (effSth_default hs) hw hb hk).2 s hc 0 (by norm_num) 0) ha
  obtain ⟨k1, e1⟩ := ok w1 s1 a1 r1
  obtain ⟨k2, e2⟩ := ok w2 s2 a2 r2
  obtain ⟨-, -, M1⟩ := position_moved hO (effSth_default s1) w1 e1
  obtain ⟨-, -, M2⟩ := position_moved hO (effSth_default s2) w2 e2
  unfold overlap
  simp only [hb, e1, e2]
  have : k1.tensors.length ≠ k2.tensors.length := by rw [M1.wf.len, M2.wf.len, M1.N, M2.N]; exact hN
  simp only [overlapL, if_pos this]

/-- **C18 is violated**: at position `0` with centre matrix `[[-1]]` (a unitary gauge that QR may well
produce) the sign is lost: the overlap with the same state of opposite sign is `1` instead of `-1`. -/
def signMps (u : ℂ) : MPS :=
  { N := 1, Dmax := 1, obc := true, sth := 1e-16, rth := 1e-14, tensors := [⟨1, 1, 2, fun _ _ s => delta ℂ s 0⟩]
    mat := ⟨1, 1, fun _ _ => u⟩, conn := ⟨1, 1, fun _ _ => 1⟩, pos := 0, Z := 1 }

theorem signMps_wf (u : ℂ) : (signMps u).WF 1 1 := by
  refine ⟨rfl, by simp [signMps], ?_, ?_⟩ <;> simp [signMps, Linked]

theorem C18_overlap_violated (O : LinAlg) :
    overlap O (signMps (-1)) (signMps 1) = .ok (1, signMps (-1), signMps 1) ∧
      (signMps (-1)).inner (signMps 1) = -1 := by
  have hp : ∀ u, (signMps u).position O 0 = .ok (signMps u) := by
    intro u
    simp [MPS.position, signMps]
  constructor
  · unfold overlap
    have : (((signMps (-1)).N : ℤ) - (signMps (-1)).pos > (signMps (-1)).pos) := by simp [signMps]
    simp only [if_pos this, hp]
    have e : overlapL (signMps (-1)).tensors (signMps 1).tensors =
        .ok ⟨1, 1, 1, fun _ _ _ => ∑ i ∈ range 1, ∑ s ∈ range 2, delta ℂ s 0 * star (delta ℂ s 0)⟩ := by
      simp [overlapL, signMps, overlapFirst, elayersR]
    rw [e]
    have hz : ∀ u, ((signMps u).pos : ℤ) = 0 := fun u => rfl
    simp only [hz, hp, Env.trace]
    simp [signMps, delta]
  · simp [MPS.inner, MPS.ds, signMps, sumCfg, MPS.amp, chain, delta]

theorem elayersR_ok {ts1 ts2 : List (Ten ℂ)} : ∀ (k a : ℕ) (E : Env ℂ) {r1 r2 : ℕ},
    Linked E.u ((ts1.drop a).take k) r1 → Linked E.w ((ts2.drop a).take k) r2 → ts1.map Ten.d = ts2.map Ten.d →
    a + k ≤ ts1.length → ∃ E', elayersR ts1 ts2 (List.range' a k) E = .ok E' := by
  intro k
  induction k with
  | zero => intro a E _ _ _ _ _ _; exact ⟨E, rfl⟩
  | succ k ih =>
    intro a E r1 r2 h1 h2 hd ha
    have hlen : ts1.length = ts2.length := by simpa using congrArg List.length hd
    have x1 : a < ts1.length := by omega
    have x2 : a < ts2.length := by omega
    rw [List.drop_eq_getElem_cons x1, List.take_succ_cons] at h1
    rw [List.drop_eq_getElem_cons x2, List.take_succ_cons] at h2
    have hdd : ts1[a].d = ts2[a].d := by
      have := congrArg (fun l => l[a]?) hd
      simpa [List.getElem?_eq_getElem x1, List.getElem?_eq_getElem x2] using this
    have e : ∃ E1, addELayerR E ts1[a] ts2[a] = .ok E1 ∧ E1.u = ts1[a].r ∧ E1.w = ts2[a].r := by
      unfold addELayerR
      rw [if_pos ⟨h1.1.symm, h2.1.symm, hdd⟩]
      exact ⟨_, rfl, rfl, rfl⟩
    obtain ⟨E1, e1, e2, e3⟩ := e
    obtain ⟨E', h'⟩ := ih (a + 1) E1 (by rw [e2]; exact h1.2) (by rw [e3]; exact h2.2) hd (by omega)
    refine ⟨E', ?_⟩
    simp only [List.range'_succ, elayersR, List.getElem?_eq_getElem x1, List.getElem?_eq_getElem x2, e1]
    exact h'

theorem overlapL_ok {ts1 ts2 : List (Ten ℂ)} (h1 : Linked 1 ts1 1) (h2 : Linked 1 ts2 1) (hne : ts1 ≠ [])
    (hd : ts1.map Ten.d = ts2.map Ten.d) : ∃ L, overlapL ts1 ts2 = .ok L := by
  have hlen : ts1.length = ts2.length := by simpa using congrArg List.length hd
  obtain ⟨a, xs, rfl⟩ : ∃ a xs, ts1 = a :: xs := List.exists_cons_of_ne_nil hne
  obtain ⟨b, ys, rfl⟩ : ∃ b ys, ts2 = b :: ys := by
    cases ts2 with
    | nil => simp at hlen
    | cons b ys => exact ⟨b, ys, rfl⟩
  have hl : ∀ {t : Ten ℂ} {zs : List (Ten ℂ)}, Linked 1 (t :: zs) 1 →
      ∃ z, (t :: zs).getLast? = some z ∧ z.r = 1 := by
    intro t zs h
    refine ⟨(t :: zs).getLast (by simp), List.getLast?_eq_some_getLast _, ?_⟩
    have := List.dropLast_append_getLast (l := t :: zs) (by simp)
    rw [← this] at h
    obtain ⟨_, _, hk⟩ := linked_append.mp h
    exact hk.2
  obtain ⟨z, e1, z1⟩ := hl h1
  obtain ⟨y, e2, y1⟩ := hl h2
  unfold overlapL
  rw [if_neg (by simpa using hlen), e1, e2]
  simp only [List.head?_cons, h1.1, z1, h2.1, y1, ne_eq, not_true_eq_false, if_false]
  have hdd : a.d = b.d := by simp only [List.map_cons, List.cons.injEq] at hd; exact hd.1
  unfold overlapFirst
  rw [if_pos ⟨h1.1.trans h2.1.symm, hdd⟩]
  have t1 : ((a :: xs).drop 1).take ((a :: xs).length - 1) = xs := by simp
  have t2 : ((b :: ys).drop 1).take ((a :: xs).length - 1) = ys := by
    simp only [List.length_cons, Nat.add_right_cancel_iff] at hlen
    simp [hlen]
  exact elayersR_ok _ 1 _ (by rw [t1]; exact h1.2) (by rw [t2]; exact h2.2) hd (by simp; omega)

/-- The centre matrix of a non-vanishing object with trivial outer bonds is `1×1` at the ends. -/
theorem end_one {m : MPS} (h0 : m.bondDim 0 ≤ 1) (hN : m.bondDim m.N ≤ 1)
    (hp : m.pos = 0 ∨ m.pos = m.N) (ha : ∃ s, Cfg m.tensors s ∧ m.amp s 0 0 ≠ 0) :
    m.pos = 0 ∧ m.mat.c = 1 ∨ m.pos = m.N ∧ m.mat.r = 1 := by
  obtain ⟨s, -, ha⟩ := ha
  have hpos : m.mat.r ≠ 0 ∧ m.mat.c ≠ 0 := by
    constructor
    · intro h; apply ha; unfold MPS.amp; rw [h]; simp
    · intro h; apply ha; unfold MPS.amp; rw [h]; simp
  have hb : max m.mat.r m.mat.c ≤ 1 := by
    rcases hp with h | h
    · unfold MPS.bondDim at h0; rwa [if_pos h.symm] at h0
    · unfold MPS.bondDim at hN; rwa [if_pos h.symm] at hN
  rcases hp with h | h
  · left; exact ⟨h, by omega⟩
  · right; exact ⟨h, by omega⟩

theorem position_ok {O : LinAlg} (hO : O.Spec) {m : MPS} {b : ℕ} {l r : ℕ} (hw : m.WF l r) (hs : m.sth < 1e-15)
    (ha : ∃ s i j, Cfg m.tensors s ∧ i < l ∧ m.amp s i j ≠ 0) (hb : b ≤ m.N) : ∃ k, m.position O b = .ok k := by
  obtain ⟨s, i, j, hc, hi, ha⟩ := ha
  cases hk : m.position O b with
  | ok k => exact ⟨k, rfl⟩
  | error e => exact absurd ((position_err hO (effSth_default hs) hw hb hk).2 s hc i hi j) ha

/-- **C18**, progress: for non-vanishing states on the same chain with trivial outer bonds the call
succeeds, from every pair of positions. -/
theorem C18_overlap_succeeds {O : LinAlg} (hO : O.Spec) {m1 m2 : MPS} (w1 : m1.WF 1 1) (w2 : m2.WF 1 1)
    (s1 : m1.sth < 1e-15) (s2 : m2.sth < 1e-15) (hN : m1.N ≠ 0) (hd : m1.ds = m2.ds)
    (a1 : ∃ s, Cfg m1.tensors s ∧ m1.amp s 0 0 ≠ 0) (a2 : ∃ s, Cfg m2.tensors s ∧ m2.amp s 0 0 ≠ 0)
    (b1 : m1.bondDim 0 ≤ 1 ∧ m1.bondDim m1.N ≤ 1) (b2 : m2.bondDim 0 ≤ 1 ∧ m2.bondDim m2.N ≤ 1) :
    ∃ c p1 p2, overlap O m1 m2 = .ok (c, p1, p2) := by
  obtain ⟨x1, x2, hb, r1, r2⟩ : ∃ b1 b2 : ℕ,
      (if (m1.N : ℤ) - m1.pos > m1.pos then ((0, 0) : ℤ × ℤ) else ((m1.N : ℤ), (m2.N : ℤ))) = ((b1 : ℤ), (b2 : ℤ)) ∧
      (b1 = 0 ∨ b1 = m1.N) ∧ (b2 = 0 ∨ b2 = m2.N) := by
    split_ifs
    · exact ⟨0, 0, by simp, by omega, by omega⟩
    · exact ⟨m1.N, m2.N, rfl, by omega, by omega⟩
  have main : ∀ {m : MPS} {x : ℕ}, m.WF 1 1 → m.sth < 1e-15 → (∃ s, Cfg m.tensors s ∧ m.amp s 0 0 ≠ 0) →
      (m.bondDim 0 ≤ 1 ∧ m.bondDim m.N ≤ 1) → (x = 0 ∨ x = m.N) →
      ∃ k p, m.position O x = .ok k ∧ k.position O m.pos = .ok p ∧ Linked 1 k.tensors 1 ∧ k.ds = m.ds := by
    intro m x hw hs ⟨s, hc, ha⟩ hb hx
    obtain ⟨k, hk⟩ := position_ok hO hw hs ⟨s, 0, 0, hc, by norm_num, ha⟩ (b := x) (by omega)
    obtain ⟨-, -, M⟩ := position_moved hO (effSth_default hs) hw hk
    have ha' : ∃ s, Cfg k.tensors s ∧ k.amp s 0 0 ≠ 0 :=
      ⟨s, cfg_of_ds M.ds hc, by rw [M.amp s hc 0 (by norm_num)]; exact ha⟩
    obtain ⟨p, hp⟩ := position_ok hO M.wf (by rw [M.sth]; exact hs)
      (by obtain ⟨s, h1, h2⟩ := ha'; exact ⟨s, 0, 0, h1, by norm_num, h2⟩) (b := m.pos)
      (by rw [M.N]; exact hw.pos_le)
    have := amp_end M.wf (end_one ((M.bond 0 (by omega)).trans hb.1)
      (by rw [M.N]; exact (M.bond m.N le_rfl).trans hb.2) (by rw [M.pos, M.N]; simpa using hx) ha')
    exact ⟨k, p, hk, hp, this.1, M.ds⟩
  obtain ⟨k1, p1, e1, e2, l1, d1⟩ := main w1 s1 a1 b1 r1
  obtain ⟨k2, p2, e3, e4, l2, d2⟩ := main w2 s2 a2 b2 r2
  have hne : k1.tensors ≠ [] := by
    intro h
    have h2 : k1.ds = [] := by unfold MPS.ds; rw [h]; rfl
    rw [d1] at h2
    have : m1.tensors.length = 0 := by
      have := congrArg List.length h2; simpa [MPS.ds] using this
    rw [w1.len] at this; exact hN this
  obtain ⟨L, hL⟩ := overlapL_ok l1 l2 hne (by
    have : k1.ds = k2.ds := by rw [d1, d2, hd]
    exact this)
  refine ⟨L.trace * p1.Z * star p2.Z, p1, p2, ?_⟩
  unfold overlap
  simp only [hb, e1, e3, hL, e2, e4]

/-- C18 applies to the entangled state `ghz`: its overlap with itself is `2`. -/
example : ∃ O : LinAlg, O.Spec ∧ ∃ p1 p2, overlap O ghz ghz = .ok (2, p1, p2) := by
  obtain ⟨O, hO⟩ := exists_linAlg
  have hs : ghz.sth < 1e-15 := by norm_num [ghz]
  have ha : ∃ s, Cfg ghz.tensors s ∧ ghz.amp s 0 0 ≠ 0 := ⟨[0, 0, 0], ghz_cfg 0 0 0 (by norm_num) (by norm_num) (by norm_num), by
      rw [ghz_amp 0 0 0 (by norm_num) (by norm_num) (by norm_num)]; norm_num⟩
  have hb : ghz.bondDim 0 ≤ 1 ∧ ghz.bondDim ghz.N ≤ 1 := by
    constructor <;> simp [MPS.bondDim, ghz, ghzT]
  obtain ⟨c, p1, p2, h⟩ := C18_overlap_succeeds hO ghz_wf ghz_wf hs hs (by simp [ghz]) rfl ha ha hb hb
  have hc := C18_overlap_self hO ghz_wf hs (by simp [normF, ghz]) h
  refine ⟨O, hO, p1, p2, ?_⟩
  rw [h, hc]
  have : ghz.normSq 1 1 = 2 := by
    have hds : ghz.ds = [2, 2, 2] := by simp [MPS.ds, ghz, ghzT]
    unfold MPS.normSq
    rw [hds]
    simp only [sumCfg, sum_range_succ, range_zero, sum_empty, zero_add]
    repeat rw [ghz_amp _ _ _ (by norm_num) (by norm_num) (by norm_num)]
    norm_num
  rw [this]; norm_num

/-! ## C19 -/

/-- The tensor list with the centre matrix absorbed into the tensor left of it. -/
theorem amp_left {m : MPS} {l r : ℕ} (hw : m.WF l r) (hp : 0 < m.pos) :
    ∃ t t', m.tensors[m.pos - 1]? = some t ∧ m.tensor ((m.pos : ℤ) - 1) = .ok (t', m) ∧ t'.d = t.d ∧
      t'.r = m.mat.c ∧ Linked l (m.tensors.take (m.pos - 1)) t'.l ∧
      (m.tensors.take (m.pos - 1) ++ t' :: m.tensors.drop m.pos).map Ten.d = m.ds ∧
      ∀ s, s.length = m.N → ∀ i < l, ∀ j,
        m.amp s i j = m.Z * chain (m.tensors.take (m.pos - 1) ++ t' :: m.tensors.drop m.pos) s i j := by
  obtain ⟨t, t', h1, h2, h3, h4, h5, h6, -⟩ := C25_tensor_left hw hp
  obtain ⟨hx, hxe⟩ := List.getElem?_eq_some_iff.mp h1
  have hL := hw.left
  have he : m.tensors.take m.pos = m.tensors.take (m.pos - 1) ++ [t] := by
    rw [← hxe, ← List.take_succ_eq_append_getElem hx]; congr 1; omega
  have hL' := hL
  rw [he, linked_append] at hL'
  obtain ⟨n, hA, h8⟩ := hL'
  have hlen : (m.tensors.take (m.pos - 1)).length = m.pos - 1 := by
    rw [List.length_take]; omega
  refine ⟨t, t', h1, h2, h5, h4, by rw [h3, h8.1]; exact hA, ?_, ?_⟩
  · conv_rhs => rw [MPS.ds, ← List.take_append_drop m.pos m.tensors, he]
    simp [h5]
  · intro s hs i hi j
    have hab : absorbR t m.mat = .ok t' := by
      rw [absorbR_ok h8.2]
      congr 1
      cases t'
      simp only at h3 h4 h5 h6
      subst h3 h4 h5
      congr 1
      funext i j s
      exact (h6 i j s).symm
    obtain ⟨sA, x, ss, rfl, hsA⟩ : ∃ sA x ss, s = sA ++ x :: ss ∧ sA.length = m.pos - 1 := by
      have hlt : m.pos - 1 < s.length := by have := hw.pos_le; omega
      exact ⟨s.take (m.pos - 1), s[m.pos - 1], s.drop (m.pos - 1 + 1), by
        rw [← List.drop_eq_getElem_cons hlt, List.take_append_drop], by rw [List.length_take]; omega⟩
    rw [split_absorbR (by rw [h8.1]; exact hA) hab _ sA (by rw [hsA, hlen]) x ss hi j]
    have e1 : (sA ++ x :: ss).take m.pos = sA ++ [x] := by
      have : sA ++ x :: ss = (sA ++ [x]) ++ ss := by simp
      rw [this, List.take_left' (by simp; omega)]
    have e2 : (sA ++ x :: ss).drop m.pos = ss := by
      have : sA ++ x :: ss = (sA ++ [x]) ++ ss := by simp
      rw [this, List.drop_left' (by simp; omega)]
    unfold MPS.amp
    rw [e1, e2, he]
    rfl

/-- **C19.** On a canonical open chain `measureLocal(op,site)` returns
`Σ_{s,s'} ψ(s) op(s_site,s'_site) conj ψ(s')` and restores position and state. -/
theorem C19_measureLocal {O : LinAlg} (hO : O.Spec) {m m2 : MPS} {op : Mat ℂ} {site : ℕ} {v : Option ℂ}
    (hw : m.WF 1 1) (hs : m.sth < 1e-15) (hc : m.Canonical) (ho : m.obc = true)
    (h : m.measureLocal O op site = .ok (v, m2)) :
    site < m.N ∧ v = some (m.expect (siteOps m.ds site op)) ∧ m2.WF 1 1 ∧ m2.Canonical ∧ m2.pos = m.pos ∧ m2.ds = m.ds ∧
      ∀ s, Cfg m.tensors s → m2.amp s 0 0 = m.amp s 0 0 := by
  unfold MPS.measureLocal at h
  rw [if_neg (by rw [ho]; simp)] at h
  split at h
  · cases h
  rename_i m1 e1
  split at h
  · cases h
  rename_i t' m1' e2
  split at h
  · cases h
  rename_i q2 e3
  split at h
  · cases h
  rename_i c e4
  simp only [Except.ok.injEq, Prod.mk.injEq] at h
  obtain ⟨rfl, rfl⟩ := h
  obtain ⟨-, hbN, M1⟩ := position_moved hO (effSth_default hs) hw e1
  have hpos : m1.pos = site + 1 := by rw [M1.pos]; omega
  obtain ⟨t, t'', g1, g2, g3, g4, g5, g6, g7⟩ := amp_left M1.wf (by omega : 0 < m1.pos)
  have hsite : (site : ℤ) = (m1.pos : ℤ) - 1 := by omega
  rw [hsite, g2] at e2
  simp only [Except.ok.injEq, Prod.mk.injEq] at e2
  obtain ⟨rfl, rfl⟩ := e2
  obtain ⟨-, B⟩ := position_back' hO hw hs e1 e3
  have c1 := canonical_position hO hw hs hc e1
  have c2 := canonical_position hO M1.wf (by rw [M1.sth]; exact hs) c1 e3
  refine ⟨by omega, ?_, B.snd.wf, c2, B.snd.pos, B.ds, fun s hs => B.amp s hs 0 (by norm_num) 0⟩
  obtain ⟨L, a1, a2, a3, a4⟩ := localContr_trace e4
  have hlo : ∀ t ∈ m1.tensors.take (m1.pos - 1), LeftOrth t := by
    intro t ht
    apply c1.left' t
    exact List.take_subset_take_left _ (by omega) ht
  have hA := isL_one_of_eye (isL_leftOrth g5 hlo)
  have hAL := isL_snoc hA a1
  rw [ids_mpo] at hAL
  have hAL' : IsL oneEnv (m1.tensors.take (m1.pos - 1) ++ [t'']) ((((m1.tensors.take (m1.pos - 1)).map Ten.d).map (eyeK ℂ)
      ++ [op]).map Mat.mpo) (m1.tensors.take (m1.pos - 1) ++ [t'']) L := by
    rw [List.map_append]; exact hAL
  have htr := trace_right hAL' (by rw [a2, g4]; exact M1.wf.right) rfl c1.right'
  have eap : m1.tensors.take (m1.pos - 1) ++ [t''] ++ m1.tensors.drop m1.pos =
    m1.tensors.take (m1.pos - 1) ++ t'' :: m1.tensors.drop m1.pos := by simp
  have eops : ((m1.tensors.take (m1.pos - 1)).map Ten.d).map (eyeK ℂ) ++ [op] ++
      ((m1.tensors.drop m1.pos).map Ten.d).map (eyeK ℂ) = siteOps m.ds site op := by
    unfold siteOps
    rw [← M1.ds, ← g6, List.map_append, List.map_append]
    have hl : (((m1.tensors.take (m1.pos - 1)).map Ten.d).map (eyeK ℂ)).length = site := by
      have := M1.wf.len
      have := M1.N
      simp only [List.length_map, List.length_take]; omega
    have := set_length_append (((m1.tensors.take (m1.pos - 1)).map Ten.d).map (eyeK ℂ))
      (((t'' :: m1.tensors.drop m1.pos).map Ten.d).map (eyeK ℂ)) 0 op
    rw [hl, Nat.add_zero] at this
    rw [this]; simp
  rw [eap, eops, a4] at htr
  rw [htr, B.Z]
  congr 1
  rw [expect_of_chain (m := m) (c := m1.Z) (ts := m1.tensors.take (m1.pos - 1) ++ t'' :: m1.tensors.drop m1.pos)
    (by rw [g6, M1.ds]) ?_]
  · ring
  · intro s hs
    rw [← M1.amp s hs 0 (by norm_num)]
    exact g7 s (by rw [M1.N, ← hw.len]; exact hs.length_eq.symm) 0 (by norm_num) 0

/-- **C19**, progress: for a non-vanishing state, a site of the chain and an operator of the right
dimension the call succeeds. -/
theorem C19_measureLocal_succeeds {O : LinAlg} (hO : O.Spec) {m : MPS} {op : Mat ℂ} {site : ℕ}
    (hw : m.WF 1 1) (hs : m.sth < 1e-15) (ho : m.obc = true) (ha : ∃ s, Cfg m.tensors s ∧ m.amp s 0 0 ≠ 0)
    (hop : m.ds[site]? = some op.r) (hsq : op.r = op.c) :
    ∃ v m2, m.measureLocal O op site = .ok (v, m2) := by
  obtain ⟨s, hcfg, ha⟩ := ha
  have hN : site < m.N := by
    have := (List.getElem?_eq_some_iff.mp hop).1
    rw [MPS.ds, List.length_map, hw.len] at this; exact this
  obtain ⟨m1, e1⟩ := position_ok hO hw hs ⟨s, 0, 0, hcfg, by norm_num, ha⟩ (b := site + 1) (by omega)
  obtain ⟨-, -, M1⟩ := position_moved hO (effSth_default hs) hw e1
  have hpos : m1.pos = site + 1 := by rw [M1.pos]; omega
  obtain ⟨t, t', g1, g2, g3, g4, g5, g6, g7⟩ := amp_left M1.wf (by omega : 0 < m1.pos)
  obtain ⟨m2, e2⟩ := position_ok hO M1.wf (by rw [M1.sth]; exact hs)
    ⟨s, 0, 0, cfg_of_ds M1.ds hcfg, by norm_num, by rw [M1.amp s hcfg 0 (by norm_num)]; exact ha⟩ (b := m.pos)
    (by rw [M1.N]; exact hw.pos_le)
  have hd : t'.d = op.r := by
    rw [← M1.ds, MPS.ds, List.getElem?_map] at hop
    have : m1.pos - 1 = site := by omega
    rw [this] at g1
    rw [g1] at hop
    rw [g3]; simpa using hop
  obtain ⟨c, hcc⟩ : ∃ c, localContr t' op = .ok c := by
    unfold localContr
    rw [if_pos ⟨hd.symm, hsq ▸ hd.symm⟩]
    exact ⟨_, rfl⟩
  refine ⟨some (c * m2.Z * star m2.Z), m2, ?_⟩
  unfold MPS.measureLocal
  rw [if_neg (by rw [ho]; simp)]
  have e1' : m.position O ((site : ℤ) + 1) = .ok m1 := by exact_mod_cast e1
  have hsite : (site : ℤ) = (m1.pos : ℤ) - 1 := by omega
  simp only [e1']
  rw [hsite, g2]
  simp only [e2, hcc]

/-- **C19**: a site beyond the chain is an AssertionError and a chain that is not open gives `NotImplemented`. -/
theorem C19_measureLocal_rejects (O : LinAlg) (m : MPS) (op : Mat ℂ) (site : ℤ) :
    (m.obc = true → (site ≥ m.N ∨ site < -1) → m.measureLocal O op site = .error .assertion) ∧
      (m.obc = false → m.measureLocal O op site = .ok (none, m)) := by
  constructor
  · intro ho h
    unfold MPS.measureLocal
    rw [if_neg (by rw [ho]; simp)]
    have : m.position O (site + 1) = .error .assertion := by
      unfold MPS.position
      rcases h with h | h
      · rw [if_pos (by omega)]
      · rw [if_neg (by omega), if_pos (by omega)]
    rw [this]
  · intro ho
    unfold MPS.measureLocal
    rw [if_pos ho]

/-- **C19 is violated** at `site = -1`: instead of being rejected the call contracts the *last* tensor
with the *first* centre matrix. -/
theorem C19_measureLocal_violated (O : LinAlg) (a b c d : ℂ) :
    (signMps 1).measureLocal O ⟨2, 2, fun i j => if i = 0 then (if j = 0 then a else b) else (if j = 0 then c else d)⟩ (-1)
      = .ok (some a, signMps 1) := by
  have hp : (signMps 1).position O 0 = .ok (signMps 1) := by simp [MPS.position, signMps]
  unfold MPS.measureLocal
  have h0 : (-1 : ℤ) + 1 = 0 := by norm_num
  have hz : ((signMps 1).pos : ℤ) = 0 := rfl
  have ht : (signMps 1).tensor (-1) = .ok (⟨1, 1, 2, fun i j s => ∑ k ∈ range 1, delta ℂ s 0 * 1⟩, signMps 1) := by
    simp [MPS.tensor, signMps, getZ, pyIdx, getT, absorbR]
  rw [if_neg (by simp [signMps]), h0, hp]
  simp only [ht, hz, hp]
  unfold localContr
  rw [if_pos ⟨rfl, rfl⟩]
  simp [signMps, sum_range_succ, delta]

theorem ghz_canonical : ∃ O : LinAlg, O.Spec ∧ ∃ m, ghz.positions O [0, 3, 1] = .ok m ∧ m.WF 1 1 ∧ m.sth < 1e-15 ∧
    m.Canonical ∧ m.obc = true ∧ m.ds = [2, 2, 2] ∧ m.N = 3 ∧ m.bondDim 0 ≤ 1 ∧
    ∀ a < 2, ∀ b < 2, ∀ c < 2, Cfg m.tensors [a, b, c] ∧ m.amp [a, b, c] 0 0 = if a = b ∧ b = c then 1 else 0 := by
  obtain ⟨O, hO, m, hm⟩ := ghz_moves
  have hs : ghz.sth < 1e-15 := by norm_num [ghz]
  have hc : m.Canonical := C08_canonical_after_history hO ghz_wf hs (by simp [ghz]) [] [1] (0, 3) (Or.inl (by simp [ghz])) hm
  obtain ⟨p1, p2, p3, p4, p5, p6, p7, p8, p9, p10, p11, p12⟩ := positions_moved hO [0, 3, 1] hs ghz_wf hm
  have hds : ghz.ds = [2, 2, 2] := by simp [MPS.ds, ghz, ghzT]
  refine ⟨O, hO, m, hm, p1, by rw [p6]; exact hs, hc, by rw [p4]; rfl, by rw [p3]; exact hds, by rw [p2]; rfl,
    (p10 0 (by simp)).trans (by simp [MPS.bondDim, ghz, ghzT]), ?_⟩
  intro a ha b hb c hc
  have := ghz_cfg a b c ha hb hc
  exact ⟨cfg_of_ds p3 this, by rw [p11 _ this 0 (by norm_num), ghz_amp a b c ha hb hc]⟩

/-- C19 applies to `ghz` after a full sweep: `<σz>` vanishes at the middle site, by the amplitudes. -/
example : ∃ O : LinAlg, O.Spec ∧ ∃ m v m2, ghz.positions O [0, 3, 1] = .ok m ∧
    m.measureLocal O ⟨2, 2, fun i j => delta ℂ i j * (if i = 0 then 1 else -1)⟩ 1 = .ok (v, m2) ∧ v = some 0 := by
  obtain ⟨O, hO, m, hm, hw, hs, hc, ho, hds, hN, hb0, ha⟩ := ghz_canonical
  obtain ⟨v, m2, h⟩ := C19_measureLocal_succeeds hO (site := 1)
    (op := ⟨2, 2, fun i j => delta ℂ i j * (if i = 0 then 1 else -1)⟩) hw hs ho
    ⟨[0, 0, 0], (ha 0 (by norm_num) 0 (by norm_num) 0 (by norm_num)).1, by
      rw [(ha 0 (by norm_num) 0 (by norm_num) 0 (by norm_num)).2]; norm_num⟩ (by rw [hds]; rfl) rfl
  refine ⟨O, hO, m, v, m2, hm, h, ?_⟩
  rw [(C19_measureLocal hO hw hs hc ho h).2.1]
  congr 1
  have hA : ∀ a b c, a < 2 → b < 2 → c < 2 → m.amp [a, b, c] 0 0 = if a = b ∧ b = c then 1 else 0 :=
    fun a b c h1 h2 h3 => (ha a h1 b h2 c h3).2
  unfold MPS.expect
  rw [hds]
  simp only [sumCfg, sum_range_succ, range_zero, sum_empty, zero_add]
  repeat rw [hA _ _ _ (by norm_num) (by norm_num) (by norm_num)]
  simp [siteOps, opEl, eyeK, delta]

/-! ## C20 -/

/-- **C20.** On a canonical open chain every entry of `measureList(ops)` is the expectation value of the
operator at its site; position and state are restored. -/
theorem C20_measureList {O : LinAlg} (hO : O.Spec) {m m2 : MPS} {ops : List (Mat ℂ)} {v : Option (List ℂ)}
    (hw : m.WF 1 1) (hs : m.sth < 1e-15) (hc : m.Canonical) (ho : m.obc = true)
    (h : m.measureList O ops = .ok (v, m2)) :
    (∃ l, v = some l ∧ l.length = m.N ∧ ops.length = m.N ∧
      ∀ n x op, l[n]? = some x → ops[n]? = some op → x = m.expect (siteOps m.ds n op)) ∧
    m2.WF 1 1 ∧ m2.Canonical ∧ m2.pos = m.pos ∧ m2.ds = m.ds ∧
      ∀ s, Cfg m.tensors s → m2.amp s 0 0 = m.amp s 0 0 := by
  unfold MPS.measureList at h
  rw [if_neg (by rw [ho]; simp)] at h
  split at h
  · cases h
  rename_i m1 e1
  split at h
  · cases h
  rename_i L e2
  split at h
  · cases h
  rename_i q2 e3
  simp only [Except.ok.injEq, Prod.mk.injEq] at h
  obtain ⟨rfl, rfl⟩ := h
  obtain ⟨-, B⟩ := position_back' hO hw hs e1 e3
  have M1 := B.fst
  have hpos : m1.pos = 0 := by rw [M1.pos]; rfl
  have c1 := canonical_position hO hw hs hc e1
  have c2 := canonical_position hO M1.wf (by rw [M1.sth]; exact hs) c1 e3
  unfold mfMeasureLocal at e2
  rw [if_pos rfl] at e2
  split_ifs at e2 with k1 k2
  simp only [not_not] at k1
  refine ⟨⟨_, rfl, ?_⟩, B.snd.wf, c2, B.snd.pos, B.ds, fun s hs => B.amp s hs 0 (by norm_num) 0⟩
  have hR := M1.wf.right
  rw [hpos, List.drop_zero] at hR
  have hro := c1.right'
  rw [hpos, List.drop_zero] at hro
  have hmc : m1.mat.c = 1 := by
    cases hts : m1.tensors with
    | nil => exact absurd hts k2
    | cons t ts =>
      rw [hts] at hR k1 e2
      cases ops with
      | nil => simp at k1
      | cons o os =>
        simp only [measRLoop] at e2
        split at e2
        · cases e2
        rename_i Lm h1
        have := (addLayerR_dims h1).2.2.2.1
        exact hR.1.symm.trans this.symm
  obtain ⟨hl, hmr, -, hamp⟩ := amp_end M1.wf (Or.inl ⟨hpos, hmc⟩)
  obtain ⟨q1, q2⟩ := measRLoop_spec m1.tensors ops [] oneEnv L (isL_nil _) rfl hl hro k1 e2
  have hN : m1.tensors.length = m.N := by rw [M1.wf.len, M1.N]
  refine ⟨by rw [List.length_map, q1, hN], by rw [← k1, hN], ?_⟩
  intro n x op hx hop
  rw [List.getElem?_map] at hx
  cases hy : L[n]? with
  | none => rw [hy] at hx; simp at hx
  | some y =>
    rw [hy] at hx
    simp only [Option.map_some, Option.some.injEq] at hx
    have := (q2 n y op hy hop).2
    simp only [List.nil_append, List.length_nil, Nat.zero_add] at this
    rw [sandwich_rightOrth hl hro, mul_one] at this
    have hd : m1.tensors.map Ten.d = m.ds := M1.ds
    rw [← hx, this, hd, B.Z, expect_of_chain (m := m) (c := m1.Z * m1.mat.v 0 0) (ts := m1.tensors) hd]
    · have hu := normF_one_by_one hmr hmc c1.norm
      rw [star_mul']
      linear_combination (- (m1.Z * star m1.Z * sandwich m1.tensors (siteOps m.ds n op) m1.tensors)) * hu
    · intro s hs
      rw [← M1.amp s hs 0 (by norm_num)]
      exact hamp s (by rw [hN, ← hw.len]; exact hs.length_eq.symm)


theorem measRLoop_ok : ∀ (ts : List (Ten ℂ)) (ops : List (Mat ℂ)) (As : List (Ten ℂ)) (L0 : Env ℂ),
    IsL oneEnv As (As.map fun t => idMpo ℂ 1 t.d) As L0 → L0.m = 1 → L0.w = L0.u → Linked L0.u ts 1 →
    (∀ t ∈ ts, RightOrth t) →
    List.Forall₂ (fun t (o : Mat ℂ) => o.r = t.d ∧ o.c = t.d) ts ops →
    sandwich (As ++ ts) (((As ++ ts).map Ten.d).map (eyeK ℂ)) (As ++ ts) = 1 →
    ∃ l, measRLoop ts ops L0 = .ok l := by
  intro ts
  induction ts with
  | nil => intro ops As L0 _ _ _ _ _ hf _; cases hf; exact ⟨[], rfl⟩
  | cons t ts ih =>
    intro ops As L0 hL hm hw hl ho hf hone
    cases hf with
    | cons hd hf =>
      rename_i o os
      have hor : ∀ t ∈ ts, RightOrth t := fun x hx => ho x (by simp [hx])
      obtain ⟨Lm, h1⟩ : ∃ Lm, addLayerR L0 t o.mpo t = .ok Lm := by
        unfold addLayerR
        rw [if_pos ⟨hl.1.symm, hm, hd.1.symm, hw.trans hl.1.symm, hd.2⟩]
        exact ⟨_, rfl⟩
      obtain ⟨L1, h2⟩ : ∃ L1, addELayerR L0 t t = .ok L1 := by
        unfold addELayerR
        rw [if_pos ⟨hl.1.symm, hw.trans hl.1.symm, rfl⟩]
        exact ⟨_, rfl⟩
      obtain ⟨g1, g2⟩ := isL_snocE hL h2
      rw [hm] at g2
      have d2 := addELayerR_dims h2
      have hL1 : IsL oneEnv (As ++ [t]) ((As ++ [t]).map fun t => idMpo ℂ 1 t.d) (As ++ [t]) L1 := by
        rw [List.map_append]; exact g2
      have t1 := trace_right (As := As ++ [t]) (os := ((As ++ [t]).map Ten.d).map (eyeK ℂ)) (Bs := ts)
          (by rw [← ids_mpo]; exact hL1) (by rw [d2.1]; exact hl.2) rfl hor
      have eap : As ++ t :: ts = (As ++ [t]) ++ ts := by simp
      have e1 : ((As ++ [t]).map Ten.d).map (eyeK ℂ) ++ (ts.map Ten.d).map (eyeK ℂ)
            = ((As ++ t :: ts).map Ten.d).map (eyeK ℂ) := by simp
      rw [e1, ← eap, hone] at t1
      obtain ⟨l, h3⟩ := ih os (As ++ [t]) L1 hL1 (g1.trans hm) (by rw [d2.1, d2.2.1]) (by rw [d2.1]; exact hl.2) hor hf
        (by rw [← eap]; exact hone)
      refine ⟨Lm.trace / L1.trace :: l, ?_⟩
      simp only [measRLoop, h1, h2, h3]
      rw [if_neg (by rw [t1]; exact one_ne_zero)]

/-- **C20**, progress: on a non-vanishing canonical chain with trivial outer bonds the call succeeds for
every list of operators of the right dimensions. -/
theorem C20_measureList_succeeds {O : LinAlg} (hO : O.Spec) {m : MPS} {ops : List (Mat ℂ)}
    (hw : m.WF 1 1) (hs : m.sth < 1e-15) (hc : m.Canonical) (ho : m.obc = true) (hN : m.N ≠ 0)
    (hb0 : m.bondDim 0 ≤ 1) (ha : ∃ s, Cfg m.tensors s ∧ m.amp s 0 0 ≠ 0)
    (hop : List.Forall₂ (fun d (o : Mat ℂ) => o.r = d ∧ o.c = d) m.ds ops) :
    ∃ l m2, m.measureList O ops = .ok (some l, m2) := by
  obtain ⟨s, hcfg, ha⟩ := ha
  obtain ⟨m1, e1⟩ := position_ok hO hw hs ⟨s, 0, 0, hcfg, by norm_num, ha⟩ (b := 0) (by omega)
  obtain ⟨-, -, M1⟩ := position_moved hO (effSth_default hs) hw e1
  have ha1 : ∃ s, Cfg m1.tensors s ∧ m1.amp s 0 0 ≠ 0 :=
    ⟨s, cfg_of_ds M1.ds hcfg, by rw [M1.amp s hcfg 0 (by norm_num)]; exact ha⟩
  obtain ⟨m2, e2⟩ := position_ok hO M1.wf (by rw [M1.sth]; exact hs)
    (by obtain ⟨s, h1, h2⟩ := ha1; exact ⟨s, 0, 0, h1, by norm_num, h2⟩) (b := m.pos)
    (by rw [M1.N]; exact hw.pos_le)
  have hpos : m1.pos = 0 := by rw [M1.pos]; rfl
  have c1 := canonical_position hO hw hs hc e1
  have hmc : m1.mat.c = 1 := by
    have hb := (M1.bond 0 (by omega)).trans hb0
    unfold MPS.bondDim at hb
    rw [if_pos hpos.symm] at hb
    obtain ⟨s, -, h2⟩ := ha1
    have : m1.mat.c ≠ 0 := by intro h; apply h2; unfold MPS.amp; rw [h]; simp
    omega
  obtain ⟨hl, hmr, -, hamp⟩ := amp_end M1.wf (Or.inl ⟨hpos, hmc⟩)
  have hro := c1.right'
  rw [hpos, List.drop_zero] at hro
  have hd : m1.tensors.map Ten.d = m.ds := M1.ds
  have hf : List.Forall₂ (fun t (o : Mat ℂ) => o.r = t.d ∧ o.c = t.d) m1.tensors ops := by
    rw [← hd, List.forall₂_map_left_iff] at hop
    exact hop
  obtain ⟨L, hL⟩ := measRLoop_ok m1.tensors ops [] oneEnv (isL_nil _) rfl rfl hl hro hf
    (by rw [List.nil_append]; exact sandwich_rightOrth hl hro)
  refine ⟨L.map fun x => x * m2.Z * star m2.Z, m2, ?_⟩
  have e1' : m.position O 0 = .ok m1 := by exact_mod_cast e1
  unfold MPS.measureList mfMeasureLocal
  rw [if_neg (by rw [ho]; simp), e1']
  simp only
  rw [if_neg (by rw [not_not]; exact hf.length_eq), if_neg ?_, if_pos trivial, hL]
  · simp only [e2]
  · intro h
    have := M1.wf.len
    rw [h, M1.N] at this
    simp at this; omega

/-- **C20**: entry `n` of `measureList` is the value of `measureLocal(ops[n],n)`, from every current
position of a canonical chain. -/
theorem C20_measureList_eq_measureLocal {O : LinAlg} (hO : O.Spec) {m m2 m3 : MPS} {ops : List (Mat ℂ)}
    {l : List ℂ} {n : ℕ} {op : Mat ℂ} {v : Option ℂ}
    (hw : m.WF 1 1) (hs : m.sth < 1e-15) (hc : m.Canonical) (ho : m.obc = true)
    (h : m.measureList O ops = .ok (some l, m2)) (hop : ops[n]? = some op)
    (h' : m.measureLocal O op n = .ok (v, m3)) : l[n]? = v := by
  obtain ⟨hn, hv, -⟩ := C19_measureLocal hO hw hs hc ho h'
  obtain ⟨⟨l', e, h1, h2, h3⟩, -⟩ := C20_measureList hO hw hs hc ho h
  obtain rfl := Option.some.inj e
  have hx : n < l.length := by omega
  rw [List.getElem?_eq_getElem hx, hv, h3 n _ op (List.getElem?_eq_getElem hx) hop]

/-- **C20**: a list of the wrong length is a ValueError, an empty chain an IndexError. -/
theorem C20_measureList_rejects (ts : List (Ten ℂ)) (ops : List (Mat ℂ)) (lb rb : Env ℂ) (b : Bool) :
    (ts.length ≠ ops.length → mfMeasureLocal ts ops lb rb b = .error .value) ∧
      mfMeasureLocal [] [] lb rb b = .error .index := by
  constructor
  · intro h; unfold mfMeasureLocal; rw [if_pos h]
  · rfl

/-- C20 applies to `ghz` after a full sweep. -/
example : ∃ O : LinAlg, O.Spec ∧ ∃ m x l m2, ghz.positions O [0, 3, 1] = .ok m ∧
    m.measureList O (List.replicate 3 ⟨2, 2, fun i j => delta ℂ i j * (if i = 0 then 1 else 0)⟩) = .ok (some (x :: l), m2) ∧
    x = 1 := by
  obtain ⟨O, hO, m, hm, hw, hs, hc, ho, hds, hN, hb0, ha⟩ := ghz_canonical
  obtain ⟨l, m2, h⟩ := C20_measureList_succeeds hO (ops := List.replicate 3 ⟨2, 2, fun i j => delta ℂ i j * (if i = 0 then 1 else 0)⟩)
    hw hs hc ho (by omega) hb0
    ⟨[0, 0, 0], (ha 0 (by norm_num) 0 (by norm_num) 0 (by norm_num)).1, by
      rw [(ha 0 (by norm_num) 0 (by norm_num) 0 (by norm_num)).2]; norm_num⟩ (by rw [hds]; simp [List.replicate])
  obtain ⟨⟨l', e, h1, h2, h3⟩, -⟩ := C20_measureList hO hw hs hc ho h
  obtain rfl := Option.some.inj e
  cases l with
  | nil => simp at h1; omega
  | cons x l =>
    refine ⟨O, hO, m, x, l, m2, hm, h, ?_⟩
    rw [h3 0 x _ rfl rfl]
    have hA : ∀ a b c, a < 2 → b < 2 → c < 2 → m.amp [a, b, c] 0 0 = if a = b ∧ b = c then 1 else 0 :=
      fun a b c h1 h2 h3 => (ha a h1 b h2 c h3).2
    unfold MPS.expect
    rw [hds]
    simp only [sumCfg, sum_range_succ, range_zero, sum_empty, zero_add]
    repeat rw [hA _ _ _ (by norm_num) (by norm_num) (by norm_num)]
    simp [siteOps, opEl, eyeK, delta]

theorem addLayerL_dims {E E1 : Env ℂ} {A B : Ten ℂ} {W : Mpo ℂ} (h : addLayerL E A W B = .ok E1) :
    E1.u = A.l ∧ E1.w = B.l ∧ E1.m = W.l ∧ E.u = A.r ∧ E.w = B.r ∧ E.m = W.r ∧ A.d = W.din ∧ W.dout = B.d := by
  unfold addLayerL at h
  split_ifs at h with hs
  simp only [Except.ok.injEq] at h
  subst h
  refine ⟨rfl, rfl, rfl, ?_⟩
  tauto

/-- Loop invariant of `measureLocal(...,'left')`. -/
theorem measLLoop_spec : ∀ (ts : List (Ten ℂ)) (ops : List (Mat ℂ)) (Bs : List (Ten ℂ)) (R0 : Env ℂ) (l : List ℂ),
    IsR oneEnv Bs (Bs.map fun t => idMpo ℂ 1 t.d) Bs R0 → R0.m = 1 → Linked 1 ts.reverse R0.u →
    (∀ t ∈ ts, LeftOrth t) → ts.length = ops.length → measLLoop ts ops R0 = .ok l →
    l.length = ts.length ∧ ∀ k c op, l[k]? = some c → ops[k]? = some op →
      c * sandwich (ts.reverse ++ Bs) (((ts.reverse ++ Bs).map Ten.d).map (eyeK ℂ)) (ts.reverse ++ Bs) =
        sandwich (ts.reverse ++ Bs) (siteOps ((ts.reverse ++ Bs).map Ten.d) (ts.length - 1 - k) op) (ts.reverse ++ Bs) := by
  intro ts
  induction ts with
  | nil =>
    intro ops As L0 l _ _ _ _ hlen h
    cases ops with
    | cons o os => simp at hlen
    | nil => simp only [measLLoop, Except.ok.injEq] at h; subst h; simp
  | cons t ts ih =>
    intro ops Bs R0 l hR hm hl ho hlen h
    cases ops with
    | nil => simp at hlen
    | cons o os =>
      simp only [measLLoop] at h
      split at h
      · cases h
      rename_i Rm h1
      split at h
      · cases h
      rename_i R1 h2
      split_ifs at h with hz
      split at h
      · cases h
      rename_i l' h3
      simp only [Except.ok.injEq] at h
      subst h
      obtain ⟨g1, g2⟩ := isR_consE hR h2
      rw [hm] at g2
      have d1 := addLayerL_dims h1
      have d2 := addELayerL_dims h2
      have hts : Linked 1 ts.reverse t.l := by
        rw [List.reverse_cons, linked_append] at hl
        obtain ⟨k, hk1, hk2⟩ := hl
        rw [hk2.1]; exact hk1
      have hR1 : IsR oneEnv (t :: Bs) ((t :: Bs).map fun t => idMpo ℂ 1 t.d) (t :: Bs) R1 := g2
      have hol : ∀ t ∈ ts, LeftOrth t := fun x hx => ho x (by simp [hx])
      have hol' : ∀ t ∈ ts.reverse, LeftOrth t := fun x hx => hol x (by simpa using hx)
      obtain ⟨q1, q2⟩ := ih os (t :: Bs) R1 l' hR1 (g1.trans hm) (by rw [d2.1]; exact hts) hol
        (by simpa using hlen) h3
      have eap : (t :: ts).reverse ++ Bs = ts.reverse ++ t :: Bs := by simp
      refine ⟨by simp [q1], ?_⟩
      intro k c op hk hop
      rw [eap]
      cases k with
      | zero =>
        simp only [List.getElem?_cons_zero, Option.some.injEq] at hk hop
        subst hk hop
        have t1 := trace_left (Bs := t :: Bs) (os := ((t :: Bs).map Ten.d).map (eyeK ℂ)) (As := ts.reverse)
          (by rw [← ids_mpo]; exact hR1) (by rw [d2.1]; exact hts) rfl hol' (by rw [d2.1, d2.2.1])
        have hRm : IsR oneEnv (t :: Bs) ((o :: (Bs.map Ten.d).map (eyeK ℂ)).map Mat.mpo) (t :: Bs) Rm := by
          rw [List.map_cons, ← ids_mpo]
          exact isR_cons hR h1
        have t2 := trace_left (As := ts.reverse) (Bs := t :: Bs) hRm (by rw [d1.1]; exact hts) rfl hol'
          (by rw [d1.1, d1.2.1])
        have e1 : (ts.reverse.map Ten.d).map (eyeK ℂ) ++ ((t :: Bs).map Ten.d).map (eyeK ℂ)
            = ((ts.reverse ++ t :: Bs).map Ten.d).map (eyeK ℂ) := by simp
        have e2 : (ts.reverse.map Ten.d).map (eyeK ℂ) ++ o :: (Bs.map Ten.d).map (eyeK ℂ)
            = siteOps ((ts.reverse ++ t :: Bs).map Ten.d) ((t :: ts).length - 1 - 0) o := by
          unfold siteOps
          rw [List.map_append, List.map_append]
          have := set_length_append ((ts.reverse.map Ten.d).map (eyeK ℂ)) (((t :: Bs).map Ten.d).map (eyeK ℂ)) 0 o
          simp only [List.length_map, List.length_reverse] at this
          have hl : (t :: ts).length - 1 - 0 = ts.length + 0 := by simp
          rw [hl, this]; simp
        rw [e1] at t1
        rw [e2] at t2
        rw [← t1, ← t2, div_mul_cancel₀ _ hz]
      | succ k =>
        simp only [List.getElem?_cons_succ] at hk hop
        rw [q2 k c op hk hop]
        congr 2
        simp only [List.length_cons]; omega

/-- **C20** for the module function with `ortho='right'`: on a right-orthonormal open chain every entry is
the expectation value of the operator at its site. -/
theorem C20_mf_right {ts : List (Ten ℂ)} {ops : List (Mat ℂ)} {rb : Env ℂ} {l : List ℂ}
    (hl : Linked 1 ts 1) (ho : ∀ t ∈ ts, RightOrth t) (h : mfMeasureLocal ts ops oneEnv rb true = .ok l) :
    l.length = ts.length ∧ ∀ n x op, l[n]? = some x → ops[n]? = some op →
      x = sandwich ts (siteOps (ts.map Ten.d) n op) ts := by
  unfold mfMeasureLocal at h
  rw [if_pos rfl] at h
  split_ifs at h with k1 k2
  obtain ⟨q1, q2⟩ := measRLoop_spec ts ops [] oneEnv l (isL_nil _) rfl hl ho (not_not.mp k1) h
  refine ⟨q1, fun n x op hx hop => ?_⟩
  have := (q2 n x op hx hop).2
  simp only [List.nil_append, List.length_nil, Nat.zero_add] at this
  rwa [sandwich_rightOrth hl ho, mul_one] at this

/-- **C20** for the module function with `ortho='left'` on a left-orthonormal open chain. -/
theorem C20_mf_left {ts : List (Ten ℂ)} {ops : List (Mat ℂ)} {lb : Env ℂ} {l : List ℂ}
    (hl : Linked 1 ts 1) (ho : ∀ t ∈ ts, LeftOrth t) (h : mfMeasureLocal ts ops lb oneEnv false = .ok l) :
    l.length = ts.length ∧ ∀ n x op, l[n]? = some x → ops[n]? = some op →
      x = sandwich ts (siteOps (ts.map Ten.d) n op) ts := by
  unfold mfMeasureLocal at h
  rw [if_neg (c := (false = true)) (by simp)] at h
  split_ifs at h with k1 k2
  split at h
  · cases h
  rename_i l' h'
  simp only [Except.ok.injEq] at h
  subst h
  have hlen : ts.length = ops.length := not_not.mp k1
  obtain ⟨q1, q2⟩ := measLLoop_spec ts.reverse ops.reverse [] oneEnv l' (isR_nil _) rfl (by rw [List.reverse_reverse]; exact hl)
    (fun t ht => ho t (by simpa using ht)) (by simpa using hlen) h'
  simp only [List.length_reverse] at q1
  refine ⟨by simp [q1], fun n x op hx hop => ?_⟩
  have hn : n < ts.length := by
    have := (List.getElem?_eq_some_iff.mp hop).1; omega
  have hx' : l'[ts.length - 1 - n]? = some x := by
    rw [List.getElem?_reverse (by omega), q1] at hx; exact hx
  have hop' : ops.reverse[ts.length - 1 - n]? = some op := by
    rw [List.getElem?_reverse (by omega), ← hlen]
    rw [show ts.length - 1 - (ts.length - 1 - n) = n by omega]; exact hop
  have := q2 _ x op hx' hop'
  simp only [List.append_nil, List.reverse_reverse, List.length_reverse] at this
  rw [sandwich_leftOrth hl ho, mul_one, show ts.length - 1 - (ts.length - 1 - n) = n by omega] at this
  exact this

/-- The module function applies to the product state `|0>|0>` (both orthonormalities hold). -/
example : (∃ l, mfMeasureLocal [⟨1, 1, 2, fun _ _ s => delta ℂ s 0⟩, ⟨1, 1, 2, fun _ _ s => delta ℂ s 0⟩]
      [⟨2, 2, fun i j => (i + 2 * j + 3 : ℂ)⟩, ⟨2, 2, fun i j => (i + j + 5 : ℂ)⟩] oneEnv oneEnv true = .ok l ∧ l = [3, 5]) ∧
    (∃ l, mfMeasureLocal [⟨1, 1, 2, fun _ _ s => delta ℂ s 0⟩, ⟨1, 1, 2, fun _ _ s => delta ℂ s 0⟩]
      [⟨2, 2, fun i j => (i + 2 * j + 3 : ℂ)⟩, ⟨2, 2, fun i j => (i + j + 5 : ℂ)⟩] oneEnv oneEnv false = .ok l ∧ l = [3, 5]) := by
  constructor <;>
  simp [mfMeasureLocal, measRLoop, measLLoop, addLayerR, addELayerR, addLayerL, addELayerL, oneEnv, Mat.mpo, Env.trace,
    delta]

end

end PyTeN
