import Verif.Props.RegaugeImps
import Verif.Mps.RegaugeNormal
import Verif.Mps.TruncErr

/-! # C91: `regaugeIMPS` with truncation -/

namespace PyTeN.Regauge
open Finset Transfer Lanczos Idmrg Matrix
noncomputable section

variable {O : LinAlg} {eigh : Eigh} {eigs : Eigs} {pinv : ℝ} {n : ℕ} {ts : List (Ten ℂ)}

/-- Spec: the tensor `b` followed by `Q` is, up to the factor `κ`, the orthogonal projection of the cell `C` onto the right blocks
`Q`. -/
def Projected (l r : ℕ) (C : List (Ten ℂ)) (b : Ten ℂ) (Q : List (Ten ℂ)) (κ : ℝ) : Prop :=
  ∀ i < l, ∀ q < b.r, ∀ x < b.d, (κ : ℂ) * b.v i q x =
    sumCfg (Q.map Ten.d) (fun s => ∑ j ∈ range r, star (chain Q s q j) * chain C (x :: s) i j)

theorem cutT {O : LinAlg} (hO : O.Spec) {t out : Ten ℂ} {D : Option ℕ} {th Z : ℝ} {u : Mat ℂ} {s : List ℝ} (h : prepareTruncateL O t D th = .ok (u, s, out, Z)) :
    out.l = s.length ∧ out.r = t.r ∧ out.d = t.d ∧ RightOrth out ∧ (u.dot (diagMat s)).r = t.l ∧ (u.dot (diagMat s)).c = s.length ∧ s.length ≤ t.l ∧
    (∀ D', D = some D' → s.length ≤ D') ∧
    ∃ c : ℝ, 0 < c ∧ ∀ i < t.l, ∀ b < s.length, (c : ℂ) * (u.dot (diagMat s)).v i b = ∑ j ∈ range t.r, ∑ x ∈ range t.d, star (out.v b j x) * t.v i j x := by
  obtain ⟨S, hS⟩ := prepareTruncateL_spec hO h
  obtain ⟨p1, p2, p3, -⟩ := truncS_prefix hS.sorted D th
  refine ⟨hS.ol, hS.outr, hS.od, hS.orth, hS.ur, rfl, ?_, fun D' hD => ?_, ?_⟩
  · rw [hS.kept.2]
    refine p2.trans ?_
    rw [hS.Slen]; exact min_le_left _ _
  · rw [hS.kept.2]; exact p3 D' hD
  · by_cases h0 : s = []
    · exact ⟨1, one_pos, fun i _ b hb => by rw [h0] at hb; simp at hb⟩
    · obtain ⟨c, hc⟩ := prepareTruncateL_best hO h h0
      exact ⟨c, hc.pos, fun i hi b hb => hc.proj i hi b hb⟩

/-- One step: the overlaps with the right blocks after the cut. -/
theorem projected_step {l r : ℕ} {u t out u' : Ten ℂ} {C G : List (Ten ℂ)} {m : Mat ℂ} {κ c : ℝ} (hP : Projected t.l r C t G κ)
    (hu : absorbR u m = .ok u') (hut : u.r = t.l) (o2 : out.r = t.r) (o3 : out.d = t.d)
    (hm : ∀ i < t.l, ∀ b < m.c, (c : ℂ) * m.v i b = ∑ j ∈ range t.r, ∑ x ∈ range t.d, star (out.v b j x) * t.v i j x) :
    Projected l r (u :: C) u' (out :: G) (κ * c) := by
  obtain ⟨-, rfl⟩ := absorbR_eq hu
  intro q hq b hb y hy
  simp only at hb hy ⊢
  have e1 : ∀ i ∈ range u.r, ((κ * c : ℝ) : ℂ) * (u.v q i y * m.v i b)
      = ∑ x ∈ range t.d, sumCfg (G.map Ten.d) (fun s => ∑ j ∈ range r, (∑ p ∈ range t.r, star (out.v b p x) * star (chain G s p j)) * (u.v q i y * chain C (x :: s) i j)) := by
    intro i hi
    have hi' : i < t.l := by rw [← hut]; exact mem_range.mp hi
    have e : ((κ * c : ℝ) : ℂ) * (u.v q i y * m.v i b) = u.v q i y * ((κ : ℂ) * ((c : ℂ) * m.v i b)) := by push_cast; ring
    rw [e, hm i hi' b hb]
    simp only [mul_sum]
    rw [sum_comm]
    refine sum_congr rfl fun x hx => ?_
    have e2 : ∀ p ∈ range t.r, u.v q i y * ((κ : ℂ) * (star (out.v b p x) * t.v i p x))
        = sumCfg (G.map Ten.d) (fun s => ∑ j ∈ range r, star (out.v b p x) * star (chain G s p j) * (u.v q i y * chain C (x :: s) i j)) := by
      intro p hp
      have := hP i hi' p (mem_range.mp hp) x (mem_range.mp hx)
      rw [show u.v q i y * ((κ : ℂ) * (star (out.v b p x) * t.v i p x)) = (u.v q i y * star (out.v b p x)) * ((κ : ℂ) * t.v i p x) by ring, this,
        ← sumCfg_mul]
      refine sumCfg_congr fun s _ => ?_
      rw [mul_sum]
      exact sum_congr rfl fun j _ => by ring
    rw [sum_congr rfl e2, ← sumCfg_sum]
    refine sumCfg_congr fun s _ => ?_
    rw [sum_comm]
    refine sum_congr rfl fun j _ => ?_
    rw [sum_mul]
  rw [mul_sum, sum_congr rfl e1]
  simp only [List.map_cons, sumCfg, o3]
  rw [sum_comm]
  refine sum_congr rfl fun x hx => ?_
  rw [← sumCfg_sum]
  refine sumCfg_congr fun s _ => ?_
  rw [sum_comm]
  refine sum_congr rfl fun j _ => ?_
  simp only [chain, star_sum, star_mul', o2]
  rw [mul_sum]

theorem sweepT_spec (hO : O.Spec) {D : Option ℕ} {th : ℝ} : ∀ {left : List (Ten ℂ)} {t : Ten ℂ} {C G B : List (Ten ℂ)} {l r : ℕ} {κ : ℝ},
    Linked l left.reverse t.l → Linked t.l C r → Linked t.r G r → (∀ g ∈ G, RightOrth g) → (∀ D', D = some D' → ∀ g ∈ G, g.l ≤ D') → 0 < κ →
    Projected t.l r C t G κ → t.d :: G.map Ten.d = C.map Ten.d → sweepT O D th t left G = .ok B →
    ∃ (b : Ten ℂ) (Q : List (Ten ℂ)) (κ' : ℝ), B = b :: Q ∧ 0 < κ' ∧ b.l = l ∧ Linked b.r Q r ∧ (∀ g ∈ Q, RightOrth g) ∧
      (∀ D', D = some D' → ∀ g ∈ Q, g.l ≤ D') ∧ (left.reverse ++ C).map Ten.d = B.map Ten.d ∧ Projected l r (left.reverse ++ C) b Q κ' ∧
      ∀ β, (∀ u ∈ left.reverse ++ t :: G, u.l ≤ β ∧ u.r ≤ β) → ∀ u ∈ B, u.l ≤ β ∧ u.r ≤ β := by
  intro left
  induction left with
  | nil =>
    intro t C G B l r κ h1 h2 h3 h4 h5 h6 h7 h8 h
    simp only [sweepT, Except.ok.injEq] at h
    subst h
    have h1 : l = t.l := h1
    subst h1
    exact ⟨t, G, κ, rfl, h6, rfl, h3, h4, h5, by simpa using h8.symm, h7, fun β hβ => hβ⟩
  | cons u left ih =>
    intro t C G B l r κ h1 h2 h3 h4 h5 h6 h7 h8 h
    simp only [sweepT] at h
    split at h
    · cases h
    rename_i U S out Z hcut
    split at h
    · cases h
    rename_i u' hu'
    obtain ⟨o1, o2, o3, o4, m1, m2, o5, o6, c, hc, hm⟩ := cutT hO hcut
    rw [List.reverse_cons] at h1
    obtain ⟨k, g1, g2, g3⟩ := linked_append_iff.1 h1
    have g2 : u.l = k := g2
    have g3 : u.r = t.l := g3
    subst g2
    obtain ⟨-, e⟩ := absorbR_eq hu'
    have el : u'.l = u.l := by rw [e]
    have er : u'.r = out.l := by rw [e, o1, ← m2]
    have ed : u'.d = u.d := by rw [e]
    have hP : Projected u'.l r (u :: C) u' (out :: G) (κ * c) :=
      projected_step h7 hu' g3 o2 o3 (fun i hi b hb => hm i hi b (by rw [← m2]; exact hb))
    obtain ⟨b, Q, κ', q1, q2, q3, q4, q5, q6, q7, q8, q9⟩ := ih (l := l) (t := u') (C := u :: C) (G := out :: G) (by rw [el]; exact g1)
      ⟨el.symm, by rw [g3]; exact h2⟩ ⟨er.symm, by rw [o2]; exact h3⟩
      (fun g hg => by
        rcases List.mem_cons.1 hg with rfl | hg
        · exact o4
        · exact h4 g hg)
      (fun D' hD g hg => by
        rcases List.mem_cons.1 hg with rfl | hg
        · rw [o1]; exact o6 D' hD
        · exact h5 D' hD g hg)
      (mul_pos h6 hc) hP (by rw [List.map_cons, List.map_cons, ← h8, ed, o3]) h
    refine ⟨b, Q, κ', q1, q2, q3, q4, q5, q6, by rw [← q7]; simp, by rw [List.reverse_cons, List.append_assoc]; exact q8, fun β hβ => q9 β ?_⟩
    intro v hv
    have hu0 := hβ u (by simp)
    have ht0 := hβ t (by simp)
    rcases List.mem_append.1 hv with hv | hv
    · exact hβ v (by rw [List.reverse_cons]; simp only [List.mem_append]; exact Or.inl (Or.inl hv))
    · rcases List.mem_cons.1 hv with rfl | hv
      · exact ⟨by rw [el]; exact hu0.1, by rw [er, o1]; exact o5.trans ht0.1⟩
      · rcases List.mem_cons.1 hv with rfl | hv
        · exact ⟨by rw [o1]; exact o5.trans ht0.1, by rw [o2]; exact ht0.2⟩
        · exact hβ v (by simp [hv])

/-- The whole truncating sweep, from the last tensor to the first one. -/
theorem sweepT_cell (hO : O.Spec) {D : Option ℕ} {th : ℝ} {C B : List (Ten ℂ)} {l r : ℕ} (hl : Linked l C r)
    (h : fromLast (fun t l => sweepT O D th t l []) C = .ok B) :
    ∃ (b : Ten ℂ) (Q : List (Ten ℂ)) (κ : ℝ), B = b :: Q ∧ 0 < κ ∧ b.l = l ∧ Linked b.r Q r ∧ (∀ g ∈ Q, RightOrth g) ∧
      (∀ D', D = some D' → ∀ g ∈ Q, g.l ≤ D') ∧ C.map Ten.d = B.map Ten.d ∧ Projected l r C b Q κ ∧
      ∀ β, (∀ u ∈ C, u.l ≤ β ∧ u.r ≤ β) → ∀ u ∈ B, u.l ≤ β ∧ u.r ≤ β := by
  rcases List.eq_nil_or_concat C with rfl | ⟨P, t, rfl⟩
  · simp [fromLast, fromFirst] at h
  rw [List.concat_eq_append] at hl h ⊢
  simp only [fromLast, List.reverse_append, List.reverse_singleton, List.singleton_append, fromFirst] at h
  obtain ⟨k, h1, h2, h3⟩ := linked_append_iff.1 hl
  have h2 : t.l = k := h2
  have h3 : t.r = r := h3
  subst h2; subst h3
  have hP : Projected t.l t.r [t] t [] 1 := by
    intro i hi q hq x hx
    simp only [List.map_nil, sumCfg]
    rw [sum_congr rfl fun j hj => by rw [chain_one (mem_range.mp hj)]]
    simp only [chain]
    rw [sum_congr rfl fun j _ => by rw [show star (delta ℂ q j) = delta ℂ q j by simp [delta]]]
    rw [sum_delta_left hq]; simp
  obtain ⟨b, Q, κ, q⟩ := sweepT_spec hO (left := P.reverse) (t := t) (C := [t]) (G := []) (l := l) (by rw [List.reverse_reverse]; exact h1)
    ⟨rfl, rfl⟩ rfl (by simp) (by simp) one_pos hP rfl h
  rw [List.reverse_reverse] at q
  exact ⟨b, Q, κ, q⟩

/-! ## Shapes -/

variable {eigh : Eigh} {eigs : Eigs} {pinv : ℝ} {n : ℕ} {ts : List (Ten ℂ)}

theorem ends_run (hO : O.Spec) (hl : Linked n ts n) (hne : ts ≠ []) {invx invy U Vd : Mat ℂ} {lam : List ℝ} (hx : invx.c = n) (hy : invy.r = n)
    (hU : lam.length ≤ U.c) {B : List (Ten ℂ)} (h : symEnds O ts invx invy U lam Vd = .ok B) :
    ∃ z : ℝ, 0 < z ∧ Linked lam.length B lam.length ∧ B.map Ten.d = ts.map Ten.d ∧ (∀ s, Cfg ts s → ∀ i < lam.length, ∀ j < lam.length,
        mmul n (mmul n (((diagMat lam).dot (takeRows Vd lam.length)).dot invx).v (chain ts s)) (invy.dot (takeCols U lam.length)).v i j
          = (z : ℂ) * chain B s i j) ∧
      ∀ b, lam.length ≤ b → (∀ u ∈ ts, u.l ≤ b ∧ u.r ≤ b) → ∀ u ∈ B, u.l ≤ b ∧ u.r ≤ b := by
  set X : Mat ℂ := ((diagMat lam).dot (takeRows Vd lam.length)).dot invx with hX
  set Y : Mat ℂ := invy.dot (takeCols U lam.length) with hY
  have hXr : X.r = lam.length := by simp [hX, Mat.dot, diagMat]
  have hYc : Y.c = lam.length := by simp [hY, Mat.dot, takeCols, hU]
  obtain ⟨ts1, a1, a2, a3, a4, a5, a6⟩ := first_absorb hl hne (X := X) (by simp [hX, Mat.dot, hx])
  obtain ⟨ts2, b1, b2, b3, b4, b5, b6⟩ := last_absorb a2 a3 (Y := Y) (by simp [hY, Mat.dot, hy])
  rw [hXr] at a2 a6 b2
  rw [hYc] at b2 b6
  have hlen : ts1.length = ts.length := by simpa using congrArg List.length a4
  simp only [symEnds, andThen, ← hX, ← hY, a1, b1] at h
  obtain ⟨t, Q, rfl⟩ := List.exists_cons_of_ne_nil b3
  simp only [fromFirst] at h
  obtain ⟨⟨z, S⟩, -, c3⟩ := sweepR_spec hO b2 h
  refine ⟨z, S.zpos, S.link, S.ds.trans (b4.trans a4), fun s hs i hi j hj => ?_, fun b hb h0 => c3 b (b6 b hb (a6 b hb h0))⟩
  rw [← S.eq s (cfg_congr (b4.trans a4) hs) i hi j hj, b5 s (by rw [hlen]; exact hs.length_eq) i (by rw [hXr]; exact hi) j (by rw [hYc]; exact hj)]
  exact (mmul_congr (fun k _ => a5 s i k hs.length_eq) fun _ _ => rfl).symm

theorem unitFirst_run {t t' : Ten ℂ} (h : unitFirst t = .ok t') : ∃ z : ℝ, 0 < z ∧ t' = divT z t ∧ 0 < t.l ∧
    ∑ i ∈ range t'.l, ∑ j ∈ range t'.r, ∑ s ∈ range t'.d, Complex.normSq (t'.v i j s) = t'.l := by
  unfold unitFirst at h
  simp only at h
  split_ifs at h with h0
  cases h
  have hl : 0 < t.l := by
    rcases Nat.eq_zero_or_pos t.l with h1 | h1
    · rw [h1] at h0; simp at h0
    · exact h1
  have hl' : (0 : ℝ) < t.l := by exact_mod_cast hl
  set Z := (∑ i ∈ range t.l, ∑ j ∈ range t.r, ∑ s ∈ range t.d, Complex.normSq (t.v i j s)) / t.l with hZ
  have hZ0 : 0 ≤ Z := div_nonneg (sum_nonneg fun i _ => sum_nonneg fun j _ => sum_nonneg fun s _ => Complex.normSq_nonneg _) hl'.le
  have hZp : 0 < Z := lt_of_le_of_ne hZ0 (Ne.symm h0)
  refine ⟨Real.sqrt Z, Real.sqrt_pos.2 hZp, rfl, hl, ?_⟩
  simp only [divT, Complex.normSq_div, Complex.normSq_ofReal, Real.mul_self_sqrt hZ0, ← sum_div]
  rw [div_eq_iff h0, hZ, mul_div_cancel₀ _ hl'.ne']

theorem unitLast_run {B A : List (Ten ℂ)} {l r : ℕ} (hl : Linked l B r) (h : onLast unitLast B = .ok A) :
    ∃ z : ℝ, Same l r B A z ∧ A.map (fun t => (t.l, t.r)) = B.map fun t => (t.l, t.r) := by
  rcases List.eq_nil_or_concat B with rfl | ⟨P, t, rfl⟩
  · simp [onLast] at h
  rw [List.concat_eq_append] at hl h ⊢
  obtain ⟨k, h1, h2, h3⟩ := linked_append_iff.1 hl
  have h3 : t.r = r := h3
  cases hu : unitLast t with
  | error e =>
    exfalso
    have : ∀ P : List (Ten ℂ), onLast unitLast (P ++ [t]) = .error e := by
      intro P
      induction P with
      | nil => simp [onLast, hu]
      | cons p P ih =>
        obtain ⟨a, Q, hQ⟩ := List.exists_cons_of_ne_nil (show P ++ [t] ≠ [] by simp)
        rw [List.cons_append, hQ, onLast, ← hQ, ih]
    rw [this] at h
    cases h
  | ok t' =>
    rw [onLast_append hu] at h
    cases h
    unfold unitLast at hu
    simp only at hu
    split_ifs at hu with h0
    cases hu
    set Z := (∑ j ∈ range t.r, ∑ i ∈ range t.l, ∑ s ∈ range t.d, Complex.normSq (t.v i j s)) / t.r with hZ
    have hZ0 : 0 ≤ Z := div_nonneg (sum_nonneg fun i _ => sum_nonneg fun j _ => sum_nonneg fun s _ => Complex.normSq_nonneg _) (Nat.cast_nonneg _)
    have hs0 : 0 < Real.sqrt Z := Real.sqrt_pos.2 (lt_of_le_of_ne hZ0 (Ne.symm h0))
    have hsc : ((Real.sqrt Z : ℝ) : ℂ) ≠ 0 := by exact_mod_cast hs0.ne'
    refine ⟨Real.sqrt Z, ⟨linked_append_iff.2 ⟨k, h1, h2, h3⟩, by simp [divT], hs0, fun s hs i hi j hj => ?_⟩, by simp [divT]⟩
    rw [chain_divT_last hl _ hs hi, mul_div_cancel₀ _ hsc]

theorem density_shape (he : EighSpec eigh) {v : Vec ℂ} {w wi : List ℝ} {u : Mat ℂ} (h : density eigh pinv n v = .ok (w, wi, u)) :
    w.length = n ∧ wi.length = n ∧ u.r = n ∧ u.c = n := by
  unfold density at h
  split at h
  · cases h
  rename_i l hl
  simp only at h
  split_ifs at h with htr
  set M : Mat ℂ := ⟨n, n, fun i j => (l.v i j / (∑ i ∈ range n, l.v i i) + star (l.v j i / (∑ i ∈ range n, l.v i i))) / 2⟩ with hM
  obtain ⟨e1, -, e3, e4, -⟩ := he M rfl (fun i _ j _ => by
    simp only [hM, map_div₀, map_add, RCLike.star_def, Complex.conj_conj, map_ofNat]
    rw [add_comm])
  split at h
  · cases h
  rename_i w0 wi0 hc
  cases h
  unfold cleanEig at hc
  split at hc
  · cases hc
  rename_i w1 h1
  split at hc
  · cases hc
  rename_i w2 h2
  cases hc
  have us : ∀ {a b : List ℝ}, unitSum a = .ok b → b.length = a.length := by
    intro a b hab
    unfold unitSum at hab
    split_ifs at hab
    cases hab
    simp
  have e : w.length = n := by
    rw [us h2, List.length_map, us h1, List.length_map]; exact e1
  exact ⟨e, by rw [List.length_map]; exact e, e3, e4⟩

theorem rescale_shape {η : ℂ} {A : List (Ten ℂ)} (h : rescale η ts = .ok A) : ∃ z : ℝ, A = ts.map (divT z) := by
  unfold rescale at h
  split_ifs at h
  cases h
  exact ⟨_, rfl⟩

theorem divT_bonds {z : ℝ} {b : ℕ} (h : ∀ u ∈ ts, u.l ≤ b ∧ u.r ≤ b) : ∀ u ∈ ts.map (divT z), u.l ≤ b ∧ u.r ≤ b := by
  intro u hu
  obtain ⟨t, ht, rfl⟩ := List.mem_map.1 hu
  exact h t ht

/-- Shapes of what is computed before the truncation. -/
theorem symParts_shape (hO : O.Spec) (he : EighSpec eigh) {A : List (Ten ℂ)} {invx invy U Vd : Mat ℂ} {s : List ℝ}
    (h : symParts O eigh eigs pinv n ts = .ok (A, invx, invy, U, s, Vd)) :
    (∃ z z' : ℝ, A = (ts.map (divT z)).map (divT z')) ∧ invx.c = n ∧ invy.r = n ∧ U.c = n ∧ s.length = n ∧ s.Pairwise (· ≥ ·) := by
  obtain ⟨⟨η, vr⟩, -, h⟩ := andThen_ok h
  obtain ⟨ts1, h2, h⟩ := andThen_ok h
  obtain ⟨⟨w, wi, u⟩, h3, h⟩ := andThen_ok h
  obtain ⟨⟨η', vl⟩, -, h⟩ := andThen_ok h
  obtain ⟨ts2, h5, h⟩ := andThen_ok h
  obtain ⟨⟨w', wi', u'⟩, h6, h⟩ := andThen_ok h
  simp only at h2 h3 h5 h6 h
  obtain ⟨d1, d2, d3, d4⟩ := density_shape he h3
  obtain ⟨e1, e2, e3, e4⟩ := density_shape he h6
  obtain ⟨z, rfl⟩ := rescale_shape h2
  obtain ⟨z', rfl⟩ := rescale_shape h5
  simp only [Except.ok.injEq, Prod.mk.injEq] at h
  obtain ⟨rfl, rfl, rfl, rfl, rfl, rfl⟩ := h
  have hs := hO.svd ((transp ((u'.dot (diagMat (w'.map Real.sqrt))).dot u'.herm)).dot ((u.dot (diagMat (w.map Real.sqrt))).dot u.herm))
  refine ⟨⟨z, z', rfl⟩, by simp [Mat.dot, Mat.herm, d3], by simp [Mat.dot, Mat.herm, transp, e3], ?_, ?_, hs.sorted⟩
  · rw [hs.u_c]; simp [Mat.dot, Mat.herm, transp, d3, e3]
  · rw [hs.len]; simp [Mat.dot, Mat.herm, transp, d3, e3]

theorem sel_truncS {truncate : ℝ} (ht : 1e-15 < truncate) (D : Option ℕ) (l : List ℝ) :
    (match D with
      | none => l.filter (truncate < ·)
      | some D => (l.filter (truncate < ·)).take (min (l.filter (truncate < ·)).length D)) = truncS l D truncate := by
  have h16 : truncate > 1e-16 := lt_trans (by norm_num) ht
  unfold truncS
  rw [if_pos h16]
  cases D with
  | none => rfl
  | some D =>
    show List.take (min _ D) _ = List.take (min D _) _
    rw [min_comm]

theorem Projected.scale {l r : ℕ} {C Q : List (Ten ℂ)} {b : Ten ℂ} {κ z : ℝ} (hz : 0 < z) (h : Projected l r C b Q κ) : Projected l r C (divT z b) Q (κ * z) := by
  intro i hi q hq x hx
  rw [← h i hi q hq x hx]
  simp only [divT]
  have : (z : ℂ) ≠ 0 := by exact_mod_cast hz.ne'
  push_cast
  field_simp

/-- The truncating branch up to the recursive call. -/
theorem trunc_run (hO : O.Spec) (he : EighSpec eigh) (hne : ts ≠ []) (hl : Linked n ts n) {fuel : ℕ} {truncate : ℝ} (ht : 1e-15 < truncate) {D : Option ℕ}
    {A : List (Ten ℂ)} {lam : List ℝ} (h : gaugeSym O eigh eigs pinv (fuel + 1) truncate D ts = .ok (A, lam)) :
    ∃ (ts1 : List (Ten ℂ)) (invx invy U : Mat ℂ) (s : List ℝ) (Vd : Mat ℂ) (l0 lk : List ℝ) (C : List (Ten ℂ)) (b : Ten ℂ) (Q : List (Ten ℂ)) (κ : ℝ),
      symParts O eigh eigs pinv n ts = .ok (ts1, invx, invy, U, s, Vd) ∧ normalise s = .ok l0 ∧ normalise (truncS l0 D truncate) = .ok lk ∧
      symEnds O ts1 invx invy U lk Vd = .ok C ∧ 0 < κ ∧ 0 < lk.length ∧ lk.length ≤ n ∧ Linked lk.length (b :: Q) lk.length ∧
      (b :: Q).map Ten.d = ts.map Ten.d ∧ (∀ g ∈ Q, RightOrth g) ∧ (∀ D', D = some D' → ∀ u ∈ b :: Q, u.l ≤ D' ∧ u.r ≤ D') ∧
      Projected lk.length lk.length C b Q κ ∧ ∑ i ∈ range b.l, ∑ j ∈ range b.r, ∑ x ∈ range b.d, Complex.normSq (b.v i j x) = b.l ∧
      (∀ β, (∀ u ∈ ts, u.l ≤ β ∧ u.r ≤ β) → ∀ u ∈ b :: Q, u.l ≤ β ∧ u.r ≤ β) ∧ gaugeSym O eigh eigs pinv fuel 1e-16 (some 10) (b :: Q) = .ok (A, lam) := by
  rw [gaugeSym, head_l hne hl] at h
  obtain ⟨⟨ts1, invx, invy, U, s, Vd⟩, h1, h⟩ := andThen_ok h
  simp only at h
  rw [if_neg (not_le.2 ht)] at h
  obtain ⟨lk, h2, h⟩ := andThen_ok h
  obtain ⟨C, h3, h⟩ := andThen_ok h
  obtain ⟨B, h4, h⟩ := andThen_ok h
  obtain ⟨B', h5, h⟩ := andThen_ok h
  obtain ⟨⟨z1, z2, rfl⟩, s2, s3, s4, s5, s6⟩ := symParts_shape hO he h1
  unfold schmidt at h2
  split at h2
  · cases h2
  rename_i l0 hl0
  have h2 : normalise (truncS l0 D truncate) = .ok lk := by
    rw [← sel_truncS ht]; exact h2
  have hlen0 : l0.length = n := by rw [(normalise_ok hl0).1, s5]
  have hsort : l0.Pairwise (· ≥ ·) := by
    unfold normalise at hl0
    split_ifs at hl0 with g1 g2
    · cases hl0; exact List.Pairwise.nil
    · cases hl0
      refine s6.map _ fun a b hab => ?_
      exact div_le_div_of_nonneg_right hab (norm2_nonneg _)
  obtain ⟨-, p2, p3, -⟩ := truncS_prefix hsort D truncate
  have hlk : lk.length = (truncS l0 D truncate).length := (normalise_ok h2).1
  have hkn : lk.length ≤ n := by rw [hlk, ← hlen0]; exact p2
  have hl2 : Linked n ((ts.map (divT z1)).map (divT z2)) n := linked_scale (linked_scale hl)
  have hne2 : (ts.map (divT z1)).map (divT z2) ≠ [] := by simpa using hne
  obtain ⟨z, hz, e1, e2, -, e4⟩ := ends_run hO hl2 hne2 s2 s3 (by rw [s4]; exact hkn) h3
  obtain ⟨b, Q, κ, rfl, hκ, q3, q4, q5, q6, q7, q8, q9⟩ := sweepT_cell hO e1 h4
  simp only [onFirst] at h5
  split at h5
  · cases h5
  rename_i b' hb'
  cases h5
  obtain ⟨zf, hzf, rfl, hbl, hsum⟩ := unitFirst_run hb'
  rw [q3] at hbl
  have hbr : ∀ D', D = some D' → ∀ u ∈ b :: Q, u.l ≤ D' ∧ u.r ≤ D' := by
    intro D' hD
    have hk : lk.length ≤ D' := by rw [hlk]; exact p3 D' hD
    have key : ∀ (L : List (Ten ℂ)) (m : ℕ), Linked m L lk.length → m ≤ D' → (∀ g ∈ L, g.l ≤ D') → ∀ u ∈ L, u.l ≤ D' ∧ u.r ≤ D' := by
      intro L
      induction L with
      | nil => intro m _ _ _ u hu; cases hu
      | cons t L ih =>
        intro m hm hmD hL u hu
        have hr : t.r ≤ D' := by
          cases L with
          | nil => exact (show t.r = lk.length from hm.2).le.trans hk
          | cons t' L' => rw [← hm.2.1]; exact hL t' (by simp)
        rcases List.mem_cons.1 hu with rfl | hu
        · exact ⟨hL _ (by simp), hr⟩
        · exact ih t.r hm.2 hr (fun g hg => hL g (by simp [hg])) u hu
    refine key (b :: Q) lk.length ⟨q3, q4⟩ hk fun g hg => ?_
    rcases List.mem_cons.1 hg with rfl | hg
    · rw [q3]; exact hk
    · exact q6 D' hD g hg
  have hshape : ∀ β, (∀ u ∈ b :: Q, u.l ≤ β ∧ u.r ≤ β) → ∀ u ∈ divT zf b :: Q, u.l ≤ β ∧ u.r ≤ β := by
    intro β hβ u hu
    rcases List.mem_cons.1 hu with rfl | hu
    · exact hβ b (by simp)
    · exact hβ u (by simp [hu])
  refine ⟨_, invx, invy, U, s, Vd, l0, lk, C, divT zf b, Q, κ * zf, h1, hl0, h2, h3, mul_pos hκ hzf, hbl, hkn, ⟨q3, q4⟩, ?_, q5,
    fun D' hD => hshape D' (hbr D' hD), q8.scale hzf, hsum, fun β hβ => hshape β (q9 β ?_), h⟩
  · have : (b :: Q).map Ten.d = ts.map Ten.d := by rw [← q7, e2, ds_scale, ds_scale]
    exact this
  · refine e4 β (hkn.trans ?_) (divT_bonds (divT_bonds hβ))
    obtain ⟨t, ts', rfl⟩ := List.exists_cons_of_ne_nil hne
    rw [← hl.1]; exact (hβ t (by simp)).1

/-- No call makes a bond larger, and with a bound on the number of states it is kept. -/
theorem gaugeSym_bonds (hO : O.Spec) (he : EighSpec eigh) : ∀ {fuel : ℕ} {truncate : ℝ} {D : Option ℕ} {ts : List (Ten ℂ)} {n : ℕ}, ts ≠ [] → Linked n ts n →
    ∀ {A : List (Ten ℂ)} {lam : List ℝ}, gaugeSym O eigh eigs pinv fuel truncate D ts = .ok (A, lam) →
      Linked lam.length A lam.length ∧ A.map Ten.d = ts.map Ten.d ∧ lam.length ≤ n ∧
      (∀ β, (∀ u ∈ ts, u.l ≤ β ∧ u.r ≤ β) → ∀ u ∈ A, u.l ≤ β ∧ u.r ≤ β) ∧
      (1e-15 < truncate → ∀ D', D = some D' → lam.length ≤ D' ∧ ∀ u ∈ A, u.l ≤ D' ∧ u.r ≤ D') := by
  intro fuel
  induction fuel with
  | zero => intro truncate D ts n _ _ A lam h; cases h
  | succ fuel ih =>
    intro truncate D ts n hne hl A lam h
    by_cases ht : 1e-15 < truncate
    · obtain ⟨_, _, _, _, _, _, l0, lk, C, b, Q, κ, -, -, -, -, -, -, a7, a8, a9, -, a11, -, -, a14, a15⟩ := trunc_run hO he hne hl ht h
      obtain ⟨c1, c2, c3, c4, -⟩ := ih (by simp) a8 a15
      refine ⟨c1, c2.trans a9, c3.trans a7, fun β hβ => c4 β (a14 β hβ), fun _ D' hD => ⟨?_, c4 D' (a11 D' hD)⟩⟩
      have := (a11 D' hD b (by simp)).1
      rw [a8.1] at this
      exact c3.trans this
    · rw [gaugeSym, head_l hne hl] at h
      obtain ⟨⟨ts1, invx, invy, U, s, Vd⟩, h1, h⟩ := andThen_ok h
      simp only at h
      rw [if_pos (not_lt.1 ht)] at h
      obtain ⟨lk, h2, h⟩ := andThen_ok h
      obtain ⟨C, h3, hr⟩ := andThen_ok h
      obtain ⟨⟨z1, z2, rfl⟩, s2, s3, s4, s5, s6⟩ := symParts_shape hO he h1
      have hkn : lk.length ≤ n := by
        unfold schmidt at h2
        split at h2
        · cases h2
        rename_i l0 hl0
        rw [(normalise_ok h2).1, ← s5, ← (normalise_ok hl0).1]
        exact List.length_filter_le _ _
      have hl2 : Linked n ((ts.map (divT z1)).map (divT z2)) n := linked_scale (linked_scale hl)
      have hne2 : (ts.map (divT z1)).map (divT z2) ≠ [] := by simpa using hne
      obtain ⟨z, hz, e1, e2, -, e4⟩ := ends_run hO hl2 hne2 s2 s3 (by rw [s4]; exact hkn) h3
      have e2' : C.map Ten.d = ts.map Ten.d := by rw [e2, ds_scale, ds_scale]
      have e4' : ∀ β, (∀ u ∈ ts, u.l ≤ β ∧ u.r ≤ β) → ∀ u ∈ C, u.l ≤ β ∧ u.r ≤ β := fun β hβ => by
        refine e4 β (hkn.trans ?_) (divT_bonds (divT_bonds hβ))
        obtain ⟨t, ts', rfl⟩ := List.exists_cons_of_ne_nil hne
        rw [← hl.1]; exact (hβ t (by simp)).1
      by_cases hlen : s.length ≠ lk.length
      · rw [if_pos hlen] at hr
        obtain ⟨C3, h4, hr3⟩ := andThen_ok hr
        obtain ⟨C4, h5, hr4⟩ := andThen_ok hr3
        obtain ⟨C5, h6, hr5⟩ := andThen_ok hr4
        have hCne : C ≠ [] := ne_of_ds hne e2'
        obtain ⟨P, t, rfl⟩ : ∃ P t, C = P ++ [t] := by
          rcases List.eq_nil_or_concat C with h0 | ⟨a, y, h0⟩
          · exact absurd h0 hCne
          · exact ⟨a, y, by rw [h0, List.concat_eq_append]⟩
        simp only [fromLast, List.reverse_append, List.reverse_singleton, List.singleton_append, fromFirst] at h4
        obtain ⟨⟨y1, S1⟩, -, b1⟩ := sweepL_spec hO (left := P.reverse) (by rw [List.reverse_reverse]; exact e1) (by simp) h4
        rw [List.reverse_reverse] at S1 b1
        obtain ⟨t3, Q3, rfl⟩ := List.exists_cons_of_ne_nil (ne_of_ds hne (S1.ds.trans e2'))
        simp only [fromFirst] at h5
        obtain ⟨⟨y2, S2⟩, -, b2⟩ := sweepR_spec hO S1.link h5
        obtain ⟨y3, S3, b3⟩ := unitLast_run S2.link h6
        have hd5 : C5.map Ten.d = ts.map Ten.d := S3.ds.trans (S2.ds.trans (S1.ds.trans e2'))
        obtain ⟨c1, c2, c3, c4, -⟩ := ih (ne_of_ds hne hd5) S3.link hr5
        exact ⟨c1, c2.trans hd5, c3.trans hkn, fun β hβ => c4 β (bonds_of_map b3 (b2 β (b1 β (e4' β hβ)))), fun h0 => absurd h0 ht⟩
      · rw [if_neg hlen] at hr
        obtain ⟨C5, h6, hr⟩ := andThen_ok hr
        cases hr
        obtain ⟨y3, S3, b3⟩ := unitLast_run e1 h6
        exact ⟨S3.link, S3.ds.trans e2', hkn, fun β hβ => bonds_of_map b3 (e4' β hβ), fun h0 => absurd h0 ht⟩

/-- The branch without truncation for a normal cell. -/
theorem gaugeSym_normal (hO : O.Spec) (he : EighSpec eigh) (hE : EigsSpec eigs) (hp : 1e-15 < pinv) (hne : ts ≠ []) (hl : Linked n ts n)
    {η η' : ℝ} {p q : ℕ → ℕ → ℂ} (hN : Normal .left pinv n ts η p) (hN' : Normal .right pinv n ts η' q) {truncate : ℝ} (ht : truncate ≤ 1e-15)
    {D : Option ℕ} {fuel : ℕ} {A : List (Ten ℂ)} {lam : List ℝ} (h : gaugeSym O eigh eigs pinv (fuel + 1) truncate D ts = .ok (A, lam)) :
    Regauged n ts A ∧ Symmetric n A (lam.map Complex.ofReal) := by
  have h1' := h
  rw [gaugeSym, head_l hne hl] at h1'
  obtain ⟨_, h3, _⟩ := andThen_ok h1'
  obtain ⟨⟨μ, v⟩, h4, h5⟩ := andThen_ok h3
  obtain ⟨ts1, h6, h7⟩ := andThen_ok h5
  obtain ⟨_, _, h8⟩ := andThen_ok h7
  obtain ⟨⟨μ', v'⟩, h9, -⟩ := andThen_ok h8
  obtain ⟨-, rfl, -⟩ := tm_spec hE hne hl hN h4
  rw [rescale_ok hN.pos] at h6
  cases h6
  obtain ⟨A', lam', e1, e2, e3⟩ := gaugeSym_run hO he hE hp hne hl rfl fuel ht D hN hN' h4 h9
  rw [e1] at h
  cases h
  exact ⟨e2, e3⟩

theorem truncS_next {l : List ℝ} (hs : l.Pairwise (· ≥ ·)) {th : ℝ} (ht : 1e-16 < th) (D : Option ℕ) (hk : (truncS l D th).length < l.length) :
    l.getD (truncS l D th).length 0 ≤ th ∨ D = some (truncS l D th).length := by
  have key : ∀ {l : List ℝ}, l.Pairwise (· ≥ ·) → (l.filter (fun x => decide (x > th))).length < l.length →
      l.getD (l.filter (fun x => decide (x > th))).length 0 ≤ th := by
    intro l
    induction l with
    | nil => intro _ h; simp at h
    | cons x l ih =>
      intro hs hlt
      by_cases h : x > th
      · rw [List.filter_cons_of_pos (by simpa using h)] at hlt ⊢
        simp only [List.length_cons, List.getD_cons_succ]
        exact ih (List.pairwise_cons.1 hs).2 (by simpa using hlt)
      · have h0 : (x :: l).filter (fun x => decide (x > th)) = [] := by
          rw [List.filter_eq_nil_iff]
          intro y hy
          rcases List.mem_cons.1 hy with rfl | hy
          · simpa using h
          · have := (List.pairwise_cons.1 hs).1 y hy
            simp only [gt_iff_lt, decide_eq_true_eq, not_lt]
            exact le_trans this (not_lt.1 h)
        rw [h0]
        simpa using h
  unfold truncS at hk ⊢
  rw [if_pos ht] at hk ⊢
  cases D with
  | none => exact Or.inl (key hs hk)
  | some D =>
    simp only [List.length_take] at hk ⊢
    by_cases hD : D ≤ (l.filter fun x => decide (x > th)).length
    · right
      rw [min_eq_left hD, min_eq_left hD]
    · left
      have hm : min (min D (l.filter fun x => decide (x > th)).length) (l.filter fun x => decide (x > th)).length = (l.filter fun x => decide (x > th)).length := by omega
      rw [hm] at hk ⊢
      exact key hs hk

/-- **C91 (truncation).**  With `truncate>1e-15`, `regaugeIMPS(mps,'symmetric',truncate,D)` brings the cell into the symmetric gauge,
keeps the leading Schmidt values of the outer bond that are larger than `truncate`, at most `D` of them, and projects the cell between
these states onto right-orthonormal blocks with at most `D` states.  If the projected cell is normal, the result is this cell in the
symmetric gauge. -/
theorem C91_truncated (hO : O.Spec) (he : EighSpec eigh) (hE : EigsSpec eigs) (hp : 1e-15 < pinv) (hne : ts ≠ []) (hl : Linked n ts n)
    {η η' : ℝ} {p q : ℕ → ℕ → ℂ} (hN : Normal .left pinv n ts η p) (hN' : Normal .right pinv n ts η' q) {truncate : ℝ} (ht : 1e-15 < truncate)
    {D : Option ℕ} {r : Option (List (Ten ℂ) × List ℝ)} (h : regaugeImps O eigh eigs "symmetric" truncate D pinv ts = .ok r) :
    ∃ (A : List (Ten ℂ)) (lam : List ℝ) (S : List (Ten ℂ)) (μ : List ℝ) (k : ℕ) (b : Ten ℂ) (Q : List (Ten ℂ)) (κ : ℝ),
      r = some (A, lam) ∧ Regauged n ts S ∧ Symmetric n S (μ.map Complex.ofReal) ∧ μ.Pairwise (· ≥ ·) ∧
      (0 < k ∧ k ≤ n ∧ (∀ i < k, truncate < μ.getD i 0) ∧ (∀ D', D = some D' → k ≤ D') ∧ (k < n → μ.getD k 0 ≤ truncate ∨ D = some k)) ∧
      Linked k (b :: Q) k ∧ (b :: Q).map Ten.d = ts.map Ten.d ∧ (∀ g ∈ Q, RightOrth g) ∧ (∀ D', D = some D' → ∀ u ∈ b :: Q, u.l ≤ D' ∧ u.r ≤ D') ∧
      0 < κ ∧ Projected k k S b Q κ ∧ ∑ i ∈ range b.l, ∑ j ∈ range b.r, ∑ x ∈ range b.d, Complex.normSq (b.v i j x) = b.l ∧
      ∀ (ζ ζ' : ℝ) (p' q' : ℕ → ℕ → ℂ), Normal .left pinv k (b :: Q) ζ p' → Normal .right pinv k (b :: Q) ζ' q' →
        Regauged k (b :: Q) A ∧ Symmetric k A (lam.map Complex.ofReal) := by
  rw [imps_unfold hne hl, if_neg (by decide), if_neg (by decide), if_pos rfl] at h
  obtain ⟨⟨A, lam⟩, h1, h2⟩ := andThen_ok h
  cases h2
  obtain ⟨ts1, invx, invy, U, s, Vd, l0, lk, C, b, Q, κ, a1, a2, a3, a4, hκ, hk0, hkn, a8, a9, a10, a11, a12, a13, -, a15⟩ := trunc_run hO he hne hl ht h1
  obtain ⟨-, s2, s3, s4, s5, s6⟩ := symParts_shape hO he a1
  -- the cell without truncation
  have a1' := a1
  obtain ⟨⟨μ0, v⟩, h4, h5⟩ := andThen_ok a1'
  obtain ⟨ts1', h6, h7⟩ := andThen_ok h5
  obtain ⟨_, _, h8⟩ := andThen_ok h7
  obtain ⟨⟨μ', v'⟩, h9, -⟩ := andThen_ok h8
  obtain ⟨-, rfl, -⟩ := tm_spec hE hne hl hN h4
  rw [rescale_ok hN.pos] at h6
  cases h6
  obtain ⟨S, μ, e1, e2, e3⟩ := gaugeSym_run hO he hE hp hne hl rfl 0 (truncate := 0) (by norm_num) none hN hN' h4 h9
  obtain ⟨_, _, _, _, _, _, _, _, _, f1, -, ⟨-, -, -, -, -, -, -, -, f9⟩, -, -, -, -, -, fs, fn, -, -, hn2⟩ :=
    symParts_run hO he hE (le_trans (by norm_num) hp.le) hne hl rfl hN hN' h4 h9
  rw [a1] at f1
  cases f1
  obtain ⟨hν, d1, -⟩ := schmidt_keep (ε := 1e-15) s5 (by omega) (by norm_num) (fun x hx => hp.trans_le (fs x hx)) fn
  rw [gaugeSym, head_l hne hl, a1] at e1
  simp only [andThen, d1] at e1
  rw [if_pos (by norm_num)] at e1
  obtain ⟨C0, g1, e1⟩ := andThen_ok (f := fun ts2 => if s.length ≠ (s.map (· / norm2 s)).length then _ else _) e1
  rw [if_neg (by simp)] at e1
  obtain ⟨S', g2, e1⟩ := andThen_ok (f := fun ts3 => Except.ok (ts3, s.map (· / norm2 s))) e1
  cases e1
  set ν := norm2 s with hνdef
  have hl0 : l0 = s.map (· / ν) := by
    unfold normalise at a2
    rw [if_neg (by rintro rfl; simp at s5; omega), if_neg hν.ne'] at a2
    cases a2
    rfl
  rw [← hl0] at g1 d1 e3
  have hlen0 : l0.length = n := by rw [hl0, List.length_map, s5]
  have hsort : l0.Pairwise (· ≥ ·) := by
    rw [hl0]
    exact s6.map _ fun a b hab => div_le_div_of_nonneg_right hab hν.le
  obtain ⟨p1, p2, p3, p4⟩ := truncS_prefix hsort D truncate
  have ht16 : truncate > 1e-16 := lt_trans (by norm_num) ht
  obtain ⟨n1, n2, n3⟩ := normalise_ok a3
  have hget : ∀ i < lk.length, (truncS l0 D truncate).getD i 0 = l0.getD i 0 := by
    intro i hi
    rw [n1] at hi
    conv_lhs => rw [p1]
    simp only [List.getD_eq_getElem?_getD, List.getElem?_take, if_pos hi]
  have hl2 : Linked n (ts.map (divT (η ^ (1 / (2 * (ts.length : ℝ)))))) n := linked_scale hl
  have hne2 : ts.map (divT (η ^ (1 / (2 * (ts.length : ℝ))))) ≠ [] := by simpa using hne
  obtain ⟨z0, hz0, b1, b2, b3, -⟩ := ends_run hO hl2 hne2 s2 s3 (by rw [s4, hlen0]) g1
  obtain ⟨zk, hzk, c1, c2, c3, -⟩ := ends_run hO hl2 hne2 s2 s3 (by rw [s4]; exact hkn) a4
  rw [hlen0] at b1 b3
  obtain ⟨y, S2, -⟩ := unitLast_run b1 g2
  have hνk : 0 < norm2 (truncS l0 D truncate) := (n2 (by
    intro h0
    rw [n1, h0] at hk0
    simp at hk0)).2
  set νk := norm2 (truncS l0 D truncate)
  have hcell : ∀ s', Cfg ts s' → ∀ i < lk.length, ∀ j < lk.length, ((z0 * y / (νk * zk) : ℝ) : ℂ) * chain S s' i j = chain C s' i j := by
    intro s' hs i hi j hj
    have hs1 : Cfg (ts.map (divT (η ^ (1 / (2 * (ts.length : ℝ)))))) s' := by rw [cfg_map, ds_scale]; exact cfg_map.1 hs
    have q1 := b3 s' hs1 i (hi.trans_le hkn) j (hj.trans_le hkn)
    have q2 := c3 s' hs1 i hi j hj
    rw [S2.eq s' (cfg_congr b2 hs1) i (hi.trans_le hkn) j (hj.trans_le hkn)] at q1
    have hX : ∀ a, (((diagMat l0).dot (takeRows Vd n)).dot invx).v i a = (νk : ℂ) * (((diagMat lk).dot (takeRows Vd lk.length)).dot invx).v i a := by
      intro a
      simp only [Mat.dot, diagMat, takeRows]
      rw [mul_sum]
      refine sum_congr rfl fun c _ => ?_
      have e : ∀ (l : List ℝ), i < l.length → ∑ x ∈ range l.length, (if i = x then ((l.getD i 0 : ℝ) : ℂ) else 0) * Vd.v x c = ((l.getD i 0 : ℝ) : ℂ) * Vd.v i c := by
        intro l hil
        simp [ite_mul, Finset.sum_ite_eq, hil]
      rw [e l0 (by rw [hlen0]; exact hi.trans_le hkn), e lk hi, ← hget i hi, n3 i]
      push_cast
      ring
    have hq : (z0 : ℂ) * ((y : ℂ) * chain S s' i j) = (νk : ℂ) * ((zk : ℂ) * chain C s' i j) := by
      rw [← q1, ← q2]
      simp only [mmul, mul_sum, sum_mul]
      refine sum_congr rfl fun c _ => sum_congr rfl fun a _ => ?_
      rw [hX]
      simp only [Mat.dot, takeCols]
      ring
    have h1 : (νk : ℂ) ≠ 0 := by exact_mod_cast hνk.ne'
    have h2 : (zk : ℂ) ≠ 0 := by exact_mod_cast hzk.ne'
    push_cast
    rw [div_mul_eq_mul_div, div_eq_iff (mul_ne_zero h1 h2)]
    linear_combination hq
  set c := z0 * y / (νk * zk) with hc
  have hc0 : 0 < c := div_pos (mul_pos hz0 S2.zpos) (mul_pos hνk hzk)
  refine ⟨A, lam, S, l0, lk.length, b, Q, κ / c, rfl, e2, e3, hsort, ⟨hk0, hkn, ?_, ?_, ?_⟩, a8, a9, a10, a11, div_pos hκ hc0, ?_, a13, ?_⟩
  · intro i hi
    rw [← hget i hi]
    have hi' : i < (truncS l0 D truncate).length := by rw [← n1]; exact hi
    rw [List.getD_eq_getElem?_getD, List.getElem?_eq_getElem hi']
    exact p4 ht16 _ (List.getElem_mem hi')
  · intro D' hD
    rw [n1]; exact p3 D' hD
  · intro hlt
    rw [n1] at hlt ⊢
    exact truncS_next hsort ht16 D (by rw [hlen0]; exact hlt)
  · intro i hi q' hq' x hx
    have e := a12 i hi q' hq' x hx
    have hcc : (c : ℂ) ≠ 0 := by exact_mod_cast hc0.ne'
    rw [show ((κ / c : ℝ) : ℂ) * b.v i q' x = (1 / c : ℂ) * ((κ : ℂ) * b.v i q' x) by push_cast; ring, e, ← sumCfg_mul]
    refine sumCfg_congr fun s' hs => ?_
    rw [mul_sum]
    refine sum_congr rfl fun j hj => ?_
    rw [← hcell (x :: s') (by rw [cfg_map, ← a9]; exact List.Forall₂.cons hx hs) i hi j (mem_range.1 hj)]
    field_simp
  · intro ζ ζ' p' q' hL hR
    exact gaugeSym_normal hO he hE hp (by simp) a8 hL hR (by norm_num) a15

/-- **C91 (bonds).**  Whatever the cell, with `truncate>1e-15` and a bound `D` the returned cell and the Schmidt values respect the bound,
and no bond is ever larger than the largest one before. -/
theorem C91_bonds (hO : O.Spec) (he : EighSpec eigh) (hne : ts ≠ []) (hl : Linked n ts n) {truncate : ℝ} {D : Option ℕ} {A : List (Ten ℂ)} {lam : List ℝ}
    (h : regaugeImps O eigh eigs "symmetric" truncate D pinv ts = .ok (some (A, lam))) :
    Linked lam.length A lam.length ∧ A.map Ten.d = ts.map Ten.d ∧ lam.length ≤ n ∧
      (∀ β, (∀ u ∈ ts, u.l ≤ β ∧ u.r ≤ β) → ∀ u ∈ A, u.l ≤ β ∧ u.r ≤ β) ∧
      (1e-15 < truncate → ∀ D', D = some D' → lam.length ≤ D' ∧ ∀ u ∈ A, u.l ≤ D' ∧ u.r ≤ D') := by
  rw [imps_unfold hne hl, if_neg (by decide), if_neg (by decide), if_pos rfl] at h
  obtain ⟨⟨A', lam'⟩, h1, h2⟩ := andThen_ok h
  cases h2
  exact gaugeSym_bonds hO he hne hl h1

/-- **C91 is violated for truncation to a product state.**  With `truncate>1e-15` and `D<=1` no call returns: the recursive call fails. -/
theorem C91_violated_product (hO : O.Spec) (he : EighSpec eigh) (hne : ts ≠ []) (hl : Linked n ts n) {truncate : ℝ} (ht : 1e-15 < truncate) {D' : ℕ}
    (hD : D' ≤ 1) : ∀ r, regaugeImps O eigh eigs "symmetric" truncate (some D') pinv ts ≠ .ok r := by
  intro r h
  rw [imps_unfold hne hl, if_neg (by decide), if_neg (by decide), if_pos rfl] at h
  obtain ⟨⟨A, lam⟩, h1, -⟩ := andThen_ok h
  obtain ⟨_, _, _, _, _, _, _, lk, _, b, Q, _, -, -, -, -, -, hk, -, a8, -, -, a11, -, -, -, a15⟩ := trunc_run hO he hne hl ht h1
  have h1 : lk.length = 1 := by
    have := (a11 D' rfl b (by simp)).1
    rw [a8.1] at this
    omega
  rw [h1] at a8
  rw [gaugeSym, head_l (by simp) a8, symParts, tm_one (by simp) a8] at a15
  cases a15

/-- **C91 (truncation, total).**  For a cell of one tensor, a converging eigensolver and thresholds below all Schmidt values the call with
`truncate>1e-15` returns the cell in the symmetric gauge. -/
theorem C91_truncated_total (hO : O.Spec) (he : EighSpec eigh) (hE : EigsSpec eigs) (hcv : Converges eigs) (hp : 1e-15 < pinv) {t : Ten ℂ}
    (hl : Linked n [t] n) (hn : 2 ≤ n) {P η η' : ℝ} {p q : ℕ → ℕ → ℂ} (hN : Normal .left P n [t] η p) (hN' : Normal .right P n [t] η' q)
    (hP : pinv ≤ P) (hP2 : pinv < P ^ 2) {truncate : ℝ} (ht : 1e-15 < truncate) (htP : truncate < P) {D : Option ℕ} (hD : ∀ D', D = some D' → n ≤ D') :
    ∃ A lam, regaugeImps O eigh eigs "symmetric" truncate D pinv [t] = .ok (some (A, lam)) ∧ Symmetric n A (lam.map Complex.ofReal) := by
  have hp0 : 0 < pinv := lt_trans (by norm_num) hp
  have hP0 : 0 < P := hp0.trans_le hP
  have hne : [t] ≠ [] := by simp
  have hM : Normal .left pinv n [t] η p :=
    ⟨hN.pos, ⟨hN.dens.herm, hN.dens.tr, fun x hx => hP.trans_lt (hN.dens.pos x hx)⟩, hN.eig, hN.uniq⟩
  have hM' : Normal .right pinv n [t] η' q :=
    ⟨hN'.pos, ⟨hN'.dens.herm, hN'.dens.tr, fun x hx => hP.trans_lt (hN'.dens.pos x hx)⟩, hN'.eig, hN'.uniq⟩
  obtain ⟨v, h4⟩ := tm_total hE hcv hne hl hM hn
  set z := η ^ (1 / (2 * (([t] : List (Ten ℂ)).length : ℝ))) with hz
  have hz0 : 0 < z := root_pos hN.pos _
  obtain ⟨v', h9⟩ := tm_total hE hcv (ts := [t].map (divT z)) (by simp) (linked_scale hl) (hM'.scale hz0) hn
  obtain ⟨S, μ, e1, e2, e3⟩ := gaugeSym_run hO he hE hp hne hl rfl 0 (truncate := 0) (by norm_num) none hM hM' h4 h9
  obtain ⟨invx, invy, U, Vd, s, x, xi, y, yi, f1, hR, ⟨-, f2, f3, -, -, f6, -, -, f9⟩, -, -, hU, hV, hyx, fs, fn, -, -, -⟩ :=
    symParts_run hO he hE hp0.le hne hl rfl hM hM' h4 h9
  obtain ⟨hν, d1, d2⟩ := schmidt_keep (ε := 1e-15) f9 (by omega) (by norm_num) (fun x hx => hp.trans_le (fs x hx)) fn
  set ν := norm2 s with hνdef
  set l0 := s.map (· / ν) with hl0
  have hlen0 : l0.length = n := by rw [hl0, List.length_map, f9]
  have hsP : ∀ a ∈ s, P ≤ a := by
    intro a ha
    obtain ⟨k, hk, rfl⟩ := List.mem_iff_getElem.1 ha
    have := sing_big hP0.le (σ := fun k : Fin n => s.getD k 0) (fun k => by
      have hk : (k : ℕ) < s.length := by rw [f9]; exact k.2
      simp only [List.getD_eq_getElem?_getD, List.getElem?_eq_getElem hk, Option.getD_some]
      exact hp0.le.trans (fs _ (List.getElem_mem hk))) hyx hU hV (by rw [hR.xh, ← hR.p]; exact hN.dens.form)
      (by rw [hR.yh, ← hR.q]; exact hN'.dens.transp.form) ⟨k, by rw [← f9]; exact hk⟩
    simpa [List.getD_eq_getElem?_getD, List.getElem?_eq_getElem hk] using this
  have hlP : ∀ a ∈ l0, P ≤ a := by
    intro a ha
    obtain ⟨b, hb, rfl⟩ := List.mem_map.1 ha
    rw [le_div_iff₀ hν]
    have := hsP b hb
    nlinarith
  have e1' := e1
  rw [gaugeSym, head_l hne hl, f1] at e1'
  simp only [andThen, d1] at e1'
  rw [if_pos (by norm_num)] at e1'
  obtain ⟨C0, g1, e1'⟩ := andThen_ok (f := fun ts2 => if s.length ≠ l0.length then _ else _) e1'
  rw [if_neg (by rw [f9, hlen0]; simp)] at e1'
  obtain ⟨S', g2, e1'⟩ := andThen_ok (f := fun ts3 => Except.ok (ts3, l0)) e1'
  simp only [Except.ok.injEq, Prod.mk.injEq] at e1'
  obtain ⟨hSS, hμ⟩ := e1'
  subst hSS
  rw [← hμ] at e3
  have hns : normalise s = .ok l0 := by
    unfold normalise
    rw [if_neg (by rintro rfl; simp at f9; omega), if_neg hν.ne']
  have htr : truncS l0 D truncate = l0 := by
    have hf : l0.filter (fun x => decide (x > truncate)) = l0 := by
      rw [List.filter_eq_self]
      intro a ha
      simp only [gt_iff_lt, decide_eq_true_eq]
      exact htP.trans_le (hlP a ha)
    unfold truncS
    rw [if_pos (show truncate > 1e-16 from lt_trans (by norm_num) ht), hf]
    cases D with
    | none => rfl
    | some D' =>
      show l0.take (min D' l0.length) = l0
      rw [min_eq_right (by rw [hlen0]; exact hD D' rfl), List.take_length]
  have hn1 : normalise l0 = .ok l0 := by
    unfold normalise
    rw [if_neg (by intro h0; rw [h0] at hlen0; simp at hlen0; omega), d2, if_neg one_ne_zero]
    simp
  obtain ⟨_, _, b1, b2, -, -⟩ := ends_run hO (linked_scale (z := z) hl) (by simp) f2 f3 (by rw [f6, hlen0]) g1
  rw [hlen0] at b1
  obtain ⟨c, rfl⟩ : ∃ c, C0 = [c] := List.length_eq_one_iff.1 (by simpa using congrArg List.length b2)
  have hcl : c.l = n := b1.1
  have hcr : c.r = n := b1.2
  -- the normalisation of the last and of the first tensor
  have hu : ∃ z1 : ℝ, 0 < z1 ∧ S' = [divT z1 c] ∧ unitFirst c = .ok (divT z1 c) := by
    simp only [onLast] at g2
    split at g2
    · cases g2
    rename_i c' hc'
    cases g2
    unfold unitLast at hc'
    simp only at hc'
    split_ifs at hc' with h0
    cases hc'
    have hsw : (∑ i ∈ range c.l, ∑ j ∈ range c.r, ∑ s ∈ range c.d, Complex.normSq (c.v i j s)) / (c.l : ℝ)
        = (∑ j ∈ range c.r, ∑ i ∈ range c.l, ∑ s ∈ range c.d, Complex.normSq (c.v i j s)) / (c.r : ℝ) := by
      rw [sum_comm, hcl, hcr]
    refine ⟨_, Real.sqrt_pos.2 (lt_of_le_of_ne ?_ (Ne.symm h0)), rfl, ?_⟩
    · exact div_nonneg (sum_nonneg fun i _ => sum_nonneg fun j _ => sum_nonneg fun s _ => Complex.normSq_nonneg _) (Nat.cast_nonneg _)
    · unfold unitFirst
      simp only [hsw]
      rw [if_neg h0]
  obtain ⟨z1, hz1, rfl, hu⟩ := hu
  have hlB : Linked n [divT z1 c] n := ⟨hcl, hcr⟩
  have hget : ∀ i < n, P ≤ l0.getD i 0 := by
    intro i hi
    have hi' : i < l0.length := by rw [hlen0]; exact hi
    rw [List.getD_eq_getElem?_getD, List.getElem?_eq_getElem hi']
    exact hlP _ (List.getElem_mem hi')
  have hl2 : ∀ i < n, pinv < l0.getD i 0 ^ 2 := fun i hi => hP2.trans_le (pow_le_pow_left₀ hP0.le (hget i hi) 2)
  have hpn : pinv < 1 / n := by
    have hn0 : (0 : ℝ) < n := by exact_mod_cast (by omega : 0 < n)
    have h1 : ∑ i ∈ range n, l0.getD i 0 ^ 2 = 1 := by
      have := norm2_sq l0
      rw [d2, hlen0] at this
      rw [← this]; norm_num
    have h2 : ∑ _i ∈ range n, pinv < ∑ i ∈ range n, l0.getD i 0 ^ 2 :=
      sum_lt_sum_of_nonempty (by simp; omega) fun i hi => hl2 i (mem_range.1 hi)
    rw [h1, sum_const, card_range, nsmul_eq_mul] at h2
    rw [lt_div_iff₀ hn0]
    linarith
  obtain ⟨hB, hB'⟩ := normal_symmetric hP0 (by omega) hN hN' e2 e3 hl2 hpn
  obtain ⟨w, k4⟩ := tm_total hE hcv (by simp) hlB hB hn
  obtain ⟨w', k9⟩ := tm_total hE hcv (ts := [divT z1 c].map (divT (1 ^ (1 / (2 * (([divT z1 c] : List (Ten ℂ)).length : ℝ)))))) (by simp)
    (linked_scale hlB) (hB'.scale (by simp)) hn
  obtain ⟨A, lam, m1, -, m3⟩ := gaugeSym_run hO he hE hp (by simp) hlB rfl n (truncate := 1e-16) (by norm_num) (some 10) hB hB' k4 k9
  refine ⟨A, lam, ?_, m3⟩
  rw [imps_unfold hne hl, if_neg (by decide), if_neg (by decide), if_pos rfl, gaugeSym, head_l hne hl, f1]
  simp only [andThen]
  rw [if_neg (not_le.2 ht)]
  have hsch : ∀ sel : List ℝ → List ℝ, (∀ l, sel l = truncS l D truncate) → schmidt sel s = .ok l0 := fun sel h => by
    simp only [schmidt, hns, h, htr, hn1]
  rw [hsch]
  · simp only [g1, fromLast, List.reverse_singleton, fromFirst, sweepT, onFirst, hu, m1]
  · exact sel_truncS ht D

/-! ### Examples -/

theorem units_density {P : ℝ} (hP : P < 1 / 2) : Density P 2 fun i j => if i = j then 1 / 2 else 0 := by
  have h := density_diag (n := 2) (pinv := P) (a := fun _ => 1 / 2) (fun _ _ => hP) (by simp)
  have e : (fun i j => delta ℂ i j * (((1 / 2 : ℝ) : ℝ) : ℂ)) = fun i j : ℕ => (if i = j then 1 / 2 else 0 : ℂ) := by
    funext i j
    simp only [delta]
    split <;> simp
  rwa [e] at h

/-- The hypotheses of `C91_truncated` and `C91_bonds` are met by a call that returns. -/
example : ∃ (O : LinAlg) (eigh : Eigh) (eigs : Eigs) (A : List (Ten ℂ)) (lam : List ℝ), O.Spec ∧ EighSpec eigh ∧ EigsSpec eigs ∧
    regaugeImps O eigh eigs "symmetric" 1e-10 (some 2) 1e-12 [unitsTen] = .ok (some (A, lam)) ∧ Symmetric 2 A (lam.map Complex.ofReal) := by
  obtain ⟨O, hO⟩ := exists_linAlg
  obtain ⟨eigh, he⟩ := exists_eigh
  obtain ⟨eigs, hE, hC⟩ := exists_eigs
  have hl : Linked 2 [unitsTen] 2 := ⟨rfl, rfl⟩
  have h1 := units_normal units_left
  have h2 := units_normal units_right
  obtain ⟨A, lam, h3, h4⟩ := C91_truncated_total (P := 0.4) (D := some 2) (truncate := 1e-10) (pinv := 1e-12) hO he hE hC (by norm_num) hl le_rfl
    ⟨h1.pos, units_density (by norm_num), h1.eig, h1.uniq⟩ ⟨h2.pos, units_density (by norm_num), h2.eig, h2.uniq⟩ (by norm_num) (by norm_num) (by norm_num) (by norm_num)
    (by simp)
  exact ⟨O, eigh, eigs, A, lam, hO, he, hE, h3, h4⟩

/-- The hypotheses of `C91_violated_product` are met by a normal cell. -/
example : ∃ (O : LinAlg) (eigh : Eigh) (eigs : Eigs), O.Spec ∧ EighSpec eigh ∧ EigsSpec eigs ∧ IsNormal 1e-12 [unitsTen] ∧
    ∀ r, regaugeImps O eigh eigs "symmetric" 1e-10 (some 1) 1e-12 [unitsTen] ≠ .ok r := by
  obtain ⟨O, hO⟩ := exists_linAlg
  obtain ⟨eigh, he⟩ := exists_eigh
  obtain ⟨eigs, hE, -⟩ := exists_eigs
  have hl : Linked 2 [unitsTen] 2 := ⟨rfl, rfl⟩
  exact ⟨O, eigh, eigs, hO, he, hE, ⟨by simp, 2, 2, 2, _, _, hl, units_normal units_left, units_normal units_right⟩,
    C91_violated_product hO he (by simp) hl (by norm_num) le_rfl⟩

end

end PyTeN.Regauge
