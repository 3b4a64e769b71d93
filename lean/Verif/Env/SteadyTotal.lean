import Verif.Env.SteadyDens

/-! # Lemmas for steady-state Hamiltonians: the functions return -/

namespace PyTeN.Steady
open Finset Transfer Regauge
noncomputable section

section solvable
variable {D : ℕ} {ts : List (Ten ℂ)}

/-- A matrix as a function on the natural numbers. -/
def ext (D : ℕ) (M : Fin D → Fin D → ℂ) : ℕ → ℕ → ℂ := fun i j => if h : i < D ∧ j < D then M ⟨i, h.1⟩ ⟨j, h.2⟩ else 0

theorem ext_add (M M' : Fin D → Fin D → ℂ) : ext D (M + M') = fun i j => ext D M i j + ext D M' i j := by
  funext i j; simp only [ext]; split <;> simp

theorem ext_smul (c : ℂ) (M : Fin D → Fin D → ℂ) : ext D (c • M) = fun i j => c * ext D M i j := by
  funext i j; simp only [ext]; split <;> simp

theorem act_add (dir : Dir) (ts : List (Ten ℂ)) (D : ℕ) (f g : ℕ → ℕ → ℂ) (i j : ℕ) :
    act dir ts D (fun a b => f a b + g a b) i j = act dir ts D f i j + act dir ts D g i j := by
  cases dir
  · simp only [act, mul_add, sum_add_distrib]
  · simp only [act, add_mul, sum_add_distrib]

/-- The linear map of the system. -/
def sysMap (dir : Dir) (ts : List (Ten ℂ)) (D : ℕ) (own other : ℕ → ℕ → ℂ) : (Fin D → Fin D → ℂ) →ₗ[ℂ] (Fin D → Fin D → ℂ) where
  toFun M i j := ext D M i j - act dir ts D (ext D M) i j + pairing D (ext D M) other * own i j
  map_add' M M' := by
    funext i j
    simp only [Pi.add_apply, ext_add, act_add, pair_add]; ring
  map_smul' c M := by
    funext i j
    simp only [Pi.smul_apply, ext_smul, act_smul, pair_smul, RingHom.id_apply, smul_eq_mul]; ring

theorem ext_lt (M : Fin D → Fin D → ℂ) {i j : ℕ} (hi : i < D) (hj : j < D) : ext D M i j = M ⟨i, hi⟩ ⟨j, hj⟩ := by simp [ext, hi, hj]

theorem opp_opp (dir : Dir) : opp (opp dir) = dir := by cases dir <;> rfl

theorem pair_adj (dir : Dir) (f g : ℕ → ℕ → ℂ) : pairing D (act dir ts D f) g = pairing D f (act (opp dir) ts D g) := by
  cases dir
  · rw [pair_comm, opp, ← pair_act, pair_comm]
  · exact pair_act ts D f g

theorem pair_congr_right {f g g' : ℕ → ℕ → ℂ} (h : ∀ i < D, ∀ j < D, g i j = g' i j) : pairing D f g = pairing D f g' := by
  rw [pair_comm, pair_congr h, pair_comm]

/-- The map is injective if the fixed point is unique. -/
theorem sysMap_inj {dir : Dir} {own other : ℕ → ℕ → ℂ} (hother : ∀ i < D, ∀ j < D, act (opp dir) ts D other i j = other i j)
    (hone : pairing D own other = 1) (huniq : ∀ g : ℕ → ℕ → ℂ, (∀ i < D, ∀ j < D, act dir ts D g i j = g i j) → ∃ c, ∀ i < D, ∀ j < D, g i j = c * own i j) :
    Function.Injective (sysMap dir ts D own other) := by
  rw [← LinearMap.ker_eq_bot, LinearMap.ker_eq_bot']
  intro M hM
  have h0 : ∀ i < D, ∀ j < D, ext D M i j - act dir ts D (ext D M) i j + pairing D (ext D M) other * own i j = 0 := fun i hi j hj =>
    congrFun (congrFun hM ⟨i, hi⟩) ⟨j, hj⟩
  have hp : pairing D (ext D M) other = 0 := by
    have h1 := pair_congr (g := other) h0
    rw [pair_add, pair_sub, pair_smul, pair_adj, pair_congr_right hother, hone] at h1
    have h2 : pairing D (fun _ _ => (0 : ℂ)) other = 0 := by simp [pairing]
    rw [h2] at h1
    linear_combination h1
  obtain ⟨c, hc⟩ := huniq (ext D M) fun i hi j hj => by
    have := h0 i hi j hj
    rw [hp] at this
    linear_combination -this
  have hc0 : c = 0 := by
    have h1 := pair_congr (g := other) hc
    rw [pair_smul, hone, hp] at h1
    linear_combination -h1
  funext i j
  have := hc i i.2 j j.2
  rw [ext_lt M i.2 j.2, hc0, zero_mul] at this
  exact this

theorem sysMap_pair (dir : Dir) (own other : ℕ → ℕ → ℂ) (M M' : Fin D → Fin D → ℂ) :
    pairing D (ext D (sysMap dir ts D own other M)) (ext D M') = pairing D (ext D M) (ext D (sysMap (opp dir) ts D other own M')) := by
  have e1 : ∀ i < D, ∀ j < D, ext D (sysMap dir ts D own other M) i j = ext D M i j - act dir ts D (ext D M) i j + pairing D (ext D M) other * own i j :=
    fun i hi j hj => ext_lt _ hi hj
  have e2 : ∀ i < D, ∀ j < D, ext D (sysMap (opp dir) ts D other own M') i j =
      ext D M' i j - act (opp dir) ts D (ext D M') i j + pairing D (ext D M') own * other i j :=
    fun i hi j hj => ext_lt _ hi hj
  rw [pair_congr e1, pair_congr_right e2, pair_add, pair_sub, pair_smul, pair_adj,
    pair_comm D (ext D M) (fun i j => ext D M' i j - act (opp dir) ts D (ext D M') i j + pairing D (ext D M') own * other i j),
    pair_add, pair_sub, pair_smul, pair_comm D (ext D M) (ext D M'), pair_comm D (ext D M) (act (opp dir) ts D (ext D M')),
    pair_comm D own, pair_comm D (ext D M) other]
  ring

/-- The linear system has a solution if the other fixed point is unique. -/
theorem solvable {dir : Dir} {own other : ℕ → ℕ → ℂ} (hown : ∀ i < D, ∀ j < D, act dir ts D own i j = own i j)
    (hone : pairing D own other = 1)
    (huniq : ∀ g : ℕ → ℕ → ℂ, (∀ i < D, ∀ j < D, act (opp dir) ts D g i j = g i j) → ∃ c, ∀ i < D, ∀ j < D, g i j = c * other i j) (y : ℕ → ℕ → ℂ) :
    ∃ k : ℕ → ℕ → ℂ, ∀ i < D, ∀ j < D, k i j - act dir ts D k i j + pairing D k other * own i j = y i j := by
  have h1 : Function.Injective (sysMap (opp dir) ts D other own) :=
    sysMap_inj (by rw [opp_opp]; exact hown) (by rw [pair_comm]; exact hone) huniq
  have h2 : Function.Surjective (sysMap (opp dir) ts D other own) := LinearMap.injective_iff_surjective.1 h1
  have h3 : Function.Injective (sysMap dir ts D own other) := by
    rw [← LinearMap.ker_eq_bot, LinearMap.ker_eq_bot']
    intro M hM
    funext a b
    obtain ⟨M', hM'⟩ := h2 fun i j => if i = a ∧ j = b then 1 else 0
    have := sysMap_pair (ts := ts) dir own other M M'
    rw [hM, hM'] at this
    have e1 : pairing D (ext D (0 : Fin D → Fin D → ℂ)) (ext D M') = 0 := by
      simp only [pairing]
      exact sum_eq_zero fun i _ => sum_eq_zero fun j _ => by simp [ext]
    have e2 : pairing D (ext D M) (ext D fun i j => if i = a ∧ j = b then 1 else 0) = M a b := by
      unfold pairing
      rw [sum_eq_single a.1, sum_eq_single b.1]
      · rw [ext_lt _ a.2 b.2, ext_lt _ a.2 b.2]; simp
      · intro j hj hjb
        rw [ext_lt _ a.2 (mem_range.1 hj), ext_lt _ a.2 (mem_range.1 hj), if_neg, mul_zero]
        rintro ⟨-, h⟩; exact hjb (congrArg Fin.val h)
      · intro h; exact absurd (mem_range.2 b.2) h
      · intro i hi hia
        refine sum_eq_zero fun j hj => ?_
        rw [ext_lt _ (mem_range.1 hi) (mem_range.1 hj), ext_lt _ (mem_range.1 hi) (mem_range.1 hj), if_neg, mul_zero]
        rintro ⟨h, -⟩; exact hia (congrArg Fin.val h)
      · intro h; exact absurd (mem_range.2 a.2) h
    rw [e1, e2] at this
    exact this.symm
  obtain ⟨M, hM⟩ := LinearMap.injective_iff_surjective.1 h3 fun i j => y i j
  exact ⟨ext D M, fun i hi j hj => congrFun (congrFun hM ⟨i, hi⟩) ⟨j, hj⟩⟩

end solvable

section layers
variable {f s B : ℕ} {ts : List (Ten ℂ)} {Ws : List (Mpo ℂ)}

theorem nn_get (h : NNCell f s B ts Ws) {n : ℕ} (hn : n < ts.length) : ∃ t W, ts[n]? = some t ∧ Ws[n]? = some W ∧ NNSite f s B W ∧ t.d = W.din := by
  have hn' : n < Ws.length := by rw [← h.length_eq]; exact hn
  exact ⟨ts[n], Ws[n], List.getElem?_eq_getElem hn, List.getElem?_eq_getElem hn', List.Forall₂.get h hn hn'⟩

theorem layersR_ok (h : NNCell f s B ts Ws) : ∀ (k a : ℕ) (E : Env ℂ) {l r : ℕ}, E.u = l → E.w = l → E.m = B → Linked l ((ts.drop a).take k) r →
    a + k ≤ ts.length → ∃ E', layersR ts Ws ts (List.range' a k) E = .ok E' ∧ E'.u = r ∧ E'.w = r ∧ E'.m = B
  | 0, a, E, l, r, hu, hw, hm, hl, _ => by
    obtain rfl : l = r := by simpa [Linked] using hl
    exact ⟨E, rfl, hu, hw, hm⟩
  | k + 1, a, E, l, r, hu, hw, hm, hl, ha => by
    obtain ⟨t, W, t1, t2, t3, t4⟩ := nn_get h (n := a) (by omega)
    have hx : a < ts.length := by omega
    have ht : ts[a] = t := by rw [List.getElem?_eq_getElem hx] at t1; exact Option.some.inj t1
    rw [List.drop_eq_getElem_cons hx, List.take_succ_cons, ht] at hl
    obtain ⟨l1, l2⟩ := hl
    have hc : E.u = t.l ∧ E.m = W.l ∧ t.d = W.din ∧ E.w = t.l ∧ W.dout = t.d :=
      ⟨by rw [hu, l1], by rw [hm, t3.l], t4, by rw [hw, l1], by rw [t3.dd, t4]⟩
    obtain ⟨F, hF, f1, f2, f3⟩ : ∃ F, addLayerR E t W t = .ok F ∧ F.u = t.r ∧ F.w = t.r ∧ F.m = W.r := by
      unfold addLayerR; rw [if_pos hc]; exact ⟨_, rfl, rfl, rfl, rfl⟩
    obtain ⟨E', e1, e2⟩ := layersR_ok h k (a + 1) F f1 f2 (by rw [f3, t3.r]) l2 (by omega)
    refine ⟨E', ?_, e2⟩
    simp only [List.range'_succ, layersR, t1, t2, hF]
    exact e1

theorem layersL_ok (h : NNCell f s B ts Ws) : ∀ (k : ℕ) (E : Env ℂ) {l r : ℕ}, E.u = r → E.w = r → E.m = B → Linked l (ts.take k) r →
    k ≤ ts.length → ∃ E', layersL ts Ws ts (List.range' 0 k).reverse E = .ok E' ∧ E'.u = l ∧ E'.w = l ∧ E'.m = B
  | 0, E, l, r, hu, hw, hm, hl, _ => by
    obtain rfl : l = r := by simpa [Linked] using hl
    exact ⟨E, rfl, hu, hw, hm⟩
  | k + 1, E, l, r, hu, hw, hm, hl, ha => by
    obtain ⟨t, W, t1, t2, t3, t4⟩ := nn_get h (n := k) (by omega)
    rw [List.take_add_one, t1, Option.toList_some] at hl
    obtain ⟨q, l1, l2, l3⟩ := linked_append.1 hl
    have l3 : t.r = r := l3
    have hc : E.u = t.r ∧ E.m = W.r ∧ t.d = W.din ∧ E.w = t.r ∧ W.dout = t.d :=
      ⟨by rw [hu, l3], by rw [hm, t3.r], t4, by rw [hw, l3], by rw [t3.dd, t4]⟩
    obtain ⟨F, hF, f1, f2, f3⟩ : ∃ F, addLayerL E t W t = .ok F ∧ F.u = t.l ∧ F.w = t.l ∧ F.m = W.l := by
      unfold addLayerL; rw [if_pos hc]; exact ⟨_, rfl, rfl, rfl, rfl⟩
    obtain ⟨E', e1, e2⟩ := layersL_ok h k F (r := q) (by rw [f1, l2]) (by rw [f2, l2]) (by rw [f3, t3.l]) l1 (by omega)
    refine ⟨E', ?_, e2⟩
    rw [List.range'_concat, List.reverse_append, List.reverse_cons, List.reverse_nil, List.nil_append, List.singleton_append]
    simp only [layersL, one_mul, zero_add, t1, t2, hF]
    exact e1

end layers

/-- The common end of the branches returns if the linear system has a solution. -/
theorem steadyEnd_total {solve : Lgmres} (hC : LgmresConverges solve) (hS : LgmresSpec solve) {dir : Dir} {ts : List (Ten ℂ)} (hne : ts ≠ [])
    {ldens rdens : List (Mat ℂ)} {bd : Vec ℂ} {E : Env ℂ} {c D : ℕ} {x : Mat ℂ} (hl : Linked D ts D) (hu : E.u = D) (hw : E.w = D) (hxr : x.r = D)
    (hbd : bd.n = D * D)
    (hsol : ∀ y : ℕ → ℕ → ℂ, ∃ k z : Vec ℂ, k.n = D * D ∧ oneMinusPseudoUnitcell dir ts ldens rdens k = .ok z ∧ IsMat z D y) :
    ∃ L h, steadyEnd solve dir ts ldens rdens bd E c x D D D = .ok (L, h) := by
  obtain ⟨a, b, ha, hb, hal, hbr⟩ := linked_ends hne hl
  have e1 : traceProd (slice E c) x = .ok (∑ i ∈ range (min E.u x.c), ∑ k ∈ range E.w, E.v i k c * x.v k i) := by
    unfold traceProd; rw [if_pos (by rw [hxr]; exact hw)]; rfl
  set h := ∑ i ∈ range (min E.u x.c), ∑ k ∈ range E.w, E.v i k c * x.v k i with hh
  have e2 : minusEye (slice E c) h D = .ok ⟨D, D, fun i j => E.v i j c - h * delta ℂ i j⟩ := by
    unfold minusEye; rw [if_pos ⟨hu, hw⟩]; rfl
  obtain ⟨v, v1, v2⟩ := flat_isMat (f := fun i j => E.v i j c - h * delta ℂ i j) (r := D) rfl
  obtain ⟨k, z, k1, k2, k3⟩ := hsol fun i j => E.v i j c - h * delta ℂ i j
  have hD : ∀ q < v.n, z.v q = v.v q := by
    intro q hq
    rw [v2.1] at hq
    have hD0 : 0 < D := Nat.pos_of_ne_zero fun h0 => by rw [h0] at hq; simp at hq
    rw [← Nat.div_add_mod' q D, k3.2 _ (Nat.div_lt_of_lt_mul hq) _ (Nat.mod_lt _ hD0), v2.2 _ (Nat.div_lt_of_lt_mul hq) _ (Nat.mod_lt _ hD0)]
  obtain ⟨w, hw'⟩ := hC (oneMinusPseudoUnitcell dir ts ldens rdens) v bd (by rw [hbd, v2.1]) ⟨k, by rw [k1, v2.1], z, k2, by rw [k3.1, v2.1], hD⟩
  have hwn : w.n = D * D := by rw [(hS _ _ _ _ hw').1, v2.1]
  have e4 : tdvpGmresUC solve dir ts ldens rdens v bd = .ok w := by
    unfold tdvpGmresUC
    rw [ha, hb]
    simp only
    rw [if_pos ⟨by rw [hal, hbr], by rw [v2.1, hal], by rw [hbd, hal]⟩, hw']
  have e5 : reshape2 w D D = .ok ⟨D, D, fun i j => w.v (i * D + j)⟩ := by simp [reshape2, hwn]
  refine ⟨setSlice E c ⟨D, D, fun i j => w.v (i * D + j)⟩, h, ?_⟩
  simp only [steadyEnd, e1, e2, v1, e4, e5]
  rw [if_neg (by simp [hbd]), if_pos ⟨hu, hw⟩]

end

end PyTeN.Steady
