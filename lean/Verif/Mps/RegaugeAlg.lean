import Verif.Mps.RegaugeImps
import Verif.Mps.Sweep
import Verif.Props.IdmrgRegauge
import Verif.Props.Transfer
import Mathlib.LinearAlgebra.Matrix.ConjTranspose
import Mathlib.LinearAlgebra.Matrix.NonsingularInverse

/-! # Lemmas for `regaugeIMPS`: matrices, sweeps and reduced density matrices -/

namespace PyTeN.Regauge
open Finset Transfer Lanczos Idmrg Matrix
noncomputable section

/-! ## Matrices -/

/-- The leading block of a matrix. -/
def toM (n : ℕ) (f : ℕ → ℕ → ℂ) : Matrix (Fin n) (Fin n) ℂ := fun i j => f i j

theorem toM_ext {n : ℕ} {f g : ℕ → ℕ → ℂ} : toM n f = toM n g ↔ ∀ i < n, ∀ j < n, f i j = g i j := by
  constructor
  · intro h i hi j hj
    exact congrFun (congrFun h ⟨i, hi⟩) ⟨j, hj⟩
  · intro h
    ext i j
    exact h i i.2 j j.2

theorem toM_mmul (n : ℕ) (f g : ℕ → ℕ → ℂ) : toM n (mmul n f g) = toM n f * toM n g := by
  ext i j
  simp only [toM, mmul, Matrix.mul_apply]
  exact Finset.sum_range fun k => f i k * g k j

theorem toM_dot {n : ℕ} (A B : Mat ℂ) (h : A.c = n) : toM n (A.dot B).v = toM n A.v * toM n B.v := by
  subst h; exact toM_mmul _ _ _

theorem toM_herm (n : ℕ) (A : Mat ℂ) : toM n A.herm.v = (toM n A.v)ᴴ := by
  ext i j; simp [toM, Mat.herm, conjTranspose_apply]

theorem toM_transp (n : ℕ) (A : Mat ℂ) : toM n (transp A).v = (toM n A.v)ᵀ := rfl

theorem toM_diag {n : ℕ} (s : List ℝ) : toM n (diagMat s).v = diagonal fun i : Fin n => ((s.getD i 0 : ℝ) : ℂ) := by
  ext i j
  simp only [toM, diagMat, diagonal_apply, Fin.ext_iff]

theorem toM_delta (n : ℕ) : toM n (delta ℂ) = 1 := by
  ext i j
  simp only [toM, delta, Matrix.one_apply, Fin.ext_iff]

/-- Sum of matrices over all configurations. -/
def sumM (ds : List ℕ) {n : ℕ} (F : List ℕ → Matrix (Fin n) (Fin n) ℂ) : Matrix (Fin n) (Fin n) ℂ :=
  fun i j => sumCfg ds fun s => F s i j

theorem sumM_congr {ds : List ℕ} {n : ℕ} {F G : List ℕ → Matrix (Fin n) (Fin n) ℂ} (h : ∀ s, List.Forall₂ (fun d x => x < d) ds s → F s = G s) :
    sumM ds F = sumM ds G := by
  ext i j
  exact sumCfg_congr fun s hs => by rw [h s hs]

theorem sumCfg_fin (ds : List ℕ) (n : ℕ) (f : Fin n → List ℕ → ℂ) :
    sumCfg ds (fun s => ∑ k, f k s) = ∑ k, sumCfg ds (f k) := by
  induction ds generalizing f with
  | nil => rfl
  | cons d ds ih =>
    simp only [sumCfg]
    rw [Finset.sum_comm]
    exact Finset.sum_congr rfl fun s _ => ih fun k ss => f k (s :: ss)

theorem mul_sumM (ds : List ℕ) {n : ℕ} (X : Matrix (Fin n) (Fin n) ℂ) (F : List ℕ → Matrix (Fin n) (Fin n) ℂ) :
    sumM ds (fun s => X * F s) = X * sumM ds F := by
  ext i j
  simp only [sumM, Matrix.mul_apply]
  rw [sumCfg_fin]
  exact Finset.sum_congr rfl fun k _ => sumCfg_mul _ _ _

theorem sumM_mul (ds : List ℕ) {n : ℕ} (X : Matrix (Fin n) (Fin n) ℂ) (F : List ℕ → Matrix (Fin n) (Fin n) ℂ) :
    sumM ds (fun s => F s * X) = sumM ds F * X := by
  ext i j
  simp only [sumM, Matrix.mul_apply]
  rw [sumCfg_fin]
  exact Finset.sum_congr rfl fun k _ => sumCfg_mul_right _ _ _

theorem sumM_smul (ds : List ℕ) {n : ℕ} (c : ℂ) (F : List ℕ → Matrix (Fin n) (Fin n) ℂ) :
    sumM ds (fun s => c • F s) = c • sumM ds F := by
  ext i j
  simp only [sumM, Matrix.smul_apply, smul_eq_mul]
  exact sumCfg_mul _ _ _

/-- A gauge transformation by `X` and `Y` with `XᴴX` proportional to the left fixed point gives an isometry. -/
theorem gauge_left {ds : List ℕ} {n : ℕ} {T : List ℕ → Matrix (Fin n) (Fin n) ℂ} {L X Y : Matrix (Fin n) (Fin n) ℂ} {c d : ℂ}
    (hL : sumM ds (fun s => (T s)ᴴ * L * T s) = L) (hX : Xᴴ * X = c • L) (hXY : X * Y = d • 1) :
    sumM ds (fun s => (X * T s * Y)ᴴ * (X * T s * Y)) = (star d * d) • 1 := by
  have e : ∀ s, (X * T s * Y)ᴴ * (X * T s * Y) = c • (Yᴴ * ((T s)ᴴ * L * T s) * Y) := by
    intro s
    simp only [conjTranspose_mul]
    calc Yᴴ * ((T s)ᴴ * Xᴴ) * (X * T s * Y) = Yᴴ * ((T s)ᴴ * (Xᴴ * X) * T s) * Y := by simp only [Matrix.mul_assoc]
      _ = _ := by rw [hX]; simp
  simp_rw [e]
  rw [sumM_smul, sumM_mul, mul_sumM, hL]
  calc c • (Yᴴ * L * Y) = Yᴴ * (c • L) * Y := by simp
    _ = (X * Y)ᴴ * (X * Y) := by rw [← hX, conjTranspose_mul]; simp only [Matrix.mul_assoc]
    _ = _ := by rw [hXY]; simp [smul_smul, mul_comm]

/-- The image of `R`, where `Y·R·Yᴴ` is proportional to the right fixed point. -/
theorem gauge_right {ds : List ℕ} {n : ℕ} {T : List ℕ → Matrix (Fin n) (Fin n) ℂ} {r X Y R : Matrix (Fin n) (Fin n) ℂ} {c d : ℂ}
    (hr : sumM ds (fun s => T s * r * (T s)ᴴ) = r) (hY : Y * R * Yᴴ = c • r) (hXY : X * Y = d • 1) :
    sumM ds (fun s => (X * T s * Y) * R * (X * T s * Y)ᴴ) = (d * star d) • R := by
  have e : ∀ s, (X * T s * Y) * R * (X * T s * Y)ᴴ = c • (X * (T s * r * (T s)ᴴ) * Xᴴ) := by
    intro s
    simp only [conjTranspose_mul]
    calc X * T s * Y * R * (Yᴴ * ((T s)ᴴ * Xᴴ)) = X * (T s * (Y * R * Yᴴ) * (T s)ᴴ) * Xᴴ := by simp only [Matrix.mul_assoc]
      _ = _ := by rw [hY]; simp
  simp_rw [e]
  rw [sumM_smul, sumM_mul, mul_sumM, hr]
  calc c • (X * r * Xᴴ) = X * (c • r) * Xᴴ := by simp
    _ = (X * Y) * R * (X * Y)ᴴ := by rw [← hY, conjTranspose_mul]; simp only [Matrix.mul_assoc]
    _ = _ := by rw [hXY]; simp [smul_smul]; rw [mul_comm]

/-! ## Sweeps -/

theorem linked_append_iff {l r : ℕ} {A B : List (Ten ℂ)} : Linked l (A ++ B) r ↔ ∃ k, Linked l A k ∧ Linked k B r := by
  induction A generalizing l with
  | nil => simp [Linked]
  | cons t A ih => simp [Linked, ih, and_assoc]

theorem cfg_map {ts : List (Ten ℂ)} {s : List ℕ} : Cfg ts s ↔ List.Forall₂ (fun d x => x < d) (ts.map Ten.d) s := by
  unfold Cfg; rw [List.forall₂_map_left_iff]

theorem cfg_congr {ts A : List (Ten ℂ)} {s : List ℕ} (h : A.map Ten.d = ts.map Ten.d) (hs : Cfg ts s) : Cfg A s := by
  rw [cfg_map, h]; exact cfg_map.1 hs

/-- Spec: the tensors `A` represent the same matrices as `ts` up to the factor `z`. -/
structure Same (l r : ℕ) (ts A : List (Ten ℂ)) (z : ℝ) : Prop where
  link : Linked l A r
  ds : A.map Ten.d = ts.map Ten.d
  zpos : 0 < z
  eq : ∀ s, Cfg ts s → ∀ i < l, ∀ j < r, chain ts s i j = (z : ℂ) * chain A s i j

theorem prepareTensor_one (O : LinAlg) (t : Ten ℂ) : prepareTensor O t 1 = prepareTensorR O .none t := rfl
theorem prepareTensor_neg (O : LinAlg) (t : Ten ℂ) : prepareTensor O t (-1) = prepareTensorL O .none t := rfl

/-- One step of the sweep to the right. -/
theorem cut_step {l r : ℕ} {t u u' a : Ten ℂ} {m : Mat ℂ} {z : ℝ} {rest : List (Ten ℂ)} (hl : Linked l (t :: u :: rest) r) (h : ExactR t a m z)
    (hu : absorbL m u = .ok u') : Linked a.r (u' :: rest) r ∧ a.l = l ∧ (∀ x < t.d, ∀ y ss, ∀ i < l, ∀ j,
      chain (t :: u :: rest) (x :: y :: ss) i j = (z : ℂ) * ∑ k ∈ range a.r, a.v i k x * chain (u' :: rest) (y :: ss) k j) := by
  obtain ⟨h1, h2, h3⟩ := hl
  have e := absorbL_eq hu
  refine ⟨⟨by rw [e.2]; exact h.r.symm, by rw [e.2]; exact h3⟩, by rw [h.l, h1], ?_⟩
  intro x hx y ss i hi j
  have := chain_cutR (A := []) (l := t.l) h rfl (u :: rest) [] rfl hx (y :: ss) (by rw [h1]; exact hi) j
  simp only [List.nil_append] at this
  rw [this]
  congr 1
  unfold split
  rw [h.r]
  refine sum_congr rfl fun k hk => ?_
  rw [chain_absorbL hu rest y ss k j, mul_sum]
  refine sum_congr rfl fun k' _ => ?_
  have : chain [a] [x] i k = a.v i k x := by
    simp only [chain]
    rw [sum_delta_right (by rw [h.r]; exact mem_range.1 hk)]
  rw [this, mul_assoc]

theorem sweepR_spec {O : LinAlg} (hO : O.Spec) : ∀ {rest : List (Ten ℂ)} {t : Ten ℂ} {A : List (Ten ℂ)} {l r : ℕ}, Linked l (t :: rest) r →
    sweepR O t rest = .ok A → (∃ z, Same l r (t :: rest) A z) ∧ (∀ a ∈ A.dropLast, LeftOrth a) ∧
      ∀ b, (∀ u ∈ t :: rest, u.l ≤ b ∧ u.r ≤ b) → ∀ u ∈ A, u.l ≤ b ∧ u.r ≤ b
  | [], t, A, l, r, hl, h => by
    cases h
    exact ⟨⟨1, hl, rfl, one_pos, fun s _ i _ j _ => by simp⟩, by simp, fun b hb => hb⟩
  | u :: rest, t, A, l, r, hl, h => by
    rw [sweepR, prepareTensor_one] at h
    split at h
    · cases h
    rename_i a m z hp
    have hE := prepareTensorR_spec hO hp
    split at h
    · cases h
    rename_i u' hu
    split at h
    · cases h
    rename_i done hd
    cases h
    obtain ⟨k1, k2, k3⟩ := cut_step hl hE hu
    have e := absorbL_eq hu
    obtain ⟨⟨z', S⟩, ho, hb⟩ := sweepR_spec hO k1 hd
    refine ⟨⟨z * z', ⟨k2, S.link⟩, ?_, mul_pos hE.zpos S.zpos, ?_⟩, ?_, ?_⟩
    · rw [List.map_cons, S.ds, hE.d, e.2]; rfl
    · intro s hs i hi j hj
      obtain ⟨x, ss, rfl⟩ : ∃ x ss, s = x :: ss := by cases hs; exact ⟨_, _, rfl⟩
      have hs' := List.forall₂_cons.1 hs
      obtain ⟨y, ss, rfl⟩ : ∃ y ss', ss = y :: ss' := by cases hs'.2; exact ⟨_, _, rfl⟩
      rw [k3 x hs'.1 y ss i hi j]
      simp only [chain]
      push_cast
      rw [mul_assoc, mul_sum (a := (z' : ℂ))]
      congr 1
      refine sum_congr rfl fun k hk => ?_
      have hc : Cfg (u' :: rest) (y :: ss) := by
        have := List.forall₂_cons.1 hs'.2
        exact List.forall₂_cons.2 ⟨by rw [e.2]; exact this.1, this.2⟩
      have := S.eq (y :: ss) hc k (mem_range.1 hk) j hj
      simp only [chain] at this
      rw [this]; ring
    · have hne : done ≠ [] := by
        intro h0
        have := S.ds
        simp [h0] at this
      rw [List.dropLast_cons_of_ne_nil hne]
      intro b hb'
      rcases List.mem_cons.1 hb' with rfl | h'
      · exact hE.orth
      · exact ho b h'
    · intro b h0 v hv
      have ht := h0 t (by simp)
      have hu0 := h0 u (by simp)
      have ha : a.r ≤ b := by rw [hE.r]; exact hE.le.trans ht.2
      rcases List.mem_cons.1 hv with rfl | h'
      · exact ⟨by rw [hE.l]; exact ht.1, ha⟩
      · refine hb b ?_ v h'
        intro w hw
        rcases List.mem_cons.1 hw with rfl | h''
        · refine ⟨?_, by rw [e.2]; exact hu0.2⟩
          rw [e.2]; show m.r ≤ b; rw [← hE.r]; exact ha
        · exact h0 w (by simp [h''])

/-- The sweep succeeds on tensors whose matrices do not all vanish. -/
theorem sweepR_total {O : LinAlg} (hO : O.Spec) : ∀ {rest : List (Ten ℂ)} {t : Ten ℂ} {l r : ℕ}, Linked l (t :: rest) r →
    (∃ s, Cfg (t :: rest) s ∧ ∃ i < l, ∃ j < r, chain (t :: rest) s i j ≠ 0) → ∃ A, sweepR O t rest = .ok A
  | [], t, l, r, _, _ => ⟨_, rfl⟩
  | u :: rest, t, l, r, hl, ⟨s, hs, i, hi, j, hj, hne⟩ => by
    rw [sweepR, prepareTensor_one]
    obtain ⟨x, ss, rfl⟩ : ∃ x ss, s = x :: ss := by cases hs; exact ⟨_, _, rfl⟩
    have hs' := List.forall₂_cons.1 hs
    obtain ⟨y, ss, rfl⟩ : ∃ y ss', ss = y :: ss' := by cases hs'.2; exact ⟨_, _, rfl⟩
    cases hp : prepareTensorR O .none t with
    | error e =>
      exfalso
      have h0 := (prepareTensorR_err hO hp).2
      apply hne
      simp only [chain]
      refine sum_eq_zero fun k hk => ?_
      rw [h0 i (by rw [hl.1]; exact hi) k (mem_range.1 hk) x hs'.1, zero_mul]
    | ok q =>
      obtain ⟨a, m, z⟩ := q
      have hE := prepareTensorR_spec hO hp
      obtain ⟨u', hu⟩ : ∃ u', absorbL m u = .ok u' := ⟨_, absorbL_ok (m := m) (t := u) (by rw [hE.c]; exact hl.2.1.symm)⟩
      have e := absorbL_eq hu
      obtain ⟨k1, k2, k3⟩ := cut_step hl hE hu
      simp only [hu]
      have hc : Cfg (u' :: rest) (y :: ss) := by
        have := List.forall₂_cons.1 hs'.2
        exact List.forall₂_cons.2 ⟨by rw [e.2]; exact this.1, this.2⟩
      obtain ⟨A, hA⟩ := sweepR_total hO k1 ⟨y :: ss, hc, by
        by_contra hno
        push Not at hno
        apply hne
        rw [k3 x hs'.1 y ss i hi j]
        rw [sum_eq_zero, mul_zero]
        intro k hk
        rw [hno k (mem_range.1 hk) j hj, mul_zero]⟩
      rw [hA]
      exact ⟨_, rfl⟩

/-- One step of the sweep to the left. -/
theorem cut_stepL {l r : ℕ} {t u u' b : Ten ℂ} {m : Mat ℂ} {z : ℝ} {left G : List (Ten ℂ)} (hl : Linked l (left ++ [u] ++ t :: G) r)
    (h : ExactL t b m z) (hu : absorbR u m = .ok u') : Linked l (left ++ u' :: (b :: G)) r ∧ (∀ s, Cfg (left ++ [u] ++ t :: G) s → ∀ i < l, ∀ j,
      chain (left ++ [u] ++ t :: G) s i j = (z : ℂ) * chain (left ++ u' :: (b :: G)) s i j) := by
  obtain ⟨k, h1, h2, h3⟩ := linked_append_iff.1 hl
  have h2 : t.l = k := h2
  subst h2
  obtain ⟨k', h4, h5, h6⟩ := linked_append_iff.1 h1
  have h5 : u.l = k' := h5
  subst h5
  have h6 : u.r = t.l := h6
  have e := absorbR_eq hu
  have hu'l : u'.l = u.l := by rw [e.2]
  have hu'r : u'.r = m.c := by rw [e.2]
  have hlink : Linked l (left ++ [u']) m.c := linked_append_iff.2 ⟨u'.l, by rw [hu'l]; exact h4, rfl, hu'r⟩
  refine ⟨linked_append_iff.2 ⟨u'.l, by rw [hu'l]; exact h4, rfl, by rw [hu'r]; exact h.l, by rw [h.r]; exact h3⟩, ?_⟩
  intro s hs i hi j
  obtain ⟨sA, sB, rfl, hA, hB⟩ : ∃ sA sB, s = sA ++ sB ∧ Cfg (left ++ [u]) sA ∧ Cfg (t :: G) sB := by
    refine ⟨s.take (left ++ [u]).length, s.drop (left ++ [u]).length, (List.take_append_drop _ _).symm, ?_, ?_⟩
    · have := List.forall₂_take (n := (left ++ [u]).length) hs
      rwa [List.take_left] at this
    · have := List.forall₂_drop (n := (left ++ [u]).length) hs
      rwa [List.drop_left] at this
  have hlA := hA.length_eq
  obtain ⟨x, ss, rfl⟩ : ∃ x ss, sB = x :: ss := by cases hB; exact ⟨_, _, rfl⟩
  have hB' := List.forall₂_cons.1 hB
  obtain ⟨sA, y, rfl⟩ : ∃ a y, sA = a ++ [y] := by
    rcases List.eq_nil_or_concat sA with h0 | ⟨a, y, h0⟩
    · rw [h0] at hlA; simp at hlA
    · exact ⟨a, y, by rw [h0, List.concat_eq_append]⟩
  have hlA' : sA.length = left.length := by simpa using hlA.symm
  rw [chain_cutL (l := l) h h1 G (sA ++ [y]) hlA.symm hB'.1 ss hi j]
  congr 1
  rw [split_mmul, show left ++ u' :: b :: G = (left ++ [u']) ++ (b :: G) by simp, chain_append hlink (sA ++ [y]) (x :: ss) (by simp [hlA']) hi]
  show _ = mmul m.c (chain (left ++ [u']) (sA ++ [y])) (chain (b :: G) (x :: ss)) i j
  rw [← mmul_assoc]
  refine mmul_congr (fun q hq => ?_) fun q hq => rfl
  rw [chain_append_absorbR h4 hu sA hlA' y hi hq]
  rfl

theorem sweepL_spec {O : LinAlg} (hO : O.Spec) : ∀ {left : List (Ten ℂ)} {t : Ten ℂ} {G A : List (Ten ℂ)} {l r : ℕ}, Linked l (left.reverse ++ t :: G) r →
    (∀ g ∈ G, RightOrth g) → sweepL O t left G = .ok A → (∃ z, Same l r (left.reverse ++ t :: G) A z) ∧ (∀ a ∈ A.tail, RightOrth a) ∧
      ∀ b, (∀ u ∈ left.reverse ++ t :: G, u.l ≤ b ∧ u.r ≤ b) → ∀ u ∈ A, u.l ≤ b ∧ u.r ≤ b
  | [], t, G, A, l, r, hl, hG, h => by
    cases h
    exact ⟨⟨1, hl, rfl, one_pos, fun s _ i _ j _ => by simp⟩, by simpa using hG, fun b hb => by simpa using hb⟩
  | u :: left, t, G, A, l, r, hl, hG, h => by
    rw [sweepL, prepareTensor_neg] at h
    split at h
    · cases h
    rename_i B m z hp
    have hE := prepareTensorL_spec hO hp
    split at h
    · cases h
    rename_i u' hu
    rw [List.reverse_cons] at hl ⊢
    obtain ⟨k1, k2⟩ := cut_stepL hl hE hu
    have e := absorbR_eq hu
    obtain ⟨⟨z', S⟩, ho, hb⟩ := sweepL_spec hO (G := B :: G) k1 (by
      intro g hg
      rcases List.mem_cons.1 hg with rfl | h'
      · exact hE.orth
      · exact hG g h') h
    have hds : (left.reverse ++ u' :: B :: G).map Ten.d = (left.reverse ++ [u] ++ t :: G).map Ten.d := by
      simp [e.2, hE.d]
    refine ⟨⟨z * z', S.link, by rw [S.ds, hds], mul_pos hE.zpos S.zpos, ?_⟩, ho, ?_⟩
    · intro s hs i hi j hj
      rw [k2 s hs i hi j, S.eq s (cfg_congr hds hs) i hi j hj]
      push_cast; ring
    · intro b h0
      refine hb b ?_
      have hu0 := h0 u (by simp)
      have ht0 := h0 t (by simp)
      have hc : m.c ≤ b := hE.le.trans ht0.1
      intro w hw
      rcases List.mem_append.1 hw with h' | h'
      · exact h0 w (by simp only [List.mem_append]; left; left; exact h')
      rcases List.mem_cons.1 h' with rfl | h'
      · exact ⟨by rw [e.2]; exact hu0.1, by rw [e.2]; exact hc⟩
      rcases List.mem_cons.1 h' with rfl | h'
      · exact ⟨by rw [hE.l]; exact hc, by rw [hE.r]; exact ht0.2⟩
      · exact h0 w (by simp [h'])

theorem sweepL_total {O : LinAlg} (hO : O.Spec) : ∀ {left : List (Ten ℂ)} {t : Ten ℂ} {G : List (Ten ℂ)} {l r : ℕ}, Linked l (left.reverse ++ t :: G) r →
    (∃ s, Cfg (left.reverse ++ t :: G) s ∧ ∃ i < l, ∃ j < r, chain (left.reverse ++ t :: G) s i j ≠ 0) → ∃ A, sweepL O t left G = .ok A
  | [], t, G, l, r, _, _ => ⟨_, rfl⟩
  | u :: left, t, G, l, r, hl, ⟨s, hs, i, hi, j, hj, hne⟩ => by
    rw [sweepL, prepareTensor_neg]
    rw [List.reverse_cons] at hl hs hne
    cases hp : prepareTensorL O .none t with
    | error e =>
      exfalso
      have h0 := (prepareTensorL_err hO hp).2
      apply hne
      obtain ⟨k, h1, h2, h3⟩ := linked_append_iff.1 hl
      have h2 : t.l = k := h2
      subst h2
      have hlen := hs.length_eq
      have hsd : s = s.take (left.reverse ++ [u]).length ++ s.drop (left.reverse ++ [u]).length := (List.take_append_drop _ _).symm
      rw [hsd, chain_append h1 _ _ (by rw [List.length_take, ← hlen]; simp) hi]
      have hB : Cfg (t :: G) (s.drop (left.reverse ++ [u]).length) := by
        have := List.forall₂_drop (n := (left.reverse ++ [u]).length) hs
        rwa [List.drop_left] at this
      obtain ⟨x, ss, hx⟩ : ∃ x ss, s.drop (left.reverse ++ [u]).length = x :: ss := by
        generalize s.drop (left.reverse ++ [u]).length = sB at hB
        cases hB; exact ⟨_, _, rfl⟩
      rw [hx] at hB ⊢
      refine sum_eq_zero fun k hk => ?_
      simp only [chain]
      rw [sum_eq_zero, mul_zero]
      intro q hq
      rw [h0 k (mem_range.1 hk) q (mem_range.1 hq) x (List.forall₂_cons.1 hB).1, zero_mul]
    | ok q =>
      obtain ⟨B, m, z⟩ := q
      have hE := prepareTensorL_spec hO hp
      have hur : u.r = m.r := by
        obtain ⟨k, h1, h2, h3⟩ := linked_append_iff.1 hl
        have h2 : t.l = k := h2
        obtain ⟨k', h4, h5, h6⟩ := linked_append_iff.1 h1
        have h6 : u.r = k := h6
        rw [h6, ← h2, hE.rr]
      obtain ⟨u', hu⟩ : ∃ u', absorbR u m = .ok u' := ⟨_, absorbR_ok hur⟩
      simp only [hu]
      obtain ⟨k1, k2⟩ := cut_stepL hl hE hu
      have e := absorbR_eq hu
      have hds : (left.reverse ++ u' :: B :: G).map Ten.d = (left.reverse ++ [u] ++ t :: G).map Ten.d := by
        simp [e.2, hE.d]
      refine sweepL_total hO k1 ⟨s, cfg_congr hds hs, i, hi, j, hj, ?_⟩
      intro h0
      apply hne
      rw [k2 s hs i hi j, h0, mul_zero]

/-! ## Normalisation of the last or first tensor -/

theorem sum_swap22 (a b c d : ℕ) (F : ℕ → ℕ → ℕ → ℕ → ℂ) :
    ∑ x ∈ range a, ∑ i ∈ range b, ∑ k ∈ range c, ∑ k' ∈ range d, F x i k k' =
      ∑ k ∈ range c, ∑ k' ∈ range d, ∑ x ∈ range a, ∑ i ∈ range b, F x i k k' := by
  calc _ = ∑ x ∈ range a, ∑ k ∈ range c, ∑ i ∈ range b, ∑ k' ∈ range d, F x i k k' := sum_congr rfl fun _ _ => sum_comm
    _ = ∑ k ∈ range c, ∑ x ∈ range a, ∑ i ∈ range b, ∑ k' ∈ range d, F x i k k' := sum_comm
    _ = ∑ k ∈ range c, ∑ x ∈ range a, ∑ k' ∈ range d, ∑ i ∈ range b, F x i k k' :=
        sum_congr rfl fun _ _ => sum_congr rfl fun _ _ => sum_comm
    _ = _ := sum_congr rfl fun _ _ => sum_comm

theorem gram_cons {a : Ten ℂ} (ha : LeftOrth a) (C : List (Ten ℂ)) (j j' : ℕ) :
    sumCfg ((a :: C).map Ten.d) (fun s => ∑ i ∈ range a.l, star (chain (a :: C) s i j) * chain (a :: C) s i j')
      = sumCfg (C.map Ten.d) fun s => ∑ k ∈ range a.r, star (chain C s k j) * chain C s k j' := by
  simp only [List.map_cons, sumCfg]
  rw [← sumCfg_sum]
  congr 1
  funext ss
  simp only [chain]
  have e : ∀ x i, star (∑ k ∈ range a.r, a.v i k x * chain C ss k j) * ∑ k ∈ range a.r, a.v i k x * chain C ss k j'
      = ∑ k ∈ range a.r, ∑ k' ∈ range a.r, star (chain C ss k j) * chain C ss k' j' * (star (a.v i k x) * a.v i k' x) := by
    intro x i
    rw [star_sum, sum_mul_sum]
    refine sum_congr rfl fun k _ => sum_congr rfl fun k' _ => ?_
    rw [star_mul']; ring
  simp_rw [e]
  calc ∑ x ∈ range a.d, ∑ i ∈ range a.l, ∑ k ∈ range a.r, ∑ k' ∈ range a.r, star (chain C ss k j) * chain C ss k' j' * (star (a.v i k x) * a.v i k' x)
      = ∑ k ∈ range a.r, ∑ k' ∈ range a.r, ∑ x ∈ range a.d, ∑ i ∈ range a.l, star (chain C ss k j) * chain C ss k' j' * (star (a.v i k x) * a.v i k' x) := by
        exact sum_swap22 _ _ _ _ _
    _ = ∑ k ∈ range a.r, ∑ k' ∈ range a.r, star (chain C ss k j) * chain C ss k' j' * delta ℂ k k' := by
        refine sum_congr rfl fun k hk => sum_congr rfl fun k' hk' => ?_
        rw [← ha k (mem_range.1 hk) k' (mem_range.1 hk')]
        simp_rw [mul_sum]
    _ = _ := by
        refine sum_congr rfl fun k hk => ?_
        simp only [delta, mul_ite, mul_one, mul_zero]
        rw [sum_ite_eq, if_pos hk]

theorem gram_last {r : ℕ} : ∀ {P : List (Ten ℂ)} {t : Ten ℂ} {l : ℕ}, Linked l (P ++ [t]) r → (∀ a ∈ P, LeftOrth a) → ∀ j < r, ∀ j' < r,
    sumCfg ((P ++ [t]).map Ten.d) (fun s => ∑ i ∈ range l, star (chain (P ++ [t]) s i j) * chain (P ++ [t]) s i j')
      = ∑ x ∈ range t.d, ∑ i ∈ range t.l, star (t.v i j x) * t.v i j' x
  | [], t, l, hl, _, j, hj, j', hj' => by
    obtain ⟨h1, h2⟩ := hl
    have h2 : t.r = r := h2
    subst h1 h2
    simp only [List.nil_append, List.map_cons, List.map_nil, sumCfg, chain]
    refine sum_congr rfl fun x _ => sum_congr rfl fun i _ => ?_
    rw [sum_delta_right hj, sum_delta_right hj']
  | a :: P, t, l, hl, ho, j, hj, j', hj' => by
    obtain ⟨h1, h2⟩ := hl
    subst h1
    have := gram_cons (ho a (by simp)) (P ++ [t]) j j'
    rw [← gram_last h2 (fun b hb => ho b (by simp [hb])) j hj j' hj']
    exact this

theorem gram_first {l : ℕ} {t : Ten ℂ} {Q : List (Ten ℂ)} {r : ℕ} (hl : Linked l (t :: Q) r) (ho : ∀ a ∈ Q, RightOrth a) (i i' : ℕ) :
    sumCfg ((t :: Q).map Ten.d) (fun s => ∑ j ∈ range r, chain (t :: Q) s i j * star (chain (t :: Q) s i' j))
      = ∑ x ∈ range t.d, ∑ j ∈ range t.r, t.v i j x * star (t.v i' j x) := by
  simp only [List.map_cons, sumCfg, chain]
  exact sum_congr rfl fun x _ => gram_chain hl.2 ho (fun k => t.v i k x) fun k => t.v i' k x

theorem onLast_append {f : Ten ℂ → Res (Ten ℂ)} {t t' : Ten ℂ} (h : f t = .ok t') : ∀ P : List (Ten ℂ), onLast f (P ++ [t]) = .ok (P ++ [t'])
  | [] => by simp [onLast, h]
  | [a] => by simp [onLast, h]
  | a :: b :: P => by
    have := onLast_append h (b :: P)
    simp only [List.cons_append] at this
    simp only [List.cons_append, onLast, this]

theorem chain_divT_last {l : ℕ} {P : List (Ten ℂ)} {t : Ten ℂ} {r : ℕ} (hl : Linked l (P ++ [t]) r) (z : ℝ) {s : List ℕ} (hs : Cfg (P ++ [t]) s)
    {i : ℕ} (hi : i < l) (j : ℕ) : chain (P ++ [divT z t]) s i j = chain (P ++ [t]) s i j / z := by
  obtain ⟨k, h1, h2, _⟩ := linked_append_iff.1 hl
  have h2 : t.l = k := h2
  have hlen := hs.length_eq
  rw [List.length_append] at hlen
  have hsd : s = s.take P.length ++ s.drop P.length := (List.take_append_drop _ _).symm
  rw [hsd, chain_append h1 _ _ (by rw [List.length_take, ← hlen]; simp) hi, chain_append h1 _ _ (by rw [List.length_take, ← hlen]; simp) hi]
  rw [sum_div]
  refine sum_congr rfl fun q _ => ?_
  obtain ⟨x, hx⟩ : ∃ x, s.drop P.length = [x] := List.length_eq_one_iff.1 (by rw [List.length_drop, ← hlen]; simp)
  rw [hx]
  simp only [chain, divT]
  rw [mul_div_assoc, sum_div]
  congr 1
  exact sum_congr rfl fun _ _ => by ring

/-- Spec: the columns of the matrices, taken together, are orthonormal up to the factor `c`. -/
def GramL (n : ℕ) (ts : List (Ten ℂ)) (c : ℝ) : Prop := ∀ j < n, ∀ j' < n,
  sumCfg (ts.map Ten.d) (fun s => ∑ i ∈ range n, star (chain ts s i j) * chain ts s i j') = (c : ℂ) * delta ℂ j j'

/-- Spec: the rows of the matrices, taken together, are orthonormal up to the factor `c`. -/
def GramR (n : ℕ) (ts : List (Ten ℂ)) (c : ℝ) : Prop := ∀ i < n, ∀ i' < n,
  sumCfg (ts.map Ten.d) (fun s => ∑ j ∈ range n, chain ts s i j * star (chain ts s i' j)) = (c : ℂ) * delta ℂ i i'

theorem normSq_of {z : ℂ} : ((Complex.normSq z : ℝ) : ℂ) = star z * z := (Complex.normSq_eq_conj_mul_self (z := z))

theorem finishL {n : ℕ} (hn : 0 < n) {ts : List (Ten ℂ)} {c : ℝ} (hc : 0 < c) (hl : Linked n ts n) (hne : ts ≠ []) (ho : ∀ a ∈ ts.dropLast, LeftOrth a)
    (hg : GramL n ts c) : ∃ A, onLast unitLast ts = .ok A ∧ Same n n ts A (Real.sqrt c) ∧ (∀ a ∈ A, LeftOrth a) ∧
      A.map (fun t => (t.l, t.r)) = ts.map fun t => (t.l, t.r) := by
  obtain ⟨P, t, rfl⟩ : ∃ P t, ts = P ++ [t] := by
    rcases List.eq_nil_or_concat ts with h0 | ⟨a, y, h0⟩
    · exact absurd h0 hne
    · exact ⟨a, y, by rw [h0, List.concat_eq_append]⟩
  rw [List.dropLast_concat] at ho
  obtain ⟨k, h1, h2, h3⟩ := linked_append_iff.1 hl
  have h3 : t.r = n := h3
  have hG : ∀ j < n, ∀ j' < n, ∑ x ∈ range t.d, ∑ i ∈ range t.l, star (t.v i j x) * t.v i j' x = (c : ℂ) * delta ℂ j j' := by
    intro j hj j' hj'
    rw [← gram_last hl ho j hj j' hj', hg j hj j' hj']
  have hZ : (∑ j ∈ range t.r, ∑ i ∈ range t.l, ∑ s ∈ range t.d, Complex.normSq (t.v i j s)) / t.r = c := by
    have : ∀ j ∈ range t.r, ∑ i ∈ range t.l, ∑ s ∈ range t.d, Complex.normSq (t.v i j s) = c := by
      intro j hj
      have hj : j < n := by rw [← h3]; exact mem_range.1 hj
      have := hG j hj j hj
      rw [sum_comm] at this
      simp only [← normSq_of, delta, if_true, mul_one] at this
      exact_mod_cast this
    rw [sum_congr rfl this, sum_const, card_range, nsmul_eq_mul, mul_div_assoc, mul_comm, div_mul_cancel₀]
    rw [h3]; exact_mod_cast hn.ne'
  have hs0 : 0 < Real.sqrt c := Real.sqrt_pos.2 hc
  have hsc : ((Real.sqrt c : ℝ) : ℂ) ≠ 0 := by exact_mod_cast hs0.ne'
  refine ⟨P ++ [divT (Real.sqrt c) t], ?_, ⟨?_, ?_, hs0, ?_⟩, ?_, ?_⟩
  · refine onLast_append ?_ P
    unfold unitLast
    simp only [hZ, if_neg hc.ne']
  · exact linked_append_iff.2 ⟨k, h1, h2, h3⟩
  · simp [divT]
  · intro s hs i hi j hj
    rw [chain_divT_last hl _ hs hi, mul_div_cancel₀ _ hsc]
  · intro a ha
    rcases List.mem_append.1 ha with h' | h'
    · exact ho a h'
    · rw [List.mem_singleton.1 h']
      intro j hj j' hj'
      have hj : j < n := by rw [← h3]; exact hj
      have hj' : j' < n := by rw [← h3]; exact hj'
      have e : ∀ x i, star ((divT (Real.sqrt c) t).v i j x) * (divT (Real.sqrt c) t).v i j' x = (star (t.v i j x) * t.v i j' x) / (c : ℂ) := by
        intro x i
        have : (c : ℂ) = (Real.sqrt c : ℂ) * (Real.sqrt c : ℂ) := by exact_mod_cast (Real.mul_self_sqrt hc.le).symm
        rw [this]
        simp only [divT, star_div₀]
        have hst : star ((Real.sqrt c : ℝ) : ℂ) = (Real.sqrt c : ℂ) := Complex.conj_ofReal _
        rw [hst]; field_simp
      simp_rw [e, ← sum_div]
      show (∑ x ∈ range t.d, ∑ i ∈ range t.l, star (t.v i j x) * t.v i j' x) / (c : ℂ) = _
      rw [hG j hj j' hj', mul_div_assoc, mul_comm, div_mul_cancel₀]
      exact_mod_cast hc.ne'
  · simp [divT]

theorem finishR {n : ℕ} (hn : 0 < n) {ts : List (Ten ℂ)} {c : ℝ} (hc : 0 < c) (hl : Linked n ts n) (hne : ts ≠ []) (ho : ∀ a ∈ ts.tail, RightOrth a)
    (hg : GramR n ts c) : ∃ A, onFirst unitFirst ts = .ok A ∧ Same n n ts A (Real.sqrt c) ∧ (∀ a ∈ A, RightOrth a) ∧
      A.map (fun t => (t.l, t.r)) = ts.map fun t => (t.l, t.r) := by
  obtain ⟨t, Q, rfl⟩ : ∃ t Q, ts = t :: Q := List.exists_cons_of_ne_nil hne
  rw [List.tail_cons] at ho
  have h3 : t.l = n := hl.1
  have hG : ∀ i < n, ∀ i' < n, ∑ x ∈ range t.d, ∑ j ∈ range t.r, t.v i j x * star (t.v i' j x) = (c : ℂ) * delta ℂ i i' := by
    intro i hi i' hi'
    rw [← gram_first hl ho i i', hg i hi i' hi']
  have hZ : (∑ i ∈ range t.l, ∑ j ∈ range t.r, ∑ s ∈ range t.d, Complex.normSq (t.v i j s)) / t.l = c := by
    have : ∀ i ∈ range t.l, ∑ j ∈ range t.r, ∑ s ∈ range t.d, Complex.normSq (t.v i j s) = c := by
      intro i hi
      have hi : i < n := by rw [← h3]; exact mem_range.1 hi
      have := hG i hi i hi
      rw [sum_comm] at this
      simp only [mul_comm _ (star _), ← normSq_of, delta, if_true, mul_one] at this
      exact_mod_cast this
    rw [sum_congr rfl this, sum_const, card_range, nsmul_eq_mul, mul_div_assoc, mul_comm, div_mul_cancel₀]
    rw [h3]; exact_mod_cast hn.ne'
  have hs0 : 0 < Real.sqrt c := Real.sqrt_pos.2 hc
  have hsc : ((Real.sqrt c : ℝ) : ℂ) ≠ 0 := by exact_mod_cast hs0.ne'
  refine ⟨divT (Real.sqrt c) t :: Q, ?_, ⟨?_, ?_, hs0, ?_⟩, ?_, ?_⟩
  · simp only [onFirst, unitFirst, hZ, if_neg hc.ne']
  · exact ⟨h3, hl.2⟩
  · simp [divT]
  · intro s hs i hi j hj
    obtain ⟨x, ss, rfl⟩ : ∃ x ss, s = x :: ss := by cases hs; exact ⟨_, _, rfl⟩
    simp only [chain, divT]
    rw [mul_sum]
    refine sum_congr rfl fun k _ => ?_
    field_simp
  · intro a ha
    rcases List.mem_cons.1 ha with h' | h'
    swap
    · exact ho a h'
    · rw [h']
      intro i hi i' hi'
      have hi : i < n := by rw [← h3]; exact hi
      have hi' : i' < n := by rw [← h3]; exact hi'
      have e : ∀ x j, (divT (Real.sqrt c) t).v i j x * star ((divT (Real.sqrt c) t).v i' j x) = (t.v i j x * star (t.v i' j x)) / (c : ℂ) := by
        intro x j
        have : (c : ℂ) = (Real.sqrt c : ℂ) * (Real.sqrt c : ℂ) := by exact_mod_cast (Real.mul_self_sqrt hc.le).symm
        rw [this]
        simp only [divT, star_div₀]
        have hst : star ((Real.sqrt c : ℝ) : ℂ) = (Real.sqrt c : ℂ) := Complex.conj_ofReal _
        rw [hst]; field_simp
      simp_rw [e, ← sum_div]
      show (∑ x ∈ range t.d, ∑ j ∈ range t.r, t.v i j x * star (t.v i' j x)) / (c : ℂ) = _
      rw [hG i hi i' hi', mul_div_assoc, mul_comm, div_mul_cancel₀]
      exact_mod_cast hc.ne'
  · simp [divT]

end
end PyTeN.Regauge
