import Verif.Mps.Canon
import Verif.Mps.Norm
import Verif.Mps.Oracle
import Verif.Engine.Shape
import Mathlib.LinearAlgebra.Matrix.Rank

/-! # C57: the canonical form of an open chain -/

namespace PyTeN
open Finset Canon

noncomputable section

/-! ## Specification -/

/-- Spec: `Gamma[0]·Lam[1]·Gamma[1]·Lam[2]⋯`, the list `L` starts with `Lam[1]`. -/
def glTail : List (List ℝ) → List (Ten ℂ) → List ℕ → ℕ → ℕ → ℂ
  | [], [], [], i, j => delta ℂ i j
  | l :: ls, g :: gs, s :: ss, i, j => ∑ k ∈ range g.r, g.v i k s * ((l.getD k 0 : ℝ) : ℂ) * glTail ls gs ss k j
  | _, _, _, _, _ => 0

/-- Spec: the amplitude `Lam[0]·Gamma[0]·Lam[1]⋯Gamma[N-1]·Lam[N]` of a configuration. -/
def glProd : List (List ℝ) → List (Ten ℂ) → List ℕ → ℕ → ℕ → ℂ
  | l :: ls, gs, ss, i, j => ((l.getD i 0 : ℝ) : ℂ) * glTail ls gs ss i j
  | [], _, _, _, _ => 0

/-- Spec: `Lam·Gamma`. -/
def scaleL (l : List ℝ) (g : Ten ℂ) : Ten ℂ := ⟨g.l, g.r, g.d, fun i j s => ((l.getD i 0 : ℝ) : ℂ) * g.v i j s⟩

/-- Spec: `Gamma·Lam`. -/
def scaleR (g : Ten ℂ) (l : List ℝ) : Ten ℂ := ⟨g.l, g.r, g.d, fun i j s => g.v i j s * ((l.getD j 0 : ℝ) : ℂ)⟩

/-- Spec: Schmidt values: positive, squares add up to one. -/
def Schmidt (l : List ℝ) : Prop := (∀ x ∈ l, 0 < x) ∧ (l.map (fun x => x ^ 2)).sum = 1

/-- Spec: Vidal's canonical form.  The bonds carry Schmidt values, `Lam[n]·Gamma[n]` is left- and
`Gamma[n]·Lam[n+1]` right-orthonormal. -/
def Vidal : List (List ℝ) → List (Ten ℂ) → Prop
  | [l], [] => Schmidt l
  | l :: l' :: ls, g :: gs => Schmidt l ∧ g.l = l.length ∧ g.r = l'.length ∧ LeftOrth (scaleL l g) ∧
      RightOrth (scaleR g l') ∧ Vidal (l' :: ls) gs
  | _, _ => False

/-! ## Lemmas -/

theorem norm2_one_iff {l : List ℝ} : norm2 l = 1 ↔ (l.map (fun x => x ^ 2)).sum = 1 := by
  unfold norm2
  rw [Real.sqrt_eq_one]

theorem glTail_chain : ∀ (L : List (List ℝ)) (G : List (Ten ℂ)), L.length = G.length → ∀ s i j,
    glTail L G s i j = chain (List.zipWith scaleR G L) s i j := by
  intro L
  induction L with
  | nil =>
    intro G h s i j
    obtain rfl : G = [] := by simpa using h.symm
    cases s <;> simp [glTail, chain]
  | cons l L ih =>
    intro G h s i j
    cases G with
    | nil => simp at h
    | cons g G =>
      cases s with
      | nil => simp [glTail, chain]
      | cons s ss =>
        simp only [glTail, List.zipWith_cons_cons, chain]
        refine sum_congr rfl fun k _ => ?_
        rw [ih G (by simpa using h)]
        rfl

/-- Two neighbouring tensors may be exchanged for others with the same product. -/
theorem chain_two {A C : List (Ten ℂ)} {u t u' b : Ten ℂ} {c : ℂ}
    (hbr : b.r = t.r)
    (h : ∀ i < u.l, ∀ s < u.d, ∀ j < t.r, ∀ s' < t.d,
      ∑ k ∈ range u.r, u.v i k s * t.v k j s' = c * ∑ k ∈ range u'.r, u'.v i k s * b.v k j s') :
    ∀ l, Linked l A u.l → ∀ s, Cfg (A ++ u :: t :: C) s → ∀ i < l, ∀ j,
      chain (A ++ u :: t :: C) s i j = c * chain (A ++ u' :: b :: C) s i j := by
  induction A with
  | nil =>
    intro l hl s hs i hi j
    simp only [Linked] at hl
    subst hl
    cases hs with
    | cons h1 hs =>
    cases hs with
    | cons h2 hs =>
    rename_i x y ys
    simp only [List.nil_append, chain, mul_sum]
    rw [sum_comm, sum_comm (s := range u'.r), hbr]
    refine sum_congr rfl fun k hk => ?_
    have := h i hi x h1 k (mem_range.mp hk) y h2
    have e : ∀ (n : ℕ) (p q : ℕ → ℂ) (r : ℂ), ∑ m ∈ range n, p m * (q m * r) = (∑ m ∈ range n, p m * q m) * r := by
      intro n p q r; rw [sum_mul]; exact sum_congr rfl fun _ _ => by ring
    rw [e, this, mul_sum, sum_mul]
    exact sum_congr rfl fun _ _ => by ring
  | cons a A ih =>
    intro l hl s hs i hi j
    cases hs with
    | cons h1 hs =>
    rename_i x xs
    simp only [List.cons_append, chain, mul_sum]
    refine sum_congr rfl fun k hk => ?_
    rw [ih _ hl.2 _ hs k (mem_range.mp hk) j]
    ring

theorem leftOrth_mul {a f : Ten ℂ} {m : Mat ℂ} (h : LeftOrth a) (hm : a.r = m.r)
    (iso : ∀ k < m.c, ∀ k' < m.c, ∑ i ∈ range m.r, star (m.v i k) * m.v i k' = delta ℂ k k')
    (hl : f.l = a.l) (hr : f.r = m.c) (hd : f.d = a.d)
    (hf : ∀ i < a.l, ∀ j < m.c, ∀ s < a.d, f.v i j s = ∑ k ∈ range a.r, a.v i k s * m.v k j) : LeftOrth f := by
  intro j hj j' hj'
  rw [hr] at hj hj'
  rw [hd, hl, ← iso j hj j' hj']
  have e : ∀ s ∈ range a.d, ∀ i ∈ range a.l, star (f.v i j s) * f.v i j' s
      = ∑ k ∈ range a.r, ∑ k' ∈ range a.r, (star (m.v k j) * m.v k' j') * (star (a.v i k s) * a.v i k' s) := by
    intro s hs i hi
    rw [hf i (mem_range.mp hi) j hj s (mem_range.mp hs), hf i (mem_range.mp hi) j' hj' s (mem_range.mp hs), star_sum,
      sum_mul_sum]
    refine sum_congr rfl fun k _ => sum_congr rfl fun k' _ => ?_
    rw [star_mul']; ring
  rw [sum_congr rfl fun s hs => sum_congr rfl fun i hi => e s hs i hi]
  have e2 : ∑ s ∈ range a.d, ∑ i ∈ range a.l, ∑ k ∈ range a.r, ∑ k' ∈ range a.r,
      (star (m.v k j) * m.v k' j') * (star (a.v i k s) * a.v i k' s)
      = ∑ k ∈ range a.r, ∑ k' ∈ range a.r, (star (m.v k j) * m.v k' j') *
        ∑ s ∈ range a.d, ∑ i ∈ range a.l, star (a.v i k s) * a.v i k' s := by
    rw [sum_congr rfl fun s _ => sum_comm, sum_comm]
    refine sum_congr rfl fun k _ => ?_
    rw [sum_congr rfl fun s _ => sum_comm, sum_comm]
    refine sum_congr rfl fun k' _ => ?_
    simp_rw [mul_sum]
  rw [e2, ← hm]
  refine sum_congr rfl fun k hk => ?_
  rw [sum_congr rfl fun k' hk' => by
    rw [h k (mem_range.mp hk) k' (mem_range.mp hk'), mul_comm], sum_delta_left (mem_range.mp hk)]

/-- If `a = U·w` with isometric `U` is left-orthonormal, so is `w`. -/
theorem leftOrth_unmul {a w : Ten ℂ} {U : Mat ℂ} (h : LeftOrth a) (hm : U.c = w.l) (hrow : U.r = a.l)
    (iso : ∀ k < U.c, ∀ k' < U.c, ∑ i ∈ range U.r, star (U.v i k) * U.v i k' = delta ℂ k k')
    (hr : w.r = a.r) (hd : w.d = a.d)
    (hf : ∀ i < a.l, ∀ j < a.r, ∀ s < a.d, a.v i j s = ∑ k ∈ range U.c, U.v i k * w.v k j s) : LeftOrth w := by
  intro j hj j' hj'
  rw [hr] at hj hj'
  rw [← h j hj j' hj', hd, ← hm]
  refine sum_congr rfl fun s hs => ?_
  have e : ∀ i ∈ range a.l, star (a.v i j s) * a.v i j' s
      = ∑ k ∈ range U.c, ∑ k' ∈ range U.c, (star (w.v k j s) * w.v k' j' s) * (star (U.v i k) * U.v i k') := by
    intro i hi
    rw [hf i (mem_range.mp hi) j hj s (mem_range.mp hs), hf i (mem_range.mp hi) j' hj' s (mem_range.mp hs), star_sum,
      sum_mul_sum]
    refine sum_congr rfl fun k _ => sum_congr rfl fun k' _ => ?_
    rw [star_mul']; ring
  rw [sum_congr rfl e, sum_comm]
  refine sum_congr rfl fun k hk => ?_
  rw [sum_comm]
  simp_rw [← mul_sum]
  rw [sum_congr rfl fun k' hk' => by
    rw [← hrow, iso k (mem_range.mp hk) k' (mem_range.mp hk'), mul_comm], sum_delta_left (mem_range.mp hk)]

/-! ## The QR sweep -/

theorem qrSweep_spec {O : LinAlg} (hO : O.Spec) : ∀ (rest : List (Ten ℂ)) (t : Ten ℂ) (A : List (Ten ℂ)),
    Linked t.r rest 1 → qrSweep O t rest = .ok A →
    (∀ a ∈ A, LeftOrth a) ∧ Linked t.l A 1 ∧ A.map Ten.d = (t :: rest).map Ten.d ∧
      ∃ c : ℂ, c ≠ 0 ∧ ∀ s, Cfg (t :: rest) s → ∀ i < t.l, chain (t :: rest) s i 0 = c * chain A s i 0 := by
  intro rest
  induction rest with
  | nil =>
    intro t A hl h
    simp only [Linked] at hl
    simp only [qrSweep, prepareTensor] at h
    rw [if_neg (by decide), if_pos (by decide)] at h
    split at h
    · cases h
    rename_i a m z hp
    cases h
    have q := prepareTensorR_spec hO hp
    have hm1 : m.r = 1 := by
      have h1 := q.le
      rw [hl] at h1
      have : m.r ≠ 0 := by
        intro h0
        have := q.norm
        rw [normF, h0] at this
        simp at this
      omega
    have hc1 : m.c = 1 := by rw [q.c, hl]
    have hm0 : m.v 0 0 ≠ 0 := by
      intro h0
      have := q.norm
      rw [normF, hm1, hc1] at this
      simp [h0] at this
    refine ⟨by simpa using q.orth, by simp [Linked, q.l, q.r, hm1], by simp [q.d], z * m.v 0 0,
      mul_ne_zero (by exact_mod_cast q.zpos.ne') hm0, ?_⟩
    intro s hs i hi
    cases hs with
    | cons h1 hs =>
    cases hs
    rename_i x
    simp only [chain]
    rw [q.r, hm1, hl]
    simp only [sum_range_one]
    rw [q.prod i hi 0 (by omega) x h1, hm1, sum_range_one]
    ring
  | cons u rest ih =>
    intro t A hl h
    simp only [qrSweep, prepareTensor] at h
    rw [if_neg (by decide), if_pos (by decide)] at h
    split at h
    · cases h
    rename_i a m z hp
    have q := prepareTensorR_spec hO hp
    split at h
    · cases h
    rename_i u' hu
    split at h
    · cases h
    rename_i done hd
    cases h
    unfold absorbL at hu
    split_ifs at hu with hc
    cases hu
    obtain ⟨i1, i2, i3, c, hc0, i4⟩ := ih ⟨m.r, u.r, u.d, fun i j s => ∑ k ∈ range u.l, m.v i k * u.v k j s⟩ done hl.2 hd
    refine ⟨?_, ?_, ?_, z * c, mul_ne_zero (by exact_mod_cast q.zpos.ne') hc0, ?_⟩
    · intro b hb
      rcases List.mem_cons.mp hb with rfl | hb
      · exact q.orth
      · exact i1 b hb
    · exact ⟨q.l, by rw [q.r]; exact i2⟩
    · simp [q.d, i3]
    · intro s hs i hi
      have := chain_two (A := []) (C := rest) (u := t) (t := u) (u' := a)
        (b := ⟨m.r, u.r, u.d, fun i j s => ∑ k ∈ range u.l, m.v i k * u.v k j s⟩) (c := z) rfl (by
          intro i hi x hx j hj y hy
          simp only [mul_sum]
          rw [sum_comm, ← hl.1]
          refine sum_congr rfl fun k hk => ?_
          rw [q.prod i hi k (by rw [← hl.1]; exact mem_range.mp hk) x hx, mul_sum, sum_mul, q.r]
          exact sum_congr rfl fun _ _ => by ring) t.l rfl s hs i hi 0
      simp only [List.nil_append] at this
      rw [this, mul_assoc]
      congr 1
      cases hs with
      | cons h1 hs =>
      rename_i x xs
      rw [show chain (a :: ⟨m.r, u.r, u.d, fun i j s => ∑ k ∈ range u.l, m.v i k * u.v k j s⟩ :: rest) (x :: xs) i 0
        = ∑ k ∈ range a.r, a.v i k x *
          chain (⟨m.r, u.r, u.d, fun i j s => ∑ k ∈ range u.l, m.v i k * u.v k j s⟩ :: rest) xs k 0 from rfl,
        show chain (a :: done) (x :: xs) i 0 = ∑ k ∈ range a.r, a.v i k x * chain done xs k 0 from rfl, mul_sum]
      refine sum_congr rfl fun k hk => ?_
      rw [i4 xs (by
        cases hs with
        | cons h2 hs => exact List.Forall₂.cons h2 hs) k (by show k < m.r; rw [← q.r]; exact mem_range.mp hk)]
      ring

/-! ## The SVD sweep -/

/-- State of the loop before site `t` is treated; `Ls` are the bonds to its right, including the last one. -/
structure CanonInv (t : Ten ℂ) (left : List (Ten ℂ)) (lam : List ℝ) (tl : List (List ℝ)) (G : List (Ten ℂ)) : Prop where
  vid : (∀ x ∈ lam, 0 < x) → Vidal (lam :: tl) G
  len : tl.length = G.length
  unit : norm2 lam = 1
  nonneg : ∀ x ∈ lam, 0 ≤ x
  tr : t.r = lam.length
  orth : ∃ a : Ten ℂ, a.l = t.l ∧ a.r = t.r ∧ a.d = t.d ∧ LeftOrth a ∧
    ∀ i < t.l, ∀ k < t.r, ∀ s < t.d, t.v i k s = a.v i k s * ((lam.getD k 0 : ℝ) : ℂ)
  hleft : ∀ a ∈ left, LeftOrth a
  link : Linked 1 left.reverse t.l

theorem sq_one {t a : Ten ℂ} {lam : List ℝ} (hu : norm2 lam = 1) (htr : t.r = lam.length) (h1 : a.l = t.l) (h2 : a.r = t.r)
    (h3 : a.d = t.d) (ha : LeftOrth a)
    (h : ∀ i < t.l, ∀ k < t.r, ∀ s < t.d, t.v i k s = a.v i k s * ((lam.getD k 0 : ℝ) : ℂ)) : t.sq = 1 := by
  have := sq_leftOrth_mul (m := diagMat lam) (a := a) (f := t) ha (by simp [diagMat, h2, htr]) h1.symm (by simp [diagMat, htr])
    h3.symm (by
      intro i hi j hj s hs
      rw [h i (by omega) j (by simp [diagMat] at hj; omega) s (by omega)]
      have hj' : j < a.r := by simp [diagMat] at hj; omega
      simp only [diagMat]
      rw [sum_eq_single j]
      · simp
      · intro b _ hb; simp [hb]
      · intro hb; simp at hb; omega)
  rw [this, normF_sq]
  simp only [diagMat]
  have e : ∀ i ∈ range lam.length, ∑ j ∈ range lam.length,
      Complex.normSq (if i = j then ((lam.getD i 0 : ℝ) : ℂ) else 0) = lam.getD i 0 ^ 2 := by
    intro i hi
    rw [sum_eq_single i]
    · simp [Complex.normSq_ofReal, pow_two]
    · intro b _ hb; simp [hb.symm]
    · intro hb; exact absurd hi hb
  rw [sum_congr rfl e, ← norm2_sq, hu]; norm_num

/-- One site of the sweep. -/
structure Site (t : Ten ℂ) (lam : List ℝ) (U : Mat ℂ) (S : List ℝ) (B g : Ten ℂ) : Prop where
  svd : ExactSVD t U S B 1
  pos : ∀ x ∈ lam, 0 < x
  ne : S ≠ []
  gl : g.l = S.length
  gr : g.r = lam.length
  gd : g.d = t.d
  val : ∀ i < S.length, ∀ j < t.r, ∀ s < t.d, B.v i j s = (scaleR g lam).v i j s
  left : LeftOrth (scaleL S g)
  right : RightOrth (scaleR g lam)

theorem site {O : LinAlg} (hO : O.Spec) {th : ℝ} (ht : th ≤ 1e-16) {t B g : Ten ℂ} {left G : List (Ten ℂ)} {lam S : List ℝ}
    {tl : List (List ℝ)} {U : Mat ℂ} {Z : ℝ} {lamO : Option (List ℝ)} (hI : CanonInv t left lam tl G)
    (hlam : lamO.getD [1] = lam)
    (hp : prepareTruncateL O t (some t.l) th = .ok (U, S, B, Z)) (hg : gammaOf B lamO = .ok g) : Site t lam U S B g := by
  have q := exactSVD hO ht hp
  obtain ⟨a, a1, a2, a3, a4, a5⟩ := hI.orth
  have hsq := sq_one hI.unit hI.tr a1 a2 a3 a4 a5
  have hZ : Z = 1 := by
    have h1 := q.Zsq
    have h2 := q.Z0
    rw [hsq] at h1
    nlinarith
  subst hZ
  have hne : S ≠ [] := by
    intro h0
    have : t.sq = 0 := by
      unfold Ten.sq
      refine sum_eq_zero fun i hi => sum_eq_zero fun j hj => sum_eq_zero fun s hs => ?_
      rw [q.prod i (mem_range.mp hi) j (mem_range.mp hj) s (mem_range.mp hs), h0]
      simp
    rw [hsq] at this; exact one_ne_zero this
  have hpos : ∀ x ∈ lam, 0 < x := by
    cases lamO with
    | none =>
      simp only [Option.getD_none] at hlam
      subst hlam
      simp
    | some l =>
      simp only [Option.getD_some] at hlam
      subst hlam
      unfold gammaOf at hg
      simp only at hg
      split_ifs at hg with h0
      intro x hx
      refine lt_of_le_of_ne (hI.nonneg x hx) ?_
      rintro rfl; exact h0 hx
  have hgB : g.l = S.length ∧ g.r = lam.length ∧ g.d = t.d ∧
      ∀ i j s, j < lam.length → g.v i j s = B.v i j s / ((lam.getD j 0 : ℝ) : ℂ) := by
    cases lamO with
    | none =>
      simp only [Option.getD_none] at hlam
      subst hlam
      simp only [gammaOf] at hg
      cases hg
      refine ⟨q.ol, by rw [q.outr, hI.tr], q.od, ?_⟩
      intro i j s hj
      obtain rfl : j = 0 := by simpa using hj
      simp
    | some l =>
      simp only [Option.getD_some] at hlam
      subst hlam
      unfold gammaOf at hg
      simp only at hg
      split_ifs at hg with h0
      unfold absorbR at hg
      split_ifs at hg with h1
      cases hg
      refine ⟨q.ol, by simp [diagMat], q.od, ?_⟩
      intro i j s hj
      simp only [diagMat]
      rw [sum_eq_single j]
      · simp [List.getElem?_eq_getElem hj, div_eq_mul_inv]
      · intro b _ hb; simp [hb]
      · intro hb; simp [q.outr, hI.tr] at hb; omega
  obtain ⟨g1, g2, g3, g4⟩ := hgB
  have lne : ∀ j < lam.length, ((lam.getD j 0 : ℝ) : ℂ) ≠ 0 := by
    intro j hj
    rw [List.getD_eq_getElem?_getD, List.getElem?_eq_getElem hj]
    exact_mod_cast (hpos _ (List.getElem_mem hj)).ne'
  have val : ∀ i < S.length, ∀ j < t.r, ∀ s < t.d, B.v i j s = (scaleR g lam).v i j s := by
    intro i _ j hj s _
    rw [hI.tr] at hj
    simp only [scaleR]
    rw [g4 i j s hj, div_mul_cancel₀ _ (lne j hj)]
  refine ⟨q, hpos, hne, g1, g2, g3, val, ?_, ?_⟩
  · refine leftOrth_unmul (a := a) (U := U) a4 (by rw [q.uc]; exact g1.symm) (by rw [q.ur, a1]) ?_ (by
      show g.r = a.r; rw [g2, a2, hI.tr]) (by show g.d = a.d; rw [g3, a3]) ?_
    · intro k hk k' hk'
      rw [q.uc] at hk hk'
      rw [q.ur]; exact q.iso k hk k' hk'
    · intro i hi j hj s hs
      have h1 := a5 i (by omega) j (by omega) s (by omega)
      rw [q.prod i (by omega) j (by omega) s (by omega)] at h1
      have hj' : j < lam.length := by rw [← hI.tr, ← a2]; exact hj
      rw [eq_comm, ← eq_div_iff (lne j hj')] at h1
      rw [h1, q.uc]
      simp only [scaleL, Complex.ofReal_one, one_mul]
      rw [sum_div]
      refine sum_congr rfl fun k _ => ?_
      rw [g4 k j s hj']
      ring
  · intro i hi i' hi'
    have hi : i < g.l := hi
    have hi' : i' < g.l := hi'
    rw [← q.orth i (by rw [q.ol, ← g1]; exact hi) i' (by rw [q.ol, ← g1]; exact hi')]
    show ∑ s ∈ range g.d, ∑ j ∈ range g.r, _ = _
    rw [g3, g2, q.od, q.outr, ← hI.tr]
    refine sum_congr rfl fun s hs => sum_congr rfl fun j hj => ?_
    rw [← val i (by omega) j (mem_range.mp hj) s (mem_range.mp hs), ← val i' (by omega) j (mem_range.mp hj) s (mem_range.mp hs)]

theorem inv_step {O : LinAlg} (hO : O.Spec) {th : ℝ} (ht : th ≤ 1e-16) {t B g u u' : Ten ℂ} {left G : List (Ten ℂ)} {lam S : List ℝ}
    {tl : List (List ℝ)} {U : Mat ℂ} {Z : ℝ} {lamO : Option (List ℝ)} (hI : CanonInv t (u :: left) lam tl G)
    (hlam : lamO.getD [1] = lam)
    (hp : prepareTruncateL O t (some t.l) th = .ok (U, S, B, Z)) (hg : gammaOf B lamO = .ok g)
    (hu' : u' = ⟨u.l, (U.dot (diagMat S)).c, u.d, fun i j s => ∑ k ∈ range u.r, u.v i k s * (U.dot (diagMat S)).v k j⟩) :
    CanonInv u' left S (lam :: tl) (g :: G) ∧ ∀ s, Cfg (left.reverse ++ u :: t :: List.zipWith scaleR G tl) s →
      Cfg (left.reverse ++ u' :: scaleR g lam :: List.zipWith scaleR G tl) s ∧
      chain (left.reverse ++ u :: t :: List.zipWith scaleR G tl) s 0 0
        = chain (left.reverse ++ u' :: scaleR g lam :: List.zipWith scaleR G tl) s 0 0 := by
  have st := site hO ht hI hlam hp hg
  have q := st.svd
  have hlk := hI.link
  rw [List.reverse_cons, linked_append] at hlk
  obtain ⟨y, y1, y2⟩ := hlk
  simp only [Linked] at y2
  obtain ⟨y2, y3⟩ := y2
  subst y2
  have sq : ∀ k j, (U.dot (diagMat S)).v k j = if j < S.length then U.v k j * ((S.getD j 0 : ℝ) : ℂ) else 0 := by
    intro k j
    simp only [Mat.dot, diagMat, q.uc]
    split_ifs with hj
    · rw [sum_eq_single j]
      · simp
      · intro b _ hb; simp [hb]
      · intro hb; simp at hb; omega
    · refine sum_eq_zero fun b hb => ?_
      rw [if_neg (by have := mem_range.mp hb; omega), mul_zero]
  subst hu'
  set u' : Ten ℂ := ⟨u.l, (U.dot (diagMat S)).c, u.d, fun i j s => ∑ k ∈ range u.r, u.v i k s * (U.dot (diagMat S)).v k j⟩
    with hu'
  have hI' : CanonInv u' left S (lam :: tl) (g :: G) := by
    refine ⟨?_, by simp [hI.len], q.unit st.ne, q.nonneg st.ne one_pos, rfl, ?_, ?_, y1⟩
    · intro hS
      exact ⟨⟨hS, norm2_one_iff.mp (q.unit st.ne)⟩, st.gl, st.gr, st.left, st.right, hI.vid st.pos⟩
    · refine ⟨⟨u.l, U.c, u.d, fun i j s => ∑ k ∈ range u.r, u.v i k s * U.v k j⟩, rfl, by simp [hu', Mat.dot, diagMat, q.uc],
        rfl, ?_, ?_⟩
      · refine leftOrth_mul (a := u) (m := U) (hI.hleft u (by simp)) (by rw [q.ur, y3]) ?_ rfl rfl rfl
          fun i _ j _ s _ => rfl
        intro k hk k' hk'
        rw [q.uc] at hk hk'
        rw [q.ur]; exact q.iso k hk k' hk'
      · intro i _ j hj s _
        have hj : j < S.length := hj
        simp only [hu', sq, if_pos hj]
        rw [sum_mul]
        exact sum_congr rfl fun _ _ => by ring
    · intro a ha; exact hI.hleft a (List.mem_cons_of_mem _ ha)
  have two := chain_two (A := left.reverse) (C := List.zipWith scaleR G tl) (u := u) (t := t) (u' := u')
    (b := scaleR g lam) (c := 1) (by rw [hI.tr]; exact st.gr) (by
      intro i hi x hx j hj y hy
      rw [one_mul]
      show _ = ∑ k ∈ range S.length, (∑ k' ∈ range u.r, u.v i k' x * (U.dot (diagMat S)).v k' k) * _
      simp_rw [sum_mul]
      rw [sum_comm]
      refine sum_congr rfl fun k hk => ?_
      rw [q.prod k (by rw [← y3]; exact mem_range.mp hk) j hj y hy, Complex.ofReal_one, one_mul, mul_sum]
      refine sum_congr rfl fun k' hk' => ?_
      rw [sq, if_pos (mem_range.mp hk'), ← st.val k' (mem_range.mp hk') j hj y hy]
      ring) 1 y1
  refine ⟨hI', fun s hs => ⟨?_, ?_⟩⟩
  · rw [cfg_iff_map] at hs ⊢
    simpa [hu', scaleR, st.gd] using hs
  · rw [two s hs 0 one_pos 0, one_mul]

theorem svdSweep_spec {O : LinAlg} (hO : O.Spec) {th : ℝ} (ht : th ≤ 1e-16) : ∀ (left : List (Ten ℂ)) (t : Ten ℂ)
    (lamO : Option (List ℝ)) (lam : List ℝ) (tl Ls : List (List ℝ)) (G G' : List (Ten ℂ)) (Ls' : List (List ℝ)),
    CanonInv t left lam tl G → lamO.getD [1] = lam → Ls ++ [[1]] = lam :: tl →
    svdSweep O th t left lamO G Ls = .ok (G', Ls') →
    Vidal ([1] :: (Ls' ++ [[1]])) G' ∧ (Ls' ++ [[1]]).length = G'.length ∧
      (G'.map Ten.d = (left.reverse ++ t :: G).map Ten.d) ∧
      ∃ c : ℂ, c ≠ 0 ∧ ∀ s, Cfg (left.reverse ++ t :: List.zipWith scaleR G tl) s →
        chain (left.reverse ++ t :: List.zipWith scaleR G tl) s 0 0
          = c * chain (List.zipWith scaleR G' (Ls' ++ [[1]])) s 0 0 := by
  intro left
  induction left with
  | nil =>
    intro t lamO lam tl Ls G G' Ls' hI hlam hLs h
    simp only [svdSweep] at h
    split at h
    · cases h
    rename_i U S B Z hp
    split at h
    · cases h
    rename_i g hg
    cases h
    have st := site hO ht hI hlam hp hg
    have q := st.svd
    have hl1 : t.l = 1 := by
      have := hI.link
      simp only [List.reverse_nil, Linked] at this
      exact this.symm
    have hk : S.length = 1 := by
      have h1 := q.len
      rw [hl1] at h1
      have := List.length_pos_iff.mpr st.ne
      omega
    obtain ⟨x, rfl⟩ := List.length_eq_one_iff.mp hk
    have hx : x = 1 := by
      have h1 := q.unit st.ne
      have h2 := q.nonneg st.ne one_pos x (by simp)
      simp only [norm2, List.map_cons, List.map_nil, List.sum_cons, List.sum_nil, add_zero, Real.sqrt_sq h2] at h1
      exact h1
    subst hx
    rw [hLs]
    refine ⟨⟨⟨by simp, by simp⟩, by rw [st.gl], st.gr, st.left, st.right, hI.vid st.pos⟩, by simp [hI.len],
      by simp [st.gd], U.v 0 0, ?_, ?_⟩
    · intro h0
      have := q.iso 0 (by simp) 0 (by simp)
      rw [hl1, sum_range_one, h0] at this
      simp [delta] at this
    · intro s hs
      simp only [List.reverse_nil, List.nil_append] at hs ⊢
      cases hs with
      | cons h1 hs =>
      rename_i x xs
      simp only [List.zipWith_cons_cons, chain, mul_sum]
      rw [show (scaleR g lam).r = t.r by rw [hI.tr]; exact st.gr]
      refine sum_congr rfl fun k hk' => ?_
      rw [← st.val 0 (by simp) k (mem_range.mp hk') x h1, q.prod 0 (by omega) k (mem_range.mp hk') x h1]
      simp
      ring
  | cons u left ih =>
    intro t lamO lam tl Ls G G' Ls' hI hlam hLs h
    simp only [svdSweep] at h
    split at h
    · cases h
    rename_i U S B Z hp
    split at h
    · cases h
    rename_i g hg
    split at h
    · cases h
    rename_i u' hu
    unfold absorbR at hu
    split_ifs at hu with hur
    cases hu
    have st := site hO ht hI hlam hp hg
    obtain ⟨hI', two⟩ := inv_step hO ht hI hlam hp hg rfl
    obtain ⟨j1, j2, j3, c, hc, j4⟩ := ih _ (some S) S (lam :: tl) (S :: Ls) (g :: G) G' Ls' hI' rfl
      (by rw [List.cons_append, hLs]) h
    refine ⟨j1, j2, ?_, c, hc, ?_⟩
    · rw [j3]; simp [st.gd]
    · intro s hs
      have e : (u :: left).reverse ++ t :: List.zipWith scaleR G tl
          = left.reverse ++ u :: t :: List.zipWith scaleR G tl := by simp
      rw [e] at hs ⊢
      obtain ⟨k1, k2⟩ := two s hs
      rw [k2]
      exact j4 s k1

/-! ## The theorems -/

theorem glProd_chain {Ls : List (List ℝ)} {G : List (Ten ℂ)} (h : Ls.length = G.length) (s : List ℕ) :
    glProd ([1] :: Ls) G s 0 0 = chain (List.zipWith scaleR G Ls) s 0 0 := by
  simp [glProd, glTail_chain _ _ h]

theorem vidal_rightOrth : ∀ (Ls : List (List ℝ)) (l : List ℝ) (G : List (Ten ℂ)), Vidal (l :: Ls) G →
    Linked l.length (List.zipWith scaleR G Ls) ((l :: Ls).getLast (by simp)).length ∧
      ∀ t ∈ List.zipWith scaleR G Ls, RightOrth t := by
  intro Ls
  induction Ls with
  | nil =>
    intro l G h
    cases G with
    | nil => simp [Linked]
    | cons g G => exact h.elim
  | cons l' Ls ih =>
    intro l G h
    cases G with
    | nil => exact h.elim
    | cons g G =>
      obtain ⟨-, h1, h2, -, h3, h4⟩ := h
      obtain ⟨i1, i2⟩ := ih l' G h4
      refine ⟨⟨h1, ?_⟩, ?_⟩
      · rw [show (scaleR g l').r = l'.length from h2]
        simpa using i1
      · intro t ht
        rcases List.mem_cons.mp ht with rfl | ht
        · exact h3
        · exact i2 t ht

theorem last_r {t : Ten ℂ} {ts : List (Ten ℂ)} (hl : Linked 1 (t :: ts) 1) : ((t :: ts).getLast (by simp)).r = 1 := by
  obtain ⟨pre, b, hb⟩ : ∃ pre b, t :: ts = pre ++ [b] := ⟨_, _, (List.dropLast_append_getLast (by simp)).symm⟩
  have e : (t :: ts).getLast (by simp) = b := by simp [hb]
  rw [e]
  rw [hb, linked_append] at hl
  obtain ⟨m, -, h1, h2⟩ := hl
  exact h2

theorem inv_start {A left : List (Ten ℂ)} {a : Ten ℂ} (hAe : A = left.reverse ++ [a]) (a1 : ∀ a ∈ A, LeftOrth a)
    (lk : Linked 1 A 1) : CanonInv a left [1] [] [] := by
  rw [hAe, linked_append] at lk
  obtain ⟨m, m1, m2, m3⟩ := lk
  have m3 : a.r = 1 := m3
  refine ⟨?_, rfl, ?_, by simp, by simpa using m3, ⟨a, rfl, rfl, rfl, a1 a (by rw [hAe]; simp), ?_⟩, ?_, ?_⟩
  · intro _; exact ⟨by simp, by simp⟩
  · rw [norm2_one_iff]; simp
  · intro i _ k hk s _
    obtain rfl : k = 0 := by omega
    simp
  · intro b hb; exact a1 b (by rw [hAe]; simp [hb])
  · rw [m2]; exact m1

theorem vidal_len : ∀ (Ls : List (List ℝ)) (l : List ℝ) (G : List (Ten ℂ)), Vidal (l :: Ls) G → Ls.length = G.length := by
  intro Ls
  induction Ls with
  | nil =>
    intro l G h
    cases G with
    | nil => rfl
    | cons g G => exact h.elim
  | cons l' Ls ih =>
    intro l G h
    cases G with
    | nil => exact h.elim
    | cons g G => simp [ih l' G h.2.2.2.2.2]

/-- **C57 (lists of tensors).**  If `canonizeMPS` succeeds on an open chain (threshold up to `1E-16`, i.e. without
truncation), the returned lists are in Vidal's canonical form, and their contraction is the state of the chain up to a
non-zero factor, normalised to one. -/
theorem C57_canonical {O : LinAlg} (hO : O.Spec) {P : List (Ten ℂ) → Res (List (Ten ℂ) × List (List ℝ))} {th : ℝ}
    (ht : th ≤ 1e-16) {ts G : List (Ten ℂ)} {L : List (List ℝ)} (hl : Linked 1 ts 1)
    (h : canonizeMPS O P th ts = .ok (G, L)) :
    L.length = ts.length + 1 ∧ L.head? = some [1] ∧ L.getLast? = some [1] ∧ Vidal L G ∧ G.map Ten.d = ts.map Ten.d ∧
      (∃ c : ℂ, c ≠ 0 ∧ ∀ s, Cfg ts s → chain ts s 0 0 = c * glProd L G s 0 0) ∧
      sumCfg (ts.map Ten.d) (fun s => ((Complex.normSq (glProd L G s 0 0) : ℝ) : ℂ)) = 1 := by
  cases ts with
  | nil => simp [canonizeMPS] at h
  | cons t ts =>
    have hlast := last_r hl
    simp only [canonizeMPS] at h
    rw [if_pos ⟨hl.1, hlast⟩] at h
    split at h
    · cases h
    rename_i A hA
    obtain ⟨a1, a2, a3, c1, hc1, a4⟩ := qrSweep_spec hO ts t A hl.2 hA
    split at h
    · cases h
    rename_i a left hrev
    split at h
    · cases h
    rename_i G' Ls' hs
    cases h
    have hAe : A = left.reverse ++ [a] := by
      rw [← List.reverse_reverse A, hrev, List.reverse_cons]
    rw [hl.1] at a2
    have hI := inv_start hAe a1 a2
    obtain ⟨v1, v2, v3, c2, hc2, v4⟩ := svdSweep_spec hO ht left a none [1] [] [] [] G Ls' hI rfl rfl hs
    have hds : G.map Ten.d = (t :: ts).map Ten.d := by
      rw [v3, ← a3, hAe]
    refine ⟨?_, rfl, ?_, v1, hds, ⟨c1 * c2, mul_ne_zero hc1 hc2, ?_⟩, ?_⟩
    · have := congrArg List.length hds
      simp only [List.length_map] at this
      rw [List.length_cons, v2, this]
    · rw [← List.cons_append, List.getLast?_append]; rfl
    · intro s hcs
      rw [glProd_chain v2, a4 s hcs 0 (by rw [hl.1]; exact one_pos), mul_assoc]
      congr 1
      have := v4 s (by
        rw [cfg_iff_map] at hcs ⊢
        rw [← a3, hAe] at hcs
        simpa using hcs)
      rw [← this, hAe]
      simp
    · obtain ⟨r1, r2⟩ := vidal_rightOrth _ _ _ v1
      have := chain_rightOrth r1 r2 (k := 0) (k' := 0) (by simp) (by simp)
      rw [show (([1] :: (Ls' ++ [[1]])).getLast (by simp) : List ℝ) = [1] by
        rw [List.getLast_cons (by simp), List.getLast_append_singleton]] at this
      simp only [List.length_cons, List.length_nil, zero_add, sum_range_one] at this
      rw [show (1 : ℂ) = delta ℂ 0 0 by simp [delta], ← this]
      have hd2 : (List.zipWith scaleR G (Ls' ++ [[1]])).map Ten.d = (t :: ts).map Ten.d := by
        rw [← hds]
        have : ∀ (G : List (Ten ℂ)) (L : List (List ℝ)), L.length = G.length →
            (List.zipWith scaleR G L).map Ten.d = G.map Ten.d := by
          intro G
          induction G with
          | nil => intro L _; simp
          | cons g G ih =>
            intro L h
            cases L with
            | nil => simp at h
            | cons l L => simp [ih L (by simpa using h), scaleR]
        exact this _ _ v2
      rw [hd2]
      refine sumCfg_congr fun s _ => ?_
      rw [glProd_chain v2, Complex.star_def, Complex.mul_conj]

/-- **C57 (objects, partial).**  `canonize()` of an open chain whose centre matrix is a multiple of the identity (in
particular a number, if it sits at one of the ends): if it succeeds, the lists are in canonical form and their contraction
is proportional to the state of the object. -/
theorem C57_object_partial {O : LinAlg} (hO : O.Spec) {P : List (Ten ℂ) → Res (List (Ten ℂ) × List (List ℝ))}
    {R : MPS → Res MPS} {m : MPS} (hw : m.WF 1 1) (hobc : m.obc = true) (hsq : m.mat.r = m.mat.c) {x : ℂ}
    (hx : ∀ i < m.mat.r, ∀ j < m.mat.r, m.mat.v i j = x * delta ℂ i j)
    {G : List (Ten ℂ)} {L : List (List ℝ)} (h : canonize O P R m = .ok (G, L)) :
    Vidal L G ∧ ∃ c : ℂ, (m.Z ≠ 0 → x ≠ 0 → c ≠ 0) ∧ ∀ s, Cfg m.tensors s → m.amp s 0 0 = c * glProd L G s 0 0 := by
  unfold canonize at h
  rw [if_neg (by simp [hobc])] at h
  split_ifs at h with hN
  have w1 := hw.left
  have w2 := hw.right
  rw [← hsq] at w2
  have hl : Linked 1 m.tensors 1 := by
    rw [← List.take_append_drop m.pos m.tensors, linked_append]
    exact ⟨_, w1, w2⟩
  have ha : ∀ s, Cfg m.tensors s → m.amp s 0 0 = m.Z * x * chain m.tensors s 0 0 := by
    intro s hs
    have hlen : s.length = m.tensors.length := (List.Forall₂.length_eq hs).symm
    conv_rhs => rw [← List.take_append_drop m.pos m.tensors, ← List.take_append_drop m.pos s]
    rw [chain_append w1 _ _ (by simp [hlen]) one_pos, MPS.amp, mul_assoc]
    congr 1
    rw [mul_sum]
    refine sum_congr rfl fun k hk => ?_
    rw [← hsq]
    rw [sum_congr rfl fun k' hk' => by
      rw [hx k (mem_range.mp hk) k' (mem_range.mp hk'), show ∀ p q r : ℂ, p * (x * q) * r = q * (x * p * r) from
        fun p q r => by ring], sum_delta_left (mem_range.mp hk)]
    ring
  obtain ⟨-, -, -, v, -, ⟨c, hc0, hc⟩, -⟩ := C57_canonical hO le_rfl hl h
  exact ⟨v, m.Z * x * c, fun a b => mul_ne_zero (mul_ne_zero a b) hc0, fun s hs => by rw [ha s hs, hc s hs]; ring⟩

/-! ## When the canonical form exists -/

/-- Spec: no bond of the open chain can be made smaller: every way of writing the state as a sum of products over the two
sides of a bond has at least as many terms as the bond dimension. -/
def Minimal (ts : List (Ten ℂ)) : Prop :=
  ∀ n t, ts[n]? = some t → 1 ≤ n → ∀ (D : ℕ) (p q : ℕ → List ℕ → ℂ),
    (∀ s, Cfg ts s → chain ts s 0 0 = ∑ k ∈ range D, p k (s.take n) * q k (s.drop n)) → t.l ≤ D

theorem qrSweep_bound {O : LinAlg} (hO : O.Spec) : ∀ (rest : List (Ten ℂ)) (t : Ten ℂ) (A : List (Ten ℂ)),
    qrSweep O t rest = .ok A → Linked t.r rest 1 → List.Forall₂ (fun a t => a.l ≤ t.l) A (t :: rest) := by
  intro rest
  induction rest with
  | nil =>
    intro t A h _
    simp only [qrSweep, prepareTensor] at h
    rw [if_neg (by decide), if_pos (by decide)] at h
    split at h
    · cases h
    rename_i a m z hp
    cases h
    have q := prepareTensorR_spec hO hp
    exact List.Forall₂.cons q.l.le List.Forall₂.nil
  | cons u rest ih =>
    intro t A h hl
    simp only [qrSweep, prepareTensor] at h
    rw [if_neg (by decide), if_pos (by decide)] at h
    split at h
    · cases h
    rename_i a m z hp
    have q := prepareTensorR_spec hO hp
    split at h
    · cases h
    rename_i u' hu
    split at h
    · cases h
    rename_i done hd
    cases h
    unfold absorbL at hu
    split_ifs at hu with hc
    cases hu
    refine List.Forall₂.cons q.l.le ?_
    have := ih _ _ hd hl.2
    cases this with
    | cons h1 h2 =>
      refine List.Forall₂.cons (h1.trans ?_) h2
      show m.r ≤ u.l
      rw [hl.1]; exact q.le

theorem qrSweep_err {O : LinAlg} (hO : O.Spec) : ∀ (rest : List (Ten ℂ)) (t : Ten ℂ) (e : PyErr),
    qrSweep O t rest = .error e → Linked t.r rest 1 →
    e = .nan ∧ ∀ s, Cfg (t :: rest) s → ∀ i < t.l, chain (t :: rest) s i 0 = 0 := by
  have z : ∀ (rest : List (Ten ℂ)) (t : Ten ℂ), (∀ i < t.l, ∀ j < t.r, ∀ s < t.d, t.v i j s = 0) →
      ∀ s, Cfg (t :: rest) s → ∀ i < t.l, chain (t :: rest) s i 0 = 0 := by
    intro rest t h s hs i hi
    cases hs with
    | cons h1 hs =>
    simp only [chain]
    exact sum_eq_zero fun k hk => by rw [h i hi k (mem_range.mp hk) _ h1, zero_mul]
  intro rest
  induction rest with
  | nil =>
    intro t e h _
    simp only [qrSweep, prepareTensor] at h
    rw [if_neg (by decide), if_pos (by decide)] at h
    split at h
    · rename_i e' hp
      cases h
      obtain ⟨h1, h2⟩ := prepareTensorR_err hO hp
      exact ⟨h1, z [] t h2⟩
    · cases h
  | cons u rest ih =>
    intro t e h hl
    simp only [qrSweep, prepareTensor] at h
    rw [if_neg (by decide), if_pos (by decide)] at h
    split at h
    · rename_i e' hp
      cases h
      obtain ⟨h1, h2⟩ := prepareTensorR_err hO hp
      exact ⟨h1, z _ t h2⟩
    rename_i a m w hp
    have q := prepareTensorR_spec hO hp
    have hu : absorbL m u = .ok ⟨m.r, u.r, u.d, fun i j s => ∑ k ∈ range u.l, m.v i k * u.v k j s⟩ := by
      unfold absorbL; rw [if_pos (by rw [q.c, hl.1])]
    rw [hu] at h
    simp only at h
    split at h
    · rename_i e' hd
      cases h
      obtain ⟨h1, h2⟩ := ih _ _ hd hl.2
      refine ⟨h1, ?_⟩
      intro s hs i hi
      cases hs with
      | cons hx hs =>
      cases hs with
      | cons hy hs =>
      rename_i x y ys
      have h3 := fun k hk => h2 (y :: ys) (List.Forall₂.cons hy hs) k hk
      simp only [chain] at h3 ⊢
      rw [← hl.1]
      have e1 : ∀ k ∈ range u.l, t.v i k x * ∑ k' ∈ range u.r, u.v k k' y * chain rest ys k' 0
          = w * ∑ k'' ∈ range m.r, a.v i k'' x * (m.v k'' k * ∑ k' ∈ range u.r, u.v k k' y * chain rest ys k' 0) := by
        intro k hk
        rw [q.prod i hi k (by rw [← hl.1]; exact mem_range.mp hk) x hx, mul_assoc, sum_mul]
        congr 1
        exact sum_congr rfl fun _ _ => by ring
      rw [sum_congr rfl e1, ← mul_sum, sum_comm]
      refine mul_eq_zero_of_right _ (sum_eq_zero fun k'' hk'' => ?_)
      rw [← mul_sum]
      refine mul_eq_zero_of_right _ ?_
      rw [← h3 k'' (mem_range.mp hk'')]
      simp_rw [mul_sum, sum_mul]
      rw [sum_comm]
      exact sum_congr rfl fun _ _ => sum_congr rfl fun _ _ => by ring
    · cases h

/-- A sum with a vanishing term has fewer terms. -/
theorem drop_term {D k0 : ℕ} (hk : k0 < D) (P Q : ℕ → List ℕ → ℂ) (w : ℕ → ℂ) (h0 : w k0 = 0) :
    ∃ p q : ℕ → List ℕ → ℂ, ∀ a b, ∑ k ∈ range D, P k a * w k * Q k b = ∑ k ∈ range (D - 1), p k a * q k b := by
  refine ⟨fun k a => P (if k < k0 then k else k + 1) a * w (if k < k0 then k else k + 1),
    fun k b => Q (if k < k0 then k else k + 1) b, fun a b => ?_⟩
  obtain ⟨m, rfl⟩ : ∃ m, D = m + 1 := ⟨D - 1, by omega⟩
  rw [Nat.add_sub_cancel]
  have h1 : ∑ k ∈ range (m + 1), P k a * w k * Q k b
      = ∑ k ∈ range k0, P k a * w k * Q k b + ∑ k ∈ range (m - k0), P (k0 + 1 + k) a * w (k0 + 1 + k) * Q (k0 + 1 + k) b := by
    rw [show m + 1 = (k0 + 1) + (m - k0) by omega, sum_range_add, sum_range_succ, h0]; simp
  have h2 : ∀ f : ℕ → ℂ, ∑ k ∈ range m, f (if k < k0 then k else k + 1)
      = ∑ k ∈ range k0, f k + ∑ k ∈ range (m - k0), f (k0 + 1 + k) := by
    intro f
    conv_lhs => rw [show m = k0 + (m - k0) by omega, sum_range_add]
    congr 1
    · refine sum_congr rfl fun k hk => by rw [if_pos (mem_range.mp hk)]
    · refine sum_congr rfl fun k _ => by rw [if_neg (by omega)]; congr 1; omega
  rw [h1, h2 fun k => P k a * w k * Q k b]

theorem svdSweep_err {O : LinAlg} (hO : O.Spec) {th : ℝ} (ht : th ≤ 1e-16) {dims : ℕ → ℕ} : ∀ (left : List (Ten ℂ)) (t : Ten ℂ)
    (lamO : Option (List ℝ)) (lam : List ℝ) (tl Ls : List (List ℝ)) (G : List (Ten ℂ)) (e : PyErr),
    CanonInv t left lam tl G → lamO.getD [1] = lam → Ls ++ [[1]] = lam :: tl →
    (∀ n t', (left.reverse ++ [t])[n]? = some t' → t'.l ≤ dims n) →
    (lamO ≠ none → lam.length ≤ dims (left.length + 1) ∧ G ≠ []) →
    svdSweep O th t left lamO G Ls = .error e →
    e = .nan ∧ ∃ n D, 1 ≤ n ∧ n < left.length + 1 + G.length ∧ D < dims n ∧ ∃ p q : ℕ → List ℕ → ℂ,
      ∀ s, Cfg (left.reverse ++ t :: List.zipWith scaleR G tl) s →
        chain (left.reverse ++ t :: List.zipWith scaleR G tl) s 0 0 = ∑ k ∈ range D, p k (s.take n) * q k (s.drop n) := by
  have noSvd : ∀ {t : Ten ℂ} {left lam tl G} {e : PyErr}, CanonInv t left lam tl G →
      prepareTruncateL O t (some t.l) th ≠ .error e := by
    intro t left lam tl G e hI h
    obtain ⟨-, h1⟩ := prepareTruncate_err hO (Or.inl h)
    obtain ⟨a, a1, a2, a3, a4, a5⟩ := hI.orth
    rw [sq_one hI.unit hI.tr a1 a2 a3 a4 a5] at h1
    exact one_ne_zero h1
  have bad : ∀ {t B : Ten ℂ} {left : List (Ten ℂ)} {lam tl} {G : List (Ten ℂ)} {lamO : Option (List ℝ)} {e : PyErr},
      CanonInv t left lam tl G → lamO.getD [1] = lam → B.r = t.r →
      (lamO ≠ none → lam.length ≤ dims (left.length + 1) ∧ G ≠ []) →
      gammaOf B lamO = .error e →
      e = .nan ∧ ∃ n D, 1 ≤ n ∧ n < left.length + 1 + G.length ∧ D < dims n ∧ ∃ p q : ℕ → List ℕ → ℂ,
      ∀ s, Cfg (left.reverse ++ t :: List.zipWith scaleR G tl) s →
        chain (left.reverse ++ t :: List.zipWith scaleR G tl) s 0 0 = ∑ k ∈ range D, p k (s.take n) * q k (s.drop n) := by
    intro t B left lam tl G lamO e hI hlam hBr hd h
    cases lamO with
    | none => simp [gammaOf] at h
    | some l =>
      simp only [Option.getD_some] at hlam
      subst hlam
      obtain ⟨d1, d2⟩ := hd (by simp)
      unfold gammaOf at h
      simp only at h
      split_ifs at h with h0
      · cases h
        obtain ⟨k0, hk0, hz⟩ := List.mem_iff_getElem.mp h0
        obtain ⟨a, a1, a2, a3, a4, a5⟩ := hI.orth
        obtain ⟨p, q, hpq⟩ := drop_term hk0 (fun k s => chain (left.reverse ++ [a]) s 0 k)
          (fun k s => chain (List.zipWith scaleR G tl) s k 0) (fun k => ((l.getD k 0 : ℝ) : ℂ))
          (by simp [List.getElem?_eq_getElem hk0, hz])
        have gpos : 0 < G.length := List.length_pos_iff.mpr d2
        refine ⟨rfl, left.length + 1, l.length - 1, by omega, by omega, by omega, p, q, ?_⟩
        intro s hs
        rw [← hpq]
        have hlen : s.length = left.length + 1 + (List.zipWith scaleR G tl).length := by
          have := (List.Forall₂.length_eq hs).symm
          simp only [List.length_append, List.length_reverse, List.length_cons] at this
          omega
        have lk : Linked 1 (left.reverse ++ [t]) t.r := by
          rw [linked_append]; exact ⟨_, hI.link, rfl, rfl⟩
        have lka : Linked 1 left.reverse t.l := hI.link
        have e1 : left.reverse ++ t :: List.zipWith scaleR G tl = (left.reverse ++ [t]) ++ List.zipWith scaleR G tl := by simp
        have hcs : Cfg ((left.reverse ++ [t]) ++ List.zipWith scaleR G tl) s := by rw [← e1]; exact hs
        rw [e1]
        conv_lhs => rw [← List.take_append_drop (left.length + 1) s]
        rw [chain_append lk _ _ (by simp; omega) one_pos, hI.tr]
        refine sum_congr rfl fun k hk => ?_
        congr 1
        have hct : Cfg (left.reverse ++ [t]) (s.take (left.length + 1)) := by
          have := List.forall₂_take (left.length + 1) hcs
          rwa [List.take_left' (by simp)] at this
        obtain ⟨s1, s2, hs1, hs2, hs12⟩ : ∃ s1 s2, Cfg left.reverse s1 ∧ Cfg [t] s2 ∧ s.take (left.length + 1) = s1 ++ s2 := by
          refine ⟨(s.take (left.length + 1)).take left.length, (s.take (left.length + 1)).drop left.length, ?_, ?_,
            (List.take_append_drop _ _).symm⟩
          · have := List.forall₂_take left.length hct
            rwa [List.take_left' (by simp)] at this
          · have := List.forall₂_drop left.length hct
            rwa [List.drop_left' (by simp)] at this
        rw [hs12, chain_append lka _ _ (List.Forall₂.length_eq hs1).symm one_pos,
          chain_append lka _ _ (List.Forall₂.length_eq hs1).symm one_pos, sum_mul]
        refine sum_congr rfl fun i hi => ?_
        cases hs2 with
        | cons hx hs2 =>
        cases hs2
        rename_i x
        simp only [chain]
        have hk' := mem_range.mp hk
        rw [sum_eq_single k, sum_eq_single k]
        · rw [a5 i (mem_range.mp hi) k (by rw [hI.tr]; exact hk') x hx]
          simp [delta]; ring
        · intro b _ hb; simp [delta, hb]
        · intro hb; rw [mem_range, a2, hI.tr] at hb; omega
        · intro b _ hb; simp [delta, hb]
        · intro hb; rw [mem_range, hI.tr] at hb; omega
      · unfold absorbR at h
        rw [if_pos (by simp [diagMat, hBr, hI.tr])] at h
        cases h
  intro left
  induction left with
  | nil =>
    intro t lamO lam tl Ls G e hI hlam hLs hdim hd h
    simp only [svdSweep] at h
    split at h
    · rename_i hp; exact absurd hp (noSvd hI)
    rename_i U S B Z hp
    have q := exactSVD hO ht hp
    split at h
    · rename_i hg
      cases h
      exact bad hI hlam q.outr hd hg
    · cases h
  | cons u left ih =>
    intro t lamO lam tl Ls G e hI hlam hLs hdim hd h
    simp only [svdSweep] at h
    split at h
    · rename_i hp; exact absurd hp (noSvd hI)
    rename_i U S B Z hp
    have q0 := exactSVD hO ht hp
    split at h
    · rename_i hg
      cases h
      exact bad hI hlam q0.outr hd hg
    rename_i g hg
    have hlk := hI.link
    rw [List.reverse_cons, linked_append] at hlk
    obtain ⟨y, y1, y2⟩ := hlk
    simp only [Linked] at y2
    obtain ⟨y2, y3⟩ := y2
    subst y2
    have hu : absorbR u (U.dot (diagMat S)) = .ok ⟨u.l, (U.dot (diagMat S)).c, u.d,
        fun i j s => ∑ k ∈ range u.r, u.v i k s * (U.dot (diagMat S)).v k j⟩ := by
      unfold absorbR; rw [if_pos (by show u.r = U.r; rw [q0.ur, y3])]
    rw [hu] at h
    simp only at h
    obtain ⟨hI', two⟩ := inv_step hO ht hI hlam hp hg rfl
    obtain ⟨j1, n, D, j2, j3, j4, p, r, j5⟩ := ih _ (some S) S (lam :: tl) (S :: Ls) (g :: G) e hI' rfl
      (by rw [List.cons_append, hLs]) (by
        intro n t' hn
        by_cases hlt : n < left.length
        · refine hdim n t' ?_
          rw [List.getElem?_append_left (by simpa using hlt)] at hn
          rw [List.reverse_cons, List.append_assoc, List.getElem?_append_left (by simpa using hlt)]
          exact hn
        · have hn' : n = left.length := by
            have := (List.getElem?_eq_some_iff.mp hn).1
            simp at this; omega
          subst hn'
          rw [List.getElem?_append_right (by simp)] at hn
          simp at hn
          subst hn
          refine hdim left.length u ?_
          rw [List.reverse_cons, List.append_assoc, List.getElem?_append_right (by simp)]
          simp) (by
        intro _
        refine ⟨?_, by simp⟩
        have h1 : S.length ≤ t.l := by rw [q0.len]; omega
        refine h1.trans (hdim (left.length + 1) t ?_)
        rw [List.getElem?_append_right (by simp)]
        simp) h
    refine ⟨j1, n, D, j2, by simp at j3 ⊢; omega, j4, p, r, ?_⟩
    intro s hs
    obtain ⟨k1, k2⟩ := two s (by simpa using hs)
    have := j5 s (by simpa using k1)
    rw [← this]
    simpa using k2

/-- **C57 (success).**  On an open chain the canonical form exists, unless the state is zero or some bond dimension is
larger than necessary; in these cases the only error is NaN. -/
theorem C57_total {O : LinAlg} (hO : O.Spec) {P : List (Ten ℂ) → Res (List (Ten ℂ) × List (List ℝ))} {th : ℝ}
    (ht : th ≤ 1e-16) {ts : List (Ten ℂ)} (hne : ts ≠ []) (hl : Linked 1 ts 1) :
    (∃ G L, canonizeMPS O P th ts = .ok (G, L)) ∨
      (canonizeMPS O P th ts = .error .nan ∧ ((∀ s, Cfg ts s → chain ts s 0 0 = 0) ∨ ¬ Minimal ts)) := by
  cases ts with
  | nil => exact absurd rfl hne
  | cons t ts =>
    have hlast := last_r hl
    simp only [canonizeMPS]
    rw [if_pos ⟨hl.1, hlast⟩]
    cases hA : qrSweep O t ts with
    | error e =>
      obtain ⟨rfl, h2⟩ := qrSweep_err hO ts t e hA hl.2
      exact Or.inr ⟨rfl, Or.inl fun s hs => h2 s hs 0 (by rw [hl.1]; exact one_pos)⟩
    | ok A =>
    simp only
    obtain ⟨a1, a2, a3, c1, hc1, a4⟩ := qrSweep_spec hO ts t A hl.2 hA
    have ab := qrSweep_bound hO ts t A hA hl.2
    have hAl : A.length = (t :: ts).length := List.Forall₂.length_eq ab
    cases hrev : A.reverse with
    | nil =>
      have := congrArg List.length hrev
      simp [hAl] at this
    | cons a left =>
    simp only
    have hAe : A = left.reverse ++ [a] := by
      rw [← List.reverse_reverse A, hrev, List.reverse_cons]
    rw [hl.1] at a2
    have hI := inv_start hAe a1 a2
    cases hs : svdSweep O th a left none [] [] with
    | ok x => exact Or.inl ⟨x.1, _, rfl⟩
    | error e =>
      obtain ⟨rfl, n, D, n1, n2, n3, p, q, hpq⟩ := svdSweep_err hO ht
        (dims := fun n => match (t :: ts)[n]? with | some t => t.l | none => 0) left a none [1] [] [] [] e hI rfl rfl (by
          intro n t' hn
          rw [← hAe] at hn
          have hlt := (List.getElem?_eq_some_iff.mp hn).1
          have hlt' : n < (t :: ts).length := by omega
          have := List.forall₂_iff_get.mp ab
          have h3 := this.2 n hlt hlt'
          simp only [List.getElem?_eq_getElem hlt']
          rw [List.getElem?_eq_getElem hlt] at hn
          cases hn
          exact h3) (by simp) hs
      refine Or.inr ⟨rfl, Or.inr fun hmin => ?_⟩
      simp only [List.length_nil, add_zero] at n2
      have hlen : left.length + 1 = (t :: ts).length := by rw [← hAl, hAe]; simp
      have hn' : n < (t :: ts).length := by omega
      rw [List.getElem?_eq_getElem hn'] at n3
      have n3 : D < ((t :: ts)[n]).l := n3
      have := hmin n _ (List.getElem?_eq_getElem hn') n1 D (fun k s => c1 * p k s) q (by
        intro s hs
        rw [a4 s hs 0 (by rw [hl.1]; exact one_pos)]
        have h5 := hpq s (by
          rw [cfg_iff_map] at hs ⊢
          rw [← a3, hAe] at hs
          simpa using hs)
        simp only [List.zipWith_nil_left] at h5
        rw [hAe, h5, mul_sum]
        exact sum_congr rfl fun _ _ => by ring)
      omega

/-! ### Conversely, a canonical form is minimal -/

theorem qrSweep_shape {O : LinAlg} (hO : O.Spec) : ∀ (rest : List (Ten ℂ)) (t : Ten ℂ) (A : List (Ten ℂ)),
    qrSweep O t rest = .ok A → Linked t.r rest 1 → (∀ x ∈ t :: rest, x.Adm) →
    A.map Ten.shape = (t :: rest).map Ten.shape := by
  have cut : ∀ {t a : Ten ℂ} {m : Mat ℂ} {z : ℝ}, prepareTensorR O .none t = .ok (a, m, z) → t.Adm →
      a.shape = t.shape ∧ m.r = t.r ∧ m.c = t.r := by
    intro t a m z h ha
    refine cutR_shape (sth := 0) (z := z) hO (by norm_num) ?_ ha
    unfold cutR
    rw [if_pos ⟨by norm_num, rfl⟩]
    simpa [prepareTensor] using h
  intro rest
  induction rest with
  | nil =>
    intro t A h _ ha
    simp only [qrSweep, prepareTensor] at h
    rw [if_neg (by decide), if_pos (by decide)] at h
    split at h
    · cases h
    rename_i a m z hp
    cases h
    simp [(cut hp (ha t (by simp))).1]
  | cons u rest ih =>
    intro t A h hl ha
    simp only [qrSweep, prepareTensor] at h
    rw [if_neg (by decide), if_pos (by decide)] at h
    split at h
    · cases h
    rename_i a m z hp
    obtain ⟨c1, c2, c3⟩ := cut hp (ha t (by simp))
    split at h
    · cases h
    rename_i u' hu
    split at h
    · cases h
    rename_i done hd
    cases h
    unfold absorbL at hu
    split_ifs at hu with hc
    cases hu
    have hsu : Ten.shape ⟨m.r, u.r, u.d, fun i j s => ∑ k ∈ range u.l, m.v i k * u.v k j s⟩ = u.shape := by
      simp [Ten.shape, c2, hl.1]
    have := ih ⟨m.r, u.r, u.d, fun i j s => ∑ k ∈ range u.l, m.v i k * u.v k j s⟩ done hd hl.2 (by
      intro x hx
      rcases List.mem_cons.mp hx with rfl | hx
      · exact adm_of_shape hsu (ha u (by simp))
      · exact ha x (by simp [hx]))
    rw [List.map_cons, this, List.map_cons, hsu, c1]; rfl

theorem svdSweep_shape {O : LinAlg} (hO : O.Spec) {th : ℝ} (ht : th ≤ 1e-16) : ∀ (left : List (Ten ℂ)) (t : Ten ℂ)
    (lamO : Option (List ℝ)) (Ls : List (List ℝ)) (G G' : List (Ten ℂ)) (Ls' : List (List ℝ)),
    svdSweep O th t left lamO G Ls = .ok (G', Ls') → t.Adm → (∀ x ∈ left, x.Adm) →
    G'.map Ten.shape = (left.reverse ++ t :: G).map Ten.shape := by
  have one : ∀ {t B g : Ten ℂ} {U : Mat ℂ} {S : List ℝ} {Z : ℝ} {lamO : Option (List ℝ)},
      prepareTruncateL O t (some t.l) th = .ok (U, S, B, Z) → gammaOf B lamO = .ok g → t.Adm →
      g.shape = t.shape ∧ S.length = t.l ∧ U.r = t.l := by
    intro t B g U S Z lamO hp hg ha
    have q := exactSVD hO ht hp
    have hS : S.length = t.l := by rw [q.len]; exact min_eq_left ha.2
    refine ⟨?_, hS, q.ur⟩
    cases lamO with
    | none =>
      simp only [gammaOf] at hg
      cases hg
      simp [Ten.shape, q.ol, q.outr, q.od, hS]
    | some l =>
      unfold gammaOf at hg
      simp only at hg
      split_ifs at hg with h0
      unfold absorbR at hg
      split_ifs at hg with h1
      cases hg
      simp only [diagMat] at h1 ⊢
      simp only [Ten.shape]
      rw [← h1, q.ol, q.outr, q.od, hS]
  intro left
  induction left with
  | nil =>
    intro t lamO Ls G G' Ls' h ha _
    simp only [svdSweep] at h
    split at h
    · cases h
    rename_i U S B Z hp
    split at h
    · cases h
    rename_i g hg
    cases h
    simp [(one hp hg ha).1]
  | cons u left ih =>
    intro t lamO Ls G G' Ls' h ha hal
    simp only [svdSweep] at h
    split at h
    · cases h
    rename_i U S B Z hp
    split at h
    · cases h
    rename_i g hg
    split at h
    · cases h
    rename_i u' hu
    obtain ⟨o1, o2, o3⟩ := one hp hg ha
    unfold absorbR at hu
    split_ifs at hu with hur
    cases hu
    have hur : u.r = U.r := hur
    have hsu : Ten.shape ⟨u.l, (U.dot (diagMat S)).c, u.d, fun i j s => ∑ k ∈ range u.r, u.v i k s * (U.dot (diagMat S)).v k j⟩
        = u.shape := by
      simp only [Ten.shape, Mat.dot, diagMat, o2, hur, o3]
    have := ih _ _ _ _ _ _ h (adm_of_shape hsu (hal u (by simp))) (fun x hx => hal x (by simp [hx]))
    rw [this]
    simp [o1, hsu]

theorem canonize_shape {O : LinAlg} (hO : O.Spec) {P : List (Ten ℂ) → Res (List (Ten ℂ) × List (List ℝ))} {th : ℝ}
    (ht : th ≤ 1e-16) {ts G : List (Ten ℂ)} {L : List (List ℝ)} (hl : Linked 1 ts 1) (ha : ∀ t ∈ ts, t.Adm)
    (h : canonizeMPS O P th ts = .ok (G, L)) : G.map Ten.shape = ts.map Ten.shape := by
  cases ts with
  | nil => simp [canonizeMPS] at h
  | cons t ts =>
    simp only [canonizeMPS] at h
    rw [if_pos ⟨hl.1, last_r hl⟩] at h
    split at h
    · cases h
    rename_i A hA
    have sh := qrSweep_shape hO ts t A hA hl.2 ha
    split at h
    · cases h
    rename_i a left hrev
    split at h
    · cases h
    rename_i Ls' hs
    cases h
    have hAe : A = left.reverse ++ [a] := by
      rw [← List.reverse_reverse A, hrev, List.reverse_cons]
    have hA' := adm_shape sh ha
    rw [svdSweep_shape hO ht left a none [] [] _ _ hs (hA' a (by rw [hAe]; simp))
      (fun x hx => hA' x (by rw [hAe]; simp [hx])), ← hAe, sh]

/-- The amplitude cut at a bond. -/
theorem glProd_split : ∀ (n : ℕ) (l : List ℝ) (Ls : List (List ℝ)) (G : List (Ten ℂ)) (sL sR : List ℕ) (i j : ℕ),
    Vidal (l :: Ls) G → n ≤ G.length → sL.length = n → i < l.length → ∀ ln, (l :: Ls)[n]? = some ln →
    glProd (l :: Ls) G (sL ++ sR) i j = ∑ k ∈ range ln.length,
      chain (List.zipWith scaleL (l :: Ls) (G.take n)) sL i k * ((ln.getD k 0 : ℝ) : ℂ) *
        chain (List.zipWith scaleR (G.drop n) (Ls.drop n)) sR k j := by
  intro n
  induction n with
  | zero =>
    intro l Ls G sL sR i j hv _ hs hi ln hln
    obtain rfl : sL = [] := List.length_eq_zero_iff.mp hs
    simp only [List.getElem?_cons_zero, Option.some.injEq] at hln
    subst hln
    have hlen : Ls.length = G.length := vidal_len _ _ _ hv
    simp only [List.nil_append, glProd, List.take_zero, List.zipWith_nil_right, chain, List.drop_zero, mul_assoc]
    rw [sum_delta_left hi (fun k => ((l.getD k 0 : ℝ) : ℂ) * chain (List.zipWith scaleR G Ls) sR k j), glTail_chain _ _ hlen]
  | succ n ih =>
    intro l Ls G sL sR i j hv hn hs hi ln hln
    cases G with
    | nil => simp at hn
    | cons g G =>
    cases Ls with
    | nil => exact hv.elim
    | cons l' Ls =>
    cases sL with
    | nil => simp at hs
    | cons x sL =>
    obtain ⟨-, v1, v2, -, -, v3⟩ := hv
    have e : glProd (l :: l' :: Ls) (g :: G) (x :: sL ++ sR) i j
        = ∑ k ∈ range g.r, (scaleL l g).v i k x * glProd (l' :: Ls) G (sL ++ sR) k j := by
      simp only [glProd, glTail, List.cons_append, scaleL, mul_sum]
      exact sum_congr rfl fun _ _ => by ring
    rw [e]
    have e2 : ∀ k ∈ range g.r, (scaleL l g).v i k x * glProd (l' :: Ls) G (sL ++ sR) k j
        = ∑ k' ∈ range ln.length, (scaleL l g).v i k x *
          (chain (List.zipWith scaleL (l' :: Ls) (G.take n)) sL k k' * ((ln.getD k' 0 : ℝ) : ℂ) *
            chain (List.zipWith scaleR (G.drop n) (Ls.drop n)) sR k' j) := by
      intro k hk
      rw [ih l' Ls G sL sR k j v3 (by simpa using hn) (by simpa using hs) (by rw [← v2]; exact mem_range.mp hk) ln
        (by simpa using hln), mul_sum]
    rw [sum_congr rfl e2, sum_comm]
    refine sum_congr rfl fun k' _ => ?_
    simp only [List.take_succ_cons, List.zipWith_cons_cons, chain, List.drop_succ_cons, sum_mul]
    exact sum_congr rfl fun _ _ => by ring

theorem vidal_leftOrth : ∀ (n : ℕ) (l : List ℝ) (Ls : List (List ℝ)) (G : List (Ten ℂ)) (ln : List ℝ),
    Vidal (l :: Ls) G → n ≤ G.length → (l :: Ls)[n]? = some ln →
    Linked l.length (List.zipWith scaleL (l :: Ls) (G.take n)) ln.length ∧
      (∀ t ∈ List.zipWith scaleL (l :: Ls) (G.take n), LeftOrth t) ∧ Vidal (ln :: Ls.drop n) (G.drop n) := by
  intro n
  induction n with
  | zero =>
    intro l Ls G ln hv _ hln
    simp only [List.getElem?_cons_zero, Option.some.injEq] at hln
    subst hln
    exact ⟨by simp [Linked], by simp, hv⟩
  | succ n ih =>
    intro l Ls G ln hv hn hln
    cases G with
    | nil => simp at hn
    | cons g G =>
    cases Ls with
    | nil => exact hv.elim
    | cons l' Ls =>
    obtain ⟨-, v1, v2, v4, -, v3⟩ := hv
    obtain ⟨i1, i2, i3⟩ := ih l' Ls G ln v3 (by simpa using hn) (by simpa using hln)
    refine ⟨⟨v1, ?_⟩, ?_, i3⟩
    · rw [show (scaleL l g).r = l'.length from v2]; exact i1
    · intro t ht
      rcases List.mem_cons.mp ht with rfl | ht
      · exact v4
      · exact i2 t ht

/-- A sum of products of two families that equals a Schmidt decomposition has at least as many terms. -/
theorem schmidt_le {D D' : ℕ} {dL dR : List ℕ} {A B : ℕ → List ℕ → ℂ} {w : ℕ → ℝ} (hw : ∀ k < D, 0 < w k)
    (hA : ∀ k < D, ∀ k' < D, sumCfg dL (fun s => star (A k s) * A k' s) = delta ℂ k k')
    (hB : ∀ k < D, ∀ k' < D, sumCfg dR (fun s => B k s * star (B k' s)) = delta ℂ k k')
    {p q : ℕ → List ℕ → ℂ}
    (h : ∀ a b, List.Forall₂ (fun d x => x < d) dL a → List.Forall₂ (fun d x => x < d) dR b →
      ∑ k ∈ range D, A k a * (w k : ℂ) * B k b = ∑ k ∈ range D', p k a * q k b) : D ≤ D' := by
  let M : Matrix (Fin D) (Fin D') ℂ := fun a k => sumCfg dL fun s => star (A a s) * p k s
  let N : Matrix (Fin D') (Fin D) ℂ := fun k b => sumCfg dR fun s => q k s * star (B b s)
  have key : M * N = Matrix.diagonal fun k : Fin D => ((w k : ℝ) : ℂ) := by
    ext x y
    rw [Matrix.mul_apply]
    have e1 : ∑ k : Fin D', M x k * N k y
        = sumCfg dL fun a => sumCfg dR fun b => star (A x a) * star (B y b) * ∑ k ∈ range D', p k a * q k b := by
      rw [← Finset.sum_range (fun k => (sumCfg dL fun s => star (A x s) * p k s) * (sumCfg dR fun s => q k s * star (B y s)))]
      simp_rw [mul_sum, sumCfg_sum]
      refine sum_congr rfl fun k _ => ?_
      rw [← sumCfg_mul_right]
      refine sumCfg_congr fun a _ => ?_
      rw [← sumCfg_mul]
      refine sumCfg_congr fun b _ => by ring
    have e2 : (sumCfg dL fun a => sumCfg dR fun b => star (A x a) * star (B y b) * ∑ k ∈ range D', p k a * q k b)
        = ∑ k ∈ range D, delta ℂ (x : ℕ) k * ((w k : ℂ) * delta ℂ k (y : ℕ)) := by
      have : (sumCfg dL fun a => sumCfg dR fun b => star (A x a) * star (B y b) * ∑ k ∈ range D', p k a * q k b)
          = sumCfg dL fun a => sumCfg dR fun b => ∑ k ∈ range D, (star (A x a) * A k a * (w k : ℂ)) * (B k b * star (B y b)) := by
        refine sumCfg_congr fun a ha => sumCfg_congr fun b hb => ?_
        rw [← h a b ha hb, mul_sum]
        exact sum_congr rfl fun _ _ => by ring
      rw [this]
      simp_rw [sumCfg_sum]
      refine sum_congr rfl fun k hk => ?_
      simp_rw [sumCfg_mul]
      rw [sumCfg_mul_right, sumCfg_mul_right, hA x x.2 k (mem_range.mp hk), hB k (mem_range.mp hk) y y.2]
      ring
    rw [e1, e2, sum_delta_left x.2 (fun k => (w k : ℂ) * delta ℂ k (y : ℕ))]
    by_cases hxy : x = y
    · subst hxy; simp [delta]
    · rw [Matrix.diagonal_apply_ne _ hxy, delta_ne (fun h => hxy (Fin.ext h)), mul_zero]
  have r1 : (Matrix.diagonal fun k : Fin D => ((w k : ℝ) : ℂ)).rank = D := by
    have : IsUnit (Matrix.diagonal fun k : Fin D => ((w k : ℝ) : ℂ)) := by
      rw [Matrix.isUnit_iff_isUnit_det, Matrix.det_diagonal, isUnit_iff_ne_zero, prod_ne_zero_iff]
      intro k _
      exact_mod_cast (hw k k.2).ne'
    rw [Matrix.rank_of_isUnit _ this, Fintype.card_fin]
  have r2 := Matrix.rank_mul_le_left M N
  have r3 := Matrix.rank_le_width M
  rw [key, r1] at r2
  omega

/-- **C57 (criterion).**  An open chain with admissible bond dimensions has a canonical form exactly if its state is not
zero and all its bond dimensions are minimal. -/
theorem C57_iff {O : LinAlg} (hO : O.Spec) {P : List (Ten ℂ) → Res (List (Ten ℂ) × List (List ℝ))} {th : ℝ}
    (ht : th ≤ 1e-16) {ts : List (Ten ℂ)} (hne : ts ≠ []) (hl : Linked 1 ts 1) (ha : ∀ t ∈ ts, t.Adm) :
    (∃ G L, canonizeMPS O P th ts = .ok (G, L)) ↔ (∃ s, Cfg ts s ∧ chain ts s 0 0 ≠ 0) ∧ Minimal ts := by
  constructor
  · rintro ⟨G, L, h⟩
    obtain ⟨c1, c2, c3, v, c4, ⟨c, hc0, hc⟩, c5⟩ := C57_canonical hO ht hl h
    have hsh : G.map Ten.shape = ts.map Ten.shape := canonize_shape hO ht hl ha h
    refine ⟨?_, ?_⟩
    · by_contra hcon
      push Not at hcon
      have : sumCfg (ts.map Ten.d) (fun s => ((Complex.normSq (glProd L G s 0 0) : ℝ) : ℂ))
          = sumCfg (ts.map Ten.d) (fun _ => (0 : ℂ)) := by
        refine sumCfg_congr fun s hs => ?_
        have h1 := hcon s (cfg_iff_map.mpr hs)
        rw [hc s (cfg_iff_map.mpr hs)] at h1
        rcases mul_eq_zero.mp h1 with h2 | h2
        · exact absurd h2 hc0
        · simp [h2]
      rw [this, sumCfg_zero] at c5
      exact zero_ne_one c5
    · intro n t hn h1 D' p q hpq
      cases L with
      | nil => simp at c1
      | cons l Ls =>
      simp only [List.head?_cons, Option.some.injEq] at c2
      subst c2
      have hGl : G.length = ts.length := by simpa using congrArg List.length hsh
      have hnl := (List.getElem?_eq_some_iff.mp hn).1
      have hLs : Ls.length = ts.length := by simpa using c1
      obtain ⟨ln, hln⟩ : ∃ ln, ([1] :: Ls)[n]? = some ln := ⟨_, List.getElem?_eq_getElem (by simp; omega)⟩
      obtain ⟨l1, l2, l3⟩ := vidal_leftOrth n [1] Ls G ln v (by omega) hln
      obtain ⟨r1, r2⟩ := vidal_rightOrth _ _ _ l3
      have hlastv : ((ln :: Ls.drop n).getLast (by simp)).length = 1 := by
        have : (ln :: Ls.drop n) = ([1] :: Ls).drop n := by
          rw [drop_getElem? hln]
          simp
        have e : (ln :: Ls.drop n).getLast? = some [1] := by
          rw [this, List.getLast?_drop, if_neg (by simp; omega)]; exact c3
        rw [List.getLast?_eq_some_getLast (by simp)] at e
        rw [Option.some.inj e]; rfl
      rw [hlastv] at r1
      -- bond dimension
      have hg : ∃ g gs, G.drop n = g :: gs ∧ g.l = ln.length ∧ g.l = t.l := by
        have hgn : n < G.length := by omega
        have e1 := drop_getElem? (List.getElem?_eq_getElem hgn)
        refine ⟨_, _, e1, ?_, ?_⟩
        · rw [e1] at l3
          cases hd : Ls.drop n with
          | nil => rw [hd] at l3; exact l3.elim
          | cons x xs => rw [hd] at l3; exact l3.2.1
        · have h2 := congrArg (fun l => l[n]?) hsh
          simp only [List.getElem?_map, hn, List.getElem?_eq_getElem hgn, Option.map_some, Option.some.injEq] at h2
          exact congrArg Prod.fst h2
      obtain ⟨g, gs, -, hg1, hg2⟩ := hg
      rw [← hg2, hg1]
      have dL : (List.zipWith scaleL ([1] :: Ls) (G.take n)).map Ten.d = (ts.map Ten.d).take n := by
        rw [← c4, ← List.map_take]
        have : ∀ (L : List (List ℝ)) (G : List (Ten ℂ)), G.length ≤ L.length → (List.zipWith scaleL L G).map Ten.d = G.map Ten.d := by
          intro L
          induction L with
          | nil => intro G h; obtain rfl : G = [] := by simpa using h
                   simp
          | cons l L ih =>
            intro G h
            cases G with
            | nil => simp
            | cons g G => simp [ih G (by simpa using h), scaleL]
        exact this _ _ (by simp; omega)
      have dR : (List.zipWith scaleR (G.drop n) (Ls.drop n)).map Ten.d = (ts.map Ten.d).drop n := by
        rw [← c4, ← List.map_drop]
        have : ∀ (G : List (Ten ℂ)) (L : List (List ℝ)), G.length ≤ L.length → (List.zipWith scaleR G L).map Ten.d = G.map Ten.d := by
          intro G
          induction G with
          | nil => intro L _; simp
          | cons g G ih =>
            intro L h
            cases L with
            | nil => simp at h
            | cons l L => simp [ih L (by simpa using h), scaleR]
        exact this _ _ (by simp; omega)
      have hpos : ∀ x ∈ ln, 0 < x := by
        cases hd : Ls.drop n with
        | nil =>
          rw [hd] at l3
          cases hgd : G.drop n with
          | nil => rw [hgd] at l3; exact l3.1
          | cons _ _ => rw [hgd] at l3; exact l3.elim
        | cons x xs =>
          rw [hd] at l3
          cases hgd : G.drop n with
          | nil => rw [hgd] at l3; exact l3.elim
          | cons _ _ => rw [hgd] at l3; exact l3.1.1
      refine schmidt_le (dL := (ts.map Ten.d).take n) (dR := (ts.map Ten.d).drop n)
        (A := fun k s => chain (List.zipWith scaleL ([1] :: Ls) (G.take n)) s 0 k)
        (B := fun k s => chain (List.zipWith scaleR (G.drop n) (Ls.drop n)) s k 0)
        (w := fun k => ln.getD k 0) (p := fun k s => c⁻¹ * p k s) (q := q) ?_ ?_ ?_ ?_
      · intro k hk
        simp only [List.getD_eq_getElem?_getD, List.getElem?_eq_getElem hk, Option.getD_some]
        exact hpos _ (List.getElem_mem hk)
      · intro k hk k' hk'
        have := chain_leftOrth l1 l2 hk hk'
        rw [dL] at this
        simpa using this
      · intro k hk k' hk'
        have := chain_rightOrth r1 r2 hk hk'
        rw [dR] at this
        simpa using this
      · intro a b hca hcb
        have hal : a.length = n := by
          have := (List.Forall₂.length_eq hca).symm
          rw [this]; simp; omega
        have hcs : Cfg ts (a ++ b) := by
          rw [cfg_iff_map]
          have := List.rel_append hca hcb
          simpa only [List.take_append_drop] using this
        rw [← glProd_split n [1] Ls G a b 0 0 v (by omega) hal (by simp) ln hln]
        have e1 := hc _ hcs
        rw [hpq _ hcs, List.take_left' hal, List.drop_left' hal] at e1
        rw [eq_comm, ← mul_right_inj' hc0, ← e1, mul_sum]
        refine sum_congr rfl fun k _ => ?_
        rw [← mul_assoc, ← mul_assoc, mul_inv_cancel₀ hc0, one_mul]
  · rintro ⟨⟨s, hs, hz⟩, hm⟩
    rcases C57_total (P := P) hO ht hne hl with h | ⟨-, h | h⟩
    · exact h
    · exact absurd (h s hs) hz
    · exact absurd hm h

/-! ## Disagreements -/

/-- Two qubits in the Bell state, centre matrix `diag(1,0)` in the middle: the object represents `|00>`. -/
def bellMps : MPS :=
  { N := 2, Dmax := 2, obc := true, sth := 1e-16, rth := 1e-14
    tensors := [⟨1, 2, 2, fun _ j s => delta ℂ j s⟩, ⟨2, 1, 2, fun i _ s => delta ℂ i s⟩]
    mat := ⟨2, 2, fun i j => delta ℂ i 0 * delta ℂ j 0⟩, conn := ⟨1, 1, fun _ _ => 1⟩, pos := 1, Z := 1 }

/-- **C57 is false for a general position of the centre matrix.**  `canonizeMPS` never looks at `_mat`: for the object
`|00>` written with a centre matrix in the middle of its two sites, no result of `canonize()` is proportional to the
state of the object. -/
theorem C57_violated_centre : bellMps.WF 1 1 ∧ bellMps.obc = true ∧ (bellMps.amp [0, 0] 0 0 = 1 ∧ bellMps.amp [1, 1] 0 0 = 0) ∧
    ∀ O : LinAlg, O.Spec → ∀ P R G L, canonize O P R bellMps = .ok (G, L) →
      ¬ ∃ c : ℂ, ∀ s, Cfg bellMps.tensors s → bellMps.amp s 0 0 = c * glProd L G s 0 0 := by
  have a0 : bellMps.amp [0, 0] 0 0 = 1 := by simp [bellMps, MPS.amp, chain, delta]
  have a1 : bellMps.amp [1, 1] 0 0 = 0 := by simp [bellMps, MPS.amp, chain, delta]
  refine ⟨⟨rfl, by decide, by simp [bellMps, Linked], by simp [bellMps, Linked]⟩, rfl, ⟨a0, a1⟩, ?_⟩
  rintro O hO P R G L h ⟨c, hc⟩
  have c00 : Cfg bellMps.tensors [0, 0] := List.Forall₂.cons (by decide) (List.Forall₂.cons (by decide) List.Forall₂.nil)
  have c11 : Cfg bellMps.tensors [1, 1] := List.Forall₂.cons (by decide) (List.Forall₂.cons (by decide) List.Forall₂.nil)
  have h' : canonizeMPS O P 1e-16 bellMps.tensors = .ok (G, L) := h
  obtain ⟨-, -, -, -, -, ⟨c', hc0, hc'⟩, -⟩ := C57_canonical hO le_rfl (by simp [bellMps, Linked]) h'
  have e1 := hc _ c00
  have e2 := hc _ c11
  have e3 := hc' _ c11
  rw [a0] at e1
  rw [a1] at e2
  have e4 : chain bellMps.tensors [1, 1] 0 0 = 1 := by simp [bellMps, chain, delta]
  rw [e4] at e3
  rcases mul_eq_zero.mp e2.symm with h0 | h0
  · rw [h0, zero_mul] at e1; exact one_ne_zero e1
  · rw [h0, mul_zero] at e3; exact one_ne_zero e3

/-- The tensors of the Bell state meet the hypotheses of `C57_iff` and its right hand side. -/
theorem bell_canonical {O : LinAlg} (hO : O.Spec) (P : List (Ten ℂ) → Res (List (Ten ℂ) × List (List ℝ))) :
    ∃ G L, canonizeMPS O P 1e-16 bellMps.tensors = .ok (G, L) := by
  refine (C57_iff (P := P) hO le_rfl (by simp [bellMps]) (by simp [bellMps, Linked]) (by simp [bellMps, Ten.Adm])).mpr
    ⟨⟨[0, 0], List.Forall₂.cons (by decide) (List.Forall₂.cons (by decide) List.Forall₂.nil), by simp [bellMps, chain, delta]⟩, ?_⟩
  intro n t hn h1 D p q h
  have hn2 : n = 1 := by
    have := (List.getElem?_eq_some_iff.mp hn).1
    simp [bellMps] at this
    omega
  subst hn2
  cases hn
  refine schmidt_le (dL := [2]) (dR := [2]) (A := fun k s => delta ℂ k (s.getD 0 0)) (B := fun k s => delta ℂ k (s.getD 0 0))
    (w := fun _ => 1) (p := p) (q := q) (fun _ _ => one_pos) ?_ ?_ ?_
  · intro k hk k' hk'
    have hk : k < 2 := hk
    have hk' : k' < 2 := hk'
    interval_cases k <;> interval_cases k' <;> simp [sumCfg, delta]
  · intro k hk k' hk'
    have hk : k < 2 := hk
    have hk' : k' < 2 := hk'
    interval_cases k <;> interval_cases k' <;> simp [sumCfg, delta]
  · intro a b ha hb
    cases ha with
    | cons h1 ha =>
    cases ha
    cases hb with
    | cons h2 hb =>
    cases hb
    rename_i x y
    have := h [x, y] (List.Forall₂.cons h1 (List.Forall₂.cons h2 List.Forall₂.nil))
    simp only [List.take_succ_cons, List.take_zero, List.drop_succ_cons, List.drop_zero] at this
    rw [← this]
    simp [bellMps, chain]

/-- The Bell state with a trivial centre matrix meets the hypotheses of `C57_object_partial`, and `canonize` succeeds. -/
example : let m : MPS := { bellMps with mat := ⟨2, 2, delta ℂ⟩ }
    m.WF 1 1 ∧ m.obc = true ∧ m.mat.r = m.mat.c ∧ (∀ i < m.mat.r, ∀ j < m.mat.r, m.mat.v i j = 1 * delta ℂ i j) ∧
      ∃ O : LinAlg, O.Spec ∧ ∀ P R, ∃ G L, canonize O P R m = .ok (G, L) := by
  obtain ⟨O, hO⟩ := exists_linAlg
  refine ⟨⟨rfl, by decide, by simp [bellMps, Linked], by simp [bellMps, Linked]⟩, rfl, rfl, by simp, O, hO, fun P R => ?_⟩
  exact bell_canonical hO P

/-- `|00>` stored with bond dimension two; the second Schmidt value is zero. -/
def wideT : List (Ten ℂ) := [⟨1, 2, 2, fun _ j s => delta ℂ j 0 * delta ℂ s 0⟩, ⟨2, 1, 2, fun i _ s => delta ℂ i 0 * delta ℂ s 0⟩]

/-- **C57 is false for bonds with vanishing Schmidt values.**  The product state `|00>` stored with bond dimension two
has no canonical form: the code divides by the zero Schmidt value, whatever the svd returns. -/
theorem C57_violated_rank : Linked 1 wideT 1 ∧ chain wideT [0, 0] 0 0 = 1 ∧
    ∀ O : LinAlg, O.Spec → ∀ P G L, canonizeMPS O P 1e-16 wideT ≠ .ok (G, L) := by
  refine ⟨by simp [wideT, Linked], by simp [wideT, chain, delta], ?_⟩
  intro O hO P G L h
  have := ((C57_iff (P := P) hO le_rfl (by simp [wideT]) (by simp [wideT, Linked]) (by simp [wideT, Ten.Adm])).mp ⟨G, L, h⟩).2
  have := this 1 _ rfl le_rfl 1 (fun _ s => delta ℂ (s.getD 0 0) 0) (fun _ s => delta ℂ (s.getD 0 0) 0) (by
    intro s hs
    cases hs with
    | cons h1 hs =>
    cases hs with
    | cons h2 hs =>
    cases hs
    simp [wideT, chain, delta])
  simp at this

end

end PyTeN
