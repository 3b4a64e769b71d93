import Verif.Mps.Svd
import Verif.Mps.Ops

/-! # Gates: models of `applyOneSiteGate`, `applyTwoSiteGate` and `truncate` -/

namespace PyTeN
open Finset

noncomputable section

/-- `ncon.ncon([tensor,gate],[[-1,-2,1],[1,-3]])`, lib/mpslib/mps.py:1236 and 1242: contraction of the
physical leg with the first leg of the gate; ncon raises ValueError if the dimensions differ. -/
def Ten.gate1 (t : Ten ℂ) (g : Mat ℂ) : Res (Ten ℂ) :=
  if t.d = g.r then .ok ⟨t.l, t.r, g.c, fun i j y => ∑ x ∈ range t.d, t.v i j x * g.v x y⟩
  else .error .value

/-- `self._tensors[site]=A` with Python's index convention. -/
def setZ (ts : List (Ten ℂ)) (i : ℤ) (t : Ten ℂ) : Res (List (Ten ℂ)) :=
  match pyIdx ts.length i with
  | some n => .ok (ts.set n t)
  | none => .error .index

/-- `MPS.__applyOneSiteGate__`, lib/mpslib/mps.py:1226-1244.  The gate is a matrix (the assertion
`len(gate.shape)==2` is the type). -/
def MPS.applyOneSiteGate (O : LinAlg) (m : MPS) (g : Mat ℂ) (site : ℤ)
    (preserve_position : Bool := true) : Res MPS :=
  if ¬ (site < m.N) then .error .assertion
  else if preserve_position then
    match m.position O (site + 1) with
    | .error e => .error e
    | .ok m1 =>
      match m1.tensor site true with
      | .error e => .error e
      | .ok (t, m2) =>
        match t.gate1 g with
        | .error e => .error e
        | .ok t' =>
          match prepareTensor O t' 1 with
          | .error e => .error e
          | .ok (a, mat, z) =>
            match setZ m2.tensors site a with
            | .error e => .error e
            | .ok ts => .ok { m2 with Z := m2.Z * (z : ℂ), tensors := ts, mat := mat }
  else
    match m.getItem site with
    | .error e => .error e
    | .ok t =>
      match t.gate1 g with
      | .error e => .error e
      | .ok t' => m.setItem site t'

/-- A two-site gate, an array of shape `(a,b,a',b')`: `v x y x' y'`. -/
structure Gate2 where
  a : ℕ
  b : ℕ
  a' : ℕ
  b' : ℕ
  v : ℕ → ℕ → ℕ → ℕ → ℂ

/-- The two-site contraction and reshape of lib/mpslib/mps.py:1198-1200:
`ncon([T,t,gate],[[-1,1,2],[1,-4,3],[2,3,-2,-3]])` has shape `(Dl,d1,d2,Dr)` and is reshaped in C
order to `(Dl*d1,Dr*d2)`: the row index is `i*d1+x`, the column index is `y*Dr+j`. -/
def twoSiteMat (T t : Ten ℂ) (g : Gate2) : Mat ℂ :=
  ⟨T.l * g.a', t.r * g.b', fun p q =>
    ∑ x ∈ range T.d, ∑ y ∈ range t.d,
      (∑ k ∈ range T.r, T.v (p / g.a') k x * t.v k (q % t.r) y) * g.v x y (p % g.a') (q / t.r)⟩

/-- `MPS.__applyTwoSiteGate__`, lib/mpslib/mps.py:1186-1215, returning `tw`, `len(Strunc)` and the
object.  `Dmax=None` reaches `min(len(Strunc),None)`, a TypeError (Python 3).  The gate has four legs
(the assertion on `gate.shape` is the type). -/
def MPS.applyTwoSiteGate (O : LinAlg) (m : MPS) (g : Gate2) (site : ℤ) (Dmax : Option ℕ := none)
    (thresh : ℝ := 1e-16) : Res (ℝ × ℕ × MPS) :=
  if ¬ (site < (m.N : ℤ) - 1) then .error .assertion
  else
    match m.position O (site + 1) with
    | .error e => .error e
    | .ok m1 =>
      match m1.tensor site true with
      | .error e => .error e
      | .ok (T, m2) =>
        match getZ m2.tensors (site + 1) with
        | .error e => .error e
        | .ok t =>
          if ¬ (T.r = t.l ∧ T.d = g.a ∧ t.d = g.b) then .error .value
          else
            let M := twoSiteMat T t g
            let U := (O.svd M).1
            let S := (O.svd M).2.1
            let V := (O.svd M).2.2
            match Dmax with
            | none => .error .type
            | some D =>
              let k := min (S.filter (fun x => decide (x > thresh))).length D
              let tw := ((S.drop k).map (fun x => x ^ 2)).sum
              match normalise (S.take k) with
              | .error e => .error e
              | .ok s =>
                match setZ m2.tensors site ⟨T.l, min k U.c, g.a', fun i a x => U.v (i * g.a' + x) a⟩ with
                | .error e => .error e
                | .ok ts =>
                  match setZ ts (site + 1) ⟨min k V.r, t.r, g.b', fun a j y => V.v a (y * t.r + j)⟩ with
                  | .error e => .error e
                  | .ok ts' => .ok (tw, s.length, { m2 with tensors := ts', mat := diagMat s })

/-- `MPS.__truncate__`, lib/mpslib/mps.py:995-1014.  The branch for infinite systems
(`regaugeIMPS` and `regauge`) is the parameter `inf`. -/
def MPS.truncate (O : LinAlg) (inf : MPS → Res MPS) (m : MPS) (schmidt_thresh : ℝ)
    (D : Option ℕ := none) : Res MPS :=
  if (match D with | some D => decide (D > m.Dmax) | none => false) then .ok m
  else if m.obc then
    match m.position O 0 with
    | .error e => .error e
    | .ok m1 =>
      match m1.position O m1.N with
      | .error e => .error e
      | .ok m2 => m2.position O 0 schmidt_thresh D
  else inf m

/-! ## Specifications -/

/-- Spec: action of a one-site gate (convention `g[in,out]`) at site `n` on a wave function. -/
def act1 (n d : ℕ) (g : ℕ → ℕ → ℂ) (ψ : List ℕ → ℂ) (s : List ℕ) : ℂ :=
  ∑ x ∈ range d, ψ (s.set n x) * g x (s.getD n 0)

/-- Spec: action of a two-site gate (convention `g[in1,in2,out1,out2]`) at sites `n,n+1`. -/
def act2 (n d d' : ℕ) (g : ℕ → ℕ → ℕ → ℕ → ℂ) (ψ : List ℕ → ℂ) (s : List ℕ) : ℂ :=
  ∑ x ∈ range d, ∑ y ∈ range d', ψ ((s.set n x).set (n + 1) y) * g x y (s.getD n 0) (s.getD (n + 1) 0)

/-! ## Lemmas -/

theorem gate1_eq {t t' : Ten ℂ} {g : Mat ℂ} (h : t.gate1 g = .ok t') :
    t.d = g.r ∧ t' = ⟨t.l, t.r, g.c, fun i j y => ∑ x ∈ range t.d, t.v i j x * g.v x y⟩ := by
  unfold Ten.gate1 at h
  split_ifs at h with h1
  cases h; exact ⟨h1, rfl⟩

theorem chain_gate1 {t t' : Ten ℂ} {g : Mat ℂ} (h : t.gate1 g = .ok t') (A B : List (Ten ℂ))
    (sA : List ℕ) (hs : sA.length = A.length) (y : ℕ) (sB : List ℕ) (i j : ℕ) :
    chain (A ++ t' :: B) (sA ++ y :: sB) i j
      = ∑ x ∈ range t.d, chain (A ++ t :: B) (sA ++ x :: sB) i j * g.v x y := by
  obtain ⟨-, rfl⟩ := gate1_eq h
  induction A generalizing sA i with
  | nil =>
    have : sA = [] := List.length_eq_zero_iff.mp hs
    subst this
    simp only [List.nil_append, chain]
    simp_rw [sum_mul]
    rw [sum_comm]
    apply sum_congr rfl; intro x _
    apply sum_congr rfl; intro k _
    ring
  | cons a A ih =>
    cases sA with
    | nil => simp at hs
    | cons z sA =>
      simp only [List.cons_append, chain]
      simp_rw [sum_mul]
      rw [sum_comm]
      apply sum_congr rfl; intro k _
      rw [ih sA (by simpa using hs), mul_sum]
      apply sum_congr rfl; intro x _
      ring

/-- The tensor list around the bond to the right of site `n`. -/
theorem split_at (ts : List (Ten ℂ)) {n : ℕ} (hn : n < ts.length) :
    ∃ A t B, ts = A ++ t :: B ∧ A.length = n :=
  ⟨ts.take n, ts[n], ts.drop (n + 1), by rw [← List.drop_eq_getElem_cons hn, List.take_append_drop],
    by simp; omega⟩

theorem cfg_split_at {A B : List (Ten ℂ)} {t : Ten ℂ} {s : List ℕ} (h : Cfg (A ++ t :: B) s) :
    ∃ sA x sB, s = sA ++ x :: sB ∧ sA.length = A.length ∧ Cfg A sA ∧ x < t.d ∧ Cfg B sB := by
  obtain ⟨sA, sB, rfl, h1, h2⟩ := cfg_split h
  cases h2 with
  | cons hx hr => exact ⟨sA, _, _, rfl, cfg_length h1, h1, hx, hr⟩

theorem cfg_join {A B : List (Ten ℂ)} {t : Ten ℂ} {sA sB : List ℕ} {x : ℕ} (h1 : Cfg A sA)
    (hx : x < t.d) (h2 : Cfg B sB) : Cfg (A ++ t :: B) (sA ++ x :: sB) :=
  cfg_append h1 (List.Forall₂.cons hx h2)

theorem act1_append {n d : ℕ} {g : ℕ → ℕ → ℂ} {ψ : List ℕ → ℂ} {sA sB : List ℕ} {y : ℕ}
    (h : sA.length = n) :
    act1 n d g ψ (sA ++ y :: sB) = ∑ x ∈ range d, ψ (sA ++ x :: sB) * g x y := by
  subst h; unfold act1; simp [List.getD_eq_getElem?_getD]

theorem act2_append {n d d' : ℕ} {g : ℕ → ℕ → ℕ → ℕ → ℂ} {ψ : List ℕ → ℂ} {sA sB : List ℕ} {x y : ℕ}
    (h : sA.length = n) :
    act2 n d d' g ψ (sA ++ x :: y :: sB)
      = ∑ x' ∈ range d, ∑ y' ∈ range d', ψ (sA ++ x' :: y' :: sB) * g x' y' x y := by
  subst h; unfold act2; simp [List.getD_eq_getElem?_getD]

theorem pyIdx_nat {L n : ℕ} (h : n < L) : pyIdx L (n : ℤ) = some n := by
  unfold pyIdx; rw [if_pos (by omega), if_pos (by omega)]; simp

theorem setZ_nat {ts : List (Ten ℂ)} {n : ℕ} (h : n < ts.length) (t : Ten ℂ) :
    setZ ts (n : ℤ) t = .ok (ts.set n t) := by unfold setZ; rw [pyIdx_nat h]

theorem getZ_nat {ts : List (Ten ℂ)} {n : ℕ} (h : n < ts.length) :
    getZ ts (n : ℤ) = .ok ts[n] := by
  unfold getZ; rw [pyIdx_nat h]; simp [getT, List.getElem?_eq_getElem h]

/-- `tensor(pos-1,clear=True)` on a well-formed object. -/
theorem tensor_left {m : MPS} {l r n : ℕ} (hw : m.WF l r) (hp : m.pos = n + 1)
    {A B : List (Ten ℂ)} {t : Ten ℂ} (hts : m.tensors = A ++ t :: B) (hA : A.length = n) (c : Bool) :
    ∃ t', absorbR t m.mat = .ok t' ∧
      m.tensor (n : ℤ) c = .ok (t', if c then { m with mat := eyeNormed t.r } else m) ∧
      Linked l A t.l ∧ t.r = m.mat.r ∧ Linked m.mat.c B r := by
  have hL := hw.left
  have hR := hw.right
  have h1 : m.tensors.take m.pos = A ++ [t] := by
    rw [hts, hp, ← hA]; rw [show A ++ t :: B = (A ++ [t]) ++ B by simp]
    rw [show A.length + 1 = (A ++ [t]).length by simp, List.take_left]
  have h2 : m.tensors.drop m.pos = B := by
    rw [hts, hp, ← hA]; rw [show A ++ t :: B = (A ++ [t]) ++ B by simp]
    rw [show A.length + 1 = (A ++ [t]).length by simp, List.drop_left]
  rw [h1, linked_append] at hL
  rw [h2] at hR
  obtain ⟨k, hk, rfl, hr⟩ := hL
  have hr : t.r = m.mat.r := hr
  have hab := absorbR_ok (m := m.mat) (t := t) hr
  refine ⟨_, hab, ?_, hk, hr, hR⟩
  unfold MPS.tensor
  rw [if_neg (by omega), if_pos (by omega)]
  have hn : n < m.tensors.length := by rw [hts]; simp; omega
  have : getZ m.tensors (n : ℤ) = .ok t := by
    rw [getZ_nat hn]
    congr 1
    simp only [hts]
    rw [List.getElem_append_right (by omega)]
    simp [hA]
  rw [this]
  simp only [hab]

end

end PyTeN
