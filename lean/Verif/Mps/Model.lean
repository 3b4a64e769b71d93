import Verif.Mps.LinAlg

/-!
# Model of the class `MPS` (lib/mpslib/mps.py): data, construction and `__position__`
-/

namespace PyTeN
open Finset

noncomputable section

/-- The fields of an `MPS` object, lib/mpslib/mps.py:92-125 (`_N,_D,_obc,_schmidt_thresh,_r_thresh,
_tensors,_mat,_connector,_position,_Z`).  Simplified: `_dtype` is dropped (exact arithmetic), `_d`
is recomputed from the tensors, `_gamma/_lambda` are only used by `canonize`. -/
structure MPS where
  N : ℕ
  Dmax : ℕ
  obc : Bool
  sth : ℝ
  rth : ℝ
  tensors : List (Ten ℂ)
  mat : Mat ℂ
  conn : Mat ℂ
  pos : ℕ
  Z : ℂ

/-- `max(np.shape(x))` of an MPS tensor. -/
def Ten.maxDim (t : Ten ℂ) : ℕ := max t.l (max t.r t.d)

/-- `MPS.__init__`, lib/mpslib/mps.py:92-125.  An empty list makes `max([])` fail (ValueError). -/
def MPS.init (tensors : List (Ten ℂ)) (sth rth : ℝ) : Res MPS :=
  match tensors.head?, tensors.getLast? with
  | some a, some b =>
    .ok {
      N := tensors.length
      Dmax := (tensors.map Ten.maxDim).foldl max 0
      obc := decide (a.l = 1) && decide (b.r = 1)
      sth := sth
      rth := rth
      tensors := tensors
      mat := ⟨b.r, b.r, fun i j => delta ℂ i j / (Real.sqrt b.r : ℂ)⟩
      conn := ⟨b.r, b.r, fun i j => if i = j then 1 / (1 / (Real.sqrt b.r : ℂ)) else 0⟩
      pos := tensors.length
      Z := -1e10 }
  | _, _ => .error .value

/-- `self._tensors[n]` with an index known to be a natural number; IndexError outside. -/
def getT (ts : List (Ten ℂ)) (n : ℕ) : Res (Ten ℂ) :=
  match ts[n]? with
  | some t => .ok t
  | none => .error .index

/-- Working state of the loops in `__position__`: tensors, centre matrix, norm factor. -/
structure Sweep where
  ts : List (Ten ℂ)
  mat : Mat ℂ
  Z : ℂ

/-- Factorisation used by `__position__` when moving right: either `prepareTensor(.,1)` or
`prepareTruncate(.,1)` with `mat = diag(s).dot(v)`; lib/mpslib/mps.py:752-758. -/
def cutR (O : LinAlg) (sth : ℝ) (D : Option ℕ) (t : Ten ℂ) : Res (Ten ℂ × Mat ℂ × ℝ) :=
  if sth < 1e-15 ∧ D = none then prepareTensor O t 1
  else match prepareTruncateR O t D sth with
    | .error e => .error e
    | .ok (out, s, v, Z) => .ok (out, (diagMat s).dot v, Z)

/-- Factorisation used by `__position__` when moving left; lib/mpslib/mps.py:767-773. -/
def cutL (O : LinAlg) (sth : ℝ) (D : Option ℕ) (t : Ten ℂ) : Res (Ten ℂ × Mat ℂ × ℝ) :=
  if sth < 1e-15 ∧ D = none then prepareTensor O t (-1)
  else match prepareTruncateL O t D sth with
    | .error e => .error e
    | .ok (u, s, out, Z) => .ok (out, u.dot (diagMat s), Z)

/-- `for n in range(n, bond)` of lib/mpslib/mps.py:751-762; `k = bond - n` iterations are left. -/
def sweepR (cut : Ten ℂ → Res (Ten ℂ × Mat ℂ × ℝ)) (bond : ℕ) : ℕ → ℕ → Sweep → Res Sweep
  | 0, _, w => .ok w
  | k + 1, n, w =>
    match getT w.ts n with
    | .error e => .error e
    | .ok t =>
      match cut t with
      | .error e => .error e
      | .ok (a, m, z) =>
        let ts := w.ts.set n a
        let Z := w.Z * (z : ℂ)
        if n + 1 < bond then
          match getT ts (n + 1) with
          | .error e => .error e
          | .ok t1 =>
            match absorbL m t1 with
            | .error e => .error e
            | .ok t1' => sweepR cut bond k (n + 1) ⟨ts.set (n + 1) t1', m, Z⟩
        else sweepR cut bond k (n + 1) ⟨ts, m, Z⟩

/-- `for n in range(n, bond-1, -1)` of lib/mpslib/mps.py:766-777; `k = n+1 - bond` iterations are
left and the current site is `bond + k - 1`. -/
def sweepL (cut : Ten ℂ → Res (Ten ℂ × Mat ℂ × ℝ)) (bond : ℕ) : ℕ → Sweep → Res Sweep
  | 0, w => .ok w
  | k + 1, w =>
    let n := bond + k
    match getT w.ts n with
    | .error e => .error e
    | .ok t =>
      match cut t with
      | .error e => .error e
      | .ok (a, m, z) =>
        let ts := w.ts.set n a
        let Z := w.Z * (z : ℂ)
        if n > bond then
          match getT ts (n - 1) with
          | .error e => .error e
          | .ok t1 =>
            match absorbR t1 m with
            | .error e => .error e
            | .ok t1' => sweepL cut bond k ⟨ts.set (n - 1) t1', m, Z⟩
        else sweepL cut bond k ⟨ts, m, Z⟩

/-- The threshold actually used by `__position__`, lib/mpslib/mps.py:738-741. -/
def MPS.effSth (m : MPS) (schmidt_thresh : ℝ) : ℝ :=
  if schmidt_thresh > 1e-15 then schmidt_thresh else m.sth

/-- `MPS.__position__(bond,schmidt_thresh,D)`, lib/mpslib/mps.py:711-778.  The argument `r_thresh`
only matters in a fallback of the svd that is not modelled.  The method mutates the object; the
model returns the new object. -/
def MPS.position (O : LinAlg) (m : MPS) (bond : ℤ) (schmidt_thresh : ℝ := 1e-16)
    (D : Option ℕ := none) : Res MPS :=
  if ¬ (bond ≤ m.N) then .error .assertion
  else if ¬ (bond ≥ 0) then .error .assertion
  else
    let sth := m.effSth schmidt_thresh
    let b := bond.toNat
    if b = m.pos then .ok m
    else if b > m.pos then
      match getT m.tensors m.pos with
      | .error e => .error e
      | .ok t =>
        match absorbL m.mat t with
        | .error e => .error e
        | .ok t' =>
          match sweepR (cutR O sth D) b (b - m.pos) m.pos ⟨m.tensors.set m.pos t', m.mat, m.Z⟩ with
          | .error e => .error e
          | .ok w => .ok { m with tensors := w.ts, mat := w.mat, Z := w.Z, pos := b }
    else
      match getT m.tensors (m.pos - 1) with
      | .error e => .error e
      | .ok t =>
        match absorbR t m.mat with
        | .error e => .error e
        | .ok t' =>
          match sweepL (cutL O sth D) b (m.pos - b)
              ⟨m.tensors.set (m.pos - 1) t', m.mat, m.Z⟩ with
          | .error e => .error e
          | .ok w => .ok { m with tensors := w.ts, mat := w.mat, Z := w.Z, pos := b }

/-- A sequence of `position` calls. -/
def MPS.positions (O : LinAlg) (m : MPS) : List ℤ → Res MPS
  | [] => .ok m
  | b :: bs =>
    match m.position O b with
    | .error e => .error e
    | .ok m' => m'.positions O bs

/-! ## Specification of the represented state -/

/-- Spec: matrix element `(i,j)` (outer bond indices) of the represented state on configuration
`s`: `Z` times the product of all tensors with the centre matrix inserted at the position. -/
def MPS.amp (m : MPS) (s : List ℕ) (i j : ℕ) : ℂ :=
  m.Z * ∑ k ∈ range m.mat.r, ∑ k' ∈ range m.mat.c,
    chain (m.tensors.take m.pos) (s.take m.pos) i k * m.mat.v k k' *
      chain (m.tensors.drop m.pos) (s.drop m.pos) k' j

/-- Spec: the object is well formed with outer bond dimensions `l` and `r`. -/
structure MPS.WF (m : MPS) (l r : ℕ) : Prop where
  len : m.tensors.length = m.N
  pos_le : m.pos ≤ m.N
  left : Linked l (m.tensors.take m.pos) m.mat.r
  right : Linked m.mat.c (m.tensors.drop m.pos) r

/-- Spec: local dimensions. -/
def MPS.ds (m : MPS) : List ℕ := m.tensors.map Ten.d

/-- Spec: left-orthonormal tensor. -/
def LeftOrth (t : Ten ℂ) : Prop :=
  ∀ j < t.r, ∀ j' < t.r,
    ∑ s ∈ range t.d, ∑ i ∈ range t.l, star (t.v i j s) * t.v i j' s = delta ℂ j j'

/-- Spec: right-orthonormal tensor. -/
def RightOrth (t : Ten ℂ) : Prop :=
  ∀ i < t.l, ∀ i' < t.l,
    ∑ s ∈ range t.d, ∑ j ∈ range t.r, t.v i j s * star (t.v i' j s) = delta ℂ i i'

end

end PyTeN
