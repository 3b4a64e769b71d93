import Verif.Chain
import Mathlib.Analysis.Complex.Basic
import Mathlib.Analysis.SpecialFunctions.Complex.Arg

/-!
# External linear algebra and the tensor factorisations of `mpsfunctions.py`

`np.linalg.qr` and `np.linalg.svd` are parameters (`LinAlg`), with their documented behaviour as a
contract (`LinAlg.Spec`).  Everything built on top of them is modelled.
-/

namespace PyTeN
open Finset

noncomputable section

/-- The external routines `np.linalg.qr(mat)` (reduced mode) and
`np.linalg.svd(mat, full_matrices=False)`. -/
structure LinAlg where
  qr : Mat ℂ → Mat ℂ × Mat ℂ
  svd : Mat ℂ → Mat ℂ × List ℝ × Mat ℂ

/-- Documented contract of `np.linalg.qr` in reduced mode (triangularity is not needed). -/
structure QRSpec (A q r : Mat ℂ) : Prop where
  q_r : q.r = A.r
  q_c : q.c = min A.r A.c
  r_r : r.r = min A.r A.c
  r_c : r.c = A.c
  prod : ∀ i < A.r, ∀ j < A.c, ∑ k ∈ range (min A.r A.c), q.v i k * r.v k j = A.v i j
  iso : ∀ k < min A.r A.c, ∀ k' < min A.r A.c,
    ∑ i ∈ range A.r, star (q.v i k) * q.v i k' = delta ℂ k k'

/-- Documented contract of `np.linalg.svd(.., full_matrices=False)`: singular values are
non-negative and in descending order. -/
structure SVDSpec (A u : Mat ℂ) (s : List ℝ) (v : Mat ℂ) : Prop where
  u_r : u.r = A.r
  u_c : u.c = min A.r A.c
  len : s.length = min A.r A.c
  v_r : v.r = min A.r A.c
  v_c : v.c = A.c
  nonneg : ∀ x ∈ s, 0 ≤ x
  sorted : s.Pairwise (· ≥ ·)
  prod : ∀ i < A.r, ∀ j < A.c,
    ∑ k ∈ range (min A.r A.c), u.v i k * ((s.getD k 0 : ℝ) : ℂ) * v.v k j = A.v i j
  isoU : ∀ k < min A.r A.c, ∀ k' < min A.r A.c,
    ∑ i ∈ range A.r, star (u.v i k) * u.v i k' = delta ℂ k k'
  isoV : ∀ k < min A.r A.c, ∀ k' < min A.r A.c,
    ∑ j ∈ range A.c, v.v k j * star (v.v k' j) = delta ℂ k k'

/-- The contract on the external routines, part of the trusted base. -/
structure LinAlg.Spec (O : LinAlg) : Prop where
  qr : ∀ A, QRSpec A (O.qr A).1 (O.qr A).2
  svd : ∀ A, SVDSpec A (O.svd A).1 (O.svd A).2.1 (O.svd A).2.2

/-- `np.linalg.norm(mat)`: Frobenius norm. -/
def normF (m : Mat ℂ) : ℝ :=
  Real.sqrt (∑ i ∈ range m.r, ∑ j ∈ range m.c, Complex.normSq (m.v i j))

/-- `np.linalg.norm(s)` of a vector of reals. -/
def norm2 (s : List ℝ) : ℝ := Real.sqrt ((s.map (fun x => x ^ 2)).sum)

/-- `np.diag(s)`. -/
def diagMat (s : List ℝ) : Mat ℂ :=
  ⟨s.length, s.length, fun i j => if i = j then ((s.getD i 0 : ℝ) : ℂ) else 0⟩

/-- `A.dot(B)` for matrices (shapes are checked by the callers' contracts). -/
def Mat.dot (A B : Mat ℂ) : Mat ℂ :=
  ⟨A.r, B.c, fun i j => ∑ k ∈ range A.c, A.v i k * B.v k j⟩

/-- `np.eye(n)`. -/
def eye (n : ℕ) : Mat ℂ := ⟨n, n, fun i j => delta ℂ i j⟩

/-- `np.tensordot(mat, tensor, ([1],[0]))`, raising ValueError on a shape mismatch;
used in lib/mpslib/mps.py:750, 762, 1033. -/
def absorbL (m : Mat ℂ) (t : Ten ℂ) : Res (Ten ℂ) :=
  if m.c = t.l then
    .ok ⟨m.r, t.r, t.d, fun i j s => ∑ k ∈ range t.l, m.v i k * t.v k j s⟩
  else .error .value

/-- `np.transpose(np.tensordot(tensor, mat, ([1],[0])), (0,2,1))`;
used in lib/mpslib/mps.py:765, 777, 1040. -/
def absorbR (t : Ten ℂ) (m : Mat ℂ) : Res (Ten ℂ) :=
  if t.r = m.r then
    .ok ⟨t.l, m.c, t.d, fun i j s => ∑ k ∈ range t.r, t.v i k s * m.v k j⟩
  else .error .value

/-- The option `fixphase` of `prepareTensor` (lib/mpslib/mpsfunctions.py:731-736). -/
inductive FixPhase | none | r | q
  deriving DecidableEq

/-- `np.exp(-1j*np.angle(z))`. -/
def unphase (z : ℂ) : ℂ := Complex.exp (-(Complex.I * Complex.arg z))

/-- The phase fixing of lib/mpslib/mpsfunctions.py:750-759 and 771-781. -/
def fixQR (f : FixPhase) (q r : Mat ℂ) : Mat ℂ × Mat ℂ :=
  match f with
  | .none => (q, r)
  | .r =>
    (⟨q.r, q.c, fun i k => q.v i k * star (unphase (r.v k k))⟩,
     ⟨r.r, r.c, fun k j => unphase (r.v k k) * r.v k j⟩)
  | .q =>
    (⟨q.r, q.c, fun i k => q.v i k * unphase (q.v k k)⟩,
     ⟨r.r, r.c, fun k j => star (unphase (q.v k k)) * r.v k j⟩)

/-- Scale a matrix by the inverse of a real number (`r/=Z`). -/
def Mat.divR (m : Mat ℂ) (z : ℝ) : Mat ℂ := ⟨m.r, m.c, fun i j => m.v i j / (z : ℂ)⟩

/-- `np.reshape(np.transpose(tensor,(2,0,1)),(d*l1,l2))`, mpsfunctions.py:747 (C order: row
index is `s*l1+i`). -/
def Ten.rowMat (t : Ten ℂ) : Mat ℂ :=
  ⟨t.d * t.l, t.r, fun a j => t.v (a % t.l) j (a / t.l)⟩

/-- `np.conjugate(np.transpose(np.reshape(tensor,(l1,d*l2),order='F'),(1,0)))`,
mpsfunctions.py:768 (F order: column index is `j+l2*s`). -/
def Ten.colMatH (t : Ten ℂ) : Mat ℂ :=
  ⟨t.d * t.r, t.l, fun c i => star (t.v i (c % t.r) (c / t.r))⟩

/-- `prepareTensor(tensor,direction=1,fixphase)`, lib/mpslib/mpsfunctions.py:731-765:
left-orthonormal factor, normalised bond matrix and norm.  Division by a zero norm (NaN in numpy)
is reported as `.nan`; so is the IndexError of line 743 for an empty tensor. -/
def prepareTensorR (O : LinAlg) (f : FixPhase) (t : Ten ℂ) : Res (Ten ℂ × Mat ℂ × ℝ) :=
  let q := (fixQR f (O.qr t.rowMat).1 (O.qr t.rowMat).2).1
  let r := (fixQR f (O.qr t.rowMat).1 (O.qr t.rowMat).2).2
  let Z := normF r
  if Z = 0 then .error .nan else
  .ok (⟨t.l, q.c, t.d, fun i k s => q.v (s * t.l + i) k⟩, r.divR Z, Z)

/-- `prepareTensor(tensor,direction=-1,fixphase)`, lib/mpslib/mpsfunctions.py:767-790. -/
def prepareTensorL (O : LinAlg) (f : FixPhase) (t : Ten ℂ) : Res (Ten ℂ × Mat ℂ × ℝ) :=
  let q := (fixQR f (O.qr t.colMatH).1 (O.qr t.colMatH).2).1
  let r_ := (fixQR f (O.qr t.colMatH).1 (O.qr t.colMatH).2).2
  let r : Mat ℂ := ⟨r_.c, r_.r, fun i k => star (r_.v k i)⟩
  let Z := normF r
  if Z = 0 then .error .nan else
  .ok (⟨q.c, t.r, t.d, fun k j s => star (q.v (s * t.r + j) k)⟩, r.divR Z, Z)

/-- `prepareTensor(tensor,direction,fixphase)`: `direction=0` is an AssertionError
(mpsfunctions.py:741). -/
def prepareTensor (O : LinAlg) (t : Ten ℂ) (direction : ℤ) (f : FixPhase := .none) :
    Res (Ten ℂ × Mat ℂ × ℝ) :=
  if direction = 0 then .error .assertion
  else if direction > 0 then prepareTensorR O f t
  else prepareTensorL O f t

/-- `s/=np.linalg.norm(s)`: nothing happens on an empty vector, NaN on a zero vector. -/
def normalise (s : List ℝ) : Res (List ℝ) :=
  if s = [] then .ok []
  else if norm2 s = 0 then .error .nan
  else .ok (s.map (· / norm2 s))

/-- Truncation of the singular values in `prepareTruncate`, mpsfunctions.py:679-694 and 709-725:
threshold filter (only if `thresh>1E-16`), then hard cut-off `D`. -/
def truncS (s : List ℝ) (D : Option ℕ) (thresh : ℝ) : List ℝ :=
  let s' := if thresh > 1e-16 then s.filter (fun x => decide (x > thresh)) else s
  match D with
  | some D => s'.take (min D s'.length)
  | none => s'

/-- `prepareTruncate(tensor,direction=1,D,thresh)`, lib/mpslib/mpsfunctions.py:645-697, returning
`out,s,v,Z`.  The LinAlgError fallback (a retry through qr) is not modelled. -/
def prepareTruncateR (O : LinAlg) (t : Ten ℂ) (D : Option ℕ) (thresh : ℝ) :
    Res (Ten ℂ × List ℝ × Mat ℂ × ℝ) :=
  let U := (O.svd t.rowMat).1
  let S := (O.svd t.rowMat).2.1
  let V := (O.svd t.rowMat).2.2
  let Z := norm2 S
  let s := truncS S D thresh
  let k := s.length
  match normalise s with
  | .error e => .error e
  | .ok s' =>
    .ok (⟨t.l, min k U.c, t.d, fun i a x => U.v (x * t.l + i) a⟩, s',
      ⟨min k V.r, V.c, V.v⟩, Z)

/-- `np.reshape(tensor,(l1,d*l2))`, mpsfunctions.py:699 (C order: column index is `j*d+s`). -/
def Ten.colMat (t : Ten ℂ) : Mat ℂ :=
  ⟨t.l, t.d * t.r, fun i c => t.v i (c / t.d) (c % t.d)⟩

/-- `prepareTruncate(tensor,direction=-1,D,thresh)`, lib/mpslib/mpsfunctions.py:698-728, returning
`u,s,out,Z`. -/
def prepareTruncateL (O : LinAlg) (t : Ten ℂ) (D : Option ℕ) (thresh : ℝ) :
    Res (Mat ℂ × List ℝ × Ten ℂ × ℝ) :=
  let U := (O.svd t.colMat).1
  let S := (O.svd t.colMat).2.1
  let V := (O.svd t.colMat).2.2
  let Z := norm2 S
  let s := truncS S D thresh
  let k := s.length
  match normalise s with
  | .error e => .error e
  | .ok s' =>
    .ok (⟨U.r, min k U.c, U.v⟩, s', ⟨min k V.r, t.r, t.d, fun a j x => V.v a (j * t.d + x)⟩, Z)

end

end PyTeN
