import Verif.Engine.Vumps

/-! # `TDVPupdate` (lib/mpslib/mpsfunctions.py)

Entries are complex numbers; the real `dtype` (for which imaginary parts would be dropped on assignment) is not modelled. -/

namespace PyTeN.TdvpInf
open Finset Transfer Regauge Vumps Steady
noncomputable section

/-- External routines: `np.linalg.svd` (in `O`), `lgmres` and its random initial vector, `sp.linalg.sqrtm`,
`np.linalg.pinv(.,rcond=1E-15)` and the numbers of `np.random.rand`. -/
structure Ext where
  O : LinAlg
  solve : Lgmres
  rnd : ℕ → ℂ
  sqrtm : Mat ℂ → Mat ℂ
  pinv : Mat ℂ → Mat ℂ
  rand : ℕ → ℕ → ℝ

/-- `np.reshape(E,(n,n))` for an array of shape `(E.u,E.w,E.m)`, lib/mpslib/mpsfunctions.py:2756, 2783.  Only a last axis of length one is
accepted here: with `E.u = E.w = n` other lengths raise a ValueError (an empty array is not modelled). -/
def squeeze (E : Env ℂ) (n : ℕ) : Res (Mat ℂ) :=
  if E.u = n ∧ E.w = n ∧ E.m = 1 then .ok (slice E 0) else .error .value

/-- `L=np.hstack([L,restmat])`, lib/mpslib/mpsfunctions.py:2765-2767: the rows are `(s,i)`, the first columns those of the tensor, the others
small random numbers. -/
def stacked (rand : ℕ → ℕ → ℝ) (A : Ten ℂ) : Mat ℂ :=
  ⟨A.l * A.d, A.r + A.r * (A.d - 1), fun k c => if c < A.r then A.v (k % A.l) c (k / A.l) else ((rand k (c - A.r) * 0.0001 : ℝ) : ℂ)⟩

/-- `VL=np.transpose(np.reshape(U[:,chi1::],(d,chi1,chi2)),(1,2,0))`, lib/mpslib/mpsfunctions.py:2769-2770; the keyword `full_matrices` of the
wrapper `svd` (127-141) is ignored.  `np.reshape` raises a ValueError if the number of entries is different. -/
def nullTen (O : LinAlg) (rand : ℕ → ℕ → ℝ) (A : Ten ℂ) : Res (Ten ℂ) :=
  let U := (O.svd (stacked rand A)).1
  let n := U.c - A.l
  if U.r * n = A.d * A.l * A.r then
    .ok ⟨A.l, A.r, A.d, fun i j s => U.v (((s * A.l + i) * A.r + j) / n) (A.l + ((s * A.l + i) * A.r + j) % n)⟩
  else .error .value

/-- `np.tensordot(left,right,([0,2],[0,2]))`, lib/mpslib/mpsfunctions.py:2778. -/
def joinLower (L R : Env ℂ) : Res (Mat ℂ) :=
  if L.u = R.u ∧ L.m = R.m then .ok ⟨L.w, R.w, fun a b => ∑ i ∈ range L.u, ∑ m ∈ range L.m, L.v i a m * R.v i b m⟩ else .error .value

/-- `np.transpose(lb).dot(sqrtr)`, lib/mpslib/mpsfunctions.py:2784, 2791. -/
def dotT (M P : Mat ℂ) : Res (Mat ℂ) := if M.r = P.r then .ok ((transp M).dot P) else .error .value

/-- The sum of two matrices; broadcasting is not modelled. -/
def addM (M P : Mat ℂ) : Res (Mat ℂ) :=
  if M.r = P.r ∧ M.c = P.c then .ok ⟨M.r, M.c, fun i j => M.v i j + P.v i j⟩ else .error .value

/-- The first part of `TDVPupdate`, lib/mpslib/mpsfunctions.py:2749-2759: `lb` before it is closed, `h` and `k`.  `TDVPGMRES` (2570-2592)
calls `RENORMBLOCKHAMGMRES` with the momentum 0; `x0=kold` is not used there. -/
def solveK (X : Ext) (r : Mat ℂ) (A : Ten ℂ) (W0 W1 : Mpo ℂ) : Res (Env ℂ × ℂ × Mat ℂ) :=
  andThen (initializeLayerR A (eye A.l) A W0) fun E =>
  andThen (addLayerR E A W1 A) fun E1 =>
  andThen (squeeze E1 A.r) fun lb =>
  andThen (pairMat lb r) fun h =>
  andThen (minusEye lb h A.l) fun inh =>
  andThen (renorm X.solve .right A r (eye A.l) inh X.rnd) fun k => .ok (E, h, k)

/-- The rest of `TDVPupdate`, lib/mpslib/mpsfunctions.py:2760-2797: `xopt` and `Adot`. -/
def assemble (X : Ext) (r : Mat ℂ) (A : Ten ℂ) (W0 WL : Mpo ℂ) (E : Env ℂ) (k : Mat ℂ) : Res (Mat ℂ × Ten ℂ) :=
  let sl := X.sqrtm (eye A.l)
  let il := X.pinv sl
  let sr := X.sqrtm r
  let ir := X.pinv sr
  andThen (nullTen X.O X.rand A) fun VL =>
  andThen (initializeLayerR A sl VL W0) fun left =>
  andThen (absorbL ir A) fun A' =>
  andThen (initializeLayerL A r A' WL) fun right =>
  andThen (joinLower left right) fun term1 =>
  andThen (absorbL il VL) fun VL' =>
  andThen (addLayerR E A WL VL') fun E2 =>
  andThen (squeeze E2 A.l) fun lb2 =>
  andThen (dotT lb2 sr) fun term2 =>
  andThen (flat k (k.r * k.c)) fun kv =>
  andThen (generalizedMatrixVectorProduct .right (.arr VL') (.arr A) kv) fun v3 =>
  andThen (reshape2 v3 A.l A.l) fun lb3 =>
  andThen (dotT lb3 sr) fun term3 =>
  andThen (addM term1 term2) fun t12 =>
  andThen (addM t12 term3) fun x =>
  andThen (absorbR VL' x) fun Y =>
  andThen (absorbR Y ir) fun Adot => .ok (x, Adot)

/-- `TDVPupdate(r,tensor,mpo,kold,tol)`, lib/mpslib/mpsfunctions.py:2735-2798: `Adot`, `h`, `normxopt` and `k`. -/
def tdvpUpdate (X : Ext) (r : Mat ℂ) (A : Ten ℂ) (mpo : List (Mpo ℂ)) : Res (Ten ℂ × ℂ × ℝ × Mat ℂ) :=
  match mpo with
  | W0 :: W1 :: Ws =>
    andThen (solveK X r A W0 W1) fun (E, h, k) =>
    andThen (assemble X r A W0 ((W1 :: Ws).getLast (by simp)) E k) fun (x, Adot) =>
    .ok (Adot, h, Real.sqrt (∑ i ∈ range x.r, ∑ j ∈ range x.c, Complex.normSq (x.v i j)), k)
  | [W0] => andThen (initializeLayerR A (eye A.l) A W0) fun _ => .error .index
  | [] => .error .index

end
end PyTeN.TdvpInf
