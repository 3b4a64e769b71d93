import Verif.Env.More
import Verif.Env.Transfer
import Mathlib.Analysis.Complex.Basic

/-! # The effective Hamiltonian of a nearest-neighbour interaction -/

namespace PyTeN.PairH
open Finset Transfer

noncomputable section

/-- `np.eye(D)`. -/
def eyeD (D : ℕ) : Mat ℂ := ⟨D, D, fun i j => if i = j then 1 else 0⟩

/-- `np.transpose(np.tensordot(np.tensordot(L,mps,([0],[0])),mpo[1],([1,3],[0,2])),(0,1,3,2))[:,:,:,0]`,
lib/mpslib/mpsfunctions.py:2806-2807. -/
def leftPair (L : Env ℂ) (X : Ten ℂ) (W : Mpo ℂ) : Res (Ten ℂ) :=
  if L.u = X.l ∧ L.m = W.l ∧ X.d = W.din then
    if W.r = 0 then .error .index
    else .ok ⟨L.w, X.r, W.dout, fun i j t => ∑ m ∈ range L.m, ∑ s ∈ range X.d, (∑ k ∈ range L.u, L.v k i m * X.v k j s) * W.v m 0 s t⟩
  else .error .value

/-- `np.transpose(np.tensordot(np.tensordot(mps,R,([1],[0])),mpo[0],([3,1],[1,2])),(0,1,3,2))[:,:,:,0]`,
lib/mpslib/mpsfunctions.py:2810-2811. -/
def rightPair (X : Ten ℂ) (R : Env ℂ) (W : Mpo ℂ) : Res (Ten ℂ) :=
  if X.r = R.u ∧ R.m = W.r ∧ X.d = W.din then
    if W.l = 0 then .error .index
    else .ok ⟨X.l, R.w, W.dout, fun i j t => ∑ m ∈ range R.m, ∑ s ∈ range X.d, (∑ k ∈ range R.u, X.v i k s * R.v k j m) * W.v 0 m s t⟩
  else .error .value

/-- `term1+term2+term3+term4` of arrays of one shape; numpy's broadcasting of axes of length one is not modelled (ValueError). -/
def addTen (a b : Ten ℂ) : Res (Ten ℂ) :=
  if a.l = b.l ∧ a.r = b.r ∧ a.d = b.d then .ok ⟨a.l, a.r, a.d, fun i j s => a.v i j s + b.v i j s⟩ else .error .value

/-- `LiebLinigerHAproduct(Hl,mpo,Hr,A,mps,B)`, lib/mpslib/mpsfunctions.py:2801-2813. -/
def liebLinigerHAproduct (Hl : Mat ℂ) (W0 W1 : Mpo ℂ) (Hr : Mat ℂ) (A X B : Ten ℂ) : Res (Ten ℂ) :=
  if Hl.r ≠ X.l then .error .value
  else if X.r ≠ Hr.r then .error .value
  else
    let t1 : Ten ℂ := ⟨Hl.c, X.r, X.d, fun i j s => ∑ k ∈ range Hl.r, Hl.v k i * X.v k j s⟩
    let t2 : Ten ℂ := ⟨X.l, Hr.c, X.d, fun i j s => ∑ k ∈ range X.r, X.v i k s * Hr.v k j⟩
    match initializeLayerR A (eyeD X.l) A W0 with
    | .error e => .error e
    | .ok L =>
      match leftPair L X W1 with
      | .error e => .error e
      | .ok t3 =>
        match initializeLayerL B (eyeD X.l) B W1 with
        | .error e => .error e
        | .ok R =>
          match rightPair X R W0 with
          | .error e => .error e
          | .ok t4 =>
            match addTen t1 t2 with
            | .error e => .error e
            | .ok u =>
              match addTen u t3 with
              | .error e => .error e
              | .ok w => addTen w t4

/-- `np.tensordot(left,right,([0,2],[0,2]))`, lib/mpslib/mpsfunctions.py:2822. -/
def pairEnv (L R : Env ℂ) : Res (Mat ℂ) :=
  if L.u = R.u ∧ L.m = R.m then .ok ⟨L.w, R.w, fun i j => ∑ k ∈ range L.u, ∑ m ∈ range L.m, L.v k i m * R.v k j m⟩ else .error .value

/-- Sum of two matrices of one shape; broadcasting is not modelled. -/
def addMat (a b : Mat ℂ) : Res (Mat ℂ) :=
  if a.r = b.r ∧ a.c = b.c then .ok ⟨a.r, a.c, fun i j => a.v i j + b.v i j⟩ else .error .value

/-- The last term of `tangentSpaceHAproduct`, lib/mpslib/mpsfunctions.py:2827. -/
def kTerm (D : ℕ) (k : Mat ℂ) (X V : Ten ℂ) : Res (Mat ℂ) :=
  match flat k (D * D) with
  | .error e => .error e
  | .ok x =>
    match generalizedMatrixVectorProduct .right (.arr V) (.arr X) x with
    | .error e => .error e
    | .ok y =>
      match reshape2 y D D with
      | .error e => .error e
      | .ok M => .ok ⟨D, D, fun i j => M.v j i⟩

/-- `tangentSpaceHAproduct(kleft,A,B,center,VL,mpo)`, lib/mpslib/mpsfunctions.py:2816-2830; `[:,:,0]` of an empty axis is an
IndexError. -/
def tangentSpaceHAproduct (k : Mat ℂ) (A B X V : Ten ℂ) (W0 W1 : Mpo ℂ) : Res (Mat ℂ) :=
  match initializeLayerR X (eyeD A.l) V W0 with
  | .error e => .error e
  | .ok L =>
    match initializeLayerL B (eyeD A.l) B W1 with
    | .error e => .error e
    | .ok R =>
      match pairEnv L R with
      | .error e => .error e
      | .ok t1 =>
        match initializeLayerR A (eyeD A.l) A W0 with
        | .error e => .error e
        | .ok L' =>
          match addLayerR L' X W1 V with
          | .error e => .error e
          | .ok E =>
            if E.m = 0 then .error .index
            else
              match kTerm A.l k X V with
              | .error e => .error e
              | .ok t3 =>
                match addMat t1 ⟨E.w, E.u, fun i j => E.v j i 0⟩ with
                | .error e => .error e
                | .ok u => addMat u t3

end

end PyTeN.PairH
