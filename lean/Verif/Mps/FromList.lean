import Verif.Mps.Ops

/-! # `MPS.fromList` -/

namespace PyTeN

noncomputable section

open Classical in
/-- `all(mat)`, the condition in lib/mpslib/mps.py:267.  The built-in function iterates over the rows: None raises a TypeError, and a
row with two or more entries has no truth value (ValueError); an empty row counts as false. -/
def allRows : Option (Mat ℂ) → Res Bool
  | none => .error .type
  | some a => if a.r = 0 then .ok true else if 2 ≤ a.c then .error .value else .ok (decide (a.c = 1 ∧ ∀ i < a.r, a.v i 0 ≠ 0))

/-- `MPS.fromList(tensors,mat,schmidt_thresh,r_thresh)`, lib/mpslib/mps.py:249-272.  The condition `all(mat)!=None` is never false; the
sweep to bond 0 and back is that of the other class methods. -/
def MPS.fromList (O : LinAlg) (ts : List (Ten ℂ)) (mat : Option (Mat ℂ)) (sth rth : ℝ) : Res MPS :=
  match MPS.init ts sth rth with
  | .error e => .error e
  | .ok m =>
    match allRows mat with
    | .error e => .error e
    | .ok _ =>
      match ({ m with mat := mat.getD m.mat }).position O 0 with
      | .error e => .error e
      | .ok m1 =>
        match m1.position O m1.N with
        | .error e => .error e
        | .ok m2 => .ok { m2 with Z := 1 }

end

end PyTeN
