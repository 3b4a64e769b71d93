import Verif.Basic

/-! # The class of matrix product operators -/

namespace PyTeN.MpoObj

section
variable {K : Type*}

/-- An object of the class `MPO`, lib/mpslib/Hamiltonians.py:13-23, and of classes derived from it: the attributes `_mpo`, `_N` and, for
derived classes only, `_dtype` (`true` for complex). -/
structure Obj (K : Type*) where
  mpo : List (Mpo K)
  N : ℕ
  dtype : Option Bool

/-- `MPO.__init__(mpos)`, lib/mpslib/Hamiltonians.py:20-23.  The deep copy is a value. -/
def init (mpos : List (Mpo K)) : Obj K := ⟨mpos, mpos.length, none⟩

/-- `MPO.fromlist(mpolist)`, lib/mpslib/Hamiltonians.py:30-32. -/
def fromlist (l : List (Mpo K)) : Obj K := init l

/-- The list which an attribute of an object, given by its name, refers to; the constructor sets `_mpo` only
(lib/mpslib/Hamiltonians.py:22), and so do those of the derived classes. -/
def attr (o : Obj K) (name : String) : Res (List (Mpo K)) :=
  if name = "_mpo" then .ok o.mpo else .error .attribute

/-- `MPO.fromMPO(other)`, lib/mpslib/Hamiltonians.py:25-28. -/
def fromMPO (o : Obj K) : Res (Obj K) :=
  match attr o "_mpolist" with
  | .error e => .error e
  | .ok l => .ok (init l)

/-- A Python index of a list of length `n` (lib/mpslib/Hamiltonians.py:80, 83).  Slices are not modelled. -/
def index (n : ℕ) (i : ℤ) : Res ℕ :=
  if 0 ≤ i then (if i.toNat < n then .ok i.toNat else .error .index)
  else if 0 ≤ i + n then .ok (i + n).toNat
  else .error .index

/-- `MPO.__getitem__(n)`, lib/mpslib/Hamiltonians.py:79-80. -/
def getItem (o : Obj K) (i : ℤ) : Res (Mpo K) :=
  match index o.mpo.length i with
  | .error e => .error e
  | .ok k =>
    match o.mpo[k]? with
    | some W => .ok W
    | none => .error .index

/-- `MPO.__setitem__(n,tensor)`, lib/mpslib/Hamiltonians.py:82-83. -/
def setItem (o : Obj K) (i : ℤ) (W : Mpo K) : Res (Obj K) :=
  match index o.mpo.length i with
  | .error e => .error e
  | .ok k => .ok { o with mpo := o.mpo.set k W }

/-- `MPO.__len__()`, lib/mpslib/Hamiltonians.py:85-86. -/
def len (o : Obj K) : ℕ := o.mpo.length

/-- The property `dtype`, lib/mpslib/Hamiltonians.py:88-90. -/
def dtype (o : Obj K) : Res Bool :=
  match o.dtype with
  | some t => .ok t
  | none => .error .attribute

/-- A sequence of assignments `mpo[i]=W`, lib/mpslib/Hamiltonians.py:82-83. -/
def assign (o : Obj K) : List (ℤ × Mpo K) → Res (Obj K)
  | [] => .ok o
  | (i, W) :: l =>
    match setItem o i W with
    | .error e => .error e
    | .ok o' => assign o' l

end

end PyTeN.MpoObj
