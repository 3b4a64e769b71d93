import Verif.Ham.Local
import Mathlib.Tactic.IntervalCases

/-! # Spin Hamiltonians of lib/mpslib/Hamiltonians.py

The constructors are modelled assignment by assignment.  Coupling arrays are lists of complex numbers (the default
`dtype=float` is the special case of real couplings; only `xxzFlipped`, whose entries are complex whatever the
couplings are, looks at the dtype).  `obc` is a boolean. -/

namespace PyTeN
open Finset

set_option linter.unusedSimpArgs false
set_option linter.unnecessarySeqFocus false

noncomputable section

/-! ## TFI -/

/-- `TFI.__init__`, left tensor, lib/mpslib/Hamiltonians.py:180-191. -/
def tfiFirst (J B : ℂ) : Mpo ℂ :=
  ((((((Mpo.zeros 1 3 2).put 0 0 0 0 (-B)).put 0 0 1 1 B).put 0 1 0 1 J).put 0 1 1 0 J).put 0 2 0 0 1).put 0 2 1 1 1

/-- `TFI.__init__`, bulk tensor, lib/mpslib/Hamiltonians.py:194-209 (and 231-246 for `obc=False`). -/
def tfiBulk (J B : ℂ) : Mpo ℂ :=
  (((((((((((Mpo.zeros 3 3 2).put 0 0 0 0 1).put 0 0 1 1 1).put 1 0 1 0 1).put 1 0 0 1 1).put 2 0 0 0 (-B)).put
    2 0 1 1 B).put 2 1 0 1 J).put 2 1 1 0 J).put 2 2 0 0 1).put 2 2 1 1 1)

/-- `TFI.__init__`, right tensor, lib/mpslib/Hamiltonians.py:213-223. -/
def tfiLast (B : ℂ) : Mpo ℂ :=
  ((((((Mpo.zeros 3 1 2).put 0 0 0 0 1).put 0 0 1 1 1).put 1 0 1 0 1).put 1 0 0 1 1).put 2 0 0 0 (-B)).put 2 0 1 1 B

/-- `TFI.__init__(Jx,Bz,obc)`, lib/mpslib/Hamiltonians.py:172-246: the list `self._mpo`. -/
def tfi (Jx Bz : List ℂ) (obc : Bool) : Res (List (Mpo ℂ)) :=
  let site (f : ℂ → ℂ → Mpo ℂ) (n : ℕ) : Res (Mpo ℂ) := do
    let b ← getE Bz n
    let j ← getE Jx n
    return f j b
  if obc then openMpo (site tfiFirst 0) (site tfiBulk) (do return tfiLast (← lastE Bz)) Bz.length
  else if Bz.length = Jx.length then buildE (site tfiBulk) (List.range Bz.length) else .error .assertion

/-! ## TFI_2 -/

/-- `sig_x`, `sig_z` of `TFI_2`, lib/mpslib/Hamiltonians.py:106-107. -/
def sigX : Mat ℂ := ⟨2, 2, fun s t => if s = t then 0 else 1⟩
@[inherit_doc sigX] def sigZ2 : Mat ℂ := ⟨2, 2, fun s t => if s = t then (if s = 0 then -1 else 1) else 0⟩

/-- Scalar times matrix. -/
def Mat.smul' (x : ℂ) (M : Mat ℂ) : Mat ℂ := ⟨M.r, M.c, fun s t => x * M.v s t⟩
/-- Sum of matrices of equal shape. -/
def Mat.add' (M M' : Mat ℂ) : Mat ℂ := ⟨M.r, M.c, fun s t => M.v s t + M'.v s t⟩

/-- `TFI_2.__init__`, bulk tensor, lib/mpslib/Hamiltonians.py:148-161. -/
def tfi2Bulk (J B : ℂ) : Mpo ℂ :=
  (((((Mpo.zeros 3 3 2).blk 0 0 (eyeK ℂ 2)).blk 1 0 sigZ2).blk 2 0 (sigX.smul' B)).blk 2 1 (sigZ2.smul' J)).blk 2 2 (eyeK ℂ 2)

/-- `TFI_2.__init__(Jz,Bx,obc)`, lib/mpslib/Hamiltonians.py:100-162.  For `obc=True` the left tensor reads
`self._Bz`, an attribute that is never set (the field is stored as `self._Bx`). -/
def tfi2 (Jz Bx : List ℂ) (obc : Bool) : Res (List (Mpo ℂ)) :=
  if obc then .error .attribute
  else if Bx.length = Jz.length then
    buildE (fun n => do
      let b ← getE Bx n
      let j ← getE Jz n
      return tfi2Bulk j b) (List.range Bx.length)
  else .error .assertion

/-! ## XXZ -/

/-- `XXZ.__init__`, left tensor, lib/mpslib/Hamiltonians.py:368-385. -/
def xxzFirst (Jz Jxy B : ℂ) : Mpo ℂ :=
  ((((((((Mpo.zeros 1 5 2).put 0 0 0 0 (-0.5 * B)).put 0 0 1 1 (0.5 * B)).put 0 1 0 1 (Jxy / 2 * 1)).put
    0 2 1 0 (Jxy / 2 * 1)).put 0 3 0 0 (Jz * (-0.5))).put 0 3 1 1 (Jz * 0.5)).put 0 4 0 0 1).put 0 4 1 1 1

/-- `XXZ.__init__`, bulk tensor, lib/mpslib/Hamiltonians.py:388-412 (and 437-461 for `obc=False`). -/
def xxzBulk (Jz Jxy B : ℂ) : Mpo ℂ :=
  ((((((((((((((Mpo.zeros 5 5 2).put 0 0 0 0 1).put 0 0 1 1 1).put 1 0 1 0 1).put 2 0 0 1 1).put 3 0 0 0 (-0.5)).put
    3 0 1 1 0.5).put 4 0 0 0 (-0.5 * B)).put 4 0 1 1 (0.5 * B)).put 4 1 0 1 (Jxy / 2 * 1)).put 4 2 1 0 (Jxy / 2 * 1)).put
    4 3 0 0 (Jz * (-0.5))).put 4 3 1 1 (Jz * 0.5)).put 4 4 0 0 1).put 4 4 1 1 1

/-- `XXZ.__init__`, right tensor, lib/mpslib/Hamiltonians.py:416-430. -/
def xxzLast (B : ℂ) : Mpo ℂ :=
  ((((((((Mpo.zeros 5 1 2).put 0 0 0 0 1).put 0 0 1 1 1).put 1 0 1 0 1).put 2 0 0 1 1).put 3 0 0 0 (-0.5)).put
    3 0 1 1 0.5).put 4 0 0 0 (-0.5 * B)).put 4 0 1 1 (0.5 * B)

/-- `XXZ.__init__(Jz,Jxy,Bz,obc)`, lib/mpslib/Hamiltonians.py:359-488. -/
def xxz (Jz Jxy Bz : List ℂ) (obc : Bool) : Res (List (Mpo ℂ)) :=
  let site (f : ℂ → ℂ → ℂ → Mpo ℂ) (n : ℕ) : Res (Mpo ℂ) := do
    let b ← getE Bz n
    let jxy ← getE Jxy n
    let jz ← getE Jz n
    return f jz jxy b
  if obc then openMpo (site xxzFirst 0) (site xxzBulk) (do return xxzLast (← lastE Bz)) Bz.length
  else if Jz.length = Jxy.length ∧ Bz.length = Jz.length then buildE (site xxzBulk) (List.range Bz.length)
  else .error .assertion

/-! ## XXZflipped -/

/-- `XXZflipped.__init__`, left tensor, lib/mpslib/Hamiltonians.py:504-517; `J` is `J[0]`, `DJ` is `Delta[0]*J[0]`. -/
def flipFirst (J DJ : ℂ) : Mpo ℂ :=
  ((((((((Mpo.zeros 1 5 2).put 0 1 0 1 J).put 0 1 1 0 J).put 0 2 0 1 (Complex.I * (-J))).put 0 2 1 0 (-Complex.I * (-J))).put
    0 3 0 0 (-DJ * (-1))).put 0 3 1 1 (-DJ * 1)).put 0 4 0 0 1).put 0 4 1 1 1

/-- `XXZflipped.__init__`, bulk tensor, lib/mpslib/Hamiltonians.py:520-547 (and 570-597 for `obc=False`); `J` is the
coupling of the `Sx`, `Sy` entries, `DJ` that of the `Sz` entries. -/
def flipBulk (J DJ : ℂ) : Mpo ℂ :=
  ((((((((((((((((Mpo.zeros 5 5 2).put 0 0 0 0 1).put 0 0 1 1 1).put 1 0 0 1 1).put 1 0 1 0 1).put 2 0 0 1 Complex.I).put
    2 0 1 0 (-Complex.I)).put 3 0 0 0 (-1)).put 3 0 1 1 1).put 4 1 0 1 J).put 4 1 1 0 J).put 4 2 0 1 (Complex.I * (-J))).put
    4 2 1 0 (-Complex.I * (-J))).put 4 3 0 0 (-DJ * (-1))).put 4 3 1 1 (-DJ * 1)).put 4 4 0 0 1).put 4 4 1 1 1

/-- `XXZflipped.__init__`, right tensor, lib/mpslib/Hamiltonians.py:551-563. -/
def flipLast : Mpo ℂ :=
  ((((((((Mpo.zeros 5 1 2).put 0 0 0 0 1).put 0 0 1 1 1).put 1 0 0 1 1).put 1 0 1 0 1).put 2 0 0 1 Complex.I).put
    2 0 1 0 (-Complex.I)).put 3 0 0 0 (-1)).put 3 0 1 1 1

/-- The two dtypes of the constructors; a Python complex number cannot be stored in a float array (TypeError). -/
inductive Dtype
  | float | complex
  deriving DecidableEq

/-- `XXZflipped.__init__(Delta,J,obc,dtype)`, lib/mpslib/Hamiltonians.py:496-597.  The `Sx` and `Sy` entries of
every bulk tensor read `J[0]`, the `Sz` entries `Delta[site]*J[site]`.  With `dtype=float` (the default) the
assignments of `1j` raise; `float` couplings are assumed in that case, so that no other failure comes first. -/
def xxzFlipped (Delta J : List ℂ) (obc : Bool) (dtype : Dtype := .float) : Res (List (Mpo ℂ)) :=
  let site (f : ℂ → ℂ → Mpo ℂ) (n : ℕ) : Res (Mpo ℂ) := do
    let j0 ← getE J 0
    if dtype = .float then .error .type else
    let de ← getE Delta n
    let j ← getE J n
    return f j0 (de * j)
  if obc then
    openMpo (site flipFirst 0) (site flipBulk) (if dtype = .float then .error .type else .ok flipLast) (Delta.length + 1)
  else buildE (site flipBulk) (List.range Delta.length)

/-! ## JessHamiltonian -/

/-- `np.kron` with a 2x2 second factor. -/
def Mat.kron2 (A B : Mat ℂ) : Mat ℂ := ⟨A.r * 2, A.c * 2, fun i j => A.v (i / 2) (j / 2) * B.v (i % 2) (j % 2)⟩

/-- `sigma_x`, `sigma_y`, `sigma_z`, lib/mpslib/Hamiltonians.py:261-263. -/
def pauliX : Mat ℂ := ⟨2, 2, fun i j => if i = j then 0 else 1⟩
@[inherit_doc pauliX] def pauliY : Mat ℂ := ⟨2, 2, fun i j => if i = j then 0 else if i = 0 then -Complex.I else Complex.I⟩
@[inherit_doc pauliX] def szMat : Mat ℂ := ⟨2, 2, fun i j => if i = j then (if i = 0 then 1 else -1) else 0⟩

/-- `sig_x,sig_y,sig_z,tau_x,tau_y,tau_z`, lib/mpslib/Hamiltonians.py:265-270, in this order. -/
def jessOp (k : ℕ) : Mat ℂ :=
  if k = 0 then pauliX.kron2 (eyeK ℂ 2) else if k = 1 then pauliY.kron2 (eyeK ℂ 2)
  else if k = 2 then szMat.kron2 (eyeK ℂ 2) else if k = 3 then (eyeK ℂ 2).kron2 pauliX
  else if k = 4 then (eyeK ℂ 2).kron2 pauliY else (eyeK ℂ 2).kron2 szMat

/-- `w*(sig_x+tau_x)+chi*np.kron(sigma_x,sigma_x)`, lib/mpslib/Hamiltonians.py:279-280. -/
def jessLoc (w chi : ℂ) : Mat ℂ := (((jessOp 0).add' (jessOp 3)).smul' w).add' ((pauliX.kron2 pauliX).smul' chi)

/-- `JessHamiltonian.__init__`, left tensor, lib/mpslib/Hamiltonians.py:278-287. -/
def jessFirst (J w chi : ℂ) : Mpo ℂ :=
  ((((((((Mpo.zeros 1 8 4).blk 0 0 (jessLoc w chi)).blk 0 1 ((jessOp 0).smul' J)).blk 0 2 ((jessOp 1).smul' J)).blk
    0 3 ((jessOp 2).smul' J)).blk 0 4 ((jessOp 3).smul' J)).blk 0 5 ((jessOp 4).smul' J)).blk
    0 6 ((jessOp 5).smul' J)).blk 0 7 (eyeK ℂ 4)

/-- `JessHamiltonian.__init__`, bulk tensor, lib/mpslib/Hamiltonians.py:291-310 (and 332-349). -/
def jessBulk (J w chi : ℂ) : Mpo ℂ :=
  (((((((((((((((Mpo.zeros 8 8 4).blk 0 0 (eyeK ℂ 4)).blk 1 0 (jessOp 0)).blk 2 0 (jessOp 1)).blk 3 0 (jessOp 2)).blk
    4 0 (jessOp 3)).blk 5 0 (jessOp 4)).blk 6 0 (jessOp 5)).blk 7 0 (jessLoc w chi)).blk 7 1 ((jessOp 0).smul' J)).blk
    7 2 ((jessOp 1).smul' J)).blk 7 3 ((jessOp 2).smul' J)).blk 7 4 ((jessOp 3).smul' J)).blk
    7 5 ((jessOp 4).smul' J)).blk 7 6 ((jessOp 5).smul' J)).blk 7 7 (eyeK ℂ 4)

/-- `JessHamiltonian.__init__`, right tensor, lib/mpslib/Hamiltonians.py:314-323. -/
def jessLast (w chi : ℂ) : Mpo ℂ :=
  ((((((((Mpo.zeros 8 1 4).blk 0 0 (eyeK ℂ 4)).blk 1 0 (jessOp 0)).blk 2 0 (jessOp 1)).blk 3 0 (jessOp 2)).blk
    4 0 (jessOp 3)).blk 5 0 (jessOp 4)).blk 6 0 (jessOp 5)).blk 7 0 (jessLoc w chi)

/-- `JessHamiltonian.__init__(J,w,chi,obc)`, lib/mpslib/Hamiltonians.py:253-351. -/
def jess (J w chi : List ℂ) (obc : Bool) : Res (List (Mpo ℂ)) :=
  let site (f : ℂ → ℂ → ℂ → Mpo ℂ) (n : ℕ) : Res (Mpo ℂ) := do
    let x ← getE w n
    let c ← getE chi n
    let j ← getE J n
    return f j x c
  if obc then
    if (J.length : ℤ) = (chi.length : ℤ) - 1 then
      openMpo (site jessFirst 0) (site jessBulk) (do
        let x ← lastE w
        let c ← lastE chi
        return jessLast x c) chi.length
    else .error .value
  else if J.length < chi.length then .error .value
  else buildE (site jessBulk) (List.range chi.length)

/-! ## The tensors are of nearest-neighbour form -/

/-- Matrix given by its entries, first index in, second index out. -/
def opOf (d : ℕ) (f : ℕ → ℕ → ℂ) : Mat ℂ := ⟨d, d, f⟩

theorem all2 {P : ℕ → Prop} : (∀ s < 2, P s) ↔ P 0 ∧ P 1 :=
  ⟨fun h => ⟨h 0 (by omega), h 1 (by omega)⟩, fun h s hs => by interval_cases s; exacts [h.1, h.2]⟩

theorem all1 {P : ℕ → Prop} : (∀ s < 1, P s) ↔ P 0 :=
  ⟨fun h => h 0 (by omega), fun h s hs => by interval_cases s; exact h⟩

theorem all3 {P : ℕ → Prop} : (∀ s < 3, P s) ↔ P 0 ∧ P 1 ∧ P 2 :=
  ⟨fun h => ⟨h 0 (by omega), h 1 (by omega), h 2 (by omega)⟩,
    fun h s hs => by interval_cases s; exacts [h.1, h.2.1, h.2.2]⟩

theorem all4 {P : ℕ → Prop} : (∀ s < 4, P s) ↔ P 0 ∧ P 1 ∧ P 2 ∧ P 3 :=
  ⟨fun h => ⟨h 0 (by omega), h 1 (by omega), h 2 (by omega), h 3 (by omega)⟩,
    fun h s hs => by interval_cases s; exacts [h.1, h.2.1, h.2.2.1, h.2.2.2]⟩

theorem all6 {P : ℕ → Prop} : (∀ s < 6, P s) ↔ P 0 ∧ P 1 ∧ P 2 ∧ P 3 ∧ P 4 ∧ P 5 :=
  ⟨fun h => ⟨h 0 (by omega), h 1 (by omega), h 2 (by omega), h 3 (by omega), h 4 (by omega), h 5 (by omega)⟩,
    fun h s hs => by interval_cases s; exacts [h.1, h.2.1, h.2.2.1, h.2.2.2.1, h.2.2.2.2.1, h.2.2.2.2.2]⟩

theorem tfi_first (J B : ℂ) (h : ℕ → Mat ℂ) :
    NNFirst 2 1 (tfiFirst J B) ⟨sigZ2.smul' B, fun _ => sigX.smul' J, h⟩ := by
  refine ⟨rfl, rfl, rfl, rfl, ?_, ?_, ?_⟩ <;> try simp only [Nat.reduceAdd, all1, all2, all3, all4] <;>
    simp [tfiFirst, Mpo.put, Mpo.zeros, sigZ2, sigX, Mat.smul', delta]

theorem tfi_bulk (J B : ℂ) :
    NNBulk 2 1 (tfiBulk J B) ⟨sigZ2.smul' B, fun _ => sigX.smul' J, fun _ => sigX⟩ := by
  refine ⟨rfl, rfl, rfl, rfl, ?_, ?_, ?_, ?_, ?_, ?_⟩ <;> try simp only [Nat.reduceAdd, all1, all2, all3, all4] <;>
    simp [tfiBulk, Mpo.put, Mpo.zeros, sigZ2, sigX, Mat.smul', delta]

theorem tfi_last (B : ℂ) (A : ℕ → Mat ℂ) : NNLast 2 1 (tfiLast B) ⟨sigZ2.smul' B, A, fun _ => sigX⟩ := by
  refine ⟨rfl, rfl, rfl, rfl, ?_, ?_, ?_⟩ <;> try simp only [Nat.reduceAdd, all1, all2, all3, all4] <;>
    simp [tfiLast, Mpo.put, Mpo.zeros, sigZ2, sigX, Mat.smul', delta]

/-- Channels of the XXZ tensors: `S+ S-`, `S- S+`, `Sz Sz` (first index of a matrix in, second out, so that the
entry `[0,1]` raises). -/
def xxzA (Jz Jxy : ℂ) (k : ℕ) : Mat ℂ :=
  if k = 0 then opOf 2 fun s t => if s = 0 ∧ t = 1 then Jxy / 2 else 0
  else if k = 1 then opOf 2 fun s t => if s = 1 ∧ t = 0 then Jxy / 2 else 0
  else opOf 2 fun s t => if s = t then (if s = 0 then -(Jz * 0.5) else Jz * 0.5) else 0
@[inherit_doc xxzA] def xxzB (k : ℕ) : Mat ℂ :=
  if k = 0 then opOf 2 fun s t => if s = 1 ∧ t = 0 then 1 else 0
  else if k = 1 then opOf 2 fun s t => if s = 0 ∧ t = 1 then 1 else 0
  else opOf 2 fun s t => if s = t then (if s = 0 then -0.5 else 0.5) else 0
@[inherit_doc xxzA] def xxzH (B : ℂ) : Mat ℂ :=
  opOf 2 fun s t => if s = t then (if s = 0 then -(0.5 * B) else 0.5 * B) else 0

theorem xxz_first (Jz Jxy B : ℂ) (h : ℕ → Mat ℂ) : NNFirst 2 3 (xxzFirst Jz Jxy B) ⟨xxzH B, xxzA Jz Jxy, h⟩ := by
  refine ⟨rfl, rfl, rfl, rfl, ?_, ?_, ?_⟩ <;> try simp only [Nat.reduceAdd, all1, all2, all3, all4] <;>
    simp [xxzFirst, Mpo.put, Mpo.zeros, xxzH, xxzA, opOf, delta]

theorem xxz_bulk (Jz Jxy B : ℂ) : NNBulk 2 3 (xxzBulk Jz Jxy B) ⟨xxzH B, xxzA Jz Jxy, xxzB⟩ := by
  refine ⟨rfl, rfl, rfl, rfl, ?_, ?_, ?_, ?_, ?_, ?_⟩ <;> try simp only [Nat.reduceAdd, all1, all2, all3, all4] <;>
    simp [xxzBulk, Mpo.put, Mpo.zeros, xxzH, xxzA, xxzB, opOf, delta]

theorem xxz_last (B : ℂ) (A : ℕ → Mat ℂ) : NNLast 2 3 (xxzLast B) ⟨xxzH B, A, xxzB⟩ := by
  refine ⟨rfl, rfl, rfl, rfl, ?_, ?_, ?_⟩ <;> try simp only [Nat.reduceAdd, all1, all2, all3, all4] <;>
    simp [xxzLast, Mpo.put, Mpo.zeros, xxzH, xxzB, opOf, delta]

/-- Channels of the `XXZflipped` tensors. -/
def flipA (J DJ : ℂ) (k : ℕ) : Mat ℂ :=
  if k = 0 then opOf 2 fun s t => if s = t then 0 else J
  else if k = 1 then opOf 2 fun s t => if s = t then 0 else if s = 0 then -(Complex.I * J) else Complex.I * J
  else opOf 2 fun s t => if s = t then (if s = 0 then DJ else -DJ) else 0
@[inherit_doc flipA] def flipB (k : ℕ) : Mat ℂ :=
  if k = 0 then opOf 2 fun s t => if s = t then 0 else 1
  else if k = 1 then opOf 2 fun s t => if s = t then 0 else if s = 0 then Complex.I else -Complex.I
  else opOf 2 fun s t => if s = t then (if s = 0 then -1 else 1) else 0

theorem flip_first (J DJ : ℂ) (h : ℕ → Mat ℂ) :
    NNFirst 2 3 (flipFirst J DJ) ⟨opOf 2 fun _ _ => 0, flipA J DJ, h⟩ := by
  refine ⟨rfl, rfl, rfl, rfl, ?_, ?_, ?_⟩ <;> try simp only [Nat.reduceAdd, all1, all2, all3, all4] <;>
    simp [flipFirst, Mpo.put, Mpo.zeros, flipA, opOf, delta]

theorem flip_bulk (J DJ : ℂ) : NNBulk 2 3 (flipBulk J DJ) ⟨opOf 2 fun _ _ => 0, flipA J DJ, flipB⟩ := by
  refine ⟨rfl, rfl, rfl, rfl, ?_, ?_, ?_, ?_, ?_, ?_⟩ <;> try simp only [Nat.reduceAdd, all1, all2, all3, all4] <;>
    simp [flipBulk, Mpo.put, Mpo.zeros, flipA, flipB, opOf, delta]

theorem flip_last (A : ℕ → Mat ℂ) : NNLast 2 3 flipLast ⟨opOf 2 fun _ _ => 0, A, flipB⟩ := by
  refine ⟨rfl, rfl, rfl, rfl, ?_, ?_, ?_⟩ <;> try simp only [Nat.reduceAdd, all1, all2, all3, all4] <;>
    simp [flipLast, Mpo.put, Mpo.zeros, flipB, opOf, delta]

theorem jess_first (J w chi : ℂ) (h : ℕ → Mat ℂ) :
    NNFirst 4 6 (jessFirst J w chi) ⟨jessLoc w chi, fun k => (jessOp k).smul' J, h⟩ := by
  refine ⟨rfl, rfl, rfl, rfl, ?_, ?_, ?_⟩
  · intro s _ t _; simp [jessFirst, Mpo.blk]
  · rw [all6]; refine ⟨?_, ?_, ?_, ?_, ?_, ?_⟩ <;> (intro s _ t _; simp [jessFirst, Mpo.blk])
  · intro s _ t _; simp [jessFirst, Mpo.blk, eyeK]

theorem jess_bulk (J w chi : ℂ) :
    NNBulk 4 6 (jessBulk J w chi) ⟨jessLoc w chi, fun k => (jessOp k).smul' J, jessOp⟩ := by
  refine ⟨rfl, rfl, rfl, rfl, ?_, ?_, ?_, ?_, ?_, ?_⟩
  · intro s _ t _; simp [jessBulk, Mpo.blk, eyeK]
  · rw [all6]; refine ⟨?_, ?_, ?_, ?_, ?_, ?_⟩ <;> (intro s _ t _; simp [jessBulk, Mpo.blk])
  · intro s _ t _; simp [jessBulk, Mpo.blk]
  · rw [all6]; refine ⟨?_, ?_, ?_, ?_, ?_, ?_⟩ <;> (intro s _ t _; simp [jessBulk, Mpo.blk])
  · intro s _ t _; simp [jessBulk, Mpo.blk, eyeK]
  · intro b hb c hc s _ t _
    have h0 : c + 1 ≠ 0 := by omega
    have h7 : b ≠ 7 := by omega
    simp [jessBulk, Mpo.blk, Mpo.zeros, h7]

theorem jess_last (w chi : ℂ) (A : ℕ → Mat ℂ) : NNLast 4 6 (jessLast w chi) ⟨jessLoc w chi, A, jessOp⟩ := by
  refine ⟨rfl, rfl, rfl, rfl, ?_, ?_, ?_⟩
  · intro s _ t _; simp [jessLast, Mpo.blk, eyeK]
  · rw [all6]; refine ⟨?_, ?_, ?_, ?_, ?_, ?_⟩ <;> (intro s _ t _; simp [jessLast, Mpo.blk])
  · intro s _ t _; simp [jessLast, Mpo.blk]

end

end PyTeN
