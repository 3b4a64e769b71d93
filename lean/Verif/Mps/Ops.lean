import Verif.Mps.Position
import Verif.Mps.Add

/-!
# Model of the remaining methods of the class `MPS`: copying, arithmetic, access, construction

Value semantics: a method that assigns to fields of `self` returns the new object, a method that
only builds a new object returns that object.  `_dtype` is not modelled (exact arithmetic).
-/

namespace PyTeN
open Finset

noncomputable section

/-! ## Copy, load -/

/-- `MPS.__copy__`, lib/mpslib/mps.py:315-333.  A new object is built by `__init__` from the tensors
and then most fields are assigned; `_obc` is not (line 328 is the expression `cop._obc-self._obc`),
`_N` is the one computed by `__init__`. -/
def MPS.copy (m : MPS) : Res MPS :=
  match MPS.init m.tensors 1e-16 1e-14 with
  | .error e => .error e
  | .ok c => .ok { c with
      Dmax := m.Dmax, tensors := m.tensors, mat := m.mat, conn := m.conn, pos := m.pos
      sth := m.sth, rth := m.rth, Z := m.Z }

/-- `MPS.load`, lib/mpslib/mps.py:1285-1307, `self` receiving the object `f` that was pickled by
`save` (lines 1274-1283; the pickle round trip itself is taken as the identity). -/
def MPS.load (_self f : MPS) : MPS :=
  { N := f.N, Dmax := f.N, obc := f.obc, sth := f.sth, rth := f.rth, tensors := f.tensors
    mat := f.mat, conn := f.conn, pos := f.pos, Z := f.Z }

/-! ## Scalars -/

/-- Argument of the arithmetic methods: a number or something for which `np.isscalar` is false. -/
inductive Arg
  | scalar (c : ℂ)
  | other

/-- `MPS.__mul__` (and `__rmul__`), lib/mpslib/mps.py:466-477 and 517-532. -/
def MPS.mul (m : MPS) : Arg → Res MPS
  | .other => .error .type
  | .scalar c =>
    match m.copy with
    | .error e => .error e
    | .ok cpy => .ok { cpy with Z := cpy.Z * c }

/-- `MPS.__imul__`, lib/mpslib/mps.py:479-488. -/
def MPS.imul (m : MPS) : Arg → Res MPS
  | .other => .error .type
  | .scalar c => .ok { m with Z := m.Z * c }

/-- `MPS.__truediv__`, lib/mpslib/mps.py:502-513; division by zero (ZeroDivisionError for Python
numbers, NaN/inf for numpy numbers) is `.nan`. -/
def MPS.truediv (m : MPS) : Arg → Res MPS
  | .other => .error .type
  | .scalar c =>
    match m.copy with
    | .error e => .error e
    | .ok cpy => if c = 0 then .error .nan else .ok { cpy with Z := cpy.Z / c }

/-- `MPS.__idiv__`, lib/mpslib/mps.py:491-500 (Python 2 name of `/=`; in Python 3 `mps/=c` uses
`__truediv__`). -/
def MPS.idiv (m : MPS) : Arg → Res MPS
  | .other => .error .type
  | .scalar c => if c = 0 then .error .nan else .ok { m with Z := m.Z / c }

/-- `MPS.__unary_operations__`, lib/mpslib/mps.py:359-373: a copy whose tensors are all replaced by
the image of `op`. -/
def MPS.unary (op : Ten ℂ → Ten ℂ) (m : MPS) : Res MPS :=
  match m.copy with
  | .error e => .error e
  | .ok c => .ok { c with tensors := c.tensors.map op }

/-- `operator.neg` on an array. -/
def Ten.neg (t : Ten ℂ) : Ten ℂ := ⟨t.l, t.r, t.d, fun i j s => - t.v i j s⟩

/-- `np.real` on an array. -/
def Ten.re (t : Ten ℂ) : Ten ℂ := ⟨t.l, t.r, t.d, fun i j s => ((t.v i j s).re : ℂ)⟩

/-- `MPS.__neg__`, lib/mpslib/mps.py:461 with 27-30. -/
def MPS.neg (m : MPS) : Res MPS := m.unary Ten.neg

/-- `MPS.real`, lib/mpslib/mps.py:430-444. -/
def MPS.real (m : MPS) : Res MPS := m.unary Ten.re

/-- `MPS.__in_place_unary_operations__`, lib/mpslib/mps.py:346-356: the loop bound `len(res)` uses an
undefined name. -/
def MPS.inPlaceUnary (_op : Ten ℂ → Ten ℂ) (_m : MPS) : Res MPS := .error .name

/-- `MPS.conj`, lib/mpslib/mps.py:375-379 and 396-400. -/
def MPS.conj (m : MPS) : Res MPS :=
  m.inPlaceUnary (fun t => ⟨t.l, t.r, t.d, fun i j s => star (t.v i j s)⟩)

/-- `np.conj(x,*args)`: a further positional argument is `out` and has to be an array; an `MPS`
object is a TypeError. -/
def npConj (outIsMps : Bool) (t : Ten ℂ) : Res (Ten ℂ) :=
  if outIsMps then .error .type else .ok ⟨t.l, t.r, t.d, fun i j s => star (t.v i j s)⟩

/-- `__unary_operations__` with an operation that may raise. -/
def MPS.unaryRes (op : Ten ℂ → Res (Ten ℂ)) (m : MPS) : Res MPS :=
  match m.copy with
  | .error e => .error e
  | .ok c =>
    match c.tensors.mapM op with
    | .error e => .error e
    | .ok ts => .ok { c with tensors := ts }

/-- `MPS.__conjugate__(*args)`, lib/mpslib/mps.py:381-387: after the tensors the attribute `_qflow`,
which no `MPS` object has, is read. -/
def MPS.conjugateDunder (argIsSelf : Bool) (m : MPS) : Res MPS :=
  match m.unaryRes (npConj argIsSelf) with
  | .error e => .error e
  | .ok _ => .error .attribute

/-- `MPS.conjugate()`, lib/mpslib/mps.py:390-394: `self` is passed a second time as an argument. -/
def MPS.conjugate (m : MPS) : Res MPS := m.conjugateDunder true

/-- `MPS.imag()`, lib/mpslib/mps.py:455-459: calls `__imag__`, but the method is defined under the
name `__imag_` (line 446). -/
def MPS.imag (_m : MPS) : Res MPS := .error .attribute

/-! ## Lists of tensors -/

/-- `MPS.tolist`, lib/mpslib/mps.py:1152-1169. -/
def MPS.tolist (m : MPS) : Res (List (Ten ℂ)) :=
  if m.pos < m.tensors.length then
    match getT m.tensors m.pos with
    | .error e => .error e
    | .ok t =>
      match absorbL m.mat t with
      | .error e => .error e
      | .ok t' => .ok (m.tensors.set m.pos t')
  else if m.pos = m.tensors.length then
    match getT m.tensors (m.pos - 1) with
    | .error e => .error e
    | .ok t =>
      match absorbR t m.mat with
      | .error e => .error e
      | .ok t' => .ok (m.tensors.set (m.pos - 1) t')
  else .ok m.tensors

/-- `MPS.__add__`, lib/mpslib/mps.py:534-542. -/
def MPS.add (m o : MPS) : Res MPS :=
  match m.tolist with
  | .error e => .error e
  | .ok t1 =>
    match o.tolist with
    | .error e => .error e
    | .ok t2 =>
      match addMPS t1 m.Z t2 o.Z with
      | .error e => .error e
      | .ok ts =>
        match MPS.init ts 1e-16 1e-16 with
        | .error e => .error e
        | .ok out => .ok { out with Z := 1 }

/-- `MPS.__iadd__`, lib/mpslib/mps.py:544-551: only the tensors and `Z` are replaced. -/
def MPS.iadd (m o : MPS) : Res MPS :=
  match m.tolist with
  | .error e => .error e
  | .ok t1 =>
    match o.tolist with
    | .error e => .error e
    | .ok t2 =>
      match addMPS t1 m.Z t2 o.Z with
      | .error e => .error e
      | .ok ts => .ok { m with tensors := ts, Z := 1 }

/-- `MPS.__sub__`, lib/mpslib/mps.py:553-563: `(other*(-1))+self`. -/
def MPS.sub (m o : MPS) : Res MPS :=
  match o.mul (.scalar (-1)) with
  | .error e => .error e
  | .ok n => n.add m

/-! ## Access to single tensors -/

/-- Python list index with the negative-index convention; `none` is an IndexError. -/
def pyIdx (n : ℕ) (i : ℤ) : Option ℕ :=
  if 0 ≤ i then (if i < n then some i.toNat else none)
  else (if -n ≤ i then some (n + i).toNat else none)

/-- `self._tensors[i]` for a Python integer `i`. -/
def getZ (ts : List (Ten ℂ)) (i : ℤ) : Res (Ten ℂ) :=
  match pyIdx ts.length i with
  | some n => getT ts n
  | none => .error .index

/-- `MPS.__getitem__`, lib/mpslib/mps.py:336-339 (integer argument). -/
def MPS.getItem (m : MPS) (n : ℤ) : Res (Ten ℂ) :=
  if n < m.tensors.length ∧ |n| ≤ m.tensors.length then getZ m.tensors n
  else .error .assertion

/-- `MPS.__setitem__`, lib/mpslib/mps.py:341-343. -/
def MPS.setItem (m : MPS) (n : ℤ) (t : Ten ℂ) : Res MPS :=
  if n < m.tensors.length ∧ |n| ≤ m.tensors.length then
    match pyIdx m.tensors.length n with
    | some k => .ok { m with tensors := m.tensors.set k t }
    | none => .error .index
  else .error .assertion

/-- `np.eye(n)/np.linalg.norm(np.eye(n))`, lib/mpslib/mps.py:1035-1036. -/
def eyeNormed (n : ℕ) : Mat ℂ := ⟨n, n, fun i j => delta ℂ i j / (Real.sqrt n : ℂ)⟩

/-- `MPS.__tensor__(site,clear)`, lib/mpslib/mps.py:1025-1044: the returned tensor and the object
afterwards.  `self._tensors[site]` follows Python's index convention. -/
def MPS.tensor (m : MPS) (site : ℤ) (clear : Bool := false) : Res (Ten ℂ × MPS) :=
  if site = m.pos then
    match getZ m.tensors site with
    | .error e => .error e
    | .ok t =>
      match absorbL m.mat t with
      | .error e => .error e
      | .ok out => .ok (out, if clear then { m with mat := eyeNormed t.l } else m)
  else if site = (m.pos : ℤ) - 1 then
    match getZ m.tensors site with
    | .error e => .error e
    | .ok t =>
      match absorbR t m.mat with
      | .error e => .error e
      | .ok out => .ok (out, if clear then { m with mat := eyeNormed t.r } else m)
  else .error .assertion

/-- `MPS.__absorbCenterMatrix__(direction)`, lib/mpslib/mps.py:586-608; at the ends of the chain the
direction is reversed (with a warning). -/
def MPS.absorbCenterMatrix (m : MPS) (direction : ℤ) : Res MPS :=
  if direction = 0 then .error .assertion else
  let right := if m.pos = m.N ∧ direction > 0 then false
    else if m.pos = 0 ∧ direction < 0 then true else decide (direction > 0)
  if right then
    match getT m.tensors m.pos with
    | .error e => .error e
    | .ok t =>
      match absorbL m.mat t with
      | .error e => .error e
      | .ok t' => .ok { m with tensors := m.tensors.set m.pos t', mat := eye m.mat.r }
  else
    match getT m.tensors (m.pos - 1) with
    | .error e => .error e
    | .ok t =>
      match absorbR t m.mat with
      | .error e => .error e
      | .ok t' => .ok { m with tensors := m.tensors.set (m.pos - 1) t', mat := eye m.mat.c }

/-- `MPS.__absorbConnector__(location)`, lib/mpslib/mps.py:566-583. -/
def MPS.absorbConnector (m : MPS) (location : String) : Res MPS :=
  if location = "right" then
    match getT m.tensors (m.N - 1) with
    | .error e => .error e
    | .ok t =>
      match absorbR t m.conn with
      | .error e => .error e
      | .ok t' => .ok { m with tensors := m.tensors.set (m.N - 1) t', conn := eye t'.r }
  else if location = "left" then
    match getT m.tensors 0 with
    | .error e => .error e
    | .ok t =>
      match absorbL m.conn t with
      | .error e => .error e
      | .ok t' => .ok { m with tensors := m.tensors.set 0 t', conn := eye t'.l }
  else .error .value

/-- `MPS.D`, lib/mpslib/mps.py:641-645. -/
def MPS.D (m : MPS) : Res (List ℕ) :=
  match m.tensors.getLast? with
  | some t => .ok (m.tensors.map Ten.l ++ [t.r])
  | none => .error .index

/-! ## Construction -/

/-- The dtypes distinguished by `MPSinitializer`. -/
inductive DType | float | complex | other
  deriving DecidableEq

/-- The argument `d` of the initialisers: an `int` or one integer per site. -/
inductive LocDim
  | int (d : ℕ)
  | list (ds : List ℕ)

/-- `if isinstance(d,int): d=[d]*length`, lib/mpslib/mpsfunctions.py:558-559. -/
def LocDim.toList (length : ℕ) : LocDim → List ℕ
  | .int d => List.replicate length d
  | .list ds => ds

/-- One call `(numpyfun(shape)-shift)*scale` (float) or the complex variant,
lib/mpslib/mpsfunctions.py:566 and 571.  `gen k` is what the `k`-th call of `numpyfun` returns. -/
def fillTen (gen : ℕ → ℕ → ℕ → ℕ → ℂ) (cplx : Bool) (scale shift : ℝ) (k l r d : ℕ) : Ten ℂ :=
  ⟨l, r, d, fun i j s =>
    if cplx then (gen (2 * k) i j s - shift + Complex.I * (gen (2 * k + 1) i j s - shift)) * scale
    else (gen k i j s - shift) * scale⟩

/-- `d[n]` for a non-negative index. -/
def getD! (ds : List ℕ) (n : ℕ) : Res ℕ :=
  match ds[n]? with
  | some d => .ok d
  | none => .error .index

/-- The loop `for n in range(n0,n0+k)` appending tensors of shape `(D,D,d[n])`,
lib/mpslib/mpsfunctions.py:567-568, 572-573, 580-581, 583-584. -/
def fillLoop (gen : ℕ → ℕ → ℕ → ℕ → ℂ) (cplx : Bool) (scale shift : ℝ) (D : ℕ) (ds : List ℕ) :
    ℕ → ℕ → Res (List (Ten ℂ))
  | _, 0 => .ok []
  | n, k + 1 =>
    match getD! ds n with
    | .error e => .error e
    | .ok d =>
      match fillLoop gen cplx scale shift D ds (n + 1) k with
      | .error e => .error e
      | .ok ts => .ok (fillTen gen cplx scale shift n D D d :: ts)

/-- `MPSinitializer(numpyfun,length,D,d,obc,dtype,scale,shift)`,
lib/mpslib/mpsfunctions.py:546-585.  For a dtype that is neither float nor complex the returned
list is empty. -/
def mpsInitializer (gen : ℕ → ℕ → ℕ → ℕ → ℂ) (length D : ℕ) (d : LocDim) (obc : Bool)
    (dtype : DType) (scale shift : ℝ) : Res (List (Ten ℂ)) :=
  let ds := d.toList length
  let cplx := decide (dtype = .complex)
  if obc then
    if length = 1 then .error .value
    else if dtype = .other then .ok []
    else
      match getD! ds 0 with
      | .error e => .error e
      | .ok d0 =>
        match fillLoop gen cplx scale shift D ds 1 (length - 1 - 1) with
        | .error e => .error e
        | .ok mids =>
          match ds.getLast? with
          | none => .error .index
          | some dl => .ok (fillTen gen cplx scale shift 0 1 D d0 :: mids ++
              [fillTen gen cplx scale shift (length - 1) D 1 dl])
  else if dtype = .other then .ok []
  else fillLoop gen cplx scale shift D ds 0 length

/-- The class methods `random`, `zeros`, `ones`, lib/mpslib/mps.py:146-246: initialise, set `_obc`,
sweep to bond 0 and back to bond N, set `Z=1`. -/
def MPS.factory (O : LinAlg) (gen : ℕ → ℕ → ℕ → ℕ → ℂ) (N D : ℕ) (d : LocDim) (obc : Bool)
    (dtype : DType) (scale shift sth rth : ℝ) : Res MPS :=
  match mpsInitializer gen N D d obc dtype scale shift with
  | .error e => .error e
  | .ok ts =>
    match MPS.init ts sth rth with
    | .error e => .error e
    | .ok m =>
      match ({ m with obc := obc }).position O 0 with
      | .error e => .error e
      | .ok m1 =>
        match m1.position O m1.N with
        | .error e => .error e
        | .ok m2 => .ok { m2 with Z := 1 }

/-- The norm of a local state is below `1E-10`, lib/mpslib/mps.py:295. -/
def tinyVec (v : List ℂ) : Prop :=
  Real.sqrt ((v.map (fun z => Complex.normSq z)).sum) < 1e-10

/-- The tensor of a product state at one site, lib/mpslib/mps.py:299-302. -/
def vecTen (v : List ℂ) : Ten ℂ := ⟨1, 1, v.length, fun _ _ s => v.getD s 0⟩

open Classical in
/-- `MPS.productState(localstate,obc)`, lib/mpslib/mps.py:275-307.  `MPSinitializer` is called with
`D=1` and its tensors are overwritten entry by entry, so the tensors are `vecTen`; for `obc=True` and
one site it raises ValueError; for an empty list `result_type()`/`max([])` fail. -/
def MPS.productState (localstate : List (List ℂ)) (obc : Bool) (sth rth : ℝ) : Res MPS :=
  if ∃ v ∈ localstate, tinyVec v then .error .value
  else if obc = true ∧ localstate.length = 1 then .error .value
  else
    match MPS.init (localstate.map vecTen) sth rth with
    | .error e => .error e
    | .ok m => .ok { m with obc := obc, Z := 1 }

/-! ## Lemmas -/

theorem init_ok {ts : List (Ten ℂ)} (h : ts ≠ []) (sth rth : ℝ) :
    ∃ m, MPS.init ts sth rth = .ok m := by
  unfold MPS.init
  rw [List.head?_eq_some_head h, List.getLast?_eq_some_getLast h]
  exact ⟨_, rfl⟩

theorem init_fields {ts : List (Ten ℂ)} {sth rth : ℝ} {m : MPS} (h : MPS.init ts sth rth = .ok m) :
    ts ≠ [] ∧ m.tensors = ts ∧ m.N = ts.length ∧ m.pos = ts.length ∧ m.sth = sth ∧ m.rth = rth := by
  unfold MPS.init at h
  split at h
  · rename_i a b ha hb
    cases h
    refine ⟨?_, rfl, rfl, rfl, rfl, rfl⟩
    rintro rfl; simp at ha
  · cases h

theorem linked_getLast {l r : ℕ} {ts : List (Ten ℂ)} (h : Linked l ts r) {b : Ten ℂ}
    (hb : ts.getLast? = some b) : b.r = r := by
  obtain ⟨A, rfl⟩ : ∃ A, ts = A ++ [b] := by
    have hne : ts ≠ [] := by rintro rfl; simp at hb
    refine ⟨ts.dropLast, ?_⟩
    rw [List.getLast?_eq_some_getLast hne] at hb
    cases hb
    exact (List.dropLast_append_getLast hne).symm
  obtain ⟨m, _, h2⟩ := linked_append.mp h
  exact h2.2

theorem linked_head {l r : ℕ} {ts : List (Ten ℂ)} (h : Linked l ts r) {a : Ten ℂ}
    (ha : ts.head? = some a) : a.l = l := by
  cases ts with
  | nil => simp at ha
  | cons t ts => simp only [List.head?_cons, Option.some.injEq] at ha; subst ha; exact h.1

/-- `__init__` on an open chain: a well-formed object whose state is `Z` times the product of the
tensors. -/
theorem init_obc {ts : List (Ten ℂ)} {sth rth : ℝ} {m : MPS} (h : MPS.init ts sth rth = .ok m)
    {l : ℕ} (hL : Linked l ts 1) :
    m.WF l 1 ∧ m.mat = ⟨1, 1, m.mat.v⟩ ∧ m.mat.v 0 0 = 1 ∧ m.obc = decide (l = 1) := by
  obtain ⟨hne, h1, h2, h3, -, -⟩ := init_fields h
  unfold MPS.init at h
  rw [List.head?_eq_some_head hne, List.getLast?_eq_some_getLast hne] at h
  have hr : (ts.getLast hne).r = 1 := linked_getLast hL (List.getLast?_eq_some_getLast hne)
  have hl : (ts.head hne).l = l := linked_head hL (List.head?_eq_some_head hne)
  simp only [Except.ok.injEq] at h
  have hm : m.mat = ⟨1, 1, m.mat.v⟩ := by rw [← h]; simp [hr]
  refine ⟨⟨by rw [h1, h2], by rw [h2, h3], ?_, ?_⟩, hm, by rw [← h]; simp [hr],
    by rw [← h]; simp [hr, hl]⟩
  · rw [h1, h3, List.take_length, hm]; exact hL
  · rw [h1, h3, List.drop_length, hm]; rfl

/-- Amplitude of an object with trivial centre matrix at the right end. -/
theorem amp_trivial {m : MPS} {l : ℕ} (hw : m.WF l 1) (hp : m.pos = m.N)
    (hm : m.mat = ⟨1, 1, m.mat.v⟩) (s : List ℕ) (hs : s.length = m.tensors.length) (i : ℕ) :
    m.amp s i 0 = m.Z * m.mat.v 0 0 * chain m.tensors s i 0 := by
  unfold MPS.amp
  rw [hp, ← hw.len, List.take_length, ← hs, List.take_length, List.drop_length, hs,
    List.drop_length, hm]
  simp only [range_one, sum_singleton, chain, delta_self, mul_one]
  ring

theorem copy_ok {m : MPS} (h : m.tensors ≠ []) :
    ∃ c, m.copy = .ok c := by
  obtain ⟨c, hc⟩ := init_ok h 1e-16 1e-14
  unfold MPS.copy
  rw [hc]
  exact ⟨_, rfl⟩

theorem copy_fields {m c : MPS} (h : m.copy = .ok c) :
    m.tensors ≠ [] ∧ c.N = m.tensors.length ∧ c.Dmax = m.Dmax ∧ c.tensors = m.tensors ∧
      c.mat = m.mat ∧ c.conn = m.conn ∧ c.pos = m.pos ∧ c.sth = m.sth ∧ c.rth = m.rth ∧ c.Z = m.Z := by
  unfold MPS.copy at h
  split at h
  · cases h
  · rename_i c' hc
    obtain ⟨h1, h2, h3, -⟩ := init_fields hc
    cases h
    exact ⟨h1, h3, rfl, rfl, rfl, rfl, rfl, rfl, rfl, rfl⟩

theorem copy_obc {m c : MPS} (h : m.copy = .ok c) {a b : Ten ℂ} (ha : m.tensors.head? = some a)
    (hb : m.tensors.getLast? = some b) : c.obc = (decide (a.l = 1) && decide (b.r = 1)) := by
  unfold MPS.copy MPS.init at h
  rw [ha, hb] at h
  cases h
  rfl

theorem amp_congr {m m' : MPS} (h1 : m'.tensors = m.tensors) (h2 : m'.mat = m.mat)
    (h3 : m'.pos = m.pos) {c : ℂ} (h4 : m'.Z = c * m.Z) (s : List ℕ) (i j : ℕ) :
    m'.amp s i j = c * m.amp s i j := by
  unfold MPS.amp; rw [h1, h2, h3, h4]; ring

theorem amp_setZ (m : MPS) {z c : ℂ} (h : z = c * m.Z) (s : List ℕ) (i j : ℕ) :
    ({ m with Z := z } : MPS).amp s i j = c * m.amp s i j := by
  unfold MPS.amp; simp only [h]; ring

theorem copy_amp {m c : MPS} (h : m.copy = .ok c) (s : List ℕ) (i j : ℕ) :
    c.amp s i j = m.amp s i j := by
  obtain ⟨-, -, -, h1, h2, -, h3, -, -, h4⟩ := copy_fields h
  rw [amp_congr h1 h2 h3 (c := 1) (by rw [h4, one_mul]), one_mul]

theorem copy_wf {m c : MPS} (h : m.copy = .ok c) {l r : ℕ} (hw : m.WF l r) : c.WF l r := by
  obtain ⟨-, h0, -, h1, h2, -, h3, -, -, h4⟩ := copy_fields h
  exact ⟨by rw [h1, h0], by rw [h3, h0, hw.len]; exact hw.pos_le, by rw [h1, h2, h3]; exact hw.left,
    by rw [h1, h2, h3]; exact hw.right⟩

/-- Spec: dimension of bond `k` seen from its left side. -/
def MPS.leftDim (m : MPS) (k : ℕ) : ℕ :=
  if k = m.pos then m.mat.r else (m.tensors[k]?.map Ten.l).getD 0

/-- `tolist` of a well-formed object: always succeeds, is linked, and its product is the state up to
`Z`. -/
theorem tolist_spec {m : MPS} {l r : ℕ} (hw : m.WF l r) (hN : m.N ≠ 0) :
    ∃ ts, m.tolist = .ok ts ∧ Linked l ts r ∧ ts.map Ten.d = m.ds ∧
      (∀ k, k < m.N → (ts[k]?.map Ten.l).getD 0 = m.leftDim k) ∧
      ∀ s, s.length = m.N → ∀ i < l, ∀ j < r, m.amp s i j = m.Z * chain ts s i j := by
  have hlen := hw.len
  have hp := hw.pos_le
  by_cases hpos : m.pos < m.tensors.length
  · obtain ⟨A, t, B, hT, hA⟩ : ∃ A t B, m.tensors = A ++ t :: B ∧ A.length = m.pos :=
      ⟨m.tensors.take m.pos, m.tensors[m.pos], m.tensors.drop (m.pos + 1),
        by rw [← List.drop_eq_getElem_cons hpos, List.take_append_drop], by simp; omega⟩
    have hL := hw.left
    have hR := hw.right
    rw [hT, ← hA, List.take_left] at hL
    rw [hT, ← hA, List.drop_left] at hR
    have ha := absorbL_ok (m := m.mat) (t := t) hR.1.symm
    set t' : Ten ℂ := ⟨m.mat.r, t.r, t.d, fun i j s => ∑ k ∈ range t.l, m.mat.v i k * t.v k j s⟩
    refine ⟨A ++ t' :: B, ?_, ?_, ?_, ?_, ?_⟩
    · unfold MPS.tolist
      rw [if_pos hpos, hT, ← hA, getT_append]
      simp only [ha]
      rw [set_append]
    · exact linked_append.mpr ⟨_, hL, rfl, hR.2⟩
    · simp [MPS.ds, hT, t']
    · intro k _
      unfold MPS.leftDim
      rw [← hA, hT]
      split_ifs with hk
      · subst hk; simp [t']
      · rcases Nat.lt_or_ge k A.length with h | h
        · rw [List.getElem?_append_left h, List.getElem?_append_left h]
        · obtain ⟨q, rfl⟩ : ∃ q, k = A.length + (q + 1) := ⟨k - A.length - 1, by omega⟩
          rw [List.getElem?_append_right (by omega), List.getElem?_append_right (by omega)]
          simp
    · intro s hs i hi j _
      rw [amp_eq_split, hT, ← hA, List.take_left, List.drop_left]
      have h1 : (s.take A.length).length = A.length := by simp; omega
      obtain ⟨x, ss, hx⟩ : ∃ x ss, s.drop A.length = x :: ss := by
        cases h : s.drop A.length with
        | nil => simp at h; omega
        | cons x ss => exact ⟨x, ss, rfl⟩
      rw [hx, ← split_absorbL hL ha B _ h1 x ss hi j, ← hx, List.take_append_drop]
  · have hpe : m.pos = m.tensors.length := by omega
    have hne : m.tensors ≠ [] := by intro h; rw [h] at hlen; simp at hlen; omega
    obtain ⟨A, t, hT⟩ : ∃ A t, m.tensors = A ++ [t] :=
      ⟨_, _, (List.dropLast_append_getLast hne).symm⟩
    have hL := hw.left
    have hR := hw.right
    rw [hpe, List.take_length, hT] at hL
    rw [hpe, List.drop_length] at hR
    simp only [Linked] at hR
    obtain ⟨q, hLA, hLt⟩ := linked_append.mp hL
    have hLt' := hLt
    simp only [Linked] at hLt
    obtain ⟨hq, hr⟩ := hLt
    subst hq
    have ha := absorbR_ok (m := m.mat) (t := t) hr
    set t' : Ten ℂ := ⟨t.l, m.mat.c, t.d, fun i j s => ∑ k ∈ range t.r, t.v i k s * m.mat.v k j⟩
    have hpA : m.pos - 1 = A.length := by rw [hpe, hT]; simp
    refine ⟨A ++ [t'], ?_, ?_, ?_, ?_, ?_⟩
    · unfold MPS.tolist
      rw [if_neg hpos, if_pos hpe, hpA, hT, getT_append]
      simp only [ha]
      rw [set_append]
    · exact linked_append.mpr ⟨t.l, hLA, rfl, hR⟩
    · simp [MPS.ds, hT, t']
    · intro k hk
      unfold MPS.leftDim
      have hlA : m.tensors.length = A.length + 1 := by rw [hT]; simp
      rw [if_neg (by omega), hT]
      rcases Nat.lt_or_ge k A.length with h | h
      · rw [List.getElem?_append_left h, List.getElem?_append_left h]
      · obtain rfl : k = A.length := by omega
        rw [List.getElem?_append_right (by omega), List.getElem?_append_right (by omega)]
        simp [t']
    · intro s hs i hi j hj
      have hsl : s.length = A.length + 1 := by rw [hs, ← hlen, hT]; simp
      have hsn : s ≠ [] := by rintro rfl; simp at hsl
      obtain ⟨w, x, rfl⟩ : ∃ w x, s = w ++ [x] :=
        ⟨_, _, (List.dropLast_append_getLast hsn).symm⟩
      have hwl : w.length = A.length := by simpa using hsl
      rw [chain_append_absorbR hLA ha w hwl x hi (by omega)]
      unfold MPS.amp
      have e1 : m.pos = (w ++ [x]).length := by rw [hsl, hpe, hT]; simp
      have e2 : m.tensors.drop m.pos = [] := by rw [hpe]; simp
      have e3 : m.tensors.take m.pos = m.tensors := by rw [hpe]; simp
      rw [e2, e3, hT, e1, List.take_length, List.drop_length]
      simp only [chain]
      congr 1
      apply sum_congr rfl; intro k _
      rw [sum_delta_right (by omega)]

/-- The norm factor is only multiplied by positive numbers in a sweep. -/
theorem sweepR_Z {cut : Ten ℂ → Res (Ten ℂ × Mat ℂ × ℝ)}
    (hcut : ∀ t a m z, cut t = .ok (a, m, z) → 0 < z) {bond : ℕ} :
    ∀ (k n : ℕ) (w w' : Sweep), sweepR cut bond k n w = .ok w' →
      ∃ z : ℝ, 0 < z ∧ w'.Z = w.Z * z := by
  intro k
  induction k with
  | zero => intro n w w' h; simp only [sweepR] at h; cases h; exact ⟨1, one_pos, by simp⟩
  | succ k ih =>
    intro n w w' h
    simp only [sweepR] at h
    split at h
    · cases h
    split at h
    · cases h
    rename_i a m z hc
    have hz := hcut _ _ _ _ hc
    split at h
    · split at h
      · cases h
      split at h
      · cases h
      obtain ⟨z', h1, h2⟩ := ih _ _ _ h
      exact ⟨z * z', mul_pos hz h1, by rw [h2]; push_cast; ring⟩
    · obtain ⟨z', h1, h2⟩ := ih _ _ _ h
      exact ⟨z * z', mul_pos hz h1, by rw [h2]; push_cast; ring⟩

theorem sweepL_Z {cut : Ten ℂ → Res (Ten ℂ × Mat ℂ × ℝ)}
    (hcut : ∀ t a m z, cut t = .ok (a, m, z) → 0 < z) {bond : ℕ} :
    ∀ (k : ℕ) (w w' : Sweep), sweepL cut bond k w = .ok w' →
      ∃ z : ℝ, 0 < z ∧ w'.Z = w.Z * z := by
  intro k
  induction k with
  | zero => intro w w' h; simp only [sweepL] at h; cases h; exact ⟨1, one_pos, by simp⟩
  | succ k ih =>
    intro w w' h
    simp only [sweepL] at h
    split at h
    · cases h
    split at h
    · cases h
    rename_i a m z hc
    have hz := hcut _ _ _ _ hc
    split at h
    · split at h
      · cases h
      split at h
      · cases h
      obtain ⟨z', h1, h2⟩ := ih _ _ h
      exact ⟨z * z', mul_pos hz h1, by rw [h2]; push_cast; ring⟩
    · obtain ⟨z', h1, h2⟩ := ih _ _ h
      exact ⟨z * z', mul_pos hz h1, by rw [h2]; push_cast; ring⟩

/-- A non-truncating move multiplies `Z` by a positive number. -/
theorem position_Z {O : LinAlg} (hO : O.Spec) {m m' : MPS} {b : ℤ} {sth : ℝ}
    (hs : m.effSth sth < 1e-15) (h : m.position O b sth none = .ok m') :
    ∃ z : ℝ, 0 < z ∧ m'.Z = m.Z * z := by
  unfold MPS.position at h
  split at h
  · cases h
  split at h
  · cases h
  simp only at h
  split at h
  · cases h; exact ⟨1, one_pos, by simp⟩
  split at h
  · split at h
    · cases h
    split at h
    · cases h
    split at h
    · cases h
    rename_i w hw
    cases h
    exact sweepR_Z (fun t a m z hc => (cutR_exact hO hs t a m z hc).zpos) _ _ _ _ hw
  · split at h
    · cases h
    split at h
    · cases h
    split at h
    · cases h
    rename_i w hw
    cases h
    exact sweepL_Z (fun t a m z hc => (cutL_exact hO hs t a m z hc).zpos) _ _ _ hw

/-- A call of `productState` that raises nothing. -/
theorem productState_ok {vs : List (List ℂ)} {obc : Bool} {sth rth : ℝ} (h0 : vs ≠ [])
    (h1 : ∀ v ∈ vs, ¬ tinyVec v) (h2 : ¬ (obc = true ∧ vs.length = 1)) :
    ∃ m m', MPS.init (vs.map vecTen) sth rth = .ok m' ∧ m = { m' with obc := obc, Z := 1 } ∧
      MPS.productState vs obc sth rth = .ok m := by
  obtain ⟨m', hm'⟩ := init_ok (ts := vs.map vecTen) (by simpa using h0) sth rth
  refine ⟨{ m' with obc := obc, Z := 1 }, m', hm', rfl, ?_⟩
  unfold MPS.productState
  rw [if_neg (by push Not; exact h1), if_neg h2, hm']

end

end PyTeN
