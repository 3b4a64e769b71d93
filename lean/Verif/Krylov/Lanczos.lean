import Verif.Basic
import Mathlib.Analysis.InnerProductSpace.Basic

/-! # `LanczosEngine` and `LanczosTimeEvolution` of lib/Lanczos/LanczosEngine.py

Vectors are elements of a complex inner product space `V`; `vecvec(x.conjugate(),y)` is the inner product, as for the
`np.dot` that every caller in the package passes.  Arithmetic is exact.  `matvec` is any function; it is assumed to return
a new array (the code subtracts from the returned array in place).  `dtype` handling is not modelled, except in `doStep`. -/

namespace PyTeN.Lanczos
open Finset

noncomputable section

/-- The arguments of the constructor, lib/Lanczos/LanczosEngine.py:30-41; negative counts are not modelled. -/
structure Params where
  Ndiag : ℕ
  ncv : ℕ
  numeig : ℕ
  delta : ℝ
  deltaEta : ℝ

/-- `__init__`, lib/Lanczos/LanczosEngine.py:30-41. -/
def init (p : Params) : Res Params :=
  if ¬ p.ncv ≥ p.numeig then .error .assertion
  else if ¬ p.Ndiag > 0 then .error .assertion
  else .ok p

/-- Contract of `np.linalg.eigh`: eigenvalues in ascending order and a matrix of eigenvectors as columns. -/
abbrev Eigh := Mat ℂ → List ℝ × Mat ℂ

/-- The local variables of the loop: `kn`, `epsn`, `self._vecs`, `etaold` (`none` while `first==True`), and the number of
calls of `matvec` so far (not a variable of the code). -/
structure St (V : Type) where
  kn : List ℝ
  eps : List ℂ
  vecs : List V
  etaold : Option (List ℝ)
  calls : ℕ

/-- `np.diag(epsn)+np.diag(kn[1:],1)+np.diag(np.conj(kn[1:]),-1)`, lib/Lanczos/LanczosEngine.py:87 and 102.  The three
summands have the same shape, except for an empty `epsn`, where the sum is empty too. -/
def heff (kn : List ℝ) (eps : List ℂ) : Mat ℂ :=
  ⟨eps.length, eps.length, fun i j =>
    (if i = j then eps.getD i 0 else 0) + (if i + 1 = j then (((kn.drop 1).getD i 0 : ℝ) : ℂ) else 0)
      + (if i = j + 1 then (starRingEnd ℂ) (((kn.drop 1).getD j 0 : ℝ) : ℂ) else 0)⟩

/-- `np.linalg.norm(a-b)` of two real vectors of equal length. -/
def dist2 (a b : List ℝ) : ℝ := Real.sqrt ((List.zipWith (fun x y => (x - y) ^ 2) a b).sum)

variable {V : Type} [NormedAddCommGroup V] [InnerProductSpace ℂ V]

/-- `for v in self._vecs: xn-=dot(v.conjugate(),xn)*v`, lib/Lanczos/LanczosEngine.py:79-81. -/
def reorth (vecs : List V) (xn : V) : V := vecs.foldl (fun x v => x - (inner ℂ v x) • v) xn

/-- The diagonalisation of lines 85-93: the new `etaold` and whether the eigenvalues changed by less than `deltaEta`. -/
def diagCheck (eigh : Eigh) (p : Params) (it : ℕ) (kn : List ℝ) (eps : List ℂ) (etaold : Option (List ℝ)) :
    Option (List ℝ) × Bool :=
  if it % p.Ndiag = 0 ∧ eps.length ≥ p.numeig then
    (some ((eigh (heff kn eps)).1.take p.numeig), match etaold with
      | none => false
      | some old => decide (dist2 ((eigh (heff kn eps)).1.take p.numeig) (old.take p.numeig) < p.deltaEta))
  else (etaold, false)

/-- One pass of the loop body after the test of the norm, lib/Lanczos/LanczosEngine.py:74-99: the new local variables,
the new `xn` and the flag `converged`. -/
def body (matvec : V → V) (eigh : Eigh) (p : Params) (reortho : Bool) (it : ℕ) (st : St V) (xn : V) : St V × V × Bool :=
  let k := ‖xn‖
  let kn := st.kn ++ [k]
  let x := ((1 / k : ℝ) : ℂ) • xn
  let x := if reortho then reorth st.vecs x else x
  let Hx := matvec x
  let e : ℂ := inner ℂ x Hx
  let eps := st.eps ++ [e]
  let chk := diagCheck eigh p it kn eps st.etaold
  let Hx := Hx - e • x
  let Hx := if it > 0 then Hx - (k : ℂ) • ((st.vecs ++ [x]).getD ((st.vecs ++ [x]).length - 2) 0) else Hx
  (⟨kn, eps, st.vecs ++ [x], chk.1, st.calls + 1⟩, Hx, chk.2)

/-- The loop `while converged==False`, lib/Lanczos/LanczosEngine.py:67-100.  A division by the norm zero gives nan.
Result: the local variables, the last `xn` and the flag `converged`. -/
def loop (matvec : V → V) (eigh : Eigh) (p : Params) (reortho : Bool) (it : ℕ) (st : St V) (xn : V) :
    Res (St V × V × Bool) :=
  if ‖xn‖ < p.delta then .ok (st, xn, true)
  else if ‖xn‖ = 0 then .error .nan
  else
    let r := body matvec eigh p reortho it st xn
    if it + 1 > p.ncv then .ok r
    else if r.2.2 = true then .ok r
    else loop matvec eigh p reortho (it + 1) r.1 r.2.1
termination_by p.ncv - it

/-- What `__simulate__` returns (`eta`, `states`, `converged`), together with the members and local variables that the
properties speak about. -/
structure Out (V : Type) where
  eta : List ℝ
  states : List V
  converged : Bool
  st : St V
  last : V

/-- `state=Σ vecs[n1]*u[n1,n2]`, lib/Lanczos/LanczosEngine.py:106-108. -/
def combine (vecs : List V) (u : Mat ℂ) (k : ℕ) : V := ∑ n ∈ range vecs.length, u.v n k • vecs.getD n 0

/-- `for n2 in range(min(numeig,len(eta)))`, lib/Lanczos/LanczosEngine.py:104-110; `todo` are the remaining values of `n2`. -/
def states (vecs : List V) (u : Mat ℂ) : List ℕ → Res (List V)
  | [] => .ok []
  | k :: todo =>
    if ‖combine vecs u k‖ = 0 then .error .nan
    else match states vecs u todo with
      | .error e => .error e
      | .ok vs => .ok ((((1 / ‖combine vecs u k‖ : ℝ) : ℂ) • combine vecs u k) :: vs)

/-- `__simulate__(initialstate,reortho)`, lib/Lanczos/LanczosEngine.py:44-111.  The first call of `matvec` only
determines the dtype. -/
def simulate (matvec : V → V) (eigh : Eigh) (p : Params) (reortho : Bool) (x0 : V) : Res (Out V) :=
  if ‖x0‖ = 0 then .error .nan
  else
    match loop matvec eigh p reortho 0 ⟨[], [], [], none, 1⟩ (((1 / ‖x0‖ : ℝ) : ℂ) • x0) with
    | .error e => .error e
    | .ok (st, last, conv) =>
      let r := eigh (heff st.kn st.eps)
      match states st.vecs r.2 (List.range (min p.numeig r.1.length)) with
      | .error e => .error e
      | .ok vs => .ok ⟨r.1.take (min p.numeig r.1.length), vs, conv, st, last⟩

/-- `lanczos(…)`, lib/mpslib/mpsfunctions.py:1156-1176, and `lanczosbond(…)`, 1179-1198, apart from the reshapes: the list
of the `numeig` pairs `e[n], v[n]` (for `numeig==1` the single pair). -/
def lanczosFn (matvec : V → V) (eigh : Eigh) (p : Params) (x0 : V) : Res (List (ℝ × V)) :=
  match init p with
  | .error e => .error e
  | .ok p =>
    match simulate matvec eigh p false x0 with
    | .error e => .error e
    | .ok o =>
      if (if p.numeig = 1 then 1 else p.numeig) > o.eta.length then .error .index
      else .ok ((o.eta.zip o.states).take p.numeig)

/-- `LanczosTimeEvolution(matvec,vecvec,zeros_initializer,ncv,delta)`, lib/Lanczos/LanczosEngine.py:126-127. -/
def timeParams (ncv : ℕ) (delta : ℝ) : Params := ⟨ncv, ncv, ncv, delta, 1e-10⟩

/-- `LanczosTimeEvolution.__doStep__(state,dt)`, lib/Lanczos/LanczosEngine.py:130-143.  `cast` is `state.astype(type(dt))`
and `expm` is `sp.linalg.expm` of `dt*self._Heff`. -/
def doStep (matvec : V → V) (eigh : Eigh) (expm : Mat ℂ → Mat ℂ) (cast : V → V) (ncv : ℕ) (delta : ℝ) (dt : ℂ) (state : V) :
    Res V :=
  match init (timeParams ncv delta) with
  | .error e => .error e
  | .ok p =>
    match simulate matvec eigh p true (cast state) with
    | .error e => .error e
    | .ok o =>
      let H := heff o.st.kn o.st.eps
      let U := expm ⟨H.r, H.c, fun i j => dt * H.v i j⟩
      .ok (∑ n ∈ range (min p.ncv H.r), U.v n 0 • o.st.vecs.getD n 0)

end

end PyTeN.Lanczos
