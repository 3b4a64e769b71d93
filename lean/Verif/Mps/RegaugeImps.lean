import Verif.Mps.LinAlg
import Verif.Env.Transfer
import Verif.Krylov.Eigh
import Verif.Ham.Fermion
import Mathlib.Analysis.SpecialFunctions.Pow.Real

/-! # `UnitcellTMeigs` and `regaugeIMPS` of lib/mpslib/mpsfunctions.py -/

namespace PyTeN.Regauge
open Finset Transfer Lanczos
noncomputable section

/-- `scipy.sparse.linalg.eigs(LOP,k,which='LM',...)` for a `LinearOperator` of shape `(n,n)` with the product `f`: the pairs of
eigenvalues and eigenvectors.  The initial vector, the tolerance and the number of iterations are not modelled. -/
abbrev Eigs := ℕ → (Vec ℂ → Res (Vec ℂ)) → ℕ → Res (List (ℂ × Vec ℂ))

/-- `eta[m],vec[:,m]` for `m=np.argmax(np.real(eta))`: the first pair with the largest real part; ValueError for an empty array. -/
def argmaxRe : List (ℂ × Vec ℂ) → Res (ℂ × Vec ℂ)
  | [] => .error .value
  | x :: l =>
    match argmaxRe l with
    | .error _ => .ok x
    | .ok y => if y.1.re ≤ x.1.re then .ok x else .ok y

/-- `np.abs(np.imag(eta[m]))/np.abs(np.real(eta[m]))>1E-4`, lib/mpslib/mpsfunctions.py:1683; for a vanishing real part the quotient
is inf, or nan, which is not larger than anything. -/
def largeImag (η : ℂ) : Prop := if η.re = 0 then η.im ≠ 0 else |η.im| / |η.re| > 1e-4

open Classical in
/-- The calls of the eigensolver and the while loop, lib/mpslib/mpsfunctions.py:1680-1688: `n` is the dimension of the operator, `k` is
`numeig`.  scipy refuses to compute `k>=n-1` eigenvalues of a `LinearOperator` (TypeError), so the loop ends after at most `n` steps
and the case of exhausted fuel, in which `k>n`, is this error, too. -/
def tmLoop (eigs : Eigs) (n : ℕ) (f : Vec ℂ → Res (Vec ℂ)) : ℕ → ℕ → Res (ℂ × Vec ℂ)
  | 0, _ => .error .type
  | fuel + 1, k =>
    if n ≤ k + 1 then .error .type
    else
      match eigs n f k with
      | .error e => .error e
      | .ok l =>
        match argmaxRe l with
        | .error e => .error e
        | .ok (η, v) => if largeImag η then tmLoop eigs n f fuel (k + 1) else .ok (η, v)

/-- `UnitcellTMeigs(mps,direction,numeig=1,...)`, lib/mpslib/mpsfunctions.py:1666-1697, for complex tensors. -/
def unitcellTMeigs (eigs : Eigs) (dir : Dir) (ts : List (Ten ℂ)) : Res (ℂ × Vec ℂ) :=
  match ts.head?, ts.getLast? with
  | some a, some b =>
    if a.l ≠ b.r then .error .value
    else tmLoop eigs (a.l * a.l) (unitcellTransferOperator dir ts) (a.l * a.l) 1
  | _, _ => .error .index

/-- `tensor/z` for a real number. -/
def divT (z : ℝ) (t : Ten ℂ) : Ten ℂ := ⟨t.l, t.r, t.d, fun i j s => t.v i j s / (z : ℂ)⟩

/-- `sqrteta=np.real(eta)**(1./(2.*N)); mps[site]=mps[site]/sqrteta` for all sites, lib/mpslib/mpsfunctions.py:2012-2014, 2052-2054,
2097-2099, 2124-2126.  A negative power base gives nan, a division by zero inf or nan; both are reported as `nan`.  The warning about
the imaginary part is not modelled. -/
def rescale (η : ℂ) (ts : List (Ten ℂ)) : Res (List (Ten ℂ)) :=
  if η.re ≤ 0 then .error .nan
  else .ok (ts.map (divT (η.re ^ (1 / (2 * (ts.length : ℝ))))))

/-- `w/=np.sum(w)`. -/
def unitSum (w : List ℝ) : Res (List ℝ) := if w.sum = 0 then .error .nan else .ok (w.map (· / w.sum))

/-- `eigvals=np.abs(eigvals); eigvals/=np.sum(eigvals); eigvals[eigvals<pinv]=0.0; eigvals/=np.sum(eigvals)` and `inveigvals`,
lib/mpslib/mpsfunctions.py:2024-2031. -/
def cleanEig (pinv : ℝ) (w : List ℝ) : Res (List ℝ × List ℝ) :=
  match unitSum (w.map fun x => |x|) with
  | .error e => .error e
  | .ok w1 =>
    match unitSum (w1.map fun x => if x < pinv then 0 else x) with
    | .error e => .error e
    | .ok w2 => .ok (w2, w2.map fun x => if x > pinv then 1 / x else 0)

/-- `np.reshape(v,(n,n))`, the division by the trace, the symmetrisation, `eigh` and the treatment of the eigenvalues,
lib/mpslib/mpsfunctions.py:2019-2031 (2058-2073, 2103-2118, 2130-2144): `eigvals`, `inveigvals`, `u`. -/
def density (eigh : Eigh) (pinv : ℝ) (n : ℕ) (v : Vec ℂ) : Res (List ℝ × List ℝ × Mat ℂ) :=
  match reshape2 v n n with
  | .error e => .error e
  | .ok l =>
    let tr := ∑ i ∈ range n, l.v i i
    if tr = 0 then .error .nan
    else
      let h : Mat ℂ := ⟨n, n, fun i j => (l.v i j / tr + star (l.v j i / tr)) / 2⟩
      match cleanEig pinv (eigh h).1 with
      | .error e => .error e
      | .ok (w, wi) => .ok (w, wi, (eigh h).2)

/-- `np.transpose` of a matrix. -/
def transp (M : Mat ℂ) : Mat ℂ := ⟨M.c, M.r, fun i j => M.v j i⟩

/-- `mps[0]=f(mps[0])`. -/
def onFirst (f : Ten ℂ → Res (Ten ℂ)) : List (Ten ℂ) → Res (List (Ten ℂ))
  | [] => .error .index
  | t :: ts =>
    match f t with
    | .error e => .error e
    | .ok t' => .ok (t' :: ts)

/-- `mps[N-1]=f(mps[N-1])`. -/
def onLast (f : Ten ℂ → Res (Ten ℂ)) : List (Ten ℂ) → Res (List (Ten ℂ))
  | [] => .error .index
  | [t] =>
    match f t with
    | .error e => .error e
    | .ok t' => .ok [t']
  | t :: u :: ts =>
    match onLast f (u :: ts) with
    | .error e => .error e
    | .ok us => .ok (t :: us)

/-- `for n in range(N-1): tensor,rest,Z=prepareTensor(mps[n],1); mps[n]=tensor; mps[n+1]=np.tensordot(rest,mps[n+1],([1],[0]))`,
lib/mpslib/mpsfunctions.py:2039-2043, 2162-2166, 2175-2179, 2200-2206; `t` is `mps[n]`. -/
def sweepR (O : LinAlg) : Ten ℂ → List (Ten ℂ) → Res (List (Ten ℂ))
  | t, [] => .ok [t]
  | t, u :: rest =>
    match prepareTensor O t 1 with
    | .error e => .error e
    | .ok (A, r, _) =>
      match absorbL r u with
      | .error e => .error e
      | .ok u' =>
        match sweepR O u' rest with
        | .error e => .error e
        | .ok done => .ok (A :: done)

/-- `for n in range(N-1,0,-1): tensor,rest,Z=prepareTensor(mps[n],-1); mps[n]=tensor;
mps[n-1]=np.transpose(np.tensordot(mps[n-1],rest,([1],[0])),(0,2,1))`, lib/mpslib/mpsfunctions.py:2082-2086, 2169-2173; `t` is `mps[n]`,
`left` holds `mps[n-1],…,mps[0]`, `G` the finished `mps[n+1:]`. -/
def sweepL (O : LinAlg) : Ten ℂ → List (Ten ℂ) → List (Ten ℂ) → Res (List (Ten ℂ))
  | t, [], G => .ok (t :: G)
  | t, u :: left, G =>
    match prepareTensor O t (-1) with
    | .error e => .error e
    | .ok (B, r, _) =>
      match absorbR u r with
      | .error e => .error e
      | .ok u' => sweepL O u' left (B :: G)

/-- `for n in range(N-1,0,-1): U,S,tensor,Z=prepareTruncate(mps[n],direction=-1,D=D,thresh=truncate,...); mps[n]=tensor;
mps[n-1]=np.transpose(np.tensordot(mps[n-1],U.dot(np.diag(S)),([1],[0])),(0,2,1))`, lib/mpslib/mpsfunctions.py:2208-2212. -/
def sweepT (O : LinAlg) (D : Option ℕ) (thresh : ℝ) : Ten ℂ → List (Ten ℂ) → List (Ten ℂ) → Res (List (Ten ℂ))
  | t, [], G => .ok (t :: G)
  | t, u :: left, G =>
    match prepareTruncateL O t D thresh with
    | .error e => .error e
    | .ok (U, S, B, _) =>
      match absorbR u (U.dot (diagMat S)) with
      | .error e => .error e
      | .ok u' => sweepT O D thresh u' left (B :: G)

/-- `f(mps[0],mps[1:])`. -/
def fromFirst (f : Ten ℂ → List (Ten ℂ) → Res (List (Ten ℂ))) : List (Ten ℂ) → Res (List (Ten ℂ))
  | [] => .error .index
  | t :: ts => f t ts

/-- `f(mps[N-1],mps[N-2::-1])`. -/
def fromLast (f : Ten ℂ → List (Ten ℂ) → Res (List (Ten ℂ))) (ts : List (Ten ℂ)) : Res (List (Ten ℂ)) := fromFirst f ts.reverse

/-- `Z=np.trace(np.tensordot(t,np.conj(t),([0,2],[0,2])))/np.shape(t)[1]; t/np.sqrt(Z)`, lib/mpslib/mpsfunctions.py:2045-2046,
2181-2182. -/
def unitLast (t : Ten ℂ) : Res (Ten ℂ) :=
  let Z := (∑ j ∈ range t.r, ∑ i ∈ range t.l, ∑ s ∈ range t.d, Complex.normSq (t.v i j s)) / t.r
  if Z = 0 then .error .nan else .ok (divT (Real.sqrt Z) t)

/-- `Z=np.trace(np.tensordot(t,np.conj(t),([1,2],[1,2])))/np.shape(t)[0]; t/np.sqrt(Z)`, lib/mpslib/mpsfunctions.py:2088-2089,
2214-2215. -/
def unitFirst (t : Ten ℂ) : Res (Ten ℂ) :=
  let Z := (∑ i ∈ range t.l, ∑ j ∈ range t.r, ∑ s ∈ range t.d, Complex.normSq (t.v i j s)) / t.l
  if Z = 0 then .error .nan else .ok (divT (Real.sqrt Z) t)

/-- Sequencing of steps that may fail. -/
def andThen {α β : Type*} (x : Res α) (f : α → Res β) : Res β :=
  match x with
  | .error e => .error e
  | .ok a => f a

/-- The matrices `np.eye(n)/np.sqrt(n)` returned for the gauges left and right: the diagonal. -/
def flatDiag (n : ℕ) : List ℝ := List.replicate n (1 / Real.sqrt n)

/-- `gauge=='left'`, lib/mpslib/mpsfunctions.py:2010-2047: the tensors and the diagonal of the returned matrix. -/
def gaugeLeft (O : LinAlg) (eigh : Eigh) (eigs : Eigs) (pinv : ℝ) (n : ℕ) (ts : List (Ten ℂ)) : Res (List (Ten ℂ) × List ℝ) :=
  andThen (unitcellTMeigs eigs .right ts) fun (η, vl) =>
  andThen (rescale η ts) fun ts1 =>
  andThen (density eigh pinv n vl) fun (w, wi, u) =>
  let y := u.dot (diagMat (w.map Real.sqrt))
  let invy := (diagMat (wi.map Real.sqrt)).dot u.herm
  andThen (onFirst (absorbL (transp y)) ts1) fun ts2 =>
  andThen (onLast (fun t => absorbR t (transp invy)) ts2) fun ts3 =>
  andThen (fromFirst (sweepR O) ts3) fun ts4 =>
  andThen (onLast unitLast ts4) fun ts5 =>
  .ok (ts5, flatDiag ((ts5.getLast?.map Ten.r).getD 0))

/-- `gauge=='right'`, lib/mpslib/mpsfunctions.py:2048-2090. -/
def gaugeRight (O : LinAlg) (eigh : Eigh) (eigs : Eigs) (pinv : ℝ) (n : ℕ) (ts : List (Ten ℂ)) : Res (List (Ten ℂ) × List ℝ) :=
  andThen (unitcellTMeigs eigs .left ts) fun (η, vr) =>
  andThen (rescale η ts) fun ts1 =>
  andThen (density eigh pinv n vr) fun (w, wi, u) =>
  let x := u.dot (diagMat (w.map Real.sqrt))
  let invx := (diagMat (wi.map Real.sqrt)).dot u.herm
  andThen (onLast (fun t => absorbR t x) ts1) fun ts2 =>
  andThen (onFirst (absorbL invx) ts2) fun ts3 =>
  andThen (fromLast (fun t l => sweepL O t l []) ts3) fun ts4 =>
  andThen (onFirst unitFirst ts4) fun ts5 =>
  .ok (ts5, flatDiag ((ts5.head?.map Ten.l).getD 0))

/-- `U[:,0:k]`. -/
def takeCols (M : Mat ℂ) (k : ℕ) : Mat ℂ := ⟨M.r, min k M.c, M.v⟩

/-- `Vdag[0:k,:]`. -/
def takeRows (M : Mat ℂ) (k : ℕ) : Mat ℂ := ⟨min k M.r, M.c, M.v⟩

/-- The quantities computed for `gauge=='symmetric'` before the truncation, lib/mpslib/mpsfunctions.py:2092-2149: the rescaled
tensors, `invx`, `invy` and the singular value decomposition of `y.dot(x)`, which is square. -/
def symParts (O : LinAlg) (eigh : Eigh) (eigs : Eigs) (pinv : ℝ) (n : ℕ) (ts : List (Ten ℂ)) :
    Res (List (Ten ℂ) × Mat ℂ × Mat ℂ × Mat ℂ × List ℝ × Mat ℂ) :=
  andThen (unitcellTMeigs eigs .left ts) fun (η, vr) =>
  andThen (rescale η ts) fun ts1 =>
  andThen (density eigh pinv n vr) fun (w, wi, u) =>
  let x := (u.dot (diagMat (w.map Real.sqrt))).dot u.herm
  let invx := (u.dot (diagMat (wi.map Real.sqrt))).dot u.herm
  andThen (unitcellTMeigs eigs .right ts1) fun (η', vl) =>
  andThen (rescale η' ts1) fun ts2 =>
  andThen (density eigh pinv n vl) fun (w', wi', u') =>
  let y := transp ((u'.dot (diagMat (w'.map Real.sqrt))).dot u'.herm)
  let invy := ((transp u'.herm).dot (diagMat (wi'.map Real.sqrt))).dot (transp u')
  let usv := O.svd (y.dot x)
  .ok (ts2, invx, invy, usv.1, usv.2.1, usv.2.2)

/-- `lam=lam/np.linalg.norm(lam)`, the selection `sel`, and `lam/=np.linalg.norm(lam)`, lib/mpslib/mpsfunctions.py:2151-2157,
2190-2196. -/
def schmidt (sel : List ℝ → List ℝ) (s : List ℝ) : Res (List ℝ) :=
  match normalise s with
  | .error e => .error e
  | .ok lam => normalise (sel lam)

/-- The multiplication of the end tensors by `np.diag(lam).dot(Vdag).dot(invx)` and `invy.dot(U)` and the sweep to the right,
lib/mpslib/mpsfunctions.py:2155-2166, 2194-2206. -/
def symEnds (O : LinAlg) (ts : List (Ten ℂ)) (invx invy U : Mat ℂ) (lam : List ℝ) (Vd : Mat ℂ) : Res (List (Ten ℂ)) :=
  andThen (onFirst (absorbL (((diagMat lam).dot (takeRows Vd lam.length)).dot invx)) ts) fun ts1 =>
  andThen (onLast (fun t => absorbR t (invy.dot (takeCols U lam.length))) ts1) fun ts2 =>
  fromFirst (sweepR O) ts2

/-- `gauge=='symmetric'`, lib/mpslib/mpsfunctions.py:2092-2216: the tensors and the diagonal of the returned matrix.  Every recursive
call after the first one is made with fewer states on the outer bond than the call before, and scipy refuses operators of dimension
one and zero (TypeError), so that with `fuel` larger than the number of states the case without fuel is never reached with a state
for which anything else would happen. -/
def gaugeSym (O : LinAlg) (eigh : Eigh) (eigs : Eigs) (pinv : ℝ) : ℕ → ℝ → Option ℕ → List (Ten ℂ) → Res (List (Ten ℂ) × List ℝ)
  | 0, _, _, _ => .error .type
  | fuel + 1, truncate, D, ts =>
    andThen (symParts O eigh eigs pinv ((ts.head?.map Ten.l).getD 0) ts) fun (ts1, invx, invy, U, s, Vd) =>
    if truncate ≤ 1e-15 then
      andThen (schmidt (fun l => l.filter (1e-15 < ·)) s) fun lam =>
      andThen (symEnds O ts1 invx invy U lam Vd) fun ts2 =>
      if s.length ≠ lam.length then
        andThen (fromLast (fun t l => sweepL O t l []) ts2) fun ts3 =>
        andThen (fromFirst (sweepR O) ts3) fun ts4 =>
        andThen (onLast unitLast ts4) fun ts5 => gaugeSym O eigh eigs pinv fuel 1e-16 D ts5
      else
        andThen (onLast unitLast ts2) fun ts3 => .ok (ts3, lam)
    else
      andThen (schmidt (fun l => match D with
        | none => l.filter (truncate < ·)
        | some D => (l.filter (truncate < ·)).take (min (l.filter (truncate < ·)).length D)) s) fun lam =>
      andThen (symEnds O ts1 invx invy U lam Vd) fun ts2 =>
      andThen (fromLast (fun t l => sweepT O D truncate t l []) ts2) fun ts3 =>
      andThen (onFirst unitFirst ts3) fun ts4 => gaugeSym O eigh eigs pinv fuel 1e-16 (some 10) ts4

/-- `regaugeIMPS(mps,gauge,truncate,D,pinv)`, lib/mpslib/mpsfunctions.py:1973-2216, for a list of tensors: the list after the call and
the diagonal of the returned matrix.  For other values of `gauge` nothing is done and None is returned, here `none`.  Not modelled:
the warnings, and the arguments of the eigensolver (`ldens`, `rdens`, `nmaxit`, `tol`, `ncv`). -/
def regaugeImps (O : LinAlg) (eigh : Eigh) (eigs : Eigs) (gauge : String) (truncate : ℝ) (D : Option ℕ) (pinv : ℝ) (ts : List (Ten ℂ)) :
    Res (Option (List (Ten ℂ) × List ℝ)) :=
  match ts.head?, ts.getLast? with
  | some a, some b =>
    if a.l ≠ b.r then .error .assertion
    else if gauge = "left" then andThen (gaugeLeft O eigh eigs pinv a.l ts) fun x => .ok (some x)
    else if gauge = "right" then andThen (gaugeRight O eigh eigs pinv a.l ts) fun x => .ok (some x)
    else if gauge = "symmetric" then andThen (gaugeSym O eigh eigs pinv (a.l + 2) truncate D ts) fun x => .ok (some x)
    else .ok none
  | _, _ => .error .index

end
end PyTeN.Regauge
