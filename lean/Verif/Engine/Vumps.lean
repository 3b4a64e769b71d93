import Verif.Engine.Solvers
import Verif.Engine.Container
import Verif.Env.Steady
import Verif.Mps.Correl

/-! # `TMeigs`, `regauge`, `RENORMBLOCKHAMGMRES` (lib/mpslib/mpsfunctions.py) and `VUMPSengine` (lib/mpslib/engines.py)

Entries are complex numbers; the real `dtype` is not modelled. -/

namespace PyTeN.Vumps
open Finset Transfer Regauge Steady Lanczos
noncomputable section

/-! ## Functions of mpsfunctions.py -/

/-- `np.abs(np.imag(eta[m]))/np.abs(np.real(eta[m]))>1E-5`, lib/mpslib/mpsfunctions.py:1608; for a vanishing real part the quotient is
inf, or nan, which is not larger than anything. -/
def tooComplex (η : ℂ) : Prop := if η.re = 0 then η.im ≠ 0 else |η.im| / |η.re| > 1e-5

open Classical in
/-- The first call of the eigensolver and the while loop, lib/mpslib/mpsfunctions.py:1606-1611.  Every call has another initial vector:
`eigs i` is the `i`-th one.  The loop of the code has no bound; if it makes more than `fuel` calls the model gives `exit`, which stands
for a call that does not return.  The recursive call after an ArpackError is a further call, too. -/
def tmLoop (eigs : ℕ → Eigs) (n : ℕ) (f : Vec ℂ → Res (Vec ℂ)) (k : ℕ) : ℕ → ℕ → Res (ℂ × Vec ℂ)
  | 0, _ => .error .exit
  | fuel + 1, i =>
    match eigs i n f k with
    | .error e => .error e
    | .ok l =>
      match argmaxRe l with
      | .error e => .error e
      | .ok (η, v) => if tooComplex η then tmLoop eigs n f k fuel (i + 1) else .ok (η, v)

/-- `TMeigs(tensor,direction,numeig,...)`, lib/mpslib/mpsfunctions.py:1586-1626, for complex arrays.  scipy refuses to compute
`numeig>=n-1` eigenvalues of a `LinearOperator` of shape `(n,n)` (TypeError). -/
def tmEigs (eigs : ℕ → Eigs) (fuel : ℕ) (dir : Dir) (numeig : ℕ) (A : Ten ℂ) : Res (ℂ × Vec ℂ) :=
  if A.l ≠ A.r then .error .value
  else if A.l * A.l ≤ numeig + 1 then .error .type
  else tmLoop eigs (A.l * A.l) (transferOperator dir (.arr A)) numeig fuel 0

/-- `tensor/np.sqrt(np.real(eta))`, lib/mpslib/mpsfunctions.py:2366, 2406.  The root of a negative number is nan, a division by zero inf
or nan; both are reported as `nan`. -/
def unitEta (η : ℂ) (A : Ten ℂ) : Res (Ten ℂ) := if η.re ≤ 0 then .error .nan else .ok (divT (Real.sqrt η.re) A)

/-- `regauge(tensor,gauge='left',...,numeig,pinv)`, lib/mpslib/mpsfunctions.py:2361-2394: `out`, `y` and the argument, which is divided
in place. -/
def regaugeL (eigh : Eigh) (eigs : ℕ → Eigs) (fuel numeig : ℕ) (pinv : ℝ) (A : Ten ℂ) : Res (Ten ℂ × Mat ℂ × Ten ℂ) :=
  andThen (tmEigs eigs fuel .right numeig A) fun (η, v) =>
  andThen (unitEta η A) fun T =>
  andThen (density eigh pinv A.l v) fun (w, wi, u) =>
  let y := u.dot (diagMat (w.map Real.sqrt))
  let invy := (diagMat (wi.map Real.sqrt)).dot u.herm
  andThen (absorbL (transp y) T) fun T1 =>
  andThen (absorbR T1 (transp invy)) fun out => .ok (out, y, T)

/-- `regauge(tensor,gauge='right',...,numeig,pinv)`, lib/mpslib/mpsfunctions.py:2396-2427: `out` and `x`; the argument is not changed. -/
def regaugeR (eigh : Eigh) (eigs : ℕ → Eigs) (fuel numeig : ℕ) (pinv : ℝ) (A : Ten ℂ) : Res (Ten ℂ × Mat ℂ) :=
  andThen (tmEigs eigs fuel .left numeig A) fun (η, v) =>
  andThen (unitEta η A) fun T =>
  andThen (density eigh pinv A.r v) fun (w, wi, u) =>
  let x := u.dot (diagMat (w.map Real.sqrt))
  let invx := (diagMat (wi.map Real.sqrt)).dot u.herm
  andThen (absorbL invx T) fun T1 =>
  andThen (absorbR T1 x) fun out => .ok (out, x)

/-- `RENORMBLOCKHAMGMRES(tensor,tensor,r,l,inhom,x0,...,direction)`, lib/mpslib/mpsfunctions.py:2594-2633, with `momentum=0`.  The
argument `x0` is not used: the initial vector is random, here `rnd`.  `lgmres` is called again while it reports an illegal input, which
is not modelled. -/
def renorm (solve : Lgmres) (dir : Dir) (A : Ten ℂ) (r l inhom : Mat ℂ) (rnd : ℕ → ℂ) : Res (Mat ℂ) :=
  let n := match dir with | .right => A.l | .left => A.r
  let m := match dir with | .right => A.r | .left => A.l
  if A.l * A.l = A.r * A.r then
    andThen (flat inhom (n * n)) fun y =>
    andThen (solve (oneMinusPseudo A A r l dir 0) y ⟨n * n, rnd⟩) fun x => reshape2 x m m
  else .error .value

/-- `eigshbond(L,mpo,mps,R,mat0,position='right',...,numvecs)`, lib/mpslib/mpsfunctions.py:1411-1425, with `numvecs_returned=1`;
`HAproductZeroSite` adds the layer of `mps` to `L` in every product.  Shapes that do not fit raise a ValueError (only shapes that agree
axis by axis are accepted here). -/
def eigshBond (arp : Sparse.Arpack) (numvecs : ℕ) (L : Env ℂ) (W : Mpo ℂ) (A : Ten ℂ) (R : Env ℂ) (C : Mat ℂ) : Res (ℂ × Mat ℂ) :=
  andThen (addLayerR L A W A) fun L1 =>
  if BondFits L1 R C.r C.c ∧ L.w = C.r then
    match Sparse.eigsh arp (haBond L1 R) numvecs 1 (C.vec C.r C.c) with
    | .error e => .error e
    | .ok (some (q :: _)) => .ok (q.1, BVec.mat q.2)
    | .ok _ => .error .type
  else .error .value

/-- `eigsh(L,mpo,R,mps0,tolerance,numvecs=1,numcv,numvecs_returned)`, lib/mpslib/mpsfunctions.py:1200-1237, and the choice of the first
vector, lib/mpslib/engines.py:941-948.  For `numvecs_returned<1` None is returned, which cannot be unpacked (TypeError). -/
def eigshFirst (arp : Sparse.Arpack) (returned : ℕ) (L : Env ℂ) (W : Mpo ℂ) (R : Env ℂ) (T : Ten ℂ) : Res (ℂ × Ten ℂ) :=
  if SiteFits L W R T.l T.r T.d then
    match Sparse.eigsh arp (haSite L W R) 1 returned (T.vec T.l T.r T.d) with
    | .error e => .error e
    | .ok (some (q :: _)) => .ok (q.1, TVec.ten q.2)
    | .ok _ => .error .type
  else .error .value

/-- `lanczos(L,mpo,R,mps0,…,numeig,…)`, lib/mpslib/mpsfunctions.py:1156-1175, and the choice of the first vector,
lib/mpslib/engines.py:950-957.  For `numeig=0` the list is empty and has no attribute `shape` (line 960). -/
def lanczosFirst (eigh : Eigh) (p : Params) (numeig : ℕ) (L : Env ℂ) (W : Mpo ℂ) (R : Env ℂ) (T : Ten ℂ) : Res (ℂ × Ten ℂ) :=
  if SiteFits L W R T.l T.r T.d then
    match lanczosFn (haSite L W R) eigh { p with numeig := numeig } (T.vec T.l T.r T.d) with
    | .error e => .error e
    | .ok [] => .error .attribute
    | .ok (q :: _) => .ok (q.1, TVec.ten q.2)
  else .error .value

/-- `lanczosbond(L,mpo,mps,R,mat0,'right',…,numeig,…)`, lib/mpslib/mpsfunctions.py:1177-1198, and the choice of the first vector,
lib/mpslib/engines.py:951-955. -/
def lanczosBond (eigh : Eigh) (p : Params) (numeig : ℕ) (L : Env ℂ) (W : Mpo ℂ) (A : Ten ℂ) (R : Env ℂ) (C : Mat ℂ) : Res (ℂ × Mat ℂ) :=
  andThen (addLayerR L A W A) fun L1 =>
  if BondFits L1 R C.r C.c ∧ L.w = C.r then
    match lanczosFn (haBond L1 R) eigh { p with numeig := numeig } (C.vec C.r C.c) with
    | .error e => .error e
    | .ok [] => .error .attribute
    | .ok (q :: _) => .ok (q.1, BVec.mat q.2)
  else .error .value

/-! ## The engine -/

/-- The routines of numpy, scipy and the random numbers. -/
structure Ext where
  O : LinAlg
  eigh : Eigh
  eigs : ℕ → Eigs
  fuel : ℕ
  solve : Lgmres
  arp : Sparse.Arpack
  /-- `sp.linalg.polar(a,side)`; the flag is `side=='right'` -/
  polar : Mat ℂ → Bool → Mat ℂ × Mat ℂ
  rnd : ℕ → ℂ

/-- The arguments of `simulate` that are modelled; `lan` holds `Ndiag`, `nmaxlan`, `landelta`, `artol`. -/
structure Opts where
  numeig : ℕ
  arnumvecs : ℕ
  svd : Bool
  solver : Solver
  lan : Params
  epsilon : ℝ

/-- The attributes set by `__init__`: `_mps[0]`, `_D`, `_mpo`, `_it`. -/
structure Eng where
  mps : Ten ℂ
  D : ℕ
  W0 : Mpo ℂ
  W : Mpo ℂ
  W2 : Mpo ℂ
  it : ℤ

/-- `VUMPSengine.__init__`, lib/mpslib/engines.py:870-901. -/
def init (mps : List (Ten ℂ)) (mpo : List (Mpo ℂ)) : Res Eng :=
  if mps.length > 1 then .error .value
  else if mpo.length > 1 then .error .value
  else
    match mps, mpo with
    | A :: _, W :: _ =>
      if W.l = 0 ∨ W.r = 0 then .error .index
      else .ok ⟨A, A.l, ⟨1, W.r, W.din, W.dout, fun _ c s t => if c = 0 then W.v (W.l - 1) c s t / 2 else W.v (W.l - 1) c s t⟩, W,
        ⟨W.l, 1, W.din, W.dout, fun b _ s t => if b = W.l - 1 then W.v b 0 s t / 2 else W.v b 0 s t⟩, 1⟩
    | _, _ => .error .index

/-- The attributes `_A`, `_B`, `_mps[0]`, `_mat` that change from step to step. -/
structure St where
  A : Ten ℂ
  B : Ten ℂ
  mps : Ten ℂ
  mat : Mat ℂ

/-- `l=np.reshape(vl,(D,D)); l=l/np.trace(l)`, lib/mpslib/engines.py:906-909; a division by zero is reported as `nan`. -/
def unitTrace (v : Vec ℂ) (D : ℕ) : Res (Mat ℂ) :=
  andThen (reshape2 v D D) fun M => if trace M = 0 then .error .nan else .ok ⟨D, D, fun i j => M.v i j / trace M⟩

/-- `(l+herm(l))/2.0` for a square matrix, lib/mpslib/engines.py:911-912. -/
def hermPart (M : Mat ℂ) : Mat ℂ := ⟨M.r, M.c, fun i j => (M.v i j + star (M.v j i)) / 2⟩

/-- `E[:,:,b]+=K`; broadcasting is not modelled. -/
def addSlice (E : Env ℂ) (b : ℕ) (K : Mat ℂ) : Res (Env ℂ) :=
  if K.r = E.u ∧ K.c = E.w then .ok ⟨E.u, E.w, E.m, fun i j c => if c = b then E.v i j c + K.v i j else E.v i j c⟩ else .error .value

/-- `_lb` and `Elocleft`, lib/mpslib/engines.py:917-919, 924, 927-928, 932: `l` is the hermitised left matrix, `r` the right one before and
`rh` after it is hermitised.  The random start `rnd` replaces `_kleft`. -/
def envLeft (X : Ext) (e : Eng) (A : Ten ℂ) (lh r rh : Mat ℂ) : Res (Env ℂ × ℂ) :=
  andThen (initializeLayerR A (eye e.D) A e.W0) fun lb =>
  andThen (addLayerR lb A e.W2 A) fun E =>
  andThen (pairMat (slice E 0) rh) fun en =>
  andThen (pairMat (slice E 0) r) fun h =>
  andThen (minusEye (slice E 0) h e.D) fun inh =>
  andThen (renorm X.solve .right A lh (eye e.D) inh X.rnd) fun k =>
  andThen (addSlice lb 0 k) fun lb' => .ok (lb', en)

/-- `_rb`, lib/mpslib/engines.py:920-922, 925, 929-930, 933.  (`Elocright` is not used.) -/
def envRight (X : Ext) (e : Eng) (B : Ten ℂ) (rh l lh : Mat ℂ) : Res (Env ℂ × ℂ) :=
  andThen (initializeLayerL B (eye e.D) B e.W2) fun rb =>
  andThen (addLayerL rb B e.W0 B) fun E =>
  andThen (pairMat (slice E (E.m - 1)) lh) fun en =>
  andThen (pairMat l (slice E (E.m - 1))) fun h =>
  andThen (minusEye (slice E (E.m - 1)) h e.D) fun inh =>
  andThen (renorm X.solve .left B (eye e.D) rh inh X.rnd) fun k =>
  andThen (addSlice rb (rb.m - 1) k) fun rb' => .ok (rb', en)

/-- `np.linalg.norm(X-Y)` for tensors; broadcasting is not modelled. -/
def distT (X Y : Ten ℂ) : Res ℝ :=
  if X.l = Y.l ∧ X.r = Y.r ∧ X.d = Y.d then
    .ok (Real.sqrt (∑ i ∈ range X.l, ∑ j ∈ range X.r, ∑ s ∈ range X.d, Complex.normSq (X.v i j s - Y.v i j s)))
  else .error .value

/-- `_gradnorm`, lib/mpslib/engines.py:936-938. -/
def gradNorm (lb : Env ℂ) (W : Mpo ℂ) (rb : Env ℂ) (s : St) : Res ℝ :=
  andThen (contractionH lb s.mps W rb) fun AC =>
  andThen (zeroSiteH lb W s.A rb true s.mat) fun C =>
  andThen (absorbR s.A C) fun Y => distT AC Y

/-- The two eigenproblems, lib/mpslib/engines.py:940-959: the eigenvalues, `_mps[0]` and `_mat`.  The first solver raises before the
second one is called.  For `solver='AR'` and `arnumvecs>1` the first call raises, and so the lines 942-946 are never executed. -/
def solveBoth (X : Ext) (o : Opts) (lb : Env ℂ) (W : Mpo ℂ) (rb : Env ℂ) (s : St) : Res ((ℂ × Ten ℂ) × ℂ × Mat ℂ) :=
  match o.solver with
  | .AR =>
    andThen (eigshFirst X.arp o.arnumvecs lb W rb s.mps) fun t =>
    andThen (eigshBond X.arp o.arnumvecs lb W s.A rb s.mat) fun c => .ok (t, c)
  | .LAN =>
    andThen (lanczosFirst X.eigh o.lan o.arnumvecs lb W rb s.mps) fun t =>
    andThen (lanczosBond X.eigh o.lan o.arnumvecs lb W s.A rb s.mat) fun c => .ok (t, c)
  | _ => .error .value

/-- `np.reshape(np.transpose(tensor,(0,2,1)),(D1*d,D2))`, lib/mpslib/engines.py:971: the row index is `i*d+s`. -/
def rowC (T : Ten ℂ) : Mat ℂ := ⟨T.l * T.d, T.r, fun p j => T.v (p / T.d) j (p % T.d)⟩

/-- `np.transpose(np.reshape(M,(D1,d,D2)),(0,2,1))`, lib/mpslib/engines.py:967, 980 (only matrices of shape `(D1*d,D2)` are accepted). -/
def unrowC (M : Mat ℂ) (l r d : ℕ) : Res (Ten ℂ) :=
  if M.r = l * d ∧ M.c = r then .ok ⟨l, r, d, fun i j s => M.v (i * d + s) j⟩ else .error .value

/-- `np.reshape(M,(D1,D2,d))`, lib/mpslib/engines.py:968, 981 (only matrices of shape `(D1,d*D2)` are accepted). -/
def uncolC (M : Mat ℂ) (l r d : ℕ) : Res (Ten ℂ) :=
  if M.r = l ∧ M.c = d * r then .ok ⟨l, r, d, fun i j s => M.v i (j * d + s)⟩ else .error .value

/-- The gauge matching with the singular value decomposition, lib/mpslib/engines.py:963-968: `_A`, `_B`. -/
def matchSvd (X : Ext) (T : Ten ℂ) (C : Mat ℂ) : Res (Ten ℂ × Ten ℂ) :=
  andThen (absorbR T C.herm) fun P =>
  andThen (absorbL C.herm T) fun Q =>
  if C.r = T.r ∧ C.c = T.l then
    let p := X.O.svd (rowC P)
    let q := X.O.svd Q.colMat
    andThen (Mat.dotR p.1 p.2.2) fun a =>
    andThen (Mat.dotR q.1 q.2.2) fun b =>
    andThen (unrowC a T.l T.r T.d) fun A =>
    andThen (uncolC b T.l T.r T.d) fun B => .ok (A, B)
  else .error .value

/-- The gauge matching with the polar decomposition, lib/mpslib/engines.py:971-981: `_A`, `_B`. -/
def matchPolar (X : Ext) (T : Ten ℂ) (C : Mat ℂ) : Res (Ten ℂ × Ten ℂ) :=
  andThen (Mat.dotR (X.polar (rowC T) true).1 (X.polar C true).1.herm) fun a =>
  andThen (unrowC a T.l T.r T.d) fun A =>
  andThen (Mat.dotR (X.polar C false).1.herm (X.polar T.colMat false).1) fun b =>
  andThen (uncolC b T.l T.r T.d) fun B => .ok (A, B)

/-- What a step leaves behind: `Elocleft`, `leftn`, `rightn`, `_gradnorm`, `_lb`, `_rb`, the eigenvalues `e1`, `e2` and the state. -/
structure Out where
  en : ℂ
  leftn : ℝ
  rightn : ℝ
  grad : ℝ
  lb : Env ℂ
  rb : Env ℂ
  e1 : ℂ
  e2 : ℂ
  st : St

/-- `leftn`, lib/mpslib/engines.py:914. -/
def leftDev (A : Ten ℂ) : ℝ :=
  normF ⟨A.r, A.r, fun j j' => (∑ i ∈ range A.l, ∑ s ∈ range A.d, A.v i j s * star (A.v i j' s)) - delta ℂ j j'⟩

/-- `rightn`, lib/mpslib/engines.py:915. -/
def rightDev (B : Ten ℂ) : ℝ :=
  normF ⟨B.l, B.l, fun i i' => (∑ j ∈ range B.r, ∑ s ∈ range B.d, B.v i j s * star (B.v i' j s)) - delta ℂ i i'⟩

/-- `VUMPSengine.__doStep__`, lib/mpslib/engines.py:903-983.  The two environments do not depend on each other, their instructions are
interleaved in the code. -/
def step (X : Ext) (o : Opts) (e : Eng) (s : St) : Res Out :=
  andThen (tmEigs X.eigs X.fuel .left o.numeig s.A) fun (_, vr) =>
  andThen (tmEigs X.eigs X.fuel .right o.numeig s.B) fun (_, vl) =>
  andThen (unitTrace vl e.D) fun l =>
  andThen (unitTrace vr e.D) fun r =>
  andThen (envLeft X e s.A (hermPart l) r (hermPart r)) fun (lb, en) =>
  andThen (envRight X e s.B (hermPart r) l (hermPart l)) fun (rb, _) =>
  andThen (gradNorm lb e.W rb s) fun g =>
  andThen (solveBoth X o lb e.W rb s) fun ((e1, T), e2, C) =>
  andThen (if o.svd then matchSvd X T C else matchPolar X T C) fun (A, B) =>
  .ok ⟨en, leftDev s.A, rightDev s.B, g, lb, rb, e1, e2, ⟨A, B, T, C⟩⟩

/-- The loop of `__simulate__`, lib/mpslib/engines.py:1042-1060: `k` is `Nmax-_it`, or `0`; the steps and `_it` at the end.  The test of
the gradient comes after the exit at `Nmax`.  Checkpoints and output are not modelled; `X i` are the routines called in the `i`-th step. -/
def loop (o : Opts) (e : Eng) : (ℕ → Ext) → ℕ → ℤ → St → Res (List Out × ℤ)
  | X, 0, it, s =>
    match step (X 0) o e s with
    | .error err => .error err
    | .ok u => .ok ([u], it)
  | X, k + 1, it, s =>
    match step (X 0) o e s with
    | .error err => .error err
    | .ok u =>
      if u.grad < o.epsilon then .ok ([u], it + 1)
      else
        match loop o e (fun i => X (i + 1)) k (it + 1) u.st with
        | .error err => .error err
        | .ok (us, it') => .ok (u :: us, it')

/-- `__simulate__(Nmax,...)`, lib/mpslib/engines.py:1038-1068: the state before the first step, `_mps[0]` being rescaled by the first call
of `regauge`, the steps, and the engine afterwards.  The value returned is the energy `Elocleft` of the last step.  `X 0` are the
routines called by `regauge`. -/
def simulate (X : ℕ → Ext) (o : Opts) (e : Eng) (Nmax : ℤ) : Res (St × List Out × Eng) :=
  andThen (regaugeL (X 0).eigh (X 0).eigs (X 0).fuel o.numeig 1e-14 e.mps) fun (A, _, T) =>
  andThen (regaugeR (X 0).eigh (X 0).eigs (X 0).fuel o.numeig 1e-14 T) fun (B, _) =>
  let s : St := ⟨A, B, T, eye A.r⟩
  andThen (loop o e (fun i => X (i + 1)) (Nmax - e.it).toNat e.it s) fun (us, it) =>
  .ok (s, us, { e with it := it, mps := (us.getLast?.map fun u => u.st.mps).getD T })

/-- The number returned by `simulate`. -/
def returned (us : List Out) : Option ℂ := us.getLast?.map Out.en

end
end PyTeN.Vumps
