import Verif.Env.More
import Verif.Mps.RegaugeImps

/-! # Steady-state Hamiltonians of infinite systems: `computeDensity`, `TDVPGMRESUC`,
`computeUCsteadyStateHamiltonianGMRES`, `fixPhase` and the boundaries of `getBoundaryHams` (lib/mpslib/mpsfunctions.py) -/

namespace PyTeN.Steady
open Finset Transfer Regauge
noncomputable section

/-- `E[:,:,b]`. -/
def slice (E : Env ℂ) (b : ℕ) : Mat ℂ := ⟨E.u, E.w, fun i j => E.v i j b⟩

/-- `E[:,:,b]=M`. -/
def setSlice (E : Env ℂ) (b : ℕ) (M : Mat ℂ) : Env ℂ := ⟨E.u, E.w, E.m, fun i j c => if c = b then M.v i j else E.v i j c⟩

/-- `addELayer(E,A,A,direction)`. -/
def eLayer (dir : Dir) (E : Env ℂ) (A : Ten ℂ) : Res (Env ℂ) :=
  match dir with
  | .right => addELayerR E A A
  | .left => addELayerL E A A

/-- The loops of `computeDensity`, lib/mpslib/mpsfunctions.py:1776-1778, 1786-1788: the matrices written, the tensors and the
matrices in processing order. -/
def densLoop (dir : Dir) (E : Env ℂ) : List (Ten ℂ) → Res (List (Mat ℂ))
  | [] => .ok []
  | A :: l =>
    match eLayer dir E A with
    | .error e => .error e
    | .ok E' =>
      match densLoop dir E' l with
      | .error e => .error e
      | .ok ms => .ok (slice E' 0 :: ms)

/-- `computeDensity(dens0,mps,direction)`, lib/mpslib/mpsfunctions.py:1751-1789, for a list of tensors: the list of `len(mps)+1`
matrices.  The data type is not modelled; assigning a matrix of another shape to `L[:,:,0]` fails (broadcasting is not modelled). -/
def computeDensity (dir : Dir) (x : Mat ℂ) (ts : List (Ten ℂ)) : Res (List (Mat ℂ)) :=
  match ts.head?, ts.getLast? with
  | some a, some b =>
    match dir with
    | .right =>
      if x.r = a.l ∧ x.c = a.l then
        match densLoop .right ⟨a.l, a.l, 1, fun i j _ => x.v i j⟩ ts with
        | .error e => .error e
        | .ok ms => .ok (x :: ms)
      else .error .value
    | .left =>
      if x.r = b.r ∧ x.c = b.r then
        match densLoop .left ⟨b.r, b.r, 1, fun i j _ => x.v i j⟩ ts.reverse with
        | .error e => .error e
        | .ok ms => .ok (ms.reverse ++ [x])
      else .error .value
  | _, _ => .error .index

/-- `scipy.sparse.linalg.lgmres(LOP,inhom,x0,...)` for a `LinearOperator` with the product `f`: the first returned value.  The
tolerance, the number of iterations and the second returned value, which the code ignores, are not modelled. -/
abbrev Lgmres := (Vec ℂ → Res (Vec ℂ)) → Vec ℂ → Vec ℂ → Res (Vec ℂ)

/-- `TDVPGMRESUC(mps,ldens,rdens,inhom,x0,...,direction)`, lib/mpslib/mpsfunctions.py:1957-1970; scipy refuses operators that are not
square and right-hand sides and initial vectors of another length (ValueError). -/
def tdvpGmresUC (solve : Lgmres) (dir : Dir) (ts : List (Ten ℂ)) (ldens rdens : List (Mat ℂ)) (inhom x0 : Vec ℂ) : Res (Vec ℂ) :=
  match ts.head?, ts.getLast? with
  | some a, some b =>
    if a.l * a.l = b.r * b.r ∧ inhom.n = a.l * a.l ∧ x0.n = a.l * a.l then
      solve (oneMinusPseudoUnitcell dir ts ldens rdens) inhom x0
    else .error .value
  | _, _ => .error .index

/-- `np.trace(A.dot(B))`. -/
def traceProd (A B : Mat ℂ) : Res ℂ :=
  if A.c = B.r then .ok (∑ i ∈ range (min A.r B.c), ∑ k ∈ range A.c, A.v i k * B.v k i) else .error .value

/-- `M-h*np.transpose(np.eye(n))`; broadcasting is not modelled. -/
def minusEye (M : Mat ℂ) (h : ℂ) (n : ℕ) : Res (Mat ℂ) :=
  if M.r = n ∧ M.c = n then .ok ⟨n, n, fun i j => M.v i j - h * delta ℂ i j⟩ else .error .value

/-- `mpo[0,:,:,:]=mpopbc[NUC-1][-1,:,:,:]`, lib/mpslib/mpsfunctions.py:1917-1918. -/
def lastRowMpo (W : Mpo ℂ) : Res (Mpo ℂ) :=
  if W.l = 0 then .error .index else .ok ⟨1, W.r, W.din, W.dout, fun _ b s s' => W.v (W.l - 1) b s s'⟩

/-- `mpo[:,0,:,:]=mpopbc[0][:,0,:,:]`, lib/mpslib/mpsfunctions.py:1931-1932: the shape is that of `W`, the last tensor of the cell, the
entries are those of `V`, the first one (broadcasting is not modelled). -/
def firstColMpo (W V : Mpo ℂ) : Res (Mpo ℂ) :=
  if V.r = 0 then .error .index
  else if V.l = W.l ∧ V.din = W.din ∧ V.dout = W.dout then .ok ⟨W.l, 1, W.din, W.dout, fun b _ s s' => V.v b 0 s s'⟩
  else .error .value

/-- The common end of both branches of `computeUCsteadyStateHamiltonianGMRES`, lib/mpslib/mpsfunctions.py:1924-1928, 1937-1942: `E` is
the block, `c` the index of the slice, `x` the density matrix; `D` and `D'` are the dimensions in the reshapes of the right-hand side
and of the initial vector, the last one also that of the solution. -/
def steadyEnd (solve : Lgmres) (dir : Dir) (ts : List (Ten ℂ)) (ldens rdens : List (Mat ℂ)) (bd : Vec ℂ) (E : Env ℂ) (c : ℕ) (x : Mat ℂ)
    (D D' Dk : ℕ) : Res (Env ℂ × ℂ) :=
  match traceProd (slice E c) x with
  | .error e => .error e
  | .ok h =>
    match minusEye (slice E c) h D with
    | .error e => .error e
    | .ok M =>
      match flat M (D * D) with
      | .error e => .error e
      | .ok inhom =>
        if bd.n ≠ D' * D' then .error .value
        else
          match tdvpGmresUC solve dir ts ldens rdens inhom bd with
          | .error e => .error e
          | .ok k =>
            match reshape2 k Dk Dk with
            | .error e => .error e
            | .ok K => if E.u = Dk ∧ E.w = Dk then .ok (setSlice E c K, h) else .error .value

/-- `computeUCsteadyStateHamiltonianGMRES(mps,mpopbc,boundary,ldens,rdens,direction,thresh,imax)`,
lib/mpslib/mpsfunctions.py:1903-1943, for a list of tensors: the block and the number `h`. -/
def steadyState (solve : Lgmres) (dir : Dir) (ts : List (Ten ℂ)) (Ws : List (Mpo ℂ)) (bd : Vec ℂ) (ldens rdens : List (Mat ℂ)) :
    Res (Env ℂ × ℂ) :=
  match ts.head?, ts.getLast?, ldens.head?, rdens.getLast?, Ws[ts.length - 1]?, Ws.head? with
  | some a, some b, some l0, some r1, some W, some V =>
    match dir with
    | .right =>
      match lastRowMpo W with
      | .error e => .error e
      | .ok w =>
        match initializeLayerR b (eye b.l) b w with
        | .error e => .error e
        | .ok L0 =>
          match layersR ts Ws ts (List.range' 0 ts.length) L0 with
          | .error e => .error e
          | .ok L => if L.m = 0 then .error .index else steadyEnd solve .right ts ldens rdens bd L 0 r1 b.r a.l b.r
    | .left =>
      match firstColMpo W V with
      | .error e => .error e
      | .ok w =>
        match initializeLayerL a (eye a.r) a w with
        | .error e => .error e
        | .ok R0 =>
          match layersL ts Ws ts (List.range' 0 ts.length).reverse R0 with
          | .error e => .error e
          | .ok R => if R.m = 0 then .error .index else steadyEnd solve .left ts ldens rdens bd R (R.m - 1) l0 a.l b.r b.r
  | _, _, _, _, _, _ => .error .index

/-- `np.trace(M)` of a square matrix. -/
def trace (M : Mat ℂ) : ℂ := ∑ i ∈ range M.r, M.v i i

/-- `fixPhase(matrix)`, lib/mpslib/mpsfunctions.py:336-343, for square matrices.  The trace of `M M^+` is real, and `np.sqrt` of it is the
real square root; a division by zero is reported as `nan`. -/
def fixPhase (M : Mat ℂ) : Res (Mat ℂ) :=
  if trace M = 0 then .error .nan
  else
    let A : Mat ℂ := ⟨M.r, M.c, fun i j => M.v i j / trace M⟩
    let z : ℝ := Real.sqrt (∑ i ∈ range M.r, ∑ j ∈ range M.c, Complex.normSq (A.v i j))
    if z = 0 then .error .nan else .ok ⟨M.r, M.c, fun i j => A.v i j / (z : ℂ)⟩

/-- `lbound=fixPhase(np.reshape(lss,(D,D)))`, `lbound=(lbound+herm(lbound))/2.0`, `lbound=lbound/np.trace(lbound)`,
lib/mpslib/mpsfunctions.py:1815-1820, 1837-1842, 1864-1868; the second hermitisation in 1890 is not modelled, it changes nothing. -/
def boundOf (v : Vec ℂ) (D : ℕ) : Res (Mat ℂ) :=
  match reshape2 v D D with
  | .error e => .error e
  | .ok M =>
    match fixPhase M with
    | .error e => .error e
    | .ok A =>
      let H : Mat ℂ := ⟨D, D, fun i j => (A.v i j + star (A.v j i)) / 2⟩
      if trace H = 0 then .error .nan else .ok ⟨D, D, fun i j => H.v i j / trace H⟩

/-- The computation of one boundary in `getBoundaryHams`, lib/mpslib/mpsfunctions.py:1812-1825, 1883-1898 (`.left`: the right
environment and `lbound`) and 1834-1849, 1861-1875 (`.right`: the left environment and `rbound`): the environment, the number `h` and
the density matrix.  `eigs` is the eigensolver with `which='LR'`. -/
def boundary (eigs : Eigs) (solve : Lgmres) (dir : Dir) (ts : List (Ten ℂ)) (Ws : List (Mpo ℂ)) : Res (Env ℂ × ℂ × Mat ℂ) :=
  match ts.head?, ts.getLast? with
  | some a, some b =>
    let D := match dir with | .left => a.l | .right => b.r
    let opp : Dir := match dir with | .left => .right | .right => .left
    match unitcellTMeigs eigs opp ts with
    | .error e => .error e
    | .ok (_, v) =>
      match boundOf v D with
      | .error e => .error e
      | .ok x =>
        match computeDensity opp x ts, computeDensity dir (eye D) ts with
        | .ok dx, .ok de =>
          let ld := match dir with | .left => dx | .right => de
          let rd := match dir with | .left => de | .right => dx
          match steadyState solve dir ts Ws ⟨D * D, fun _ => 0⟩ ld rd with
          | .error e => .error e
          | .ok (E, h) => .ok (E, h, x)
        | .error e, _ => .error e
        | _, .error e => .error e
  | _, _ => .error .index

end

end PyTeN.Steady
