# Design

Formal model (Lean 4 + Mathlib, `lean/`) of the tensor-network library PyTeN in `/repo`.
The code is modelled function by function; every definition cites the file and lines it models.
`lean/Verif/{Mps,Mpo,Env,Engine,Ham,...}` hold the model and lemmas, `lean/Verif/Props` the property theorems
(named after the property id) and a concrete case (`example`) for their hypotheses.

## Trusted base

* Lean's kernel (4.33.0) and Mathlib's definitions (finite sums, complex numbers, lists, matrix exponential).
* Axioms: at most `propext`, `Classical.choice`, `Quot.sound` (checked with `#print axioms`). No own axioms.
* The reading of the Python text: numpy arrays are shapes plus entry functions, arithmetic is exact (no floating
  point), exceptions are values (`PyErr`), a division by a norm that is zero is the error `nan`, objects are values
  (aliasing between objects is not modelled unless a property is about it), text output is dropped.
* External routines are parameters with a contract:
  * `np.linalg.qr`, `np.linalg.svd`: `LinAlg.Spec` (factorisation, isometry, non-negative decreasing singular values).
    Satisfiable: theorem `exists_linAlg` constructs such routines.
  * eigensolvers of DMRG: `Solve.Shape` (result has the shape of the argument), `Solve.Live` (non-zero result).
  * local integrators of TDVP: `EvolveTen.Shape/Live/Conserves`, `EvolveMat.Shape/Live/Conserves` in C39 and C80; discharged for the modelled
    integrators in Props/TdvpEnergy.
  * `scipy.integrate.solve_ivp`: `IvpSpec` (value of the exact solution for a Lipschitz right hand side; the integration error, and what scipy
    does with a real initial vector, are not modelled). Satisfiable: theorem `exists_ivp`.
  * `scipy.sparse.linalg.eigsh`, `lobpcg`: `ArpackSpec` (the k lowest eigenpairs, success for k<n), `LobpcgSpec` (a Ritz pair not above the
    initial vector). Satisfiable: theorems `exists_arpack`, `exists_lobpcg`.
  * gates in TEBD: `GateGroup` (one-parameter group on each bond). Discharged for the gates of an MPO of
    nearest-neighbour form by `gateGroup_nn`, where `scipy.linalg.expm` is Mathlib's `NormedSpace.exp`.
  * `np.linalg.pinv` in IDMRG: `Idmrg.PinvSpec` (transposed shape, `A P A = A`). Satisfiable: theorem `exists_pinv`.
  * `regaugeIMPS(...,'symmetric')` in IDMRG with regauging: `SymKernel` (an exact symmetric gauge: left-orthonormal tensors, positive Schmidt
    values of norm one whose squares are the right fixed point; for C90_same_state also the same cell in another basis). C91_kernel proves this
    for the model of `regaugeIMPS` on normal cells without truncation. Steady-state Hamiltonians: `ShapeKernel`, `KernelSpec` (shapes, Hermitian
    rows). Instances: `rKer`, `sKer` in Props/IdmrgRun.
  * `scipy.sparse.linalg.eigs` in UnitcellTMeigs: `EigsSpec` (k exact eigenpairs, no eigenvalue of larger modulus missing), `Converges` (used for
    success only). Satisfiable: theorem `exists_eigs`. For `which='LR'` (getBoundaryHams): `EigsLR`, with the real part in place of the modulus.
    Satisfiable: theorem `exists_eigs_lr`.
  * `scipy.sparse.linalg.lgmres`: `LgmresSpec` (an exact solution), `LgmresConverges` (used for success only). Satisfiable: theorem `exists_lgmres`.
  * `scipy.linalg.polar`: `Vumps.PolarSpec`. Satisfiable: theorem `Vumps.exists_polar`.
  * `np.linalg.eigh` in the Lanczos solver and in `regaugeIMPS`: `EighSpec` (ascending eigenvalues, orthonormal eigenvectors). Satisfiable: theorem `exists_eigh`.
  * `scipy.linalg.expm` in the Lanczos time step: `ExpmSpec` (the entries of the exponential series). Satisfiable: theorem `exists_expm`. Also used by `gexpmv`.
  * files (`pickle`): a function from names to contents.

## What is modelled

* `lib/mpslib/mps.py`: class MPS (constructors, indexing, arithmetic, position, truncation, gates, measurements,
  copy/save/load, tolist/tensor, conjugation).
* `lib/mpslib/mpsfunctions.py`: prepareTensor, prepareTruncate, addMPS, applyMPO, FinegrainDolfi, addLayer/getL/getR and
  the contraction helpers, measureLocal/matrixElementLocal/measure.
* `lib/mpslib/engines.py`: Container, DMRGengine (single site), TimeEvolutionEngine (TEBD, TDVP).
* `lib/mpslib/Hamiltonians.py`: MPO.twoSiteGate, TFI, TFI_2, XXZ, XXZflipped, SpinlessFermions, HubbardChain,
  JessHamiltonian.
* `lib/ncon/ncon.py`: everything, for numpy arrays and `check_indices=True`. `collections.Iterable` (line 35) exists only in
  Python before 3.10, which is assumed. The order in which Python enumerates sets is a parameter (`SetOrder`).
* `lib/utils/binaryoperations.py`: the bit helpers on 64-bit words and `binarybasis`.
* `lib/utils/utilities.py`: `computedx`, `placeBraket`, `SFwick`, `SBwick`, `determineNewStepsize`, `determineNonLinearCGBeta`
  (messages dropped). Floats are elements of an ordered field; a division by a vanishing norm follows the numpy rules for infinities and nan.
* `HomogeneousIMPSengine.__doGradStep__/__simulate__` (lib/mpslib/engines.py:723-826): the control flow. Regauging, the linear solvers and
  the gradient are one parameter function, the update another; both are assumed not to depend on initial guesses. Checkpoint files are not modelled.
* `lib/mpslib/mpsfunctions.py`: `TransferOperator`, `MixedTransferOperator`, `GeneralizedMatrixVectorProduct`, the unit-cell and pseudo
  transfer operators and `patchmpo`. `direction=0` (returns None) and broadcasting of length-one arrays are not modelled; the eigensolvers and lgmres are not.
* `lib/mpslib/engines.py`: `IDMRGengine` completely, without printing. `np.linalg.pinv` is a parameter that returns a matrix of the transposed
  shape with `A P A = A` (`exists_pinv` shows that one exists). `getBoundaryHams` and `MPS.__regauge__('symmetric')` are modelled around three
  numerical kernels (`Idmrg.Kernels`: `regaugeIMPS` and the two steady-state Hamiltonians), parameters about which nothing is assumed
  except where a theorem states it.
* `lib/mpslib/mpsfunctions.py`: `canonizeMPS` on open chains and `MPS.canonize` (lib/mpslib/mps.py); the periodic branch (`regaugeIMPS`) is a parameter.
* `lib/Lanczos/LanczosEngine.py`: both classes, over a complex inner product space; `matvec` is assumed to return a new array.
* `lib/mpslib/sexpmv.py`: `gexpmv` completely, for complex dtypes and real `t`; an OverflowError (infinite step size) is recorded as `nan`.
* `lib/mpslib/mpsfunctions.py`: evolveTensorLan, evolveMatrixLan, evolveTensorSexpmv, evolveMatrixSexpmv, evolveTensorsolve_ivp, evolveMatrixsolve_ivp,
  HAproductSingleSite, HAproductBond (bond matrices have to be square there).
* `lib/mpslib/mpsfunctions.py`: lanczos, eigsh, lobpcg (around parameters for scipy's solvers).
* `lib/mpslib/engines.py`: `DMRGengine.__simulateTwoSite__` and `simulateTwoSite`, without printing.
* `lib/mpslib/mpsfunctions.py`: `UnitcellTMeigs` and `regaugeIMPS` (all gauges, with truncation and recursion) for complex tensors, without the
  arguments of the eigensolver; scipy's `eigs` is a parameter (`EigsSpec`), TypeError for k >= N-1 as in scipy.
* `lib/mpslib/mpsfunctions.py`: `computeDensity`, `TDVPGMRESUC`, `computeUCsteadyStateHamiltonianGMRES`, `fixPhase`, and the computation of one
  boundary in `getBoundaryHams` for a cell already in the gauge needed (the gauge steps and the four or six returned values: C86), for complex
  tensors; scipy's `eigs` and `lgmres` are parameters. A second hermitisation of the right density matrix is omitted, it changes nothing.
* `lib/mpslib/Hamiltonians.py`: `PhiFourmpo`, `PhiFourmpo2`-`4`, `TwoSitePhiFourMPO`, all Lieb-Liniger functions (lines 1118-1812) except that
  `dtype` is always complex; numbers are complex numbers, grid spacings real numbers; division by zero is an error value. `projectedTwoBosonsModel` is not modelled (it always raises NameError).
* `lib/mpslib/engines.py`: `PeriodicMPSengine` and the functions before it (lines 1401-1677); of `gradient_optimize` and `simulateVUMPS` only the
  first round up to the exception they always raise, with the result of `canonize` as a parameter. Vectors reshaped to tensors and back are tensors.
* `lib/mpslib/engines.py`: `VUMPSengine` (lines 864-1068) without checkpoints and output; `lib/mpslib/mpsfunctions.py`: `regauge`, `TMeigs`,
  `RENORMBLOCKHAMGMRES`, `eigshbond`, `lanczosbond`, as called there. Tolerances, `ncv` and initial vectors are not modelled, solvers are exact.
* `lib/mpslib/mpsfunctions.py`: `prepareTensorSVD` (603-642), `orthonormalizeQR` (820-856), `orthonormalizeSVD` (858-892; `site1` not negative) and
  `truncateMPS` (2220-2239); the mutated list is part of the result.
* `lib/mpslib/engines.py`: `HomogeneousIMPSengine` (lines 638-831) and the constructor and density of `HomogeneousDiscretizedBosonEngine` (834-850) without
  checkpoints and output; `regauge` with `gauge='symmetric'` in `lib/mpslib/mpsfunctions.py`. Solvers are exact and the same in all steps of a run.
* `lib/mpslib/mpsfunctions.py`: `TDVPupdate` (2735-2798) with `TDVPGMRES` (2570-2592) for complex tensors; the warm start `kold` is ignored by the code.
* `lib/mpslib/mpsfunctions.py`: `ExHAproductSingle` (2638-2730) for `mpsAtilde=mpsA` and complex tensors; `contractionE` (1021-1023).
* `lib/mpslib/mps.py`: `MPS.getSchmidt` (676-687).
* `lib/mpslib/mpsfunctions.py`: `getUCR`, `getUCL`, `getRprojected`, `getLprojected` (1066-1153).
* `lib/mpslib/mps.py`: `MPS.fromList` (249-272).
* `lib/utils/utilities.py`: `bisection` (157-173 and 640-657).
* `lib/mpslib/mpsfunctions.py`: `check_normalization` (78-93); `lib/utils/utilities.py`: `isDiag`, `isDiagUnitary` (619-636).
* `lib/mpslib/mpsfunctions.py`: `getBlockHam` (1725-1735).
* `lib/mpslib/mpsfunctions.py`: `prepareTensorfixA0` (793-822); `lib/mpslib/mpsfunctionsgradopt.py`: `prepareTensorFixPhase` (176-260), `prepareTensorfixA0` (263-287), `prepareTensor` (290-317).
* `lib/mpslib/mpsfunctionsgradopt.py`: `regaugecentralC` (22-96), `computeOrthogonalMPS` (363-367), `TransferOperator` (484-491), `UnitcellTransferOperator` (522-543), `UnitcellTMeigs` (547-561).
* `lib/mpslib/mpsfunctionsgradopt.py`: `distributeR` (344-360).
* `lib/utils/utilities.py`: `fun1` (547-558), `fun3` (566-569), `findPhase` (573-583), `findPhase2` (588-600).
* `lib/mpslib/mpsfunctionsgradopt.py`: `regauge` (98-173).
* `lib/mpslib/mpsfunctions.py`: `MixedUnitcellTMeigs` (1702-1721) for complex tensors.
* `lib/mpslib/mpsfunctions.py`: `LiebLinigerHAproduct` (2801-2813), `tangentSpaceHAproduct` (2816-2830) without broadcasting.
* `lib/mpslib/mpsfunctions.py`: `eigshbondsimple` (1401-1408), `applyHbond` (1480-1482).
* `lib/mpslib/Hamiltonians.py`: the class `MPO` (13-32, 79-90).
* `lib/mpslib/mpsfunctions.py`: `MPSinit` (587-598).
* `lib/mpslib/mpsfunctions.py`: `applyHsingleSite` (1470-1478).
* `lib/utils/utilities.py`: `smoothArray` (508-526).
* `lib/mpslib/mpsfunctions.py`: `evolveTensorRadau` (1371-1382), `evolveMatrixRadau` (1384-1394), the imports (5-33).
* `lib/mpslib/mpsfunctions.py`: `measure4pointCorrelation` (346-366).
Not modelled: floating-point error, running time, plotting and printing, the two-site DMRG loop, the infinite-system
engines except where a property below says so, the classmethod `TimeEvolutionEngine.TEBD` (it raises NameError: `mpo` is
not defined there).

## Disagreements between code and intended behaviour

Each is proved as a theorem with suffix `_violated` (concrete witness or for all inputs); see the notes below and in
MANIFEST.json.

## Properties

* **C01 ncon computes the Einstein sum** — Ncon: arrays are shape + entry function; connect_graph, contraction loop and transposition modelled; loop invariant: the sum over the labels still to be contracted of the product of entries is unchanged (Ncon/Loop), connecting the graph keeps it and makes the network connected (Ncon/Graph). Spec `labelSum`/`entryProduct` in Props/Ncon.
* **C02 ncon result does not depend on the contraction order** — Corollary of C01: both sides equal the same Einstein sum, which is invariant under permuting the summed labels.
* **C03 ncon index check is sound and complete for the contraction loop** — Ncon/Check: `Checked` states the conditions by positions. Violation: label 0 passes the check and the final transposition raises.
* **C04 ncon leaves its arguments alone** — The model returns the final content of the caller's order list. Violation for every disconnected network with an explicit order: the list grows and a second call with it raises ValueError.
* **C05 binarybasis enumerates exactly the fixed-popcount words** — `Utils/Bits`: recursion modelled literally, with the rounding of additions as a parameter; the result is the strictly increasing list of all N-bit numbers with Nup ones (C05_basis). Double precision: equal for N<=53, wrong for N>=54.
* **C06 Bit primitives change and read exactly one bit** — `Utils/Bits`: 64-bit words; every bit of every result (C06_bits) and the algebraic laws (C06_laws).
* **C07 Moving the orthogonality centre does not change the state** — MPS state machine over ℂ; qr is a parameter with a contract (A=QR, Q isometric); amplitude = explicit sum over bonds; induction over the sweep.
* **C08 Canonical form after any history of moves** — Invariant over a list of position calls.
* **C09 position argument range and bookkeeping** — Shape invariants of the same model; AssertionError as a value.
* **C10 Z carries the norm of the state** — Norm as a sum over configurations; canonical form collapses it.
* **C11 Scalar multiplication and division** — Amplitude lemma for Z.
* **C12 Sum of two states** — addMPS modelled block by block over a commutative semiring; induction over the chain.
* **C13 Difference of two states** — From C11, C12.
* **C14 In-place addition equals addition** — Model of __iadd__ keeps the old centre matrix; expected violation: negation + partial.
* **C15 Unary minus negates the state** — Amplitude of -mps is (-1)^N times the state: negation for even N, partial for odd N.
* **C16 copy is a faithful, independent copy** — Field-wise model; boundary flag not copied: negation + partial.
* **C17 save/load round trip** — Field-wise model; Dmax replaced by N: negation + partial.
* **C18 overlap is the inner product** — Props/Measure. Transfer fold = sum over configurations; boundary 1x1 centre matrices dropped: exact formula, negation + partial.
* **C19 measureLocal is the expectation value** — Props/Measure. Canonical form collapses the left/right parts; position invariance from C07.
* **C20 measureList agrees with the single-site expectation values** — Props/Measure. Model of mf.measureLocal for both orthogonality types.
* **C21 One-site gate** — Amplitude theorem for both branches (Props/Gates). Violation: site=-1 is accepted.
* **C22 Two-site gate without truncation** — svd parameter with contract; amplitude theorem up to the positive normalisation (Props/Gates). Default Dmax=None raises TypeError.
* **C23 Two-site gate truncation contract** — Truncation arithmetic on the list of singular values; squared distance summed over all configurations (Props/Gates).  `C23_best` (Props/GateBest): on an open chain in canonical form no state with the kept bond dimension across the bond is closer to the gated state than the one returned, up to its factor.
* **C24 truncate respects the requested bond dimension** — Sweep with prepareTruncate; bond-dimension bound by induction; norm preserved (Props/Truncate). Violation: the recorded _D is stale after gates (two Bell pairs + SWAP).
* **C25 tensor/tolist absorb the centre matrix** — Amplitude of tolist; domain of tensor.
* **C26 Index access** — Python index model (negative indices), exceptions as values.
* **C27 productState is the product state** — Amplitude of bond-dimension-1 chain by induction.
* **C28 Initialiser shapes** — Shape model of MPSinitializer.
* **C29 MPO application to a list of tensors** — Amplitude theorem with mixed-radix reshape (i*M+b).
* **C30 Environments are full contractions** — Fold over sites equals the explicit double sum over configurations; gluing theorem for all cuts.
* **C31 Environment cache of an engine is never stale when used** — Engine state with cache lists (Engine/Container); predicate `Eng.Val` (entries are the contractions of the current tensors) kept by every move and DMRG step (Engine/Valid, Dmrg, Sim); eigensolver is a parameter, its calls are recorded.
* **C32 Container.position range and error behaviour** — Branch-by-branch model; success on consistent engines (Engine/Progress). False after update().
* **C33 An engine stays usable after update() or truncateMPS()** — Violated (the cache list of left environments has one element after update): for every engine; exact error and what remains valid proved.
* **C34 DMRG sweep schedule** — Loop model over an arbitrary eigensolver; recorded calls per sweep, checkpoints, stopping rule; error cases N=1, cp=0, unknown solver (KeyError: the message of the intended ValueError contains a replacement field). simulateTwoSite is not modelled.
* **C35 TEBD layers partition the bonds** — Engine/Evolve models the layers as the list of applied gates; partition theorem for every N (Props/Tebd).
* **C36 TEBD is the symmetric second-order Trotter scheme for any checkpointing** — Engine/Evolve: the run records its gates; `replay` applies a list of gates; schedule and Trotter palindrome by induction over the steps (Engine/Tebd); state theorem for gate families that form a one-parameter group (`GateGroup`, contract of `scipy.linalg.expm`) in Engine/TebdState. Violation: numsteps=0 still applies half a layer.
* **C37 Simulated time bookkeeping** — Counters of the same model. Violation: with verbose<=0 the time is not advanced.
* **C38 Checkpoint retention** — File system as a function from names to contents; `retain` = what the loop does to it. Violations: last step a checkpoint step; a user file None.pickle is removed.
* **C39 TDVP sweep schedule** — Every integrator call is recorded with its arguments and the MPS object at that time (`TCall`). `TCall.OK`: arguments are the contractions of the current tensors; `Flow`: replacing the local tensor by the integrator's result, call by call, takes the initial state to the final one up to positive factors (Engine/Tdvp, TdvpLoop); progress in TdvpProgress. Hypotheses: N>=2, centre at 0 or 1, environments right of site 0 up to date (`Eng.TStart`, provided by initializeTDVP, C70). Integrators are parameters with contracts `Shape` (result has the shape of the argument) and `Live` (nonzero stays nonzero). Violation: the solve_ivp methods are handed np.imag(dt_), so imaginary-time evolution (real dt) does nothing. An unknown solver raises KeyError (braces in the format string), not the intended ValueError. `HAproductBond` reshapes the bond matrix to a square one; after a truncation of a neighbouring bond the matrix may be rectangular and the run raises (`C39_violated_bonds`), so progress needs bonds that do not exceed the neighbouring legs (`Ten.Adm`).
* **C40 Two-site gates sum up to the Hamiltonian** — Ham/Gate. MPO entries as local operators (`NNForm`: first row, bulk, last column of a nearest-neighbour automaton); generators g_n read off the gate, exp = `NormedSpace.exp` of the matrix; sum over bonds = matrix element of the MPO. Violations: N=2 (no branch assigns the generator), reversed or equal sites.
* **C41 XXZ MPO represents the XXZ Hamiltonian** — Ham/Spin, Props/Ham. Automaton lemma `nn_mchain` (right environment vector by induction), spec `xxzEl` = sum of products of local operators. All N.
* **C42 TFI MPO represents the transverse-field Ising Hamiltonian** — Same, spec `tfiEl`.
* **C43 Spinless-fermion MPO represents the Jordan-Wigner transformed chain** — Ham/Fermion, Ham/Fock. Specification by creation and annihilation operators acting on occupation lists with sign counting (`fEl`; the anticommutation relations are theorem `car`), independent of Jordan-Wigner matrices. The code has the hopping with a minus sign.
* **C44 Hubbard MPO represents the Hubbard chain** — Same with two modes per site: mode 2n is spin down and mode 2n+1 spin up of site n (`bits`).
* **C45 XXZflipped uses the couplings of its own bond** — Exact Hamiltonian proved (exchange term of every bond uses J[0]); violation for inhomogeneous couplings with a three-site witness; default dtype=float always raises TypeError (complex operator into a float array).
* **C46 Periodic MPO constructors accept what the open ones accept** — `Cell`: N bulk tensors, whose cut with the boundary vectors of the open automaton is the open Hamiltonian. Violated by SpinlessFermions and HubbardChain: with arrays of the asserted lengths obc=False raises IndexError, with others AssertionError.
* **C47 patchmpo rotates the unit cell** — `Env/Transfer`: the three loops with Python indexing; equal to `List.rotate`; index above N raises IndexError.
* **C48 Spacing of a grid** — `Utils/Grid`: the sum always holds. **Violated**: the first cell is the first midpoint without subtracting x0, and the last cell subtracts x0 instead, so for x0 not zero spacings can be negative (C48_violated); cells proved for x0=0. One grid point raises IndexError.
* **C49 placeBraket returns a sign change or reports failure** — `Utils/Grid`: the search for Delta not zero ends and returns what the code's sign test finds. **Violated**: a zero at an end counts as a sign change (C49_violated_zero); Delta=0 never ends (C49_violated_zero_step).
* **C50 Step-size controller** — `Utils/Step`: controller and gradient loop with gradient and update as parameters; specification `Follows`. Excluded case: two vanishing norms raise UnboundLocalError (C50_violated_zero).
* **C51 Nonlinear CG restart logic** — `Utils/Step`: exact condition for the Fletcher-Reeves quotient, invariant of the counters, all histories. Excluded case stdereset=0 raises UnboundLocalError (C51_violated_stdereset).
* **C52 Lanczos iteration bounds and recurrence** — Loop model over an arbitrary complex inner product space; orthonormality and recurrence by induction over the loop (`C52_run`), Ritz pairs, residual bound, variational bound, exactness on exhausted spaces. **Violated**: the step limit is exceeded by one (`C52_violated_ncv`), `converged` does not imply accuracy (`C52_violated_converged`: a concrete 3x3 operator), `lanczos` with `numeig>=2` raises an IndexError on an eigenvector (`C52_violated_index`).
* **C53 Wick contraction helpers** — `Utils/Grid`: two operators proved. **Violated**: four operators give twice the determinant/permanent (C53_violated_factor).
* **C54 Expokit time stepping** — `gexpmv` with the Arnoldi loop, the step-size control and all rounding rules over exact reals. Step sizes stay positive and shrink on rejection because the decimal rounding adds at most 11% (`roundStep_bound`); the inner loop ends because the first column of the exponential of a Hessenberg matrix has the leading terms t^m and t^(m+1) (`accept_small`). **Violated**: the flag denies complete runs (`C54_violated_flag`); operators of dimension one are rejected (`C54_violated_one`), so that the SEXPMV integrators fail on product states; a vanishing error estimate raises an OverflowError (`C54_violated_nilpotent`); `m=1` may raise a ZeroDivisionError (`C54_violated_m1`). Termination without a step limit (`mxstep=0`) is not shown.
* **C55 Pseudo transfer operators are consistent** — `Env/Transfer`: both operators as functions of vectors; formulas in terms of the double-layer kernel; consistency, fixed point, telescoping, and the solution of the linear system solves the singular equation.
* **C56 Unit-cell transfer operators compose** — `Env/Transfer`: contraction with the double-layer kernel, composition, adjointness. **Violated** by MixedUnitcellTransferOperator (names mps1, mps2 do not exist) and for MPS objects (C56_violated).
* **C57 Canonical Gamma-Lambda form represents the same state** — **Violated** for objects with a nontrivial centre matrix (`canonizeMPS` never reads `_mat`) and for bonds with a vanishing Schmidt value (division by zero). Proved for open chains: the result is a canonical form of the normalised state (`C57_canonical`), and it exists exactly if the state is nonzero and every bond dimension is minimal (`C57_iff`; the converse by a rank argument).
* **C58 IDMRG growth step keeps the unit cell consistent** — `Engine/Idmrg`: model of the update on the engine state; cut and glued cells compared through amplitudes of whole configurations; **Violated** for odd N (C58_violated_odd).
* **C59 Truncated SVD of a tensor** — svd contract; truncation arithmetic, both directions (Props/Truncate). Violation: thresholds above the norm keep nothing.
* **C60 Fine-graining preserves the state** — Amplitude theorem for square bonds; ValueError for D1≠D2 (violation).
* **C61 Multi-point correlations** — Loop-by-loop model of measure with Jordan-Wigner strings (Mps/Correl); spec: on every site the operators and strings are multiplied in list order. Violations: odd number of operators with strings (prefix string lost or IndexError), repeated sites (dimension read at the operator index).
* **C62 Complex conjugation of a state** — Negation: every conjugation method raises.
* **C63 Real part of a state** — Only the tensors are made real: negation + partial for real data.
* **C64 Matrix elements of local operators** — Blocks from the right + left block per site equal the full contraction (Props/Correl). Violations: wrapper without return, Z dropped.
* **C65 Local measurement normalised by the network** — Ratio of two full contractions (Props/Correl).
* **C66 Environment cache under arbitrary histories of moves and site updates** — Recorded histories of moves and updates; true for the DMRG order (`Disciplined`), false otherwise (two-site witness).
* **C67 Single-site DMRG does not fail** — Progress theorem: shapes are invariant for admissible bonds (Engine/Shape), environments fit, the state stays non-zero.
* **C68 Content of evolution checkpoints** — Snapshots recorded in the model of the file system; each equals the result of a run with fewer steps. Violation: the stored iteration counter is taken before the increment, so that a continued run repeats a number.
* **C69 TEBD does not fail and is exact without truncation** — Progress by induction over gates (Engine/TebdState); no truncation if Dmax is at least the dimension of the state space (Engine/TebdFull).
* **C70 initializeTDVP makes the engine ready for TDVP** — val_of_get (environments of getL/getR) and position_moved; progress from C30 and position_ok.
* **C71 Two-leg Heisenberg MPO represents its Hamiltonian** — As C41 with operators on the upper/lower factor of the four-dimensional site.
* **C72 TFI_2 can be built with open boundaries** — Violated: the constructor reads `self._Bz`, which is never assigned; AttributeError for all inputs.
* **C73 TEBD with the gates of an MPO follows the Hamiltonian of the MPO** — C69 with the GateGroup hypothesis discharged by the matrix exponential (`gateGroup_nn`).
* **C74 Real-time gates are unitary** — exp of a skew-Hermitian matrix.
* **C75 MPO Hamiltonians are Hermitian** — Adjoints of local operators and of fermionic words (`fEl_adj`).
* **C76 Momentum in the pseudo transfer operator** — `Env/Transfer`: proved for positive momenta. **Violated**: `np.abs(momentum<1E-8)` is true for every negative momentum (C76_violated_negative).
* **C77 One Lanczos time step is exp(dt H) applied to the state** — `doStep` over the Lanczos run; powers of the operator on an invariant Krylov space give the exponential series (`C77_exact_partial`), unitarity of the small exponential gives the norm (`C77_norm_partial`), the derivative of the interpolation between both evolutions gives the error bound (`C77_error_partial`). **Violated**: the result does not depend on the norm of the state (`C77_violated_scale`); `ncv+1` vectors are built but only `ncv` are summed, so that weight is lost - even all of it (`C77_violated_cut`) - and the energy changes (`C77_violated_energy`); `state.astype(type(dt))` with real `dt` drops the imaginary part (`C77_violated_real`).
* **C78 gexpmv is exact on invariant subspaces** — Arnoldi vectors stay in the subspace, so that the loop breaks down with residual zero; powers of the operator on the closed Krylov space give the exponential series.
* **C79 The local integrators of TDVP apply exp(dt H_eff)** — The integrators are modelled on vectors indexed by the entries of the tensor (Engine/Integrator); `siteOp`/`bondOp` are the effective Hamiltonians as linear maps and `haSite_eq` shows that HAproductSingleSite is that map. LAN uses C77, SEXPMV uses C78 with `fac*mpo`, `|tau|`. solve_ivp is a parameter `Ivp` with the contract `IvpSpec` (value of the solution of y'=f(y)). **Violated**: the solve_ivp methods integrate y'=-i H y over (0,Im dt), that is exp(-dt H) for imaginary dt (`C79_ivp_backwards`), while LAN and SEXPMV (and TEBD) apply exp(+dt H); `C79_violated_ivp` gives a qubit for which the results are not parallel. The default solver RK45 is one of those methods.
* **C80 TDVP conserves the energy** — `helem` is the matrix element of the MPO between two configurations with the boundary environments, `energy` the quotient of the forms. In every recorded call of C39 the surrounding tensors are orthonormal, so that norm and energy of the chain are those of the local problem (`SiteCtx.form`, `SiteCtx.nsq`, Engine/Energy); a Hermitian MPO makes each local problem Hermitian (`SiteCtx.herm`). `C80_energy` holds for all integrators with the contract `Conserves`; the contract is proved for the modelled Lanczos integrator (`C77_energy_partial`: exact even though the step itself has an error) and for an exact solve_ivp; together with C39_progress the runs `C80_lan` and `C80_ivp` are total. **Violated** when a tensor has more entries than the Krylov space: the last Krylov vector is left out of the sum, and `C80_violated_lan` is a run on two sites with `krylov_dim=2` and a Hermitian MPO from a canonical state of energy 0 to one of energy 8/5, for all correct `eigh`, `expm`, SVD and tolerances (`doTDVP_congr`: a run depends on the site integrator through the recorded calls only; `three_step` evaluates the cut Lanczos step in closed form).
* **C81 Single-site DMRG never raises the energy** — In every step the tensors beside the site are orthonormal, so that the energy of the chain is the energy of the local problem before and after the call (`step_low`, as in C80); `Eng.Low` carries the energy of the state through the moves of the centre. `C81_descent` holds for every eigensolver with the contract `Solve.Var`; `C81_simulation` instantiates it with the three modelled solvers (Engine/Solvers, `lanczosSite_spec` from C52, `eigshSite_spec`, `lobpcgSite_spec` from C82) and adds that the run succeeds (the progress proof of C67 with `Grants`).
* **C82 eigsh and lobpcg return the lowest eigenpairs** — Krylov/Sparse models the two functions around a parameter for scipy's solver (`Arpack`, `Lobpcg`) with the contracts `ArpackSpec`, `LobpcgSpec`. **Disagreements:** `v[:,ind[0][0]]` takes the first vector with the given eigenvalue, so a degenerate eigenvalue gives equal vectors (`C82_violated_degenerate`: the identity in three dimensions); `sys.warning` does not exist; `numvecs` is not defined in lobpcg.
* **C83 Two-site DMRG optimises the right pairs with the right environments** — Engine/TwoSite models `__simulateTwoSite__`; TwoSiteSim proves the loop invariants, `SimSpec2` (Engine/TwoSiteSim) and `Call2.OK`, `Call2.Done` (Engine/TwoSiteRun) are the spec. A chain of one site gives an UnboundLocalError, `cp=0` a ZeroDivisionError.
* **C84 Energies and truncation in two-site DMRG** — Engine/Merge fuses two sites of the chain to one and shows that matrix elements, norms and hermiticity carry over, so that the effective Hamiltonian of a pair is treated like that of a site. The energy of the truncated state can rise; only the energies of the optimised states are compared with the state before.
* **C85 Two-site DMRG does not raise on consistent input** — Props/TwoSiteTotal: invariant `Eng.Live2`; a normalised two-site tensor has a singular value of at least 1/sqrt(rank), which gives the bound on the threshold.
* **C86 Constructing an IDMRG engine** — Engine/IdmrgSim: `getBoundaryHams` as control flow around kernels that are parameters without contract; Props/IdmrgSim. **Violated**: the branch of getBoundaryHams for a centre at the left end returns four values (lib/mpslib/mpsfunctions.py:1850), the callers unpack six (C86_violated_left); regauging leaves the centre of an open chain at the left end and therefore always fails (C86_violated_obc).
* **C87 Course of an IDMRG simulation and growth of the chain** — Props/IdmrgSim: `loop_spec` for the control flow, `Grown` (Engine/IdmrgCell) as invariant for the boundaries. The code never tests the energy for convergence: Econv only acts on the inner simulations.
* **C88 IDMRG energies are energies of the grown chain** — Props/IdmrgSim: a state of the cell is extended by the absorbed half cells (`padAmp`, Engine/Grow); orthonormality of the absorbed tensors turns norms and energies of the cell into those of the chain. Not true for the single-site simulation with cells of four or more sites, because the tensor optimised last is not orthonormalised before it enters the left boundary.
* **C89 IDMRG runs to its end** — Props/IdmrgTotal: invariant `Sound`; Engine/IdmrgDims shows that the matrices at the ends of the glued cell are square.  The only remaining failure is the NaN of a cell that vanishes when it is repeated.
* **C90 IDMRG with regauging** — Props/IdmrgRegauge follows the tensors through `__regauge__` and getBoundaryHams; the kernel regaugeIMPS is specified by `Symmetric` (left-orthonormal, squared Schmidt values as right fixed point). Props/IdmrgRestart: passes, growth and energies between regaugings, success up to errors of the kernels. Props/IdmrgRun: whole runs, and the infinite state (`rowProd`, `GaugeOf`).
* **C91 regaugeIMPS brings a cell into the desired gauge** — Mps/RegaugeImps is the model of UnitcellTMeigs and regaugeIMPS. Mps/RegaugeAlg and RegaugeCore: algebra of the gauge transformations and of the sweeps; RegaugeEig: what the eigensolver returns for a cell satisfying `Normal`; RegaugeFix, RegaugeSym: spectral decomposition of the fixed points, bounds on the Schmidt values (each at least pinv, norm at most one, hence no value is discarded). Specification: `Regauged`, `LeftOrth`/`RightOrth`, `Symmetric`. Truncation (Props/RegaugeTrunc, Mps/RegaugeNormal): `C91_truncated` follows both sweeps of the truncating call and shows that the cell handed to the recursive call is the cell in symmetric gauge between isometries of each bond (`Projected`), `C91_bonds` bounds all bonds, `C91_truncated_total` shows that calls whose thresholds discard nothing return. **Violated** for D<=1 (`C91_violated_product`): the projected cell has one state on the outer bond, and the recursive call raises as in `C91_violated_one`.
* **C92 Steady-state Hamiltonians of infinite systems** — Env/Steady is the model of computeDensity, TDVPGMRESUC, computeUCsteadyStateHamiltonianGMRES, fixPhase and of one boundary of getBoundaryHams. SteadyAlg, SteadyCore: algebra of MPOs of nearest-neighbour form (`NNSite`: state 0 for complete terms, B-1 for terms that have not begun, no entries between the other states); SteadyMirror: reflection of the chain, used for the right environment; SteadyRun: what the functions return; SteadyDens: density matrices and eigensolver; SteadyTotal: the linear system has a solution because its adjoint is injective. Specification: `SteadyL`, `SteadyR` in terms of contractMPO, the blocks and energies of finite chains (`blockL`, `energyL`). **Violated** in two places: the initial block (lib/mpslib/mpsfunctions.py:1917-1920, 1931-1934) already holds the on-site term of the last (first) site as complete, so that it is counted twice (C92_violated_onsite), and np.trace(L.dot(r)) pairs the environment with the transposed density matrix (C92_violated_energy: h = 0 for a cell with energy -1/2).
* **C93 Lattice phi^4 Hamiltonians** — Ham/Boson: builders assignment by assignment; entries of the truncated boson operators are shown to be those of normally ordered products (`nord`), the tensors to be of nearest-neighbour form, and the matrix elements of the product to be those of `phiEl`. **Violated**: g/(96 nu^2 dx) in PhiFourmpo (lib/mpslib/Hamiltonians.py:700) is twice the g/(96 nu dx) of the other variants divided by 2 nu (C93_violated_quartic).
* **C94 Lattice Lieb-Liniger Hamiltonians** — As C93 with the specification `llEl`; builders without boundary tensors are read from the last row to the first column (`Unclosed`). **Violated**: projectedLiebLinigermpo(obc=True) halves mu at the ends (lines 1129, 1166), C94_violated_ends; projectedLiebLinigermpo2(obc=False) returns an unassigned variable (part of C94_proj2).
* **C95 Energy density of the Lieb-Liniger model** — Product of identity tensors around three tensors, computed explicitly. **Violated**: N+1 tensors and a non-Hermitian operator (C95_violated).
* **C96 Lieb-Liniger Hamiltonians with site-dependent couplings** — Ham/Grid: the last value of a loop variable is part of the model (`staleN`). Specification `llEl`, `gridEl`. **Violated**: mu[n] after the loop in UnitcellExLiebLinigermpo (lines 1637, 1662; C96_violated_unitcell, C96_unitcell_short), dxtilde and dx[n] before and after the loop and dxtilde=dx[n] inside of it in projectedLiebLinigermpo3(obc=True) (lines 1270-1311; C96_violated_grid). projectedTwoBosonsModel (line 1021) raises NameError in its first line and is not modelled.
* **C97 Effective operators of the periodic engine** — Engine/Periodic: every contraction of the class as written, six-index arrays included. Specification `perEl` (Hamiltonian of the ring), `ringAmp` (trace of the product of matrices), `ringHam`, `ringDot`; the proof goes through `blockOf` (a block with open bonds as a sum over configurations) and splits the ring at the last site. **Violated** for three sites (engines.py 1523 with 1483), for `checkH(2)` and for the two optimisation methods (1572: UnboundLocalError; 1619/1635: TypeError). The docstring allows a plain list, which raises AttributeError (1443).
* **C98 The VUMPS engine** — Engine/Vumps: `regauge`, `TMeigs`, `RENORMBLOCKHAMGMRES`, the eigensolvers and the class as written. Specifications `LeftGauge`, `RightGauge`, `InfL`, `InfR` (half-infinite systems, by the energy of finite chains), `GroundSite`, `GroundBond`, `LowerSite`, `LowerBond`, `Gauged`, `Exact`, `misfitL/R`, `Runs`. Hermiticity of the effective Hamiltonians is proved from a symmetry of the MPO (`Conj`, shown for TFI and XXZ). `C98_run` composes everything for the first step. **Violated**: with `solver='AR'` and `arnumvecs>1` every step raises (engines.py 941: `eigsh` is called with `numvecs=1`, `numvecs_returned=arnumvecs`); with the default `numeig=3` scipy refuses bond dimension 2.
* **C99 Orthonormalising and truncating lists of tensors** — Mps/Ortho: the four functions as written, qr and svd being contracts. The loops are reduced to the sweeps of `__position__`; specifications `SweptAllR`, `SweptAllL`, `SweptPart`, `Truncated` (amplitudes, isometries, dimensions). **Violated**: (i) the documentation says that for `site2<len(mps)-1` (`site1>0`) the mps is not altered, but the norms taken out at every site are collected in the return value only, so that the state is divided by the norm of the returned matrix (`C99_violated_partial`: 4 becomes 2); (ii) `truncateMPS` drops `v` of the last site and the matrix returned by `orthonormalizeQR`, which for boundary dimensions above 1 changes the shape and the state (`C99_violated_truncate`); (iii) for `direction>0`, `fixphase` multiplies `u` by `herm(unit)` instead of `unit`, so that `u_kk` becomes `u_kk^2/|u_kk|` (`C99_violated_phase`: -1). Props/OrthoError bounds the error of `truncateMPS` by the Eckart-Young argument of C104, after mirroring the chain: the old state and a multiple of the new one differ by at most 2(N-1) times the squared distance to any matrix product state of bond dimension D.
* **C100 Gradient optimisation of homogeneous states** — Engine/Gradient: `regauge(gauge='symmetric')`, `__doGradStep__` and `__simulate__` as written, with the environments of C98 and the step size control of C50. GradientSym proves the canonical form by matrix algebra from the two fixed points; GradientEnv that the energies from left and right agree and that `<T|H|T>=2e` (the two half terms of the block operators meet at the centre site). `C100_gradient` states the gradient by its overlaps with all tensors; `C100_descent` the exact second-order expansion. The final normalisation cuts singular values up to 1e-14 (`Rescaled`). **Violated**: `numeig=3` with D<=2 (TypeError of scipy, `C100_violated_two`); the constructor of `HomogeneousDiscretizedBosonEngine` passes the defaults instead of its arguments (`C100_violated_boson`). Its `dens` counts a site with any number of bosons once (`C100_density`). Not proved: normality of the later states of a run; gradients after a truncation (`trunc>1E-15`; only `C100_truncation`).
* **C101 TDVP update of a uniform state** — Engine/TdvpInf: `TDVPupdate` as written (random complement, svd, `lgmres`, `sqrtm`, `pinv`). TdvpInfSpec is independent of the code: matrix elements of a sum of bond operators in a finite chain (`sumH`, `chainH`), the metric, and the limit of long chains (powers of a linear map with spectrum inside the unit disc tend to zero, by Gelfand's formula). TdvpInfRun translates the contractions to matrices, TdvpInfGauge bounds the overlap of `VL` with the tensor by a singular value argument. **Violated**: `VL` has the right number of entries only for d=2 (`C101_violated_dim`); an MPO of three or more sites fails at the reshape (`C101_violated_length`); the singular vectors of `[A, 1e-4*rand]` are not orthogonal to A (`C101_violated_gauge`: all spins up, TFI with field, where the exact direction is zero; the energy also shows that on-site terms are counted by both bonds). `C101_subspace` holds for all random numbers.
* **C102 ExHAproductSingle applies the effective Hamiltonian to an excitation of given momentum** — Engine/Excite: `ExHAproductSingle` as written, with its twelve terms and four linear systems. ExciteSpec is independent of the code: `elementK` is the matrix element of a sum of bond operators in a finite chain between a tangent vector at one site and a momentum superposition over all sites; its exact value (`elementK_solved`) and its limit in both directions (`elementK_tendsto`) are proved for every phase of modulus one. ExciteRun/ExciteTerms translate the contractions and show which systems are solved (`Solved`, `exHA_spec`). Disagreements: `TDVPGMRES` drops its argument `momentum`, so that the four geometric series are summed without the phase (`C102_violated_momentum`); `invsqrtr` is contracted without conjugation in the last line (`C102_violated_complex`); the energy of two bonds is not subtracted (the line with `GSenergy` is a comment). `ExcitationEngine.__simulate__` returns `NotImplemented` at once, so only the function itself can be called.
* **C103 The truncated weight bounds the error of a TEBD run in real time** — Engine/TebdError builds on the models of `applyTwoSiteGate` (C22, C23) and `doTEBD` (C35, C36): the norm of amplitude functions with its triangle inequality (`nrm2_triangle`), gates with orthonormal rows keep it (`act2_nrm2`), one truncating gate moves the state by at most sqrt(2 tw) (`gate_error`), and over a run the distances add up; Cauchy-Schwarz over the number of gates gives the bound linear in the accumulated weight (`replay_error`). The specification is the distance of amplitudes in the full Hilbert space to `opEvs`, the product of the exact gates of the Trotter scheme.
* **C104 truncate is quasi-optimal** — Mps/TruncErr proves the Eckart-Young bound for the factorisation contract (`SVDSpec.best`: of all matrices of rank at most k none is nearer than the first k singular triples, in the form of the weight that is kept), lifts it to `prepareTruncate` and the cut of the sweep (`cutL_best`), and follows the truncating sweep of `position` bond by bond (`sweepL_best`): every cut is measured against the Schmidt decomposition of the original state by projecting the competitor. Props/TruncError gives `truncate`. The competitor is a list of tensors of bond dimension at most D with no relation to the state; distances are those of the amplitudes in the full Hilbert space.
* **C105 getSchmidt returns the Schmidt values of the state** — Mps/Schmidt: the method with its move of the centre. The specification `RankDist` is the smallest squared distance of the amplitudes to sums of D products of functions of the left and of the right part of a configuration; Bessel's inequality for the products of the left and right block states reduces it to `SVDSpec.best`. The values are determined by these distances, which gives independence of the gauge. **Violated** for objects which are not in canonical form: the method calls `__position__`, which orthonormalises only the tensors it passes; for a fresh object the centre is at the right end and the tensors left of n are taken as they are (`C105_violated_fresh`: a product state with two nonzero values). The theorems assume `MPS.Canonical`, which C08 gives after one full sweep.
* **C106 Projected environments are the environments minus their fixed-point part** — Env/Projected: the four functions as they stand, with the negative index -2 of the first step of `getRprojected`. The proof carries the invariant that the projected block differs from the full one by a multiple of the density matrix in one channel (`Shift`), which `addLayer` keeps because the row (column) of the MPO is the identity in its corner. **Violated** for complex states: `np.trace(R.dot(lmat))` sums R[i,j]l[j,i] while blocks and density matrices are paired as R[i,j]l[i,j] (`C106_violated_complex`: a right orthonormal cell with a Hermitian fixed point l and overlap different from 0). `C106_left`/`C106_right` state the projection in the order of the indices used by the code; for symmetric density matrices `C106_paired` gives the pairing that is meant. Disagreement with the docstring: it places ldens[n] between the sites n and n+1, the code uses ldens[n] between n-1 and n.
* **C107 MPS.fromList returns the given state, normalised and canonical** — Mps/FromList: `allRows` is the built-in `all` applied to None or a matrix, `MPS.fromList` the class method. Proof: the object on which the sweeps start represents -1e10 times the given state (`fromList_start`), the sweeps keep the state and multiply Z by positive numbers only, and the sign of the initial Z is dropped with it. **Violated** for the default `mat=None` (`all(None)` is a TypeError, `C107_violated_default`) and for every matrix with two or more columns (the truth value of a row is ambiguous, `C107_violated_matrix`); `C107_fromList_partial` covers what is left, matrices with one column.
* **C108 bisection finds a zero, or the neighbours of a point on a grid** — Utils/Bisect: the two functions of this name, the order in which the module binds them, and how Python matches the arguments of a call with a signature (`PySig.accepts`). **Violated** completely: the second definition replaces the first, so the calls in `periodicSmooth` raise a TypeError (`C108_violated_shadowed`), and the second one slices with the float (N-N%2)/2 (Python 3), which raises a TypeError for every grid (`C108_violated_grid`). `C108_root_partial` shows that the body of the first definition does what is meant (intermediate value theorem and a count of the halvings), `C108_grid_partial` the same for the body of the second one if the division is one of integers.
* **C109 Checks for orthonormality and diagonal form return the deviation** — Mps/Check: the three functions; the printed text is left out. `C109_left`, `C109_right`: a Gram matrix minus the identity vanishes exactly for orthonormal tensors, and Cauchy-Schwarz bounds the form by the Frobenius norm (`form_le`). `C109_isDiag`, `C109_isDiagUnitary`: the value is attained (by the diagonal, by the phases of the diagonal) and is a lower bound. `C109_other`: without a branch for it, another value of `which` ends in an UnboundLocalError.
* **C110 getBlockHam returns the effective Hamiltonian of a bond and the matrix on it** — Env/BlockHam: the function as it stands, with the moved object as part of the result. `C110_blocks` identifies the blocks as full contractions and the matrix as the second factor of the tensor at `index`; `C110_returns` shows that it returns whenever the centre matrix at the bond is square. **Violated**: the tensor at `index` is factorised without the centre matrix to its left, so that the expectation value is the energy of another state, the one with the centre matrix left out (`C110_without_centre`); for 3/5|00>+4/5|11> and sigma_z on the first site it is 0 instead of -7/25 (`C110_violated_energy`, for all correct qr and svd). `C110_energy_partial` covers centre matrices that are multiples of the identity, in particular index 0 with one state on the left boundary (`C110_first_partial`).
* **C111 Lattice-cMPS tensors are brought into an orthonormal gauge without changing them** — Mps/FixA0: the two variants of `prepareTensorfixA0`, `prepareTensorFixPhase` and `prepareTensor` of mpsfunctionsgradopt.py; `np.linalg.pinv` is a parameter with A P A = A. With two components and an invertible component 0 the variants of mpsfunctionsgradopt.py are exact (`C111_gradopt_right/_left`, `C111_phase_right/_left` for 'u' and 'v', up to the norm of the matrix); `C111_prepareTensor` covers every tensor. **Violated**: the variant of mpsfunctions.py drops the norm returned by `prepareTensor`, so that the input is Z times the product with Z^2 = D+||A1 inv(A0)||^2 (`C111_fixA0_right/_left`), which is never the input for D>=2 (`C111_violated_norm`); components from the third on are replaced by zeros (`C111_violated_components`); for a singular component 0 the rest is lost (`C111_violated_singular`). `C111_refused`: exceptions.
* **C112 The central gauge of a unit cell** — Mps/CentralC: `regaugecentralC` and `computeOrthogonalMPS` with the transfer operators and the eigensolver loop of mpsfunctionsgradopt.py, for complex tensors; `sqrtm`, `pinv` and `eigs` are parameters (`GaugeSpec`, `EigsSpec`, `ConvergesSix`). `C112_gauge` and `C112_orthogonal` show the gauge and the same state for every cell length and every bond dimension from three on. The second eigenvalue returned is always 1, as it is computed after the normalisation. Violated: bond dimensions one and two are always refused, as six eigenvalues are asked for (`C112_violated_small`); the matrices on the bonds are not normalised (`C112_violated_norm`); all tensors get the number of components of the first one (`C112_components`).
* **C113 distributeR spreads a matrix over a unit cell without changing the state** — Mps/Distribute: `distributeR` for complex tensors on top of `computedx` (C48); `np.linalg.eig` is a parameter (`EigSpec`: the roots of the characteristic polynomial with a normalised eigenvector each; met by `exists_eig`). `C113_spread`: for a positive definite matrix whose returned eigenvectors are orthonormal the result is the input with a positive `N+1`-st root of r on the bonds, and the product over the cell gets the factor `R^N`; `C113_distinct` derives the orthonormality for distinct eigenvalues. Violated: for a matrix that is not normal the conjugate transpose is used as the inverse (`C113_violated_normal`); a grid that is not uniform raises NameError, as `sys` is not imported (`C113_violated_exit`).
* **C114 Matching the phases of singular vectors** — Utils/Phase: `findPhase`, `findPhase2` and their cost functions `fun1`, `fun3`; `minimize_scalar` is a parameter (`MiniSpec`: a local minimum strictly inside the bounds, for continuous functions whose period is shorter than the interval; met by `exists_mini`). The costs are sinusoids, whose local minima are global (`sinusoid_min`). `C114_closest`, `C114_recovers`, `C114_succeeds`: `findPhase2`. Violated: `findPhase` uses the phase exp(i phi) for V as well (`C114_violated_diag`, `C114_diag_partial`). `matchState` of the same file always raises NameError (`D`); it is not modelled.
* **C115 The left gauge of a unit cell of lattice-cMPS tensors** — Mps/GradRegauge: `regauge` of mpsfunctionsgradopt.py for complex tensors, with the parts modelled for C111 and C112. `C115_gauge` gives the gauge, the unitary matrix and the same state for every cell length and every bond dimension from three on. The hypothesis of two components with an invertible component 0 is that of C111: `prepareTensorFixPhase` loses further components. `exists_gauge_pinv` shows that the contracts of `sqrtm` and `pinv` can be met together, `trio_cell` that a cell of three tensors meets all hypotheses. **Violated**: bond dimensions one and two are always refused, as six eigenvalues are asked for (`C115_violated_small`). Not modelled: real dtype.
* **C116 The eigenvalues of the mixed transfer operator bound the fidelity** — Env/Fidelity, with the operators of Env/Transfer. `C116_right` and `C116_left` give the bound and the intertwining matrix in the case of equality, `C116_reached_right` and `C116_reached_left` the converse; the bond dimensions of the two tensors may differ. The proof completes a square in the weighted inner product of the two fixed points. **Violated** for unit cells: `MixedUnitcellTMeigs` never returns, as the operator it calls uses the undefined names `mps1` and `mps2` (`C116_violated_cell`).
* **C117 The effective Hamiltonian of a nearest-neighbour interaction and its projection** — Env/PairH: both functions, with `initializeLayer`, `addLayer` and the transfer operator as modelled before. The specification `element` is written with products of matrices and the interaction `inter` of the two sites. `C117_element` gives all matrix elements, `C117_hermitian` follows from it, `C117_tangent` relates the two functions. **Violated** for three and more components: the complement of a left-orthonormal tensor has D(d-1) columns, and the last term is reshaped to D times D (`C117_violated_wide`). Broadcasting of axes of length one is not modelled.
* **C118 The ground state of the bond operator** — Engine/BondSimple, with the contract of `eigsh` of C82. `C118_ground` proves the property for square matrices and one vector. **Violated** for rectangular matrices, as `HAproductBond` reshapes to a square (`C118_violated_rect`), and for more than one vector, as all of them are reshaped to one matrix (`C118_violated_many`).
* **C119 MPO objects made from lists** — Ham/Obj: objects are values, so the deep copy is the identity; slices are not modelled. `C119_item`, `C119_assign` and `C119_range` prove the property for objects made from lists. **Violated** by `fromMPO`, which asks for an attribute `_mpolist` that no object has, and by `dtype` of objects made from lists (`C119_violated`).
* **C120 Entries of random initial tensors** — Mps/RandInit, with the initialiser of C28 and the contract `Sample` of `np.random.random_sample` (real numbers from [0,1)); that the numbers are random is not modelled. `C120_entries` proves the entries of `MPSinitializer`, `C120_real` shapes and entries of `MPSinit` for the dtype float. **Violated** for the dtype complex, which `MPSinit` does not pass on (`C120_violated_complex`).
* **C121 The effective Hamiltonian applied to a tensor** — Env/ApplyH, with the contraction of C30. `C121_site` proves the property for sites of local dimension two, `C121_element` the scalar product with any tensor. **Violated** for all other local dimensions, which an assertion refuses (`C121_violated_dim`).
* **C122 Smoothing of an array of matrices** — Utils/Smooth, with the contract `SavSpec` of `savgol_filter`: it returns for odd windows, and leaves polynomials unchanged. `C122_square` and `C122_poly` prove the property for square matrices. **Violated** for rectangular matrices, as both loops run over the rows (`C122_violated_rect`), and for dtypes other than float64 and complex128, for which None is returned (`C122_violated_dtype`).
* **C123 The Radau integrators** — Engine/Radau, with the names of the module as a list and the contract `RadauSpec` of one step of the solver. **Violated**: `Radau` is not imported, so that no call returns (`C123_violated`). `C123_site_partial` and `C123_bond_partial` prove the property for a module that imports it, if the first step reaches the end of the interval; the code makes one step only and extrapolates otherwise.
* **C124 Four-point correlations** — Mps/FourPoint, with the names of the module of C123; what follows the first use of the undefined name is a parameter. **Violated**: no call returns, as the module does not define `mf` (`C124_violated`). `C124_after` proves that NameError is raised with the state of the object preserved and its centre at bond 0, `C124_count` the case of another number of operators.
