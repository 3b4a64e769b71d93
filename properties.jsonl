{"id": "C01", "title": "ncon computes the Einstein sum", "statement": "ncon(AA,v,order,forder) returns the tensor whose entry at an assignment of the free (negative) labels is the sum, over all assignments of the contracted (positive) labels within their dimensions, of the product of the entries of all tensors; its axes are in the order given by forder. Disconnected networks give the outer product of the components.", "quantifier": "every number of tensors, every rank and dimension, every well-formed labelling (contracted labels occur twice with equal dimension, free labels once) and every contraction order", "why_tests_cant": "The set of networks, labelings and contraction orders is unbounded; tests run a few small networks in the default order.", "anchors": ["lib/ncon/ncon.py:ncon", "lib/ncon/ncon.py:get_tcon", "lib/ncon/ncon.py:get_icon", "lib/ncon/ncon.py:get_pos", "lib/ncon/ncon.py:find_newv", "lib/ncon/ncon.py:renew_order", "lib/ncon/ncon.py:permute_final", "lib/ncon/ncon.py:connect_graph"]}
{"id": "C02", "title": "ncon result does not depend on the contraction order", "statement": "Two calls of ncon on the same network that differ only in the (valid) contraction order return the same tensor (in exact arithmetic), and neither raises.", "quantifier": "every well-formed network and every pair of permutations of its contracted labels", "why_tests_cant": "There are factorially many orders per network; agreement on samples says nothing on the rest.", "anchors": ["lib/ncon/ncon.py:ncon", "lib/ncon/ncon.py:renew_order", "lib/ncon/ncon.py:get_icon"]}
{"id": "C03", "title": "ncon index check is sound and complete for the contraction loop", "statement": "With check_indices=True, ncon raises a ValueError exactly when the tensor and label counts differ, a tensor's rank differs from its number of labels, a label of order does not occur exactly twice with matching dimensions, or a label of forder does not occur exactly once; when the check passes on the default order/forder the contraction loop never raises.", "quantifier": "every list of tensors and every list of label lists", "why_tests_cant": "Requires showing absence of a failing network among infinitely many.", "anchors": ["lib/ncon/ncon.py:do_check_indices", "lib/ncon/ncon.py:get_tcon", "lib/ncon/ncon.py:ncon"]}
{"id": "C04", "title": "ncon leaves its arguments alone", "statement": "Calling ncon does not change the caller's tensor list, label lists or order list.", "quantifier": "every call, including disconnected networks with a user supplied order list", "why_tests_cant": "Aliasing of a caller's list only shows for the disconnected case with explicit order; the property quantifies over all calls.", "anchors": ["lib/ncon/ncon.py:ncon", "lib/ncon/ncon.py:connect_graph"]}
{"id": "C05", "title": "binarybasis enumerates exactly the fixed-popcount words", "statement": "binarybasis(N,Nup) returns, in strictly increasing order and without repetition, exactly the integers below 2**N whose binary representation has Nup ones; its length is binomial(N,Nup).", "quantifier": "all N and Nup with 0<=Nup<=N (integers, before any floating point promotion)", "why_tests_cant": "Tests can only check small N; the claim is for all sizes.", "anchors": ["lib/utils/binaryoperations.py:binarybasis"]}
{"id": "C06", "title": "Bit primitives change and read exactly one bit", "statement": "setBit, unsetBit and flipBit change only the addressed bit of a 64-bit word, to 1, 0 and its complement; getBit reads that bit; flipBit is an involution; set/unset are idempotent and operations at different positions commute.", "quantifier": "all 64-bit words and all positions 0..63", "why_tests_cant": "2**64 words times 64 positions.", "anchors": ["lib/utils/binaryoperations.py:flipBit", "lib/utils/binaryoperations.py:setBit", "lib/utils/binaryoperations.py:unsetBit", "lib/utils/binaryoperations.py:getBit"]}
{"id": "C07", "title": "Moving the orthogonality centre does not change the state", "statement": "position(bond) without truncation changes tensors, centre matrix and norm factor Z in such a way that the represented state (Z times the contraction of all tensors with the centre matrix inserted at the position) is unchanged on every basis configuration.", "quantifier": "every matrix product state with matching bond dimensions whose state does not vanish on the way, every chain length, every local dimension, every bond 0..N and every sequence of such calls", "why_tests_cant": "Amplitudes form an exponentially large vector and N, D, d are unbounded; tests compare a few overlaps to 1E-10.", "anchors": ["lib/mpslib/mps.py:MPS.__position__", "lib/mpslib/mps.py:MPS.position", "lib/mpslib/mpsfunctions.py:prepareTensor"]}
{"id": "C08", "title": "Canonical form after any history of moves", "statement": "After position(0) (or position(N)) has swept the chain once, for every later sequence of position calls all tensors left of the current position are left-orthonormal, all tensors at or right of it are right-orthonormal, and the centre matrix has unit Frobenius norm.", "quantifier": "every chain and every finite sequence of target bonds", "why_tests_cant": "Invariant over unbounded operation histories.", "anchors": ["lib/mpslib/mps.py:MPS.__position__", "lib/mpslib/mpsfunctions.py:prepareTensor", "lib/mpslib/mpsfunctions.py:check_normalization"]}
{"id": "C09", "title": "position argument range and bookkeeping", "statement": "position(bond) raises an AssertionError exactly for bond<0 or bond>N, in which case nothing is changed; otherwise afterwards pos==bond, the number of tensors, the local dimensions and the boundary bond dimensions are unchanged, neighbouring bond dimensions still match, and no bond dimension has grown.", "quantifier": "every chain, every integer bond, every history", "why_tests_cant": "Shape invariants have to hold over all histories and sizes.", "anchors": ["lib/mpslib/mps.py:MPS.__position__", "lib/mpslib/mps.py:MPS.D", "lib/mpslib/mps.py:MPS.pos"]}
{"id": "C10", "title": "Z carries the norm of the state", "statement": "After a full sweep position(0);position(N) (or the reverse) on an open chain, the square of the norm of the represented state equals |Z|**2; after resetZ the state has norm one and is the original state divided by a scalar.", "quantifier": "every open chain with non-vanishing state", "why_tests_cant": "Norm is a sum over exponentially many configurations; holds for all sizes.", "anchors": ["lib/mpslib/mps.py:MPS.__position__", "lib/mpslib/mps.py:MPS.resetZ", "lib/mpslib/mps.py:MPS.random", "lib/mpslib/mpsfunctions.py:prepareTensor"]}
{"id": "C11", "title": "Scalar multiplication and division", "statement": "mps*c, c*mps, mps/c and mps*=c represent c (or 1/c) times the state on every configuration; the first three leave the operand unchanged; non-scalar arguments raise TypeError and change nothing.", "quantifier": "every MPS, every scalar (nonzero for division)", "why_tests_cant": "All amplitudes, all sizes.", "anchors": ["lib/mpslib/mps.py:MPS.__mul__", "lib/mpslib/mps.py:MPS.__rmul__", "lib/mpslib/mps.py:MPS.__truediv__", "lib/mpslib/mps.py:MPS.__imul__"]}
{"id": "C12", "title": "Sum of two states", "statement": "mps1+mps2 represents, on every configuration, the sum of the two represented states, with bond dimensions equal to the sums of the interior bond dimensions; operands are unchanged; different lengths or local dimensions raise ValueError.", "quantifier": "every pair of open chains", "why_tests_cant": "All amplitudes of all pairs of states; also the chain-length boundary case N=1.", "anchors": ["lib/mpslib/mps.py:MPS.__add__", "lib/mpslib/mpsfunctions.py:addMPS", "lib/mpslib/mpsfunctions.py:directsum"]}
{"id": "C13", "title": "Difference of two states", "statement": "mps1-mps2 represents the difference of the two states on every configuration; mps-mps represents zero.", "quantifier": "every pair of open chains", "why_tests_cant": "All amplitudes of all pairs of states.", "anchors": ["lib/mpslib/mps.py:MPS.__sub__", "lib/mpslib/mps.py:MPS.__mul__", "lib/mpslib/mpsfunctions.py:addMPS"]}
{"id": "C14", "title": "In-place addition equals addition", "statement": "After mps+=other the object represents the sum of the two states, exactly as mps+other does.", "quantifier": "every pair of open chains and every position of the orthogonality centre of either operand", "why_tests_cant": "Depends on the position history of the operand; interior centre positions and boundary phases.", "anchors": ["lib/mpslib/mps.py:MPS.__iadd__", "lib/mpslib/mps.py:MPS.tolist"]}
{"id": "C15", "title": "Unary minus negates the state", "statement": "-mps represents minus the state on every configuration.", "quantifier": "every MPS of every length", "why_tests_cant": "Depends on the parity of the length; sampling one length misses it.", "anchors": ["lib/mpslib/mps.py:MPS.__neg__", "lib/mpslib/mps.py:MPS.__unary_operations__", "lib/mpslib/mps.py:generate_unary_deferer"]}
{"id": "C16", "title": "copy is a faithful, independent copy", "statement": "copy() returns an object with the same length, tensors, centre matrix, position, norm factor, thresholds and boundary-condition flag; later operations on the copy do not affect the original.", "quantifier": "every MPS object, every later sequence of operations on either", "why_tests_cant": "Quantifies over all objects and all later operations.", "anchors": ["lib/mpslib/mps.py:MPS.__copy__", "lib/mpslib/mps.py:MPS.copy"]}
{"id": "C17", "title": "save/load round trip", "statement": "obj.load(f) after mps.save(f) makes obj equal to mps in every observable field, including the maximal bond dimension Dmax.", "quantifier": "every MPS and every receiving object", "why_tests_cant": "All objects; a test that never looks at Dmax misses it.", "anchors": ["lib/mpslib/mps.py:MPS.save", "lib/mpslib/mps.py:MPS.load", "lib/mpslib/mps.py:MPS.Dmax"]}
{"id": "C18", "title": "overlap is the inner product", "statement": "overlap(mps1,mps2) returns the sum over configurations of psi1 times the conjugate of psi2 and leaves both states and positions unchanged; different lengths or non-trivial boundary dimensions raise ValueError.", "quantifier": "every pair of open chains, every pair of positions", "why_tests_cant": "Exponentially many amplitudes; depends on gauge history through the boundary centre matrices.", "anchors": ["lib/mpslib/mpsfunctions.py:overlap", "lib/mpslib/mpsfunctions.py:addELayer", "lib/mpslib/mps.py:MPS.dot"]}
{"id": "C19", "title": "measureLocal is the expectation value", "statement": "measureLocal(op,site) returns sum over configurations of psi times conj(psi) with op inserted at the site (convention op[in,out]) for a chain in canonical form, whatever the current position, and restores the position.", "quantifier": "every canonical open chain, every site, every operator, every current position", "why_tests_cant": "All states, sizes, positions.", "anchors": ["lib/mpslib/mps.py:MPS.__measureLocal__", "lib/mpslib/mps.py:MPS.__tensor__"]}
{"id": "C20", "title": "measureList agrees with the single-site expectation values", "statement": "measureList(ops)[n] equals |Z|**2 times the expectation value of ops[n] at site n, for every n; for a normalised canonical state it equals measureLocal(ops[n],n).", "quantifier": "every canonical open chain and list of operators", "why_tests_cant": "All states and sizes; two independently coded routines have to agree.", "anchors": ["lib/mpslib/mps.py:MPS.__measureList__", "lib/mpslib/mpsfunctions.py:measureLocal", "lib/mpslib/mpsfunctions.py:measure"]}
{"id": "C21", "title": "One-site gate", "statement": "applyOneSiteGate(gate,site) replaces the state by the one obtained by acting with gate (convention gate[in,out]) on that site, on every configuration, for both values of preserve_position; sites out of range raise.", "quantifier": "every chain, every site, every gate, every position", "why_tests_cant": "All amplitudes of all states.", "anchors": ["lib/mpslib/mps.py:MPS.__applyOneSiteGate__", "lib/mpslib/mpsfunctions.py:prepareTensor"]}
{"id": "C22", "title": "Two-site gate without truncation", "statement": "applyTwoSiteGate(gate,site,Dmax,thresh) with no discarded singular value replaces the state, up to the positive factor that normalises the new centre matrix, by the one obtained by acting with gate on sites site,site+1; the position becomes site+1.", "quantifier": "every canonical open chain, every site<N-1, every gate", "why_tests_cant": "All amplitudes of all states and gates.", "anchors": ["lib/mpslib/mps.py:MPS.__applyTwoSiteGate__", "lib/mpslib/mpsfunctions.py:svd"]}
{"id": "C23", "title": "Two-site gate truncation contract", "statement": "applyTwoSiteGate returns (tw,D): D is the new bond dimension, D<=Dmax, every kept Schmidt value is >thresh, and tw is exactly the sum of squares of the discarded Schmidt values; for a canonical state the kept, unnormalised part differs from the exact result by squared distance tw.", "quantifier": "every state, gate, Dmax>=1 and threshold", "why_tests_cant": "All spectra, all cut-offs.", "anchors": ["lib/mpslib/mps.py:MPS.__applyTwoSiteGate__"]}
{"id": "C24", "title": "truncate respects the requested bond dimension", "statement": "After truncate(schmidt_thresh,D) on an open chain with D<=Dmax every bond dimension is at most D and the result is canonical at position 0; with D larger than the maximal bond dimension nothing changes.", "quantifier": "every open chain, every D>=1 and threshold", "why_tests_cant": "All sizes and spectra.", "anchors": ["lib/mpslib/mps.py:MPS.__truncate__", "lib/mpslib/mps.py:MPS.__position__", "lib/mpslib/mpsfunctions.py:prepareTruncate"]}
{"id": "C25", "title": "tensor/tolist absorb the centre matrix", "statement": "tolist() returns tensors whose plain contraction (without centre matrix) times Z is the state; tensor(site) is defined exactly for site in {pos-1,pos} and equals the tensor with the centre matrix absorbed; out-of-range raises AssertionError.", "quantifier": "every MPS and position", "why_tests_cant": "All positions and sizes.", "anchors": ["lib/mpslib/mps.py:MPS.tolist", "lib/mpslib/mps.py:MPS.__tensor__", "lib/mpslib/mps.py:MPS.__absorbCenterMatrix__"]}
{"id": "C26", "title": "Index access", "statement": "mps[n] is defined exactly for -N<=n<N and follows Python's negative index convention; mps[n]=t replaces exactly that tensor by a copy; outside the range an AssertionError is raised and nothing changes.", "quantifier": "every MPS and every integer n", "why_tests_cant": "All lengths and indices, in particular the boundary -N, N.", "anchors": ["lib/mpslib/mps.py:MPS.__getitem__", "lib/mpslib/mps.py:MPS.__setitem__"]}
{"id": "C27", "title": "productState is the product state", "statement": "productState(localstate,obc=True) represents, on each configuration s, the product over sites n of localstate[n][s_n]; a local state of norm <1E-10 raises ValueError.", "quantifier": "all lengths >=2, all local dimensions and vectors", "why_tests_cant": "All sizes; length 1 is a boundary case.", "anchors": ["lib/mpslib/mps.py:MPS.productState", "lib/mpslib/mpsfunctions.py:MPSinitializer"]}
{"id": "C28", "title": "Initialiser shapes", "statement": "MPSinitializer/random/zeros/ones return N tensors whose bond dimensions match, with boundary dimension 1 for obc and D otherwise, and local dimensions d (scalar or per site); lengths for which obc cannot be built raise.", "quantifier": "all N, D, d, both boundary conditions", "why_tests_cant": "All sizes.", "anchors": ["lib/mpslib/mpsfunctions.py:MPSinitializer", "lib/mpslib/mps.py:MPS.random", "lib/mpslib/mps.py:MPS.zeros", "lib/mpslib/mps.py:MPS.ones"]}
{"id": "C29", "title": "MPO application to a list of tensors", "statement": "applyMPO(mps,mpo) returns tensors whose contraction on configuration s' is the sum over s of the mps amplitude at s times the mpo element (s,s'); inplace=True gives the same tensors; bond dimensions multiply; different lengths raise AssertionError.", "quantifier": "all chains and all MPOs with matching bonds", "why_tests_cant": "All amplitudes, all sizes.", "anchors": ["lib/mpslib/mpsfunctions.py:applyMPO"]}
{"id": "C30", "title": "Environments are full contractions", "statement": "The left (right) environment returned for cut n by repeated addLayer/getL/getR equals the sum over all configurations of the sites to the left (right) of upper amplitude times mpo element times conjugate lower amplitude, for every open bond triple; contracting left and right environments at any cut, or L, tensor, mpo, R through the effective Hamiltonian with the conjugate tensor, gives the same number <psi|H|psi> for every cut.", "quantifier": "all chains, MPOs, boundaries and all cuts", "why_tests_cant": "All sizes; exponentially many configurations.", "anchors": ["lib/mpslib/mpsfunctions.py:addLayer", "lib/mpslib/mpsfunctions.py:addELayer", "lib/mpslib/mpsfunctions.py:getL", "lib/mpslib/mpsfunctions.py:getR", "lib/mpslib/mpsfunctions.py:initializeLayer", "lib/mpslib/mpsfunctions.py:HAproductSingleSiteMPS", "lib/mpslib/mpsfunctions.py:HAproductZeroSiteMat", "lib/mpslib/mpsfunctions.py:HAproductBondMatrix", "lib/mpslib/mpsfunctions.py:contractionH", "lib/mpslib/mpsfunctions.py:contractMPO"]}
{"id": "C31", "title": "Environment cache of an engine is never stale when used", "statement": "After any history of position moves of an engine, the cached left environments up to the current position and right environments from the current position on equal the environments recomputed from the current tensors; in a DMRG simulation every local optimisation of every sweep is called with the environments of the tensors at that moment.", "quantifier": "every history of moves and updates, every number of sweeps, every N>=2", "why_tests_cant": "Histories are unbounded; staleness appears only for particular interleavings.", "anchors": ["lib/mpslib/engines.py:Container.position", "lib/mpslib/engines.py:DMRGengine.__init__", "lib/mpslib/engines.py:DMRGengine.optimize", "lib/mpslib/engines.py:DMRGengine.__simulate__"]}
{"id": "C32", "title": "Container.position range and error behaviour", "statement": "Container.position(n) raises IndexError exactly for n<0 or n>N, leaving everything unchanged; otherwise the MPS position becomes n.", "quantifier": "every engine state and integer n", "why_tests_cant": "All states; includes states reached after update()/truncateMPS().", "anchors": ["lib/mpslib/engines.py:Container.position", "lib/mpslib/engines.py:Container.update", "lib/mpslib/engines.py:Container.truncateMPS"]}
{"id": "C33", "title": "An engine stays usable after update() or truncateMPS()", "statement": "After update() or truncateMPS() every position(n) with 0<=n<=N succeeds and the caches are consistent.", "quantifier": "every engine with N>=1 sites and every n", "why_tests_cant": "Requires reasoning about the cache list for all N.", "anchors": ["lib/mpslib/engines.py:Container.update", "lib/mpslib/engines.py:Container.truncateMPS", "lib/mpslib/engines.py:Container.position"]}
{"id": "C34", "title": "DMRG sweep schedule", "statement": "One DMRG sweep optimises sites 0..N-2 going right and N-1..1 going left (every site at least once, interior sites twice); the simulation performs at least one and at most max(1,Nmax) sweeps, stops at the first sweep whose energy change is below Econv, writes a checkpoint exactly at the sweeps divisible by cp, and returns the last energy.", "quantifier": "every N>=2, Nmax, Econv, cp and every sequence of energies", "why_tests_cant": "All loop parameters and all energy sequences.", "anchors": ["lib/mpslib/engines.py:DMRGengine.__simulate__", "lib/mpslib/engines.py:DMRGengine.__simulateTwoSite__"]}
{"id": "C35", "title": "TEBD layers partition the bonds", "statement": "applyEven and applyOdd together apply exactly one gate to every bond (n,n+1), n=0..N-2; gates within one layer act on disjoint sites; a bond belongs to the even layer iff n is even.", "quantifier": "every N", "why_tests_cant": "All lengths and both parities; index arithmetic of the odd layer depends on parity.", "anchors": ["lib/mpslib/engines.py:TimeEvolutionEngine.applyEven", "lib/mpslib/engines.py:TimeEvolutionEngine.applyOdd"]}
{"id": "C36", "title": "TEBD is the symmetric second-order Trotter scheme for any checkpointing", "statement": "doTEBD(dt,numsteps) applies in total numsteps*dt to every bond, as the palindromic sequence E(dt/2) O(dt) E(dt) O(dt) ... O(dt) E(dt/2) up to splitting a full even layer into two half layers at checkpoints; the evolved state does not depend on cp or keep_cp; numsteps=0 does nothing.", "quantifier": "every numsteps, cp, keep_cp and starting iteration", "why_tests_cant": "All step counts and checkpoint periods, with interplay of last step and checkpoint step.", "anchors": ["lib/mpslib/engines.py:TimeEvolutionEngine.__doTEBD__"]}
{"id": "C37", "title": "Simulated time bookkeeping", "statement": "After doTEBD or doTDVP with numsteps steps of real-time step dt the reported time has advanced by numsteps*|Im dt| and the iteration counter by numsteps, independent of the verbosity level.", "quantifier": "every numsteps, dt and verbose", "why_tests_cant": "Depends on the verbosity flag.", "anchors": ["lib/mpslib/engines.py:TimeEvolutionEngine.__doTEBD__", "lib/mpslib/engines.py:TimeEvolutionEngine.__doTDVP__", "lib/mpslib/engines.py:TimeEvolutionEngine.time", "lib/mpslib/engines.py:TimeEvolutionEngine.iteration"]}
{"id": "C38", "title": "Checkpoint retention", "statement": "With keep_cp=True every checkpoint file written stays on disk; with keep_cp=False at most one checkpoint file of the run remains, it is the latest one, and no other file of the user is deleted.", "quantifier": "every run: every numsteps, cp, file system content and starting iteration", "why_tests_cant": "Depends on history of checkpoints and on last step.", "anchors": ["lib/mpslib/engines.py:TimeEvolutionEngine.__doTEBD__", "lib/mpslib/engines.py:TimeEvolutionEngine.__doTDVP__", "lib/mpslib/engines.py:Container.save"]}
{"id": "C39", "title": "TDVP sweep schedule", "statement": "One TDVP step evolves every site tensor forward by a total of dt and every interior bond matrix backward by a total of dt, in a palindromic (symmetric) order, each time with environments computed from the current tensors.", "quantifier": "every N>=2 and every number of steps", "why_tests_cant": "All sizes and histories.", "anchors": ["lib/mpslib/engines.py:TimeEvolutionEngine.__doTDVP__", "lib/mpslib/engines.py:TimeEvolutionEngine.initializeTDVP"]}
{"id": "C40", "title": "Two-site gates sum up to the Hamiltonian", "statement": "For an MPO of nearest-neighbour form the two-site generators used by twoSiteGate(m,m+1,tau), summed over all bonds, equal the Hamiltonian represented by the MPO; every call with 0<=m<N-1 succeeds.", "quantifier": "all such MPOs of all lengths N>=2", "why_tests_cant": "All lengths; on-site terms have to be counted exactly once in bulk and at edges.", "anchors": ["lib/mpslib/Hamiltonians.py:MPO.twoSiteGate"]}
{"id": "C41", "title": "XXZ MPO represents the XXZ Hamiltonian", "statement": "The matrix element of the MPO built by XXZ(Jz,Jxy,Bz,obc=True) between any two configurations equals that of sum_n Jz[n]Sz_n Sz_{n+1} + Jxy[n]/2 (S+_n S-_{n+1}+h.c.) + Bz[n] Sz_n.", "quantifier": "all N>=2, all couplings, all pairs of configurations", "why_tests_cant": "Exponentially many matrix elements for each of infinitely many sizes.", "anchors": ["lib/mpslib/Hamiltonians.py:XXZ"]}
{"id": "C42", "title": "TFI MPO represents the transverse-field Ising Hamiltonian", "statement": "The matrix element of the MPO built by TFI(Jx,Bz,obc=True) equals that of sum_n Jx[n] X_n X_{n+1} + Bz[n] Z_n.", "quantifier": "all N>=2, couplings and configurations", "why_tests_cant": "Exponentially many matrix elements for each size.", "anchors": ["lib/mpslib/Hamiltonians.py:TFI", "lib/mpslib/Hamiltonians.py:TFI_2"]}
{"id": "C43", "title": "Spinless-fermion MPO represents the Jordan-Wigner transformed chain", "statement": "The matrix element of the MPO built by SpinlessFermions(interaction,hopping,chempot,obc=True) equals that of the fermionic Hamiltonian -sum_n hopping[n](c^+_n c_{n+1}+h.c.) + sum_n interaction[n] n_n n_{n+1} + chempot[n] n_n under the Jordan-Wigner map, including signs.", "quantifier": "all N>=2, couplings and configurations", "why_tests_cant": "Signs depend on strings of arbitrary length.", "anchors": ["lib/mpslib/Hamiltonians.py:SpinlessFermions"]}
{"id": "C44", "title": "Hubbard MPO represents the Hubbard chain", "statement": "The matrix element of the MPO built by HubbardChain(U,t_up,t_down,mu_up,mu_down,obc=True) equals that of the Hubbard Hamiltonian under the Jordan-Wigner map with its fermionic signs.", "quantifier": "all N>=2, couplings and configurations", "why_tests_cant": "Signs and sizes unbounded.", "anchors": ["lib/mpslib/Hamiltonians.py:HubbardChain"]}
{"id": "C45", "title": "XXZflipped uses the couplings of its own bond", "statement": "The MPO built by XXZflipped represents sum_n of the bond terms with bond n carrying the n-th entry of each coupling array.", "quantifier": "all N>=2 and all (inhomogeneous) couplings", "why_tests_cant": "Only inhomogeneous couplings reveal an index slip.", "anchors": ["lib/mpslib/Hamiltonians.py:XXZflipped"]}
{"id": "C46", "title": "Periodic MPO constructors accept what the open ones accept", "statement": "For obc=False the nearest-neighbour MPO constructors return N bulk tensors for coupling arrays of the documented length.", "quantifier": "all N and couplings", "why_tests_cant": "Failure depends on array length conventions for all N.", "anchors": ["lib/mpslib/Hamiltonians.py:SpinlessFermions", "lib/mpslib/Hamiltonians.py:HubbardChain", "lib/mpslib/Hamiltonians.py:TFI_2", "lib/mpslib/Hamiltonians.py:XXZ", "lib/mpslib/Hamiltonians.py:TFI"]}
{"id": "C47", "title": "patchmpo rotates the unit cell", "statement": "patchmpo(mpo,index) returns the tensors cyclically rotated by index; applying it N/gcd times returns the original; a rotation by index followed by one by N-index is the identity.", "quantifier": "all lists and all 0<=index<=N", "why_tests_cant": "All lengths and indices.", "anchors": ["lib/mpslib/mpsfunctions.py:patchmpo"]}
{"id": "C48", "title": "Spacing of a grid", "statement": "computedx(x0,x,xN) returns one spacing per grid point: the width of the cell bounded by x0, the midpoints of neighbouring points and xN. The spacings are positive for increasing grids and sum to xN-x0.", "quantifier": "all increasing grids of length >=2 between any x0 and xN", "why_tests_cant": "All lengths and grids.", "anchors": ["lib/utils/utilities.py:computedx"]}
{"id": "C49", "title": "placeBraket returns a sign change or reports failure", "statement": "When placeBraket returns a bracket, the function has opposite signs at its ends; the search stops after finitely many steps bounded by threshold/Delta.", "quantifier": "every function, starting bracket and step", "why_tests_cant": "All functions.", "anchors": ["lib/utils/utilities.py:placeBraket"]}
{"id": "C50", "title": "Step-size controller", "statement": "The gradient loop of HomogeneousIMPSengine is backtracking descent: a point is rejected exactly if its gradient norm has grown by more than normtol relative to the last accepted point; then the step size is divided by the factor and the next state starts from the accepted point again. The loop never fails, makes at most max(1,Nmax) steps, every step size is alpha or an entry of alphas divided by a power of factor (positive for positive parameters), and convergence is reported exactly if the last norm is below epsilon, which is then an accepted point.", "quantifier": "every gradient and update function with non-negative norms, every initial state, factor not zero, itreset>0, epsilon>0, normtol>=0, and at least as many alphas as thresholds", "why_tests_cant": "Controller histories are unbounded.", "anchors": ["lib/utils/utilities.py:determineNewStepsize", "lib/mpslib/engines.py:HomogeneousIMPSengine.__doGradStep__", "lib/mpslib/engines.py:HomogeneousIMPSengine.__simulate__"]}
{"id": "C51", "title": "Nonlinear CG restart logic", "statement": "determineNonLinearCGBeta returns 0 (steepest descent) exactly in the restart situations and the Fletcher-Reeves quotient otherwise, and never fails for any history produced by its own loop.", "quantifier": "every history of positive gradient norms, positive stdereset and nlcgreset", "why_tests_cant": "Histories and parameter combinations are unbounded.", "anchors": ["lib/utils/utilities.py:determineNonLinearCGBeta"]}
{"id": "C52", "title": "Lanczos iteration bounds and recurrence", "statement": "The Lanczos solver performs at most ncv steps, returns min(numeig, number of Krylov vectors) eigenpairs in ascending order that are no worse than the start vector, its stored coefficients satisfy the three-term recurrence H q_n = k_n q_{n-1} + eps_n q_n + k_{n+1} q_{n+1} with orthonormal vectors in exact arithmetic, and the flag converged tells whether the desired accuracy was reached.", "quantifier": "every Hermitian operator, starting vector and all parameters", "why_tests_cant": "All operators and stop conditions.", "anchors": ["lib/Lanczos/LanczosEngine.py:LanczosEngine.__simulate__", "lib/Lanczos/LanczosEngine.py:LanczosTimeEvolution.__doStep__"]}
{"id": "C53", "title": "Wick contraction helpers", "statement": "SFwick(indices) returns the determinant/permanent-type Wick expansion over all pairings of the given operators.", "quantifier": "all even numbers of operators and all two-point matrices", "why_tests_cant": "All sizes.", "anchors": ["lib/utils/utilities.py:SFwick", "lib/utils/utilities.py:SBwick"]}
{"id": "C54", "title": "Expokit time stepping", "statement": "gexpmv accepts exactly 1<=m<n and square operators (ValueError otherwise); it advances monotonically and stops with the covered time equal to |t| or after mxstep steps; the returned success flag tells whether the full time was covered.", "quantifier": "all operators, times and step-size histories", "why_tests_cant": "All adaptive step histories.", "anchors": ["lib/mpslib/sexpmv.py:gexpmv"]}
{"id": "C55", "title": "Pseudo transfer operators are consistent", "statement": "OneMinusPseudoTransferOperator(x) = x - pseudoTransferOperator(x) at zero momentum (Upper=Lower); the pseudo operator annihilates the fixed point when Tr(l r)=1, so the geometric series used for block Hamiltonians telescopes.", "quantifier": "all tensors, densities and vectors, both directions", "why_tests_cant": "All sizes and vectors.", "anchors": ["lib/mpslib/mpsfunctions.py:OneMinusPseudoTransferOperator", "lib/mpslib/mpsfunctions.py:pseudoTransferOperator", "lib/mpslib/mpsfunctions.py:OneMinusPseudoUnitcellTransferOperator", "lib/mpslib/mpsfunctions.py:pseudoUnitcellTransferOperator"]}
{"id": "C56", "title": "Unit-cell transfer operators compose", "statement": "The unit-cell transfer operator equals the composition of the single-site transfer operators in site order (left) or reverse order (right), and left and right action are adjoint: pairing the left image of x with y equals pairing x with the right image of y.", "quantifier": "all unit cells and vectors", "why_tests_cant": "All sizes.", "anchors": ["lib/mpslib/mpsfunctions.py:TransferOperator", "lib/mpslib/mpsfunctions.py:MixedTransferOperator", "lib/mpslib/mpsfunctions.py:UnitcellTransferOperator", "lib/mpslib/mpsfunctions.py:MixedUnitcellTransferOperator", "lib/mpslib/mpsfunctions.py:GeneralizedMatrixVectorProduct"]}
{"id": "C57", "title": "Canonical Gamma-Lambda form represents the same state", "statement": "canonize() of an open chain yields Gamma and Lambda lists whose contraction is the state of the object.", "quantifier": "every open chain and position", "why_tests_cant": "All states and positions of the centre.", "anchors": ["lib/mpslib/mpsfunctions.py:canonizeMPS", "lib/mpslib/mps.py:MPS.__canonize__"]}
{"id": "C58", "title": "IDMRG growth step keeps the unit cell consistent", "statement": "The update step of IDMRG cuts the unit cell at half its length and exchanges the halves of state and MPO consistently, so that neighbouring bond dimensions match and the position points at the former boundary.", "quantifier": "every unit-cell length N>=2", "why_tests_cant": "All N; odd lengths are a boundary case.", "anchors": ["lib/mpslib/engines.py:IDMRGengine.__update__", "lib/mpslib/mpsfunctions.py:patchmpo"]}
{"id": "C59", "title": "Truncated SVD of a tensor", "statement": "prepareTruncate(tensor,direction,D,thresh) returns an isometric factor, normalised Schmidt values and an isometric factor; the number kept is at most D and at least one for a non-zero tensor; without discarding, factor times values times factor times Z equals the tensor.", "quantifier": "all tensors, D>=1 and thresholds", "why_tests_cant": "All spectra and cut-offs.", "anchors": ["lib/mpslib/mpsfunctions.py:prepareTruncate"]}
{"id": "C60", "title": "Fine-graining preserves the state", "statement": "FinegrainDolfi(mps) returns twice as many tensors; its state on a fine configuration is the coarse state composed with the splitting isometry T on every site; it succeeds on every d=2 chain.", "quantifier": "every chain with local dimension 2", "why_tests_cant": "All states; non-square bonds.", "anchors": ["lib/mpslib/mpsfunctions.py:FinegrainDolfi"]}
{"id": "C61", "title": "Multi-point correlations", "statement": "measure(ops,sites) returns the expectation value of the product of the operators at the given (weakly increasing) sites; with Jordan-Wigner strings P it returns the fermionic correlation function; unsorted sites are rejected.", "quantifier": "every canonical state, every number of operators and every increasing list of sites", "why_tests_cant": "All lists of sites, coinciding sites included.", "anchors": ["lib/mpslib/mps.py:MPS.__measure__"]}
{"id": "C62", "title": "Complex conjugation of a state", "statement": "conjugate() returns an MPS whose amplitudes are the complex conjugates, conj() conjugates in place and imag() returns the imaginary part; none of them raises on a valid object.", "quantifier": "every MPS", "why_tests_cant": "All states; all public conjugation entry points.", "anchors": ["lib/mpslib/mps.py:MPS.conj", "lib/mpslib/mps.py:MPS.conjugate", "lib/mpslib/mps.py:MPS.imag"]}
{"id": "C63", "title": "Real part of a state", "statement": "real() returns an MPS whose amplitude on every configuration is the real part of the amplitude of the object.", "quantifier": "every MPS", "why_tests_cant": "All complex tensors.", "anchors": ["lib/mpslib/mps.py:MPS.real"]}
{"id": "C64", "title": "Matrix elements of local operators", "statement": "matrixElementLocal(mps1,mps2,ops,lb,rb)[n] is the contraction of mps1 with ops[n] on site n (identity elsewhere) and conj(mps2) between the boundaries; MPS.measureMatrixElementList returns these numbers for the states of the two objects, including their norms, and restores both objects.", "quantifier": "all pairs of chains, operators and boundaries", "why_tests_cant": "All lengths, bond dimensions and centre positions.", "anchors": ["lib/mpslib/mpsfunctions.py:matrixElementLocal", "lib/mpslib/mps.py:MPS.measureMatrixElementList"]}
{"id": "C65", "title": "Local measurement normalised by the network", "statement": "mpsfunctions.measure(op,lb,rb,mps,site) equals the contraction of the network with op on the site divided by the contraction with identities only.", "quantifier": "all tensor lists (no canonical form required), boundaries and sites", "why_tests_cant": "All sizes.", "anchors": ["lib/mpslib/mpsfunctions.py:measure"]}
{"id": "C66", "title": "Environment cache under arbitrary histories of moves and site updates", "statement": "After any history of position moves and calls of optimize(n) followed by mps[n]=result, the cached environments around the current centre equal those recomputed from the current tensors.", "quantifier": "every history of moves and updates", "why_tests_cant": "Staleness appears only for particular interleavings; histories are unbounded.", "anchors": ["lib/mpslib/engines.py:Container.position", "lib/mpslib/engines.py:DMRGengine.optimize"]}
{"id": "C67", "title": "Single-site DMRG does not fail", "statement": "For a canonical finite chain with N>=2 sites whose bond dimensions satisfy D_{k+1}<=d_k*D_k and D_k<=d_k*D_{k+1}, and an MPO of matching shape, the engine can be constructed and simulate() returns, for every Nmax, Econv and cp other than 0 and for every eigensolver returning non-zero tensors.", "quantifier": "every such chain, MPO, number of sweeps and eigensolver", "why_tests_cant": "The centre matrix is replaced by an identity of guessed size before each update; shapes and zero states must be excluded for all histories.", "anchors": ["lib/mpslib/engines.py:DMRGengine.__init__", "lib/mpslib/engines.py:DMRGengine.optimize", "lib/mpslib/engines.py:DMRGengine.__simulate__", "lib/mpslib/mps.py:MPS.__tensor__", "lib/mpslib/mps.py:MPS.__position__"]}
{"id": "C68", "title": "Content of evolution checkpoints", "statement": "Every checkpoint written by doTEBD or doTDVP holds the engine exactly as it is at a step boundary: state, time and iteration counter are those after the same number of complete steps, so that a run continued from the file equals the uninterrupted run.", "quantifier": "every numsteps, cp and starting iteration", "why_tests_cant": "Interplay of the checkpoint step with the half layers and the counters.", "anchors": ["lib/mpslib/engines.py:TimeEvolutionEngine.__doTEBD__", "lib/mpslib/engines.py:TimeEvolutionEngine.__doTDVP__"]}
{"id": "C69", "title": "TEBD does not fail and is exact without truncation", "statement": "For a canonical finite chain and gates forming a one-parameter group on every bond doTEBD returns for every numsteps, dt and cp other than 0; if Dmax is at least the dimension of the state space and the threshold is 0 nothing is truncated and the state is, up to the positive norm factor, the product of the gates applied to the initial state.", "quantifier": "every chain, gate family, number of steps and dt", "why_tests_cant": "All sizes and step counts; truncation feeds back into later steps.", "anchors": ["lib/mpslib/engines.py:TimeEvolutionEngine.__doTEBD__", "lib/mpslib/mps.py:MPS.applyTwoSiteGate"]}
{"id": "C70", "title": "initializeTDVP makes the engine ready for TDVP", "statement": "From any engine state (for example after TEBD, which changes the tensors but not the cached environments) initializeTDVP leaves the represented state unchanged, moves the centre to 0 and recomputes all environments from the current tensors, so that doTDVP may be called; it succeeds on every consistent non-zero state with a matching MPO.", "quantifier": "every consistent engine state and cache content", "why_tests_cant": "Stale caches appear only for particular call histories.", "anchors": ["lib/mpslib/engines.py:TimeEvolutionEngine.initializeTDVP"]}
{"id": "C71", "title": "Two-leg Heisenberg MPO represents its Hamiltonian", "statement": "The matrix element of the MPO built by JessHamiltonian(J,w,chi,obc=True) equals that of sum_n J[n](X X+Y Y+Z Z on both legs) + w[n](X on both legs) + chi[n] X X across the rung, where the local dimension four is the pair (upper,lower) spin.", "quantifier": "all N>=2, couplings and configurations", "why_tests_cant": "Exponentially many matrix elements for each size.", "anchors": ["lib/mpslib/Hamiltonians.py:JessHamiltonian"]}
{"id": "C72", "title": "TFI_2 can be built with open boundaries", "statement": "TFI_2(Jz,Bx,obc=True) returns the MPO of sum_n Jz[n] Z_n Z_{n+1} + Bx[n] X_n.", "quantifier": "all N>=2 and couplings", "why_tests_cant": "All sizes.", "anchors": ["lib/mpslib/Hamiltonians.py:TFI_2"]}
{"id": "C73", "title": "TEBD with the gates of an MPO follows the Hamiltonian of the MPO", "statement": "doTEBD run on an engine with an MPO of nearest-neighbour form and N>=3 sites returns, and without truncation its final state is, up to the norm, the product of the symmetric Trotter steps with gates exp(tau h_n), where the h_n add up to the Hamiltonian represented by the MPO.", "quantifier": "every such MPO, canonical state, number of steps and dt", "why_tests_cant": "Unbounded sizes and step counts; the gates have to form a one-parameter group.", "anchors": ["lib/mpslib/engines.py:TimeEvolutionEngine.__doTEBD__", "lib/mpslib/Hamiltonians.py:MPO.twoSiteGate"]}
{"id": "C74", "title": "Real-time gates are unitary", "statement": "For Hermitian nearest-neighbour MPOs (real couplings) and imaginary tau the gate returned by twoSiteGate(n,n+1,tau) is unitary.", "quantifier": "all N>=3, bonds, real couplings and imaginary tau", "why_tests_cant": "All couplings and times.", "anchors": ["lib/mpslib/Hamiltonians.py:MPO.twoSiteGate", "lib/mpslib/Hamiltonians.py:TFI", "lib/mpslib/Hamiltonians.py:XXZ"]}
{"id": "C75", "title": "MPO Hamiltonians are Hermitian", "statement": "With real couplings the MPOs of TFI, XXZ, SpinlessFermions, HubbardChain and JessHamiltonian (obc=True) satisfy conj(H[t,s]) = H[s,t] for all pairs of configurations.", "quantifier": "all N>=2, real couplings and configurations", "why_tests_cant": "Exponentially many matrix elements; fermionic signs.", "anchors": ["lib/mpslib/Hamiltonians.py:TFI", "lib/mpslib/Hamiltonians.py:XXZ", "lib/mpslib/Hamiltonians.py:SpinlessFermions", "lib/mpslib/Hamiltonians.py:HubbardChain", "lib/mpslib/Hamiltonians.py:JessHamiltonian"]}
{"id": "C76", "title": "Momentum in the pseudo transfer operator", "statement": "OneMinusPseudoTransferOperator at momentum k different from zero returns x-exp(ik)*E(x) with E the mixed transfer operator.", "quantifier": "all tensors, vectors and momenta with |k|>=1E-8", "why_tests_cant": "All momenta, tensors and vectors; a test with positive momentum passes.", "anchors": ["lib/mpslib/mps.py:OneMinusPseudoTransferOperator"]}
{"id": "C77", "title": "One Lanczos time step is exp(dt H) applied to the state", "statement": "LanczosTimeEvolution.__doStep__(state,dt) returns exp(dt*H) applied to the state: exactly when the Krylov space closes within ncv vectors, with an error of at most |dt|*delta (relative to the norm of the state) in a space of at most ncv dimensions; for imaginary dt the norm of the state is kept.", "quantifier": "every Hermitian operator on a finite-dimensional space, every non-zero state, every time step, ncv and delta in (0,1]", "why_tests_cant": "A test evolves a few small operators for a few times; that the error is bounded by |dt|*delta for every operator, and that the norm is kept for every state, are statements about all of them.", "anchors": ["lib/Lanczos/LanczosEngine.py:__doStep__"]}
{"id": "C78", "title": "gexpmv is exact on invariant subspaces", "statement": "If the vector lies in a subspace of dimension at most m that the operator maps into itself, gexpmv with break_tol=0 (the default for tol=0) returns exp(t*A)v in exact arithmetic, in a single step of size |t|, and reports the breakdown and the dimension of the Krylov space.", "quantifier": "every linear operator (not only Hermitian ones), vector, invariant subspace of dimension <=m, t different from 0", "why_tests_cant": "All operators and all subspaces; a test only covers particular matrices and compares up to a tolerance.", "anchors": ["lib/mpslib/sexpmv.py:gexpmv"]}
{"id": "C79", "title": "The local integrators of TDVP apply exp(dt H_eff)", "statement": "evolveTensorLan, evolveTensorSexpmv and evolveTensorsolve_ivp (and their versions for bond matrices), called by doTDVP with the step dt, all return exp(dt*H_eff) applied to the tensor up to normalisation and the stated accuracy, where H_eff is the contraction of the environments with the MPO tensor; they agree with each other.", "quantifier": "all environments, MPO tensors, tensors, matrices and imaginary steps dt", "why_tests_cant": "All tensors and steps; the sign of the step is visible only when results of different solvers are compared on a state that is not symmetric under time reversal.", "anchors": ["lib/mpslib/mpsfunctions.py:evolveTensorLan", "lib/mpslib/mpsfunctions.py:evolveTensorSexpmv", "lib/mpslib/mpsfunctions.py:evolveTensorsolve_ivp", "lib/mpslib/mpsfunctions.py:evolveMatrixLan", "lib/mpslib/mpsfunctions.py:evolveMatrixSexpmv", "lib/mpslib/mpsfunctions.py:evolveMatrixsolve_ivp"]}
{"id": "C80", "title": "TDVP conserves the energy", "statement": "doTDVP with imaginary dt, a Hermitian MPO and a canonical initial state keeps the energy <psi|H|psi>/<psi|psi> of the whole chain exactly, for every number and size of steps and every bond dimension, and leaves a state of norm one with unchanged bond dimensions.", "quantifier": "every Hermitian MPO, canonical state, number of steps and imaginary dt", "why_tests_cant": "A statement on all Hamiltonians and states after any number of steps; a test with a tolerance cannot distinguish exact conservation from a small step error.", "anchors": ["lib/mpslib/engines.py:TimeEvolutionEngine.__doTDVP__"]}
{"id": "C81", "title": "Single-site DMRG never raises the energy", "statement": "simulate with a Hermitian MPO and a canonical initial state: the energies of the successive site optimisations never rise, beginning with the energy of the initial state; every one is real, is the expectation value of the MPO in the state after the step and is not below any lower bound of the operator; the returned energy is that of the final state of the engine. The simulation does not raise.", "quantifier": "every Hermitian MPO, canonical state with admissible bond dimensions, number of sweeps, threshold, checkpoint period and solver (AR, LAN, LOBPCG)", "why_tests_cant": "Monotonicity of every step for all Hamiltonians and states, and agreement of the returned number with the state left in the engine, concern all runs; tests look at a final energy within a tolerance.", "anchors": ["lib/mpslib/engines.py:DMRGengine.optimize", "lib/mpslib/engines.py:DMRGengine.__simulate__", "lib/mpslib/mpsfunctions.py:lanczos", "lib/mpslib/mpsfunctions.py:eigsh", "lib/mpslib/mpsfunctions.py:lobpcg"]}
{"id": "C82", "title": "eigsh and lobpcg return the lowest eigenpairs", "statement": "eigsh returns the numvecs_returned lowest eigenvalues in ascending order with orthonormal eigenvectors, for one vector the ground state; lobpcg returns a normalised vector with its expectation value, not above that of the initial vector.", "quantifier": "every Hermitian operator, initial vector, 1<=numvecs<dimension, 1<=numvecs_returned<=numvecs, and every correct sparse solver", "why_tests_cant": "The picking of eigenvectors by comparing eigenvalues goes wrong only if an eigenvalue is degenerate, and random test matrices never have one.", "anchors": ["lib/mpslib/mpsfunctions.py:eigsh", "lib/mpslib/mpsfunctions.py:lobpcg"]}
{"id": "C83", "title": "Two-site DMRG optimises the right pairs with the right environments", "statement": "simulateTwoSite on a new engine, or one left by simulate or simulateTwoSite: each sweep visits the pairs (0,1),...,(N-3,N-2) and then (N-2,N-1),...,(0,1); every eigensolver call gets the environments of the current tensors, the product of the two MPO tensors and the two-site tensor of the current state; its result is cut to at most D singular values, those above the threshold, and becomes the state; all other tensors stay. The loop stops at the first sweep whose energy differs by less than Econv from that before or after Nmax sweeps; checkpoints are written every cp sweeps; the engine can be used again.", "quantifier": "every MPS, MPO, solver, Nmax, Econv, cp, truncation and D", "why_tests_cant": "Which cached environment is stale depends on the history of the centre; a wrong one only changes the speed of convergence for canonical states in a test.", "anchors": ["lib/mpslib/engines.py:DMRGengine.__simulateTwoSite__", "lib/mpslib/engines.py:DMRGengine.simulateTwoSite"]}
{"id": "C84", "title": "Energies and truncation in two-site DMRG", "statement": "simulateTwoSite with a Hermitian MPO and a canonical initial state: every energy is real, is the energy of the optimised pair state before truncation, and is not above the energy of the state before the step; the truncated state differs from the optimised one by exactly the weight of the discarded singular values; the returned energy is that of the last optimisation and not below a lower bound of the operator; the final state is canonical with norm one; without truncated weight the energies never rise and the returned energy is that of the final state.", "quantifier": "every Hermitian MPO, canonical state, number of sweeps, threshold and bond dimension", "why_tests_cant": "Relations between every step, the discarded weights and the final state for all Hamiltonians; tests compare one final number within a tolerance.", "anchors": ["lib/mpslib/engines.py:DMRGengine.__simulateTwoSite__"]}
{"id": "C85", "title": "Two-site DMRG does not raise on consistent input", "statement": "For a Hermitian MPO, a canonical non-zero state and D>0, building the engine and calling simulateTwoSite with any of the three solvers does not raise, and no step truncates a tensor to bond dimension zero, as long as the threshold is below 1/sqrt(B*d), where B bounds the bond dimensions.", "quantifier": "every Hermitian MPO, canonical state with admissible bond dimensions, Nmax, Econv, cp other than 0, solver (AR, LAN, LOBPCG)", "why_tests_cant": "Absence of exceptions over all chain lengths, bond dimensions and sweeps, including the shapes left by truncation.", "anchors": ["lib/mpslib/engines.py:DMRGengine.__simulateTwoSite__", "lib/mpslib/engines.py:DMRGengine.simulateTwoSite"]}
{"id": "C86", "title": "Constructing an IDMRG engine", "statement": "IDMRGengine(mps,mpo,filename) succeeds for a consistent non-zero MPS and MPO, leaves the state unchanged up to the gauge with the centre at the left end, and uses as boundaries the steady-state Hamiltonians of the left-orthogonal and the right-orthogonal form of the cell; regauging in __update__ rebuilds the engine in the same way.", "quantifier": "every MPS, centre position and MPO", "why_tests_cant": "The failing centre positions are those that nobody uses in a test; the default position works.", "anchors": ["lib/mpslib/engines.py:IDMRGengine.__init__", "lib/mpslib/engines.py:IDMRGengine.__update__", "lib/mpslib/mpsfunctions.py:getBoundaryHams"]}
{"id": "C87", "title": "Course of an IDMRG simulation and growth of the chain", "statement": "simulate and simulateTwoSite of IDMRGengine perform exactly max(1,Nmax+1) passes; each runs a finite simulation of the cell between the current boundaries and then the update; regauging happens exactly in positive multiples of regaugestep, checkpoints in positive multiples of cp, regaugestep=1 is rejected. Without regauging, the boundaries of pass k are those of the first pass with k half cells of orthonormal tensors added on either side, and the MPO of the boundaries and the cell together is that of k+1 whole cells.", "quantifier": "every cell of even length, Nmax, NUC, Econv, cp, regaugestep, solver and truncation", "why_tests_cant": "The alternation of half cells and the order of the MPO tensors are only visible for non-uniform cells and after several passes.", "anchors": ["lib/mpslib/engines.py:IDMRGengine.__simulate__", "lib/mpslib/engines.py:IDMRGengine.__simulateTwoSite__", "lib/mpslib/engines.py:IDMRGengine.__update__", "lib/mpslib/engines.py:IDMRGengine.simulate", "lib/mpslib/engines.py:IDMRGengine.simulateTwoSite"]}
{"id": "C88", "title": "IDMRG energies are energies of the grown chain", "statement": "In pass k of an IDMRG simulation (before any regauging) every energy found by the inner simulation is real and is the exact energy of a normalised state of the open chain of k+1 cells with the original boundaries; it is not below any lower bound of that Hamiltonian; the cell at the end of the pass has norm one in the chain, and without truncation the returned energy is its energy and not above that at the start of the pass.", "quantifier": "every Hamiltonian that is Hermitian on every row of cells, every even cell, Nmax, NUC, solver and truncation", "why_tests_cant": "The energy per cell is the difference of two such energies; an error in the boundaries gives plausible numbers that converge.", "anchors": ["lib/mpslib/engines.py:IDMRGengine.__simulate__", "lib/mpslib/engines.py:IDMRGengine.__simulateTwoSite__", "lib/mpslib/engines.py:IDMRGengine.__update__"]}
{"id": "C89", "title": "IDMRG runs to its end", "statement": "For a Hermitian Hamiltonian, a consistent cell and a small enough threshold, IDMRGengine.simulateTwoSite without regauging returns; no step truncates a tensor to bond dimension zero.", "quantifier": "every even cell whose halves have the same product of local dimensions, Nmax, NUC, Econv, cp other than 0, solver", "why_tests_cant": "Absence of exceptions and NaN over all numbers of passes.", "anchors": ["lib/mpslib/engines.py:IDMRGengine.__simulateTwoSite__", "lib/mpslib/engines.py:IDMRGengine.__update__"]}
{"id": "C90", "title": "IDMRG with regauging", "statement": "Regauging a periodic cell in IDMRGengine.__update__ passes the cell with its connector to regaugeIMPS, and makes from the symmetric gauge that it returns the mixed canonical form with the centre at the left end: right-orthonormal tensors, the Schmidt values as centre matrix and their inverses as connector; boundaries are the steady-state Hamiltonians of the left- and right-orthonormal tensors. The infinite state is unchanged if regaugeIMPS only changes the basis. Between two regauging passes C87 and C88 hold with the boundaries of the last one. A two-site simulation with any regaugestep returns, unless a kernel raises or an optimised cell vanishes when it is repeated.", "quantifier": "every even cell that is not an open chain, every regaugestep, Nmax, NUC, Econv, solver and truncation; every regaugeIMPS that returns exact symmetric gauges", "why_tests_cant": "The phases absorbed by the two gauge steps must cancel exactly; a wrong factor only changes the connector, which is used one pass later.", "anchors": ["lib/mpslib/engines.py:IDMRGengine.__update__", "lib/mpslib/engines.py:IDMRGengine.__simulateTwoSite__", "lib/mpslib/engines.py:IDMRGengine.__simulate__", "lib/mpslib/mpsfunctions.py:getBoundaryHams", "lib/mpslib/mps.py:MPS.__regauge__"]}
{"id": "C91", "title": "regaugeIMPS brings a cell into the desired gauge", "statement": "regaugeIMPS with gauge 'left', 'right' or 'symmetric' replaces the tensors of a unit cell by left-orthonormal, right-orthonormal, or left-orthonormal tensors of the same uniform state (same matrices in another basis, up to a positive factor), with the same outer bond dimension; for 'symmetric' it returns positive Schmidt values of norm one whose squares are the right fixed point of the transfer operator; for 'left' and 'right' it returns the identity. With truncate>1e-15 the symmetric gauge is that of the cell projected onto the kept states of each bond, and no bond exceeds D. It rejects cells whose outer bonds differ.", "quantifier": "every unit cell, of any number of sites, bond and local dimensions, whose transfer operator has a simple leading eigenvalue with full-rank fixed points; truncate at most 1e-15", "why_tests_cant": "Left and right eigenvectors, square roots, inverses and transposes have to fit together; an error is a gauge transformation that is not the inverse on the other end, invisible for symmetric or random product cells.", "anchors": ["lib/mpslib/mpsfunctions.py:regaugeIMPS", "lib/mpslib/mpsfunctions.py:UnitcellTMeigs"]}
{"id": "C92", "title": "Steady-state Hamiltonians of infinite systems", "statement": "computeUCsteadyStateHamiltonianGMRES returns for a unit cell of left-orthonormal (right-orthonormal) tensors and a nearest-neighbour MPO the left (right) environment of the half-infinite chain and the energy h of a cell: absorbing the cell into the environment changes it by h times the identity in the entry of complete terms and nothing else, terms that have not begun have the identity, the complete terms have no overlap with the fixed point, and h is the energy added by each further cell of a finite chain with the fixed point at its end. getBoundaryHams computes it with the fixed points of the transfer operator, which UnitcellTMeigs finds as the eigenvector of largest real part, normalised to a density matrix; computeDensity carries a density matrix over the sites of the cell one by one. The functions return for every normal cell with at least two states on the outer bond.", "quantifier": "every unit cell of any length, bond and local dimensions, every MPO of nearest-neighbour form with any number of terms, every normal cell", "why_tests_cant": "Terms counted twice or a transposed density matrix change energies by amounts that look plausible and vanish for real states and Hamiltonians without on-site terms; the linear system is singular without the projector.", "anchors": ["lib/mpslib/mpsfunctions.py:computeUCsteadyStateHamiltonianGMRES", "lib/mpslib/mpsfunctions.py:TDVPGMRESUC", "lib/mpslib/mpsfunctions.py:computeDensity", "lib/mpslib/mpsfunctions.py:getBoundaryHams", "lib/mpslib/mpsfunctions.py:UnitcellTMeigs", "lib/mpslib/mpsfunctions.py:fixPhase"]}
{"id": "C93", "title": "Lattice phi^4 Hamiltonians", "statement": "PhiFourmpo and PhiFourmpo2 to PhiFourmpo4 with obc=True return MPOs of one discretised phi^4 Hamiltonian (in units of 2 nu for the first), with mass, gradient and normally ordered quartic terms given by mu, nu, g and dx on cutoff states per site; the variants differ in the distribution of on-site terms over bonds, which only shows at the two ends; TwoSitePhiFourMPO is the term of one bond.", "quantifier": "every mu, nu, g, dx with nu and dx not zero, every number of sites from two on and every cutoff", "why_tests_cant": "The operators have up to ten channels and square roots as entries; a wrong factor in one of them gives another interacting theory with plausible energies.", "anchors": ["lib/mpslib/Hamiltonians.py:PhiFourmpo", "lib/mpslib/Hamiltonians.py:PhiFourmpo2", "lib/mpslib/Hamiltonians.py:PhiFourmpo3", "lib/mpslib/Hamiltonians.py:PhiFourmpo4", "lib/mpslib/Hamiltonians.py:TwoSitePhiFourMPO"]}
{"id": "C94", "title": "Lattice Lieb-Liniger Hamiltonians", "statement": "The builders LiebLinigermpo, LiebLinigermpo1 to 3, projectedLiebLinigermpo, projectedLiebLinigermpo2, HomogeneousLiebLinigermpo and LocalLiebLinigermpo give the discretised Lieb-Liniger Hamiltonian: kinetic energy with hopping 1/(2 m dx^2), chemical potential, and contact or nearest-neighbour interaction g/dx; variants differ at the two ends only; the two-site terms of LocalLiebLinigermpo add up to the chain; every site of an open chain carries its chemical potential.", "quantifier": "every number of sites, cutoff, mass and dx not zero, every interaction and chemical potential", "why_tests_cant": "Terms are split over bonds and channels; the ends of a chain are treated differently in each builder.", "anchors": ["lib/mpslib/Hamiltonians.py:LiebLinigermpo", "lib/mpslib/Hamiltonians.py:LiebLinigermpo1", "lib/mpslib/Hamiltonians.py:LiebLinigermpo2", "lib/mpslib/Hamiltonians.py:LiebLinigermpo3", "lib/mpslib/Hamiltonians.py:projectedLiebLinigermpo", "lib/mpslib/Hamiltonians.py:projectedLiebLinigermpo2", "lib/mpslib/Hamiltonians.py:HomogeneousLiebLinigermpo", "lib/mpslib/Hamiltonians.py:LocalLiebLinigermpo"]}
{"id": "C95", "title": "Energy density of the Lieb-Liniger model", "statement": "LiebLinigerEdens(mu,intac,mass,dx,cutoff,N,site) is an MPO of N sites for the Hermitian energy density at a site: on-site kinetic and interaction energy and the hopping to both neighbours; sites without neighbours on both sides are rejected.", "quantifier": "every N, site, cutoff, mass and dx not zero", "why_tests_cant": "Expectation values in real states do not distinguish a hopping term from its Hermitian conjugate, and surplus identity tensors only matter at the boundary.", "anchors": ["lib/mpslib/Hamiltonians.py:LiebLinigerEdens"]}
{"id": "C96", "title": "Lieb-Liniger Hamiltonians with site-dependent couplings", "statement": "In UnitcellExLiebLinigermpo, projectedUnitcellExLiebLinigermpo and projectedLiebLinigermpo3 every site carries its own chemical potential and grid spacing, every bond the spacing between the midpoints of its sites; the two lists of the unit-cell functions form an open chain of two cells; the boundary conditions of projectedLiebLinigermpo3 do not change the terms in the bulk.", "quantifier": "every list of chemical potentials, every grid of positive spacings, every number of sites and every interaction", "why_tests_cant": "Only visible for non-uniform potentials and grids.", "anchors": ["lib/mpslib/Hamiltonians.py:UnitcellExLiebLinigermpo", "lib/mpslib/Hamiltonians.py:projectedUnitcellExLiebLinigermpo", "lib/mpslib/Hamiltonians.py:projectedLiebLinigermpo3"]}
{"id": "C97", "title": "Effective operators of the periodic engine", "statement": "For a PeriodicMPSengine on N sites with a nearest-neighbour MPO, matvec with the arrays of getHeffNeff applies the Hamiltonian of the ring (all on-site terms, all bonds including the one from the last to the first site) projected on the last tensor, gram the overlap, Heffbond+Henvbond and Neffbond the same for a matrix on the closing bond; energy and norm computed from them are <psi|H|psi> and <psi|psi>, Henvsite equals checkH(N-1), and gradient_optimize and simulateVUMPS perform optimisation steps.", "quantifier": "every number of sites, every bond and physical dimension, every tensor and every MPO of nearest-neighbour form", "why_tests_cant": "A wrong contraction order or a missing closing bond changes the energy by a relative amount of order 1/N, and for normalised tensors with a gap the difference decays exponentially in N.", "anchors": ["lib/mpslib/engines.py:PeriodicMPSengine", "lib/mpslib/engines.py:getHeffNeff", "lib/mpslib/engines.py:empty_pow", "lib/mpslib/engines.py:checkH", "lib/mpslib/engines.py:matvec", "lib/mpslib/engines.py:gram", "lib/mpslib/engines.py:matvecbond", "lib/mpslib/engines.py:grambond", "lib/mpslib/engines.py:gradient_optimize", "lib/mpslib/engines.py:simulateVUMPS"]}
{"id": "C98", "title": "The VUMPS engine", "statement": "VUMPSengine(mps,mpo) for a normal tensor and a Hermitian nearest-neighbour MPO: simulate brings the tensor into left and right gauge, then every step computes the environments of the two half-infinite chains and the energy of a site, replaces the tensor and the bond matrix by normalised ground states (or Ritz vectors of lower energy) of the effective Hamiltonians, and chooses left- and right-isometric tensors, with svd=True those closest to the new tensor and matrix; the gradient norm reported vanishes exactly at fixed points; the run ends when it is below epsilon or after Nmax steps; all documented options work (arnumvecs>1, any bond dimension).", "quantifier": "every bond dimension, physical dimension, normal tensor, nearest-neighbour MPO, number of steps and option", "why_tests_cant": "The energy converges to similar values for wrong environments, and a gauge matching that is not optimal only slows down the convergence.", "anchors": ["lib/mpslib/engines.py:VUMPSengine", "lib/mpslib/engines.py:__doStep__", "lib/mpslib/engines.py:__simulate__", "lib/mpslib/mpsfunctions.py:regauge", "lib/mpslib/mpsfunctions.py:TMeigs", "lib/mpslib/mpsfunctions.py:RENORMBLOCKHAMGMRES", "lib/mpslib/mpsfunctions.py:HAproductZeroSite"]}
{"id": "C99", "title": "Orthonormalising and truncating lists of tensors", "statement": "orthonormalizeQR and orthonormalizeSVD make the sites site1..site2 left- (direction>0) or right-orthonormal (direction<0); a run that stops before the end of the list does not alter the state, and a run up to the end returns the matrix that recovers the state when contracted into the list from that end; prepareTensorSVD with fixphase returns a real non-negative diagonal of u (v); truncateMPS(mps,D) returns normalised Schmidt vectors and a list of bond dimension at most D, left-orthonormal but for the last site, of norm 1 and proportional to the old state if D cuts nothing off; for open boundaries and a nonzero state it returns for every D>=1, and the old state differs from a multiple of the new one by a squared distance of at most 2(N-1) times that of any matrix product state of bond dimension D.", "quantifier": "every list of linked tensors, every boundary dimension, every range of sites, every exact qr and svd", "why_tests_cant": "Tests use the full range of sites and compare normalised states; complex phases and ranges that end in the bulk are not covered.", "anchors": ["lib/mpslib/mpsfunctions.py:orthonormalizeQR", "lib/mpslib/mpsfunctions.py:orthonormalizeSVD", "lib/mpslib/mpsfunctions.py:prepareTensorSVD", "lib/mpslib/mpsfunctions.py:truncateMPS"]}
{"id": "C100", "title": "Gradient optimisation of homogeneous states", "statement": "HomogeneousIMPSengine for a normal tensor and a nearest-neighbour MPO: every step brings the state into the symmetric canonical form (lam\u00b7gamma left-, gamma\u00b7lam right-isometric, lam the normalised Schmidt values), computes the environments of the two half-infinite chains and the energy of a site, the same from left and right; the gradient is H|T>-<T|H|T>|T> for the centre tensor T, it vanishes exactly at eigenvectors of the effective Hamiltonian, and for a Hermitian MPO and small steps T-alpha*grad has lower energy; the new tensor is this one times lam^-1, normalised; where the gradient vanishes the state does not change; the run is a backtracking descent and ends when the norm is below epsilon or after Nmax steps; keyword arguments are respected and every bond dimension is possible.", "quantifier": "every bond dimension, physical dimension, normal tensor, nearest-neighbour MPO, step size and number of steps", "why_tests_cant": "A descent with a wrong gradient still lowers the energy at first; a wrong projection or environment shows only in the last digits of the converged energy.", "anchors": ["lib/mpslib/engines.py:HomogeneousIMPSengine", "lib/mpslib/engines.py:__doGradStep__", "lib/mpslib/engines.py:__simulate__", "lib/mpslib/engines.py:HomogeneousDiscretizedBosonEngine", "lib/mpslib/mpsfunctions.py:regauge", "lib/mpslib/mpsfunctions.py:TMeigs", "lib/mpslib/mpsfunctions.py:RENORMBLOCKHAMGMRES", "lib/mpslib/mpsfunctions.py:prepareTruncate"]}
{"id": "C101", "title": "TDVP update of a uniform state", "statement": "TDVPupdate(r,tensor,mpo) for a left-orthogonal tensor of a uniform infinite state, its right density matrix and an open-boundary MPO of a nearest-neighbour Hamiltonian, of any length, returns the energy per bond h, a tensor Adot of the same shape in the left gauge (sum_s Adot_s^+ A_s = 0) whose overlap with every tangent vector in that gauge is the limit of the matrix elements <...A B A...|H|...A A A...> for long chains, and the norm of Adot, which vanishes only where all those limits vanish.", "quantifier": "every bond and physical dimension, every left-orthogonal tensor with a unique positive right density matrix and a transfer operator with a gap, every nearest-neighbour Hamiltonian, every outcome of the random numbers", "why_tests_cant": "An imaginary-time run converges for many wrong update directions; the missing part of a geometric series or a small component outside of the gauge changes the step, not the fixed point.", "anchors": ["lib/mpslib/mpsfunctions.py:TDVPupdate", "lib/mpslib/mpsfunctions.py:TDVPGMRES", "lib/mpslib/mpsfunctions.py:RENORMBLOCKHAMGMRES", "lib/mpslib/mpsfunctions.py:initializeLayer", "lib/mpslib/mpsfunctions.py:addLayer"]}
{"id": "C102", "title": "ExHAproductSingle applies the effective Hamiltonian to an excitation of given momentum", "statement": "ExHAproductSingle(...,k,tol,vec1), called with the environments, renormalised sums of the Hamiltonian and null-space tensor VL of a uniform left-orthogonal state, returns a vector y of the length of vec1 which depends linearly on vec1 and not on random start vectors, and whose scalar product with every vector z is the limit, for long chains, of the matrix element of the nearest-neighbour Hamiltonian between the tangent vector VL*z*r^(-1/2) at one site and the sum over all sites n of exp(ikn) times the tangent vector VL*vec1*r^(-1/2) at site n, less the energy of the state.", "quantifier": "all bond dimensions, physical dimensions, uniform states with a gapped transfer operator, nearest-neighbour Hamiltonians, momenta k and vectors vec1, z", "why_tests_cant": "a test can only compare a few momenta and small systems with the spectrum of a long finite chain; a wrong geometric series for the momentum still gives finite and smooth dispersions", "anchors": ["lib/mpslib/mpsfunctions.py:ExHAproductSingle", "lib/mpslib/mpsfunctions.py:TDVPGMRES", "lib/mpslib/mpsfunctions.py:RENORMBLOCKHAMGMRES", "lib/mpslib/mpsfunctions.py:contractionE", "lib/mpslib/mpsfunctions.py:contractionH", "lib/mpslib/mpsfunctions.py:addELayer"]}
{"id": "C103", "title": "The truncated weight bounds the error of a TEBD run in real time", "statement": "If applyTwoSiteGate applies a unitary gate to a canonical state and discards the weight tw<1, the new state is canonical, has the same norm, and its squared distance to the exact result is at most 2*tw times the squared norm; with thresh=0 and Dmax>=1 tw is always below 1. After doTEBD with numsteps=n+1 steps of a unitary evolution on N sites the state is canonical and has norm 1, and if the truncated weight of the run dw is below 1, its squared distance to the exact Trotter evolution of the normalised initial state is at most 4(n+1)(N-1)dw; the overlap of the two has a real part of at least 1-2(n+1)(N-1)dw.", "quantifier": "every finite chain with open boundaries, every initial canonical state, every family of unitary two-site gates, every Dmax and thresh, every number of steps", "why_tests_cant": "A test can compare with exact evolution for a few small chains only, where truncation is mild; the bound is about all states, and a truncated weight that is accumulated wrongly is a plausible small number.", "anchors": ["lib/mpslib/mps.py:applyTwoSiteGate", "lib/mpslib/engines.py:doTEBD", "lib/mpslib/engines.py:applyOdd", "lib/mpslib/engines.py:applyEven"]}
{"id": "C104", "title": "truncate is quasi-optimal", "statement": "MPS.truncate on an open chain with N sites: the overlap of the old with the new state is c times the squared norm with a real 0<c<=1, the squared distance is (2-2c) times the squared norm, and 1-c^2 is at most N-1 times (the relative squared distance of the old state to any matrix product state with bonds of at most D, plus K*thresh^2 if the threshold is above 1e-16, K the largest bond). With the default thresholds truncate(D=D) returns a canonical state of the same norm with a squared distance of at most 2(N-1) times the one of the best state of bond dimension D; a state that some matrix product state of bond dimension D represents is not changed at all, however wasteful its own tensors are. With a threshold and no D the squared distance is at most 2(N-1)*K*thresh^2 times the squared norm.", "quantifier": "every open chain, every MPS in any gauge with nonzero norm, every D between 1 and Dmax, every threshold, every competing matrix product state", "why_tests_cant": "The best approximation of bond dimension D is not computable in general, so no test can compare with it; tests only see that the bond dimensions shrank and that the norm is 1.", "anchors": ["lib/mpslib/mps.py:truncate", "lib/mpslib/mps.py:position", "lib/mpslib/mpsfunctions.py:prepareTruncate"]}
{"id": "C105", "title": "getSchmidt returns the Schmidt values of the state", "statement": "getSchmidt(n) on an open chain returns the Schmidt values of the normalised state across bond n: a descending list of non-negative numbers whose squares sum to 1, at most as many as the bond dimension, such that for every D the squares after the D-th, times the squared norm, are the smallest squared distance of the state to wave functions which are sums of D products across the bond. Hence two objects that represent the same state up to a factor return the same nonzero values. Every bond 0..N of a nonzero state is answered, other values of n raise AssertionError; the centre moves to n and the state is not changed.", "quantifier": "every open-boundary MPS object with a nonzero state, every bond n, every D, every exact svd", "why_tests_cant": "Whether numbers are the Schmidt values depends on the gauge of all tensors to the left and right; on objects made canonical by the test itself wrong code returns the right numbers.", "anchors": ["lib/mpslib/mps.py:getSchmidt", "lib/mpslib/mps.py:__position__", "lib/mpslib/mpsfunctions.py:svd"]}
{"id": "C106", "title": "Projected environments are the environments minus their fixed-point part", "statement": "For a unit cell with left and right density matrices that the transfer operator of each site carries from bond to bond and with (l|r)=1 on every bond, and an MPO whose first row (last column) is the identity in its corner, block n of getLprojected (getRprojected) is block n of getL (getR) with the component along l (r) removed from the energy channel and with all other channels unchanged: the projection at one bond changes nothing but the multiple that is removed at the next. The energy channel of the result has overlap 0 with the other density matrix of the bond. Both return whenever getL (getR) does and the density matrices fit the blocks. getUCL and getUCR return the last block of getL and getR and raise what these raise.", "quantifier": "every unit cell length, tensors, MPO of that form, boundary block, density matrices", "why_tests_cant": "No test calls these functions; on real states the two orders of the indices of a density matrix cannot be told apart.", "anchors": ["lib/mpslib/mpsfunctions.py:getLprojected", "lib/mpslib/mpsfunctions.py:getRprojected", "lib/mpslib/mpsfunctions.py:getUCL", "lib/mpslib/mpsfunctions.py:getUCR", "lib/mpslib/mpsfunctions.py:getL", "lib/mpslib/mpsfunctions.py:getR"]}
{"id": "C107", "title": "MPS.fromList returns the given state, normalised and canonical", "statement": "MPS.fromList(tensors,mat) returns an MPS whose amplitudes are those of the product of the tensors and the matrix mat on the last bond (the identity if mat is None) times one positive number, with norm 1, Z=1, in canonical form and with the centre on the last bond, for every list of tensors with matching bonds and every matrix that fits the last one, if the state does not vanish.", "quantifier": "every number of sites, dimensions, tensors, matrix, thresholds below 1e-15, every correct SVD", "why_tests_cant": "No test calls fromList at all; in a test that only looks at norms the phase and the relative size of the amplitudes would not be seen.", "anchors": ["lib/mpslib/mps.py:fromList", "lib/mpslib/mps.py:__position__", "lib/mpslib/mps.py:__init__"]}
{"id": "C108", "title": "bisection finds a zero, or the neighbours of a point on a grid", "statement": "utilities.bisection(fun,a,b,tol,maxit), as called by periodicSmooth, returns for a continuous function that does not have the same sign at a<b a point of [a,b] which is a zero or is closer to a zero than tol, whenever 2^maxit*tol exceeds b-a; utilities.bisection(grid,position) returns the indices of two neighbouring points of a sorted grid between which the position lies.", "quantifier": "every continuous function, interval, tolerance, number of iterations; every grid and position", "why_tests_cant": "The interval shrinks in a way that depends on the function at all midpoints; a test looks at a few functions. That a name is bound twice is not seen by tests of either definition on its own.", "anchors": ["lib/utils/utilities.py:bisection", "lib/utils/utilities.py:periodicSmooth"]}
{"id": "C109", "title": "Checks for orthonormality and diagonal form return the deviation", "statement": "check_normalization(tensor,'l') (or 'r') returns a number >=0 that is 0 exactly for left (right) orthonormal tensors, and the squared norm of every vector changes by at most this number times itself when the tensor is applied as a map from the right (left) bond; every other value of which raises. isDiag and isDiagUnitary return the distance, in the Frobenius norm, of a square matrix to the diagonal matrices and to the diagonal unitary matrices, and whether it is below err; matrices that are not square raise.", "quantifier": "every tensor and vector, every complex matrix, every err", "why_tests_cant": "That a number is the distance to a set of matrices, and that it bounds the change of all vectors, are statements about infinitely many matrices and vectors.", "anchors": ["lib/mpslib/mpsfunctions.py:check_normalization", "lib/utils/utilities.py:isDiag", "lib/utils/utilities.py:isDiagUnitary"]}
{"id": "C110", "title": "getBlockHam returns the effective Hamiltonian of a bond and the matrix on it", "statement": "getBlockHam(mps,lbold,rbold,mpo,index) moves the centre to index without changing the state and returns L, R, lam: L is the contraction of the sites 0..index in an orthonormal basis, R that of the sites after index, lam has norm 1, and the expectation value of HAproductBond(L,R) in lam is the energy <psi|H|psi>/<psi|psi> of the state.", "quantifier": "every canonical MPS object, MPO with boundaries that fit, index, every exact qr and svd", "why_tests_cant": "The energy of a state is a sum over exponentially many configurations; on product states, where the centre matrix is a number, wrong code returns the right energy.", "anchors": ["lib/mpslib/mpsfunctions.py:getBlockHam", "lib/mpslib/mpsfunctions.py:prepareTensor", "lib/mpslib/mpsfunctions.py:addLayer", "lib/mpslib/mpsfunctions.py:HAproductBondMatrix", "lib/mpslib/mps.py:__position__"]}
{"id": "C111", "title": "Lattice-cMPS tensors are brought into an orthonormal gauge without changing them", "statement": "prepareTensorfixA0(mps,direction) (mpsfunctions and mpsfunctionsgradopt) and prepareTensorFixPhase(mps,direction,fix) return tensor and matout with tensor left-orthonormal (right-orthonormal for direction<0) and mps=tensor.matout (mps=matout.tensor), up to a normalisation of matout for fix='u' and 'v', where matout has norm 1. The diagonal of tensor[:,:,0] is real and not negative without fix; the diagonal of matout is real and not negative for fix='v' and direction>0 and for fix='u' and direction<0. prepareTensor of mpsfunctionsgradopt factorises every tensor exactly.", "quantifier": "every tensor with square components, both directions, every fix, every exact qr, svd and pseudo-inverse", "why_tests_cant": "Random square matrices are invertible and two components are the only case tried; a missing scalar factor does not show when states are normalised afterwards.", "anchors": ["lib/mpslib/mpsfunctions.py:prepareTensorfixA0", "lib/mpslib/mpsfunctions.py:prepareTensor", "lib/mpslib/mpsfunctionsgradopt.py:prepareTensorfixA0", "lib/mpslib/mpsfunctionsgradopt.py:prepareTensorFixPhase", "lib/mpslib/mpsfunctionsgradopt.py:prepareTensor"]}
{"id": "C112", "title": "The central gauge of a unit cell", "statement": "regaugecentralC(mps) and computeOrthogonalMPS(mps) (mpsfunctionsgradopt) return, for a unit cell of tensors of equal shape whose transfer operator has one leading eigenvalue eta, left-orthonormal tensors mpsl, right-orthonormal tensors mpsr and invertible matrices Cs on the bonds with Cs[n].mpsr[n]=mpsl[n].Cs[n+1] and Cs[0]=Cs[N], of the same uniform state as mps/eta^(1/(2N)); mpsl[n]=Cs[n].Gamma[n], mpsr[n]=Gamma[n].Cs[n+1]; mps is normalised in place. The state is normalised: Cs[n] has norm 1.", "quantifier": "every cell of any length, bond dimension and local dimension with well-conditioned density matrices, every exact eigensolver, square root and inverse", "why_tests_cant": "Only some cells are tried; whether a gauge is orthonormal for all of them depends on the order of the transposes of the density matrices, which real symmetric examples do not show, and the number of requested eigenvalues only matters for small bond dimensions.", "anchors": ["lib/mpslib/mpsfunctionsgradopt.py:regaugecentralC", "lib/mpslib/mpsfunctionsgradopt.py:computeOrthogonalMPS", "lib/mpslib/mpsfunctionsgradopt.py:TransferOperator", "lib/mpslib/mpsfunctionsgradopt.py:UnitcellTransferOperator", "lib/mpslib/mpsfunctionsgradopt.py:UnitcellTMeigs"]}
{"id": "C113", "title": "distributeR spreads a matrix over a unit cell without changing the state", "statement": "distributeR(mps,x,L,r) (mpsfunctionsgradopt) on a uniform grid returns tensors with mps'[n]=R^(-n).mps[n].R^(n+1) for one matrix R with R^(N+1)=r, N the number of tensors; so for every configuration the product of the matrices over the cell is the product of the old ones times R^N. A grid that is not uniform is refused with a message.", "quantifier": "every cell of any length, bond dimension and local dimension, every invertible matrix r with positive eigenvalues, every exact eigensolver", "why_tests_cant": "A random density matrix is Hermitian, for which the conjugate transpose of the eigenvectors is the inverse; the product over the cell is not compared with the old one.", "anchors": ["lib/mpslib/mpsfunctionsgradopt.py:distributeR", "lib/utils/utilities.py:computedx"]}
{"id": "C114", "title": "Matching the phases of singular vectors", "statement": "findPhase2(U0,U1,V0,V1) returns for every n the phase phi for which exp(i phi)U1[:,n] and exp(-i phi)V1[n,:] are closest to U0[:,n] and V0[n,:]; if U1,V1 are U0,V0 up to the phases exp(-i theta), exp(i theta) that a singular value decomposition leaves open, the returned phases undo them. findPhase does the same with the diagonals of the four matrices.", "quantifier": "all square matrices of any size, all phases, every solver that returns a local minimum inside the bounds", "why_tests_cant": "A minimiser on four periods returns one of several equivalent values, so no fixed value can be compared; on real matrices both signs of the phase give the same cost.", "anchors": ["lib/utils/utilities.py:findPhase2", "lib/utils/utilities.py:findPhase", "lib/utils/utilities.py:fun1", "lib/utils/utilities.py:fun3"]}
{"id": "C115", "title": "The left gauge of a unit cell of lattice-cMPS tensors", "statement": "regauge(mps) of mpsfunctionsgradopt.py returns a cell of left-orthonormal tensors, whose components 0 have real and not negative diagonals, and a unitary matrix r. The product of the new cell and r is the product of the old cell, divided by the root of its leading eigenvalue, up to an invertible matrix and its inverse at both ends, so that the uniform state is not changed.", "quantifier": "every cell of N square tensors with two components of bond dimension D, invertible components 0, one leading eigenvalue and well-conditioned density matrices, every exact qr, svd, sqrtm, pinv and eigensolver", "why_tests_cant": "That r is unitary follows from the square roots at both ends of the cell only if both are the inverse of each other and the sweep loses nothing; on cells of one tensor or in an orthonormal gauge wrong ends are not seen.", "anchors": ["lib/mpslib/mpsfunctionsgradopt.py:regauge", "lib/mpslib/mpsfunctionsgradopt.py:prepareTensorFixPhase"]}
{"id": "C116", "title": "The eigenvalues of the mixed transfer operator bound the fidelity", "statement": "Every eigenvalue mu of MixedTransferOperator for two tensors satisfies |mu|^2<=eta_U*eta_L with the leading eigenvalues of the two tensors, to the left and to the right. If it is equal, the tensors are the same up to a factor and an intertwining matrix, and tensors which are the same in this sense have an eigenvalue which reaches the bound. MixedUnitcellTMeigs returns the leading eigenvalue of two unit cells.", "quantifier": "every two tensors with square components of any bond dimensions and positive leading eigenvectors, every eigenvector; for the unit cells: every two lists of tensors and every exact eigensolver", "why_tests_cant": "The bound and the case of equality are statements on all eigenvectors; random tensors have eigenvalues far below the bound, and no test calls the function for unit cells.", "anchors": ["lib/mpslib/mpsfunctions.py:MixedTransferOperator", "lib/mpslib/mpsfunctions.py:MixedUnitcellTransferOperator", "lib/mpslib/mpsfunctions.py:MixedUnitcellTMeigs"]}
{"id": "C117", "title": "The effective Hamiltonian of a nearest-neighbour interaction and its projection", "statement": "LiebLinigerHAproduct(Hl,mpo,Hr,A,mps,B) returns the tensor whose product with any tensor Z is the matrix element of the Hamiltonian between the states with mps and with Z: the blocks Hl and Hr, and the interaction given by the two mpo tensors with the neighbours A and B. It is Hermitian if the interaction and the blocks are. tangentSpaceHAproduct(kleft,A,B,center,VL,mpo) is its projection with VL, for every right block, if VL is orthogonal to the centre.", "quantifier": "every bond dimension, every number of components, all tensors with square matrices, every pair of mpo tensors of any inner dimension, all blocks", "why_tests_cant": "Axes of the same length can be exchanged in a contraction without an error; for symmetric real tensors the result is then the same.", "anchors": ["lib/mpslib/mpsfunctions.py:LiebLinigerHAproduct", "lib/mpslib/mpsfunctions.py:tangentSpaceHAproduct", "lib/mpslib/mpsfunctions.py:initializeLayer"]}
{"id": "C118", "title": "The ground state of the bond operator", "statement": "eigshbondsimple(L,R,mat0,numvecs=k) returns for every nonzero matrix mat0 of more than one entry, whose shape fits to the blocks. For k=1 it returns the lowest eigenvalue of the operator applyHbond(L,R,.) and a normalised eigenvector; no matrix has a lower expectation value. For more vectors it returns k of them.", "quantifier": "every pair of blocks with a Hermitian operator, every shape of the matrix, every nonzero initial matrix, every number of vectors, every exact eigensolver", "why_tests_cant": "That no matrix has a lower expectation value is a statement on all matrices; centre matrices in the middle of a chain are mostly square, so that the shape is not noticed.", "anchors": ["lib/mpslib/mpsfunctions.py:eigshbondsimple", "lib/mpslib/mpsfunctions.py:applyHbond", "lib/mpslib/mpsfunctions.py:HAproductBond"]}
{"id": "C119", "title": "MPO objects made from lists", "statement": "An object MPO.fromlist(l) behaves as the list: its length is that of l, mpo[i] is l[i] for indices from both ends, and after any sequence of assignments mpo[i]=W with indices in range the item at every site is the one assigned last, or the one of l. Other indices raise IndexError. MPO.fromMPO(other) gives an object with the same items, and every object has a dtype.", "quantifier": "every list of tensors, every sequence of assignments, every index", "why_tests_cant": "The copy constructor is not called by the examples, and the dtype is asked for only for the Hamiltonians of the library.", "anchors": ["lib/mpslib/Hamiltonians.py:fromMPO", "lib/mpslib/Hamiltonians.py:fromlist", "lib/mpslib/Hamiltonians.py:__getitem__", "lib/mpslib/Hamiltonians.py:__setitem__", "lib/mpslib/Hamiltonians.py:__len__"]}
{"id": "C120", "title": "Entries of random initial tensors", "statement": "MPSinit(length,D,d,obc,dtype,scale,shift) with positive scale returns tensors of the shapes of an open chain or a unit cell. The real parts of all entries are from [-shift*scale,(1-shift)*scale); the imaginary parts are zero for the dtype float, and drawn from the same interval for the dtype complex. The same holds for the entries which MPSinitializer(np.random.random_sample,...) returns.", "quantifier": "every length, bond dimension, local dimensions, boundary condition, scale, shift, and every outcome of the random numbers", "why_tests_cant": "The entries are random, so that a test sees one outcome; a real array is accepted wherever a complex one is, so that the ignored dtype is not noticed.", "anchors": ["lib/mpslib/mpsfunctions.py:MPSinit", "lib/mpslib/mpsfunctions.py:MPSinitializer"]}
{"id": "C121", "title": "The effective Hamiltonian applied to a tensor", "statement": "With the blocks of getL and getR, applyHsingleSite(L,mpo[n],R,mps[n]) returns a tensor of the shape of mps[n] for every site and every local dimension. Its scalar product with a tensor B is the contraction of the network with B in place of the conjugate tensor of the site; with mps[n] it is the full contraction.", "quantifier": "every chain of tensors and operators of fitting shapes, every site, every local dimension, every tensor B", "why_tests_cant": "The function is not called by the library or its examples, so that the assertion on the local dimension is not noticed.", "anchors": ["lib/mpslib/mpsfunctions.py:applyHsingleSite", "lib/mpslib/mpsfunctions.py:HAproductSingleSite"]}
{"id": "C122", "title": "Smoothing of an array of matrices", "statement": "smoothArray(ar,window_length,polyorder) returns an array of the shape and dtype of ar for every array of shape (D1,D2,n) and every odd window_length with polyorder<window_length<=n. Every row of it is the filtered row of ar, real and imaginary part separately; arrays whose entries are polynomials of at most that order are returned unchanged.", "quantifier": "every array of matrices, every window and order, every filter that leaves polynomials unchanged", "why_tests_cant": "The function is not called by the library or its tests; for matrices with more columns than rows the result has the right shape and zeros in it.", "anchors": ["lib/utils/utilities.py:smoothArray"]}
{"id": "C123", "title": "The Radau integrators", "statement": "evolveTensorRadau(L,mpo,R,mps,tau) and evolveMatrixRadau(L,R,mat,tau) return exp(-1j*tau*H) applied to the tensor or to the matrix for every positive float tau, H being the effective Hamiltonian of the site or of the bond, up to the error of the integration.", "quantifier": "every pair of blocks, every operator, tensor and matrix of fitting shapes, every time, every solver", "why_tests_cant": "The functions are not called by the library, so that the missing import is not noticed; one step of the solver is enough for small times only.", "anchors": ["lib/mpslib/mpsfunctions.py:evolveTensorRadau", "lib/mpslib/mpsfunctions.py:evolveMatrixRadau"]}
{"id": "C124", "title": "Four-point correlations", "statement": "measure4pointCorrelation(mps,ops) returns the correlations of four operators for every MPS object that is not zero. Another number of operators raises AssertionError and leaves the object as it is. After any call with four operators the object represents the same state, its centre being at bond 0.", "quantifier": "every MPS object, every position of the centre, every list of operators, every exact decomposition", "why_tests_cant": "The function is not called by the library or its examples, so that the undefined name in it is not noticed.", "anchors": ["lib/mpslib/mpsfunctions.py:measure4pointCorrelation"]}
