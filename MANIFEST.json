{
 "claims": [
  {
   "property": "C01",
   "status": "proved",
   "theorems": [
    "PyTeN.C01_einstein_sum",
    "PyTeN.C01_default"
   ],
   "note": "any commutative semiring, any enumeration order of Python sets"
  },
  {
   "property": "C02",
   "status": "proved",
   "theorems": [
    "PyTeN.C02_order_independent"
   ],
   "note": ""
  },
  {
   "property": "C03",
   "status": "partial",
   "theorems": [
    "PyTeN.C03_rejects",
    "PyTeN.C03_exact_partial",
    "PyTeN.C03_exact_explicit",
    "PyTeN.C03_violated_zero_label"
   ],
   "note": "the code violates the property for the label 0, which no condition covers"
  },
  {
   "property": "C04",
   "status": "partial",
   "theorems": [
    "PyTeN.C04_order_list_partial",
    "PyTeN.C04_violated_second_call"
   ],
   "note": "the code violates the property for disconnected networks with an explicit order list; AA and v are copied"
  },
  {
   "property": "C05",
   "status": "proved",
   "theorems": [
    "PyTeN.C05_basis",
    "PyTeN.C05_double",
    "PyTeN.C05_violated_double"
   ],
   "note": "exact integers, as the quantifier says; with the double-precision promotion of numpy 1.x the result is unchanged for N<=53 and wrong for N>=54, which is proved as well"
  },
  {
   "property": "C06",
   "status": "proved",
   "theorems": [
    "PyTeN.C06_bits",
    "PyTeN.C06_laws"
   ],
   "note": "64-bit words"
  },
  {
   "property": "C07",
   "status": "proved",
   "theorems": [
    "PyTeN.C07_position_preserves_state",
    "PyTeN.C07_position_succeeds"
   ],
   "note": "exact arithmetic; qr contract as hypothesis (satisfiable: exists_linAlg)"
  },
  {
   "property": "C08",
   "status": "proved",
   "theorems": [
    "PyTeN.C08_canonical_after_history",
    "PyTeN.C08_canonical_from_right_end"
   ],
   "note": ""
  },
  {
   "property": "C09",
   "status": "proved",
   "theorems": [
    "PyTeN.C09_position_range",
    "PyTeN.C09_position_bookkeeping"
   ],
   "note": ""
  },
  {
   "property": "C10",
   "status": "proved",
   "theorems": [
    "PyTeN.C10_Z_is_norm",
    "PyTeN.C10_resetZ_normalises"
   ],
   "note": ""
  },
  {
   "property": "C100",
   "status": "partial",
   "theorems": [
    "PyTeN.GradOpt.C100_regauge",
    "PyTeN.GradOpt.C100_regauge_total",
    "PyTeN.GradOpt.C100_truncation",
    "PyTeN.GradOpt.C100_environments",
    "PyTeN.GradOpt.C100_norms",
    "PyTeN.GradOpt.C100_gradient",
    "PyTeN.GradOpt.C100_stationary",
    "PyTeN.GradOpt.C100_hermitian",
    "PyTeN.GradOpt.C100_descent",
    "PyTeN.GradOpt.C100_lower",
    "PyTeN.GradOpt.C100_move",
    "PyTeN.GradOpt.C100_fixed",
    "PyTeN.GradOpt.C100_point_total",
    "PyTeN.GradOpt.C100_step",
    "PyTeN.GradOpt.C100_run",
    "PyTeN.GradOpt.C100_first",
    "PyTeN.GradOpt.C100_density",
    "PyTeN.GradOpt.C100_violated_two",
    "PyTeN.GradOpt.C100_violated_boson"
   ],
   "note": "violated: with the default numeig=3 states of bond dimension up to 2 are refused, and HomogeneousDiscretizedBosonEngine ignores its keyword arguments. Proved for trunc up to 1E-15 (no truncation) and exact solvers; that later states of a run are normal tensors is not proved, so termination is for the first step."
  },
  {
   "property": "C101",
   "status": "partial",
   "theorems": [
    "PyTeN.TdvpInf.C101_returns",
    "PyTeN.TdvpInf.C101_energy",
    "PyTeN.TdvpInf.C101_finite",
    "PyTeN.TdvpInf.C101_subspace",
    "PyTeN.TdvpInf.C101_tangent_partial",
    "PyTeN.TdvpInf.C101_stationary_partial",
    "PyTeN.TdvpInf.C101_violated_dim",
    "PyTeN.TdvpInf.C101_violated_length",
    "PyTeN.TdvpInf.C101_violated_single",
    "PyTeN.TdvpInf.C101_violated_gauge"
   ],
   "note": "violated: for any number of states per site other than two the reshape of VL raises; MPOs of more than two sites raise although the documentation allows any length; the random numbers in the complement VL take Adot out of the left gauge (bounded by C101_subspace, of order 1e-8*D^2), so that the returned norm does not vanish at stationary states. Proved for two states per site: energy, finite chains with remainder, the limit of long chains on the computed subspace, and the exact projection for random numbers orthogonal to the tensor; exact arithmetic, lgmres, sqrtm, pinv and svd are parameters"
  },
  {
   "property": "C102",
   "status": "partial",
   "theorems": [
    "PyTeN.Excite.C102_returns",
    "PyTeN.Excite.C102_linear",
    "PyTeN.Excite.C102_zero_partial",
    "PyTeN.Excite.C102_product_partial",
    "PyTeN.Excite.C102_violated_momentum",
    "PyTeN.Excite.C102_violated_complex"
   ],
   "note": "violated: the resolvents of TDVPGMRES ignore the momentum, so for k away from zero the matrix elements are wrong (witness: an entangled state, sum of sigma_x sigma_x, k=pi: 0 instead of 1); invsqrtr is contracted without conjugation, so for complex states the result is wrong even for k=0 (witness: 3 instead of 2). Proved: it returns and is linear for every k; for |k|<1e-8 and a real invsqrtr, and for bond dimension one and every k, its scalar products are the limits of the matrix elements of H less the energy of all bonds but two. Only mpsAtilde=mpsA; exact arithmetic, lgmres is a parameter; the energy of the two bonds next to the excitation is not subtracted by the code"
  },
  {
   "property": "C103",
   "status": "proved",
   "theorems": [
    "PyTeN.C103_gate",
    "PyTeN.C103_gate_lt_one",
    "PyTeN.C103_run",
    "PyTeN.C103_reset",
    "PyTeN.C103_overlap",
    "PyTeN.C103_tfi"
   ],
   "note": "open chains, unitary gates, real time (purely imaginary dt in the sign convention of the code); the runs in which a single gate discards the whole state are excluded by the hypothesis that the accumulated weight is below 1; exact arithmetic"
  },
  {
   "property": "C104",
   "status": "proved",
   "theorems": [
    "PyTeN.C104_truncate",
    "PyTeN.C104_truncate_quasi_optimal",
    "PyTeN.C104_truncate_threshold",
    "PyTeN.C104_truncate_exact"
   ],
   "note": "open chains, nonzero norm; where a threshold above 1e-16 is used the case that it discards everything (the code then divides by a zero norm) is excluded by the hypothesis that the resulting bond matrix is not empty; exact arithmetic"
  },
  {
   "property": "C105",
   "status": "partial",
   "theorems": [
    "PyTeN.C105_schmidt",
    "PyTeN.C105_gauge",
    "PyTeN.C105_succeeds",
    "PyTeN.C105_range",
    "PyTeN.C105_violated_fresh"
   ],
   "note": "violated for objects that are not in canonical form, where the tensors left of the bond are used as they are; proved for canonical objects; exact arithmetic"
  },
  {
   "property": "C106",
   "status": "partial",
   "theorems": [
    "PyTeN.C106_left",
    "PyTeN.C106_right",
    "PyTeN.C106_left_succeeds",
    "PyTeN.C106_right_succeeds",
    "PyTeN.C106_unitcell",
    "PyTeN.C106_paired",
    "PyTeN.C106_violated_complex"
   ],
   "note": "violated for complex states, where the trace pairs a block with the transposed density matrix; proved for the overlap tr(E.l) the code uses and hence for symmetric density matrices"
  },
  {
   "property": "C107",
   "status": "partial",
   "theorems": [
    "PyTeN.C107_fromList_partial",
    "PyTeN.C107_violated_default",
    "PyTeN.C107_violated_matrix"
   ],
   "note": "violated without a matrix and for matrices with two or more columns, where the call always raises; proved for matrices with one column"
  },
  {
   "property": "C108",
   "status": "partial",
   "theorems": [
    "PyTeN.Utils.C108_root_partial",
    "PyTeN.Utils.C108_grid_partial",
    "PyTeN.Utils.C108_violated_shadowed",
    "PyTeN.Utils.C108_violated_grid"
   ],
   "note": "violated: the second definition of the name replaces the first and always raises; the body of the first definition is proved correct, that of the second with an integer division; Python 3; exact arithmetic"
  },
  {
   "property": "C109",
   "status": "proved",
   "theorems": [
    "PyTeN.C109_left",
    "PyTeN.C109_right",
    "PyTeN.C109_other",
    "PyTeN.C109_isDiag",
    "PyTeN.C109_isDiagUnitary",
    "PyTeN.C109_square"
   ],
   "note": "exact arithmetic; the printed warning is not modelled"
  },
  {
   "property": "C11",
   "status": "proved",
   "theorems": [
    "PyTeN.C11_mul",
    "PyTeN.C11_truediv",
    "PyTeN.C11_inplace",
    "PyTeN.C11_type_error"
   ],
   "note": ""
  },
  {
   "property": "C110",
   "status": "partial",
   "theorems": [
    "PyTeN.C110_blocks",
    "PyTeN.C110_returns",
    "PyTeN.C110_without_centre",
    "PyTeN.C110_energy_partial",
    "PyTeN.C110_first_partial",
    "PyTeN.C110_violated_energy"
   ],
   "note": "violated: the centre matrix is left out of the factorised tensor; blocks and success proved in general, the energy where the centre matrix is a multiple of the identity; exact arithmetic"
  },
  {
   "property": "C111",
   "status": "partial",
   "theorems": [
    "PyTeN.FixA0.C111_fixA0_right",
    "PyTeN.FixA0.C111_fixA0_left",
    "PyTeN.FixA0.C111_gradopt_right",
    "PyTeN.FixA0.C111_gradopt_left",
    "PyTeN.FixA0.C111_phase_right",
    "PyTeN.FixA0.C111_phase_left",
    "PyTeN.FixA0.C111_prepareTensor",
    "PyTeN.FixA0.C111_violated_norm",
    "PyTeN.FixA0.C111_violated_components",
    "PyTeN.FixA0.C111_violated_singular",
    "PyTeN.FixA0.C111_refused"
   ],
   "note": "violated: prepareTensorfixA0 of mpsfunctions.py loses the norm, every variant loses the components from the third on and whatever a singular component 0 does not carry; proved for two components and an invertible component 0, the variant of mpsfunctions.py up to the exact factor; exact arithmetic"
  },
  {
   "property": "C112",
   "status": "partial",
   "theorems": [
    "PyTeN.CentralC.C112_gauge",
    "PyTeN.CentralC.C112_orthogonal",
    "PyTeN.CentralC.C112_violated_small",
    "PyTeN.CentralC.C112_violated_norm",
    "PyTeN.CentralC.C112_components"
   ],
   "note": "violated: bond dimensions one and two raise TypeError, the matrices on the bonds are not normalised, components beyond those of the first tensor are lost; otherwise proved for every cell whose density matrices are well-conditioned; real dtype not modelled"
  },
  {
   "property": "C113",
   "status": "partial",
   "theorems": [
    "PyTeN.Distribute.C113_spread",
    "PyTeN.Distribute.C113_distinct",
    "PyTeN.Distribute.C113_succeeds",
    "PyTeN.Distribute.C113_violated_normal",
    "PyTeN.Distribute.C113_violated_exit"
   ],
   "note": "violated for matrices that are not normal, and by the NameError on grids that are not uniform; proved for positive definite matrices whose returned eigenvectors are orthonormal, in particular for distinct eigenvalues"
  },
  {
   "property": "C114",
   "status": "partial",
   "theorems": [
    "PyTeN.Phase.C114_closest",
    "PyTeN.Phase.C114_recovers",
    "PyTeN.Phase.C114_succeeds",
    "PyTeN.Phase.C114_diag_partial",
    "PyTeN.Phase.C114_violated_diag"
   ],
   "note": "proved for findPhase2; violated by findPhase, whose cost function has the wrong sign of the phase for V"
  },
  {
   "property": "C115",
   "status": "partial",
   "theorems": [
    "PyTeN.GradRegauge.C115_gauge",
    "PyTeN.GradRegauge.C115_violated_small"
   ],
   "note": "violated: bond dimensions one and two raise TypeError; otherwise proved for every cell whose tensors have two components; real dtype not modelled"
  },
  {
   "property": "C116",
   "status": "partial",
   "theorems": [
    "PyTeN.Fidelity.C116_right",
    "PyTeN.Fidelity.C116_left",
    "PyTeN.Fidelity.C116_reached_right",
    "PyTeN.Fidelity.C116_reached_left",
    "PyTeN.Fidelity.C116_violated_cell"
   ],
   "note": "violated for unit cells: MixedUnitcellTMeigs never returns; for single tensors the bound, the case of equality and its converse are proved"
  },
  {
   "property": "C117",
   "status": "partial",
   "theorems": [
    "PyTeN.PairH.C117_element",
    "PyTeN.PairH.C117_hermitian",
    "PyTeN.PairH.C117_tangent",
    "PyTeN.PairH.C117_violated_wide"
   ],
   "note": "violated: for three and more components tangentSpaceHAproduct raises for the full complement; the rest is proved for all square tensors"
  },
  {
   "property": "C118",
   "status": "partial",
   "theorems": [
    "PyTeN.BondSimple.C118_ground",
    "PyTeN.BondSimple.C118_violated_rect",
    "PyTeN.BondSimple.C118_violated_many"
   ],
   "note": "violated: rectangular matrices and more than one vector are always refused; for square matrices and one vector it is proved"
  },
  {
   "property": "C119",
   "status": "partial",
   "theorems": [
    "PyTeN.MpoObj.C119_item",
    "PyTeN.MpoObj.C119_assign",
    "PyTeN.MpoObj.C119_range",
    "PyTeN.MpoObj.C119_violated"
   ],
   "note": "violated: fromMPO and the dtype of an object made from a list always raise AttributeError; the rest is proved"
  },
  {
   "property": "C12",
   "status": "proved",
   "theorems": [
    "PyTeN.C12_add",
    "PyTeN.C12_add_mismatch"
   ],
   "note": ""
  },
  {
   "property": "C120",
   "status": "partial",
   "theorems": [
    "PyTeN.RandInit.C120_entries",
    "PyTeN.RandInit.C120_real",
    "PyTeN.RandInit.C120_violated_complex"
   ],
   "note": "violated: MPSinit returns real tensors for the dtype complex; for the dtype float, and for MPSinitializer, it is proved"
  },
  {
   "property": "C121",
   "status": "partial",
   "theorems": [
    "PyTeN.ApplyH.C121_site",
    "PyTeN.ApplyH.C121_element",
    "PyTeN.ApplyH.C121_violated_dim"
   ],
   "note": "violated: local dimensions other than two raise AssertionError; for two it is proved"
  },
  {
   "property": "C122",
   "status": "partial",
   "theorems": [
    "PyTeN.Smooth.C122_square",
    "PyTeN.Smooth.C122_poly",
    "PyTeN.Smooth.C122_violated_rect",
    "PyTeN.Smooth.C122_violated_dtype"
   ],
   "note": "violated: rectangular matrices raise or leave zeros, other dtypes give None; for square matrices of float64 or complex128 it is proved"
  },
  {
   "property": "C123",
   "status": "partial",
   "theorems": [
    "PyTeN.RadauInt.C123_violated",
    "PyTeN.RadauInt.C123_site_partial",
    "PyTeN.RadauInt.C123_bond_partial"
   ],
   "note": "violated: Radau is not imported, every call raises; with the import it is proved for times that one step of the solver reaches"
  },
  {
   "property": "C124",
   "status": "partial",
   "theorems": [
    "PyTeN.FourPoint.C124_violated",
    "PyTeN.FourPoint.C124_after",
    "PyTeN.FourPoint.C124_count"
   ],
   "note": "violated: every call raises, with four operators NameError; the effect on the object is proved"
  },
  {
   "property": "C13",
   "status": "proved",
   "theorems": [
    "PyTeN.C13_sub",
    "PyTeN.C13_sub_self"
   ],
   "note": ""
  },
  {
   "property": "C14",
   "status": "partial",
   "theorems": [
    "PyTeN.C14_iadd_partial",
    "PyTeN.C14_iadd_factor",
    "PyTeN.C14_iadd_violated",
    "PyTeN.C14_iadd_unusable"
   ],
   "note": "the code violates the property: += keeps the old centre matrix; exact formula, two negations, partial for a trivial centre at the right end"
  },
  {
   "property": "C15",
   "status": "partial",
   "theorems": [
    "PyTeN.C15_neg_partial",
    "PyTeN.C15_neg_factor",
    "PyTeN.C15_neg_violated"
   ],
   "note": "the code violates the property for every even length (result is (-1)^N times the state)"
  },
  {
   "property": "C16",
   "status": "partial",
   "theorems": [
    "PyTeN.C16_copy_partial",
    "PyTeN.C16_copy_obc_iff",
    "PyTeN.C16_copy_obc_violated"
   ],
   "note": "the code violates the property for the boundary flag; independence of the copy is by value semantics"
  },
  {
   "property": "C17",
   "status": "partial",
   "theorems": [
    "PyTeN.C17_load_partial",
    "PyTeN.C17_load_violated"
   ],
   "note": "the code violates the property: Dmax becomes N"
  },
  {
   "property": "C18",
   "status": "partial",
   "theorems": [
    "PyTeN.C18_overlap_partial",
    "PyTeN.C18_overlap_self",
    "PyTeN.C18_overlap_fresh",
    "PyTeN.C18_overlap_length",
    "PyTeN.C18_overlap_succeeds",
    "PyTeN.C18_overlap_violated"
   ],
   "note": "the code violates the property: the phase of the 1x1 centre matrix at the chain end is dropped; exact up to that phase, exact for self-overlap and fresh objects"
  },
  {
   "property": "C19",
   "status": "partial",
   "theorems": [
    "PyTeN.C19_measureLocal",
    "PyTeN.C19_measureLocal_succeeds",
    "PyTeN.C19_measureLocal_rejects",
    "PyTeN.C19_measureLocal_violated"
   ],
   "note": "proved for every site in range; the code violates the range claim at site=-1"
  },
  {
   "property": "C20",
   "status": "proved",
   "theorems": [
    "PyTeN.C20_measureList",
    "PyTeN.C20_measureList_succeeds",
    "PyTeN.C20_measureList_eq_measureLocal",
    "PyTeN.C20_measureList_rejects",
    "PyTeN.C20_mf_right",
    "PyTeN.C20_mf_left"
   ],
   "note": ""
  },
  {
   "property": "C21",
   "status": "partial",
   "theorems": [
    "PyTeN.C21_applyOneSiteGate",
    "PyTeN.C21_applyOneSiteGate_succeeds",
    "PyTeN.C21_applyOneSiteGate_inplace",
    "PyTeN.C21_applyOneSiteGate_rejects",
    "PyTeN.C21_applyOneSiteGate_violated_minus_one"
   ],
   "note": "proved for every site in range; the code violates the range claim (site=-1 is accepted)"
  },
  {
   "property": "C22",
   "status": "proved",
   "theorems": [
    "PyTeN.C22_applyTwoSiteGate",
    "PyTeN.C22_applyTwoSiteGate_succeeds",
    "PyTeN.C22_exact_if_not_exhausted",
    "PyTeN.C22_applyTwoSiteGate_rejects",
    "PyTeN.C22_default_Dmax_violated"
   ],
   "note": "proved for every explicit Dmax; the default Dmax=None always raises TypeError (separate theorem)"
  },
  {
   "property": "C23",
   "status": "proved",
   "theorems": [
    "PyTeN.C23_applyTwoSiteGate_truncation",
    "PyTeN.C23_best"
   ],
   "note": ""
  },
  {
   "property": "C24",
   "status": "partial",
   "theorems": [
    "PyTeN.C24_truncate",
    "PyTeN.C24_truncate_succeeds",
    "PyTeN.C24_truncate_noop",
    "PyTeN.C24_truncate_violated_stale_D"
   ],
   "note": "proved when D does not exceed the recorded bond dimension and some Schmidt value survives; the code violates the claim after gates because the recorded bond dimension is stale"
  },
  {
   "property": "C25",
   "status": "partial",
   "theorems": [
    "PyTeN.C25_tolist",
    "PyTeN.C25_tensor_right",
    "PyTeN.C25_tensor_left",
    "PyTeN.C25_tensor_assertion",
    "PyTeN.C25_tensor_violated_left",
    "PyTeN.C25_tensor_violated_right"
   ],
   "note": "proved inside the domain; the code violates the domain claim at the two ends of the chain"
  },
  {
   "property": "C26",
   "status": "proved",
   "theorems": [
    "PyTeN.C26_getItem_domain",
    "PyTeN.C26_getItem_value",
    "PyTeN.C26_item_assertion",
    "PyTeN.C26_setItem"
   ],
   "note": ""
  },
  {
   "property": "C27",
   "status": "proved",
   "theorems": [
    "PyTeN.C27_productState",
    "PyTeN.C27_productState_rejects"
   ],
   "note": ""
  },
  {
   "property": "C28",
   "status": "partial",
   "theorems": [
    "PyTeN.C28_obc",
    "PyTeN.C28_pbc",
    "PyTeN.C28_obc_short",
    "PyTeN.C28_factory",
    "PyTeN.C28_ones_succeeds",
    "PyTeN.C28_dtype_violated",
    "PyTeN.C28_zeros_violated"
   ],
   "note": "shapes proved; the code violates the claim for MPS.zeros (NaN) and for dtypes other than float64/complex128 (empty list)"
  },
  {
   "property": "C29",
   "status": "proved",
   "theorems": [
    "PyTeN.C29_applyMPO",
    "PyTeN.C29_applyMPO_succeeds",
    "PyTeN.C29_applyMPO_rejects",
    "PyTeN.C29_applyMPO_inplace"
   ],
   "note": "list version, over every commutative semiring; MPS.applyMPO always raises NameError (not modelled)"
  },
  {
   "property": "C30",
   "status": "proved",
   "theorems": [
    "PyTeN.C30_getL",
    "PyTeN.C30_getR",
    "PyTeN.C30_getL_succeeds",
    "PyTeN.C30_getR_succeeds",
    "PyTeN.C30_cut",
    "PyTeN.C30_site",
    "PyTeN.C30_contractionH",
    "PyTeN.C30_bondH",
    "PyTeN.C30_zeroSite_right",
    "PyTeN.C30_zeroSite_left",
    "PyTeN.C30_contractMPO_right",
    "PyTeN.C30_contractMPO_left",
    "PyTeN.C30_contractE_right",
    "PyTeN.C30_contractE_left",
    "PyTeN.C30_open",
    "PyTeN.initializeLayerR_eq",
    "PyTeN.initializeLayerL_eq"
   ],
   "note": "over every commutative star ring"
  },
  {
   "property": "C31",
   "status": "proved",
   "theorems": [
    "PyTeN.C31_moves",
    "PyTeN.C31_dmrg",
    "PyTeN.C31_effective"
   ],
   "note": "contract of the eigensolver: shape of the result"
  },
  {
   "property": "C32",
   "status": "partial",
   "theorems": [
    "PyTeN.C32_range",
    "PyTeN.C32_success",
    "PyTeN.C32_partial",
    "PyTeN.C33_violated"
   ],
   "note": "proved for engines with valid caches; after update() it fails in range"
  },
  {
   "property": "C33",
   "status": "partial",
   "theorems": [
    "PyTeN.C33_violated",
    "PyTeN.C33_violated_truncate",
    "PyTeN.C33_partial"
   ],
   "note": "the code violates the claim: after update()/truncateMPS() every position(n) with n>=1 raises; position(0) and the right environments are fine"
  },
  {
   "property": "C34",
   "status": "proved",
   "theorems": [
    "PyTeN.C34_simulate",
    "PyTeN.C34_visits",
    "PyTeN.C34_fuel",
    "PyTeN.C34_unknown_solver",
    "PyTeN.C34_one_site",
    "PyTeN.C34_cp_zero"
   ],
   "note": "single-site simulate; two-site version not modelled"
  },
  {
   "property": "C35",
   "status": "proved",
   "theorems": [
    "PyTeN.C35_layers_partition"
   ],
   "note": ""
  },
  {
   "property": "C36",
   "status": "partial",
   "theorems": [
    "PyTeN.C36_schedule",
    "PyTeN.C36_trotter",
    "PyTeN.C36_total_time",
    "PyTeN.C36_state",
    "PyTeN.C36_checkpoint_independent",
    "PyTeN.C36_keep_verbose_independent",
    "PyTeN.C36_zero_steps",
    "PyTeN.C36_zero_violated"
   ],
   "note": "everything proved for numsteps>=1 (independence of cp: for gates forming a group and without truncation); the code violates the claim for numsteps=0: the opening half layer is applied"
  },
  {
   "property": "C37",
   "status": "partial",
   "theorems": [
    "PyTeN.C37_tebd_time_partial",
    "PyTeN.C37_tebd_silent",
    "PyTeN.C37_tebd_verbose_violated",
    "PyTeN.C37_tdvp_time_partial",
    "PyTeN.C37_tdvp_silent",
    "PyTeN.C37_tdvp_verbose_violated"
   ],
   "note": "TEBD and TDVP: proved for verbose>=1; the code violates the claim for verbose<=0 (time stands still)"
  },
  {
   "property": "C38",
   "status": "partial",
   "theorems": [
    "PyTeN.C38_tebd_keep",
    "PyTeN.C38_tebd_latest_partial",
    "PyTeN.C38_tebd_violated",
    "PyTeN.C38_tdvp_keep",
    "PyTeN.C38_tdvp_latest_partial",
    "PyTeN.C38_tdvp_violated"
   ],
   "note": "keep_cp=True proved for TEBD and TDVP; keep_cp=False violated (TEBD: when the last step is a checkpoint step; both: a file None.pickle is deleted) and proved otherwise"
  },
  {
   "property": "C39",
   "status": "partial",
   "theorems": [
    "PyTeN.C39_schedule",
    "PyTeN.C39_symmetric",
    "PyTeN.C39_progress",
    "PyTeN.C39_ivp_real_step_violated",
    "PyTeN.C39_unknown_solver",
    "PyTeN.C39_violated_bonds"
   ],
   "note": "proved for all N>=2, numbers of steps and integrators keeping the shape, started with up-to-date environments (C70); never raises if the bonds do not exceed what the neighbouring legs allow; larger bonds make the bond matrix rectangular and the run fails; violated for real dt with the solve_ivp methods, which get Im dt only"
  },
  {
   "property": "C40",
   "status": "partial",
   "theorems": [
    "PyTeN.C40_generators_partial",
    "PyTeN.C40_chains_partial",
    "PyTeN.C40_two_sites_violated",
    "PyTeN.C40_reversed_violated"
   ],
   "note": "proved for N>=3 (expm = Mathlib's matrix exponential); the code violates the claim for N=2 (UnboundLocalError) and for reversed sites"
  },
  {
   "property": "C41",
   "status": "proved",
   "theorems": [
    "PyTeN.C41_xxz"
   ],
   "note": ""
  },
  {
   "property": "C42",
   "status": "proved",
   "theorems": [
    "PyTeN.C42_tfi"
   ],
   "note": "TFI_2: see C72"
  },
  {
   "property": "C43",
   "status": "proved",
   "theorems": [
    "PyTeN.C43_spinless"
   ],
   "note": "specification by creation/annihilation operators with sign counting (anticommutation relations: theorem car)"
  },
  {
   "property": "C44",
   "status": "proved",
   "theorems": [
    "PyTeN.C44_hubbard"
   ],
   "note": ""
  },
  {
   "property": "C45",
   "status": "partial",
   "theorems": [
    "PyTeN.C45_actual",
    "PyTeN.C45_homogeneous_partial",
    "PyTeN.C45_inhomogeneous_violated",
    "PyTeN.C45_default_dtype_violated"
   ],
   "note": "the code violates the claim: the exchange coupling of every bond is J[0]; the default dtype raises TypeError; proved for homogeneous couplings"
  },
  {
   "property": "C46",
   "status": "partial",
   "theorems": [
    "PyTeN.C46_spin_partial",
    "PyTeN.C46_spinless_violated",
    "PyTeN.C46_hubbard_violated"
   ],
   "note": "proved for the spin models; SpinlessFermions and HubbardChain always raise for obc=False"
  },
  {
   "property": "C47",
   "status": "proved",
   "theorems": [
    "PyTeN.C47_rotates",
    "PyTeN.C47_entries",
    "PyTeN.C47_inverse",
    "PyTeN.C47_order",
    "PyTeN.C47_rejects"
   ],
   "note": ""
  },
  {
   "property": "C48",
   "status": "partial",
   "theorems": [
    "PyTeN.C48_sum",
    "PyTeN.C48_cells_partial",
    "PyTeN.C48_violated",
    "PyTeN.C48_one_point"
   ],
   "note": "the code violates the property for a non-zero left boundary (x0 is subtracted from the last cell instead of the first; spacings can be negative); the sum holds always, the cells for x0=0"
  },
  {
   "property": "C49",
   "status": "partial",
   "theorems": [
    "PyTeN.C49_search_partial",
    "PyTeN.C49_bracket",
    "PyTeN.C49_violated_zero",
    "PyTeN.C49_violated_zero_step"
   ],
   "note": "the code violates the property if the function vanishes at an end of the bracket, and for Delta=0 (endless loop)"
  },
  {
   "property": "C50",
   "status": "proved",
   "theorems": [
    "PyTeN.C50_call",
    "PyTeN.C50_backtracking",
    "PyTeN.C50_positive",
    "PyTeN.C50_pick",
    "PyTeN.C50_violated_zero"
   ],
   "note": "gradient and state update are parameters; the excluded case of two vanishing norms raises UnboundLocalError"
  },
  {
   "property": "C51",
   "status": "proved",
   "theorems": [
    "PyTeN.C51_restart",
    "PyTeN.C51_history",
    "PyTeN.C51_violated_stdereset"
   ],
   "note": "positive norms; for stdereset=0 the code raises UnboundLocalError, which is proved as well"
  },
  {
   "property": "C52",
   "status": "partial",
   "theorems": [
    "PyTeN.C52_run",
    "PyTeN.C52_total",
    "PyTeN.C52_pairs",
    "PyTeN.C52_variational",
    "PyTeN.C52_exact",
    "PyTeN.C52_lanczos",
    "PyTeN.C52_violated_ncv",
    "PyTeN.C52_violated_index",
    "PyTeN.C52_violated_converged"
   ],
   "note": "the solver makes up to ncv+1 steps; the flag converged may be set far from convergence; everything else proved for every symmetric operator, start vector and parameters; np.linalg.eigh is a parameter; exact arithmetic"
  },
  {
   "property": "C53",
   "status": "partial",
   "theorems": [
    "PyTeN.C53_pair_partial",
    "PyTeN.C53_violated_factor",
    "PyTeN.C53_violated_labels"
   ],
   "note": "the code violates the property for four operators (twice the expansion)"
  },
  {
   "property": "C54",
   "status": "partial",
   "theorems": [
    "PyTeN.C54_args",
    "PyTeN.C54_time_partial",
    "PyTeN.C54_total",
    "PyTeN.C54_violated_flag",
    "PyTeN.C54_violated_one",
    "PyTeN.C54_violated_nilpotent",
    "PyTeN.C54_violated_m1"
   ],
   "note": "arguments, monotone advance, stopping and termination proved for every linear operator; the flag is wrong when the last allowed step completes the time or mxstep=0; accepted arguments may raise OverflowError or (m=1) ZeroDivisionError; n=1 is always rejected; exact arithmetic with the machine epsilon and scipy.linalg.expm as parameters"
  },
  {
   "property": "C55",
   "status": "proved",
   "theorems": [
    "PyTeN.C55_pseudo",
    "PyTeN.C55_oneMinus",
    "PyTeN.C55_consistent",
    "PyTeN.C55_annihilates",
    "PyTeN.C55_solution",
    "PyTeN.C55_telescopes",
    "PyTeN.C55_single_pseudo",
    "PyTeN.C55_single_oneMinus"
   ],
   "note": "exact arithmetic; numpy broadcasting of length-one arrays is not modelled"
  },
  {
   "property": "C56",
   "status": "partial",
   "theorems": [
    "PyTeN.C56_right",
    "PyTeN.C56_left",
    "PyTeN.C56_compose",
    "PyTeN.C56_adjoint",
    "PyTeN.C56_rejects",
    "PyTeN.C56_deprecated",
    "PyTeN.C56_violated"
   ],
   "note": "proved for UnitcellTransferOperator; MixedUnitcellTransferOperator raises NameError always, and single-site MPS objects raise UnboundLocalError or NameError"
  },
  {
   "property": "C57",
   "status": "partial",
   "theorems": [
    "PyTeN.C57_canonical",
    "PyTeN.C57_total",
    "PyTeN.C57_iff",
    "PyTeN.C57_object_partial",
    "PyTeN.C57_violated_centre",
    "PyTeN.C57_violated_rank"
   ],
   "note": "proved for open chains of tensors with minimal bonds; MPS.canonize ignores the centre matrix and divides by vanishing Schmidt values; the norm and the phase are dropped; the periodic branch is a parameter"
  },
  {
   "property": "C58",
   "status": "partial",
   "theorems": [
    "PyTeN.C58_exchange",
    "PyTeN.C58_shift",
    "PyTeN.C58_boundaries",
    "PyTeN.C58_total",
    "PyTeN.C58_dim",
    "PyTeN.C58_violated_odd"
   ],
   "note": "proved for even unit cells; false for odd ones; the regauging branch is treated in C86; np.linalg.pinv is a parameter with A P A = A"
  },
  {
   "property": "C59",
   "status": "partial",
   "theorems": [
    "PyTeN.C59_prepareTruncate_right",
    "PyTeN.C59_prepareTruncate_left",
    "PyTeN.C59_prepareTruncate_keeps_one",
    "PyTeN.C59_prepareTruncate_violated_large_thresh"
   ],
   "note": "all clauses proved except: a threshold above the norm keeps nothing (violation)"
  },
  {
   "property": "C60",
   "status": "partial",
   "theorems": [
    "PyTeN.C60_finegrain_partial",
    "PyTeN.C60_split",
    "PyTeN.C60_finegrain_iff",
    "PyTeN.C60_finegrain_violated"
   ],
   "note": "state and norm preserved whenever it succeeds; the code violates the domain claim: succeeds exactly when all bonds are equal"
  },
  {
   "property": "C61",
   "status": "partial",
   "theorems": [
    "PyTeN.C61_measure_partial",
    "PyTeN.C61_measure_succeeds",
    "PyTeN.C61_measure_unsorted",
    "PyTeN.C61_measure_violated",
    "PyTeN.C61_measure_violated_odd",
    "PyTeN.C61_measure_violated_repeat"
   ],
   "note": "proved without strings, for an even number of operators and for strings starting on site 0; the code violates the claim for an odd number of operators with strings (wrong value, IndexError) and for repeated sites near the end of the chain"
  },
  {
   "property": "C62",
   "status": "partial",
   "theorems": [
    "PyTeN.C62_conj_violated"
   ],
   "note": "the code violates the property: every variant raises"
  },
  {
   "property": "C63",
   "status": "partial",
   "theorems": [
    "PyTeN.C63_real_partial",
    "PyTeN.C63_real_violated"
   ],
   "note": "the code violates the property for complex states; proved for real data"
  },
  {
   "property": "C64",
   "status": "partial",
   "theorems": [
    "PyTeN.C64_matrixElementLocal",
    "PyTeN.C64_matrixElementLocal_succeeds",
    "PyTeN.C64_matrixElementLocal_rejects",
    "PyTeN.C64_matrixElements_partial",
    "PyTeN.C64_matrixElements_violated",
    "PyTeN.C64_public_returns_nothing"
   ],
   "note": "matrixElementLocal proved; the MPS method drops Z1*conj(Z2) and its public wrapper returns None"
  },
  {
   "property": "C65",
   "status": "proved",
   "theorems": [
    "PyTeN.C65_measure"
   ],
   "note": "boundaries with MPO bond dimension one"
  },
  {
   "property": "C66",
   "status": "partial",
   "theorems": [
    "PyTeN.C66_partial",
    "PyTeN.C66_violated"
   ],
   "note": "true if an updated site is left by a move that absorbs it into an environment; false otherwise"
  },
  {
   "property": "C67",
   "status": "proved",
   "theorems": [
    "PyTeN.C67_dmrg_total",
    "PyTeN.C67_case"
   ],
   "note": "open boundaries"
  },
  {
   "property": "C68",
   "status": "partial",
   "theorems": [
    "PyTeN.C68_checkpoint_content",
    "PyTeN.C68_counter_violated",
    "PyTeN.C68_tdvp_content",
    "PyTeN.C68_tdvp_counter_violated"
   ],
   "note": "the stored state and time are the ones after complete steps, and continuing a TDVP run from it gives the engine of the uninterrupted run; the stored iteration counter is one too small (violation)"
  },
  {
   "property": "C69",
   "status": "proved",
   "theorems": [
    "PyTeN.C69_progress",
    "PyTeN.C69_exact"
   ],
   "note": ""
  },
  {
   "property": "C70",
   "status": "proved",
   "theorems": [
    "PyTeN.C70_initializeTDVP",
    "PyTeN.C70_progress"
   ],
   "note": ""
  },
  {
   "property": "C71",
   "status": "proved",
   "theorems": [
    "PyTeN.C71_jess"
   ],
   "note": ""
  },
  {
   "property": "C72",
   "status": "partial",
   "theorems": [
    "PyTeN.C72_tfi2_open_violated"
   ],
   "note": "the code violates the property: AttributeError for all couplings"
  },
  {
   "property": "C73",
   "status": "proved",
   "theorems": [
    "PyTeN.C73_tebd_mpo"
   ],
   "note": "expm = Mathlib's matrix exponential; N>=3 as in the statement"
  },
  {
   "property": "C74",
   "status": "proved",
   "theorems": [
    "PyTeN.C74_unitary",
    "PyTeN.C74_tfi",
    "PyTeN.C74_xxz"
   ],
   "note": ""
  },
  {
   "property": "C75",
   "status": "proved",
   "theorems": [
    "PyTeN.C75_hermitian"
   ],
   "note": ""
  },
  {
   "property": "C76",
   "status": "partial",
   "theorems": [
    "PyTeN.C76_momentum_partial",
    "PyTeN.C76_violated_negative"
   ],
   "note": "the code treats every negative momentum like zero momentum"
  },
  {
   "property": "C77",
   "status": "partial",
   "theorems": [
    "PyTeN.C77_exact_partial",
    "PyTeN.C77_norm_partial",
    "PyTeN.C77_error_partial",
    "PyTeN.C77_energy_partial",
    "PyTeN.C77_violated_energy",
    "PyTeN.C77_violated_scale",
    "PyTeN.C77_violated_cut",
    "PyTeN.C77_violated_real"
   ],
   "note": "proved for the normalised state when at most ncv vectors are built; the norm of the input is lost, the last of ncv+1 vectors is left out, which also changes the energy, and a real dt drops the imaginary part of the state; scipy.linalg.expm and np.linalg.eigh are parameters; exact arithmetic"
  },
  {
   "property": "C78",
   "status": "proved",
   "theorems": [
    "PyTeN.C78_exact"
   ],
   "note": ""
  },
  {
   "property": "C79",
   "status": "partial",
   "theorems": [
    "PyTeN.C79_ivp_site",
    "PyTeN.C79_ivp_bond",
    "PyTeN.C79_lan_site",
    "PyTeN.C79_lan_bond",
    "PyTeN.C79_sexpmv_site",
    "PyTeN.C79_sexpmv_bond",
    "PyTeN.C79_ivp_backwards",
    "PyTeN.C79_violated_ivp"
   ],
   "note": "LAN: proved for imaginary dt and at most krylov_dim entries, up to |dt|*delta; SEXPMV: proved for all tau on invariant subspaces of dimension at most min(20,n-1); the solve_ivp methods apply exp(-dt*H), the opposite direction of time; solve_ivp is a parameter without integration error; exact arithmetic, complex dtype"
  },
  {
   "property": "C80",
   "status": "partial",
   "theorems": [
    "PyTeN.C80_energy",
    "PyTeN.C80_lan",
    "PyTeN.C80_ivp",
    "PyTeN.C80_violated_lan"
   ],
   "note": "proved with integrators that conserve the energy of their local problem; this is shown for the Lanczos integrator when the tensors have at most krylov_dim entries and for an exact solve_ivp, and not for SEXPMV; with larger tensors LAN changes the energy, shown by a run from energy 0 to 8/5; bonds must not exceed what the neighbouring legs allow; exact arithmetic"
  },
  {
   "property": "C81",
   "status": "proved",
   "theorems": [
    "PyTeN.C81_descent",
    "PyTeN.C81_simulation"
   ],
   "note": "exact arithmetic; the contracts of the scipy solvers and of eigh are parameters; for AR one vector and local dimensions of at least two"
  },
  {
   "property": "C82",
   "status": "partial",
   "theorems": [
    "PyTeN.Sparse.C82_ground",
    "PyTeN.Sparse.C82_several_partial",
    "PyTeN.Sparse.C82_lobpcg",
    "PyTeN.Sparse.C82_violated_same",
    "PyTeN.Sparse.C82_violated_degenerate",
    "PyTeN.Sparse.C82_violated_more",
    "PyTeN.Sparse.C82_violated_lobpcg"
   ],
   "note": "violated: for a degenerate eigenvalue eigsh returns the same eigenvector several times, more vectors than computed give an AttributeError, and lobpcg raises a NameError for more than one vector; orthogonality proved without degeneracy"
  },
  {
   "property": "C83",
   "status": "proved",
   "theorems": [
    "PyTeN.C83_two_site",
    "PyTeN.C83_fresh",
    "PyTeN.C83_after_single",
    "PyTeN.C83_one_site",
    "PyTeN.C83_solver",
    "PyTeN.C83_cp"
   ],
   "note": "for engines whose centre is at most at site 2 and whose caches are up to date there, as after construction, simulate or simulateTwoSite; exact arithmetic"
  },
  {
   "property": "C84",
   "status": "proved",
   "theorems": [
    "PyTeN.C84_energy",
    "PyTeN.C84_truncation"
   ],
   "note": "exact arithmetic; steps that keep no singular value are excluded by hypothesis, see C85; the eigensolver is a parameter that must not raise the energy of its local problem, which C81 proves for the solvers of the library"
  },
  {
   "property": "C85",
   "status": "proved",
   "theorems": [
    "PyTeN.C85_total",
    "PyTeN.C85_simulation"
   ],
   "note": "exact arithmetic; for AR fewer than four vectors and local dimensions of at least two"
  },
  {
   "property": "C86",
   "status": "partial",
   "theorems": [
    "PyTeN.Idmrg.C86_right_total",
    "PyTeN.Idmrg.C86_right_partial",
    "PyTeN.Idmrg.C86_violated_left",
    "PyTeN.Idmrg.C86_violated_obc"
   ],
   "note": "violated: with the centre matrix in the left half of the cell getBoundaryHams returns four values where six are unpacked, so the constructor raises a ValueError, and regauging an open chain never succeeds; proved for centres in the right half, with the numerical kernels (transfer matrix eigensolver, GMRES) as parameters"
  },
  {
   "property": "C87",
   "status": "proved",
   "theorems": [
    "PyTeN.Idmrg.C87_course",
    "PyTeN.Idmrg.C87_course_two",
    "PyTeN.Idmrg.C87_fuel",
    "PyTeN.Idmrg.C87_regaugestep",
    "PyTeN.Idmrg.C87_growth_two",
    "PyTeN.Idmrg.C87_growth"
   ],
   "note": "even cells; the chain is described up to the first regauging pass, and from one to the next in C90; exact arithmetic"
  },
  {
   "property": "C88",
   "status": "partial",
   "theorems": [
    "PyTeN.Idmrg.C88_energy_two",
    "PyTeN.Idmrg.C88_energy_one"
   ],
   "note": "two-site simulation for all even cells, single-site simulation for cells of two sites only: for larger cells the optimised tensor that enters the left boundary is not orthonormal; passes before the first regauging (after it: C90); steps that keep no singular value are excluded by hypothesis, which C89 discharges"
  },
  {
   "property": "C89",
   "status": "partial",
   "theorems": [
    "PyTeN.Idmrg.C89_total",
    "PyTeN.Idmrg.C89_total_product",
    "PyTeN.Idmrg.C89_update_total"
   ],
   "note": "without regauging (with it: C90) and for cells whose halves have the same product of local dimensions; a NaN remains possible exactly when a cell repeated with its connector vanishes, which is excluded for bond dimension one; the single-site simulation is not covered"
  },
  {
   "property": "C90",
   "status": "partial",
   "theorems": [
    "PyTeN.Idmrg.C90_regauge",
    "PyTeN.Idmrg.C90_same_state",
    "PyTeN.Idmrg.C90_pass",
    "PyTeN.Idmrg.C90_total",
    "PyTeN.Idmrg.C90_growth_two",
    "PyTeN.Idmrg.C90_growth_one",
    "PyTeN.Idmrg.C90_energy_two",
    "PyTeN.Idmrg.C90_run_total",
    "PyTeN.Idmrg.C90_run_product"
   ],
   "note": "regaugeIMPS and the steady-state solvers are parameters; their contracts (exact symmetric gauge, shapes, Hermitian rows between steady-state environments) are hypotheses, the first of which C91_kernel proves for regaugeIMPS; energies after regauging and success for the two-site simulation only; open chains always fail (C86_violated_obc)"
  },
  {
   "property": "C91",
   "status": "partial",
   "theorems": [
    "PyTeN.Regauge.C91_left",
    "PyTeN.Regauge.C91_right",
    "PyTeN.Regauge.C91_symmetric",
    "PyTeN.Regauge.C91_total",
    "PyTeN.Regauge.C91_arguments",
    "PyTeN.Regauge.C91_kernel",
    "PyTeN.Regauge.C91_truncated",
    "PyTeN.Regauge.C91_truncated_total",
    "PyTeN.Regauge.C91_bonds",
    "PyTeN.Regauge.C91_violated_one",
    "PyTeN.Regauge.C91_violated_identity",
    "PyTeN.Regauge.C91_violated_product"
   ],
   "note": "violated in three places: with truncate>1e-15 and D<=1 a symmetric call never returns; for one state on the outer bond every gauge raises TypeError (scipy refuses one-dimensional operators), and the matrix returned for left and right is 11/sqrt(D), not the identity; proved otherwise for cells with a simple leading eigenvalue and fixed points whose eigenvalues exceed pinv; with truncate>1e-15 the result is proved to be the symmetric gauge of the cell projected by isometries onto the kept Schmidt states of the outer bond, provided that the projected cell is again normal, and no bond exceeds D; that the cuts are optimal is not proved; exact arithmetic"
  },
  {
   "property": "C92",
   "status": "partial",
   "theorems": [
    "PyTeN.Steady.C92_left",
    "PyTeN.Steady.C92_right",
    "PyTeN.Steady.C92_total_left",
    "PyTeN.Steady.C92_total_right",
    "PyTeN.Steady.C92_fixed_point_left_partial",
    "PyTeN.Steady.C92_fixed_point_right_partial",
    "PyTeN.Steady.C92_density_right",
    "PyTeN.Steady.C92_density_left",
    "PyTeN.Steady.C92_eigs",
    "PyTeN.Steady.C92_boundary_left",
    "PyTeN.Steady.C92_boundary_right",
    "PyTeN.Steady.C92_boundary_left_total",
    "PyTeN.Steady.C92_boundary_right_total",
    "PyTeN.Steady.C92_shape",
    "PyTeN.Steady.C92_kernel",
    "PyTeN.Steady.C92_violated_onsite",
    "PyTeN.Steady.C92_violated_energy"
   ],
   "note": "violated in two places: the on-site term of the last (first) site of the cell is counted twice, in the number h and in the environment, and h is computed with the transposed density matrix; the exact values are proved in all cases, and the claim for symmetric density matrices without on-site term on that site; nearest-neighbour operators only; the iterative solvers are parameters with contracts; exact arithmetic"
  },
  {
   "property": "C93",
   "status": "partial",
   "theorems": [
    "PyTeN.Boson.C93_phi1",
    "PyTeN.Boson.C93_phi2",
    "PyTeN.Boson.C93_phi3",
    "PyTeN.Boson.C93_phi4",
    "PyTeN.Boson.C93_two_site",
    "PyTeN.Boson.C93_ends",
    "PyTeN.Boson.C93_quartic",
    "PyTeN.Boson.C93_errors",
    "PyTeN.Boson.C93_violated_quartic"
   ],
   "note": "violated: PhiFourmpo has twice the quartic coupling of the other variants; the operator of every builder is proved, variants 2 to 4 agree up to terms at the two ends; open boundaries; exact arithmetic"
  },
  {
   "property": "C94",
   "status": "partial",
   "theorems": [
    "PyTeN.Boson.C94_ll0",
    "PyTeN.Boson.C94_ll1",
    "PyTeN.Boson.C94_ll2",
    "PyTeN.Boson.C94_ll3",
    "PyTeN.Boson.C94_ends",
    "PyTeN.Boson.C94_proj",
    "PyTeN.Boson.C94_proj_unclosed",
    "PyTeN.Boson.C94_proj2",
    "PyTeN.Boson.C94_homog",
    "PyTeN.Boson.C94_local",
    "PyTeN.Boson.C94_bonds",
    "PyTeN.Boson.C94_violated_ends"
   ],
   "note": "violated: projectedLiebLinigermpo with open boundaries halves the chemical potential at the two ends, projectedLiebLinigermpo2 does not, and raises UnboundLocalError without open boundaries; the operator of every builder is proved; exact arithmetic"
  },
  {
   "property": "C95",
   "status": "partial",
   "theorems": [
    "PyTeN.Boson.C95_edens",
    "PyTeN.Boson.C95_errors",
    "PyTeN.Boson.C95_violated"
   ],
   "note": "violated: LiebLinigerEdens returns N+1 tensors instead of N and contains one direction of the hopping only, so that it is not Hermitian; what it does return is proved for every site; exact arithmetic"
  },
  {
   "property": "C96",
   "status": "partial",
   "theorems": [
    "PyTeN.Boson.C96_unitcell",
    "PyTeN.Boson.C96_unitcell_short",
    "PyTeN.Boson.C96_proj_unitcell",
    "PyTeN.Boson.C96_grid",
    "PyTeN.Boson.C96_grid_obc",
    "PyTeN.Boson.C96_uniform",
    "PyTeN.Boson.C96_one_site",
    "PyTeN.Boson.C96_violated_unitcell",
    "PyTeN.Boson.C96_violated_grid"
   ],
   "note": "violated: UnitcellExLiebLinigermpo uses the chemical potential of site N-2 at the joint of the cells, and projectedLiebLinigermpo3 with open boundaries uses spacings of other sites; proved for projectedUnitcellExLiebLinigermpo, for projectedLiebLinigermpo3 without open boundaries and on uniform grids; exact arithmetic"
  },
  {
   "property": "C97",
   "status": "partial",
   "theorems": [
    "PyTeN.Periodic.C97_matvec",
    "PyTeN.Periodic.C97_gram",
    "PyTeN.Periodic.C97_energy",
    "PyTeN.Periodic.C97_bond",
    "PyTeN.Periodic.C97_checkH",
    "PyTeN.Periodic.C97_henv",
    "PyTeN.Periodic.C97_constructor",
    "PyTeN.Periodic.C97_violated_three",
    "PyTeN.Periodic.C97_violated_checkH",
    "PyTeN.Periodic.C97_violated_methods",
    "PyTeN.Periodic.C97_violated_methods_any"
   ],
   "note": "violated: on three sites empty_pow(0) returns one transfer matrix instead of the identity, checkH(2) is zero, gradient_optimize reads gradmps before assignment and simulateVUMPS calls matvec with six arguments; for four or more sites the effective operators are proved to be those of the ring; exact arithmetic"
  },
  {
   "property": "C98",
   "status": "partial",
   "theorems": [
    "PyTeN.Vumps.C98_init",
    "PyTeN.Vumps.C98_init_raises",
    "PyTeN.Vumps.C98_regauge_left",
    "PyTeN.Vumps.C98_regauge_right",
    "PyTeN.Vumps.C98_environments",
    "PyTeN.Vumps.C98_ground",
    "PyTeN.Vumps.C98_lanczos",
    "PyTeN.Vumps.C98_step_total",
    "PyTeN.Vumps.C98_step_total_lanczos",
    "PyTeN.Vumps.C98_isometric",
    "PyTeN.Vumps.C98_closest",
    "PyTeN.Vumps.C98_gradient",
    "PyTeN.Vumps.C98_norms",
    "PyTeN.Vumps.C98_simulate",
    "PyTeN.Vumps.C98_again",
    "PyTeN.Vumps.C98_first",
    "PyTeN.Vumps.C98_run",
    "PyTeN.Vumps.C98_solver",
    "PyTeN.Vumps.C98_tfi",
    "PyTeN.Vumps.C98_xxz",
    "PyTeN.Vumps.C98_violated_gap",
    "PyTeN.Vumps.C98_violated_two"
   ],
   "note": "violated: arnumvecs>1 always raises with the default solver, and numeig=3, the default, is refused by scipy for bond dimension 2; everything else is proved for exact solvers, the environments from the second step on under the hypothesis that the isometric tensors are normal"
  },
  {
   "property": "C99",
   "status": "partial",
   "theorems": [
    "PyTeN.C99_qr",
    "PyTeN.C99_qr_total",
    "PyTeN.C99_qr_raises",
    "PyTeN.C99_svd",
    "PyTeN.C99_svd_total",
    "PyTeN.C99_svd_raises",
    "PyTeN.C99_truncate",
    "PyTeN.C99_truncate_exact",
    "PyTeN.C99_truncate_total",
    "PyTeN.C99_truncate_error",
    "PyTeN.C99_truncate_returns",
    "PyTeN.C99_phase_left",
    "PyTeN.C99_phase_right",
    "PyTeN.C99_violated_partial",
    "PyTeN.C99_violated_truncate",
    "PyTeN.C99_violated_phase"
   ],
   "note": "violated: a run that stops before the end of the list divides the state by the norm of the returned matrix although the documentation says it is not altered; truncateMPS loses a right boundary dimension above 1; fixphase with direction>0 does not make the diagonal of u real; the rest is proved for every exact qr and svd"
  }
 ]
}