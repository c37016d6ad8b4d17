{
 "claims": [
  {
   "property": "C01",
   "status": "proved",
   "theorems": [
    "Verif.C01_roundtrip",
    "Verif.C01_injective",
    "Verif.C01_fits",
    "Verif.C01_surjective",
    "Verif.C01_order",
    "Verif.C01_parity",
    "Verif.C01_parity_obj",
    "Verif.C01_collision_out_of_range"
   ],
   "note": "Full range; also bijection onto [0, 2^31) and a collision witness outside the range."
  },
  {
   "property": "C02",
   "status": "proved",
   "theorems": [
    "Verif.C02_add_assoc",
    "Verif.C02_add_comm",
    "Verif.C02_zero_add",
    "Verif.C02_neg_add",
    "Verif.C02_sub_eq",
    "Verif.C02_add_sub_cancel",
    "Verif.C02_transpose_law",
    "Verif.C02_parity_add",
    "Verif.C02_pg_closed",
    "Verif.C02_beq_iff",
    "Verif.C02_hash",
    "Verif.C02_lt_iff",
    "Verif.C02_lt_irrefl",
    "Verif.C02_lt_trans",
    "Verif.C02_lt_total"
   ],
   "note": "Group laws for arbitrary labels; order and hash laws."
  },
  {
   "property": "C03",
   "status": "proved",
   "theorems": [
    "Verif.C03_U1_roundtrip",
    "Verif.C03_U1_flip",
    "Verif.C03_U1_parity",
    "Verif.C03_U1_fits",
    "Verif.C03_Zm_roundtrip",
    "Verif.C03_Zm_flip",
    "Verif.C03_Zm_parity",
    "Verif.C03_Zm_eq_iff",
    "Verif.C03_Zm_ops",
    "Verif.C03_U11_roundtrip",
    "Verif.C03_U11_flip",
    "Verif.C03_U11_parity",
    "Verif.C03_U11_fits",
    "Verif.C03_Z22_roundtrip",
    "Verif.C03_Z22_flip",
    "Verif.C03_Z22_parity",
    "Verif.C03_Z22_ops"
   ],
   "note": "All five classes; Z2 and Z4 through one model with the modulus as parameter."
  },
  {
   "property": "C04",
   "status": "proved",
   "theorems": [
    "Verif.C04_U1",
    "Verif.C04_Zm",
    "Verif.C04_U11",
    "Verif.C04_Z22",
    "Verif.C04_U1_value"
   ],
   "note": "Object path and packed path of _compute for all five classes. Fixed-width integers not modelled."
  },
  {
   "property": "C05",
   "status": "proved",
   "theorems": [
    "Verif.C05_count",
    "Verif.C05_dim",
    "Verif.C05_wf"
   ],
   "note": "Nested loop of tensor_product against the sum over pairs; multiplicities are unbounded naturals."
  },
  {
   "property": "C06",
   "status": "proved",
   "theorems": [
    "Verif.C06_inter",
    "Verif.C06_union",
    "Verif.C06_add",
    "Verif.C06_filter_get",
    "Verif.C06_filter",
    "Verif.C06_wf",
    "Verif.C06_filter_idem",
    "Verif.C06_filter_le",
    "Verif.C06_neg_count",
    "Verif.C06_neg_neg"
   ],
   "note": "CPython Counter operators modelled; negKeys and filter included."
  },
  {
   "property": "C07",
   "status": "proved",
   "theorems": [
    "Verif.C07_fits",
    "Verif.C07_keys",
    "Verif.C07_positive",
    "Verif.C07_le_ref",
    "Verif.C07_share",
    "Verif.C07_overshoot",
    "Verif.C07_sector_can_grow",
    "Verif.C07_noKeep"
   ],
   "note": "Exact rational ceiling instead of float; the sector-can-grow violation is a concrete witness."
  },
  {
   "property": "C08",
   "status": "proved",
   "theorems": [
    "Verif.C08_tiles",
    "Verif.C08_entries",
    "Verif.C08_dim",
    "Verif.C08_total"
   ],
   "note": "Loop invariant: windows tile each fused sector."
  },
  {
   "property": "C09",
   "status": "proved",
   "theorems": [
    "Verif.C09_tiles",
    "Verif.C09_entries",
    "Verif.C09_reject_iff",
    "Verif.C09_symmetry"
   ],
   "note": "kron_sum including the failing assert, and get_symmetry_fusing_info."
  },
  {
   "property": "C10",
   "status": "proved",
   "theorems": [
    "Verif.C10_skeleton_blocks",
    "Verif.C10_skeleton_nodup",
    "Verif.C10_skeleton_total",
    "Verif.C10_zeros"
   ],
   "note": "Ranks >= 2. np.nditer on an empty bond raises: modelled as none."
  },
  {
   "property": "C11",
   "status": "proved",
   "theorems": [
    "Verif.C11_add",
    "Verif.C11_subtract",
    "Verif.C11_smul",
    "Verif.C11_neg",
    "Verif.C11_duplicate_label_lost"
   ],
   "note": "Only the left operand needs unique labels; witness that duplicates in the left operand lose data."
  },
  {
   "property": "C12",
   "status": "proved",
   "theorems": [
    "Verif.C12_tensordot",
    "Verif.C12_tensordot_int",
    "Verif.C12_reject"
   ],
   "note": "Axis lists with negative axes and integer axes; dense sum over all basis vectors of the contracted legs."
  },
  {
   "property": "C13",
   "status": "proved",
   "theorems": [
    "Verif.C13_charge"
   ],
   "note": "Label level, any abelian group, any axes."
  },
  {
   "property": "C14",
   "status": "proved",
   "theorems": [
    "Verif.C14_entry",
    "Verif.C14_conforms",
    "Verif.C14_compose",
    "Verif.C14_inverse",
    "Verif.C14_default"
   ],
   "note": "Entry formula, composition, inverse, default reversal."
  },
  {
   "property": "C15",
   "status": "proved",
   "theorems": [
    "Verif.C15_good_tensorProduct",
    "Verif.C15_good_kronSum",
    "Verif.C15_fuse",
    "Verif.C15_unfuse",
    "Verif.C15_roundtrip",
    "Verif.C15_roundtrip_minimal",
    "Verif.C15_roundtrip_complete"
   ],
   "note": "Any distinct legs in any order; tables built by the library are shown good; round trip for minimal and complete tables. Blocks whose fused label is missing from the table are dropped by the code: Covers speaks only about labels in the table."
  },
  {
   "property": "C16",
   "status": "proved",
   "theorems": [
    "Verif.C16_roundtrip",
    "Verif.C16_roundtrip_SZ",
    "Verif.C16_offset",
    "Verif.C16_flat_roundtrip"
   ],
   "note": "Any packing invertible on the labels that occur; instance for SZ in range."
  },
  {
   "property": "C17",
   "status": "proved",
   "theorems": [
    "Verif.C17_add",
    "Verif.C17_subtract",
    "Verif.C17_same_blocks"
   ],
   "note": "Duplicate labels allowed for the entry statements; block-for-block agreement with unique labels."
  },
  {
   "property": "C18",
   "status": "proved",
   "theorems": [
    "Verif.C18_operators",
    "Verif.C18_amplitudes",
    "Verif.C18_bonds",
    "Verif.C18_well_defined",
    "Verif.C18_edge_dropped"
   ],
   "note": "MPS._add with SparseTensor._kron_add and infos: amplitudes add (all branches, incl. one site and tensors without blocks), bonds add, amplitude independent of the chosen bonds; C18_operators: the same for operators; C18_edge_dropped shows that a second state with another outer label is lost without an error."
  },
  {
   "property": "C19",
   "status": "proved",
   "theorems": [
    "Verif.C19_operators_scale",
    "Verif.C19_scale",
    "Verif.C19_divide",
    "Verif.C19_any_site",
    "Verif.C19_neg",
    "Verif.C19_sub",
    "Verif.C19_number",
    "Verif.C19_number_sub",
    "Verif.C19_conj"
   ],
   "note": "Multiplication/division by numbers, negation, subtraction, conjugation, shifts; C19_any_site: any site can absorb the factor; C19_operators_scale for operators."
  },
  {
   "property": "C20",
   "status": "proved",
   "theorems": [
    "Verif.C20_mul_tensors",
    "Verif.C20_mul",
    "Verif.C20_mul_const_lost",
    "Verif.C20_dot",
    "Verif.C20_dot_no_sites",
    "Verif.C20_dot_const_lost",
    "Verif.C20_apply_tensors",
    "Verif.C20_apply",
    "Verif.C20_apply_const_lost",
    "Verif.C20_apply_state_const"
   ],
   "note": "MPS._dot and MPS._matmul for state.state, operator.state and operator.operator: C20_dot, C20_apply, C20_mul with constants, on chains of at least two sites with one label on each outer edge (trivial edges for operators with constants); the sign of fermions on the left edge of the second factor is part of the statement. C20_*_const_lost: violations (a tensor without blocks makes the code return 0 and drop the constants); C20_apply_state_const: a state with a constant raises."
  },
  {
   "property": "C21",
   "status": "proved",
   "theorems": [
    "Verif.C21_left",
    "Verif.C21_right",
    "Verif.C21_canonicalize",
    "Verif.C21_reject",
    "Verif.C21_contract",
    "Verif.C21_charge_needed"
   ],
   "note": "Left and right block QR: shapes, block labels, product of the factors, isometry; the whole sweep keeps edges, physical legs, constant and every amplitude and makes all tensors off the centre isometries. The dense QR enters by its contract, which is shown to be satisfiable over the reals and the complex numbers. Isometry needs tensors of definite charge (C21_charge_needed shows it fails otherwise)."
  },
  {
   "property": "C22",
   "status": "proved",
   "theorems": [
    "Verif.C22_truncate",
    "Verif.C22_product",
    "Verif.C22_distance",
    "Verif.C22_fermion_right",
    "Verif.C22_fermion_left"
   ],
   "note": "Singular values are elements of an ordered ring, the block-wise factors are given tensors. The violation (a budget below every weight drops everything; the operator version drops everything once one value exceeds the budget) is proved as part of the theorems."
  },
  {
   "property": "C23",
   "status": "proved",
   "theorems": [
    "Verif.Trim.C23_threshold",
    "Verif.Trim.C23_weight",
    "Verif.Trim.C23_reject",
    "Verif.Trim.C23_renorm",
    "Verif.Trim.C23_each_not_renormalised"
   ],
   "note": "argsort by contract (order of equal values arbitrary); powers and roots by contract; the documentation says 'sum < cutoff', the code uses '<='."
  },
  {
   "property": "C24",
   "status": "proved",
   "theorems": [
    "Verif.C24_left",
    "Verif.C24_right",
    "Verif.C24_sign",
    "Verif.C24_parity_only",
    "Verif.C24_graded_product"
   ],
   "note": "compute_phase of fermion.py, both directions. The sign specification counts pairs of odd legs whose order changes; C24_graded_product shows it is the sign of reordering a product in any graded-commutative ring."
  },
  {
   "property": "C25",
   "status": "proved",
   "theorems": [
    "Verif.C25_entry",
    "Verif.C25_conforms",
    "Verif.C25_compose",
    "Verif.C25_inverse",
    "Verif.C25_default"
   ],
   "note": "SparseFermionTensor._transpose, entrywise. DEFAULT_FERMION is taken True; the cached shape attribute is not modelled."
  },
  {
   "property": "C26",
   "status": "proved",
   "theorems": [
    "Verif.C26_tensordot",
    "Verif.C26_sign_mismatch",
    "Verif.C26_transpose_left",
    "Verif.C26_transpose_right",
    "Verif.C26_pair_order"
   ],
   "note": "SparseFermionTensor._tensordot_basic on legs with opposite signs (otherwise the code raises). The first operand must have a block because the rank is read off the blocks. The fused implementation (off by default) is not modelled."
  },
  {
   "property": "C27",
   "status": "proved",
   "theorems": [
    "Verif.C27_fermion",
    "Verif.C27_boson",
    "Verif.C27_sorted",
    "Verif.C27_stable",
    "Verif.C27_sum",
    "Verif.C27_even_operators_get_a_sign"
   ],
   "note": "C27_fermion and C27_boson: value kept in every ring with (anti)commuting operators on different sites. C27_sorted, C27_stable: result is the sorted stable permutation. C27_sum: whole sums. C27_even_operators_get_a_sign: the fermionic option ignores the kind of operator, so it is wrong for even operators (fidelity witness)."
  },
  {
   "property": "C28",
   "status": "proved",
   "theorems": [
    "Verif.C28_mul",
    "Verif.C28_mul_expressions",
    "Verif.C28_add",
    "Verif.C28_mul_defined",
    "Verif.C28_add_defined",
    "Verif.C28_neg",
    "Verif.C28_simplify",
    "Verif.C28_simplify_exact",
    "Verif.C28_placeholder_breaks_product"
   ],
   "note": "C28_mul, C28_add, C28_neg: evaluation is a homomorphism. C28_mul_defined, C28_add_defined: when the operations succeed. C28_simplify: exact effect of collecting terms. C28_placeholder_breaks_product: multiplying a sum by a number below the threshold leaves a number 0 in the list of strings, after which a product with a sum raises. Division is not modelled."
  },
  {
   "property": "C29",
   "status": "proved",
   "theorems": [
    "Verif.Hamiltonian.C29_roundtrip",
    "Verif.Hamiltonian.C29_injective",
    "Verif.Hamiltonian.C29_collision_at_limit",
    "Verif.Hamiltonian.C29_hamiltonian"
   ],
   "note": "C29_roundtrip, C29_injective: codes. C29_collision_at_limit: site 8192 collides, so the limit is sharp. C29_hamiltonian: value of the generated terms. int32 storage is not modelled (codes stay below 32768)."
  },
  {
   "property": "C30",
   "status": "proved",
   "theorems": [
    "Verif.Hamiltonian.C30_matmul",
    "Verif.Hamiltonian.C30_creation",
    "Verif.Hamiltonian.C30_annihilation",
    "Verif.Hamiltonian.C30_identity",
    "Verif.Hamiltonian.C30_onsite",
    "Verif.Hamiltonian.C30_anticommutator",
    "Verif.Hamiltonian.C30_anticommutator_cc",
    "Verif.Hamiltonian.C30_anticommutator_dd",
    "Verif.Hamiltonian.C30_number",
    "Verif.Hamiltonian.C30_pairs"
   ],
   "note": "Operators are built as in the code (zero skeleton, then assignments by last label) for every irrep. C30_creation, C30_annihilation, C30_identity, C30_onsite, C30_number: matrix elements, charge and parity. C30_anticommutator(_cc,_dd): computed with the library's matmul and add. C30_matmul: matmul is the matrix product. The composite operators R, P, Q and the flat storage are not modelled."
  },
  {
   "property": "C31",
   "status": "proved",
   "theorems": [
    "Verif.Fcidump.C31_h1e",
    "Verif.Fcidump.C31_g2e",
    "Verif.Fcidump.C31_total"
   ],
   "note": "Loops of parallelize for restricted and unrestricted integrals; fixed-width integer overflow of the compiled loops not modelled."
  },
  {
   "property": "C32",
   "status": "proved",
   "theorems": [
    "Verif.Fcidump.C32_read_restricted",
    "Verif.Fcidump.C32_read_unrestricted",
    "Verif.Fcidump.C32_roundtrip_restricted",
    "Verif.Fcidump.C32_roundtrip_unrestricted",
    "Verif.Fcidump.C32_unrestricted_write_fails",
    "Verif.Fcidump.C32_tgeneral_lost",
    "Verif.Fcidump.C32_line",
    "Verif.Fcidump.C32_line_limit"
   ],
   "note": "Reading for any order and repetition of lines; write-then-read round trip; text of a line. The header text parser and complex-valued files are not modelled; mu = 0."
  },
  {
   "property": "C33",
   "status": "proved",
   "theorems": [
    "Verif.Mpe.C33_fresh",
    "Verif.Mpe.C33_used",
    "Verif.Mpe.C33_state",
    "Verif.Mpe.C33_no_canon",
    "Verif.Mpe.C33_assign",
    "Verif.Mpe.C33_stale"
   ],
   "note": "Window-by-window histories and histories without canonicalisation; C33_stale is the witness that the unrestricted statement fails. build_envs_no_contract is not modelled."
  },
  {
   "property": "C34",
   "status": "proved",
   "theorems": [
    "Verif.Mpe.C34_holds",
    "Verif.Mpe.C34_names_once",
    "Verif.Mpe.C34_no_memory",
    "Verif.Mpe.C34_lost",
    "Verif.Mpe.C34_stale_sweep"
   ],
   "note": "Holds without overwriting of cached names, in particular for names saved once and for maxsize 0; C34_lost and C34_stale_sweep are the witnesses of the violation."
  },
  {
   "property": "C35",
   "status": "proved",
   "theorems": [
    "Verif.C35_residual",
    "Verif.C35_warning"
   ],
   "note": "C35_residual: for every return without the warning flag the true residual (recomputed from the returned vectors) is below the threshold for every state; it contains the invariant sigma = H b. C35_warning: the flag means the iterations ran out. The dense eigensolver, dot product, preconditioner and threshold are arbitrary parameters. Exact arithmetic."
  },
  {
   "property": "C36",
   "status": "proved",
   "theorems": [
    "Verif.C36_residual",
    "Verif.C36_residual_norm",
    "Verif.C36_raises_although_converged"
   ],
   "note": "C36_residual: whenever the solver returns, the (preconditioned) true residual is below the threshold. C36_raises_although_converged: the failure in the last permitted iteration. Exact arithmetic."
  },
  {
   "property": "C37",
   "status": "proved",
   "theorems": [
    "Verif.C37_rk4"
   ],
   "note": "C37_rk4: for all linear operators over any field of characteristic zero."
  },
  {
   "property": "C38",
   "status": "proved",
   "theorems": [
    "Verif.Einsum.C38_accepts",
    "Verif.Einsum.C38_value",
    "Verif.Einsum.C38_script",
    "Verif.Einsum.C38_implicit",
    "Verif.Einsum.C38_ellipsis",
    "Verif.Einsum.C38_separators"
   ],
   "note": "Acceptance characterised completely; value for any number of operands; reading of the text."
  },
  {
   "property": "C39",
   "status": "proved",
   "theorems": [
    "Verif.FuseMap.C39_labels",
    "Verif.FuseMap.C39_groups"
   ],
   "note": "Groups are exactly the connected components of the coupling relation; every label occurs in exactly one group."
  },
  {
   "property": "C40",
   "status": "proved",
   "theorems": [
    "Verif.FermiOps.C40_encodings",
    "Verif.FermiOps.C40_hubbard",
    "Verif.FermiOps.C40_hopping",
    "Verif.FermiOps.C40_creation",
    "Verif.FermiOps.C40_annihilation",
    "Verif.FermiOps.C40_creation_charge",
    "Verif.FermiOps.C40_hubbard_charge",
    "Verif.FermiOps.C40_z4_mixed",
    "Verif.FermiOps.C40_particle_number",
    "Verif.FermiOps.C40_diagonal",
    "Verif.FermiOps.C40_repeated_labels",
    "Verif.FermiOps.C40_alpha_beta_wrong",
    "Verif.FermiOps.C40_apply",
    "Verif.FermiOps.C40_hubbard_apply",
    "Verif.FermiOps.C40_vacuum"
   ],
   "note": "Proved for every faithful labelling and all five encodings, all ring parameters, all set iteration orders. Violations proved: Z4 charges (C40_z4_mixed), repeated labels of measure_SZ/onsite_U (C40_repeated_labels), ParticleNumberAlpha/Beta on the doubly occupied state (C40_alpha_beta_wrong)."
  },
  {
   "property": "C41",
   "status": "proved",
   "theorems": [
    "Verif.Constructor.C41_roundtrip",
    "Verif.Constructor.C41_vector",
    "Verif.Constructor.C41_size",
    "Verif.Constructor.C41_faithful",
    "Verif.Constructor.C41_dot",
    "Verif.Constructor.C41_sparse",
    "Verif.Constructor.C41_cache_collision",
    "Verif.Constructor.C41_one_leg"
   ],
   "note": "Constructor.from_bond_infos; sequences of calls with the cache; scalar product; cache collision and single-leg witnesses."
  },
  {
   "property": "C42",
   "status": "proved",
   "theorems": [
    "Verif.Dmrg.C42_padded",
    "Verif.Dmrg.C42_schedule",
    "Verif.Dmrg.C42_energy",
    "Verif.Dmrg.C42_stop",
    "Verif.Dmrg.C42_second_solve"
   ],
   "note": "Schedule, energies, stop rule; second call keeps the thresholds of the first."
  },
  {
   "property": "C43",
   "status": "proved",
   "theorems": [
    "Verif.Heisenberg.C43_raising",
    "Verif.Heisenberg.C43_lowering",
    "Verif.Heisenberg.C43_magnetic",
    "Verif.Heisenberg.C43_identity",
    "Verif.Heisenberg.C43_algebra",
    "Verif.Heisenberg.C43_matmul",
    "Verif.Heisenberg.C43_hamiltonian",
    "Verif.Heisenberg.C43_self_bond"
   ],
   "note": "Square root is any function squaring back on non-negative integers (real square root as instance). Library product shown for nonempty operators. Float rounding not modelled."
  },
  {
   "property": "C44",
   "status": "proved",
   "theorems": [
    "Verif.Gaussian.C44_each_once",
    "Verif.Gaussian.C44_order",
    "Verif.Gaussian.C44_terminates",
    "Verif.Gaussian.C44_cyclic_diverges",
    "Verif.Gaussian.C44_earliest",
    "Verif.Gaussian.C44_shared_input_fails"
   ],
   "note": "While loop with a turn counter; KeyError and divergence are outcomes. Witness for two gates sharing an input."
  },
  {
   "property": "C45",
   "status": "proved",
   "theorems": [
    "Verif.Symbolic.C45_table",
    "Verif.Symbolic.C45_sectors",
    "Verif.Symbolic.C45_injective",
    "Verif.Symbolic.C45_surjective",
    "Verif.Symbolic.C45_to_sparse"
   ],
   "note": "Table translation, sectors, injectivity, surjectivity and the value of to_sparse."
  },
  {
   "property": "C46",
   "status": "proved",
   "theorems": [
    "Verif.Gaussian.C46_restricted",
    "Verif.Gaussian.C46_unrestricted",
    "Verif.Gaussian.C46_closed_shell",
    "Verif.Gaussian.C46_general_difference",
    "Verif.Gaussian.C46_general_disagrees"
   ],
   "note": "einsum as finite sums over any field; general variant: exact difference and witness."
  },
  {
   "property": "C47",
   "status": "proved",
   "theorems": [
    "Verif.C47_transpose"
   ],
   "note": "Block for block."
  },
  {
   "property": "C48",
   "status": "proved",
   "theorems": [
    "Verif.C48_tensordot"
   ],
   "note": "Block for block; codes distinguished by unpacking."
  },
  {
   "property": "C49",
   "status": "proved",
   "theorems": [
    "Verif.C49_side_by_side",
    "Verif.C49_composition",
    "Verif.C49_associative",
    "Verif.C49_graded_law",
    "Verif.C49_different_sites",
    "Verif.C49_creation_anticommute",
    "Verif.C49_parity_needed",
    "Verif.C49_chain",
    "Verif.C49_chain_associative"
   ],
   "note": "shdot, composition, associativity, graded law, and commutation on different sites, with the aliasing of in-place negation modelled; parity condition shown necessary. Mixed operators with virtual legs (hdot with bond legs) not covered."
  },
  {
   "property": "C50",
   "status": "proved",
   "theorems": [
    "Verif.C50_left_svd",
    "Verif.C50_right_svd",
    "Verif.C50_compress",
    "Verif.C50_contract"
   ],
   "note": "compress reports the largest error of a bond; the squared distance is proved to lie between it and the number of bonds times it. QR and SVD by contract; the contracts are shown satisfiable over the reals and the complex numbers."
  },
  {
   "property": "C51",
   "status": "proved",
   "theorems": [
    "Verif.FermSplit.C51_qr",
    "Verif.FermSplit.C51_back",
    "Verif.FermSplit.C51_default",
    "Verif.FermSplit.C51_null",
    "Verif.FermSplit.C51_contract",
    "Verif.FermSplit.C51_null_order",
    "Verif.FermSplit.C51_svd",
    "Verif.FermSplit.C51_distance",
    "Verif.FermSplit.C51_exact",
    "Verif.FermSplit.C51_lossless",
    "Verif.FermSplit.C51_error"
   ],
   "note": "sparse_svd and sparse_qr for all valid tensors and bipartitions; QR and SVD by contract (shown satisfiable over the reals and complex numbers in C51_contract). C51_null_order shows that the leg order is ignored with all legs on one side."
  },
  {
   "property": "C52",
   "status": "proved",
   "theorems": [
    "Verif.BuildMpo.C52_build"
   ],
   "note": "Symbols before their replacement by matrices. SVD by contract; the thresholds 1E-12 and cutoff are idealised to zero. New symbols are named X; the expression must not contain a symbol of that name."
  },
  {
   "property": "C53",
   "status": "proved",
   "theorems": [
    "Verif.Hamiltonian.C53_build",
    "Verif.Hamiltonian.C53_hamiltonian"
   ],
   "note": "C53_hamiltonian: from integrals to block tensors; C53_build: any conserving sum of products. Exact arithmetic; the constant (core energy) is kept next to the tensors and is not part of the statement. For one orbital, empty products are excluded (the code raises on them)."
  },
  {
   "property": "C54",
   "status": "proved",
   "theorems": [
    "Verif.ConvMpo.C54_conventional",
    "Verif.ConvMpo.C54_symmetric",
    "Verif.ConvMpo.C54_agree",
    "Verif.ConvMpo.C54_ranks",
    "Verif.ConvMpo.C54_one_orbital"
   ],
   "note": "C54_conventional: any one-electron integrals, their symmetric part; C54_symmetric: symmetric ones; C54_agree: same matrix elements as build_mpo (C53); C54_ranks: the operators of the ranks add up; C54_one_orbital: fails for one orbital. Exact arithmetic; the constant is kept next to the tensors."
  },
  {
   "property": "C55",
   "status": "proved",
   "theorems": [
    "Verif.Hamiltonian.C55_apply",
    "Verif.Hamiltonian.C55_overlap",
    "Verif.Hamiltonian.C55_expect",
    "Verif.Hamiltonian.C55_powers",
    "Verif.Hamiltonian.C55_mul",
    "Verif.Hamiltonian.C55_energy"
   ],
   "note": "For two or more orbitals and states with bosonic blocks. When the product is the number 0 (no blocks remain) the theorem says H psi = 0; the constant times the state is then lost, see DESIGN.md."
  },
  {
   "property": "C56",
   "status": "proved",
   "theorems": [
    "Verif.SiteMpo.C56_site",
    "Verif.SiteMpo.C56_identity",
    "Verif.SiteMpo.C56_behind",
    "Verif.SiteMpo.C56_negative",
    "Verif.SiteMpo.C56_one_orbital",
    "Verif.SiteMpo.C56_inner",
    "Verif.SiteMpo.C56_density"
   ],
   "note": "Identity and site operators of any lattice with two or more orbitals, with their fermionic signs; inner products of states after such operators; density matrices; sites outside the lattice; one orbital."
  },
  {
   "property": "C57",
   "status": "proved",
   "theorems": [
    "Verif.C57_window",
    "Verif.C57_expectation",
    "Verif.C57_charged_whole",
    "Verif.C57_const_differs"
   ],
   "note": "windows of at least two sites; one-site windows and the product with a single tensor (used inside the local solver) are not part of this property"
  },
  {
   "property": "C58",
   "status": "proved",
   "theorems": [
    "Verif.C58_merge",
    "Verif.C58_product",
    "Verif.C58_window",
    "Verif.C58_expectation",
    "Verif.C58_zero_raises",
    "Verif.C58_three_sites"
   ],
   "note": "C58_merge, C58_product, C58_window (all bras and kets differing in the window only), C58_expectation for windows of one and two sites; violations C58_zero_raises and C58_three_sites. Environments and canonicalisation as in C57."
  },
  {
   "property": "C59",
   "status": "proved",
   "theorems": [
    "Verif.C59_metric",
    "Verif.C59_expectation",
    "Verif.C59_needs_canon"
   ],
   "note": "Contracts for QR: it factorises and has orthonormal columns (satisfiable over the reals and the complex numbers, C21_contract). The replaced tensors of a window must live on the bonds at its ends and have a definite charge each. Merged windows of one or two sites for the energy; inner products for windows of any length."
  },
  {
   "property": "C60",
   "status": "proved",
   "theorems": [
    "Verif.C60_ritz",
    "Verif.C60_not_below",
    "Verif.C60_not_above",
    "Verif.C60_ground",
    "Verif.C60_contract",
    "Verif.C60_returns"
   ],
   "note": "Returned values and vectors are a Ritz family whether or not the run converged; bounds from below (complement of j vectors) and from above (guesses). The dense eigensolver is a contract, shown to be satisfiable. Division by a zero norm is a failure of the model; C60_returns gives conditions under which it does not happen. Exact arithmetic."
  },
  {
   "property": "C61",
   "status": "proved",
   "theorems": [
    "Verif.TSvd.C61_decomposition",
    "Verif.TSvd.C61_rejects",
    "Verif.TSvd.C61_complex_violated"
   ],
   "note": "tensor_svd with any number of legs on both sides. C61_decomposition: result form, product (of the entries as cast into the real matrices), conservation, isometries, values. C61_rejects: wrong labels. C61_complex_violated: complex tensors lose the imaginary part."
  },
  {
   "property": "C62",
   "status": "proved",
   "theorems": [
    "Verif.Decomp.C62_left",
    "Verif.Decomp.C62_right",
    "Verif.Decomp.C62_exact",
    "Verif.Decomp.C62_noise_left"
   ],
   "note": "decomp_two_site with density matrices. C62_left, C62_right: isometry, projections, error = weighted square distance, optimality, bond dimension, exactness without cut. C62_exact: error 0 means equality. C62_noise_left: isometry and projection with any noise. Complex numbers are not covered (the matrices are real)."
  },
  {
   "property": "C63",
   "status": "proved",
   "theorems": [
    "Verif.C63_step",
    "Verif.C63_run",
    "Verif.C63_continue"
   ],
   "note": "Slow path of eigs (Davidson on MPS objects), real or complex numbers, one root. Vectors are the components of the merged tensor with an even number of fermionic labels. Where operator @ state raises because no blocks match, the map is taken as the constant. The theorem on whole calculations is for steps in which nothing is truncated; what truncation loses is C62."
  },
  {
   "property": "C64",
   "status": "proved",
   "theorems": [
    "Verif.C64_operator",
    "Verif.C64_equations",
    "Verif.C64_green"
   ],
   "note": "Local step of the solver; the sweep around it is not modelled. The product with the local operator is any linear map (symmetric for the bound)."
  },
  {
   "property": "C65",
   "status": "proved",
   "theorems": [
    "Verif.C65_step",
    "Verif.C65_intermediate",
    "Verif.C65_error",
    "Verif.C65_imaginary",
    "Verif.C65_substeps",
    "Verif.C65_real_time",
    "Verif.C65_limit_needed"
   ],
   "note": "Local step; C65_limit_needed shows that the energy can go up when the limit on the step is not met. The part of the state outside the blocks of the operator is left out."
  },
  {
   "property": "C66",
   "status": "proved",
   "theorems": [
    "Verif.C66_step",
    "Verif.C66_sweep",
    "Verif.C66_continue",
    "Verif.C66_constant_fails"
   ],
   "note": "Best approximation in each window, Pythagoras between norm and distance, monotone norms over whole sweeps; the constant of an operator is excluded, with a witness of what goes wrong. Truncation and noise are not covered."
  },
  {
   "property": "C67",
   "status": "proved",
   "theorems": [
    "Verif.C67_product",
    "Verif.C67_vector",
    "Verif.C67_green",
    "Verif.C67_dot",
    "Verif.C67_prepare",
    "Verif.C67_same_as_product",
    "Verif.C67_uncovered_lost",
    "Verif.C67_constant_misplaced"
   ],
   "note": "C67_product: prepare, product and finalize give the operator applied to the state, or the functor cannot be made and the product is zero; C67_vector: every vector; C67_green, C67_dot, C67_prepare; C67_same_as_product: agrees with the slow path of C58. Violations: C67_uncovered_lost, C67_constant_misplaced. MPI and diag() not modelled."
  },
  {
   "property": "C68",
   "status": "proved",
   "theorems": [
    "Verif.C68_fci",
    "Verif.C68_truncated",
    "Verif.C68_ready",
    "Verif.C68_ones",
    "Verif.C68_random",
    "Verif.C68_exact",
    "Verif.C68_unreachable"
   ],
   "note": "All statements proved. Exactness is over any field with exact arithmetic; numbers drawn by the random generator are an argument."
  },
  {
   "property": "C69",
   "status": "proved",
   "theorems": [
    "Verif.C69_left_qr",
    "Verif.C69_right_qr",
    "Verif.C69_left_svd",
    "Verif.C69_right_svd",
    "Verif.C69_same_entries",
    "Verif.C69_left_product",
    "Verif.C69_right_product",
    "Verif.C69_direct_sum",
    "Verif.C69_direct_sum_raises"
   ],
   "note": "All statements proved for the Python kernels. The C++ kernels are not modelled. left_svd is the form that returns all blocks."
  },
  {
   "property": "C70",
   "status": "proved",
   "theorems": [
    "Verif.Heisenberg.C70_mpo",
    "Verif.Heisenberg.C70_total_spin"
   ],
   "note": "Full statement for all spins, lattices and couplings; square roots enter through an arbitrary function (the total-spin theorem needs that it squares correctly). Singular values that are dropped are assumed zero."
  },
  {
   "property": "C71",
   "status": "proved",
   "theorems": [
    "Verif.Symbolic.C71_product",
    "Verif.Symbolic.C71_used",
    "Verif.Symbolic.C71_again",
    "Verif.Symbolic.C71_operator",
    "Verif.ConvMpo.C71_conventional"
   ],
   "note": "Model of simplify for vectors and matrices; the dictionary of site operators is folded into the entries. Theorems: product unchanged, no idle states, idempotent, same matrix elements of the block tensors, and for the conventional quantum-chemistry operator the Hamiltonian."
  },
  {
   "property": "C72",
   "status": "proved",
   "theorems": [
    "Verif.C72_amplitude",
    "Verif.C72_own",
    "Verif.C72_roundtrip",
    "Verif.C72_no_sites",
    "Verif.C72_own_shifts",
    "Verif.C72_missing"
   ],
   "note": "Amplitudes for every list of numbers, with the basis given or read off the tensors; refusal of all other lists; round trip of a tensor. Witnesses for an incomplete basis."
  },
  {
   "property": "C73",
   "status": "proved",
   "theorems": [
    "Verif.C73_trace",
    "Verif.C73_contract",
    "Verif.C73_pair_order",
    "Verif.C73_empty"
   ],
   "note": "Traced pairs must carry opposite signs and the tensor must have a block. Negative axes and the flat implementation are not modelled."
  },
  {
   "property": "C74",
   "status": "proved",
   "theorems": [
    "Verif.C74_bond",
    "Verif.C74_tensor",
    "Verif.C74_entries",
    "Verif.C74_charge",
    "Verif.C74_contract",
    "Verif.C74_state"
   ],
   "note": "Tensors on any legs, contraction, states and operators in matrix product form, for any map of labels. dtype and the attribute dq are not modelled."
  },
  {
   "property": "C75",
   "status": "proved",
   "theorems": [
    "Verif.C75_density",
    "Verif.C75_entropy",
    "Verif.C75_no_sites"
   ],
   "note": "Over the reals and the complex numbers. Entropy of the density matrix on both sides of every cut; nan for the zero state. QR and SVD by contract, sites are block-sparse tensors."
  },
  {
   "property": "C76",
   "status": "proved",
   "theorems": [
    "Verif.C76_add",
    "Verif.C76_subtract",
    "Verif.C76_sign_mismatch",
    "Verif.C76_number",
    "Verif.C76_transpose",
    "Verif.C76_contract_left",
    "Verif.C76_contract_right",
    "Verif.C76_trace",
    "Verif.C76_shape",
    "Verif.C76_add_shape",
    "Verif.C76_subtract_shape_wrong",
    "Verif.C76_flat_add",
    "Verif.C76_flat_subtract",
    "Verif.C76_flat_sign_mismatch",
    "Verif.C76_flat_subtract_from_empty",
    "Verif.C76_flat_subtract_wrong"
   ],
   "note": "Block form and flat form. Negated where the code is wrong: flat difference from a tensor without blocks, reported shape of a difference. The compiled flat addition is modelled by the Python routine of the same name."
  },
  {
   "property": "C77",
   "status": "proved",
   "theorems": [
    "Verif.C77_trace",
    "Verif.C77_no_diagonal_block",
    "Verif.C77_no_diagonal_block_differs",
    "Verif.C77_sign_mismatch",
    "Verif.C77_unequal_axes"
   ],
   "note": "Charge and parities are computed on decoded labels; the packed arithmetic is C03. Negated for tensors without a diagonal block."
  },
  {
   "property": "C78",
   "status": "proved",
   "theorems": [
    "Verif.C78_transpose_phase",
    "Verif.C78_left_phase",
    "Verif.C78_right_phase",
    "Verif.C78_same_as_python"
   ],
   "note": "Loops and walk of the compiled phase functions, for any number of legs; the 64-leg limit and the table of computed phases are left out."
  },
  {
   "property": "C79",
   "status": "proved",
   "theorems": [
    "Verif.C79_transpose",
    "Verif.C79_default",
    "Verif.C79_empty_keeps_pattern",
    "Verif.C79_tensordot",
    "Verif.C79_unequal_axes",
    "Verif.C79_sign_mismatch",
    "Verif.C79_no_common_block_differs"
   ],
   "note": "Agreement with the block form of C25/C26 for all well-formed operands with at least one block; two violations proved for operands without (matching) blocks."
  },
  {
   "property": "C80",
   "status": "proved",
   "theorems": [
    "Verif.C80_orthogonal",
    "Verif.C80_equation",
    "Verif.C80_zero_residual",
    "Verif.C80_defined",
    "Verif.C80_breakdown",
    "Verif.C80_precondition",
    "Verif.C80_error_bound",
    "Verif.C80_solution",
    "Verif.C80_false_convergence"
   ],
   "note": "Vectors of any length over the reals or complex numbers; real diagonal; exact arithmetic."
  },
  {
   "property": "C81",
   "status": "proved",
   "theorems": [
    "Verif.C81_entry",
    "Verif.C81_weight",
    "Verif.C81_idempotent",
    "Verif.C81_negative",
    "Verif.C81_wraps_twice",
    "Verif.C81_bad_axis",
    "Verif.C81_noise",
    "Verif.C81_random_noise"
   ],
   "note": "Exact arithmetic; the threshold is a parameter; the perturbation, the random tensor and the MPI reduction enter as given vectors."
  },
  {
   "property": "C82",
   "status": "proved",
   "theorems": [
    "Verif.C82_right",
    "Verif.C82_left",
    "Verif.C82_site_without_blocks",
    "Verif.C82_too_few_sites",
    "Verif.C82_bosonic_partners"
   ],
   "note": "Sites are FermionTensors; matrix elements as opAmpl in Spec/Mpo (the sign of an odd part counts the fermions to its left). Every site must have a block and every partner a nonempty basis. Flat site tensors and the options of the operator are not covered."
  },
  {
   "property": "C83",
   "status": "proved",
   "theorems": [
    "Verif.C83_value",
    "Verif.C83_shown",
    "Verif.C83_rank",
    "Verif.C83_no_sites"
   ],
   "note": "Sites are SparseTensors; for show_bond_dims the numbers, not the printed string with the constant."
  },
  {
   "property": "C84",
   "status": "proved",
   "theorems": [
    "Verif.C84_left",
    "Verif.C84_right"
   ],
   "note": "left_canonicalize and right_canonicalize in reduced mode; the contract of the dense QR routine is a hypothesis, met by C21_contract."
  },
  {
   "property": "C85",
   "status": "proved",
   "theorems": [
    "Verif.C85_left",
    "Verif.C85_right",
    "Verif.C85_left_isometric",
    "Verif.C85_right_isometric",
    "Verif.C85_left_matrix",
    "Verif.C85_right_matrix"
   ],
   "note": "left_svd and right_svd with the contract of full_matrices=False, met by C50_contract."
  }
 ]
}