{
"C01": {
"note": "Full range; also bijection onto [0, 2^31) and a collision witness outside the range."
},
"C02": {
"note": "Group laws for arbitrary labels; order and hash laws."
},
"C03": {
"note": "All five classes; Z2 and Z4 through one model with the modulus as parameter."
},
"C04": {
"note": "Object path and packed path of _compute for all five classes. Fixed-width integers not modelled."
},
"C05": {
"note": "Nested loop of tensor_product against the sum over pairs; multiplicities are unbounded naturals."
},
"C06": {
"note": "CPython Counter operators modelled; negKeys and filter included."
},
"C07": {
"note": "Exact rational ceiling instead of float; the sector-can-grow violation is a concrete witness."
},
"C08": {
"note": "Loop invariant: windows tile each fused sector."
},
"C09": {
"note": "kron_sum including the failing assert, and get_symmetry_fusing_info."
},
"C10": {
"note": "Ranks >= 2. np.nditer on an empty bond raises: modelled as none."
},
"C11": {
"note": "Only the left operand needs unique labels; witness that duplicates in the left operand lose data."
},
"C12": {
"note": "Axis lists with negative axes and integer axes; dense sum over all basis vectors of the contracted legs."
},
"C13": {
"note": "Label level, any abelian group, any axes."
},
"C14": {
"note": "Entry formula, composition, inverse, default reversal."
},
"C15": {
"note": "Any distinct legs in any order; tables built by the library are shown good; round trip for minimal and complete tables. Blocks whose fused label is missing from the table are dropped by the code: Covers speaks only about labels in the table."
},
"C16": {
"note": "Any packing invertible on the labels that occur; instance for SZ in range."
},
"C17": {
"note": "Duplicate labels allowed for the entry statements; block-for-block agreement with unique labels."
},
"C18": {
"note": "MPS._add with SparseTensor._kron_add and infos: amplitudes add (all branches, incl. one site and tensors without blocks), bonds add, amplitude independent of the chosen bonds; C18_operators: the same for operators; C18_edge_dropped shows that a second state with another outer label is lost without an error."
},
"C19": {
"note": "Multiplication/division by numbers, negation, subtraction, conjugation, shifts; C19_any_site: any site can absorb the factor; C19_operators_scale for operators."
},
"C20": {
"note": "MPS._dot and MPS._matmul for state.state, operator.state and operator.operator: C20_dot, C20_apply, C20_mul with constants, on chains of at least two sites with one label on each outer edge (trivial edges for operators with constants); the sign of fermions on the left edge of the second factor is part of the statement. C20_*_const_lost: violations (a tensor without blocks makes the code return 0 and drop the constants); C20_apply_state_const: a state with a constant raises.",
"status": "proved"
},
"C21": {
"note": "Left and right block QR: shapes, block labels, product of the factors, isometry; the whole sweep keeps edges, physical legs, constant and every amplitude and makes all tensors off the centre isometries. The dense QR enters by its contract, which is shown to be satisfiable over the reals and the complex numbers. Isometry needs tensors of definite charge (C21_charge_needed shows it fails otherwise).",
"status": "proved"
},
"C22": {
"note": "Singular values are elements of an ordered ring, the block-wise factors are given tensors. The violation (a budget below every weight drops everything; the operator version drops everything once one value exceeds the budget) is proved as part of the theorems.",
"status": "proved"
},
"C23": {
"note": "argsort by contract (order of equal values arbitrary); powers and roots by contract; the documentation says 'sum < cutoff', the code uses '<='.",
"status": "proved"
},
"C24": {
"note": "compute_phase of fermion.py, both directions. The sign specification counts pairs of odd legs whose order changes; C24_graded_product shows it is the sign of reordering a product in any graded-commutative ring."
},
"C25": {
"note": "SparseFermionTensor._transpose, entrywise. DEFAULT_FERMION is taken True; the cached shape attribute is not modelled."
},
"C26": {
"note": "SparseFermionTensor._tensordot_basic on legs with opposite signs (otherwise the code raises). The first operand must have a block because the rank is read off the blocks. The fused implementation (off by default) is not modelled."
},
"C27": {
"note": "C27_fermion and C27_boson: value kept in every ring with (anti)commuting operators on different sites. C27_sorted, C27_stable: result is the sorted stable permutation. C27_sum: whole sums. C27_even_operators_get_a_sign: the fermionic option ignores the kind of operator, so it is wrong for even operators (fidelity witness)."
},
"C28": {
"note": "C28_mul, C28_add, C28_neg: evaluation is a homomorphism. C28_mul_defined, C28_add_defined: when the operations succeed. C28_simplify: exact effect of collecting terms. C28_placeholder_breaks_product: multiplying a sum by a number below the threshold leaves a number 0 in the list of strings, after which a product with a sum raises. Division is not modelled."
},
"C29": {
"note": "C29_roundtrip, C29_injective: codes. C29_collision_at_limit: site 8192 collides, so the limit is sharp. C29_hamiltonian: value of the generated terms. int32 storage is not modelled (codes stay below 32768)."
},
"C30": {
"note": "Operators are built as in the code (zero skeleton, then assignments by last label) for every irrep. C30_creation, C30_annihilation, C30_identity, C30_onsite, C30_number: matrix elements, charge and parity. C30_anticommutator(_cc,_dd): computed with the library's matmul and add. C30_matmul: matmul is the matrix product. The composite operators R, P, Q and the flat storage are not modelled."
},
"C31": {
"note": "Loops of parallelize for restricted and unrestricted integrals; fixed-width integer overflow of the compiled loops not modelled."
},
"C32": {
"note": "Reading for any order and repetition of lines; write-then-read round trip; text of a line. The header text parser and complex-valued files are not modelled; mu = 0."
},
"C33": {
"note": "Window-by-window histories and histories without canonicalisation; C33_stale is the witness that the unrestricted statement fails. build_envs_no_contract is not modelled.",
"status": "proved"
},
"C34": {
"note": "Holds without overwriting of cached names, in particular for names saved once and for maxsize 0; C34_lost and C34_stale_sweep are the witnesses of the violation.",
"status": "proved"
},
"C35": {
"note": "C35_residual: for every return without the warning flag the true residual (recomputed from the returned vectors) is below the threshold for every state; it contains the invariant sigma = H b. C35_warning: the flag means the iterations ran out. The dense eigensolver, dot product, preconditioner and threshold are arbitrary parameters. Exact arithmetic."
},
"C36": {
"note": "C36_residual: whenever the solver returns, the (preconditioned) true residual is below the threshold. C36_raises_although_converged: the failure in the last permitted iteration. Exact arithmetic."
},
"C37": {
"note": "C37_rk4: for all linear operators over any field of characteristic zero."
},
"C38": {
"note": "Acceptance characterised completely; value for any number of operands; reading of the text.",
"status": "proved"
},
"C39": {
"note": "Groups are exactly the connected components of the coupling relation; every label occurs in exactly one group.",
"status": "proved"
},
"C40": {
"note": "Proved for every faithful labelling and all five encodings, all ring parameters, all set iteration orders. Violations proved: Z4 charges (C40_z4_mixed), repeated labels of measure_SZ/onsite_U (C40_repeated_labels), ParticleNumberAlpha/Beta on the doubly occupied state (C40_alpha_beta_wrong).",
"status": "proved"
},
"C41": {
"note": "Constructor.from_bond_infos; sequences of calls with the cache; scalar product; cache collision and single-leg witnesses.",
"status": "proved"
},
"C42": {
"note": "Schedule, energies, stop rule; second call keeps the thresholds of the first.",
"status": "proved"
},
"C43": {
"note": "Square root is any function squaring back on non-negative integers (real square root as instance). Library product shown for nonempty operators. Float rounding not modelled."
},
"C44": {
"note": "While loop with a turn counter; KeyError and divergence are outcomes. Witness for two gates sharing an input."
},
"C45": {
"note": "Table translation, sectors, injectivity, surjectivity and the value of to_sparse.",
"status": "proved"
},
"C46": {
"note": "einsum as finite sums over any field; general variant: exact difference and witness."
},
"C47": {
"note": "Block for block."
},
"C48": {
"note": "Block for block; codes distinguished by unpacking."
},
"C49": {
"note": "shdot, composition, associativity, graded law, and commutation on different sites, with the aliasing of in-place negation modelled; parity condition shown necessary. Mixed operators with virtual legs (hdot with bond legs) not covered."
},
"C50": {
"note": "compress reports the largest error of a bond; the squared distance is proved to lie between it and the number of bonds times it. QR and SVD by contract; the contracts are shown satisfiable over the reals and the complex numbers."
},
"C51": {
"note": "sparse_svd and sparse_qr for all valid tensors and bipartitions; QR and SVD by contract (shown satisfiable over the reals and complex numbers in C51_contract). C51_null_order shows that the leg order is ignored with all legs on one side."
},
"C52": {
"note": "Symbols before their replacement by matrices. SVD by contract; the thresholds 1E-12 and cutoff are idealised to zero. New symbols are named X; the expression must not contain a symbol of that name."
},
"C53": {
"note": "C53_hamiltonian: from integrals to block tensors; C53_build: any conserving sum of products. Exact arithmetic; the constant (core energy) is kept next to the tensors and is not part of the statement. For one orbital, empty products are excluded (the code raises on them).",
"status": "proved"
},
"C54": {
"note": "C54_conventional: any one-electron integrals, their symmetric part; C54_symmetric: symmetric ones; C54_agree: same matrix elements as build_mpo (C53); C54_ranks: the operators of the ranks add up; C54_one_orbital: fails for one orbital. Exact arithmetic; the constant is kept next to the tensors.",
"status": "proved"
},
"C55": {
"note": "For two or more orbitals and states with bosonic blocks. When the product is the number 0 (no blocks remain) the theorem says H psi = 0; the constant times the state is then lost, see DESIGN.md."
},
"C56": {
"note": "Identity and site operators of any lattice with two or more orbitals, with their fermionic signs; inner products of states after such operators; density matrices; sites outside the lattice; one orbital.",
"status": "proved"
},
"C57": {
"note": "windows of at least two sites; one-site windows and the product with a single tensor (used inside the local solver) are not part of this property",
"status": "proved"
},
"C58": {
"note": "C58_merge, C58_product, C58_window (all bras and kets differing in the window only), C58_expectation for windows of one and two sites; violations C58_zero_raises and C58_three_sites. Environments and canonicalisation as in C57.",
"status": "proved"
},
"C59": {
"note": "Contracts for QR: it factorises and has orthonormal columns (satisfiable over the reals and the complex numbers, C21_contract). The replaced tensors of a window must live on the bonds at its ends and have a definite charge each. Merged windows of one or two sites for the energy; inner products for windows of any length.",
"status": "proved"
},
"C60": {
"note": "Returned values and vectors are a Ritz family whether or not the run converged; bounds from below (complement of j vectors) and from above (guesses). The dense eigensolver is a contract, shown to be satisfiable. Division by a zero norm is a failure of the model; C60_returns gives conditions under which it does not happen. Exact arithmetic.",
"status": "proved"
},
"C61": {
"note": "tensor_svd with any number of legs on both sides. C61_decomposition: result form, product (of the entries as cast into the real matrices), conservation, isometries, values. C61_rejects: wrong labels. C61_complex_violated: complex tensors lose the imaginary part."
},
"C62": {
"note": "decomp_two_site with density matrices. C62_left, C62_right: isometry, projections, error = weighted square distance, optimality, bond dimension, exactness without cut. C62_exact: error 0 means equality. C62_noise_left: isometry and projection with any noise. Complex numbers are not covered (the matrices are real)."
},
"C63": {
"note": "Slow path of eigs (Davidson on MPS objects), real or complex numbers, one root. Vectors are the components of the merged tensor with an even number of fermionic labels. Where operator @ state raises because no blocks match, the map is taken as the constant. The theorem on whole calculations is for steps in which nothing is truncated; what truncation loses is C62."
},
"C64": {
"note": "Local step of the solver; the sweep around it is not modelled. The product with the local operator is any linear map (symmetric for the bound)."
},
"C65": {
"note": "Local step; C65_limit_needed shows that the energy can go up when the limit on the step is not met. The part of the state outside the blocks of the operator is left out."
},
"C66": {
"note": "Best approximation in each window, Pythagoras between norm and distance, monotone norms over whole sweeps; the constant of an operator is excluded, with a witness of what goes wrong. Truncation and noise are not covered."
},
"C67": {
"note": "C67_product: prepare, product and finalize give the operator applied to the state, or the functor cannot be made and the product is zero; C67_vector: every vector; C67_green, C67_dot, C67_prepare; C67_same_as_product: agrees with the slow path of C58. Violations: C67_uncovered_lost, C67_constant_misplaced. MPI and diag() not modelled.",
"status": "proved"
},
"C68": {
"note": "All statements proved. Exactness is over any field with exact arithmetic; numbers drawn by the random generator are an argument."
},
"C69": {
"note": "All statements proved for the Python kernels. The C++ kernels are not modelled. left_svd is the form that returns all blocks."
},
"C70": {
"note": "Full statement for all spins, lattices and couplings; square roots enter through an arbitrary function (the total-spin theorem needs that it squares correctly). Singular values that are dropped are assumed zero."
},
"C71": {
"note": "Model of simplify for vectors and matrices; the dictionary of site operators is folded into the entries. Theorems: product unchanged, no idle states, idempotent, same matrix elements of the block tensors, and for the conventional quantum-chemistry operator the Hamiltonian."
},
"C72": {
"note": "Amplitudes for every list of numbers, with the basis given or read off the tensors; refusal of all other lists; round trip of a tensor. Witnesses for an incomplete basis."
},
"C73": {
"note": "Traced pairs must carry opposite signs and the tensor must have a block. Negative axes and the flat implementation are not modelled."
},
"C74": {
"note": "Tensors on any legs, contraction, states and operators in matrix product form, for any map of labels. dtype and the attribute dq are not modelled."
},
"C75": {
"note": "Over the reals and the complex numbers. Entropy of the density matrix on both sides of every cut; nan for the zero state. QR and SVD by contract, sites are block-sparse tensors."
},
"C76": {
"note": "Block form and flat form. Negated where the code is wrong: flat difference from a tensor without blocks, reported shape of a difference. The compiled flat addition is modelled by the Python routine of the same name."
},
"C77": {
"note": "Charge and parities are computed on decoded labels; the packed arithmetic is C03. Negated for tensors without a diagonal block."
},
"C78": {
"note": "Loops and walk of the compiled phase functions, for any number of legs; the 64-leg limit and the table of computed phases are left out."
},
"C79": {
"note": "Agreement with the block form of C25/C26 for all well-formed operands with at least one block; two violations proved for operands without (matching) blocks."
},
"C80": {
"note": "Vectors of any length over the reals or complex numbers; real diagonal; exact arithmetic."
},
"C81": {
"note": "Exact arithmetic; the threshold is a parameter; the perturbation, the random tensor and the MPI reduction enter as given vectors."
},
"C82": {
"note": "Sites are FermionTensors; matrix elements as opAmpl in Spec/Mpo (the sign of an odd part counts the fermions to its left). Every site must have a block and every partner a nonempty basis. Flat site tensors and the options of the operator are not covered."
},
"C83": {
"note": "Sites are SparseTensors; for show_bond_dims the numbers, not the printed string with the constant."
},
"C84": {
"note": "left_canonicalize and right_canonicalize in reduced mode; the contract of the dense QR routine is a hypothesis, met by C21_contract."
},
"C85": {
"note": "left_svd and right_svd with the contract of full_matrices=False, met by C50_contract."
}
}