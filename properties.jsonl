{"id": "C01", "title": "Packed SZ labels are lossless, order preserving and keep the particle parity", "statement": "For every quantum label with particle number and doubled spin projection in [-8192, 8192) and point-group irrep in [0, 8), packing it into one integer and unpacking gives the same label back; two in-range labels compare the same way packed as unpacked; the packed parity test answers exactly 'odd particle number'. Outside that range two different labels can pack to the same integer.", "quantifier": "all labels (n, 2Sz, pg) in the stated range; all pairs of such labels; a witness outside the range", "why_tests_cant": "there are about 2^31 labels and 2^62 pairs; tests only sample a few small labels", "anchors": ["pyblock3/algebra/symmetry.py: SZ.to_flat, SZ.from_flat, SZ.is_flat_fermion, SZ.__lt__, SZ.__eq__"]}
{"id": "C02", "title": "SZ labels form an abelian group with a compatible parity", "statement": "Adding labels is associative and commutative, the default label is neutral, a - b is a + (-b), subtraction undoes addition, and the fermion parity of a sum is the xor of the parities, for every triple of labels. Labels with equal fields have equal hashes, and 'less than' is a strict total order on labels.", "quantifier": "all triples of labels with arbitrary integer n and 2Sz and arbitrary natural pg", "why_tests_cant": "the block bookkeeping assumes these laws for every label that arises in any contraction, an infinite set", "anchors": ["pyblock3/algebra/symmetry.py: SZ.__add__, SZ.__sub__, SZ.__neg__, SZ.__eq__, SZ.__lt__, SZ.is_fermion"]}
{"id": "C03", "title": "Packed fermion-symmetry labels (U1, Z2, Z4, U1xU1, Z2xZ2) are lossless with correct fast paths", "statement": "For each of the five symmetry classes: unpacking a packed in-range label gives the label back; negating the packed integer with the fast path is the packing of the negated label; the packed parity is the parity of the label.", "quantifier": "all labels of each class in the packable range (all labels for the finite groups)", "why_tests_cant": "the fast paths are arithmetic identities on up to 2^31 packed values per class", "anchors": ["pyblock3/algebra/fermion_symmetry.py: U1, Z2, Z4, U11, Z22 (qpn_to_flat, flat_to_qpn, flip_flat, flat_to_parity, to_flat, from_flat)"]}
{"id": "C04", "title": "Label arithmetic on packed rows agrees with label arithmetic on label objects", "statement": "Combining a row of packed labels with a sign pattern, an optional offset and an optional overall sign gives the packing of what combining the corresponding label objects gives, whenever the result is packable; this holds for every row length and every pattern of the same length.", "quantifier": "all rows of labels, all +/- patterns of that length, all offsets, both values of neg, each symmetry class", "why_tests_cant": "number of patterns and rows is unbounded", "anchors": ["pyblock3/algebra/fermion_symmetry.py: U1._compute, U11._compute, Z2, Z4, Z22"]}
{"id": "C05", "title": "Tensor product of bonds counts every pair of states exactly once", "statement": "In the product of two bonds the multiplicity of a label q is the sum over all pairs of labels adding to q of the product of multiplicities; the total dimension is the product of the total dimensions; with a reference bond exactly the labels present in the reference survive, with the same multiplicity.", "quantifier": "all pairs of bonds (finite label->multiplicity maps), all optional reference bonds", "why_tests_cant": "unbounded number of bonds; label collisions are the interesting case and depend on the group", "anchors": ["pyblock3/algebra/symmetry.py: BondInfo.tensor_product, BondInfo.n_bonds, BondInfo.__mul__"]}
{"id": "C06", "title": "Union, intersection, sum and filter of bonds are pointwise", "statement": "For every label the multiplicity in the union / intersection / sum / filtered bond is the max / min / sum / min of the two multiplicities (filter: min on common labels, zero elsewhere); filtering never enlarges a bond and is idempotent; negating keys twice returns the original bond.", "quantifier": "all pairs of bonds with positive multiplicities and every label", "why_tests_cant": "pointwise law on all labels of all bonds", "anchors": ["pyblock3/algebra/symmetry.py: BondInfo.__and__, __or__, __add__, __neg__, filter"]}
{"id": "C07", "title": "Bond truncation keeps every sector alive and respects its reference", "statement": "Truncating a bond to a target dimension leaves a bond that already fits untouched, never removes a symmetry sector, keeps every multiplicity positive, never exceeds the reference bond when one is given, and overshoots the target by less than 1.1 per sector. It is NOT true that a multiplicity can only shrink: a witness bond grows a sector.", "quantifier": "all bonds with positive multiplicities, all positive target dimensions, all reference bonds containing the sectors", "why_tests_cant": "rounding interacts with every ratio multiplicity*target/total", "anchors": ["pyblock3/algebra/symmetry.py: BondInfo.truncate, BondInfo.truncate_no_keep"]}
{"id": "C08", "title": "Fusing tables tile each fused sector without gaps or overlaps", "statement": "When several bonds are fused, every combination of labels gets a window in the fused sector whose label is the signed sum of the combination; windows of different combinations are disjoint, each has the length given by the product of the multiplicities, and together they cover exactly the fused dimension.", "quantifier": "all lists of bonds, all sign patterns, optional reference; all pairs of label combinations; every position of a fused sector", "why_tests_cant": "combinatorial in number of legs and labels", "anchors": ["pyblock3/algebra/symmetry.py: BondFusingInfo.tensor_product"]}
{"id": "C09", "title": "Minimal fusing tables built from the blocks that occur also tile", "statement": "Same as the previous property for the table built from a list of label combinations with shapes: each distinct combination gets exactly one window, repeated combinations share it, windows are disjoint and cover the fused dimension, and inconsistent shapes for the same combination are rejected.", "quantifier": "all lists of (labels, shape) items, all patterns, optional reference", "why_tests_cant": "unbounded lists with arbitrary repetition", "anchors": ["pyblock3/algebra/symmetry.py: BondFusingInfo.kron_sum, BondFusingInfo.get_symmetry_fusing_info"]}
{"id": "C10", "title": "Tensor skeletons contain exactly the symmetry-allowed blocks", "statement": "Creating a tensor from bonds, a sign pattern and a target charge yields one block for every combination of labels whose signed sum is the target charge, and no other; each once, with the shape given by the multiplicities.", "quantifier": "all lists of bonds (length at least 2), all patterns, all target charges, every label combination", "why_tests_cant": "exponentially many combinations for arbitrary bonds", "anchors": ["pyblock3/algebra/core.py: SparseTensor._skeleton, zeros, ones, random"]}
{"id": "C11", "title": "Adding and subtracting block-sparse tensors is elementwise on the dense tensors they stand for", "statement": "For block-sparse tensors with unique block labels, every entry of a+b (a-b) is the sum (difference) of the entries, whichever blocks are present in a, b, both or neither; the result has unique labels. With a block label repeated in the left operand this fails.", "quantifier": "all tensors, all block orders, every dense entry", "why_tests_cant": "every subset pattern of present blocks must be right", "anchors": ["pyblock3/algebra/core.py: SparseTensor._add, SparseTensor._subtract, SparseTensor.__array_ufunc__"]}
{"id": "C12", "title": "Block-sparse tensordot equals dense tensor contraction", "statement": "Every entry of the contraction of two block-sparse tensors over any matching lists of axes equals the sum over all values of the contracted indices of products of entries; the result has unique block labels.", "quantifier": "all pairs of block-sparse tensors with consistent sector dimensions, all axes lists (any order, negative axes), every entry of the result", "why_tests_cant": "accumulation over all matching block pairs in any order cannot be enumerated", "anchors": ["pyblock3/algebra/core.py: SparseTensor._tensordot, SubTensor._tensordot"]}
{"id": "C13", "title": "Contraction conserves charge", "statement": "If every block of a has signed label sum dq_a, every block of b has dq_b, and contracted legs carry opposite signs, then every block of the contraction has signed label sum dq_a + dq_b with the remaining signs.", "quantifier": "all tensors, all patterns with opposite signs on contracted legs, all axes", "why_tests_cant": "global invariant of every tensor produced by any sequence of contractions", "anchors": ["pyblock3/algebra/core.py: SparseTensor._tensordot", "pyblock3/algebra/fermion.py: SparseFermionTensor._tensordot_basic, _contract_patterns"]}
{"id": "C14", "title": "Transposition is an action of permutations", "statement": "Entries of the transposed tensor are the entries of the original with permuted indices; transposing by p then q equals transposing once by the composition; transposing by a permutation and its inverse is the identity; default axes reverse the legs.", "quantifier": "all tensors, all permutations of their legs, every entry", "why_tests_cant": "all ranks and permutations", "anchors": ["pyblock3/algebra/core.py: SubTensor._transpose, SparseTensor._transpose"]}
{"id": "C15", "title": "Fusing legs and unfusing them back loses nothing", "statement": "Fusing consecutive legs with a fusing table covering the tensor places every entry at the position given by the table and puts zero elsewhere; unfusing with the same table returns every entry to its place, so unfuse(fuse(T)) and T have the same entries, for a minimal and for a complete table.", "quantifier": "all tensors, all leg groups, all tiling fusing tables, every entry", "why_tests_cant": "reshape/offset arithmetic must be right for every shape", "anchors": ["pyblock3/algebra/core.py: SparseTensor.fuse, SparseTensor.unfuse"]}
{"id": "C16", "title": "Flat storage is a lossless encoding of block-sparse tensors", "statement": "Converting a block-sparse tensor to flat storage and back gives the same blocks in the same order; entries of the flat tensor are read at block offset plus row-major position; converting a well-formed flat tensor to blocks and back gives the same arrays.", "quantifier": "all block-sparse tensors of one rank with packable labels; all well-formed flat tensors", "why_tests_cant": "offset arithmetic over unbounded block lists", "anchors": ["pyblock3/algebra/flat.py: FlatSparseTensor.from_sparse, to_sparse, __init__"]}
{"id": "C17", "title": "Flat addition agrees with block addition", "statement": "Adding or subtracting two flat tensors gives a well-formed flat tensor whose entries are the sums (differences) of the entries, including when an operand has no blocks; with unique labels its blocks are exactly those of block addition of the unpacked tensors, in the same order.", "quantifier": "all pairs of well-formed flat tensors on the same legs", "why_tests_cant": "all presence patterns of blocks and all offsets", "anchors": ["pyblock3/algebra/flat.py: FlatSparseTensor.add, subtract", "pyblock3/algebra/impl/flat.py"]}
{"id": "C18", "title": "Direct-sum addition of site tensors adds the represented states", "statement": "For two matrix product states on the same sites, outer bonds and physical legs, the amplitude of their sum on every configuration is the sum of the amplitudes, the constants add, and on each interior bond the dimensions in use add. This needs that every label on an outer bond of the second state also occurs there in the first; otherwise (e.g. states of different total charge) the code silently loses the second state.", "quantifier": "all pairs of MPS of the same length >= 1 (any symmetry labels, any number of physical legs), every configuration", "why_tests_cant": "statement about all configurations of arbitrarily long chains", "anchors": ["pyblock3/algebra/mps.py: MPS._add", "pyblock3/algebra/core.py: SparseTensor._kron_add"]}
{"id": "C19", "title": "Scaling and shifting an MPS/MPO multiplies and shifts what it represents", "statement": "Multiplying or dividing an MPS by a number multiplies or divides every amplitude (and its constant term) by it; negation, subtraction and complex conjugation follow; adding a number to an MPO only moves its constant; the result is independent of which site absorbs the factor.", "quantifier": "all MPS/MPO, all numbers, every configuration", "why_tests_cant": "all chains and all configurations", "anchors": ["pyblock3/algebra/mps.py: MPS.__array_ufunc__, _add, _subtract"]}
{"id": "C20", "title": "Products of operators with constant terms expand correctly", "statement": "For operators A + a and B + b given as tensor networks with constants, the product computed by the library represents (A+a)(B+b) and applying A + a to a state B gives AB + aB; when some tensor of the product has no blocks the code drops the constant terms, which is a violation.", "quantifier": "all operators/states over any ring, all constants", "why_tests_cant": "algebraic identity over all operators; the zero-block branch is rarely hit in tests", "anchors": ["pyblock3/algebra/mps.py: MPS._matmul, MPS._dot"]}
{"id": "C21", "title": "Canonicalisation does not change the state", "statement": "One left (or right) orthogonalisation step replaces neighbouring tensors by new ones with the same product, for every block structure, provided the dense factorisation returns factors whose product is the block matrix; a full sweep leaves every amplitude unchanged and makes all tensors but the centre isometric when the dense factor is isometric.", "quantifier": "all MPS, all centres, any dense QR routine meeting its contract", "why_tests_cant": "grouping, stacking and splitting of blocks must be right for all sector structures", "anchors": ["pyblock3/algebra/core.py: SparseTensor.left_canonicalize, right_canonicalize", "pyblock3/algebra/mps.py: MPS.canonicalize"]}
{"id": "C22", "title": "Singular value truncation keeps at most the requested number of values, and the largest ones", "statement": "With only a maximal bond dimension given, the retained singular values over all sectors number at most that dimension, every retained value is at least as large as every discarded one (up to ties at the boundary), and the returned error is the norm of exactly the discarded values. With a discarded-weight threshold smaller than the smallest weight the code keeps the wrong set, which is a violation.", "quantifier": "all families of per-sector singular values, all max_bond_dim, cutoff and max_dw", "why_tests_cant": "ties and empty sectors for arbitrary spectra", "anchors": ["pyblock3/algebra/core.py: SparseTensor.truncate_svd", "pyblock3/algebra/impl/flat.py: flat_sparse_truncate_svd"]}
{"id": "C23", "title": "Cutoff modes of the fermionic SVD honour their error budget", "statement": "For each of the six truncation modes no dropped singular value of any sector is larger than a kept one of any sector; in modes 1 and 2 exactly the values above the threshold are kept; in modes 3 to 6 the dropped values (or their squares) add up to at most the budget and no further value could be dropped within it; max_bond caps the count and otherwise changes nothing. Renormalisation scales the kept values so that the sum of their powers is that of the whole spectrum; it is skipped, although values are dropped, when one limit per sector is given and the limits add up to the number of values.", "quantifier": "all nonnegative spectra in any number of sectors, decreasing within each sector; all nonnegative cutoffs, all modes, all max_bond, any order of equal values", "why_tests_cant": "real-valued spectra and thresholds", "anchors": ["pyblock3/algebra/fermion.py: _trim_singular_vals, _renorm_singular_vals, _trim_and_renorm_SVD"]}
{"id": "C24", "title": "Fermionic phase of moving legs equals the sign of the odd-leg permutation", "statement": "The phase computed for pulling a list of legs to the front (or back) is minus one to the number of pairs of odd legs whose relative order changes; it is +-1 and depends only on parities.", "quantifier": "all parity assignments of any number of legs, all duplicate-free axis lists, both directions", "why_tests_cant": "2^n parity vectors times n! orders", "anchors": ["pyblock3/algebra/fermion.py: compute_phase"]}
{"id": "C25", "title": "Fermionic transposition is an action of permutations", "statement": "Transposing a fermionic tensor by p and then by q gives exactly the tensor obtained by transposing by the composed permutation, signs included; transposing by the inverse restores the tensor.", "quantifier": "all fermionic tensors, all pairs of permutations", "why_tests_cant": "all ranks, parities and permutations", "anchors": ["pyblock3/algebra/fermion.py: SparseFermionTensor._transpose, FlatFermionTensor._transpose, compute_phase"]}
{"id": "C26", "title": "Fermionic contraction is consistent with fermionic transposition", "statement": "Contracting after reordering the legs of either operand gives the same tensor (up to the corresponding fermionic reordering of the result) as contracting directly; in particular contracting over axes equals first transposing the contracted legs to be adjacent and then contracting adjacent legs without phase.", "quantifier": "all fermionic tensors, all axes lists, all leg permutations", "why_tests_cant": "sign bookkeeping over all parities and ranks", "anchors": ["pyblock3/algebra/fermion.py: SparseFermionTensor._tensordot_basic, compute_phase"]}
{"id": "C27", "title": "Operator strings keep their sign when sorted by site", "statement": "Sorting an operator string by site multiplies it by the sign of the permutation restricted to different sites; in every ring where operators on different sites anticommute (commute for the bosonic option) the sorted string times the sign equals the original product, and operators on the same site keep their order.", "quantifier": "all operator strings of any length, any ring with the (anti)commutation hypothesis", "why_tests_cant": "all lengths and all permutations", "anchors": ["pyblock3/symbolic/expr.py: OpString.sort"]}
{"id": "C28", "title": "Symbolic operator expressions obey ring laws", "statement": "Sums, products, scalar multiples and negatives of symbolic operator expressions evaluate to the sum, product, multiple and negative of the evaluations, for every assignment of operators that does not depend on the quantum-number annotation (which equality of symbols ignores); collecting like terms changes the value exactly by the dropped terms, so not at all when only zero coefficients are dropped.", "quantifier": "all expressions, all assignments of the elementary operators into any algebra", "why_tests_cant": "infinite expression language", "anchors": ["pyblock3/symbolic/expr.py: OpElement, OpString, OpSum (__add__, __mul__, __neg__, simplify)"]}
{"id": "C29", "title": "Generated Hamiltonian terms decode to the second-quantised Hamiltonian", "statement": "The term list generated from one- and two-electron integrals decodes to sum t_ij c+_is c_js + 1/2 sum v_ijkl c+_is c+_ks' c_ls' c_js when only zero integrals are skipped. Encoding an elementary operator (creation/annihilation, site, spin) of a Hamiltonian term as an integer and decoding it returns the same operator; different operators have different codes, for all site indices below the limit.", "quantifier": "all site counts up to 8192, both spins, both kinds, all integrals, all algebras the symbols are evaluated in", "why_tests_cant": "collision freedom over the whole range", "anchors": ["pyblock3/hamiltonian.py: Hamiltonian.build_mpo"]}
{"id": "C30", "title": "Site operators satisfy the canonical anticommutation relations", "statement": "On the four-state site basis, creation and annihilation matrices satisfy all anticommutation relations of two fermionic modes, number operators have the right eigenvalues, and each operator changes the quantum label by its declared charge.", "quantifier": "all pairs of elementary operators, all matrix elements", "why_tests_cant": "sign convention between spin orbitals is easy to test wrongly; here all relations, all irreps and all matrix elements are covered", "anchors": ["pyblock3/hamiltonian.py: Hamiltonian.get_site_ops"]}
{"id": "C31", "title": "Work distribution of integrals covers everything exactly once", "statement": "For every number of ranks, every one- and two-electron integral index is assigned to exactly one rank, and the sum of the distributed Hamiltonians is the full Hamiltonian; the constant is kept on exactly one rank.", "quantifier": "all numbers of orbitals, all numbers of ranks >= 1, every index tuple", "why_tests_cant": "unbounded n and size", "anchors": ["pyblock3/fcidump.py: FCIDUMP.parallelize"]}
{"id": "C32", "title": "Reading an integral file restores all permutational symmetry images", "statement": "After reading, every two-electron element equals the file's value for its eightfold (or fourfold, in the spin-unrestricted mixed block) symmetry class, provided the file lists at least one representative and conflicting entries do not occur; one-electron integrals are symmetric. Writing integrals and reading them back restores header, constant and every integral (small ones become zero, others are rounded by the text format). Exceptions, each with a witness: spin-unrestricted integrals can be written only with the flag for general integrals; a restricted file flagged for general one-electron integrals is symmetrised on reading; indices from 1000 on run into each other in the text.", "quantifier": "all orbital counts, all integral files", "why_tests_cant": "all index tuples, all file contents, all orders and repetitions of lines", "anchors": ["pyblock3/fcidump.py: FCIDUMP.read, FCIDUMP.write"]}
{"id": "C33", "title": "Cached environments are always the ones that belong to the current tensors", "statement": "When a state is treated window by window (any windows in any order, any number of environment builds for a window, then replacement of its tensors), every environment kept afterwards equals the environment recomputed from the current tensors, and what is handed out for the next window are environments that belong to tensors representing the current state. Without canonicalisation this holds for every sequence of builds and replacements. With canonicalisation two builds for different windows without a replacement in between leave an environment that does not belong to the current tensors.", "quantifier": "all histories of site updates and centre moves, all chain lengths", "why_tests_cant": "arbitrary interleavings of updates and moves", "anchors": ["pyblock3/algebra/mpe.py: MPE.__setitem__, build_envs, left_envs, right_envs"]}
{"id": "C34", "title": "The disk-backed environment cache behaves like plain storage", "statement": "For any sequence of saves and loads, what is loaded for a name is the most recently saved value. The implementation updates a temporary list when a cached name is saved again, so a later load can return the old value: a violation with a concrete history; the property holds for histories that never overwrite a cached name.", "quantifier": "all sequences of save/load operations, all cache sizes", "why_tests_cant": "eviction order depends on the entire history", "anchors": ["pyblock3/algebra/mpe.py: CachedMPE._save_data, _load_data"]}
{"id": "C35", "title": "Davidson returns only residual-verified eigenpairs when it stops early", "statement": "If the Davidson solver stops before exhausting its iterations, all requested states have residual norm below the threshold computed from the returned Ritz pairs; throughout, the stored images sigma are exactly H times the stored trial vectors.", "quantifier": "all linear operators, all starting vectors, all preconditioners, all iteration counts", "why_tests_cant": "iteration-dependent control flow with deflation for arbitrary operators", "anchors": ["pyblock3/algebra/linalg.py: davidson"]}
{"id": "C36", "title": "Conjugate gradient keeps an exact residual", "statement": "At each iteration of the conjugate gradient solver the stored residual equals b - A x; hence on return the residual norm of x is below the threshold (exact arithmetic). When the threshold is first met in the very last permitted iteration the code raises an error although converged.", "quantifier": "all linear operators, right-hand sides, preconditioners, iteration counts", "why_tests_cant": "loop invariant over arbitrary operators and iteration counts", "anchors": ["pyblock3/algebra/linalg.py: conjugate_gradient"]}
{"id": "C37", "title": "The fourth-order Runge-Kutta step is the fourth-order Taylor step for linear operators", "statement": "For any linear operator the Runge-Kutta step returns exactly b + a b + a^2 b/2 + a^3 b/6 + a^4 b/24.", "quantifier": "all linear operators over any field of characteristic zero, all vectors", "why_tests_cant": "identity for all operators", "anchors": ["pyblock3/algebra/integrate.py: rk4_apply"]}
{"id": "C38", "title": "einsum contracts exactly the repeated indices", "statement": "A script of operands separated by commas, an arrow and a result is accepted exactly if each letter stands in exactly two places, in two different operands or in one operand and the result. For every accepted script, with any number of operands, the result has the legs of the result letters in their order and its entries are the Einstein sum: products of operand entries summed over all values of the letters that are not in the result. Blanks in the operands are ignored and scripts without an arrow are rejected. A comma after the arrow is not rejected but read as if arrow and comma were exchanged.", "quantifier": "all scripts with any number of operands, all operand tensors", "why_tests_cant": "unbounded scripts", "anchors": ["pyblock3/algebra/einsum.py: einsum"]}
{"id": "C39", "title": "Grouping of coupled labels is the transitive closure", "statement": "When an operator is exponentiated sector by sector, the groups of row and column labels computed by merging are exactly the connected components of the relation 'some block couples these labels', so the exponential never mixes or splits groups.", "quantifier": "all lists of blocks in any order", "why_tests_cant": "merging order and chains of arbitrary length", "anchors": ["pyblock3/algebra/fermion_ops.py: _fuse_data_map"]}
{"id": "C40", "title": "Hubbard-type operators are the operators of second quantisation, with definite charge", "statement": "In each of the five symmetry encodings, and for all parameters, the tensors returned by creation, annihilation, ParticleNumber, measure_SZ, onsite_U, H1 and Hubbard have the matrix elements of the corresponding second-quantised operators between the occupation states of the sites (two-site tensors up to the fixed sign of reading the incoming legs in reverse order), so that contracting the incoming legs with a state applies the operator without further signs. creation, annihilation, ParticleNumber, H1 and Hubbard have unique block labels; creation has the charge of one electron and H1, Hubbard charge zero. The charge claim fails for Z4, which labels the doubly occupied state like the vacuum; measure_SZ and onsite_U repeat labels where two states share one; ParticleNumberAlpha/Beta are wrong on the doubly occupied state.", "quantifier": "all symmetry classes, spins, ring elements t, u, mu, fac, h, states with any further legs, set iteration orders", "why_tests_cant": "needs all entries for all parameter values in every symmetry and the action on arbitrary states", "anchors": ["pyblock3/algebra/fermion_ops.py: creation, annihilation, ParticleNumber, measure_SZ, onsite_U, ParticleNumberAlpha, ParticleNumberBeta, H1, Hubbard, _compute_swap_phase", "pyblock3/algebra/fermion_encoding.py"]}
{"id": "C41", "title": "Flattening a tensor to a vector and back is lossless", "statement": "For fixed bonds and pattern, converting any sequence of stored tensors of that class (any charges, any blocks missing, in any order) to vectors succeeds. Each vector has exactly one slot for each entry allowed by the charge of its tensor, and converting it back gives a tensor with the same entries. Conversely every vector of the right length is a tensor of the class, converting that tensor gives the vector back, different vectors give different tensors, and the scalar product of two vectors is that of the tensors. Required: two legs or more, and a cache key that tells apart the label arrays of the sequence. With a colliding key (label arrays of more than 1000 numbers are printed in short form) a tensor is put into the wrong slots; with one leg the charge is ignored.", "quantifier": "all bonds, patterns, charges, sequences of tensors of the class, vectors of the right length", "why_tests_cant": "Slot arithmetic for arbitrary bonds, and the effect of a cache filled by any earlier calls.", "anchors": ["pyblock3/algebra/fermion.py: Constructor"]}
{"id": "C42", "title": "DMRG sweep driver follows its schedule and its convergence rule", "statement": "Sweep number k uses the k-th entry of each schedule, or the last entry when the list is shorter; the driver stops before the maximum number of sweeps only if the last energy change is below the tolerance and the noise has reached its final value. The recorded energy of a sweep is the smallest of its local energies. Solver thresholds computed by one call stay in force in later calls, so the tolerance given to a second call does not influence its thresholds.", "quantifier": "all schedules, all numbers of sweeps, all energy sequences", "why_tests_cant": "arbitrary energy histories", "anchors": ["pyblock3/algorithms/dmrg.py: DMRG.solve"]}
{"id": "C43", "title": "Spin matrices of the Heisenberg site satisfy the spin algebra", "statement": "For every spin, the raising, lowering and Sz matrices of the site satisfy [S+,S-]=2Sz, [Sz,S+-]=+-S+- and have the right Casimir; the integer division in the matrix elements is exact. The operator assembled for any list of bonds (i, j, v) is the sum of v times the spin coupling of i and j, whatever the order of the sites in a bond.", "quantifier": "all spins 2S >= 0, all matrix elements", "why_tests_cant": "all spins, not just 1/2 and 1", "anchors": ["pyblock3/heisenberg.py: Heisenberg.get_site_ops, Heisenberg.build_mpo"]}
{"id": "C44", "title": "Layering of gate networks is a valid evaluation order", "statement": "The layers computed for a network of gates contain each gate exactly once, and every gate appears strictly after all gates producing its inputs and in the earliest possible layer, for every acyclic network whose wires have one producer and one consumer. A network with a cycle makes the computation run forever.", "quantifier": "all finite acyclic networks", "why_tests_cant": "all graphs", "anchors": ["pyblock3/gaussian/core.py: GaussianTensorNetwork.get_layers"]}
{"id": "C45", "title": "Symbolic operator slots are a bijection", "statement": "The table translating symbolic operator positions to (label, index within label) is a bijection onto the slots of the bond, so converting a symbolic tensor to numerical blocks stores each operator at its own place; the numerical tensor holds exactly the values of the symbolic entries.", "quantifier": "all lists of operator charges", "why_tests_cant": "unbounded lists with arbitrary repetitions", "anchors": ["pyblock3/symbolic/symbolic.py: SymbolicBondFusingInfo.from_op_names"]}
{"id": "C46", "title": "Total energy formulas of Gaussian states agree", "statement": "The energy computed directly from the one-particle density matrix equals the energy computed from the explicitly built two-particle density matrix, for every density matrix and Hamiltonian, for restricted Gaussian states. For the general (spin-orbital) variant the two formulas inherited by the class disagree.", "quantifier": "all density matrices and integrals of any size", "why_tests_cant": "algebraic identity over all matrices", "anchors": ["pyblock3/gaussian/core.py: RHFTensorNetwork.make_rdm1, RHFTensorNetwork.make_rdm2, RHFTensorNetwork.energy_tot, UHFTensorNetwork, GHFTensorNetwork"]}
{"id": "C47", "title": "Flat transposition agrees with block transposition", "statement": "Transposing a flat tensor by any permutation of its legs gives a well-formed flat tensor whose blocks are exactly those of the transposed block-sparse tensor, in the same order.", "quantifier": "all well-formed flat tensors, all permutations of legs", "why_tests_cant": "offset arithmetic over unbounded block lists and all permutations", "anchors": ["pyblock3/algebra/flat.py: FlatSparseTensor._transpose", "pyblock3/algebra/impl/flat.py: flat_sparse_transpose"]}
{"id": "C48", "title": "Flat contraction agrees with block contraction", "statement": "Contracting two flat tensors over any lists of legs gives a well-formed flat tensor whose blocks are exactly those of contracting the unpacked block-sparse tensors, in the same order, provided packing distinguishes the labels that occur.", "quantifier": "all pairs of well-formed flat tensors, all lists of contracted legs", "why_tests_cant": "all block presence patterns; accumulation into a growing buffer", "anchors": ["pyblock3/algebra/flat.py: FlatSparseTensor._tensordot", "pyblock3/algebra/impl/flat.py: flat_sparse_tensordot"]}
{"id": "C49", "title": "Operators placed side by side form the graded tensor product", "statement": "Placing two fermionic operator tensors side by side gives an operator on the union of the sites whose matrix elements are the products of the matrix elements, times a minus sign exactly when the second operator is odd and the column state of the first has odd particle number. This product is associative. Contracting columns with rows is plain composition without extra signs. Composing two pairs obeys the graded law, so operators on different sites commute, or anticommute if both are odd. All this holds when blocks of the odd part change the fermion parity and blocks of the even part keep it; without that condition the sign can be lost.", "quantifier": "all operators on any number of sites with any bases, any coefficients in a commutative ring", "why_tests_cant": "sign rules for every block presence pattern and every number of legs; result depends on aliasing of in-place updates", "anchors": ["pyblock3/algebra/core.py: FermionTensor._tensordot, FermionTensor._shdot, FermionTensor.transpose, SparseTensor._add"]}
{"id": "C50", "title": "Compression of a state keeps it within the reported error", "statement": "Compressing a matrix product state keeps its edges, its physical legs and its constant, and leaves no bond larger than max_bond_dim. With no limit set, every amplitude is unchanged and the reported error is zero. The result is in canonical form with the centre at the first site (left=True) or at the last site (left=False). The squared distance between old and new state is the sum of the discarded weights of all bonds; so it is at least the reported error, which is the largest of them, and at most the reported error times the number of inner bonds.", "quantifier": "all states with any number of sites, legs and bond sizes whose site tensors have definite charges; all truncation options; both directions", "why_tests_cant": "needs orthogonality of all successive differences, for every chain length and block pattern", "anchors": ["pyblock3/algebra/mps.py: MPS.compress", "pyblock3/algebra/core.py: SparseTensor.left_svd, right_svd, truncate_svd, diag"]}
{"id": "C51", "title": "Splitting a fermionic tensor by SVD, QR or LQ and contracting the factors gives the tensor back", "statement": "tensor_qr splits a fermionic tensor into two tensors that share one new bond; contracting it gives the tensor with its legs in the order left, right, with the right fermionic signs, and transposing back gives the tensor itself. The factor that should be isometric is isometric, and the charge sits on the side the mode asks for. tensor_svd does the same with singular values, which absorb leaves in the middle, splits, or puts left or right. The values that are kept obey cutoff, cutoff_mode and max_bond. Without truncation nothing is lost. With truncation and without renormalisation the squared distance from the original is the sum of the squares of the values not kept, and in modes 3 and 4 at most the budget plus what lies below the threshold. Renormalisation only scales all values by one number. If no value survives the call raises.", "quantifier": "all valid tensors with any number of legs and any labels, all bipartitions of the legs in any order, all truncation options, all ways to split the charge", "why_tests_cant": "block structure, leg order, signs and truncation combine in unboundedly many ways; distance needs orthogonality across all blocks", "anchors": ["pyblock3/algebra/fermion.py: sparse_svd, sparse_qr, _svd_preprocess, _absorb_svd, _trim_and_renorm_SVD", "pyblock3/algebra/fermion.py: SparseFermionTensor.tensor_svd, tensor_qr"]}
{"id": "C52", "title": "The matrix product operator built from an operator expression stands for that expression", "statement": "build_mpo turns a sum of strings of elementary operators on n sites into n tensors. Multiplying the tensors site by site, from left to right, gives back the sum of strings, with the right signs although the strings were sorted by site. The tensor of a site refers to operators of this site (and the identity) only. The charge of every entry is what the labels of its row and column say, and neighbouring tensors agree on the states and labels of the bond between them.", "quantifier": "all numbers of sites, all sums of strings of any length with equal charge, all values of the elementary operators in which operators of different sites anticommute, every SVD routine that factorises and a cutoff that drops zero singular values only", "why_tests_cant": "terms share left and right parts in unboundedly many ways; symbols are renamed at every site and a wrong merge shows only for particular sums", "anchors": ["pyblock3/hamiltonian.py: Hamiltonian.build_mpo", "pyblock3/symbolic/symbolic.py: SymbolicSparseTensor.right_svd"]}
{"id": "C53", "title": "The tensors built from the integrals are the second-quantised Hamiltonian", "statement": "The matrix product operator that build_mpo makes from one- and two-electron integrals, with the symbols replaced by block-sparse matrices, has the matrix elements of sum h_ij c+_is c_js + 1/2 sum g_ijkl c+_is c+_kt c_lt c_js between all pairs of occupation-number states, including all fermionic signs. The tensors fit together along their bonds, every block is bosonic, and the blocks that change the parity of a site are exactly those in the odd part. The same holds for every sum of products of creation and annihilation operators that conserves particle number, spin projection and point group.", "quantifier": "all numbers of orbitals up to 8192, all point-group labels, all integrals that vanish where the point group forbids them, all pairs of basis states, every SVD routine that factorises and a cutoff that drops zero singular values only", "why_tests_cant": "the number of states and of integrals is unbounded; a wrong sign shows only for particular pairs of states and particular orders of orbitals", "anchors": ["pyblock3/hamiltonian.py: Hamiltonian.build_complex_qc_mpo, build_mpo, generate_qc_terms, get_site_ops", "pyblock3/symbolic/symbolic.py: SymbolicSparseTensor.right_svd, to_sparse", "pyblock3/algebra/mps.py: MPS.to_sparse"]}
{"id": "C54", "title": "The conventional matrix product operator is the second-quantised Hamiltonian", "statement": "The matrix product operator that build_qc_mpo makes site by site from partial sums over the orbitals to the left and right (normal and complementary operators), with the symbols replaced by block-sparse matrices, has the matrix elements of sum t_s,ij c+_is c_js + 1/2 sum v_st,ijkl c+_is c+_kt c_lt c_js between all pairs of occupation-number states, with and without symmetrised two-electron partial sums, for restricted and unrestricted integrals. It agrees with the operator that build_mpo makes. When the integrals are shared out over ranks, the operators of the ranks add up to the Hamiltonian. With a single orbital the construction fails.", "quantifier": "all numbers of orbitals from two, all point-group labels, all integrals with the permutation symmetry of real orbitals that vanish where the point group forbids them, both settings of symmetrized_p, all numbers of ranks, all pairs of basis states", "why_tests_cant": "the number of states and of integrals is unbounded; the positions of the partial sums in the symbolic matrices depend on the site and the number of orbitals, and a wrong sign or factor shows only for particular index patterns", "anchors": ["pyblock3/symbolic/symbolic_mpo.py: QCSymbolicMPO", "pyblock3/hamiltonian.py: Hamiltonian.build_qc_mpo, get_site_ops", "pyblock3/symbolic/symbolic.py: SymbolicSparseTensor.deflate, to_sparse", "pyblock3/fcidump.py: FCIDUMP.t, v, parallelize"]}
{"id": "C55", "title": "Operator times state, overlaps and energies are those of occupation-number space", "statement": "For a matrix product operator that stands for a second-quantised operator H (such as the one build_qc_mpo makes from the integrals) with constant e, and a matrix product state with amplitudes psi over the occupation-number states, the product of operator and state is a matrix product state with amplitudes (H+e) psi, with the same label at the right edge, and of the kind the product accepts (bosonic blocks, except that the last tensor may be fermionic after an operator that adds or removes an electron), so that it can be multiplied again; k products give (H+e)^k psi. The dot product of two states is the sum over all occupation-number states of the products of their amplitudes, and <phi|H+e|psi> is the double sum over the matrix elements. The product of two operators stands for the product of the second-quantised operators, constants included. Where H psi is zero at every state because no blocks remain, the product may be the number 0, and then the constant is lost.", "quantifier": "all numbers of orbitals from two, all point-group labels, all integrals with the symmetry of real orbitals, all constants, all matrix product states with well-formed bonds, all numbers of repeated products", "why_tests_cant": "the number of occupation-number states is 4^n and the states and integrals are arbitrary; a test compares a few energies of a few molecules and a sign error that cancels in them goes unseen", "anchors": ["pyblock3/algebra/mps.py: MPS._matmul, MPS._dot, MPS.__matmul__", "pyblock3/hamiltonian.py: Hamiltonian.build_qc_mpo", "pyblock3/algebra/core.py: FermionTensor._tensordot, SparseTensor.fuse"]}
{"id": "C56", "title": "Identity and site operators, and the density matrices computed with them", "statement": "build_identity_mpo makes a matrix product operator with the matrix elements of the identity. build_site_mpo of a symbol I, C, D, A, AD or B of orbital i makes a matrix product operator with the matrix elements of the factor times the fermionic operators the symbol stands for, including the signs from the electrons on the orbitals before i; it also takes the site from the argument k. For the operators d_i and d_j that annihilate an electron with spin s on orbitals i and j, the dot product of d_i psi and d_j psi is the expectation value of c+_is c_js, so the one-particle density matrix computed this way is right. More generally the dot product of A psi and B psi' is sum psi(u) <u|A+ B|d> psi'(d). A site outside the lattice is not refused: the result is the identity. With one orbital the right edge has the label of the operator instead of the vacuum.", "quantifier": "all numbers of orbitals from two (from one for the identity), all point-group labels, all sites, all symbols of these kinds with the label of their charge, all factors, all matrix product states with well-formed bonds, all pairs of basis states", "why_tests_cant": "the test compares the density matrix of one molecule with a reference; the number of states and of orbitals is unbounded and a sign that depends on the electrons to the left shows only for particular states", "anchors": ["pyblock3/symbolic/symbolic_mpo.py: IdentityMPO, SiteMPO", "pyblock3/hamiltonian.py: Hamiltonian.build_identity_mpo, build_site_mpo, get_site_ops", "pyblock3/symbolic/symbolic.py: SymbolicSparseTensor.to_sparse", "pyblock3/algebra/mps.py: MPS.to_sparse, MPS._matmul, MPS._dot"]}
{"id": "C57", "title": "The window of a sweep is the whole problem", "statement": "A partition object made from a bra, an operator and a ket can be treated window by window (build environments, read mpe[l:r], replace its tensors). Whatever windows have been treated, mpe[l:r] for a window of at least two sites is a bra, an operator and a ket that fit together, and their <bra|operator|ket> is that of the whole operator with the bra and ket that the object holds at this moment, up to a sign that is -1 only if the operator changes the fermion parity and the ket has an odd number of fermions. This holds with and without canonicalisation, for the same or different bra and ket, and includes all fermionic signs. For an operator without a constant that keeps the charge, expectation of mpe[l:r] and of the whole object return the same number. For an operator that changes the charge, expectation of the whole object is 0 while that of a window is right. With a constant in the operator and a bra different from the ket the two differ, because the window adds the constant times the overlap of the tensors in the window.", "quantifier": "all numbers of sites, all windows of at least two sites, all histories of windows, all bra, ket and operator tensors on well-formed bonds with blocks of even fermion parity in the states, all QR routines that factorise", "why_tests_cant": "tests compare energies of a few molecules after convergence, where a wrong environment is corrected by the next sweep; histories of windows, numbers of sites and states are unbounded", "anchors": ["pyblock3/algebra/mpe.py: MPE._init_identities, _left_contract_rotate, _right_contract_rotate, _effective_mpo, _effective_mps, _effective, build_envs, __getitem__, __setitem__, expectation", "pyblock3/algebra/core.py: SubTensor/SparseTensor.ones, FermionTensor.ones, FermionTensor._tensordot, FermionTensor._hdot"]}
{"id": "C58", "title": "The local problem of a sweep is the whole operator restricted to the window", "statement": "Merging the tensors of a state to one tensor keeps all amplitudes. For a window of one or two sites the operator of mpe[l:r] is the restriction of the whole operator: for all bras and kets that differ from those of the object in the window only, the merged tensors with this operator give the same number as the bras and kets with the whole operator. The product `operator @ state` for a state of one merged tensor has as components the sums of matrix elements times components plus the constant times the component, or it raises, which happens only if the sums are all zero; so the expectation value of the merged window is that of the whole problem or it raises when that is 0. Two things a reader would not expect: the product raises for a zero result even when the constant is not zero, and for three or more operator tensors signs get lost, so that the number of a merged window of three sites can be wrong.", "quantifier": "All states, operators, label groups, fermion parities, numbers of sites, windows of one or two sites, histories of windows, bond dimensions; all replacements of the tensors in the window.", "why_tests_cant": "A test fixes a Hamiltonian, a state and a sweep; that the local operator is right for every state that the eigensolver may try is a statement about all vectors of the window. The lost sign needs a middle tensor whose parity-changing and parity-keeping parts produce the same labels.", "anchors": ["pyblock3/algebra/mpe.py:231-279", "pyblock3/algebra/mpe.py:324-330", "pyblock3/algebra/mps.py:500-551", "pyblock3/algebra/core.py:1822-1862", "pyblock3/algorithms/dmrg.py:90-133"]}
{"id": "C59", "title": "With canonicalisation the local problem of a sweep has the inner product and the energy of the whole state", "statement": "In an object with canonicalisation switched on, whatever windows have been treated before, mpe[l:r] is made from a ket that is the same state as the present one and whose sites before the window are isometries to the right and after the window isometries to the left. Hence for all kets that differ from it in the window only, the inner product of the merged tensors of the window is the inner product of the states. For a ket that is its own bra and an operator with a constant, the expectation value between two such kets, read off the merged windows (one or two sites), is the matrix element of the whole problem, constant times inner product included; it can raise only if the part without the constant is 0. Without canonicalisation the constant counts with the norm of the window, which is not that of the state.", "quantifier": "All states, operators, constants, label groups, fermion parities, numbers of sites, windows, histories of windows (any order, any number of builds, any replacement of the tensors of a window on the same end bonds), QR factorisations with orthonormal columns; all replacements of the tensors in the window.", "why_tests_cant": "The local eigensolver takes the window tensor for a vector of an orthonormal basis; that this is right after every history of windows, and for every vector, is an invariant over all executions. A test sees one sweep and an energy that agrees to some digits.", "anchors": ["pyblock3/algebra/mpe.py:123-131", "pyblock3/algebra/mpe.py:139-229", "pyblock3/algebra/mpe.py:231-292", "pyblock3/algebra/mpe.py:324-330", "pyblock3/algorithms/dmrg.py:90-133"]}
{"id": "C60", "title": "The Davidson solver is variational", "statement": "For a Hermitian matrix, whatever the Davidson solver returns (converged or with the warning that iterations ran out) consists of k orthonormal vectors and k real values in ascending order, and the matrix has between the returned vectors exactly the returned values on the diagonal and zeros elsewhere. The value with index j is never below a lower bound of the matrix on the complement of j vectors, so not below the j-th eigenvalue, and never above what the guesses allow: if j+1 independent combinations of the guesses span a space where the matrix is at most M, the value is at most M. For one root: the returned energy is the energy of the returned unit vector, not above that of the guess and not below the bottom of the spectrum. The solver does return if the guesses are independent, there is room for the roots, and the preconditioner does not move the residual into the space already searched.", "quantifier": "All inner-product spaces over the real or complex numbers, Hermitian operators, guesses, numbers of roots, thresholds, numbers of iterations, restart sizes, preconditioners; all dense eigensolvers that keep the contract of numpy.linalg.eigh.", "why_tests_cant": "A test compares a converged value with a reference. That an unconverged value is still the energy of the returned vector and lies between the exact one and that of the guess, through any number of restarts and rotations, is an invariant over all iterations and all matrices.", "anchors": ["pyblock3/algebra/linalg.py:105-239"]}
{"id": "C61", "title": "tensor_svd factors a tensor with any number of legs on both sides of the cut", "statement": "For a non-empty tensor whose labels add up to zero under the given pattern, and a cut with legs on both sides, tensor_svd returns three tensors l, s, r on one new bond. The sum over the bond of l * s * r is the tensor, entry by entry, if the entries are real numbers. l and r conserve the labels with the bond between them. If the LAPACK factors have orthonormal columns and rows, l and r are isometries onto the bond; the values of s are not negative. The result is in the form that truncate_svd wants (blocks in the order of the bond). A tensor with a block whose labels do not add up to zero is rejected. One thing a reader would not expect: the matrices are allocated as real ones, so for complex tensors the product of the factors is the real part of the tensor, and the imaginary part is lost.", "quantifier": "All tensors, numbers of legs, label groups, sectors, block shapes, sign patterns, orders of the labels; all SVDs that keep the contract of LAPACK.", "why_tests_cant": "Blocks are collected to one matrix per sum of labels, with offsets that depend on all blocks of the tensor. A test sees some block structures; that no two combinations of labels overlap, and that none is left out, is a statement about all of them.", "anchors": ["pyblock3/algebra/core.py:1149-1221", "pyblock3/algebra/symmetry.py:220-256"]}
{"id": "C62", "title": "Splitting the two-site tensor keeps the best subspace and reports exactly what it loses", "statement": "The decomposition step of a two-site sweep (density-matrix type, real numbers, no noise) turns the tensor of two sites of one or several states into two tensors each. In a sweep to the right all states get the same left tensor, an isometry onto the new bond, and the right tensors are the contractions of the states with it, so the products are the projections of the states to the space kept. The reported error is the weighted sum of the square distances of the states from the products. No other projection to a space of the same or smaller dimension loses less, be it symmetric or not. The new bond is not larger than asked for, charges are conserved, and without cutoff and limit nothing is lost. In a sweep to the left the same holds with left and right exchanged. With noise the left tensor is still an isometry and the products are still projections of the unperturbed states.", "quantifier": "All lists of states, weights (given or equal), block structures, bond dimensions, cutoffs, limits, label groups; all SVDs that keep the contract of LAPACK; any noise that keeps the legs of the density matrix.", "why_tests_cant": "A test compares numbers for a state. That a singular value decomposition of a sum of density matrices is a spectral one, that degenerate values do no harm, and that no subspace at all would do better, are statements about all states and all subspaces.", "anchors": ["pyblock3/algorithms/core.py:101-148", "pyblock3/algebra/core.py:1149-1302", "pyblock3/algorithms/dmrg.py:108-117"]}
{"id": "C63", "title": "DMRG is variational: energies never go up, never fall below the lowest eigenvalue, and are energies of the state", "statement": "Take a state, a Hermitian operator with a real constant, and a sweep object with canonicalisation, and treat windows of one or two sites in any order: build the environments, take the local problem, merge the tensors, run Davidson's method on them, put tensors back. Whatever was treated before, a step finds a local problem; the product of operator and state in the window is one symmetric linear map. The energy reported is not above <psi|H|psi>/<psi|psi> of the state the step starts from, and not below any lower bound of H on the whole space. Any state that agrees with the present one outside the window and whose window merges to the reported vector has norm 1 and exactly the reported energy, for the whole operator including its constant. So, as long as nothing is cut off when the tensors are put back, the energies of a calculation never go up, starting from the energy of the initial state, and the state left at the end has the last energy.", "quantifier": "All label groups, numbers of sites, physical legs, bonds, states, Hermitian operators, orders and sizes (one or two sites) of windows, numbers of calls to build the environments, preconditioners, thresholds and sizes of Davidson's method; real or complex numbers; all QR and eigenvalue routines that keep the contract of LAPACK.", "why_tests_cant": "A test sees energies go down for some Hamiltonian. That the local matrix is exactly H restricted to the states reachable in the window depends on gauges, signs, environments, identities at the ends, and the constant all being right at once; an error may lower the energy below the true one for some block structures only.", "anchors": ["pyblock3/algorithms/dmrg.py:56-162", "pyblock3/algebra/mpe.py:218-292", "pyblock3/algebra/mpe.py:332-357", "pyblock3/algebra/linalg.py:105-239"]}
{"id": "C64", "title": "The Green's function solver returns the Green's function up to its residual", "statement": "For a real symmetric local operator H, any frequency and any non-zero broadening eta, the complex number that the local Green's function step returns differs from <ket|(H + omega + i eta)^(-1)|ket> by at most |ket| |rho| / eta^2, where rho is the residual at which the linear solver stopped; the two vectors returned are the real and imaginary part of the solution of (H + omega + i eta) z = ket + rho/eta.", "quantifier": "all symmetric operators, states, guesses, preconditioners, thresholds, frequencies and broadenings", "why_tests_cant": "identity and error bound for all operators and all stopping points of an iterative solver", "anchors": ["pyblock3/algebra/flat_functor.py:222-258", "pyblock3/algebra/mpe.py:417-440", "pyblock3/algebra/linalg.py:242-273"]}
{"id": "C65", "title": "Time steps follow the exact evolution to fourth order, keep the norm and lower the energy", "statement": "A Runge-Kutta step of the time-dependent DMRG is the fourth-order Taylor polynomial of exp(dt H) on the state, within |dt H|^5/100 of the exact evolution if |dt H| <= 1; the intermediate vectors are the states at one and two thirds of the step to third order. In real time the norm does not grow and loses at most |dt H|^6/72 of its square; in imaginary time the energy does not go up as long as beta H <= 3/2, also over the sub-steps of a sweep.", "quantifier": "all operators (Hermitian for norm and energy), all states and time steps within the stated limits", "why_tests_cant": "inequalities for all operators and states", "anchors": ["pyblock3/algebra/mpe.py:386-415", "pyblock3/algorithms/tddmrg.py:77-86"]}
{"id": "C66", "title": "Linear sweeps give best approximations of an operator applied to a state", "statement": "For a matrix product expectation of a bra and a different ket (operator without constant), each step of a linear sweep replaces the tensors of a window of the bra by the best possible ones: the new bra is the nearest to operator|ket> among all bras that agree with the old one outside the window, and the norm reported is its length. So the distance from operator|ket> never grows, the norms reported never go down, none exceeds the length of operator|ket>, and the squares of norm and distance add up to the squared length of operator|ket>.", "quantifier": "all operators without constant, all nonzero bras and kets that fit, all histories of windows of one or two sites, all correct QR factorisations; decomposition without truncation", "why_tests_cant": "optimality over all bras and monotonicity over all histories", "anchors": ["pyblock3/algorithms/linear.py:46-100", "pyblock3/algebra/mpe.py:363-377", "pyblock3/algebra/mpe.py:255-292"]}
{"id": "C67", "title": "The fast local product is the product with the local operator", "statement": "The high-performance path for a local problem (operator of two tensors, state of one tensor) gives the same result as the plain product: writing a state into a vector, multiplying the vector by the functor and reading the result as a tensor yields, component by component, the sum of operator matrix elements times components with the fermionic sign, plus the constant times the component. It holds for every vector, scalar products of vectors are scalar products of the states, and the Green's function variant multiplies by (H + omega)^2 + eta^2. The functor cannot be made only if the product is zero. With a constant, the functor must be symmetric and the labels of the state must occur in the operator.", "quantifier": "all charge-conserving operators and states that fit, any number of physical legs, all vectors, all constants", "why_tests_cant": "plans of matrix products depend on the block structure; all block structures and values", "anchors": ["pyblock3/algebra/flat_functor.py:56-260", "src/flat_functor.cpp:144-618"]}
{"id": "C68", "title": "The bonds of a state are exact, and its amplitudes have the target charge", "statement": "set_bond_dimension_fci gives every bond, for each label, as many basis vectors as the smaller of the number of configurations to the left that lead from the vacuum to the label and the number of configurations to the right that lead from the label to the target. This is enough for every wavefunction with the target charge to be a state on these bonds. set_bond_dimension(M) afterwards loses no label and exceeds M by at most 1.1 per label. MPS.ones gives each configuration with the target charge the number of paths through the bonds as amplitude; MPS.ones and MPS.random have amplitude zero for every other configuration. When no configuration has the target charge all bonds are empty and no state can be made.", "quantifier": "all abelian label groups, vacua, targets, site bases and numbers of sites; all limits M; all numbers drawn; all wavefunctions over any field", "why_tests_cant": "completeness is a statement about all wavefunctions, and the counts are over exponentially many configurations", "anchors": ["pyblock3/algebra/mps.py:72-92", "pyblock3/algebra/mps.py:107-119", "pyblock3/algebra/mps.py:193-231", "pyblock3/algebra/symmetry.py:100-143"]}
{"id": "C69", "title": "Factorisations and direct sums of flat tensors are those of block tensors", "statement": "left_canonicalize, right_canonicalize, left_svd and right_svd of a flat tensor give the flat forms of the factors that the same operations give for the block tensor: the same blocks with the same numbers (the orthogonal QR factor possibly in another order of blocks), so the factors multiply to the tensor and the orthogonal factor is an isometry. kron_add of flat tensors is kron_add of the block tensors when the bonds are looked up by the codes of the labels; called with bonds that are keyed by labels, the Python kernel raises for every pair of tensors that are not both empty.", "quantifier": "all flat tensors with consistent index arrays and no leg of dimension zero, all codings of labels that tell the labels of the tensor apart, all QR and SVD routines that meet their contract, all commutative rings", "why_tests_cant": "index arithmetic over one data array for all block structures and values", "anchors": ["pyblock3/algebra/flat.py:576-636", "pyblock3/algebra/impl/flat.py:174-337", "pyblock3/algebra/impl/flat.py:471-530"]}
{"id": "C70", "title": "The Heisenberg matrix product operator is the sum of the spin couplings", "statement": "Heisenberg(twos, n_sites, topology).build_mpo() gives one tensor per site; as a matrix between the states of the sites their product is exactly the sum over the bonds (i, j, v) of v (1/2 (S+_i S-_j + S-_i S+_j) + Sz_i Sz_j), whatever the order of the bonds and of the sites within a bond and however often a bond is repeated. The operator commutes with all components of the total spin.", "quantifier": "all spins, all numbers of sites, all lists of bonds between different sites, all coupling constants in a field, all SVD routines that meet their contract and thresholds that only drop zeros", "why_tests_cant": "the tensors come out of repeated singular value decompositions of groups of terms; agreement has to hold for every lattice and every coupling, with exponentially many matrix elements", "anchors": ["pyblock3/heisenberg.py:92-134", "pyblock3/heisenberg.py:136-209", "pyblock3/symbolic/symbolic.py:366-496"]}
{"id": "C71", "title": "Simplifying a symbolic matrix product operator does not change the operator", "statement": "For a symbolic matrix product operator whose tensors fit together, simplify() succeeds and returns tensors whose product is the same operator; the outer bonds stay as they are, no bond gets larger, and afterwards every state of an inner bond has a non-zero entry in the tensor to its left and one in the tensor to its right. Simplifying a second time changes nothing. In particular build_qc_mpo().simplify().to_sparse() has the matrix elements of the second-quantised Hamiltonian.", "quantifier": "all chains of row vectors, matrices and column vectors that fit together, all values of the symbols in a semiring; all integrals with the stated symmetries, two or more orbitals", "why_tests_cant": "states are removed in two sweeps that renumber rows and columns while they go; that no path through the product is lost or joined wrongly has to hold for every pattern of zeros", "anchors": ["pyblock3/symbolic/symbolic.py:290-333", "pyblock3/algebra/mps.py:753-769", "pyblock3/symbolic/symbolic_mpo.py:153-491"]}
{"id": "C72", "title": "amplitude() of a sliceable state is the coefficient of the basis state with the given numbers", "statement": "For a matrix product state whose outer bonds have one basis vector each, mps.to_sliceable(info).amplitude(det) is the coefficient of the product state that has on each leg the label number det[i]; number k means the label with k smaller labels in the basis of that leg, and negative numbers count from the end. A list of the wrong length or with a number out of range raises an exception. Without info the numbers count only the labels that the tensor itself has on the leg. Converting a tensor to sliceable form and back keeps all its entries.", "quantifier": "all states on good bonds, any number of sites and of physical legs per site, any linear order of labels, all lists of integers", "why_tests_cant": "the result goes through repeated conversions between sparse blocks and arrays indexed by sorted label positions; a misplaced block changes only some amplitudes of some states", "anchors": ["pyblock3/algebra/mps.py:621-651", "pyblock3/algebra/mps.py:775-788", "pyblock3/algebra/core.py:259-404", "pyblock3/algebra/core.py:1379-1395"]}
{"id": "C73", "title": "The trace of a fermionic tensor carries the right sign and agrees with contraction", "statement": "For a fermionic block-sparse tensor and lists ax1, ax2 of distinct legs whose paired legs carry the same bond with opposite signs, T.trace(ax1, ax2) is the sum over equal indices on each pair of the tensor reordered so that each traced pair stands side by side in front, times the sign of that reordering (minus one for each exchange of two odd legs). The result is a number if no leg is left, else a tensor on the remaining legs with their signs. Contracting two tensors and then tracing a remaining leg of the first with a remaining leg of the second gives the same as contracting these two legs in the same call. The order of the pairs and the order inside a pair do not matter. A full trace of a tensor with nonzero charge is zero. A tensor without blocks cannot be traced.", "quantifier": "all tensors, any number of legs and of traced pairs, all labels and parities, all numbers", "why_tests_cant": "the sign depends on the parities of all legs between the traced ones, block by block; tests on a few tensors with few legs see only some of the sign patterns", "anchors": ["pyblock3/algebra/fermion.py:171-222", "pyblock3/algebra/fermion.py:1107-1112", "pyblock3/algebra/fermion.py:1337-1371"]}
{"id": "C74", "title": "Changing a tensor or a state to a lower symmetry only renames its basis vectors", "statement": "symmetry_fuse with tables made by get_symmetry_fusing_info turns a block-sparse tensor into the same tensor with labels of a lower symmetry. The basis vectors of each old bond and of the new bond correspond one to one, the correspondence depends only on the bond, the label of a basis vector is mapped by the given map, and the new tensor has at the corresponding place the same number as the old one; so the numbers of the dense tensors are the same up to their order (and so is the norm). A map that respects sums keeps conservation of charge. Contracting before or after the change gives the same tensor. The change of a matrix product state or operator keeps the constant and every amplitude, whether the physical bases are read off the tensors, given per site or given per leg.", "quantifier": "all maps of labels, all bonds, all tensors with any number of legs and blocks, all chains of any length", "why_tests_cant": "several old blocks are written into windows of one new block; a wrong window overwrites or adds numbers only when certain labels come together, which tests with a few sectors do not show", "anchors": ["pyblock3/algebra/symmetry.py:256-275", "pyblock3/algebra/core.py:810-831", "pyblock3/algebra/mps.py:593-615"]}
{"id": "C75", "title": "The bipartite entanglement of a state is the entropy of its density matrix at each cut", "statement": "get_bipartite_entanglement of a matrix product state gives one number for each bond. If the state is not zero, the number of a bond is the von Neumann entropy (natural logarithm) of the normalised density matrix of all sites before the bond, which is the same as that of all sites behind it, and it is not negative. So it depends only on the amplitudes of the state, not on the tensors that represent it, not on its norm and not on the choices of the dense QR and SVD routines. For the zero state every number is nan.", "quantifier": "all states of any length on any bonds with real or complex numbers, all charges, all cuts, all QR and SVD routines that meet their contract", "why_tests_cant": "the singular values of one site tensor are the Schmidt values of the whole state only if all sites before and behind are isometric; tests compare a few states with known entropy", "anchors": ["pyblock3/algebra/mps.py:370-387"]}
{"id": "C76", "title": "Adding and subtracting fermionic tensors is entrywise and compatible with transposition, contraction and trace", "statement": "For two fermionic tensors with the same legs and the same signs, a + b and a - b have the sum and the difference of the entries, the signs of a, distinct block labels, and the common charge if both have it. Transposing, contracting (on either side) and tracing a sum gives the sum of the results. If the signs differ on some leg the operation raises instead of returning a wrong tensor. The shape reported by a sum is the shape of its blocks. Adding a number, or subtracting one, changes only the entries covered by stored blocks. The flat form gives the same entries as the block form. Two exceptions are proved as such: a flat tensor without blocks minus b is b instead of -b, and a difference reports the shape of its left operand.", "quantifier": "all label groups, parities, numbers of legs, bonds, sets of stored blocks of both operands (disjoint, overlapping, empty), entries, axes", "why_tests_cant": "Which labels the operands share decides the branch taken for each block, and signs depend on the parities of all labels; tests add tensors with full sets of blocks, where neither the empty operand nor the missing labels occur.", "anchors": ["pyblock3/algebra/fermion.py:1286-1335", "pyblock3/algebra/fermion.py:1798-1842", "pyblock3/algebra/fermion.py:1040-1059", "pyblock3/algebra/fermion.py:1135-1161"]}
{"id": "C77", "title": "The trace of a flat fermionic tensor is the trace of the same tensor in block form", "statement": "For a fermionic tensor in flat form, tracing pairs of legs gives a well-formed flat tensor on the remaining legs (or a number) whose entries are those of the trace in block form: transpose, with fermionic signs, so that traced legs are neighbours, then sum over equal indices. This needs one stored block with equal labels on each traced pair; without one the flat form raises, although the block form returns the zero tensor (proved as a violation).", "quantifier": "all label groups, codes, parities, bonds, sets of stored blocks, entries, lists of pairs of axes in any order", "why_tests_cant": "Blocks with the same remaining labels are grouped and summed across the packed data array; errors appear only for particular combinations of stored blocks and odd labels.", "anchors": ["pyblock3/algebra/fermion.py:1844-1891", "pyblock3/algebra/fermion.py:171-222", "pyblock3/algebra/fermion.py:1666-1671"]}
{"id": "C78", "title": "The compiled fermionic phases are the signs of the reordered odd legs", "statement": "The compiled kernels compute the sign of a block for a transposition, and for each operand of a contraction, by counting the cycles of even length of the permutation of the odd legs. This sign equals minus one to the number of pairs of odd legs whose order changes: for a transposition the given order; for the first operand of a contraction the contracted legs last and in reverse; for the second operand the contracted legs first. It is the same sign as the Python function compute_phase returns.", "quantifier": "all numbers of legs, parity patterns, permutations, duplicate-free lists of contracted legs", "why_tests_cant": "n! permutations times 2^n parity patterns; cycle counting and pair counting agree only by a theorem about permutations.", "anchors": ["src/flat_fermion.cpp:30-106", "pyblock3/algebra/fermion.py:1061-1083"]}
{"id": "C79", "title": "Transposing and contracting flat fermionic tensors agrees with the block form", "statement": "For fermionic tensors in flat form, transposition gives a well-formed flat tensor with the permuted pattern and exactly the blocks, signs included, of the transposed block form; contraction over any matching lists of axes gives a well-formed flat tensor with the pattern and blocks of the contraction of the block forms, or, when no leg is left, the number that is its only entry. Contracting legs whose signs agree raises. Violations proved: a flat tensor without blocks keeps its pattern unpermuted when transposed, and a full contraction without matching blocks raises although the block form returns the zero tensor.", "quantifier": "all label groups, codes, parities, bonds, sets of stored blocks, entries, permutations, axes lists in any order, positive or negative axes", "why_tests_cant": "The sign of each product depends on the parities of all legs of both blocks and on the order of the axes; the products are accumulated into a packed array.", "anchors": ["pyblock3/algebra/fermion.py:1966-2018", "src/flat_fermion.cpp:108-552"]}
{"id": "C80", "title": "The preconditioned correction is orthogonal to the current vector, and the preconditioned convergence test bounds the residual", "statement": "In the Davidson solver the preconditioner turns the residual q into a vector orthogonal to the current approximation c that solves (ld - diag) z = q - e c for one number e; a zero residual stays zero; no division by zero happens when the eigenvalue estimate lies below the diagonal. In the conjugate-gradient solver the preconditioner divides by the diagonal wherever it is above the threshold; when the diagonal is not negative, the tested quantity is a non-negative real number that bounds the residual, so a returned solution solves the equation up to the tolerance. Violations proved: the Davidson denominator can vanish for a normalised vector, and with diagonal entries of both signs the conjugate-gradient solver returns its starting vector as converged although it is wrong.", "quantifier": "all vectors, real and complex, of any length, all real diagonals, eigenvalue estimates, thresholds, matrices and right-hand sides", "why_tests_cant": "Orthogonality and the bound are statements about all vectors; the failing cases need particular diagonals and vectors.", "anchors": ["pyblock3/algebra/linalg.py:85-102", "pyblock3/algebra/linalg.py:242-273"]}
{"id": "C81", "title": "Normalising along an axis gives every sector of that leg weight one, and noise has exactly the requested size", "statement": "normalize_along_axis with an axis that names a leg (negative axes count from the end) keeps the labels and shapes of all blocks and divides each entry by the square root of the total squared weight of the sector its label on that leg belongs to, when that weight is above the threshold. Afterwards every such sector has weight exactly one, the others keep their weight, and a second call changes nothing. The noise added to a density matrix moves it by exactly the requested amount, the noise added to a wavefunction moves it by the square root of the amount, zero noise changes nothing and a negligible perturbation is skipped. Violations proved: an axis below -ndim is wrapped a second time instead of being rejected.", "quantifier": "all conforming tensors with distinct block labels, real or complex, of any rank, all axes, thresholds, noise amounts and perturbations", "why_tests_cant": "The weights are sums over all entries of arbitrarily many blocks that share a label; a test sees a few tensors.", "anchors": ["pyblock3/algebra/core.py:573-585", "pyblock3/algorithms/core.py:67-99"]}
{"id": "C82", "title": "The operator on the doubled lattice acts as the given operator and leaves the partners alone", "statement": "build_ancilla_mpo gives each site a partner, behind it or in front of it (left=True), and returns a matrix product operator on the doubled lattice with the same constant. Its matrix element between two configurations is zero unless every partner is in the same state in both; otherwise it is the matrix element of the given operator on the physical sites, where the sign of an odd operator counts the fermions on all sites of the doubled lattice to its left, partners included. When the partners carry no fermions the matrix elements are exactly those of the given operator. An operator with fewer sites than the lattice raises an error. Violation proved: a site tensor without blocks raises an error instead of giving the zero operator.", "quantifier": "all operators on one or more sites whose site tensors have blocks, with any bonds and labels; all configurations of sites and partners; both orders", "why_tests_cant": "The identity between two copies of a bond is built from the labels that occur in the neighbouring site tensor; that no matrix element is lost and that the signs are right for every configuration is a statement about all bonds and all lengths.", "anchors": ["pyblock3/hamiltonian.py:125-139", "pyblock3/algebra/core.py:511-517", "pyblock3/algebra/core.py:1541-1568", "pyblock3/algebra/core.py:1668-1761", "pyblock3/algebra/core.py:2207-2247"]}
{"id": "C83", "title": "bond_dim bounds the rank across every cut and show_bond_dims lists the states on each bond", "statement": "For a matrix product state on well-formed bonds, bond_dim is the largest number of states on any bond, the two edges included, where a state counts when a site next to the bond has a block with its label; a site without blocks contributes none. Across every cut of the chain the amplitudes are a sum of at most bond_dim products of a function of the sites on the left and a function of the sites on the right. show_bond_dims lists these numbers from the left edge to the right edge. A state without sites raises an error.", "quantifier": "all chains of block-sparse site tensors of any length, with any bonds, labels, blocks and physical legs, all cuts", "why_tests_cant": "The number is read off the labels of the stored blocks of the two neighbours; that it bounds the rank for every state and every cut is a statement about all amplitudes.", "anchors": ["pyblock3/algebra/mps.py:565-575", "pyblock3/algebra/mps.py:577-591"]}
{"id": "C84", "title": "The QR factorisation of an operator site tensor reproduces both parts with one shared factor and is an isometry on the two parts together", "statement": "left_canonicalize of an operator site tensor with an odd and an even part returns a site tensor Q and one matrix R between a new bond and the old right bond. Each part of the tensor is the same part of Q times R, every sector of the new bond is at most as large as that of the old one, and Q fits the old bonds with the new right bond. If each part has a definite charge and no repeated labels, and the dense routine returns orthonormal columns, then summing over all left indices of the odd and of the even part together gives the identity on the new bond. right_canonicalize does the same with the roles of left and right exchanged: each part is one matrix L between the old left bond and a new bond times the same part of Q.", "quantifier": "all operator site tensors with any number of physical legs, any bonds, blocks and labels; any dense QR routine meeting its contract", "why_tests_cant": "Blocks of both parts are stacked in one matrix per right label and split again; a mistake in the order or the assignment to the parts shows only for certain sector structures.", "anchors": ["pyblock3/algebra/core.py:1943-1975", "pyblock3/algebra/core.py:1977-2007"]}
{"id": "C85", "title": "The singular value decomposition of an operator site tensor reproduces both parts with shared values and one shared factor", "statement": "left_svd of an operator site tensor with an odd and an even part returns a site tensor U, a vector of values S on a new bond and a matrix V between the new bond and the old right bond. Each part of the tensor is the same part of U times S times V, every sector of the new bond is at most as large as that of the old one, and the factors fit together on the new bond. right_svd does the same with the roles of left and right exchanged. If each part has a definite charge and no repeated labels, and the dense routine returns orthonormal columns and rows, then the two parts of the operator factor together are an isometry to the new bond. With orthonormal columns and rows the matrix factor is an isometry as well.", "quantifier": "all operator site tensors with at least two legs, any bonds, blocks and labels; any dense routine meeting the contract of the reduced decomposition", "why_tests_cant": "Blocks of both parts are stacked in one matrix per label and split again; a mistake in the order or the assignment to the parts shows only for certain sector structures.", "anchors": ["pyblock3/algebra/core.py:2009-2041", "pyblock3/algebra/core.py:2043-2075"]}
