# Formal model of pyblock3 in Lean 4: design

## Layout

* `properties.jsonl`: the English claims, C01, C02, ...
* `MANIFEST.json`: status of every claim and the exact theorem names.
* `lean/Verif/Spec/*.lean`: small specifications that do not mention the model (sign of a
  permutation of odd legs, dense tensors, windows that tile an interval, ...).
* `lean/Verif/Model/*.lean`: the model of the Python code, function by function. Each definition
  cites the file and lines in `/repo/pyblock3` it mirrors and says where it simplifies.
* `lean/Verif/Proof/*.lean`: helper lemmas.
* `lean/Verif/Thm/*.lean`: the property theorems, named `Cnn_...`, each followed by a concrete
  case meeting its hypotheses.
* `seeded/LOG.jsonl`: record of the deliberate faults tried on the model.

## Modelling conventions

* Python `int` is `Int` (or `Nat` where the code only ever holds a nonnegative value). Fixed-width
  wrap-around of numpy integer arrays is not modelled unless a comment says so.
* Python `float`/`complex` entries are elements of an arbitrary commutative ring, field or ordered
  field, as the property needs. Rounding is not modelled. Thresholds on floats (`1E-12`) are exact
  numbers in the model.
* `dict`/`Counter` is an association list in insertion order (`Verif.Model.Dict`); `d[k] = v` replaces in
  place or appends at the end, like CPython.
* An `ndarray` block is a shape (list of naturals) with an entry function on multi-indices.
  Entries outside the shape are never read by the specification.
* Exceptions (`assert`, `KeyError`, `raise`) are `none` / `Except.error`.
* A symmetry label is an element of an abelian group with decidable equality (and a linear order where the code
  sorts). C01-C04 show that the label classes of the library meet this.
* Dense LAPACK routines (QR, SVD, eigh) are function parameters with their mathematical contract
  as an explicit hypothesis.

## Specification of a block-sparse tensor

A block-sparse tensor stands for a dense tensor indexed by a list of pairs (label, position within
the label), one per leg. Its entry is the entry of the block with those labels, if the position is
inside the block's shape, and zero otherwise. All tensor properties (C11-C18, C21, C25, C26, C41) are stated
with this entry function.

## Plan per property

| id | modelled | proof |
|----|----------|-------|
| C01 | `SZ` class with `Int` fields and `Nat` point group | integer arithmetic; `&` of one bit as div/mod; witness for collision outside the range |
| C02 | same | group laws by ext, xor laws; lexicographic order total |
| C03 | five label classes, their packing and fast paths | integer arithmetic |
| C04 | `_compute` on rows, object path and packed path | induction on the row |
| C05 | `BondInfo.tensor_product` as nested loop on association lists | induction on both lists, sums |
| C06 | Counter operations | lookup lemmas |
| C07 | `truncate` with exact rational ceiling | arithmetic; witness that a sector can grow |
| C08 | `BondFusingInfo.tensor_product` as a loop with running offsets | loop invariant "windows tile [0, quanta q)" |
| C09 | `kron_sum`, `get_symmetry_fusing_info` | same invariant |
| C10 | `_skeleton` generator | membership in cartesian product, nodup |
| C11 | `SparseTensor._add/_subtract` | dictionary loop invariant against dense entries |
| C12 | `SparseTensor._tensordot` | double loop invariant against dense sum |
| C13 | same | signed sums |
| C14 | `_transpose` | permuted index lists |
| C15 | `fuse`, `unfuse` | row-major indices, windows of C08/C09 |
| C16 | `FlatSparseTensor.from_sparse/to_sparse` | offsets, round trip |
| C17 | `FlatSparseTensor._add` | refinement to C11 through C16 |
| C18 | `_kron_add` and `MPS._add` | block matrices, induction over sites |
| C19 | scalar operations on MPS | multilinearity, induction over sites |
| C20 | `_matmul`/`_dot` constant handling | ring identity; violation witness |
| C21 | `left/right_canonicalize` with an abstract QR | grouping and splitting lemma, sweep induction |
| C22 | `truncate_svd` selection of values | sorted lists; violation witness |
| C23 | `_trim_singular_vals`, `_renorm_singular_vals`, `_trim_and_renorm_SVD`; `np.argsort` by contract | sorted lists, counting by sector, running sums; witness for the skipped renormalisation |
| C24 | `compute_phase` | counting inversions |
| C25 | fermionic `_transpose` | cocycle law of the inversion sign |
| C26 | `_tensordot_basic` | sign identities from C24/C25 |
| C27 | `OpString.sort` | induction in a ring with anticommuting elements |
| C28 | `OpString`/`OpSum` operations | evaluation homomorphism |
| C29 | integer codes of `Hamiltonian.build_mpo` | arithmetic |
| C30 | site operator matrices | finite matrix identities, lifted by Jordan-Wigner to chains |
| C31 | `FCIDUMP.parallelize` | counting representatives |
| C32 | `FCIDUMP.read` symmetrisation | loop invariant over symmetry class |
| C33 | `MPE` environment dictionary | invariant over operation histories; what a window hands out comes from the present tensors by canonicalisations outside the window (`Regauged`) |
| C34 | `CachedMPE` | refinement + violation witness |
| C35 | `davidson` | loop invariant |
| C36 | `conjugate_gradient` | loop invariant; violation witness |
| C37 | `rk4_apply` | module identity |
| C38 | `einsum` completely, with the tensordot and transpose of block-sparse tensors (`strip` for ASCII blanks only) | count of letters as loop invariant gives the accepted scripts; contraction by C12, order by C14; sums over letters commute |
| C39 | `_fuse_data_map` | invariant: partition into classes of the generated equivalence |
| C40 | encodings, `_compute_swap_phase` (any set order), builders as dictionaries of blocks | each builder is a list of updates; entries = sum of the updates (induction); coefficients of the parameters are integer tables over the 4^4 states of two sites (exhaustive, so a proof); action on states from C26; violation witnesses for Z4, repeated labels, ParticleNumberAlpha/Beta |
| C41 | `Constructor` made by `from_bond_infos`: tables, `vector_size`, `vector_to_tensor`, `tensor_to_vector` with its cache over sequences of calls. Not modelled: `update`, `from_sparse_tensor`, `from_flat_tensor` | slots are the blocks of the skeleton (C10); the copy loop by induction over the blocks; invariant of the cache; scalar products by `legIndices_sum` |
| C42 | `DMRG.solve` driver | list padding, loop induction |
| C43 | Heisenberg site operators | identities for all spins |
| C44 | `get_layers` | topological sort invariant |
| C45 | `SymbolicBondFusingInfo.from_op_names` | counting |
| C46 | `make_rdm2`, `energy_tot` | sums; violation witness for the general variant |
| C47 | `FlatSparseTensor._transpose` | offset bookkeeping, refinement to the block model |
| C48 | `flat_sparse_tensordot` | refinement to the block model, accumulation invariant |
| C49 | `FermionTensor._tensordot`, `_shdot` including in-place aliasing | entry formula, parity invariant, ring identities; witness for the violated parity condition |
| C50 | `left_svd`, `right_svd`, `MPS.compress` with abstract QR and SVD | block decomposition, canonical chains, Pythagoras over the sweep |
| C51 | `sparse_svd`, `sparse_qr` with leg reordering, splitting of the charge, trimming and absorption, abstract QR and SVD | groups by charge of one side, block decomposition, contraction of neighbouring legs has no sign, Parseval across the cut |
| C52 | `Hamiltonian.build_mpo` up to the replacement of symbols by matrices: sorting, `right_svd` at every site with groups of equal labels, dictionaries of left and right parts, new symbols; abstract SVD | invariant of the column that is split: value, sites and charge of its strings; the matrix of a group read back by the SVD contract; a symbol stands for the value it was made for because new symbols are numbered and others stand for themselves |
| C53 | generation and decoding of the terms, `build_mpo` (C52), `get_site_ops` for `I`, `C` and `D` and for sums of strings of them, `to_sparse` of every tensor (C45); states are occupation numbers, operators act on them with the sign of the occupied modes before theirs (`Spec/Fock`) | C52 with the symbols valued in matrices between states; the tensor of a symbol is the operator of one site, embedded with the parity of the sites before it; the chain of tensors by induction over the sites, slots of a bond reindexed as rows and columns of the symbolic matrices |
| C54 | `QCSymbolicMPO` (all assignments to the symbolic row, matrices and column of the sites, the tables of left and right operators), `get_site_ops` for the conventional symbols, `deflate`, `to_sparse`, `FCIDUMP.t` and `v`; the C++ extension is left out | what each operator of a bond stands for is a sum over the orbitals to the left; one site turns these sums into those of the next bond (algebra with the anticommutation rules, `Proof/ConvAlg`); positions in the tables are a bijection (`Proof/ConvPos`); every symbol has the charge of its place (`Proof/ConvEnts`); a generic chain lemma for tensors from symbolic matrices (`Proof/CellChain`); ranks by linearity and C31 |
| C55 | no new code: `MPS._matmul`, `MPS._dot` and the operator of C52/C54 together | application keeps blocks bosonic, except that the last tensor may be fermionic as a whole (`EvenInside`, `Proof/ApplyEven`), so the state after a product is again of the kind the product accepts; the sum over physical legs is a sum over occupation-number states because the basis of a site lists the four states of an orbital once each; C20, C21 and C54 give the rest |
| C56 | `Model/SiteMpo`: `IdentityMPO`, `SiteMPO`, `to_sparse` with the charge `dq`; site operators of C53/C54 | the tensors have one row and one column, so the chain of C54 (`cell_chain`) is a product with one factor different from the identity; the labels of the bonds link because the charge is subtracted on the left of every site but the first; `C55` gives the action on states, and transposition of single ladder operators gives adjoints and density matrices |
| C57 | `Model/MpeSweep`: `ones`, identities at the ends, the contractions that extend an environment, tensors of a sub-system, `expectation`; bookkeeping of C33; canonicalisation of C21 | a network is a nested sum (`net`) that can be cut at every bond: an environment is the sum over one side of the cut, by induction over the sites (`leftOver_spec`, `rightOver_spec`); canonicalisations keep amplitudes and bonds (`SameState`); `C20` turns the sum into what `expectation` computes |
| C58 | `Model/MpeLocal`: `_hdot` of states and its fold (merging), `_pdot` of a list of operator tensors with a state tensor, `@` for one-tensor states, `expectation` of such | contraction lemma of C12 for each step; for two operator tensors the parts of each tensor cannot meet on the same label where a sign is due (`pdotStep_inner`), so no sign is lost; one-site windows directly from the environments of C57, two-site windows from C57 and merging (`merge_go`); environments depend on tensors outside only (`leftEnv_congr`) |
| C59 | `Model/Mpe`, `Model/MpeSweep`, `Model/MpeLocal` as for C33, C57, C58; histories as the inductive `SweepRun` (`Spec/MpeCanon`) | invariant `Mixed`: where the object has a left (right) environment, the sites before (after) it are isometries on the present bonds; each step of `build_envs` with QR keeps it and the state (`LeftStep`, `RightStep`); replacing a window keeps it since environments beyond are dropped; then isometries at both ends of a chain drop out of inner products (`innerProduct_window`), and merged tensors have the amplitudes of the window as components (`effMps_merge`) |
| C60 | `Model/Linalg` as for C35 (now with division by a zero norm as failure), in an inner-product space (`Spec/Davidson`); `np.linalg.eigh` by contract | invariant `DavidsonVar`: the trial vectors are orthonormal, and any upper bound the guesses allow for the j-th value still holds in the trial space; the rotated vectors are a Ritz family (`davidsonRitz_family`), whose first vectors survive a restart; bounds by dimension counting (`exists_orthogonal`) |
| C61 | `SparseTensor.tensor_svd` as it stands (`Model/TensorSvd`); the cast of entries into the real matrices is the parameter `real`; SVD by contract; the order that `sorted` uses on label tuples is a parameter | the tables of `kron_sum` tile rows and columns of each sector (`kronSum_table`, `leftTable`, `rightTable`), so each sector is a split in the sense of the FermionTensor proof (`secOk`, `SplitOf`), whose factor lemmas then apply |
| C62 | `SweepAlgorithm.decomp_two_site` for `DecompositionTypes.DensityMatrix` without MPI (`Model/Decomp`); noise as a parameter; real numbers in the theorems | the sum of density matrices entry by entry (`densitySum_spec`); a singular value decomposition of a positive symmetric matrix is spectral (`DensMat.spectral`), what a projection loses (`lost_svd`), Ky Fan's bound for any other projection (`lost_least`), via C61 and C22 |
| C63 | `MPE.__getitem__`, `__setitem__`, `build_envs`, `_eigs` (slow path) and the inner loop of `DMRG.solve`, as a history of windows (`Spec/DmrgStep`: `DmrgRun`), from `Model/Mpe`, `Model/MpeSweep`, `Model/MpeLocal`, `Model/Linalg`; Davidson's method works on the vector of components of the merged tensor with an even number of fermions; decomposition without truncation | kets with one component (`unit_ket`) make the local matrix the whole matrix between states (C59, `WindowProblem.units`), so it is Hermitian and bounded below; then C60 on this map (`C63_step`), induction over the windows (`C63_run`), and calculations of any length exist (`C63_continue`) |
| C64 | `GreensFunctionFunctor.__matmul__`, `real_part` and `MPE.solve_gf` (`Model/Green`) with `conjugate_gradient` of C36; the product with the local operator is a linear map | the functor is `(H + ω)² + η²`; the residual of C36 becomes the residual of the complex equation; `H + ω + iη` is bounded below by `|η|` |
| C65 | `MPE.rk4` and the sub-steps of `TDDMRG.solve` (`Model/TimeStep`) without `brem`, the blocks the operator cannot reach; the product with the local operator is a linear map | coefficients of the polynomial; tail of the exponential series; for Hermitian operators in the eigenbasis, with Chebyshev's inequality for the energy |
| C66 | `MPE.multiply` (slow path, `Model/Linear`), `MPE.__getitem__`, `__setitem__`, `build_envs` with bra and ket different, and the inner loop of `Linear.solve`, as a history of windows (`Spec/Linear`: `TwoRun`, `LinearRun`); decomposition without truncation, no noise; the ket is put back unchanged | an object with bra and ket exchanged has its environments at the same places (`Mpe.Shadow`), so the invariant of C59 holds for the bra, too; the local product is the projection of `operator |ket⟩` on the bras of the window (`pair_problem`), hence Pythagoras (`linear_core`, `C66_step`), induction over the windows (`C66_sweep`); sweeps of any length exist (`C66_continue`) |
| C67 | `FlatSparseFunctor` and `GreensFunctionFunctor.__matmul__` (`Model/Functor`): tables of legs, skeletons of argument, intermediate and result, the plan of matrix products on offsets with its interleaving, the products and the transposition of the C++ kernels on flat arrays, `prepare_vector`, `finalize_vector`. Not modelled: `diag`, MPI | a plan run on offsets is a contraction (`plan_run`, by the chunk structure of C16); every nonzero term has a row in each table (`cinfos_has`, `work_rows`), so nothing is dropped; the two contractions compose to the formula of C58 (`apply_entry`); scalar products as in C41 |
| C68 | `MPSInfo.set_bond_dimension_fci`, `set_bond_dimension`, `MPS.ones`, `MPS.random` (`Model/MpsInfo`); the numbers drawn are an argument. Not modelled: the call-back, `set_bond_dimension_occ` (C++), the thermal limit | counts by induction over the sites (`count_left`, `count_right`) and C06; truncation by induction with C07: a label of a bond has a predecessor on the bond before; amplitudes of filled site tensors are sums over paths (`ampl_path`); completeness (`C68_exact`): the continuations of the configurations to the left of a bond span a space of dimension at most the count, a spanning family of it gives the entries |
| C69 | `FlatSparseTensor.left_canonicalize`, `right_canonicalize`, `left_svd`, `right_svd` with the Python kernels (`Model/FlatCanon`); `kron_add` (`Model/FlatKron`) with dicts whose keys are codes or labels (`PyKey`) | the kernel writes the pieces of each group to the rows of the output; the rows are a permutation of the blocks of the groups (`scattered_same`), the groups are the groups of the block version renamed by the coding (`groupBy_rename`); direct sums by an invariant of the two copying loops (`place_fold`) |
| C70 | `Heisenberg.build_mpo` with `get_site_ops` and `to_sparse` (`Model/HeisenbergMpo`), on top of `right_svd` of C52 and the spin matrices of C43 | the symbols are interpreted as matrices on all sites; each symbolic tensor becomes a block tensor with the same matrix elements (`value_site`, `toSparse_site`), the chain by induction over the sites from the right (`chain_ok`); total spin by commutator algebra (`pair_commutes`). Bonds with sites outside the chain are not modelled |
| C71 | `SymbolicSparseTensor.simplify`, `get_remap`, `MPS.simplify`, `to_sparse` of vectors and matrices (`Model/Simplify`), and the symbolic tensors of `QCSymbolicMPO` | one bond: the entries that go meet only zeros, the others are renumbered alike on both sides (`chain_bond`); both sweeps by induction with the invariant that the bonds passed so far have no idle state; linked to block tensors by the chain lemma of C54 |
| C72 | `SliceableTensor` (`__getitem__`, `_dot`, `_tensordot`, `to_sparse`), `SparseTensor.to_sliceable`, `MPS.to_sliceable`, `MPS.amplitude` (`Model/Sliceable`) | each block stands at the place of its labels, which is injective on the labels of the legs (`Rep`); a slice keeps the blocks with the chosen labels (`slice_mid`); the left-to-right product by induction over the sites (`fold_dot`); at the end there is at most one block. Not modelled: `SliceableTensor.to_dense`, numpy integers as indices, the constant of the state (ignored by the code) |
| C73 | `_trace_preprocess`, `SparseFermionTensor.dq`, `SparseFermionTensor.trace` (`Model/FermTrace`) | the diagonal sum of one block (`trace_entry`), then the accumulation as in C12 (`traceBlocks_spec`); sign by C24; `C73_contract`: the phase of one more axis (`computePhase_snoc`) is what the trace sees between the two legs (`computePhase_two`); `C73_pair_order`: pairs of equal parity can be exchanged without a sign (`pairProd_pairs`). Not modelled: negative axes, pairs of legs with the same sign, `FlatFermionTensor.trace`, the cached `shape` |
| C74 | `SparseTensor.symmetry_fuse`, `MPS.symmetry_fuse` (`Model/SymmFuse`), tables of C09 | windows of one label tile the new sector (C09), so a new place has one owner (`symm_owner`); one block adds exactly its own entries (`symmStep_spec`), induction over the blocks (`symmetryFuse_fold`); contraction: the sum over the new basis is the sum over the old one in another order (`relabel_perm`, `contract_same`); states: induction over the sites with the bonds read off the tensors as in C18 (`symmSites_spec`). Not modelled: `dtype`, the attribute `dq` |
| C75 | `MPS.get_bipartite_entanglement` (`Model/Entangle`) with abstract QR and SVD | the sweep keeps the sites behind the current one right-isometric and those before it left-isometric, so the values of each bond are Schmidt values of the state (`bondValues_spec`); their squares are the nonzero eigenvalues of the density matrix, by `charpoly (A B)` against `charpoly (B A)` (`eigenvalues_of_factor`). The specification is the sum of `Real.negMulLog` over the eigenvalues of `M Mᴴ / tr (M Mᴴ)`. Sites are block-sparse tensors; the code reads `s.data`, which only flat tensors have (C69 relates the two) |
| C76 | `Model/FermAdd`: `_add`, `_subtract` of fermionic tensors in block and flat form, with numbers, the reported `shape` | the loops are those of C11/C17; transposition is linear by the sign formula of C25, hence contraction (C26) and trace (C73); the reported shape by an invariant over the labels seen; the two defects by concrete tensors |
| C77 | `Model/FlatFermTrace`: `FlatFermionTensor.trace` (grouping of the blocks, sums, packed result) | the groups partition the contributing blocks (`groupRows_spec`), so the entries of the packed result are the sum over all contributions, which is the loop of C73; equality of codes is equality of labels |
| C78 | `Model/FermPhase`: `compute_phase`, `compute_phase2`, `compute_phase3` of `src/flat_fermion.cpp` (permutation of the odd legs, loop over positions, walk along a cycle) | loop invariant: the tagged positions are closed under the permutation and `n` is the sign of the permutation restricted to them (the walk adds one cycle, whose length is the order of `cycleOf`); Mathlib's product formula for the sign turns it into pairs of odd legs, the specification `reorderSign` of C24 |
| C79 | `Model/FlatFermDot`: `FlatFermionTensor._transpose`, `_tensordot` and their kernels | with C78 the kernels are the plain flat kernels on rescaled blocks (`transpose_pack`, `dotCore_pack`), so C47 and C48 apply; the block form is also the plain contraction of rescaled blocks (C26). Not modelled: order of the output blocks in the hash table, storage order of the matrix products, 64-bit limit on legs |
| C80 | `Model/Precond`: `_olsen_precondition`, `_precondition` with a real diagonal; `Model/Linalg`: `conjugate_gradient` | division by the gap is self-adjoint for the scalar product, so the projection makes the corrected vector orthogonal; the tested quantity is a sum of squares with positive weights; combined with C36 for what the solver returns |
| C81 | `Model/NormAxis`: `normalize_along_axis`, `add_dm_noise`, `add_wfn_noise` (the perturbation itself, the random tensor and the MPI sum are parameters) | invariant of the first loop: the dictionary holds the weight of the blocks seen so far; weights of blocks are weights of entries because the labels are distinct; the noise by homogeneity of the norm |
| C82 | `Model/Ancilla`: `build_ancilla_mpo` with `FermionTensor.ones`, `diag`, `_tensordot` with no contracted leg, `transpose`, `infos`; `Spec/Ancilla`: matrix elements with given parities | the identity tensor has the entries of a product of two unit matrices; labels missing in it do not occur in the site, so nothing is lost; induction over the bonds |
| C83 | `Model/BondDim`: `MPS.bond_dim`, `MPS.show_bond_dims`; `Spec/BondDim`: used states of a bond, sums of products across a cut | the union of the bonds read off two neighbours has the dimensions of the used labels (`occ_count`, C06); the sum over one bond is pulled out of the amplitude (`ampl_cut`), unused labels give zero |
| C84 | `Model/OpCanon`: `FermionTensor.left_canonicalize` and `right_canonicalize` in reduced mode | a block of the odd or even part becomes a block with the part as an extra label on a leg that is not cut off (`Tag.block`, `Tag.block2`); the factorisation commutes with this (`canon_tag`, `canon_tag2`), so that the facts behind C21 apply |
| C85 | `Model/OpSvd`: `FermionTensor.left_svd` and `right_svd` with a reduced decomposition (with `full_matrices=True`, the default, the reshape fails or the bonds of the factors differ unless the stacked matrices are square, and this is not modelled) | as C84: the part becomes an extra label (`svd_tag`, `svd_tag2`) and the facts behind C50 apply |

## Where the code does not do what a reader would expect

Each of these is a theorem with a concrete witness, next to the theorem for the restricted claim that does hold.

* `conjugate_gradient` with the diagonal preconditioner tests `⟨r / diag, r⟩`. With diagonal entries of both signs this can vanish for a large residual; for `diag(1, -1) x = (1, 1)` it returns `x = 0` as converged (`C80_false_convergence`).
* `_olsen_precondition` divides by `⟨c, c / (ld - diag)⟩`, which can vanish for a normalised `c` when `ld` lies inside the diagonal (`C80_breakdown`).
* `normalize_along_axis` adds `ndim` to a negative axis and then indexes a tuple with it, so an axis between `-2 ndim` and `-ndim - 1` is wrapped twice instead of raising (`C81_wraps_twice`).
* `build_ancilla_mpo` reads the bond from the blocks of the site tensor, so a site without blocks raises an `IndexError` (`C82_site_without_blocks`).
* `FlatFermionTensor._transpose` (fermion.py 2005) returns a tensor without blocks unchanged, so its pattern is not permuted; the block form permutes it (`C79_empty_keeps_pattern`).
* A full contraction of flat fermionic tensors (fermion.py 1994-1995) reads `data[0]` and raises `IndexError` when no blocks match; the block form returns a tensor without blocks (`C79_tensordot`, `C79_no_common_block_differs`).
* `FlatFermionTensor.trace` raises (`np.vstack` of nothing) when no stored block is diagonal on the traced legs; the block form returns a tensor without blocks (`C77_no_diagonal_block`, `C77_no_diagonal_block_differs`).
* Flat fermionic subtraction (fermion.py 1830) returns `b` for `a - b` when `a` has no blocks; it should return `-b` (`C76_flat_subtract_from_empty`, `C76_flat_subtract_wrong`). The non-fermionic flat form (flat.py 567) negates.
* Block-form fermionic subtraction (fermion.py 1332) keeps the cached `shape` of `a`, which is wrong when `b` brings new labels (`C76_subtract_shape_wrong`); addition recomputes it.
* Not modelled, from reading: a unary ufunc such as `-T` on a block-form fermionic tensor reads `input[0].shape` (fermion.py 1380-1429), where `input` is the Python builtin, so it raises `TypeError`.
* C01: packing of `SZ` labels collides outside its range.
* C07: `BondInfo.truncate` can make a sector larger.
* C18: `MPS._add` of states with repeated labels in a site, and edges whose labels the other state lacks, lose blocks.
* C20: `MPS @ MPS` and MPO times MPS return zero, without the constants, as soon as one site tensor has no block; an operator with a constant
  term cannot be applied.
* C21: canonical sites are isometries only if every tensor has a definite charge.
* C22: `truncate_svd` discards everything when no value survives the cutoff; the `FermionTensor` version adds discarded weights from the largest
  value on and compares squared with plain cutoffs.
* C23: renormalisation is skipped when the limits per sector add up to the number of values.
* C26: contraction of legs with incompatible signs.
* C33, C34: environments of `MPE` become stale when a tensor behind the centre changes; saving a cached environment again is ignored.
* C36: `conjugate_gradient` raises when it converges in exactly `max_iter` steps.
* C38: commas and arrows separate alike, so `ab->bc,ac` is read as `ab,bc->ac`.
* C40: in Z4 the creation operators and the Hubbard Hamiltonian have no definite charge; `measure_SZ`, `onsite_U` and
  `ParticleNumberAlpha/Beta` repeat block labels in U1, Z2, Z4; `ParticleNumberAlpha/Beta` give zero on the doubly occupied state.
* C41: a colliding cache key of `Constructor.tensor_to_vector` puts blocks into wrong slots; with one leg the charge is ignored. (Not a theorem:
  with `flat=False`, `tensor_to_vector` assigns an array to one element of a vector and raises unless all blocks have one entry, and then
  `np.concatenate` of numbers raises.)
* C42: Davidson thresholds set for one sweep stay for the next ones.
* C44: `get_layers` with a cyclic graph.
* C46: `energy_tot` of the general variant counts differently from the density matrices.
* C49: in-place negation in `FermionTensor._tensordot` needs blocks of definite parity.
* C50: `compress` reports the largest error of a bond, while the squared distance is the sum over all bonds.
* C51: with all legs on one side `tensor_qr` ignores the order of the legs, and with `mod="qr"` all legs are on the second factor. (The
  documentation of `absorb` also has two cases exchanged: `0` splits the values onto both factors, `None` returns them.)
* C54: `QCSymbolicMPO` with one orbital: the row has an entry for every operator, the table of right operators has one, and `to_sparse`
  raises. For one-electron integrals that are not symmetric the operator is the one of their symmetric part.
* C56: `build_site_mpo` with a site outside the lattice returns the identity and does not fail; a negative site is not counted from the end. With one
  orbital the right edge has the label of the operator, with more orbitals the label of the vacuum.
* C57: `expectation` of a whole object with a charge-changing operator is 0, while its windows give the right number; with a constant in the operator
  and a bra that differs from the ket, the windows add the constant times the overlap of the tensors in the window. (Not a theorem: a bra or ket
  tensor without blocks makes the contraction of an environment raise, so the theorems assume states that are not zero.)
* C58: `operator @ state` for a state of one tensor raises when the operator without its constant gives zero; with three or more operator tensors the sign of the
  parity-changing part of a middle tensor is lost where the other part has the same labels, so the number of a merged window of three sites can be wrong.
* `tensor_svd` copies the blocks into real matrices (`np.zeros`), so for complex tensors the factors multiply to the real part (`C61_complex_violated`).
* Without canonicalisation the constant of an operator counts with the norm of the window tensor in the local problem, not with the norm of the state (C59 needs canonicalisation for this).
* `decomp_two_site` with `DecompositionTypes.SVD` asserts that it does not get a list, but `DMRG.solve` always passes a list, so this type of decomposition raises (seen when reading; only the density-matrix type is modelled).
* C66: with a constant in the operator and a bra that differs from the ket, `multiply` adds the constant times the tensor of the ket, which is not a projection
  of the state (`C66_constant_fails`). (Not a theorem: `Linear.solve` keeps the least norm of a sweep, although the norms go up, so what it reports is the first one.)
* C67: components of the state whose labels do not occur in the operator are dropped by `prepare_vector`, so that the constant of the operator is not applied to them
  (`C67_uncovered_lost`). With `symmetric=False` (used by `multiply` and the time steps) the constant times the argument is added position by position to a result
  that may have different blocks (`C67_constant_misplaced`).
* C69: the Python kernel of the flat `kron_add` looks up codes of labels in bonds keyed by labels, so it raises (`C69_direct_sum_raises`); the theorem on the value
  assumes bonds keyed by codes. (Not theorems: the Python kernel of the flat `left_svd` without indices returns the last dense factor in place of the list of factors;
  the theorem is for the list. `truncate_svd` of flat tensors ignores `norm_cutoff`.)
* C71 is for tensors made by the symbolic constructors. (Not a theorem: tensors from `SymbolicSparseTensor.from_sparse` or `to_symbolic` keep their entries in a list, which cannot be
* C72: with `info` that lacks a label of the state nothing is refused; a block with that label is stored at the place of the first label and its amplitude is reported for that label (`C72_missing`). Without `info` the same numbers can name another state (`C72_own_shifts`). `amplitude` ignores the constant of the state.
* C73: `trace` of a fermionic tensor without blocks raises `IndexError` (`C73_empty`), so `contract` followed by `trace` can fail where contracting all legs at once gives an empty tensor. `FlatFermionTensor.trace` (not modelled) also fails when no block lies on the diagonal.
* C74: `MPS.symmetry_fuse` hands on `dq` unchanged (mps.py:615), a label of the higher symmetry on a state whose other labels are of the lower one (read from the text; `dq` is not modelled).
* C75: `get_bipartite_entanglement` of the zero state gives `nan` (`C75_entropy`); for sites that are not flat tensors it fails, because `SparseTensor` has no `data` (read from the text).
  indexed by an array, so `simplify` raises for vectors among them.)
* (Not a theorem: `build_mpo` ignores `max_bond_dim` unless the flat path is taken.)

## Trusted base

* The Lean 4.33.0 kernel.
* Axioms: at most `propext`, `Classical.choice`, `Quot.sound` (checked with `#print axioms`). No axioms are added; no
  `sorry`, `native_decide`, `bv_decide`.
* The hand transcription of the Python into the model (definitions with line citations).
* The conventions above (exact arithmetic, no fixed-width wrap-around, dense linear algebra by contract).

Not modelled: the C++ kernels in `/repo/src` (except those of C67 in `flat_functor.cpp`; kernels that repeat a Python function are taken to agree with it), automatic differentiation copies in `pyblock3/algebra/ad`, printing, timing, MPI
communication, file system failures, the SVD type of `decomp_two_site`, the formulas for noise, the loops of `GreensFunction.solve` and `TDDMRG.solve`
around a step.
