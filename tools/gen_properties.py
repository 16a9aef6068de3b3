import json
P=[]
def p(i,title,statement,quant,why,anchors):
    P.append(dict(id=i,title=title,statement=statement,quantifier=quant,why_tests_cant=why,anchors=anchors))
B="include/macis/bitset_operations.hpp"; S="include/macis/sd_operations.hpp"; H="include/macis/hamiltonian_generator"
A="include/macis/asci"; U="include/macis/util"; SP="src/sparsexx/include/sparsexx"
p("C01","Lowest/highest set bit queries are exact",
 "For every determinant width and every non-empty bitset, ffs returns one plus the index of the lowest set bit and fls returns the index of the highest set bit.",
 "all widths N, all bitsets of width N","four width-dependent code paths and 2^N inputs each; the empty bitset is never exercised by tests",
 [B+": ffs, fls"])
p("C02","Occupied orbital list is exact and sorted",
 "bits_to_indices returns precisely the indices of the set bits, in strictly increasing order, so its length equals the population count and the bitset can be rebuilt from it.",
 "all widths, all bitsets","exponentially many bitsets; loop terminates only because each iteration clears one bit",
 [B+": bits_to_indices"])
p("C03","full_mask and width conversion select exactly the low bits",
 "full_mask(i) has exactly the bits below i set for every i up to the width; truncating an expanded bitset gives it back, and splitting a determinant into its low and high halves loses nothing.",
 "all widths, all mask sizes, all bitsets","boundary values (0, N, N/2) differ per width path",
 [B+": full_mask, truncate_bitset, expand_bitset, bitset_lo_word, bitset_hi_word"])
p("C04","Determinant comparison is a strict total order on every width",
 "bitset_less(x,y) holds exactly when the unsigned integer encoded by x is smaller than that of y, in all of its width-specific implementations; therefore it is a strict total order and sorting/uniquing by it identifies exactly equal determinants.",
 "all widths, all pairs/triples of bitsets","ordering axioms quantify over all triples; violations corrupt std::sort",
 [B+": bitset_less, bitset_less_comparator"])
p("C05","Occupied/virtual split partitions the orbital space",
 "For a determinant supported on the first norb orbitals, the occupied and virtual lists are sorted, disjoint and together are exactly {0..norb-1}; in the active-space variant they partition the set of active orbitals.",
 "all norb, all determinants in the space, all active masks","all subsets of the orbital space",
 [S+": bitset_to_occ_vir, bitset_to_occ_vir_as"])
p("C06","Reference determinant is the aufbau state",
 "canonical_hf_determinant(na,nb) occupies exactly the lowest na alpha and nb beta orbitals; with orbital energies it occupies na (nb) orbitals none of which is above an unoccupied one in energy, ties broken by orbital index.",
 "all na, nb within the half width, all orbital energy vectors","all energy vectors with arbitrary ties",
 [S+": canonical_hf_determinant"])
p("C07","Single excitations are enumerated completely and without repetition",
 "generate_singles lists every determinant obtained from the input by moving exactly one electron from an occupied to a virtual orbital, each exactly once, and nothing else.",
 "all widths, all norb, all determinants in the space","completeness ranges over all determinants of all widths",
 [S+": append_singles, generate_singles, generate_singles_spin, generate_singles_as"])
p("C08","Double excitations are enumerated completely and without repetition",
 "generate_doubles lists every determinant obtained from the input by moving exactly two electrons to two virtual orbitals, each exactly once, and nothing else.",
 "all widths, all norb, all determinants in the space","completeness ranges over all determinants of all widths",
 [S+": append_doubles, generate_doubles, generate_doubles_spin, generate_doubles_as"])
p("C09","CISD space is exactly the ball of excitation rank two",
 "generate_cisd_hilbert_space(norb, det) contains the reference, and every determinant with the same numbers of alpha and beta electrons that differs from it by at most two moved electrons, each exactly once, and nothing else.",
 "all norb, all reference determinants","combinatorial completeness for all sizes",
 [S+": generate_cisd_hilbert_space, generate_singles_doubles_spin, generate_cis_hilbert_space"])
p("C10","Full CI space enumerates the whole sector exactly once",
 "generate_hilbert_space(norb,na,nb) lists each determinant with na alpha and nb beta electrons in norb orbitals exactly once and nothing else, so its size is binom(norb,na)*binom(norb,nb).",
 "all norb, na, nb","the space grows factorially; enumeration relies on permutation stepping",
 [S+": generate_combs, generate_hilbert_space"])
p("C11","Excitation signs follow the fermionic parity rule",
 "The sign returned for a single excitation p->q equals -1 to the number of occupied orbitals strictly between p and q, and the double-excitation sign equals the product of the two successive single-excitation signs, i.e. the sign obtained by applying creation/annihilation operators one by one.",
 "all widths, all determinants, all orbital pairs","parity over all determinants",
 [S+": single_excitation_sign, single_excitation_sign_indices, doubles_sign, doubles_sign_indices"])
p("C12","Determinant text encoding round-trips",
 "from_canonical_string(to_canonical_string(d)) = d for every determinant, and to_canonical_string uses 2/u/d/0 for the four occupations of every orbital.",
 "all even widths, all determinants","2^N inputs for each width",
 [S+": to_canonical_string, from_canonical_string"])
p("C13","Hamiltonian matrix elements are those of the second-quantised Hamiltonian",
 "For every pair of determinants in the same spin sector, matrix_element(bra,ket) equals <bra| sum T(p,q) a+_p a_q + 1/2 sum V(pq|rs) a+_p a+_r a_s a_q |ket> with the integrals handed to the generator (exact arithmetic, V with the usual permutational symmetry).",
 "all numbers of orbitals, all integrals with 8-fold symmetry, all pairs of determinants in one sector","all determinant pairs and all integral values; sign errors only surface for particular occupations",
 [H+"/matrix_elements.hpp: matrix_element, matrix_element_4, matrix_element_22, matrix_element_2, matrix_element_diag", "include/macis/hamiltonian_generator.hpp: generate_integral_intermediates"])
p("C14","The Hamiltonian is symmetric",
 "matrix_element(bra,ket)=matrix_element(ket,bra) for all determinants of one spin sector (real integrals with T symmetric and V 8-fold symmetric).",
 "all integrals with the symmetry, all determinant pairs","all pairs and integrals",
 [H+"/matrix_elements.hpp"])
p("C15","Determinants differing by more than two moved electrons do not couple",
 "matrix_element(bra,ket) is exactly 0 whenever bra and ket differ in more than four spin orbitals; in one sector this is also what the second-quantised Hamiltonian gives.",
 "all determinant pairs, all integrals","all pairs",
 [H+"/matrix_elements.hpp: matrix_element"])
p("C16","Fast diagonal updates agree with recomputation",
 "The incremental diagonal formulas (fast_diag_single, fast_diag_ss_double, fast_diag_os_double) applied to the old diagonal energy and single-orbital energies equal the diagonal matrix element of the excited determinant.",
 "all integrals, all determinants and all valid single/double excitations of them","all occupations and integrals",
 [H+"/fast_diagonals.hpp", "include/macis/hamiltonian_generator.hpp"])
p("C17","Sparse Hamiltonian block is the thresholded dense block",
 "make_csr_hamiltonian_block over a bra range and a ket range gives a well-formed CSR matrix whose (i,j) entry is matrix_element(bra_i,ket_j) if its magnitude exceeds the threshold and absent otherwise (for non-empty determinants, or for lists from one sector), columns strictly increasing in each row, and the row pointer monotone from 0 to nnz.",
 "all determinant lists, all thresholds","all lists, including empty ones and masked determinants",
 [H+"/double_loop.hpp: make_csr_hamiltonian_block_", "include/macis/hamiltonian_generator.hpp: make_csr_hamiltonian_block", "include/macis/csr_hamiltonian.hpp: make_csr_hamiltonian"])
p("C18","Distributed Hamiltonian equals the serial one",
 "Stacking over the ranks the local rows of make_dist_csr_hamiltonian (diagonal tile plus off-diagonal tile) reproduces make_csr_hamiltonian entry by entry, for every number of ranks; the tiles never overlap.",
 "all determinant lists, all rank counts","every communicator size and list length",
 ["include/macis/csr_hamiltonian.hpp: make_dist_csr_hamiltonian", SP+"/matrix_types/dist_sparse_matrix.hpp"])
p("C19","RDMs reproduce the energy",
 "Contracting the 1-RDM with T and the 2-RDM with V gives the expectation value sum_ij C_i C_j H_ij over the weights that pass the 1e-16 drop test, in exact arithmetic, for real-symmetric integrals and every CI vector in one sector; the 1-RDM is the textbook one element by element, the 2-RDM after symmetrisation of its last index pair.",
 "all CI expansions, all integrals with 8-fold symmetry","all vectors and integrals",
 [U+"/rdms.hpp", H+"/rdms.hpp: form_rdms", H+"/double_loop.hpp: form_rdms"])
p("C20","RDM trace counts the electrons",
 "The trace of the 1-RDM is the number of electrons times the squared norm of the CI vector (up to dropped weights), for distinct determinants of one sector.",
 "all CI expansions in one sector","all vectors",
 [U+"/rdms.hpp: rdm_contributions", H+"/double_loop.hpp: form_rdms"])
p("C21","Constraint excitations are exactly the admissible ones",
 "For a constraint (orbital string C, its lowest orbital, the mask of the orbitals below) inside an orbital mask, generating constrained single (into a fresh container) or double excitations of a determinant yields exactly the single/double excitations inside the mask that satisfy the constraint (contain C and nothing else at or above its lowest orbital), each once; the constraints the program builds (triplets and their refinements) are of this form and the satisfaction test decides this predicate.",
 "all widths, determinants, masks, constraints","all determinants times all constraints",
 [A+"/mask_constraints.hpp: generate_constraint_single_excitations, generate_constraint_double_excitations, generate_constraint_singles, generate_constraint_doubles, satisfies_constraint, make_triplet"])
p("C22","Workload counts equal the work generated",
 "The predicted numbers of constrained singles and doubles (used for load balancing) are the lengths of the lists actually generated, and the predicted work of a constraint is zero exactly when no determinant within a double excitation satisfies it, so dropping constraints without work loses nothing.",
 "all widths, determinants, masks, constraints","all determinants times all constraints",
 [A+"/mask_constraints.hpp: count_constraint_singles, count_constraint_doubles, constraint_histogram"])
p("C23","Triplet constraints partition the search space",
 "Every spin string with at least three electrons satisfies exactly one triplet constraint (spaces of up to 66 orbitals), so that the distributed search neither misses nor duplicates it.",
 "all widths, all orbital numbers up to 66, all strings","all determinants",
 [A+"/mask_constraints.hpp: make_triplet, satisfies_constraint, dist_constraint_general"])
p("C24","Splitting and distributing constraints preserves coverage",
 "Replacing a constraint by its refinements (one further electron below its lowest orbital) partitions those of its determinants that have a further electron; end to end, every string reached by at most a double excitation from a searched string and having at least 3 + nlevels electrons satisfies exactly one constraint among those handed to all ranks together, whatever the rank count, the threshold and the order in which partition and sort leave the constraints.",
 "all constraints, strings, wave functions, recursion depths, rank counts, thresholds, reorderings","arbitrary depth of recursion, electron numbers and rank counts",
 [A+"/mask_constraints.hpp: dist_constraint_general"])
p("C25","Every constraint is processed by exactly one rank",
 "The load-balanced distribution of constraints assigns every constraint with work to exactly one existing rank, each assignment goes to a rank with minimal current load, and the final loads of any two ranks differ by at most the largest single work item.",
 "all workloads, all numbers of ranks","all workload vectors and rank counts",
 [A+"/mask_constraints.hpp: dist_constraint_general"])
p("C26","Accumulating ASCI scores loses and duplicates nothing",
 "sort_and_accumulate_asci_pairs turns any list of (determinant, score) pairs into one with strictly increasing distinct determinants, the same set of determinants, and for each the sum of its scores.",
 "all lists of pairs, all behaviours of the library sort on ties","all lists and orders; the in-place unique loop",
 [A+"/determinant_sort.hpp: sort_and_accumulate_asci_pairs"])
p("C27","Largest-copy retention and reordering by coefficient",
 "keep_only_largest_copy_asci_pairs returns strictly increasing distinct determinants, the same set as the input, each with the largest of its entries; reordering the CI vector by coefficient permutes determinant/coefficient pairs jointly into non-increasing absolute coefficient.",
 "all lists of pairs and coefficients, all behaviours of the library sort on ties","all lists",
 [A+"/determinant_sort.hpp: keep_only_largest_copy_asci_pairs, reorder_ci_on_coeff"])
p("C28","ASCI search returns the core plus the best candidates",
 "The determinant list returned by the (single-rank) search consists of a best choice of ndets_max - ncdets candidates (determinants outside the core with non-zero total score; nothing left out has a larger absolute score than something kept; all candidates if there are fewer) followed by the core determinants; it has no repetitions and at most ndets_max members.",
 "all contribution lists, core sizes, coefficients, and all behaviours of sort, partition and nth_element within their specification","all score lists",
 [A+"/determinant_search.hpp: asci_search"])
p("C29","Distributed selection equals a serial selection",
 "On several ranks the search returns a best choice of ndets_max - ncdets candidates among those of all ranks together plus the core, with exactly ndets_max members, whenever at least that many candidates exist and no tie straddles the cut.",
 "all rank counts, all distributions of candidates over ranks, all k, all random draws","all rank counts and distributions",
 [A+"/determinant_search.hpp: asci_search","include/macis/util/dist_quickselect.hpp"])
p("C30","Distributed quickselect returns the k-th ranked element",
 "dist_quickselect terminates on every rank with the same value, the k-th largest element of the multiset union of all local lists, whenever 1 <= k <= total size, whatever pivots are drawn.",
 "all rank counts, local lists (including empty), k, and random pivot choices","random pivots and every data distribution",
 [U+"/dist_quickselect.hpp: dist_quickselect"])
p("C31","Wavefunction growth schedule terminates within the limits",
 "With a growth factor of at least two and sizes that fit the size type, the (single-rank) growth loop requests strictly increasing sizes, never exceeds the target, and ends by an exception or with exactly the target number of distinct determinants.",
 "all growth factors and size parameters, all search outcomes","all parameter combinations and oracle behaviours",
 [A+"/grow.hpp: asci_grow"])
p("C32","Refinement either converges or reports failure",
 "asci_refine returns normally only if the last energy change was within tolerance and the determinant count never changed; otherwise it throws; it performs at most max_refine_iter iterations.",
 "all sequences of iteration outcomes, all parameters","all histories of energies",
 [A+"/refine.hpp: asci_refine"])
p("C33","Initial guess of the eigensolver is a unit vector on the smallest diagonal",
 "The serial diagonal guess on a zeroed vector is the unit vector of the first smallest diagonal entry; the distributed one is the same vector cut into the row blocks of the ranks whenever no rank is empty and the smallest entry is not among the remainder rows given to the last rank.",
 "all sizes, all rank counts, all diagonals","remainders of size modulo rank count",
 ["include/macis/solvers/davidson.hpp: p_diagonal_guess, diagonal_guess"])
p("C34","Wavefunction files round-trip",
 "Reading back a file written by write_wavefunction with the same width returns the same determinants in order with the same coefficients; the header names the determinant count, orbital count and electron numbers; mismatched sizes are rejected; an empty wavefunction leaves the file untouched.",
 "all wavefunctions","all wavefunctions, incl. empty",
 ["include/macis/wavefunction_io.hpp: write_wavefunction, read_wavefunction"])
p("C35","FCIDUMP write/read round-trips",
 "Reading a file newly written by write_fcidump gives back norb, the core energy, and T and V for all integrals with the usual permutation symmetry, whatever their magnitude, the leading dimensions and the previous contents of the destination arrays.",
 "all norb and integrals with symmetry","all integrals; order of writes and last-writer-wins",
 ["src/macis/fcidump.cxx: read_fcidump_norb, read_fcidump_core, read_fcidump_1body, read_fcidump_2body, write_fcidump"])
p("C36","FCIDUMP reading yields symmetric integrals and rejects bad lines",
 "Whatever the lines of the file, the one-body integrals read are symmetric and the two-body integrals have the full 8-fold symmetry; each element is given by the last matching line; 0 0 0 0 is the core energy, p q 0 0 a one-body and p q r s a two-body integral; negative indices and wrongly sized destinations are rejected.",
 "all sequences of data lines","all line orders and duplicates",
 ["src/macis/fcidump.cxx: line_classification, fcidump_line, read_fcidump_1body, read_fcidump_2body"])
p("C37","Binary RDM files round-trip",
 "read_rdms_binary returns what write_rdms_binary stored, for any leading dimensions of the destination, and throws when the orbital counts differ.",
 "all norb, RDMs, leading dimensions","all sizes",
 ["src/macis/fcidump.cxx: read_rdms_binary, write_rdms_binary"])
p("C38","Integral transformations implement the basis change",
 "two_index_transform returns C^T X C and four_index_transform returns Y(pqrs)=sum C_ip C_jq C_kr C_ls X(ijkl), for all dimensions and leading dimensions admitted by the interface.",
 "all dimensions, leading dimensions, matrices","all shapes; padded leading dimensions are not tested",
 ["src/macis/transform.cxx"])
p("C39","Active-space reduction preserves the energy",
 "The inactive energy plus the active Hamiltonian's energy for an active-space RDM equals the energy of the full orbital space with the RDM completed by doubly occupied inactive orbitals; energy_from_generalized_fock computes the same number.",
 "all orbital partitions, integrals with symmetry, RDMs with symmetry","all integral and RDM values",
 ["src/macis/fock_matrices.cxx"])
p("C40","Orbital rotation packing is lossless",
 "Packing the non-redundant rotation parameters into a matrix gives an antisymmetric generator, unpacking recovers them exactly, and the packed gradient agrees position by position with the matrix gradient.",
 "all inactive/active/virtual dimensions, all vectors","all block sizes including empty blocks",
 ["src/macis/orbital_rotation_utilities.cxx: linear_orb_rot_to_matrix, matrix_to_linear_orb_rot, fock_to_linear_orb_grad, fock_to_gradient", U+"/orbital_rotation_utilities.hpp: split_linear_orb_rot"])
p("C41","DIIS history is a sliding window",
 "After any sequence of additions the DIIS object holds exactly the last nmax (vector,error) pairs in order of addition.",
 "all histories of additions, all window sizes of at least one","all operation histories",
 [U+"/diis.hpp: DIIS::add_vector"])
p("C42","Distributed matrix rows form a contiguous partition",
 "The default row distribution assigns every row to exactly one rank, in rank order, with the remainder on the last rank; ownership queries and local extents agree; user supplied tiles are accepted only if they form such a partition.",
 "all matrix sizes, all rank counts, all custom tilings","all sizes and rank counts",
 [SP+"/matrix_types/dist_sparse_matrix.hpp"])
p("C43","Sparse format conversions preserve the matrix",
 "Converting CSC to CSR (counting sort) and CSR to COO gives a well-formed matrix denoting the same matrix, with sorted rows.",
 "all sparse matrices, sizes and index bases","all sparsity patterns, e.g. empty rows or non-square shapes",
 [SP+"/matrix_types/conversions.hpp", SP+"/matrix_types/csr_matrix.hpp", SP+"/matrix_types/csc_matrix.hpp", SP+"/matrix_types/coo_matrix_ops.hpp"])
p("C44","Sparse matrix-vector product is the matrix-vector product",
 "gespmbv on a CSR matrix computes alpha*A*V+beta*AV for every well-formed matrix, index base, block width and leading dimension, writes nothing else, and the result does not depend on the OpenMP schedule.",
 "all matrices, vectors, scalars, leading dimensions","all patterns and index bases",
 [SP+"/spblas/spmbv.hpp"])
p("C45","Distributed SpMV equals serial SpMV",
 "pgespmv with generated communication info gives each rank exactly its rows of the serial product, for every partition and sparsity pattern.",
 "all partitions, rank counts, sparsity patterns, vectors","all communication patterns",
 [SP+"/spblas/pspmbv.hpp"])
p("C46","Submatrix extraction selects exactly the block",
 "extract_submatrix(lo,hi) denotes the rectangular block; extract_submatrix_inclrow_exclcol denotes the selected rows with the column window removed; the two together restore the rows.",
 "all CSR matrices, all windows","all windows and patterns",
 [SP+"/util/submatrix.hpp: extract_submatrix, extract_submatrix_inclrow_exclcol"])
p("C47","Triangle, diagonal and trace utilities are exact",
 "extract_upper_triangle keeps exactly the entries on/above the diagonal, diagonal extraction and trace match the denoted matrix.",
 "all CSR matrices with sorted rows","all patterns, incl. missing diagonal entries",
 [SP+"/util/submatrix.hpp: extract_upper_triangle, extract_diagonal_elements, trace", SP+"/matrix_types/coo_matrix_ops.hpp: expand_from_triangle"])
p("C48","Permutation utilities are mutually inverse and act as permutations",
 "invert_perm inverts every permutation, permuting a vector forward and back is the identity, row/column permuted matrices denote the permuted matrix, and the permutation built from a partition lists every index once, grouped by part, preserving order in each part.",
 "all permutations, partitions, matrices, vectors","all permutations",
 [SP+"/util/permute.hpp"])
p("C49","Matrix-market writing and reading agree",
 "Writing a CSR matrix of either index base in matrix-market format with indices counted from one and reading it back as COO denotes the same matrix; the announced number of entries is the number written; the symmetric option is refused.",
 "all CSR matrices, both index bases","all matrices and index bases",
 [SP+"/io/write_mm.hpp", SP+"/io/read_mm.hpp"])
p("C50","Davidson subspace bookkeeping",
 "In exact arithmetic and for a symmetric operator and a normalised guess, the Davidson driver returns normally only with a normalised vector of residual below tolerance after at most min(max_m,N)-1 iterations; the returned energy is its Rayleigh quotient, not above that of the guess, not below the spectrum and within the tolerance of an eigenvalue; with max_m >= N it never gives up; Gram-Schmidt makes the new direction orthonormal to the basis and preserves the span.",
 "all matrices, guesses, tolerances, subspace limits","all residual histories and dimensions incl. 1",
 ["include/macis/solvers/davidson.hpp: davidson, p_davidson, gram_schmidt"])
p("C51","Two-electron residues are complete",
 "generate_residues appends exactly the determinants obtained by annihilating two distinct electrons (aa, bb, ab), each once.",
 "all widths, all determinants","all occupations",
 [S+": generate_residues"])
p("C52","Copying a distributed matrix preserves its distribution",
 "A copy of a distributed matrix reports the same row bounds and tiles as the original.",
 "all distributed matrices, default and user supplied row tiles","all tilings",
 [SP+"/matrix_types/dist_sparse_matrix.hpp: copy constructor"])
p("C53","Determinants of different sectors do not couple",
 "matrix_element(bra,ket) is 0 whenever bra and ket differ in their number of alpha or of beta electrons.",
 "all determinant pairs","mixed-sector pairs never appear in the tests",
 [H+"/matrix_elements.hpp: matrix_element"])
p("C54","Bit queries on the empty bitset",
 "On the empty bitset ffs returns 0 at every width, so that the answer cannot be confused with an occupied position, and fls is defined.",
 "all widths","four width-dependent code paths; the empty bitset is never exercised by tests",
 [B+": ffs, fls"])
p("C55","COO matrix-vector product",
 "gespmbv on a COO matrix computes alpha*A*V+beta*AV for every well-formed matrix and index base.",
 "all COO matrices, index bases, vectors, scalars","all patterns and index bases",
 [SP+"/spblas/spmbv.hpp: gespmbv (COO)"])
p("C56","CSR to dense conversion is exact",
 "convert_to_dense of a duplicate-free CSR matrix assigns exactly the stored positions of the column-major buffer and leaves the rest of the buffer alone; on a zeroed buffer the result is the matrix.",
 "all CSR matrices, index bases, leading dimensions, previous buffer contents","all patterns and index bases",
 [SP+"/matrix_types/dense_conversions.hpp: convert_to_dense (CSR)"])
p("C57","Sorting a COO matrix keeps the matrix and establishes the order",
 "sort_by_row_index / sort_by_col_index keep the denoted matrix, whatever permutation the unstable sort chooses among equal keys, and the result is sorted as the conversions require.",
 "all COO matrices, all outcomes of std::sort","all patterns; sort is unstable",
 [SP+"/matrix_types/coo_matrix_ops.hpp: sort_by_row_index, sort_by_col_index"])
p("C58","COO to CSR and COO to CSC conversions preserve the matrix",
 "Converting any row (column) sorted COO matrix to CSR (CSC) denotes the same matrix; unsorted input is rejected.",
 "all COO matrices, shapes and index bases","all patterns, e.g. empty rows or non-square shapes",
 [SP+"/matrix_types/conversions.hpp: csr_matrix(coo_matrix), csc_matrix(coo_matrix)"])
p("C59","COO to dense conversion is exact",
 "convert_to_dense of a duplicate-free COO matrix on a zeroed buffer gives the matrix, for every index base and every order of the parallel loop.",
 "all COO matrices, index bases, schedules","all patterns and index bases",
 [SP+"/matrix_types/dense_conversions.hpp: convert_to_dense (COO)"])
p("C60","expand_from_triangle rebuilds the symmetric matrix",
 "For every lower or upper triangular COO matrix expand_from_triangle yields a consistent COO matrix denoting the symmetric matrix; other matrices are unchanged.",
 "all COO matrices","missing diagonal entries",
 [SP+"/matrix_types/coo_matrix_ops.hpp: expand_from_triangle"])
p("C61","Distributing a serial matrix gives each rank its rows","Constructing a distributed matrix from a serial sorted square CSR matrix gives every rank exactly its rows, split in a zero-based diagonal tile and off-diagonal tile, for the default and every accepted user tiling; rejected tilings throw; the distributed product of the result is the serial product.","all square sorted CSR matrices, index bases, rank counts and tilings","all tilings, rank counts and patterns",["src/sparsexx/include/sparsexx/matrix_types/dist_sparse_matrix.hpp: dist_sparse_matrix(comm, A), dist_sparse_matrix(comm, A, row_tiles)"])
p("C62","2-RDM is the textbook tensor element by element","Every element (p,q,r,s) of the 2-RDM is 1/2 sum_ij C_i C_j <i|sum_st a+_ps a+_rt a_st a_qs|j>.","all CI expansions in one sector, all index quadruples","all vectors and all elements",[U+"/rdms.hpp: rdm_contributions_diag", H+"/double_loop.hpp: form_rdms"])
p("C63","The 1-RDM does not depend on requesting the 2-RDM","The 1-RDM obtained when the 2-RDM is not requested is the same as when it is.","all CI expansions","the null-output path is not compared in tests",[U+"/rdms.hpp: rdm_contributions"])
p("C64","Constraint excitation output is independent of prior container content",
 "Generating constrained single or double excitations overwrites the output container: the result never depends on what it held before.",
 "all determinants, constraints and prior contents","stale contents only matter for call histories no unit test exercises",
 [A+"/mask_constraints.hpp: generate_constraint_singles, generate_constraint_doubles"])
p("C65","The distributed constraint search covers every determinant",
 "For every electron number and orbital number, every determinant within a double excitation of the wave function satisfies some constraint handed to some rank.",
 "all widths, electron numbers, orbital numbers, splitting levels, rank counts","small electron numbers and more than 64 orbitals are never tested",
 [A+"/mask_constraints.hpp: dist_constraint_general, make_triplet"])
p("C66","Distributed selection with ties or few candidates",
 "The distributed search makes a best choice of candidates also when scores tie at the cut or when fewer candidates exist than requested or none is requested, as the serial search does.",
 "all rank counts, score lists with ties, candidate counts","ties and exhausted candidate spaces depend on the data distribution",
 [A+"/determinant_search.hpp: asci_search","include/macis/util/dist_quickselect.hpp"])
p("C67","Growth terminates for every growth factor",
 "asci_grow ends (normally or by an exception) for every growth factor, including 0 and 1.",
 "all settings and inputs","non-termination cannot be observed by a terminating test",
 [A+"/grow.hpp: asci_grow"])
p("C68","An ASCI iteration keeps the dominant determinants",
 "One (single-rank) asci_iter keeps the min(ncdets_max, size) determinants of largest absolute coefficient, adds a best choice of the candidates scored from them, returns no repetition and at most ndets_max determinants, and returns energy and coefficients of exactly those determinants.",
 "all wave functions, coefficients, settings, Hamiltonians and sort behaviours","composition over all inputs and library tie-breaking",
 [A+"/iteration.hpp: asci_iter"])
p("C69","The energy returned by asci_grow belongs to the returned wave function",
 "The energy and coefficients returned by asci_grow are those of the returned determinants for the Hamiltonian left in the generator, with and without orbital rotation.",
 "all settings, inputs and numbers of rounds","needs all histories of growth and rotation",
 [A+"/grow.hpp: asci_grow"])
p("C70","Gathering the CI vector is lossless",
 "After an iteration every rank holds the whole CI vector in determinant order, for every vector length, rank count and previous content of the receiving vector.",
 "all lengths, rank counts, prior contents","remainders and more ranks than determinants are not exercised",
 [A+"/iteration.hpp: asci_iter",A+"/grow.hpp: asci_grow"])
p("C71","A guess that already is the solution is accepted",
 "Starting the Davidson solver from an exact eigenvector returns it.",
 "all symmetric matrices and eigenvectors","needs exact arithmetic; tests use generic matrices",
 ["include/macis/solvers/davidson.hpp: davidson, gram_schmidt"])
p("C72","The distributed eigensolver equals the serial one",
 "p_davidson on any number of ranks and any distribution of the rows computes exactly what davidson computes on the joined vectors with the same subspace limit (same outcome, iteration count, energy and vector).",
 "all operators, guesses, rank counts, distributions, tolerances","all distributions and runs",
 ["include/macis/solvers/davidson.hpp: p_davidson, p_gram_schmidt, p_rayleigh_ritz"])
p("C73","The distributed guess is a unit vector for every size",
 "For every matrix size and rank count exactly one rank sets exactly one entry of the guess to one.",
 "all sizes and rank counts","remainder rows and ranks without rows depend on size and rank count",
 ["include/macis/solvers/davidson.hpp: p_diagonal_guess"])
p("C74","All ranks agree whether to reuse a passed vector",
 "In the parallel CI diagonalisation either all ranks reuse the passed vector or all ranks enter the collective guess generation.",
 "all passed vectors and distributions","a mismatch shows up as a hang for particular data",
 ["include/macis/solvers/selected_ci_diag.hpp: parallel_selected_ci_diag"])
p("C75","Damaged wavefunction files are detected",
 "read_wavefunction rejects a file whose number of determinant lines differs from its header, and determinant strings that do not fit the bitset.",
 "all file contents","all truncations of all files",
 ["include/macis/wavefunction_io.hpp: read_wavefunction"])
p("C76","FCIDUMP readers are safe on the files other programs write",
 "Reading any text file with read_fcidump_* either throws or fills the arrays without touching memory outside them, and never misreads a value as an index; in particular orbital-energy lines (p 0 0 0), header lines and integer-valued numbers are handled.",
 "all text files","all malformed or non-standard lines",
 ["src/macis/fcidump.cxx: fcidump_line, line_classification, read_fcidump_1body"])
p("C77","FCIDUMP files can be written repeatedly",
 "write_fcidump can be called any number of times in one process, and leaves a file that holds only the integrals of the last call.",
 "all histories of write_fcidump calls","depends on process-global state (logger registry) and on earlier file contents",
 ["src/macis/fcidump.cxx: write_fcidump"])
p("C78","Truncated RDM files are detected",
 "read_rdms_binary throws when the file is shorter than its orbital count implies.",
 "all truncation points","a truncation point per byte of the file",
 ["src/macis/fcidump.cxx: read_rdms_binary"])
p("C79","four_index_transform honours leading dimensions",
 "four_index_transform reads X with leading dimension LDX and writes Y with leading dimension LDY when these exceed the orbital counts.",
 "all leading dimensions","depends on strides never used by the tests",
 ["src/macis/transform.cxx: four_index_transform"])
p("C80","DIIS extrapolation is the optimal affine combination","Given a solver that returns a least-squares solution, the extrapolated vector is a combination of the stored vectors with coefficients summing to one, and no other such combination of the stored errors has smaller norm; the equations set up always have an exact solution.","all histories, all vector lengths, linearly dependent errors included","all error vectors including dependent ones",["include/macis/util/diis.hpp: DIIS::extrapolate"])
p("C81","A DIIS object with window zero holds nothing","With nkeep = 0 the object accepts additions and keeps no pair.","all histories with window zero","a boundary setting nobody tests",["include/macis/util/diis.hpp: DIIS::add_vector"])
OR="src/macis/orbital_gradient.cxx"; MC="include/macis/util/mcscf_impl.hpp"
p("C82","The orbital gradient is the derivative of the energy",
 "For symmetric integrals and RDMs, the packed orbital gradient computed from the generalized Fock matrix is the derivative at t=0 of the total energy after rotating the orbitals by the matrix exponential of t times the unpacked rotation parameters, in every direction.",
 "all orbital spaces, integrals, RDMs, rotation directions","a statement about a limit over all directions; numerical differences only sample it",
 ["src/macis/orbital_gradient.cxx: orbital_rotated_energy, compute_orbital_rotation","src/macis/fock_matrices.cxx: generalized_fock_matrix, fock_to_linear_orb_grad"])
p("C83","Orbital rotations are orthogonal",
 "compute_orbital_rotation of an antisymmetric generator yields an orthogonal matrix for every step length, and step zero yields the identity.",
 "all generators, step lengths, leading dimensions","all real matrices",
 ["src/macis/orbital_gradient.cxx: compute_orbital_rotation"])
p("C84","The Hessian contraction gives the second derivative of the energy",
 "The product of the orbital Hessian with a vector of rotation parameters, contracted with the same vector, is the second derivative at t=0 of the energy along the rotation exp(-tK) generated by them.",
 "all spaces, symmetric integrals and RDMs, all directions","a second-order limit over all directions",
 ["src/macis/orbital_hessian.cxx: orb_orb_hessian_contract"])
p("C85","The orbital Hessian is symmetric at stationary points",
 "Where the orbital gradient vanishes, the bilinear form given by orb_orb_hessian_contract is symmetric.",
 "all spaces, integrals, RDMs, pairs of directions","all pairs of directions",
 ["src/macis/orbital_hessian.cxx: orb_orb_hessian_contract"])
p("C86","The orbital Hessian is symmetric everywhere",
 "orb_orb_hessian_contract is a symmetric bilinear form for all integrals and RDMs.",
 "all inputs","needs two directions away from stationarity",
 ["src/macis/orbital_hessian.cxx: orb_orb_hessian_contract"])
p("C87","The one-index transformed integrals honour leading dimensions",
 "one_index_transformed_hamiltonian computes the commutator-transformed integrals for any leading dimension of its inputs.",
 "all leading dimensions","strides not used by tests",
 ["src/macis/orbital_hessian.cxx: one_index_transformed_hamiltonian"])
p("C88","The MCSCF energy belongs to the orbitals and RDMs it returns",
 "Whenever casscf_diis returns, the energy it returns equals the energy of the returned RDMs over the integrals rotated by some orthogonal matrix of orbitals.",
 "all inputs, all CI solver answers, all iteration histories","all optimisation histories",
 ["include/macis/util/mcscf_impl.hpp: optimize_orbitals; src/macis/casscf.cxx: casscf_diis"])
p("C89","MCSCF terminates within the iteration limit",
 "casscf_diis solves the CI problem at most max_macro_iter times besides the initial solution, and a run that ends without convergence has used all its iterations.",
 "all inputs and CI solver answers","all histories",
 ["include/macis/util/mcscf_impl.hpp: optimize_orbitals"])
p("C90","A converged MCSCF result is stationary to the tolerance",
 "When the driver reports convergence, the derivative of the returned energy along any rotation exp(-tK) of the final orbitals is at most tol * sqrt(max(1,n_rot)) * |K|.",
 "all inputs, histories","all histories",
 ["include/macis/util/mcscf_impl.hpp: optimize_orbitals"])
p("C91","The MCSCF step is bounded and downhill for a positive model Hessian",
 "No component of the preconditioned step exceeds max_orbital_step in magnitude, and when all approximate diagonal Hessian entries are positive and the gradient is non-zero the energy decreases to first order along it.",
 "all reachable states of the optimizer","all reachable states",
 ["include/macis/util/mcscf_impl.hpp: optimize_orbitals","src/macis/orbital_steps.cxx: precond_cg_orbital_step"])
p("C92","Every MCSCF step is downhill",
 "The first-order energy change along the step taken is never positive.",
 "all reachable states","needs negative curvature",
 ["include/macis/util/mcscf_impl.hpp: optimize_orbitals","src/macis/orbital_steps.cxx"])
p("C93","MCSCF accepts padded RDM arrays",
 "casscf_diis computes the energy of the RDMs for leading dimensions LDD1, LDD2 larger than the number of active orbitals.",
 "all leading dimensions","strides not used by tests",
 ["include/macis/util/mcscf_impl.hpp: optimize_orbitals"])
p("C94","Every way of writing and reading a matrix-market file agrees",
 "Writing with the default arguments, for either index base, and reading as COO or CSR denotes the same matrix; a truncated file is rejected.",
 "all CSR matrices, index bases, containers, truncation points","depends on index base, sparsity of the first row/column and empty rows",
 [SP+"/io/write_mm.hpp: write_mm", SP+"/io/read_mm.hpp: read_mm", SP+"/matrix_types/coo_matrix.hpp: determine_indexing_from_adj"])
p("C95","Matrix-market files are read as the matrix they describe",
 "A matrix-market file (general, symmetric or pattern; any comments and spacing) with one-based indices is read into a COO matrix with its dimensions whose entries are the sums of the listed values, mirrored for symmetric files; a non-square symmetric file is rejected.",
 "all files of the format","all texts of the format",
 [SP+"/io/read_mm.hpp: read_mm_as_coo", SP+"/util/string.hpp: tokenize"])
p("C96","A distributed matrix is written as the global matrix",
 "The file produced by write_dist_mm with forced_index 1 on any number of ranks is read back as the global matrix: each owner's rows carry the entries of its diagonal and off-diagonal tiles.",
 "all communicator sizes, row partitions and tiles","all rank counts and partitions",
 [SP+"/io/write_dist_mm.hpp: write_dist_mm"])
p("C97","Binary triplet files round-trip",
 "A matrix written with write_binary_triplet and read with read_binary_triplet is the same matrix.",
 "all CSR/COO matrices","depends on sparsity pattern",
 [SP+"/io/write_binary_triplets.hpp", SP+"/io/read_binary_triplets.hpp"])
p("C98","Rutherford-Boeing files are read array by array",
 "A Rutherford-Boeing file whose arrays are laid out over lines in any way is read into the one-based CSC matrix with exactly those column pointers, row indices and values.",
 "all files, all line layouts","all layouts",
 [SP+"/io/read_rb.hpp: read_rb_as_csc"])
p("C99","Symmetric Rutherford-Boeing files denote symmetric matrices",
 "Reading a Rutherford-Boeing file of symmetric type yields the symmetric matrix.",
 "all symmetric files","needs a symmetric file",
 [SP+"/io/read_rb.hpp: read_rb_as_csc"])
p("C100","CIS space and spin-resolved generators are exact",
 "generate_cis returns the reference followed by exactly the determinants obtained by moving one electron within norb (each once); generate_singles_spin, generate_singles_doubles_spin and their active-space variant return exactly the spin-conserving one- and two-electron moves within the allowed orbitals, each once.",
 "all determinants, orbital counts and active-space lists","combinatorial spaces grow with norb; tests check counts for one case",
 ["include/macis/sd_operations.hpp: generate_cis, generate_singles_spin, generate_singles_doubles_spin, generate_singles_doubles_spin_as"])
p("C101","The adjacency graph is the off-diagonal pattern",
 "extract_adjacency of a sorted CSR matrix of either index base is the graph (in the requested base) with an edge i->j exactly when i != j and (i,j) is stored; it is undirected when the pattern is symmetric.",
 "all well-formed sorted CSR matrices and index bases","all patterns and bases",
 [SP+"/util/graph.hpp: extract_adjacency"])
p("C102","ASCI scores are first-order amplitudes",
 "On one rank, when the pair list fits in pair_size_max, the score by which asci_search ranks a determinant t is the sum over core determinants I that reach t by a spin-conserving single or double move with |<t|H|I>| >= h_el_tol of c_I <t|H|I>/(E0 - <t|H|t>); with no screening this is (sum_I c_I <t|H|I>)/(E0 - <t|H|t>) over the whole core, and the search returns a best choice under these scores followed by the core.",
 "all real symmetric integrals, core lists, coefficients, tolerances, orbital counts and determinant widths","the incremental diagonal and sign formulas must agree with the Hamiltonian for every determinant",
 [A+"/determinant_contributions.hpp: append_singles_asci_contributions, append_ss_doubles_asci_contributions, append_os_doubles_asci_contributions", A+"/determinant_search.hpp: asci_contributions_standard, asci_search"])
p("C104","Pruning loses only small scores",
 "For every pair_size_max and rv_prune_tol the pair list of asci_search (one rank) contains only determinants connected to the core, and what was pruned are partial scores of magnitude at most rv_prune_tol: adding them back gives the exact score of every determinant.",
 "all memory limits, thresholds, core lists and integrals, any behaviour of std::sort/partition","pruning depends on sizes never reached in tests",
 [A+"/determinant_search.hpp: asci_contributions_standard", A+"/determinant_sort.hpp: sort_and_accumulate_asci_pairs"])
p("C103","Searching on several ranks scores every determinant exactly once with the exact score","asci_search on any number of MPI ranks splits the target determinants among the ranks so that no determinant appears twice (on one rank or on two), every rank finishes, the total score of every determinant equals the exact sum over the whole core, and the selected determinants are a best choice by that score followed by the core.","all Hamiltonians, core wave functions with enough alpha electrons, numbers of ranks, load thresholds, library orders and random draws","the partition of the excitation space depends on the number of ranks, the load balance and the constraint refinement; a test sees one partition",[A+"determinant_search.hpp:asci_contributions_constraint",A+"determinant_search.hpp:asci_search",A+"mask_constraints.hpp"])
p("C105","The ASCI search gives the same scores on one rank and on several","For the same settings, asci_search ranks the determinants by the same scores whatever the number of MPI ranks.","all settings, Hamiltonians, core wave functions and numbers of ranks","needs comparing two code paths (plain and constraint-based) over all settings",[A+"determinant_search.hpp:asci_contributions_standard",A+"determinant_search.hpp:asci_contributions_constraint",A+"mask_constraints.hpp:generate_constraint_singles_contributions_ss"])
p("C106","One MCSCF macro-iteration rotates the orbitals by the computed step, or by the optimal DIIS combination","Without extrapolation a macro-iteration of casscf_diis takes the orbitals u to u exp(-K) for the restricted step K, and the energies before and after are the energies in these orbitals. With DIIS the driver keeps the last diis_nkeep pairs (trial generator, gradient) since diis_start, and from iteration diis_start+2 on moves to the combination of the kept generators with coefficients adding up to one that minimizes the norm of the same combination of gradients.","all integrals, settings, CI solvers meeting their contract, reachable states and iterations","the orbitals depend on the whole history of steps and extrapolations; a test only checks the final energy",["include/macis/util/mcscf_impl.hpp:mcscf_impl","include/macis/util/diis.hpp:DIIS","src/macis/orbital_steps.cxx:precond_cg_orbital_step"])
p("C107","The approximate orbital Hessian diagonal is the mean-field second derivative","approx_diag_hessian gives, for each inactive-virtual, active-virtual and inactive-active rotation, the second derivative of the energy of independent electrons in the mean field F_inactive + F_active, with the generalized Fock element in place of its mean-field value; without two-body interaction it is the exact diagonal of the orbital Hessian.","all orbital partitions, Fock matrices, densities and rotations","the formula differs per block of orbital pairs and must hold for all matrices; a numerical test checks one system within a tolerance",["src/macis/orbital_hessian.cxx:approx_diag_hessian","include/macis/util/orbital_hessian.hpp"])
p("C108","The quasi-Newton operator is the BFGS inverse Hessian of its update history","For every sequence of updates (s,y), applying a BFGSHessian object equals multiplying by the textbook BFGS inverse Hessian built from that sequence and the object's initial matrix: unit matrix for the default, (y.s)/(y.y) of the newest (resp. oldest) pair for the running (resp. static) scale, 1/D for the diagonal one, the user's matrix for the runtime one; an update fails (division by zero) exactly when y.s = 0.","all histories of updates of any length, all dimensions, all vectors, all five kinds of initial operator","the two-loop recursion depends on the whole unbounded update history",["src/macis/bfgs/bfgs_hessian.hpp:BFGSHessian::apply","src/macis/bfgs/bfgs_hessian.hpp:BFGSHessian::update"])
p("C109","The quasi-Newton operator keeps descent directions and the secant equation","After any history of updates with y.s > 0 on a positive definite start, the operator is symmetric and positive definite (minus its action on a nonzero gradient is a descent direction) and maps the newest gradient difference to the newest step.","all histories with positive curvature, all dimensions, all gradients","an invariant over unbounded histories and all vectors",["src/macis/bfgs/bfgs_hessian.hpp:BFGSHessian::apply","src/macis/bfgs/bfgs_hessian.hpp:UpdatedScaledBFGSHessian","src/macis/bfgs/bfgs_hessian.hpp:StaticScaledBFGSHessian","src/macis/bfgs/bfgs_hessian.hpp:DiagInitializedBFGSHessian"])
p("C110","The backtracking line search returns the first acceptable step","The search succeeds exactly when the direction is not uphill, the passed step is positive, and the first step among 1, 1/2, ..., 2^-19 that satisfies sufficient decrease (constant 1/2, absolute slack 1e-6) does not increase the objective; it returns that step with the matching point, objective and gradient; otherwise it throws.","all objectives, gradients, start points, directions and passed steps","quantifies over arbitrary objective functions",["src/macis/bfgs/line_search.hpp:backtracking_line_search"])
p("C111","A BFGS run returns only converged points reached by monotone quasi-Newton moves","If bfgs returns, it made between 1 and max_iter moves, the first along the negative gradient and every later one along minus the quasi-Newton operator of all earlier moves applied to the current gradient, each by a successful backtracking search; the objective never increased; the returned point passes the convergence test and no earlier point after the start does.","all objectives, start points, operators and iteration limits","quantifies over arbitrary objectives and runs of any length",["src/macis/bfgs/bfgs.hpp:bfgs"])
p("C112","The Nocedal-Wright line search returns a strong Wolfe step","If the search returns, the step is positive, satisfies the strong Wolfe conditions with constants 1e-4 and 0.9, and point, objective and gradient belong to that step; otherwise it throws. A point found in the second phase has a lower objective than the best end of the bracket the first phase left.","all objectives, start points, directions and initial steps","quantifies over arbitrary objectives and all bracketing/zoom histories",["src/macis/bfgs/line_search.hpp:nocedal_wright_line_search"])
p("C113","The discrete line search returns the best grid step","The search returns the step among 1/100, ..., 1 with the smallest objective, with matching point, objective and gradient.","all objectives, start points and directions","quantifies over arbitrary objectives",["src/macis/bfgs/line_search.hpp:discrete_line_search"])
p("C114","Canonical orbital energies are the Fock diagonal","canonical_orbital_energies stores, for every orbital p, h_pp plus the sum over doubly occupied i of 2(pp|ii) - (pi|ip), which is the diagonal of the inactive Fock matrix, and writes nothing else.","every orbital count, occupied count, leading dimension, integral array and prior contents","tests compare a few molecules; the strides must be right for every leading dimension",["src/macis/orbital_energies.cxx:canonical_orbital_energies"])
p("C115","MP2 amplitudes","mp2_t2 stores (ia|jb)/(e_i+e_j-e_a-e_b) at i + j*nocc + a*nocc^2 + b*nocc^2*nvir for all occupied i,j and virtual a,b, writes nothing beyond nocc^2 nvir^2, and the amplitudes inherit the exchange symmetry of the integrals.","every number of occupied and virtual orbitals, leading dimension, integrals and orbital energies","index arithmetic over four nested loops cannot be settled on sample sizes",["src/macis/moller_plesset.cxx:mp2_t2"])
p("C116","MP2 one-particle density","mp2_1rdm writes the MP2 density into the occupied-occupied and virtual-virtual blocks and nothing else; its trace is the number of electrons; for integrals symmetric under electron exchange it is symmetric, its virtual block is positive semidefinite and its occupied block is at most twice the identity.","every size, leading dimension, integral arrays and prior contents of the output","inequalities over all vectors and all integrals",["src/macis/moller_plesset.cxx:mp2_1rdm"])
p("C117","Printed MP2 energy","The EMP2 printed by mp2_1rdm is the MP2 correlation energy of the given integrals for every leading dimension, and is not positive when occupied orbitals lie below virtual ones.","every size, leading dimension and integrals","holds for all integrals with a gap; fails for padded arrays, which no test uses",["src/macis/moller_plesset.cxx:mp2_1rdm"])
p("C118","MP2 natural orbitals","mp2_natural_orbitals returns orthonormal orbitals that diagonalise the MP2 density, with occupations in descending order that add up to the number of electrons, whatever the output array held before the call.","every size, leading dimension, integrals and prior contents of the output array","dependence on stale memory and on the integrals cannot be sampled",["src/macis/moller_plesset.cxx:mp2_natural_orbitals"])
p("C119","Selected-CI diagonalisation","Serial selected_ci_diag on any set of determinants of one sector, started from an unset or normalised vector, returns only normalised vectors whose energy is the expectation value over the CI matrix, whose residual is below the tolerance (so an eigenvalue lies within the tolerance of the energy) and, from an unset vector, an energy no higher than any diagonal element.","every determinant list of one sector, integrals, matrix-element threshold, tolerance, subspace size and starting vector","needs all matrices and all iteration counts; a test sees one molecule",["include/macis/solvers/selected_ci_diag.hpp:selected_ci_diag","include/macis/solvers/selected_ci_diag.hpp:serial_selected_ci_diag"])
p("C120","CAS-CI energy and density matrices agree","compute_casci_rdms covers the whole sector once; the energy it returns and the energy contracted from the RDMs it returns agree up to the two thresholds in the code (matrix elements, 1e-16 weights), and the 1-RDM trace is the number of electrons up to the dropped weights.","every number of orbitals and electrons, integrals, thresholds and starting vector","agreement must hold for all integrals and all sectors",["include/macis/util/cas.hpp:compute_casci_rdms"])
p("C121","CAS-CI density matrices are outputs","The RDM arrays, documented as output parameters of compute_casci_rdms, hold after the call the CAS-CI RDMs whatever they held before.","every prior content of the arrays","tests pass zeroed arrays",["include/macis/util/cas.hpp:compute_casci_rdms","include/macis/hamiltonian_generator/double_loop.hpp:form_rdms"])
p("C122","CAS-CI on several ranks","compute_casci_rdms with a communicator of more than one rank forms the RDMs from the whole CI vector, without reading outside any rank's data.","every number of ranks and problem size","tests run CAS on one rank; out-of-range reads can go unnoticed",["include/macis/util/cas.hpp:compute_casci_rdms","include/macis/solvers/selected_ci_diag.hpp:parallel_selected_ci_diag"])
L="src/lobpcgxx/include/lobpcgxx/"
p("C123","LOBPCG returns converged eigenpairs","When lobpcg returns normally on a symmetric operator and an orthonormal guess, with any preconditioner, the vectors are orthonormal Ritz vectors with ascending Ritz values that are not below the eigenvalues of the same rank and not above the guess's Ritz values; each of the first NR residuals is below the tolerance (relative or absolute according to the check), so an eigenvalue of the operator is that close.","every symmetric matrix, dimension, block size, preconditioner, tolerance and iteration count","spectra are infinite in number; tests use one Laplacian",[L+"driver.hpp:lobpcg",L+"convergence.hpp",L+"rayleigh_ritz.hpp"])
p("C124","LOBPCG iterations make progress","Each successful iteration keeps [X P] orthonormal with correct products, raises no Ritz value and loses none of the previous Ritz vectors from the span; when the iterations run out the outputs are still Ritz pairs with the bounds of C123.","every iteration from every reachable state","a bounded run shows only particular iterates",[L+"driver.hpp:lobpcg",L+"rotate_basis.hpp"])
p("C125","LOBPCG accepts any guess and block size","lobpcg works for every orthonormal guess of K <= N vectors, including guesses that already contain an eigenvector.","every orthonormal guess and block size","random test guesses never contain exact eigenvectors and use small blocks",[L+"driver.hpp:lobpcg",L+"cholqr.hpp:cholqr"])
p("C126","LOBPCG needs no orthonormal guess","The interface asks only for initial vectors: the result does not depend on their normalisation.","every scaling of the guess","tests orthonormalise the guess before the call",[L+"driver.hpp:lobpcg",L+"simplified_interface.hpp"])
p("C127","LOBPCG accepts exact eigenvectors","A guess consisting of exact eigenvectors is accepted at the first convergence check.","every matrix, including singular ones","tests use nonsingular matrices and inexact guesses",[L+"convergence.hpp:lobpcg_relres_convergence_check",L+"driver.hpp:lobpcg"])
p("C128","LOBPCG fails only if not converged","lobpcg throws 'LOBPCG FAILED TO CONVERGE' only if the vectors it returns do not meet the convergence criterion.","every matrix and iteration limit","needs an iteration limit exactly at convergence",[L+"driver.hpp:lobpcg"])
p("C129","LOBPCG workspace","lobpcg_lwork is exactly what lobpcg carves its work arrays from: the pieces are adjacent, in range and big enough for every use; with that length and non-negative settings no argument check fails.","every N and K <= N","overruns of a work array are not visible in results",[L+"driver.hpp:lobpcg_lwork",L+"driver.hpp:lobpcg"])
p("C130","LOBPCG convergence history","With tracking on, the convergence history holds one record per convergence check made.","every run","depends on where the run stops",[L+"convergence.hpp:lobpcg_convergence",L+"driver.hpp:lobpcg"])
p("C131","Freezing a doubly occupied core is exact","A matrix element of the full Hamiltonian between two determinants that share a doubly occupied core equals the matrix element of the active-space Hamiltonian produced by active_hamiltonian between the active parts of the determinants, plus, on the diagonal, the inactive energy; hence the energy expectation value of any CI vector with frozen core is inactive_energy times its norm plus the active-space expectation value.","All numbers of inactive, active and virtual orbitals and leading dimensions, all one-electron integrals and all two-electron integrals symmetric under exchange of the two electrons, all pairs of active determinants of one sector, all CI vectors.","Tests compare the CAS energy of one or two molecules with a stored number; that the folding of the core into one-body integrals and a constant is exact is an identity over all integrals and determinants.",["src/macis/fock_matrices.cxx: active_hamiltonian, inactive_fock_matrix, inactive_energy","include/macis/hamiltonian_generator/matrix_elements.hpp: HamiltonianGenerator::matrix_element"])
p("C132","The CAS-CI total energy is the variational energy over all orbitals","Running active_hamiltonian and then compute_casci_rdms (one process) on the active integrals, inactive_energy plus the returned energy is, up to the matrix-element threshold times the number of determinants, the expectation value of the Hamiltonian over all orbitals in the returned normalised vector with every determinant completed by the doubly occupied core; hence it is not below the full-CI energy of all orbitals by more than that.","All orbital counts and leading dimensions, all integrals with the symmetries of real orbitals, all electron numbers that fit the active space, thresholds, tolerances and starting vectors for which the call returns.","A test checks the total energy of one molecule and active space against a stored number; that it is a variational upper bound must hold for every set of integrals and every vector the eigensolver returns.",["src/macis/fock_matrices.cxx: active_hamiltonian, inactive_energy","include/macis/util/cas.hpp: compute_casci_rdms","include/macis/solvers/selected_ci_diag.hpp: selected_ci_diag"])
p("C133","The finite-difference orbital gradient agrees with the analytic one to fourth order","For every pair of orbitals i < a, numerical_orbital_gradient stores at (a, i) the analytic gradient 2 (F(a,i) - F(i,a)) of the generalized Fock matrix, with an error of at most B dk^4/18, where B bounds the fifth derivative of the energy along the rotation of a and i by up to 2 dk; it stores nothing else.","all orbital counts, integrals with the symmetries of a real Hamiltonian, symmetric densities, and steps","A test compares numbers at one step for one molecule; the error order over all inputs is an analytic statement.",["src/macis/orbital_gradient.cxx: numerical_orbital_gradient, compute_orbital_rotation, orbital_rotated_energy"])
p("C134","The finite-difference orbital gradient respects the leading dimension of its output","numerical_orbital_gradient stores the gradient of (a, i) at OG[a + i*LDOG] for every LDOG of at least the number of orbitals.","all leading dimensions","Tests pass the number of orbitals as leading dimension.",["src/macis/orbital_gradient.cxx: numerical_orbital_gradient"])
p("C135","The finite-difference orbital Hessian approximates mixed second derivatives to fourth order","For rotations (a,i), (b,j) with i < a, i < b and j different from b, numerical_orbital_hessian stores the mixed second derivative of the energy E(exp(-(x Kx + y Ky))) at the start with an error of at most (5/3 B1 + B2) dk^4/18, B1 and B2 bounding its sixth-order mixed derivatives; array elements outside the loop ranges are untouched.","all orbital counts, integrals, symmetric densities, steps and leading dimensions of the output","The error order over all inputs is an analytic statement.",["src/macis/orbital_gradient.cxx: numerical_orbital_hessian"])
p("C136","Finite-difference and analytic orbital Hessians agree","For two non-redundant rotations the mixed second derivative of the energy equals the mean of the two corresponding elements of orb_orb_hessian_contract (each element itself at a stationary point), so the numerical and analytic Hessians agree to fourth order in the step.","all orbital spaces, integrals with the symmetries of a real Hamiltonian, symmetric densities","A test compares a handful of elements for one molecule.",["src/macis/orbital_gradient.cxx: numerical_orbital_hessian","src/macis/orbital_hessian.cxx: orb_orb_hessian_contract"])
p("C137","The finite-difference orbital Hessian covers all pairs of rotations","numerical_orbital_hessian stores the element of every pair of rotations i < a and j < b.","all orbital counts and pairs","A test would have to inspect every element of the output.",["src/macis/orbital_gradient.cxx: numerical_orbital_hessian"])
p("C138","The driver's input file is read as it is written","For every input file made of blank lines, comment lines, section headers, `key = value` / `key : value` options (with optional trailing comment) and indented continuation lines, reading succeeds, and asking for `section.key` (in any letter case and with spaces around the names) gives the value written last for that option in the last occurrence of that section, with its continuation lines appended (an option written without a value has the value of one space); missing sections and options are reported as such; spacing, comments and options before the first header have no effect.","all finite lists of well-formed lines, all names, values and spacings","The grammar has unboundedly many files; a test reads a few of them.",["tests/ini_input.cxx:INIFile::parse","tests/ini_input.cxx:INIFile::getData","tests/ini_input.cxx:INIFile::splitQuery"])
p("C139","Indentation of options in the input file has no effect","Indenting an option line does not change what is read.","all input files and indentations","Whether indentation matters depends on the kind of line that precedes; a test file that indents only after headers sees nothing.",["tests/ini_input.cxx:INIFile::parse"])
p("C140","Comments after headers, line endings and special characters in values are handled by the input reader","A comment after a section header is ignored, CRLF line endings are accepted, a value may contain any character, and no file makes the reader index outside of its tokens.","all input files","The failing files need a particular line shape; a handful of sample inputs does not contain it.",["tests/ini_input.cxx:INIFile::parse","tests/ini_input.cxx:split"])
p("C141","Switches in the input file mean what they say","A boolean option is on when its value is TRUE or ON and off otherwise; the documented spelling in any letter case is recognised.","all input files, options and values","The set of spellings is unbounded; unrecognised spellings silently mean off.",["tests/ini_input.cxx:INIFile::getData"])
p("C142","Counts in the input file mean what they say","A count written in decimal digits is read as that number, is refused when it does not fit in 64 bits, and any other text is refused.","all input files, options and numbers","Needs every natural number; malformed numbers are accepted silently.",["tests/ini_input.cxx:INIFile::getData"])
p("C143","The driver accepts exactly the active spaces that make sense","An accepted input has equally many alpha and beta electrons, inactive + active + virtual orbitals equal to the orbitals of the FCIDUMP file, at most 32 active orbitals, and no more electrons of a spin than active orbitals; an input whose numbers satisfy these is accepted and used unchanged.","all input files and orbital counts","Wrap-around of unsigned arithmetic only shows for huge or negative inputs.",["tests/standalone_driver.cxx:main"])
p("C144","The distributed matrix-vector product is deadlock-free and deterministic","If every rank of a communicator calls generate_spmv_comm_info on its part of a consistent distributed matrix and then pgespmv any number of times, with any local work on its vectors in between, then no execution gets stuck, all executions end, every message is received by the receive it was posted for with the size that receive expects, and every rank ends with its rows of the products, as if nothing were distributed; buffers of pending sends and receives are not touched.","every consistent distributed matrix, number of ranks, sequence of products and local work, schedule of the ranks, and choice of which sends the MPI library completes before the receiver took them","a test run sees one interleaving and one MPI library's buffering; a mismatch of a message between two calls or a send that blocks depends on both",["src/sparsexx/include/sparsexx/spblas/pspmbv.hpp: generate_spmv_comm_info, pgespmv, spmv_info::post_remote_recv, spmv_info::post_remote_send","src/sparsexx/include/sparsexx/util/mpi.hpp: mpi_irecv, mpi_isend, mpi_waitall_ignore_status, mpi_allgather"])
p("C145","The reported communication volume","spmv_info::communication_volume() returns the number of vector elements that one distributed product moves between ranks; it never exceeds it and falls short of it by at most half the number of ranks.","every consistent distributed matrix over any number of ranks","tests with symmetric matrices see equal send and receive counts, for which halving loses nothing",["src/sparsexx/include/sparsexx/spblas/pspmbv.hpp: spmv_info::communication_volume"])
p("C146","The distributed Matrix Market writer, under every schedule and crash point","When every rank of a communicator calls write_dist_mm on its part of a distributed matrix, no execution gets stuck; once the call has returned on any rank the file holds exactly the Matrix Market text of the whole matrix, blocks in rank order; and at every moment, so wherever the job is killed, the file holds either its former content or a prefix of that text.","every distributed matrix, number of ranks, former content of the file, schedule of the ranks and splitting of the writes, choice of which sends complete early, and crash point","ranks append to one file in turns passed on by messages; an overlap of two writers or a lost turn shows only in particular interleavings",["src/sparsexx/include/sparsexx/io/write_dist_mm.hpp: write_dist_mm"])
p("C147","Distributed quickselect under every schedule","When every rank of a communicator calls dist_quickselect on its own range with the same k between one and the total number of elements, each branching on its own variables only, no execution gets stuck, all ranks take part in the same collectives, no access is out of range, and every rank returns the same value, the k-th largest of all elements.","every number of ranks, distribution of the elements (empty ranks included), random draws, per-rank behaviour of partition and nth_element, schedule of the ranks and MPI buffering","a rank that leaves the loop in a different round than the others hangs only for particular distributions and schedules",["include/macis/util/dist_quickselect.hpp: dist_quickselect, total_gather_and_exclusive_scan, leg_partition"])
p("C148","Parallel permutation of sparse matrices: no data race, same result under every thread schedule",
"permute_rows, permute_cols and permute_rows_cols run their row loop in parallel with per-thread index arrays that are reused from row to row. However OpenMP distributes the rows over threads, in whatever order and interleaving the threads run, and whatever the output arrays held before: the loop terminates after the same number of steps, no two threads are ever about to write the same element of the result, and the result is well formed with entry (i,j) equal to entry (rperm[i], cperm[j]) of the input and the permuted pattern.",
"all well-formed CSR matrices (without repeated positions when columns are permuted), all permutations, all numbers of threads, all distributions of rows, all interleavings, all correct std::sort",
"tests see the few schedules the runtime happens to produce; a stale index array or an overlapping write shows only for particular distributions of rows over threads",
["src/sparsexx/include/sparsexx/util/permute.hpp: permute_rows, permute_cols, permute_rows_cols"])
p("C149","asci_search returns the same determinants on every rank, under every schedule",
"On a communicator of at least two ranks, asci_search (with at least as many candidates as determinants asked for) never deadlocks, whatever the order in which the ranks run and whatever messages the MPI library buffers: its barriers, statistics reductions, the distributed quickselect, the gather of counts and of determinants match on all ranks, and every rank returns the same list. If the determinants are distributed without repetition and no tie straddles the cut, this list is a best choice of ndets_max - ncdets candidates followed by the core determinants, without repetition.",
"all rank counts >= 2, all distributions of contributions over the ranks (also ranks without any), all scores, all random draws, all implementations of std::partition / std::nth_element (also different ones on different ranks), all schedules and bufferings",
"a test sees one schedule of a few ranks; ranks returning different lists, or a mismatched collective, shows only for particular timings, data distributions or branch histories, and then hangs the whole job",
["include/macis/asci/determinant_search.hpp: asci_search","include/macis/util/dist_quickselect.hpp: dist_quickselect, total_gather_and_exclusive_scan, leg_partition"])
p("C150","The reduction and broadcast wrappers handle exactly the requested elements, for every length",
"allreduce (out of place, in place, scalar) and bcast: for every communicator, every count below INT_MAX and every reduction operation, the first count elements are combined (broadcast) on every rank and nothing beyond is touched, including count 0; from INT_MAX elements on they throw before communicating anything; and the disabled chunking would communicate every element exactly once in pieces an int can count.",
"all rank counts, all element counts (also zero and beyond 2^31), all operations, all buffer contents",
"buffers of two billion elements are not allocated in tests; the chunk arithmetic and the boundary at exactly INT_MAX are never executed there",
["include/macis/util/mpi.hpp: allreduce, bcast"])
p("C151","Full-CI energies do not depend on the choice of orthonormal orbitals",
  "If the orbital coefficients have orthonormal columns, the Hamiltonian matrix over the integrals returned by two_index_transform and four_index_transform, taken in all determinants with given numbers of alpha and beta electrons, is orthogonally similar to the matrix over the original integrals: it has the same eigenvalues, and every expectation value of one is an expectation value of the other at a vector of the same norm.",
  "all orbital counts, all one- and two-electron integral arrays (symmetric or not), all orthonormal coefficient arrays, all electron counts, all leading dimensions, any prior output contents, output allowed to alias input",
  "A test rotates one integral file by one matrix; the invariance is a statement about every rotation and every sector, and a wrong index in the four-index transform is invisible for symmetric choices of coefficients.",
  ["src/macis/transform.cxx:two_index_transform","src/macis/transform.cxx:four_index_transform","tests/standalone_driver.cxx:main","include/macis/asci/grow.hpp:asci_grow"])
p("C152","Only the integrals of the orbitals influence the result",
"Matrix elements between determinants of the first n orbitals, every array of the sparse Hamiltonian (and of the piece any rank of a distributed one builds) and the energy, vector and density matrices of the CASCI solver are the same for any two integral arrays that agree on indices below n; in particular the Slater-Condon identity needs the symmetry of the integrals on these indices only.",
"all orbital counts, all determinant lists of one sector, all pairs of integral arrays agreeing below n, all thresholds, all communicator sizes and ranks, all solver parameters",
"Integral arrays are read through strides; a test with one array cannot show that no element beyond the orbitals is ever read into a result.",
["include/macis/hamiltonian_generator/matrix_elements.hpp","include/macis/csr_hamiltonian.hpp:make_csr_hamiltonian_block","include/macis/csr_hamiltonian.hpp:make_dist_csr_hamiltonian","include/macis/util/cas.hpp:compute_casci_rdms"])
p("C153","Results do not depend on the number of determinant bits",
"The same determinants stored in bit strings of different template width give the same matrix elements, the same sparse Hamiltonian array by array, and the same energy and eigenvector from the selected-CI diagonalisation.",
"all pairs of widths that hold the orbitals, all integrals with pair symmetry, all lists of determinants of one sector, all thresholds and solver parameters",
"The width is a compile-time template parameter; tests instantiate one or two values of it.",
["include/macis/hamiltonian_generator/matrix_elements.hpp","include/macis/csr_hamiltonian.hpp:make_csr_hamiltonian_block","include/macis/solvers/selected_ci_diag.hpp:selected_ci_diag","include/macis/bitset_operations.hpp"])
p("C154","CAS-CI run of the standalone program, from its files to the printed energy","Whatever the input file and the FCIDUMP file it names contain, when the standalone program completes a JOB=CI, CI_EXPANSION=CAS run, the printed E(CI) is the core energy in the file plus the energy expectation value, with the Hamiltonian in the file, of a normalised state on exactly the determinants that fill the inactive orbitals and put NALPHA/NBETA electrons into the active ones (up to the drop threshold times the dimension), and is not above the energy of any of these determinants; with or without the MP2 guess the energy is variational: not below any lower bound of the full Hamiltonian.","all input texts, all FCIDUMP contents with at least one electron arrangement, all orbital partitions the program accepts, all thresholds, all lowest-eigenpair routines","The claim composes parsing, orbital partition, frozen core, determinant generation, sparse matrix and Davidson; a test fixes one file and one reference energy.",["tests/standalone_driver.cxx","include/macis/util/cas.hpp:compute_casci_rdms","src/macis/fcidump.cxx","include/macis/util/mp2.hpp"])
p("C156","ASCI run of the standalone program, from its files to the printed energy","Whatever the input file and the FCIDUMP file it names contain, when the standalone program completes a JOB=CI, CI_EXPANSION=ASCI run, the printed E(CI) is (without orbital rotations, up to the drop threshold times the dimension) the core energy plus the energy expectation value, with the Hamiltonian in the file, of a normalised state on at least NTDETS_MAX different determinants that fill the inactive orbitals and put NALPHA/NBETA electrons into the active ones, and is not above the energy of any of them; in every run, also with the MP2 guess and natural-orbital rotations while growing, the energy is variational.","all input texts, FCIDUMP contents, guess wave functions, search limits, sorting-routine tie breaks and lowest-eigenpair routines","The claim composes parsing, frozen core, search, growth, rotation, refinement and diagonalisation over all histories; a test fixes one file and one reference energy.",["tests/standalone_driver.cxx","include/macis/asci/grow.hpp:asci_grow","include/macis/asci/refine.hpp:asci_refine","include/macis/asci/determinant_search.hpp:asci_search"])
p("C157","The integral file written by the standalone program reproduces the calculation","The file named by FCIDUMP_OUT is written exactly when a name is given; it is an FCIDUMP file with the same number of orbitals, core energy and integrals as the one read (with the MP2 guess: those integrals transformed by an orthogonal matrix); and running the program again with this file in place of the original gives exactly the same results.","all input texts, all FCIDUMP contents, both jobs and expansions; numbers whose printed form reads back as the same number","A test rewrites one file; the claim is about every file and every run.",["tests/standalone_driver.cxx","src/macis/fcidump.cxx:write_fcidump","src/macis/fcidump.cxx:read_fcidump_2body"])
p("C155","An MCSCF run of the standalone program prints a genuine, variational CASSCF energy","For every input file and FCIDUMP file for which an MCSCF calculation completes: unless the printed E(CI) is just the energy E(RDM) of the RDM file it was started from, it is, within the thresholds below which Hamiltonian elements (matel tolerance) and RDM weights (1e-16) are dropped, the core energy plus the energy, with the Hamiltonian in the file, of a normalised state on all CAS determinants in orthonormal orbitals; it is not below any lower bound of the Hamiltonian in the file for these electron numbers; and when casscf_diis reports convergence, the energy of the RDMs handed back is that energy and is stationary with respect to every orbital rotation to within the tolerance.","all input and FCIDUMP files, active spaces, orbital numbers, tolerances, numbers of macro-iterations, DIIS settings, MP2 guess or not, RDM start files, and all eigenvalue and least-squares routines that meet their specification","a test compares one converged energy with a reference number; it cannot show that every run that ends prints the energy of a state, or that reported convergence implies stationarity",["tests/standalone_driver.cxx: main (JOB = MCSCF)","include/macis/util/cas.hpp: CASRDMFunctor","src/macis/casscf.cxx: casscf_diis","include/macis/util/mcscf_impl.hpp: mcscf_impl"])
p("C158","RDMs have the symmetries the orbital code relies on","For every list of determinants with the same numbers of alpha and beta electrons and every CI vector, the reduced density matrices formed by the library satisfy D(p,q) = D(q,p), d(p,q,r,s) = d(q,p,s,r) and d(p,q,r,s) = d(r,s,p,q), as the orbital-gradient and Fock-matrix code requires.","all numbers of orbitals, determinant lists and real CI vectors","checking these identities on computed RDMs covers single vectors only",["include/macis/hamiltonian_generator/double_loop.hpp: form_rdms","include/macis/util/rdms.hpp: rdm_contributions_4, rdm_contributions_2, rdm_contributions_diag"])
p("C159","Multithreaded sparse products and conversions are race-free and correct under every interleaving",
"For every assignment of the loop iterations to threads and every interleaving of the threads' steps, the OpenMP loops of the CSR product, of the scaling phase of the COO product and of the conversion of a COO matrix to dense storage finish, never have two threads at the same output element, and leave the documented result (alpha*A*V + beta*AV, or the dense matrix), provided the leading dimension of the output is at least the number of rows and, for the conversion, no position is stored twice. Both provisos are needed: without them the result depends on the schedule.",
"all matrices, vectors, block widths, leading dimensions, numbers of threads, distributions of iterations and interleavings",
"a data race shows up only in particular interleavings, which a test does not control",
["src/sparsexx/include/sparsexx/spblas/spmbv.hpp: gespmbv", "src/sparsexx/include/sparsexx/matrix_types/dense_conversions.hpp: convert_to_dense"])
p("C160","Reordering a matrix, multiplying and undoing the reordering gives the original product",
"For every square CSR matrix without repeated positions, every assignment of its rows to parts and every vector: forming the permutation of the partition, permuting rows and columns, permuting the vector Backward, multiplying (in one process, or distributed with the parts as row ranges of the ranks, which the distributed matrix accepts) and permuting the result Forward gives alpha*A*x.",
"all square well-formed matrices, partitions (including empty parts), permutations, vectors, numbers of ranks and sort routines",
"the composition of four index maps has to cancel for every partition; tests use a few matrices",
["src/sparsexx/examples/test_dist.cxx: main", "src/sparsexx/include/sparsexx/util/reorder.hpp: perm_from_part", "src/sparsexx/include/sparsexx/util/permute.hpp: permute_rows_cols, permute_vector", "src/sparsexx/include/sparsexx/spblas/pspmbv.hpp: pgespmv"])
p("C161","The distributed Davidson solver returns the serial solver's answer on every rank under every schedule","When the ranks of a communicator run the distributed Davidson solver on a row-distributed matrix, each with its own rows of the diagonal and of a start vector, then under every order in which the ranks advance and the messages are delivered all ranks finish, agree on convergence, iteration count and energy, and hold their own rows of exactly the vector the serial solver computes for the whole matrix; the energy is within the tolerance of an eigenvalue and not above the Rayleigh quotient of the start vector.","all numbers of ranks, all row distributions, matrices, diagonals, start vectors, tolerances, subspace limits and all interleavings of the ranks","the number of interleavings grows exponentially and the agreement of the ranks on every collective must hold at each iteration",["include/macis/solvers/davidson.hpp: p_davidson, p_gram_schmidt, p_rayleigh_ritz","src/sparsexx/include/sparsexx/spblas/pspmbv.hpp: pgespmv"])
p("C162","parallel_selected_ci_diag finds the eigenpair from any start vector","Calling the distributed CI diagonalisation on all ranks of a communicator ends on every rank with the same eigenpair, from the passed vector when it is usable and from the unit vector of the smallest diagonal element otherwise. It holds when the passed vector is usable on all ranks, or on none and the smallest diagonal element lies in the part of the matrix covered by equal division; otherwise the guess is lost and every rank throws, or the ranks disagree and call different collectives.","all numbers of ranks, all row distributions, matrices, start vectors and all interleavings of the ranks","depends on the size, the number of ranks, the position of the smallest diagonal element and on the rank-local start vectors jointly",["include/macis/solvers/selected_ci_diag.hpp: parallel_selected_ci_diag","include/macis/solvers/davidson.hpp: p_diagonal_guess, p_davidson"])
p("C163", "ASCI on several ranks ends on every rank with the joint result, under every schedule",
  "asci_iter, asci_grow and asci_refine, run by two or more ranks that start with the same Hamiltonian, wave function, energy and settings, end on every rank under every schedule and every buffering of messages, and every rank holds the same energy, determinants, whole CI vector and integrals: those of one driver around the joint determinant search and the diagonalisation of the whole Hamiltonian matrix; if the driver throws, every rank throws. The energy is the Rayleigh quotient of a normalised vector with residual below CI_RES_TOL, not above any diagonal element. An iteration from the lowest determinant succeeds for every number of ranks.",
  "every number of ranks from two on, every Hamiltonian, wave function, settings, initial memory, behaviour of the library sorts within the C++ standard (different on each rank), every schedule of ranks and messages, every number of growth and refinement rounds",
  "interleavings, rank counts and iteration histories are unbounded; the failure for a remainder of determinants depends on the sorted position of the lowest diagonal element and the number of ranks",
  ["include/macis/asci/iteration.hpp:asci_iter", "include/macis/asci/grow.hpp:asci_grow", "include/macis/asci/refine.hpp:asci_refine", "include/macis/asci/determinant_search.hpp:asci_search", "include/macis/solvers/selected_ci_diag.hpp:selected_ci_diag", "include/macis/solvers/davidson.hpp:p_diagonal_guess"])
p("C164","FCIDUMP_OUT written by every rank",
 "The standalone program calls write_fcidump on every rank, so that several processes append the same integrals to one file. Whatever the order in which the pieces of their texts arrive, once all ranks have ended the file reads back to the same orbital count, core energy, one- and two-body integrals; and wherever the ranks are stopped, the readers deliver no integral that was not written.",
 "every number of ranks, orbital count, symmetric integrals, every cutting of the texts into pieces, every order in which the pieces of the ranks reach the file, every stopping point",
 "The order of appends is up to the operating system and the library's buffers; a test run sees one order, usually one rank after the other, and never a stop in the middle.",
 ["src/macis/fcidump.cxx:write_fcidump","src/macis/fcidump.cxx:read_fcidump_2body","tests/standalone_driver.cxx:FCIDUMP_OUT"])
p("C165","Sparse Hamiltonian with a finite index type",
 "A CSR Hamiltonian block built with an index type of w bits (int32_t by default in selected_ci_diag and the ASCI drivers) has exact row pointers and columns, and its product with any vectors stays inside the arrays and equals the exact product, however many elements are stored.",
 "every index width, integrals, threshold, lists of bra and ket determinants of any length, all vectors and scalars",
 "The limit is reached only with more than two thousand million stored elements; no test builds such a matrix.",
 ["include/macis/hamiltonian_generator/double_loop.hpp:make_csr_hamiltonian_block_","include/macis/csr_hamiltonian.hpp:make_csr_hamiltonian","src/sparsexx/include/sparsexx/spblas/spmbv.hpp:gespmbv","include/macis/solvers/selected_ci_diag.hpp:selected_ci_diag"])
p("C166","The standalone program's ASCI energy on several ranks is that of a state in the requested space, under every schedule",
"An ASCI calculation of the standalone program on two or more ranks, from the input and FCIDUMP files to the printed energy: under every schedule and buffering of messages all ranks get through growth and refinement with the same energy, determinants and CI vector (or all end with the exception), namely those of the driver around the joint search and the whole matrix; the common start and the end are those of the program of one process, except that only rank 0 writes the wave-function file. Without orbital rotations the printed energy is, up to the matrix-element threshold, the core energy plus the energy expectation value, with the Hamiltonian in the file, of a normalised state on at least NTDETS_MAX different determinants that fill the inactive orbitals and place NALPHA and NBETA electrons in the active ones, and not above the energy of any of them; with rotations or the MP2 guess it is not below any lower bound of that Hamiltonian.",
"every input file and FCIDUMP file, every number of ranks from two on, every behaviour of the library sorts within the C++ standard (different on each rank), every initial memory, every schedule of ranks and messages",
"files, rank counts, interleavings and iteration histories are unbounded",
["tests/standalone_driver.cxx:main","include/macis/asci/grow.hpp:asci_grow","include/macis/asci/refine.hpp:asci_refine","include/macis/asci/determinant_search.hpp:asci_search_standard"])
p("C167","Each keyword of the standalone program sets its own setting and nothing else in the input file matters",
"For every well-formed input file that the standalone program accepts: every optional keyword sets exactly its documented setting to the value written (a count, a number, a switch that is on only for TRUE or ON, a file name, the kind of calculation) and the setting has its default when the keyword is not given; two files that agree on the program's keywords lead to the same run whatever else they contain. In particular a misspelt keyword or section is passed over in silence, and a negative GROW_FACTOR is read as 2^64 minus its absolute value.",
"every well-formed list of lines (sections, options, comments, continuations, any case), every number reader, every environment of files and solvers",
"tests run a handful of input files; a keyword that sets the wrong setting, a wrong default or a setting that leaks from an unrelated section shows only for files that use it",
["tests/standalone_driver.cxx: OPT_KEYWORD, main","tests/ini_input.cxx: INIFile::getData","tests/ini_input.cxx: INIFile::containsData"])
p("C168","What the standalone program prints and writes besides E(CI), and restarting from its wave function file",
"For every input the standalone program completes: (determinants) a CAS-CI run with PRINT.DETERMINANTS prints exactly those determinants of the full active space whose coefficient in a normalised state with the printed energy exceeds the threshold, each once with its coefficient, and prints none without the keyword; (E(RDM)) when the RDM file holds the density matrices of a normalised active-space state, E(RDM) is the core energy plus the energy expectation value of that state, inactive orbitals filled, with the integrals in the file; (wave function file) an ASCI run without orbital rotation writes its WFN_OUT_FILE exactly when one is named, and reading it back gives different determinants with the right numbers of electrons, at least NTDETS_MAX of them, and, up to the rounding of the printed numbers, the coefficients of a normalised state with the printed energy; (restart) a second run from that file that needs no growth or refinement prints the same energy up to the Hamiltonian threshold and the rounding of the coefficients; the energy of a wave function file is taken with its coefficients as they are, not normalised, and an E0_WFN given in the input is printed unchecked; (MP2 guess) with MP2_GUESS the run is the run without it on the integrals in other orthonormal orbitals with the core energy unchanged, and is undefined behaviour when there are more occupied orbitals than orbitals.",
"every input text, FCIDUMP, RDM and wave function file, every eigensolver that returns a lowest eigenpair, every number format with rounding error at most delta",
"tests compare one printed energy for one molecule; the printed determinants, E(RDM) and the energy after a restart are relations between two runs and arbitrary files",
["tests/standalone_driver.cxx:240-424","include/macis/wavefunction_io.hpp: read_wavefunction, write_wavefunction","src/macis/fcidump.cxx"])
p("C169","Hamiltonian matrix elements in floating point are exactly symmetric and accurate",
"Computing with rounded arithmetic (any rounding that leaves representable numbers alone, e.g. IEEE double in any rounding mode), matrix_element(bra, ket) and matrix_element(ket, bra) are the same number to the last bit for determinants with equal electron counts and exactly symmetric integrals, and so the sparse Hamiltonian built over such determinants has the same stored positions and the same values above and below the diagonal. Every matrix element is within ((1+u)^(n^2+n+2)-1)(n^2+n+2)B of that of the second-quantised operator (u the unit roundoff, n the electron count, B a bound on the integrals), and an element the sparse builder leaves out is at most the threshold plus that error.",
"All rounding functions with a relative error bound, all integrals, numbers of orbitals and electrons, determinants, thresholds and determinant lists.",
"A test compares a few elements with a tolerance; exact symmetry must hold for every pair of determinants and every integral value, and the error bound for all sizes.",
["include/macis/hamiltonian_generator/matrix_elements.hpp: matrix_element, matrix_element_4, matrix_element_22, matrix_element_2, matrix_element_diag","include/macis/hamiltonian_generator/impl.hpp: generate_integral_intermediates","include/macis/hamiltonian_generator/double_loop.hpp: make_csr_hamiltonian_block_","include/macis/csr_hamiltonian.hpp: make_csr_hamiltonian"])
p("C170","The sparse product in floating point is reproducible to the last bit and accurate",
"In rounded arithmetic the CSR product AV = alpha*A*V + beta*AV leaves the same numbers, to the last bit, whatever the number of threads, the distribution of the iterations and their interleaving; each element is within ((1+u)^(r+3)-1)(|alpha| |A||V| + |beta AV|) of the exact value, r being the number of stored elements of its row, whether or not the compiler fuses multiplications and additions; other elements of the buffer are left alone.",
"All roundings, contraction choices, well-formed CSR matrices, block sizes, leading dimensions of at least the row count, thread schedules.",
"Tests run a few schedules and compare with a tolerance; reproducibility and the error bound quantify over all schedules, matrices and roundings.",
["src/sparsexx/include/sparsexx/spblas/spmbv.hpp: gespmbv"])
p("C171","Incrementally updated diagonal elements are accurate in floating point",
"In rounded arithmetic the diagonal element of a singly or doubly excited determinant obtained by fast_diag_single, fast_diag_ss_double or fast_diag_os_double from the orbital energies and the (rounded) diagonal element of the original determinant is within ((1+u)^(n^2+n+20)-1)(n^2+9n+20)B of the operator's diagonal element of the excited determinant, for n electrons and integrals of at most B: the update does not amplify the error.",
"All roundings with relative error u, integrals, orbital and electron counts, determinants, and choices of holes and particles of either spin.",
"A test compares some updates with a tolerance on one molecule; the bound must hold for every determinant, excitation and integral set, since the ASCI scores divide by these numbers.",
["include/macis/hamiltonian_generator/fast_diagonals.hpp: single_orbital_en, fast_diag_single, fast_diag_ss_double, fast_diag_os_double"])
p("C172","The distributed sparse product in floating point is accurate for every distribution","pgespmv executed in floating point (any rounding with relative error u per operation, fused operations allowed) leaves on every rank its rows of alpha*A*x + beta*y up to ((1+u)^(stored elements of the row + 6) - 1) times the sum of the absolute values of the terms; each local product leaves the same bits under every thread schedule.","every number of ranks, every consistent distribution of every square sparse matrix, all vectors, alpha, beta, every rounding function with relative error u, every choice of fused operations, every content of the uninitialised receive buffer, every thread schedule of the local loops","Tests compare one distribution with a tolerance; the bound must hold for every matrix, distribution and rounding.",["src/sparsexx/include/sparsexx/spblas/pspmbv.hpp: pgespmv","src/sparsexx/include/sparsexx/spblas/spmbv.hpp: gespmbv"])
p("C173","Reduced density matrices in floating point","form_rdms computes with rounded numbers and visits the pairs of determinants in a fixed order. For every rounding, the 2-RDM it leaves is exactly unchanged by exchanging the two electrons, Γ(p,q,r,s) = Γ(r,s,p,q), if the array was before. Each element of the 1-RDM differs from the textbook sum over all pairs - no weight dropped - by at most ((1+u)^(m+1)-1) times the sum of the absolute values of its m terms, plus m times the drop threshold 1e-16/(1-u); the symmetrised elements of the 2-RDM obey such a bound with at most six terms per pair. The 1-RDM of one expansion is Hermitian up to twice the bound, but not exactly: for double precision there are expansions whose elements γ(p,q) and γ(q,p) come out different, because they add the same products in different orders.","every list of determinants of one spin sector, coefficients, rounding, orbital indices","Tests compare a few density matrices with a tolerance that hides which symmetries are exact, and cannot bound the error for every expansion.",["include/macis/hamiltonian_generator/double_loop.hpp: form_rdms","include/macis/util/rdms.hpp: rdm_contributions"])
p("C174","ASCI scores and the selection in floating point","The score of a determinant is the sum of its contributions, added with rounding in the order in which the library's sort leaves them. For every such order each determinant comes out once, with its exact score up to ((1+u)^(m-1)-1) times the sum of its m absolute contributions. asci_search on one rank then keeps at most ndets_max - ncdets determinants besides the core: none left out has an exact score above one kept by more than their two errors, and if there was room left, those left out have exact scores within their errors. A choice that is clear by more than the errors is made whatever the library does. A choice that is not can depend on the sort: in double precision there are contributions for which two correct sorts lead to different determinants.","every list of contributions, core, ndets_max, rounding, and every behaviour of sort, partition and nth_element within their specification","Which order an unstable sort leaves equal elements in differs between libraries and inputs; a test sees one, on scores whose sums are usually far apart.",["include/macis/asci/determinant_sort.hpp: sort_and_accumulate_asci_pairs","include/macis/asci/determinant_search.hpp: asci_search"])
p("C175","Numbers in text files are exact, digit by digit","Every double that is zero or normal, written by write_wavefunction or write_fcidump (scientific notation, sixteen digits after the point), is read back by the library's own readers as the same double, including the sign of zero; fifteen digits would not do. A wavefunction file with a subnormal coefficient is written without complaint and cannot be read back: the reader throws.","all finite doubles; any correctly rounded decimal output (ties either way) and any correctly rounding std::stod that reports subnormal results as out of range (glibc); all states, sizes and integrals","There are 2^64 doubles and a failure concerns isolated ones at the boundaries of binades or below 2.2e-308; tests use round numbers.",["src/macis/fcidump.cxx: write_fcidump, fcidump_line","include/macis/wavefunction_io.hpp: write_wavefunction, read_wavefunction"])
p("C176","Matrix Market numbers are exact, digit by digit","Every double that is zero or normal, written by write_mm (or the distributed writer) with seventeen significant digits in the shortest of the plain and exponent notations, is read back as the same double, including the sign of zero, and its text is one word. A CSR matrix written with indices from one is therefore read back bit for bit, entry by entry in storage order. A matrix holding a subnormal value is written but reading the file throws.","all finite doubles, all well-formed CSR matrices of either index base, any correctly rounded decimal output (ties either way), any correctly rounding std::stod that reports subnormal results as out of range (glibc)","The layout of the number changes with its magnitude and trailing zeros are stripped; a failure concerns isolated doubles among 2^64.",["src/sparsexx/include/sparsexx/io/write_mm.hpp: write_mm","src/sparsexx/include/sparsexx/io/write_dist_mm.hpp: write_dist_mm","src/sparsexx/include/sparsexx/io/read_mm.hpp: read_mm_as_coo"])
p("C177","Notations of numbers in FCIDUMP, wavefunction and Matrix Market files","A number in an input file is read as the double its decimal value rounds to, in every notation other programs use: with or without sign, point, leading or trailing digits, exponent in any of the customary forms. A word that is not a number to its end is rejected. (The code reads plain notation and exponents marked e or E exactly; anything else after the digits is silently dropped, so a Fortran exponent such as 0.5D+01 or 0.5-100 is lost and the integral is stored wrong by powers of ten.)","all numerals (any digits, any exponent), any text after them, any conversion of decimals to doubles","The notations are an infinite set; tests read files written by one program.",["src/macis/fcidump.cxx: fcidump_line","include/macis/wavefunction_io.hpp: read_wavefunction","src/sparsexx/include/sparsexx/io/read_mm.hpp: read_mm_as_coo"])
p("C178","Transformed integrals in floating point","Transforming one- and two-electron integrals in floating point gives the exact transform up to ((1+u)^(2 n) - 1) (one-electron) or ((1+u)^(4 n) - 1) (two-electron) times the same sum over absolute values, n being the number of old orbitals, whatever order, grouping or fused operations BLAS uses in each call; nothing outside the new integrals is written; selecting or reordering orbitals copies the integrals exactly. (Symmetry of the integrals is not preserved exactly: transformed elements (p,q) and (q,p) may differ in the last bit.)","all orbital counts, leading dimensions, integrals and coefficients, all orders of operations","The order of operations depends on the BLAS library, its version, the processor and the shapes; tests see one.",["src/macis/transform.cxx: two_index_transform, four_index_transform"])
p("C179","Frozen core and Fock matrices in floating point","Computed in floating point, the inactive Fock matrix, the core energy, the generalized Fock matrix, the energy computed from it the energy of the MCSCF CI step and the orbital gradient are the exact quantities up to an error proportional to the unit roundoff: the size of the sums involved times ((1+u)^k - 1), k being the number of operations in sequence. With symmetric integrals the inactive Fock matrix, and every matrix element of the active-space Hamiltonian, is symmetric bit for bit.","all numbers of inactive, active and virtual orbitals, leading dimensions, integrals, density matrices, roundings","Rounding depends on every value; a test compares a few systems with a tolerance.",["src/macis/fock_matrices.cxx: inactive_energy, inactive_fock_matrix, active_hamiltonian, active_fock_matrix, aux_q_matrix, generalized_fock_matrix, energy_from_generalized_fock","include/macis/util/mcscf_impl.hpp: mcscf_impl","src/macis/orbital_rotation_utilities.cxx: fock_to_linear_orb_grad"])
p("C180","The Hamiltonian generator's stored arrays and its rotation into natural orbitals","After its construction and after any sequence of rotate_hamiltonian_ordm calls, the combinations of two-electron integrals a HamiltonianGenerator stores are those of the integrals it then refers to, so the matrix elements it computes are those of the Hamiltonian operator of these integrals. A rotation replaces the caller's one- and two-electron integrals by those in the basis of the left singular vectors of the given density matrix. It leaves every full-CI energy as it was. If the density matrix is symmetric without negative eigenvalues, the new orbitals are its natural orbitals, in the order of decreasing occupation: in them the density is diagonal.","all orbital counts, integrals with pair exchange symmetry, density matrices, sequences of rotations, numbers of electrons, determinants, and every decomposition the singular value routine may return","No test rotates a generator; stale arrays would show only in some matrix elements after some history, and the spectrum must be kept for every density matrix, degenerate ones included.",["include/macis/hamiltonian_generator/impl.hpp: HamiltonianGenerator, generate_integral_intermediates","include/macis/hamiltonian_generator/rdms.hpp: rotate_hamiltonian_ordm","include/macis/hamiltonian_generator/matrix_elements.hpp: matrix_element"])
with open('/verif/properties.jsonl','w') as f:
    for q in P: f.write(json.dumps(q)+"\n")
print(len(P))
