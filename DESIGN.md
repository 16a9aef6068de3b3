# DESIGN: formal model of MACIS in Lean 4

## 1. Layout

* `lean/Verif/Model/*.lean` – executable model, function by function; each definition cites the file
  and lines of /repo it models and says where it simplifies.
* `lean/Verif/Spec/*.lean` – small independent specifications (second-quantised operators on bit
  strings, dense matrix denotation, excitation rank, text lines, ...). No model helper is used here.
* `lean/Verif/Lemmas/*.lean` – proofs about the model.
* `lean/Verif/Props/*.lean` – the property theorems `Cxx_...`, each next to an `example` showing that a
  concrete, non-trivial case meets its hypotheses. `_partial` marks a theorem that covers only part of
  the English property; `_refuted` marks a proved counter-example (the property is false of the code).
* `tools/gen_properties.py`, `tools/gen_manifest.py` regenerate `properties.jsonl` / `MANIFEST.json`.
* `seeded/LOG.jsonl` – the wrong-program experiments.

## 2. Trusted base

* Lean 4.33.0's kernel. No `native_decide`, no `bv_decide`, no added axioms. Every theorem depends on
  at most `propext`, `Classical.choice` and `Quot.sound` (checked by `vcheck`; `#print axioms`).
* Mathlib, as proofs re-checked by the kernel.
* The reading of the C++ as the definitions in `Model/`. What is idealised:
  * floating point numbers are elements of a commutative ring / ordered field / the reals (stated per
    theorem); rounding is modelled only for Hamiltonian matrix elements, diagonal updates, the CSR and
    distributed products, RDM accumulation and ASCI score accumulation (C169-C174: any rounding with
    a relative error bound, program order of operations), overflow to inf, underflow and NaN nowhere;
  * machine integers are unbounded `Nat`/`Int` except where the code relies on their width (bitsets are
    `BitVec`, shifts of 64-bit words, `size_t` wrap-around is turned into an explicit `ub`/`throw`);
  * C++ undefined behaviour (null dereference, out-of-range access, `front()` of an empty vector) is an
    explicit result `none`/`.ub`, never a silently chosen value;
  * memory: arrays are functions `Nat → R` or lists, leading dimensions are kept; aliasing is not
    modelled (outputs never overlap inputs);
  * `std::sort`/`std::partition`/`nth_element` are modelled by *any* result meeting the standard's
    post-condition (sorted permutation, ...), not by one algorithm; `std::stable_sort` by merge sort;
  * BLAS/LAPACK calls (gemm, gemv, axpy, dot, gesv, sysv, syev, lange) are their mathematical meaning; LAPACK
    failures are not modelled. `syev` and linear solves enter as hypotheses on the result;
  * MPI collectives (allreduce, allgatherv, bcast, exscan, alltoallv, point-to-point in pspmbv) have their
    standard meaning; message order between different pairs is irrelevant to the results. The distributed product,
    the distributed writer, the quickselect and the ASCI search are moreover modelled rank by rank with explicit
    messages and every schedule (C144-C147, C149). Fetch-and-op
    counters (dynamic load balancing) are modelled as an arbitrary assignment of tasks to ranks;
  * number formatting/parsing of floating point text is a parameter `NumIO` with a stated faithfulness
    hypothesis (format then parse is identity, formatted text has no blank and looks like a float; C168: identity up to
    the rounding of the printed digits); C175 and C176 prove the hypothesis for the format of FCIDUMP, wavefunction and Matrix Market
    files from the digits up, trusting only that the C library rounds correctly both ways;
  * OpenMP parallel loops are modelled by their sequential order (loops write disjoint locations or use a
    reduction whose order is irrelevant in exact arithmetic), except the loops of sparsexx (permutation,
    products, dense conversion), whose threads are interleaved step by step (C148, C159).

## 3. What is modelled

| model file | code |
|---|---|
| Bits | include/macis/bitset_operations.hpp (all) |
| SD | include/macis/sd_operations.hpp (all functions) |
| Ham | hamiltonian_generator.hpp, hamiltonian_generator/{impl,matrix_elements,fast_diagonals}.hpp |
| HamCsr | hamiltonian_generator/double_loop.hpp, csr_hamiltonian.hpp (serial and distributed) |
| Rdm | util/rdms.hpp, hamiltonian_generator/rdms.hpp (via double_loop.hpp) |
| Constraint | asci/mask_constraints.hpp |
| AsciContrib | asci/determinant_contributions.hpp, asci_contributions_standard/_constraint of determinant_search.hpp |
| AsciSort | asci/determinant_sort.hpp, selection part of determinant_search.hpp, util/dist_quickselect.hpp |
| AsciDrive | asci/{iteration,grow,refine}.hpp |
| Davidson | solvers/davidson.hpp, guess / gather part of solvers/selected_ci_diag.hpp |
| Text, WfnIO | wavefunction_io.hpp |
| Fcidump, RdmBin | src/macis/fcidump.cxx |
| Transform | src/macis/transform.cxx |
| Fock | src/macis/fock_matrices.cxx |
| OrbGrad | src/macis/orbital_gradient.cxx, orbital_hessian.cxx (analytic routines) |
| OrbRot | src/macis/orbital_rotation_utilities.cxx, linear_orb_rot_to_matrix etc. |
| Diis | util/diis.hpp |
| Mcscf | util/mcscf_impl.hpp, orbital_steps.cxx (precond_cg_orbital_step), approx_diag_hessian of orbital_hessian.cxx, casscf.cxx |
| Sparse, SpConv, SpBlas, SpUtil, SpIO, Dist | src/sparsexx: matrix types, conversions, spmbv/pspmbv, permute/submatrix/graph/reorder utilities, text and binary io, dist_sparse_matrix |
| Bfgs | src/macis/bfgs/{bfgs_hessian,line_search,bfgs}.hpp |
| Mp2 | src/macis/moller_plesset.cxx, src/macis/orbital_energies.cxx |
| Casci | include/macis/util/cas.hpp, serial part of solvers/selected_ci_diag.hpp end to end |
| Lobpcg | src/lobpcgxx/include/lobpcgxx/{driver,cholqr,rayleigh_ritz,residuals,convergence,simplified_interface,…}.hpp (block_ortho as exact projection) |
| NumDeriv | src/macis/orbital_gradient.cxx: numerical_orbital_gradient, numerical_orbital_hessian (dk a parameter, exact arithmetic) |
| `Model/Ini` | tests/ini_input.cxx, tests/ini_input.hpp (reader, queries, string/bool/size_t conversion), tests/standalone_driver.cxx:89-149 (active-space options) |
| Mpi, MpiSpmv | src/sparsexx/include/sparsexx/{util/mpi.hpp,spblas/pspmbv.hpp} |
| MpiFile | src/sparsexx/include/sparsexx/io/write_dist_mm.hpp |
| MpiQuick | include/macis/util/dist_quickselect.hpp (rank by rank) |
| Omp | src/sparsexx/include/sparsexx/util/permute.hpp (parallel loops as interleaved threads) |
| MpiLift, MpiSearch | include/macis/asci/determinant_search.hpp:434-663 (rank by rank) |
| MpiWrap | include/macis/util/mpi.hpp:148-223 |
| Lemmas/Rotate, Rotate2 (theory only) | src/macis/transform.cxx (through the models of C38) |
| Lemmas/CutInts, Widen, CoreWidth, CasBound (theory only) | matrix elements, CSR and CASCI through the models of C13, C17, C120 |
| Driver | tests/standalone_driver.cxx:80-424 |
| Lemmas/CutSearch, CoreLift, DriverAsci, DriverOut (theory only) | determinant search, frozen core, ASCI and FCIDUMP writer through the models of C105, C17, C67, C77 |
| Lemmas/DriverMcscf, DriverExampleMc | tests/standalone_driver.cxx (MCSCF branch), include/macis/util/mcscf_impl.hpp |
| OmpCell | src/sparsexx/include/sparsexx/spblas/spmbv.hpp:53-72,115-120, matrix_types/dense_conversions.hpp:60-63 (parallel loops as interleaved threads) |
| MpiDav | include/macis/solvers/davidson.hpp (p_davidson, p_diagonal_guess rank by rank), include/macis/solvers/selected_ci_diag.hpp:21-73 |
| MpiIter | include/macis/asci/{iteration,grow,refine}.hpp on several ranks, rank by rank |
| LogFile | src/macis/fcidump.cxx:184-207 as every rank of tests/standalone_driver.cxx:413-416 runs it |
| Narrow | include/macis/hamiltonian_generator/double_loop.hpp:30-111 with a finite `index_t`, src/sparsexx/include/sparsexx/spblas/spmbv.hpp:38-73 |
| MpiDriver | tests/standalone_driver.cxx:80-424 for an ASCI calculation on several ranks |
| RoundHam | hamiltonian_generator/matrix_elements.hpp, impl.hpp:36-69, double_loop.hpp and csr_hamiltonian.hpp with rounding |
| RoundSpmv | sparsexx/spblas/spmbv.hpp:38-73 with rounding and contraction |
| RoundDiag | hamiltonian_generator/fast_diagonals.hpp with rounding |
| RoundPSpmv | sparsexx/spblas/pspmbv.hpp:201-287 with rounding |
| RoundRdm | hamiltonian_generator/double_loop.hpp:117-165, util/rdms.hpp with rounding |
| RoundScore | asci/determinant_sort.hpp:39-83, asci/determinant_search.hpp:498-653 with rounding |
| Decimal | the number format of src/macis/fcidump.cxx:188 and wavefunction_io.hpp:109, std::stod |

Not modelled: floating point rounding other than in C169-C174; timing, logging text and verbosity; the MKL/EVSL/direct-solver wrappers of
sparsexx; `kway_partition` (METIS call); `attic/`; memory-usage reporting; the MPI/logger setup of
`tests/standalone_driver.cxx` (its control flow is in `Model/Driver`); Eigen/LAPACK internals.

## 4. Findings (behaviour of the code the proofs exposed)

* Bit queries: `ffs` of the empty bitset is wrong above 64 bits, `fls(0)` undefined (C54).
* `matrix_element` falls through to the diagonal routine for determinants of different sectors (C53).
* RDM: exchange elements of the 2-RDM are stored at (p,q,p,q) instead of (p,q,q,p) (C62); requesting only the 1-RDM changes it (C63).
* Constraints: stale output containers (C64); coverage fails for <3 alpha electrons, a split at three
  electrons, >66 orbitals (C65).
* Distributed selection loses or adds ties, and misbehaves with few candidates (C66); `top_k` size
  underflows when ncdets > ndets_max; k = 0 is undefined under MPI.
* Constraint search screens with |c·h| where the serial search screens with |h|, ignores
  `just_singles`, and pruning may leave duplicates or read past the end (C105).
* asci_grow loops forever for grow_factor ≤ 1 (C67) and returns the energy from before the last orbital
  rotation (C69).
* Davidson: eigenvector guess breaks down (C71); p_diagonal_guess owner bug (C73); ranks can disagree on
  reusing a guess (C74); max_m = 0 underflows; p_davidson does not cap max_m by N.
* Wavefunction reader ignores header counts and accepts over-long strings (C75).
* FCIDUMP: `p 0 0 0` lines are out of bounds, integer-valued numbers misread, five-word headers throw
  (C76); a second write throws, an existing file is appended to and the old core energy is read (C77).
* Truncated RDM files are accepted, 1-RDM data leaking into the 2-RDM (C78).
* four_index_transform ignores padding (C79); one-index transform reads T with LDX (C87).
* DIIS window 0 is undefined (C81).
* Hessian contraction lacks the ½ on the commutator term: not symmetric off stationary points (C86).
* numerical_orbital_gradient ignores LDOG; numerical_orbital_hessian loops b from i+1.
* MCSCF: silent return when not converged; first convergence test without rms_factor; returned RDMs are in
  a basis the caller cannot access; leading dimensions of RDMs ignored (C93); approximate Hessian diagonal
  not safeguarded (C92); orb_rot_sz = 0 with tol ≤ 0 is undefined; DIIS pairs new K with the old gradient
  and the extrapolated step is not limited by max_orbital_step (C106).
* sparsexx: copy of a distributed matrix loses tiles (C52); COO index base ignored (C55, C59); COO→CSR/CSC
  with empty rows / non-square (C58); missing diagonal (C60); matrix-market mixing of bases, entry count
  unchecked (C94); triangular triplet files mirrored (C97); symmetric RB type ignored (C99).
* BFGS: the absolute slack 1e-6 accepts steps without decrease (C110), curvature y·s > 0 is not enforced so
  the operator can turn uphill (C109_needs_curvature), y·s = 0 divides by zero, the start point is never
  tested for convergence, the supplied initial Hessian is not used for the first direction (C111); the
  grid search can return a worse point than the start (C113).
* mp2_1rdm never writes the occupied-virtual blocks, and mp2_natural_orbitals diagonalises them: the result depends
  on what the caller's array held (C118_stale_contents_refuted). The printed EMP2 uses the number of orbitals
  instead of LDV as a stride (C117_leading_dimension_refuted). Vanishing denominators are not guarded.
* compute_casci_rdms documents its RDM arrays as outputs but accumulates onto them (C121_prior_contents_refuted), and
  with MPI on two or more ranks passes the rank-local CI vector together with all determinants to form_rdms, reading
  out of range (C122_several_ranks_refuted).
* LOBPCG throws "Cholesky failed in CholQR" whenever an eigenvector lies in the span of the guess and the whole block is
  not yet accepted, and for every block of more than a third of the dimension (C125); with the absolute check it accepts any
  sufficiently short vector as converged (C126); a null vector has relative residual 0/0 and is never accepted (C127); the
  last iterate is thrown away unchecked (C128).
* `numerical_orbital_gradient` ignores `LDOG` (C134); the inner loop of `numerical_orbital_hessian` starts `b` at `i + 1` instead
  of `j + 1`: some pairs are never stored (C137), and for `b = j` it differentiates along a generator that is not antisymmetric.
- C139: an option line that is indented right after another option is read as an option and as its own continuation: `" B = x"` gives the value `"x\n = x"`; with more spaces than the option has characters the driver dies with `std::out_of_range`.
- C140: `[CI] # comment` and, in a file with CRLF line endings, every header is not recognised, its options go to the previous section or nowhere; values are cut at `=`, `:` and `#`; a line of separators only is undefined behaviour.
- C141/C142: `ENABLE_DIIS = true` means off; `NTDETS_MAX = 1e6` means 1, `-1` means 2^64 - 1.
- C143: `NALPHA > NACTIVE` is accepted.
- **C145**: `communication_volume` halves each rank's (send + receive) count in integers before summing; a rank that sends one element to another that sends nothing back is reported as volume 0.
- C154: a one-determinant CAS never converges: `davidson` clamps its subspace to `min(max_m, N) = 1` and throws "Did Not Converge".
- C154: `PRINT.DETERMINANTS` on more than one MPI rank indexes the rank-local coefficient vector with global determinant numbers.
- C154: `FCIDUMP_OUT` after MCSCF or with `GROW_WITH_ROT` does not contain the rotated integrals.
- C156: the standalone program accepts `NALPHA > NACTIVE` for ASCI; the starting determinant then has electrons outside the active space (the theorems assume `NALPHA ≤ NACTIVE`).
- C156: with `WFN_FILE` and neither growth nor refinement the printed energy is that of the guess as read (not normalised), or the value of `E0_WFN`, not an expectation value.
- C159: a leading dimension below the number of rows makes the block product racy (lost update); COO to dense conversion of a matrix with a repeated position gives a schedule-dependent value.
- C160: `test_dist` with reordering on one process asks for two parts and so always fails with a tiling of the wrong length.
- C162: when the smallest diagonal element lies in the remainder rows (index at least `P * (N / P)`), `p_diagonal_guess` stores no 1 on any rank, the guess is zero and every rank of the distributed diagonalisation throws.
- C162: the choice between passed vector and diagonal guess is made rank by rank; start vectors on which the ranks disagree make them call different collectives.
- C66: with nothing requested (`ndets_max = ncdets`, as in the refinement when `NCDETS_MAX` is at least the number of determinants) the quickselect of several ranks looks for the 0th largest score: unless a candidate survives its loop it reads through a null pointer; the serial search returns the core determinants.
- C163: the search returns the new determinants first and the core last. When ASCI starts from the single lowest determinant (Hartree-Fock) and the number of determinants asked for is not a multiple of the number of ranks (for instance the default 100 on 3 ranks), the smallest diagonal element is in the remainder rows, `p_diagonal_guess` (davidson.hpp:72-108) sets no element on any rank, the start vector is zero and `asci_iter` throws on every rank; on a number of ranks that divides it, the same calculation succeeds.
- C164: every rank writes the `FCIDUMP_OUT` file (tests/standalone_driver.cxx:413-416 is not restricted to rank 0), appending to the same file. If the C library's buffer cuts lines, the pieces of two ranks interleave to lines that read as a wrong integral without complaint. A writer stopped after the first `norb` lines leaves a file that is accepted with core energy 0.
- C165: `selected_ci_diag`, `asci_iter`, `asci_grow` and `asci_refine` use `int32_t` indices by default and never check: once a rank stores `2^31` elements, the row pointer turns negative; the row concerned counts as empty without complaint, the following rows are read outside the arrays.
- C167: keywords that are misspelt, or in a section of the wrong name, are ignored without a message; `ASCI.GROW_FACTOR = -1` is read as an int and stored in a size_t, so it means 2^64 - 1.
- C168: the program computes the starting energy of a wave function file as `C'HC` without dividing by the norm, and prints a given `E0_WFN` as E(CI) unchecked when no growth or refinement follows. With `GROW_WITH_ROT` the coefficients in the wave function file refer to rotated orbitals while the integrals written to `FCIDUMP_OUT` do not, so such a file cannot be restarted from.
- C173: the 1-RDM is not exactly Hermitian in floating point (the two elements of a pair sum the same products in different orders), while the electron exchange symmetry of the 2-RDM is exact bit for bit.
- C174: sort_and_accumulate_asci_pairs adds the contributions of a determinant in the order an unstable sort leaves them in, so scores, and selections decided by less than the rounding errors, can differ between correct libraries.
- C175: write_wavefunction writes subnormal coefficients, but std::stod (glibc) throws out_of_range for them, so the file cannot be read back.
- C176: write_mm writes subnormal matrix elements, but read_mm throws out_of_range (std::stod) on them.
- C177: the number readers (std::stod without a check of the position) ignore everything after the digits: an FCIDUMP integral with a Fortran exponent (0.5D+01) is accepted and stored as 0.5.

- C178: two_index_transform does not preserve symmetry exactly: transformed elements (p,q) and (q,p) are computed by different additions.
- C180: rotate_hamiltonian_ordm overwrites the integral arrays of the caller, of which the generator only holds views: other generators built on the same arrays keep combinations of the old integrals and mix them with the new ones.

## 5. Plan per property

Every property below is expressed in the model; none is declared inexpressible.

| property | model and proof plan |
|---|---|
| C01 Lowest/highest set bit queries are exact | Bits.lean models all four width paths on the 64-bit words; theorem by characterising lowest/highest bit via testBit. Empty bitset: negation witness for 65..128 and >128 bits; fls(0) modelled as UB (none). |
| C02 Occupied orbital list is exact and sorted | Model of the ffs/flip loop; induction on the number of set bits, equality with the filtered range. |
| C03 full_mask and width conversion select exactly the low bits | Shift model; bit extensionality. |
| C04 Determinant comparison is a strict total order on every width | All width paths incl. generic loop, proved equal to numeric `<`. |
| C05 Occupied/virtual split partitions the orbital space | Model both functions; list equality with filtered range. |
| C06 Reference determinant is the aufbau state | Mask model and stable-sort (merge sort) model; bit extensionality / sortedness of merge sort. |
| C07 Single excitations are enumerated completely and without repetition | Loop model; membership iff specification + Nodup. |
| C08 Double excitations are enumerated completely and without repetition | Loop model; membership iff specification + Nodup. |
| C09 CISD space is exactly the ball of excitation rank two | Composition of C07/C08 over spin halves; membership iff + Nodup. |
| C10 Full CI space enumerates the whole sector exactly once | prev_permutation modelled on Bool lists; equality with the recursive enumeration by induction; cardinality by choose. |
| C11 Excitation signs follow the fermionic parity rule | Popcount of masks; equality with operator-by-operator sign. |
| C12 Determinant text encoding round-trips | Character list model; per-orbital case analysis. |
| C13 Hamiltonian matrix elements are those of the second-quantised Hamiltonian | Operators a, a+ on bit strings (independent spec), double/single/zero difference cases; sums collapse. |
| C14 The Hamiltonian is symmetric | Corollary of direct symmetry of each case. |
| C15 Determinants differing by more than two moved electrons do not couple | (restated as "more than two moved electrons") direct: excess popcount makes every branch return 0; with a corollary in terms of excitation rank. |
| C16 Fast diagonal updates agree with recomputation | Ring identities over occupied lists. |
| C17 Sparse Hamiltonian block is the thresholded dense block | Loop model over lists, induction over rows. |
| C18 Distributed Hamiltonian equals the serial one | Tile model using zeroed determinants; row by row equality. |
| C19 RDMs reproduce the energy | Scatter model of rdm contributions as finitely many (index,value) additions; contraction is linear. |
| C20 RDM trace counts the electrons | Trace from the scatter model of C19; null-output behaviour moved to C63. |
| C21 Constraint excitations are exactly the admissible ones | Model of mask logic; membership iff; negation for stale output containers of generate_constraint_singles. |
| C22 Workload counts equal the work generated | Lengths of lists from C21. |
| C23 Triplet constraints partition the search space | Top three bits argument; negation for fewer than three electrons. |
| C24 Splitting and distributing constraints preserves coverage | Bit argument; negation for determinants without further electrons. |
| C25 Every constraint is processed by exactly one rank | Greedy fold; invariant. |
| C26 Accumulating ASCI scores loses and duplicates nothing | Sort + accumulate loop; induction. |
| C27 Largest-copy retention and reordering by coefficient | Order statistics on lists. |
| C28 ASCI search returns the core plus the best candidates | Composition; negation for ncdets > ndets_max. |
| C29 Distributed selection equals a serial selection | Composition of C30 and gather; negation for ties. |
| C30 Distributed quickselect returns the k-th ranked element | Step function over rank lists with arbitrary pivot oracle; termination measure and rank invariant. |
| C31 Wavefunction growth schedule terminates within the limits | State machine with oracle for the search; negation for growth factor that does not grow. |
| C32 Refinement either converges or reports failure | State machine with oracle. |
| C33 Initial guess of the eigensolver is a unit vector on the smallest diagonal | Model of the owner computation; negation for remainder. |
| C34 Wavefunction files round-trip | Token/line level model of the file. |
| C35 FCIDUMP write/read round-trips | Token level model; fold of writes. |
| C36 FCIDUMP reading yields symmetric integrals and rejects bad lines | Fold invariant. |
| C37 Binary RDM files round-trip | Byte-level abstracted to arrays of values. |
| C38 Integral transformations implement the basis change | Flat-array model with leading dimensions; negation for padded leading dimension. |
| C39 Active-space reduction preserves the energy | Finite sums over orbital partition; ring. |
| C40 Orbital rotation packing is lossless | Index arithmetic. |
| C41 DIIS history is a sliding window | Operation-history induction. |
| C42 Distributed matrix rows form a contiguous partition | Arithmetic; list folds. |
| C43 Sparse format conversions preserve the matrix | Denotation of COO/CSR as a function (i,j) -> value; negations for COO->CSR with empty rows and COO->CSC non square. |
| C44 Sparse matrix-vector product is the matrix-vector product | Loop model; sums. |
| C45 Distributed SpMV equals serial SpMV | Exchange model per rank pair. |
| C46 Submatrix extraction selects exactly the block | Denotation equality. |
| C47 Triangle, diagonal and trace utilities are exact | Denotation equality; negations for missing diagonal. |
| C48 Permutation utilities are mutually inverse and act as permutations | List permutation lemmas. |
| C49 Matrix-market writing and reading agree | Token-level model; negation for 1-based matrices. |
| C50 Davidson subspace bookkeeping | Loop state machine with oracle; Gram-Schmidt over an inner product given by a bilinear form. |
| C51 Two-electron residues are complete | Loop model; membership iff two distinct occupied removed, plus Nodup. |
| C52 Copying a distributed matrix preserves its distribution | Copy constructor model; default distribution proved, negation for user tiles. |
| C53 Determinants of different sectors do not couple | Fall-through branch of matrix_element; negation plus exact value returned. |
| C54 Bit queries on the empty bitset | Word-level model; negation for 65+ bits, UB result for fls. |
| C55 COO matrix-vector product | Loop model; sum equality for zero-based, negation for one-based. |
| C56 CSR to dense conversion is exact | Loop model with zero initialisation made explicit. |
| C57 Sorting a COO matrix keeps the matrix and establishes the order | sort modelled as an arbitrary sorted permutation; denotation invariant. |
| C58 COO to CSR and COO to CSC conversions preserve the matrix | Loop model with index-base; prefix-sum invariant; negations. |
| C59 COO to dense conversion is exact | Loop model; negation for one-based. |
| C60 expand_from_triangle rebuilds the symmetric matrix | Loop model; denotation; negation for missing diagonal. |
| C61 Distributing a serial matrix gives each rank its rows | Row-slice model; denotation; composed with C45. |
| C62 2-RDM is the textbook tensor element by element | Scatter list against operator specification; contraction equality plus element witness. |
| C63 The 1-RDM does not depend on requesting the 2-RDM | Model of the optional outputs; negation for double excitations with only the 1-RDM requested. |
| C64 Constraint excitation output is independent of prior container content | Output containers are explicit state; negation for early exit. |
| C65 The distributed constraint search covers every determinant | Composition of C23, C24; three counter-examples. |
| C66 Distributed selection with ties or few candidates | Filter against the k-th score; negation for ties. |
| C67 Growth terminates for every growth factor | Schedule loop with fuel; divergence shown for every fuel. |
| C68 An ASCI iteration keeps the dominant determinants | Composition of C27, C28 in the iteration driver. |
| C69 The energy returned by asci_grow belongs to the returned wave function | Driver state machine over an oracle; energy invariant; negation with rotation. |
| C70 Gathering the CI vector is lossless | Allgatherv model with displacements. |
| C71 A guess that already is the solution is accepted | First Davidson iteration unfolded; negation by explicit 2x2 matrix. |
| C72 The distributed eigensolver equals the serial one | Simulation relation between rank-local slices and the serial state. |
| C73 The distributed guess is a unit vector for every size | Owner arithmetic; negation. |
| C74 All ranks agree whether to reuse a passed vector | Per-rank branch; negation. |
| C75 Damaged wavefunction files are detected | File reader model on truncated files; general theorem for truncation at every line. |
| C76 FCIDUMP readers are safe on the files other programs write | Reader model; negations (one of them for every file that contains such a line). |
| C77 FCIDUMP files can be written repeatedly | Logger registry as world state; negation for every second call. |
| C78 Truncated RDM files are detected | Stream model; negation. |
| C79 four_index_transform honours leading dimensions | Flat-array model; negations. |
| C80 DIIS extrapolation is the optimal affine combination | Normal equations of the constrained least squares problem; optimality over a linearly ordered field. |
| C81 A DIIS object with window zero holds nothing | UB result; negation for every call. |
| C82 The orbital gradient is the derivative of the energy | Energy of the rotated integrals; exp of the antisymmetric generator; HasDerivAt over the reals. |
| C83 Orbital rotations are orthogonal | Matrix exponential of antisymmetric matrix, Mathlib. |
| C84 The Hessian contraction gives the second derivative of the energy | Second derivative of the energy along exp(tK). |
| C85 The orbital Hessian is symmetric at stationary points | Commutator identity plus stationarity. |
| C86 The orbital Hessian is symmetric everywhere | Explicit counter-example; characterisation of the antisymmetric part. |
| C87 The one-index transformed integrals honour leading dimensions | Flat-array model; negation for LDT != LDX. |
| C88 The MCSCF energy belongs to the orbitals and RDMs it returns | Invariant of the macro-iteration loop with oracle CI solver. |
| C89 MCSCF terminates within the iteration limit | Fuel-free measure on the iteration counter. |
| C90 A converged MCSCF result is stationary to the tolerance | Invariant: convergence flag implies bound on the gradient of the returned orbitals. |
| C91 The MCSCF step is bounded and downhill for a positive model Hessian | Step arithmetic over an ordered field; scaling bound and sign. |
| C92 Every MCSCF step is downhill | Counter-example with negative model Hessian. |
| C93 MCSCF accepts padded RDM arrays | Counter-example with padded leading dimension. |
| C94 Every way of writing and reading a matrix-market file agrees | Character-level reader/writer model; negations. |
| C95 Matrix-market files are read as the matrix they describe | Line-level reader model; denotation of listed entries, symmetric expansion. |
| C96 A distributed matrix is written as the global matrix | Rank concatenation model; equality with the serial writer. |
| C97 Binary triplet files round-trip | Stream model; negation for triangular. |
| C98 Rutherford-Boeing files are read array by array | Fixed-width reader model; array equality. |
| C99 Symmetric Rutherford-Boeing files denote symmetric matrices | Counter-example. |
| C100 CIS space and spin-resolved generators are exact | Composition of C07, C08 over spin halves. |
| C101 The adjacency graph is the off-diagonal pattern | Loop model; membership iff. |
| C102 ASCI scores are first-order amplitudes | Contribution loops composed over core determinants; grouping by determinant; equality with sum of c_i <D|H|i> over the energy gap. |
| C103 Searching on several ranks scores every determinant exactly once with the exact score | Constraint loops per rank, composed with C24/C65. |
| C104 Pruning loses only small scores | Pruning model; every lost score below the final threshold. |
| C105 The ASCI search gives the same scores on one rank and on several | Witnesses on concrete integrals; equality with screening off. |
| C106 One MCSCF macro-iteration rotates the orbitals by the computed step, or by the optimal DIIS combination | One loop iteration unfolded to the rotation matrix applied; DIIS through C80. |
| C107 The approximate orbital Hessian diagonal is the mean-field second derivative | Flat-array model against mean-field second derivative; consistency with C84 for non-interacting case. |
| C108 The quasi-Newton operator is the BFGS inverse Hessian of its update history | Model of the two-loop recursion over lists of pairs; induction over the history from the newest end; equality with the foldl of the matrix update formula. |
| C109 The quasi-Newton operator keeps descent directions and the secant equation | Induction: one update preserves symmetry and positive definiteness; secant by computation. |
| C110 The backtracking line search returns the first acceptable step | Loop invariant on the halving index; iff characterisation. |
| C111 A BFGS run returns only converged points reached by monotone quasi-Newton moves | Induction over the iteration budget producing the sequence of points. |
| C112 The Nocedal-Wright line search returns a strong Wolfe step | Invariant: the bracket has two distinct nonnegative steps; exits only when both Wolfe tests hold. The second phase: induction on the zoom loop (`C112_zoom_below`). |
| C113 The discrete line search returns the best grid step | Fold invariant (minimum so far). |
| C114 Canonical orbital energies are the Fock diagonal | Model loop as stores; pointwise value; compare with the inactive Fock matrix of C39. |
| C115 MP2 amplitudes | Injectivity of the four-index address; pointwise value of the stores. |
| C116 MP2 one-particle density | Pointwise value of both blocks; trace by reordering sums; definiteness by writing the form as sum y(2y - y∘swap). |
| C117 Printed MP2 energy | Pairing (i,j) with (j,i) gives a sum of squares over negative denominators; refuted for LDV ≠ norb (witness), so partial. |
| C118 MP2 natural orbitals | Exact syev assumed as a specification (its existence over the reals is proved from the spectral theorem); trace invariance via orthonormal rows; refuted for stale output contents, so partial. |
| C119 Selected-CI diagonalisation | Compose C17 (CSR block = thresholded CI matrix), C44 (spmv), C47 (diagonal), C74/C33 (guess) and C50 (Davidson). |
| C120 CAS-CI energy and density matrices agree | C10 (Hilbert space) + C119 + C19/C20 (RDM contraction and trace); the two thresholds bounded with Cauchy-Schwarz. An actual run is exhibited. |
| C121 CAS-CI density matrices are outputs | Refuted in general: the folded updates add to the prior contents, element by element. |
| C122 CAS-CI on several ranks | Refuted in general: for every P ≥ 2 the diagonal pair of the last determinant reads C beyond the local length. |
| C123 LOBPCG returns converged eigenpairs | Model of the whole lobpcgxx driver over exact reals; potrf/syev/gelqf enter by specification (Spec/Lobpcg.lean), shown satisfiable (exists_lobLapack). Loop invariant LobInv + Cauchy interlacing (Lemmas/Ritz.lean); residual bound gives a nearby eigenvalue by the spectral theorem. |
| C124 LOBPCG iterations make progress | The invariant step theorem, stated explicitly; the failure exit from the same invariant. |
| C125 LOBPCG accepts any guess and block size | Refuted in general: an eigenvector in the span of the guess makes the residual block dependent, and dependent blocks fail CholQR; blocks with 3K > N cannot iterate twice. |
| C126 LOBPCG needs no orthonormal guess | Refuted in general: every direction scaled far enough down is accepted at once. |
| C127 LOBPCG accepts exact eigenvectors | Proved for nonzero eigenvalues; refuted for a null vector (0/0 in the relative residual). |
| C128 LOBPCG fails only if not converged | Refuted: with 2K = N the first iterate is exact, and maxiter = 1 throws; with maxiter ≥ 2 it is accepted. |
| C129 LOBPCG workspace | Linear arithmetic over the carve-up; case analysis of the argument checks. |
| C130 LOBPCG convergence history | Induction over the loop. |
| C131 Freezing a doubly occupied core is exact | Annihilating the core on both sides of the second-quantised Hamiltonian: signs of shifted determinants (Emb), split of every orbital sum into core and active part. |
| C132 The CAS-CI total energy is the variational energy over all orbitals | Composition of C120 (active-space run), C131 (core) and C13; Cauchy–Schwarz for the dropped elements; pull-back of the vector to the full-CI list for the variational bound. |
| C133 The finite-difference orbital gradient agrees with the analytic one to fourth order | Value of each energy evaluation independent of the shared work arrays; Taylor bound of the five-point formula by repeated integration of the derivative bound; derivative at 0 from the energy-rotation lemmas behind C82. |
| C134 The finite-difference orbital gradient respects the leading dimension of its output | Refuted: address 6 of a 3-orbital call with LDOG = 4 is never written, for any input. |
| C135 The finite-difference orbital Hessian approximates mixed second derivatives to fourth order | Product of two five-point formulas; joint smoothness of the energy through analyticity of the matrix exponential. |
| C136 Finite-difference and analytic orbital Hessians agree | Polarisation of C84: the second derivative along lines determines the mixed derivative; bilinearity of the packed Hessian product. |
| C137 The finite-difference orbital Hessian covers all pairs of rotations | Refuted for (a,i) = (2,1), (b,j) = (1,0); partial: stored exactly when i < b, and one of the two orders always is. |
| C138 The driver's input file is read as it is written | model of the reader line by line (`Model/Ini`), specification a list of structured lines with a printer and a meaning (`Spec/Ini`); simulation relation between the parser state and the meaning, induction over the lines |
| C139 Indentation of options in the input file has no effect | refuted: witness files (indentation by one space corrupts the value, by more throws) |
| C140 Comments after headers, line endings and special characters in values are handled by the input reader | refuted: witness files for each of the four clauses |
| C141 Switches in the input file mean what they say | partial: exactly TRUE and ON turn a switch on, for every file; refuted for other letter cases |
| C142 Counts in the input file mean what they say | partial: every decimal numeral is read as its number or refused (`stoul` model on `Nat.toDigits`); refuted for `-1`, `1e6`, `100,000` |
| C143 The driver accepts exactly the active spaces that make sense | case analysis of the checks with 64-bit wrap-around; converse by evaluation on symbolic numerals; refuted: electron count is not checked against the active space |
| C144 The distributed matrix-vector product is deadlock-free and deterministic | Message passing model (Model/Mpi): ranks with programs of sends, receives, waits and local work; steps of different ranks commute (diamond), so one complete execution without early send completion decides about all; that execution is built phase by phase (Lemmas/MpiPhase, MpiSpmv). |
| C145 The reported communication volume | Count the elements of all messages twice (by sender, by receiver); halving each rank's sum loses at most 1/2 per rank. |
| C146 The distributed Matrix Market writer, under every schedule and crash point | Ranks as programs over a shared file and a token ring (Model/MpiFile); invariant: file ++ what the ranks still have to write = final text, one rank at a time owns the token; a cost that every step lowers by one gives termination, progress from the invariant. |
| C147 Distributed quickselect under every schedule | Each rank is a program with data-dependent control flow over the message passing model; induction on the rounds: gathered sizes, pivot and partition sizes are the same everywhere, so all ranks take the same branch; the complete execution built this way decides about all schedules (C144 method). |
| C148 Parallel permutation of sparse matrices: no data race, same result under every thread schedule | threads sharing the output arrays as an interleaving transition system; invariant: rows begun are owned by one thread and their written part is final, index arrays stay permutations; termination by a cost that drops by one per step; result equal to the sequential loop of C48 |
| C149 asci_search returns the same determinants on every rank, under every schedule | asci_search as the program of each rank, dist_quickselect called through a lifting of its rank-by-rank program; one phase-by-phase execution is constructed and the diamond property of the semantics makes every execution end like it; result identified with asciSelectDist of C29 |
| C150 The reduction and broadcast wrappers handle exactly the requested elements, for every length | the wrappers as lists of (offset, length) calls on buffers of all ranks; coverage and disjointness of the stretches by division with remainder |
| C151 Full-CI energies do not depend on the choice of orthonormal orbitals | creation and annihilation operators as linear maps on functions of determinants; operators satisfying the anticommutation rules and killing the vacuum have the same matrix elements as the standard ones (Wick uniqueness), applied to the rotated operators; the transforms identified with the rotated integrals by C38 |
| C152 Only the integrals of the orbitals influence the result | congruence of each matrix-element branch in the integrals with indices below n (occupied and vacant orbital lists stay below n); lifted through the CSR scan, the block builder and the CASCI driver |
| C153 Results do not depend on the number of determinant bits | both sides equal the second-quantised matrix element (C13, C152); the latter is shown to depend on the occupations only; lists related element by element |
| C154 CAS-CI run of the standalone program, from its files to the printed energy | the driver is composed from the models of the readers, partition, frozen core and CASCI solver; monadic inversion of the run (`driver_runs`), then C120/C17/C25 identities; lower bounds carried through restriction and rotation (C151) |
| C155 An MCSCF run of the standalone program prints a genuine, variational CASSCF energy | Model/Driver.lean (MCSCF branch with the CAS functor as solver): the driver's energy is traced through mcInit/mcStep/mcLoop with casRdms (C119, C19) and the CAS determinants are lifted to all orbitals; bound on dropped matrix elements and dropped RDM weights; convergence via the derivative theorem of C90. |
| C156 ASCI run of the standalone program, from its files to the printed energy | `driver_runs` inversion, then an invariant over grow / refine / rotate (`asci_run`): the determinant list stays in the sector and the integrals stay an orthogonal transform of the active ones; `active_lift` carries energies from the active space to the full Hamiltonian |
| C157 The integral file written by the standalone program reproduces the calculation | the writer's lines are shown to be FCIDUMP entries of the arrays written (`dump_entries`), and the reader returns the same arrays for files with the same entries (`readIntegrals_same`) |
| C158 RDMs have the symmetries the orbital code relies on | Model/Rdm.lean: symmetry of the RDMs of every CI vector in one sector, from the operator expectation values (C14-C19), no size bound. |
| C159 Multithreaded sparse products and conversions are race-free and correct under every interleaving | Model/OmpCell.lean: threads as step machines over a shared array; invariant "an iteration in flight owns its cell" gives race freedom, termination by a step measure, result equal to the sequential fold and hence the specification of C44/C55/C56; schedules that lose an update when the provisos fail. |
| C160 Reordering a matrix, multiplying and undoing the reordering gives the original product | composition of the theorems on perm_from_part, permute_rows_cols, permute_vector (C48), distribution (C42, C61) and products (C44, C45); the sum over columns is reindexed by the permutation. |
| C161 The distributed Davidson solver returns the serial solver's answer on every rank under every schedule | Model/MpiDav.lean: p_davidson as the program each rank runs, on the message-passing machine of Model/Mpi.lean; simulation of the serial solver iteration by iteration, confluence gives every schedule. |
| C162 parallel_selected_ci_diag finds the eigenpair from any start vector | Model/MpiDav.lean: parallel_selected_ci_diag with the rank-local choice of start vector and p_diagonal_guess; composition of C161 with the diagonal extraction; lost guess and disagreement as general theorems over all such inputs. |
| C163 ASCI on several ranks ends on every rank with the joint result, under every schedule | Model/MpiIter.lean: the iteration, growth and refinement as the program each rank runs, built from the rank programs of the search (Model/MpiSearch) and of the eigensolver (Model/MpiDav) through ports into one memory; simulation of the drivers of Model/AsciDrive around the joint search; violation on a remainder of rows as a general theorem and a computed case on three ranks (two ranks succeed). |
| C164 FCIDUMP_OUT written by every rank | Model/LogFile.lean: the file and the pieces each process has still to append, one append per step; invariant: the file is made of whole lines of the text and every line of an ended rank is there; torn lines and the stopped writer as computed and general violations. |
| C165 Sparse Hamiltonian with a finite index type | Model/Narrow.lean: the block builder with every stored index converted to w bits and the row loop of the product with signed differences and bounds; equal to the unbounded builder after reduction modulo 2^w by induction over the loops; exact below 2^(w-1); the lost row as a general theorem and a family of one-electron inputs that reach it. |
| C166 The standalone program's ASCI energy on several ranks is that of a state in the requested space, under every schedule | Model/MpiDriver.lean: the program split into the common start, the growth and refinement programs of the ranks and the end; the one-process program shown to be the same split; C163 for the ranks, the invariants of C142 for the joint environment (search result of C103 inside the sector and without repetition). |
| C167 Each keyword of the standalone program sets its own setting and nothing else in the input file matters | Spec/Keywords.lean: the table of keywords with section, default and setting; the reader of C138 composed with the option reading of Model/Driver.lean; each setting by inversion of the reading; independence of the rest of the file by congruence of the whole program in the looked-up texts. |
| C168 What the standalone program prints and writes besides E(CI), and restarting from its wave function file | Props/DriverPrint.lean over Model/Driver.lean: the run traced to the output record; the CAS vector through `casRdms_solved_all`, E(RDM) by expanding the Hamiltonian in density matrices and lifting to the full space (`file_lift`), the wave function file by the round trip of C34 with rounding (Spec/Rounds.lean), the restart by comparing the quadratic forms of the exact and the rounded coefficients, the MP2 guess by the rotation lemmas of C140. Props/DriverPrintEx.lean has complete runs for every hypothesis. |
| C169 Hamiltonian matrix elements in floating point are exactly symmetric and accurate | Model/RoundHam.lean: the matrix elements and the sparse builder with a rounding after every operation, in program order. Symmetry: the string excitation read backwards swaps hole and particle with the same sign, the vanishing term of the single excitation sum is skipped because partial sums are representable; error: `Near` (k roundings of a sum of terms of total size A) composed along the loops. |
| C170 The sparse product in floating point is reproducible to the last bit and accurate | Model/RoundSpmv.lean: the parallel loop of C159 with rounded steps; the generic end state of the interleaved loop gives one output for all schedules, `Near` along a row the error bound. |
| C171 Incrementally updated diagonal elements are accurate in floating point | Model/RoundDiag.lean: the update formulas as chains of rounded additions; `Near` along the orbital energies and the chain, the exact updates by C16 and C13. |
| C172 The distributed sparse product in floating point is accurate for every distribution | Model/RoundPSpmv.lean: pgespmv with the rounded local products; communication only copies, so the error of the two local products is chained (`Near.chain`), the sums over local and received columns join as in C45. |
| C173 Reduced density matrices in floating point | Model/RoundRdm.lean: `form_rdms` with the weights and every accumulation rounded. The numbers written to one element are collected in program order; for an element and its electron-exchanged partner these lists are equal (`tVals_pair`), for the 1-RDM the list of a pair is abs(γ) copies of ±w (`oVals_pair`, from the exact value by C19), for the 2-RDM at most six numbers ±w/2. `Near` along the lists plus the weights dropped gives the bounds; 1 + 2^-53 + 2^-53 summed in two orders the non-Hermitian expansion. |
| C174 ASCI scores and the selection in floating point | Model/RoundScore.lean: the accumulation with a rounded sum. `sortCombine_spec` (C26) is generic in the operation and gives the sum over a permutation of the contributions, `Near` its error; the selection is C28 applied to the accumulated list (`accumulate_self`), whose scores are the exact ones up to the error. |
| C175 Numbers in text files are exact, digit by digit | Model/Decimal.lean: doubles as sign, significand, exponent; the digits of the scientific format (`sciParts`, exact rational arithmetic) and the grammar of strtod. The printed number is within half a unit of the 17th digit (`sciParts_spec`), two doubles of one sign are further apart than that unit (`Dbl.gap`, because 2^53 < 10^16), so the double is the closest one to its text and a correctly rounding reader returns it; the text is parsed back character by character (`strtodExact_sci`). C34 and C35 are instantiated; the subnormal case follows from the range error of std::stod. |
| C176 Matrix Market numbers are exact, digit by digit | Model/Decimal.lean `fmtGen`: the 17 digits of C175's `sciParts` laid out as %.17g does (plain notation for exponents -4 to 16, trailing zeros stripped). The text of any layout is parsed back to the value of the digits (`strtodExact_parts`, `gen_value`); closeness is C175's `sci_closest`. `C176_file` follows the entries through the writer and the reader in storage order, without adding any (doubles are no commutative monoid). |
| C177 Notations of numbers in FCIDUMP, wavefunction and Matrix Market files | The grammar of strtod in Model/Decimal.lean against numerals specified in Spec/Numeral.lean (sign, integer digits, point, fraction, exponent): `strtod_mantissa` reads the mantissa and leaves the rest, whose exponent is read by `readExp`. Without e or E the rest is ignored: the refutation, carried to FCIDUMP lines with C36_line. |
| C178 Transformed integrals in floating point | Model/RoundTransform.lean: the calls of transform.cxx with a relation `Dot` of all values an order of operations can give to a sum of products; `Dot.near` bounds each by as many roundings as there are terms, chained through the two or four products along the addresses of C38/C79; sums with one term are exact (`Dot.single`); a witness for the lost symmetry. |
| C179 Frozen core and Fock matrices in floating point | Model/RoundFock.lean: the loops of fock_matrices.cxx and the energy and gradient of the CI step (mcscf_impl.hpp) with a rounding after every operation, the call of BLAS as in C178. `Near.acc` follows the loops, the sizes are specified in Spec/RoundFock.lean, the exact values come from C39. Symmetry: both elements of a pair go through the same operations on the same numbers; with C169 this carries to the active-space Hamiltonian. |
| C180 The Hamiltonian generator's stored arrays and its rotation into natural orbitals | Model/HamGen.lean: the arrays of the generator as memory, filled by the loops of impl.hpp, read by matrix_elements.hpp at their addresses, and replaced by rotate_hamiltonian_ordm; gesvd is a parameter specified in Spec/Svd.lean (a routine meeting it exists for every such density). Invariant over the history of rotations; C13 and C151 give entries and energies; uniqueness of the positive square root gives the natural orbitals. |
