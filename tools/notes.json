{
 "C52": {
  "note": "Full statement: copying a distributed matrix preserves its distribution. False for user-supplied tiles (C52_copy_loses_tiles_refuted); proved for the default distribution. C52_copy_iff: preserved exactly when the tiles are the default ones."
 },
 "C53": {
  "note": "Full statement: <I|H|J> = 0 whenever I, J lie in different particle-number/spin sectors. False of the code: unequal counts with a small total difference fall through to the diagonal routine (refuted + exact fall-through value); proved for pairs further apart than four bits."
 },
 "C54": {
  "note": "Full statement: ffs/fls of the empty bitset report 'none'. False for widths above 64 bits (ffs) and undefined for fls; proved for widths up to 64."
 },
 "C55": {
  "note": "Full statement: COO spmv is the matrix-vector product for every index base. False for one-based matrices (refuted); proved for zero-based. C55_any_base gives the result for every index base."
 },
 "C58": {
  "note": "Full statement: COO->CSR and COO->CSC preserve every sorted matrix. False with empty rows or non-square shapes (four witnesses); proved when every row (column) after the first has an entry, CSC also square; unsorted input is rejected."
 },
 "C59": {
  "note": "Full statement: COO->dense is exact for every index base. False for one-based matrices; proved for zero-based. C59_any_base gives the result for every index base."
 },
 "C60": {
  "note": "Full statement: expand_from_triangle rebuilds the symmetric matrix. False in the recorded entry count when diagonal entries are missing, and it throws for very sparse triangles; proved: the arrays denote the symmetric matrix for triangles with at least n/2 entries, count right iff n diagonal entries. C60_throws_iff: it throws exactly for non-diagonal triangles storing fewer than n/2 entries."
 },
 "C62": {
  "note": "Full statement: every element of the 2-RDM array equals the textbook value. False for (p,q,p,q) and (p,q,q,p) with p != q (refuted); proved for every other element. C62_exchange_elements gives the remaining elements exactly, so every element is determined."
 },
 "C63": {
  "note": "Full statement: the 1-RDM is the same when no 2-RDM is requested. False for expansions containing double excitations (refuted); proved when no two determinants differ by a double excitation. C63_ordm_only_value gives every element for every expansion."
 },
 "C64": {
  "note": "Full statement: output does not depend on previous container content. False for the early exit of generate_constraint_singles (refuted); proved otherwise. C64_singles_exact gives the content for every previous content."
 },
 "C65": {
  "note": "Full statement: every determinant is covered by some rank's constraints. False for two alpha electrons, for a split triplet with three electrons, and beyond 66 orbitals (three witnesses); proved with at least 3 + nlevels electrons of the first spin and at most 66 orbitals."
 },
 "C66": {
  "note": "Full statement: the distributed top-k equals the serial one including ties and few candidates. False for ties, for fewer candidates than requested and for nothing requested (witnesses); proved: the search goes through exactly when there are as many candidates as requested (at least one), every selected determinant then scores at least the k-th best score, and with nothing requested a search that goes through returns the core determinants."
 },
 "C67": {
  "note": "Full statement: growth terminates for every factor. False for factor <= 1 (infinite loop, refuted); proved: size of the result whenever it returns. C67_never_returns: with factor one and ntdets_min < ntdets_max no run returns, whatever the Hamiltonian."
 },
 "C69": {
  "note": "Full statement: the returned energy is that of the returned wave function in the returned orbitals. False when orbitals are rotated after the last diagonalisation; proved without rotation. C69_rotated: with rotations the energy is exactly that before the last rotation, the coefficients those after it."
 },
 "C71": {
  "note": "Full statement: an exact eigenvector passed as guess is accepted. False: for every subspace limit and dimension of at least two the solver divides by zero (general refutation); proved: such a run never returns a wrong result."
 },
 "C73": {
  "note": "Full statement: exactly one rank holds the unit entry for every size. False with remainder rows / more ranks than rows; proved: never more than one. C73_set_iff: some rank sets the entry exactly when there are at most as many ranks as rows and the row is not among the last N % P."
 },
 "C74": {
  "note": "Full statement: all ranks take the same branch. False when only some ranks pass a vector of the right length; proved for fresh vectors. C74_choice says exactly when a rank keeps the passed vector."
 },
 "C75": {
  "note": "Full statement: damaged wavefunction files are detected. False. C75_every_cut gives what is read for every cut of a written file after its header, C75_cut_in_string what a cut inside a determinant string yields; witnesses for a short file and an over-long string."
 },
 "C76": {
  "note": "Full statement: FCIDUMP readers are safe on files other programs write. False (orbital-energy lines, integer-valued numbers, five-word headers); the positive part is C36."
 },
 "C77": {
  "note": "Full statement: FCIDUMP files can be written repeatedly. False: a second call in a process throws; C77_write_over_existing gives exactly what is read back after writing over an existing file (old core energy, larger orbital count, mixed integrals)."
 },
 "C78": {
  "note": "Full statement: truncated RDM files are detected. False; C78_any_length gives what is read for every file length."
 },
 "C79": {
  "note": "Full statement: four_index_transform honours LDX, LDY. False for padded arrays. C79_value gives the result for all leading dimensions; C79_source_iff and C79_destination_iff show the claim holds exactly for unpadded arrays or at most one orbital."
 },
 "C81": {
  "note": "Full statement: a DIIS object with window zero holds nothing. False (front() of an empty vector); windows >= 1 are C41."
 },
 "C86": {
  "note": "Full statement: the orbital Hessian contraction is symmetric everywhere. False off stationary points; C86_asymmetry gives the defect exactly in every state; stationary points are C85."
 },
 "C87": {
  "note": "Full statement: the one-index transformation honours both leading dimensions. False when LDT differs from LDX; proved when they agree."
 },
 "C92": {
  "note": "Full statement: every MCSCF step is downhill. False for indefinite approximate Hessians; C92_slope gives the exact slope and the necessary and sufficient condition; positive-definite ones are C91."
 },
 "C93": {
  "note": "Full statement: MCSCF accepts padded RDM arrays. False; C93_initial_energy shows for every leading dimension that the unpadded reading is used; unpadded arrays are C88-C90."
 },
 "C94": {
  "note": "Full statement: every write/read combination agrees. False for one-based default output, zero-based with empty first row/column, truncated files and CSR targets with empty rows; proved otherwise. C94_one_based_default, C94_zero_based_empty and C94_cut say exactly what is read in the failing cases."
 },
 "C97": {
  "note": "Full statement: binary triplet files round-trip. False for triangular matrices (the reader mirrors them); proved otherwise. C97_triangle_mirrored and C97_sparse_triangle_throws say what happens to every triangle with a full diagonal and to very sparse ones."
 },
 "C99": {
  "note": "Full statement: a symmetric RB file denotes the symmetric matrix. False (type ignored); general files are C98. C99_reads_triangle: for every file that stores the lower triangle, the matrix read is zero above the diagonal, hence symmetric only if diagonal."
 },
 "C105": {
  "note": "Full statement: scores do not depend on the number of ranks. False (different screening, just_singles ignored, pruning); proved with screening and pruning off."
 },
 "C117": {
  "note": "Proved when LDV equals the number of orbitals; refuted otherwise (the code uses norb as a stride)."
 },
 "C118": {
  "note": "Proved when the caller zeroed the virtual-occupied block and norb = nocc + nvir; refuted for stale contents. C118_any_contents: for every content the orbitals diagonalise the density plus the stale block, and the density itself exactly when that block is zero."
 },
 "C121": {
  "note": "False: the call adds the RDMs to the prior contents (proved for every prior content)."
 },
 "C122": {
  "note": "False for every P >= 2 not above the number of determinants."
 },
 "C125": {
  "note": "False: eigenvector in the span of the guess, or N < 3K, ends in a Cholesky failure (proved in general)."
 },
 "C126": {
  "note": "False for the absolute check: any direction scaled down far enough is accepted (proved for every matrix)."
 },
 "C127": {
  "note": "Proved for nonzero eigenvalues; refuted for null vectors with the default relative check."
 },
 "C128": {
  "note": "False: the last iterate is not checked. Proved that in the half-dimension case one more allowed iteration accepts it."
 },
 "C134": {
  "note": "Full statement: numerical_orbital_gradient writes with leading dimension LDOG. False: LDOG is ignored (C134_ignored, all dimensions); LDOG = norb is C133."
 },
 "C137": {
  "note": "Full statement: every ordered pair of sector indices is stored. False: the pair (i,b) is stored exactly when i < b; C137_all_pairs_partial covers those, so one of the two orders always is (C137_all_pairs_refuted for the rest)."
 },
 "C139": {
  "note": "Full statement: leading blanks do not change what an input file means. False (C139_indentation_refuted); C139_indented gives the exact effect of any indentation of any option line."
 },
 "C140": {
  "note": "Full statement: comments, carriage returns and separators inside values are harmless. False; C140_header_dropped (a header followed by anything has no effect) and C140_value_cut (the value ends at the next separator, the rest of the line is ignored) say what happens in general."
 },
 "C141": {
  "note": "Full statement: every customary spelling of a switch is understood. Proved: TRUE and ON (upper-cased) are exactly the true spellings; refuted for the others."
 },
 "C142": {
  "note": "Full statement: counts are read exactly and malformed counts are rejected. Proved for decimal digit strings; refuted for -1, 1e6 and trailing text; C142_any_text gives the result for every value."
 },
 "C143": {
  "note": "Full statement: inconsistent active spaces are rejected. Proved: orbital counts are checked; refuted for electron counts, which are not."
 },
 "C145": {
  "note": "Full statement: the reported communication volume is exact. Proved: never larger than, and short by at most P/2 of, the exact one; refuted as an equality."
 },
 "C163": {
  "note": "Full statement: ASCI on any number of ranks ends on every rank with the joint result. Proved for two or more ranks, at least as many determinants asked for as ranks, sizes that fit size_t; the search result itself is that of C103. Refuted: from the lowest determinant with a number of determinants that the rank count does not divide, every rank throws."
 },
 "C164": {
  "note": "Full statement: any cutting into pieces. Proved for pieces that end at line ends (any number of ranks, any order, any stopping point); refuted for pieces that cut lines, as full buffers of the C library do, and a stopped writer is not detected (core energy read as 0)."
 },
 "C162": {
  "note": "Proved for every schedule where the ranks agree on the choice of start vector; the remainder-row guess and the disagreement are general refutations."
 },
 "C165": {
  "note": "Full statement: exact for any number of stored elements. Proved when they number less than 2^(w-1) (and the columns at most that); refuted beyond: the row in which the count passes 2^(w-1) is read as empty, later rows outside the arrays. Reached by one electron in 46341 or more orbitals with int32_t."
 },
 "C166": {
  "note": "Full statement: any number of ranks, any settings. Proved for two or more ranks, at least as many determinants asked for (NTDETS_MIN, NTDETS_MAX) as ranks, 3 + CONSTRAINT_LVL at most the number of alpha electrons, room for the pairs of every core, sizes that fit size_t; the energy equality without orbital rotations (with them: the variational bound). Each rank is taken to read the same files."
 },
 "C177": {
  "note": "Plain notation and e/E exponents are read exactly; any other text after the digits (Fortran D exponents, exponents without letter) is ignored instead of read or rejected, proved for every numeral and every such text (refutation of the full statement)."
 }
}