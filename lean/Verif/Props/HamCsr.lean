import Verif.Lemmas.HamCsr
/-
C17: sparse Hamiltonian blocks.
-/
namespace Macis
open Spec

variable {R : Type} [Field R] [LinearOrder R] [IsOrderedAddMonoid R] {M : Nat}

theorem csrBlock_wf (I : Integrals R) {thresh : R} (h0 : 0 ≤ thresh)
    (bras kets : List (BitVec (2 * M))) : CsrWF (I.csrBlock bras kets thresh) := by
  rw [csrBlock_eq I h0]
  apply csrOfRows_wf (by simp)
  intro r hr p hp
  simp only [List.mem_map] at hr
  obtain ⟨b, -, rfl⟩ := hr
  obtain ⟨-, hj, -⟩ := mem_rowEntries.1 hp
  exact ⟨Nat.zero_le _, by omega⟩

theorem csrBlock_row (I : Integrals R) {thresh : R} (h0 : 0 ≤ thresh)
    (bras kets : List (BitVec (2 * M))) {i : Nat} (hi : i < bras.length) :
    (I.csrBlock bras kets thresh).row i = rowEntries I thresh kets bras[i] := by
  rw [csrBlock_eq I h0, csrOfRows_row (by simp) hi, List.getElem_map]

theorem csrBlock_m (I : Integrals R) {thresh : R} (h0 : 0 ≤ thresh)
    (bras kets : List (BitVec (2 * M))) : (I.csrBlock bras kets thresh).m = bras.length := by
  rw [csrBlock_eq I h0]; rfl

theorem csrBlock_n (I : Integrals R) {thresh : R} (h0 : 0 ≤ thresh)
    (bras kets : List (BitVec (2 * M))) : (I.csrBlock bras kets thresh).n = kets.length := by
  rw [csrBlock_eq I h0]; rfl

theorem csrBlock_indexing (I : Integrals R) {thresh : R} (h0 : 0 ≤ thresh)
    (bras kets : List (BitVec (2 * M))) : (I.csrBlock bras kets thresh).indexing = 0 := by
  rw [csrBlock_eq I h0]; rfl

theorem csrBlock_stored (I : Integrals R) {thresh : R} (h0 : 0 ≤ thresh)
    (bras kets : List (BitVec (2 * M))) {i j : Nat} (hi : i < bras.length) :
    csrStored (I.csrBlock bras kets thresh) i j ↔ ∃ hj : j < kets.length,
      (bras[i] ≠ 0#(2*M) ∧ kets[j] ≠ 0#(2*M) ∧ |I.matrixElement bras[i] kets[j]| > thresh) := by
  have wf := csrBlock_wf I h0 bras kets
  rw [csrStored_iff wf (by rw [csrBlock_m I h0]; exact hi), csrBlock_row I h0 _ _ hi,
    csrBlock_indexing I h0, Nat.add_zero, List.mem_map]
  constructor
  · rintro ⟨p, hp, rfl⟩
    obtain ⟨hb, hj, hk, h, -⟩ := mem_rowEntries.1 hp
    exact ⟨hj, hb, hk, h⟩
  · rintro ⟨hj, hb, hk, h⟩
    exact ⟨(j, I.matrixElement bras[i] kets[j]), mem_rowEntries.2 ⟨hb, hj, hk, h, rfl⟩, rfl⟩

theorem csrBlock_entry (I : Integrals R) {thresh : R} (h0 : 0 ≤ thresh)
    (bras kets : List (BitVec (2 * M))) {i j : Nat} (hi : i < bras.length) (hj : j < kets.length) :
    csrEntry (I.csrBlock bras kets thresh) i j
      = if bras[i] ≠ 0#(2*M) ∧ kets[j] ≠ 0#(2*M) ∧ |I.matrixElement bras[i] kets[j]| > thresh
        then I.matrixElement bras[i] kets[j] else 0 := by
  have wf := csrBlock_wf I h0 bras kets
  rw [csrEntry_eq wf (by rw [csrBlock_m I h0]; exact hi), csrBlock_row I h0 _ _ hi,
    csrBlock_indexing I h0, Nat.add_zero]
  split
  · rename_i h
    exact sum_assoc (rowEntries_sorted _ _ _ _) (mem_rowEntries.2 ⟨h.1, hj, h.2.1, h.2.2, rfl⟩)
  · rename_i h
    apply sum_assoc_none
    rintro p hp rfl
    obtain ⟨hb, hj, hk, h', -⟩ := mem_rowEntries.1 hp
    exact h ⟨hb, hk, h'⟩

theorem csrBlock_sorted (I : Integrals R) {thresh : R} (h0 : 0 ≤ thresh)
    (bras kets : List (BitVec (2 * M))) : CsrSorted (I.csrBlock bras kets thresh) := by
  apply sorted_of_rows (csrBlock_wf I h0 bras kets)
  intro i hi
  rw [csrBlock_m I h0] at hi
  rw [csrBlock_row I h0 _ _ hi]
  exact rowEntries_sorted _ _ _ _

/-- C17: the block built for any two lists of determinants has the right shape and zero-based
well-formed storage with strictly increasing columns; position `(i,j)` is stored exactly when
`|matrix_element(bra_i, ket_j)|` exceeds the threshold, and its value is then that matrix element. -/
theorem C17_csr_block (I : Integrals R) (thresh : R) (h0 : 0 ≤ thresh)
    (bras kets : List (BitVec (2 * M)))
    (hb : ∀ b ∈ bras, b ≠ 0#(2*M)) (hk : ∀ k ∈ kets, k ≠ 0#(2*M)) :
    let A := I.csrBlock bras kets thresh
    A.m = bras.length ∧ A.n = kets.length ∧ A.indexing = 0 ∧ CsrWF A ∧ CsrSorted A ∧
    ∀ (i j : Nat) (hi : i < bras.length) (hj : j < kets.length),
      (csrStored A i j ↔ |I.matrixElement bras[i] kets[j]| > thresh) ∧
      csrEntry A i j = if |I.matrixElement bras[i] kets[j]| > thresh
        then I.matrixElement bras[i] kets[j] else 0 := by
  refine ⟨csrBlock_m I h0 _ _, csrBlock_n I h0 _ _, csrBlock_indexing I h0 _ _,
    csrBlock_wf I h0 _ _, csrBlock_sorted I h0 _ _, ?_⟩
  intro i j hi hj
  have hbi := hb _ (List.getElem_mem hi)
  have hkj := hk _ (List.getElem_mem hj)
  rw [csrBlock_stored I h0 _ _ hi, csrBlock_entry I h0 _ _ hi hj]
  simp only [hbi, hkj, ne_eq, not_false_eq_true, true_and]
  exact ⟨⟨fun ⟨_, h⟩ => h, fun h => ⟨hj, h⟩⟩, trivial⟩

theorem matrixElement_vacuum (I : Integrals R) : I.matrixElement (0#(2*M)) (0#(2*M)) = 0 := by
  rw [matrixElement_self]
  have : ∀ s : BitVec M, count s = 0 → occ s = [] := by
    intro s hs; rw [count_eq_length] at hs; exact List.length_eq_zero_iff.1 hs
  have l0 : loWord (0#(2*M)) = 0#M := by
    apply BitVec.eq_of_getLsbD_eq; intro i hi; rw [getLsbD_loWord]; simp
  have l1 : hiWord (0#(2*M)) = 0#M := by
    apply BitVec.eq_of_getLsbD_eq; intro i hi; rw [getLsbD_hiWord]; simp
  rw [l0, l1, this _ (count_eq_zero_iff.2 rfl)]
  simp [Integrals.matrixElementDiag]

theorem eq_zero_of_sameSector {s : BitVec (2 * M)} (h : SameSector (0#(2*M)) s) : s = 0#(2*M) := by
  obtain ⟨ha, hb⟩ := h
  rw [alphaElectrons_eq, alphaElectrons_eq, electrons_eq_count, electrons_eq_count] at ha
  rw [betaElectrons_eq, betaElectrons_eq, electrons_eq_count, electrons_eq_count] at hb
  have l0 : loWord (0#(2*M)) = 0#M := by
    apply BitVec.eq_of_getLsbD_eq; intro i hi; rw [getLsbD_loWord]; simp
  have l1 : hiWord (0#(2*M)) = 0#M := by
    apply BitVec.eq_of_getLsbD_eq; intro i hi; rw [getLsbD_hiWord]; simp
  rw [l0, count_eq_zero_iff.2 rfl, eq_comm, count_eq_zero_iff] at ha
  rw [l1, count_eq_zero_iff.2 rfl, eq_comm, count_eq_zero_iff] at hb
  have e := joinSpin_lo_hi (0#(2*M))
  rw [l0, l1] at e
  rw [← joinSpin_lo_hi s, ha, hb, e]

/-- C17 for determinants of one spin sector (including the sector without electrons): every entry of
the block is the thresholded matrix element of the second-quantised Hamiltonian. -/
theorem C17_csr_block_hamiltonian (I : Integrals R) (hn : I.norb ≤ M) (h2 : (2 : R) ≠ 0)
    (hV : PairSymmetric I) (thresh : R) (h0 : 0 ≤ thresh) (bras kets : List (BitVec (2 * M)))
    (hb : ∀ b ∈ bras, InSpace I.norb b) (hk : ∀ k ∈ kets, InSpace I.norb k)
    (hs : ∀ b ∈ bras, ∀ k ∈ kets, SameSector b k)
    (i j : Nat) (hi : i < bras.length) (hj : j < kets.length) :
    csrEntry (I.csrBlock bras kets thresh) i j
      = if |hamiltonian I bras[i] kets[j]| > thresh then hamiltonian I bras[i] kets[j] else 0 := by
  have hbi := List.getElem_mem hi
  have hkj := List.getElem_mem hj
  have hsij := hs _ hbi _ hkj
  rw [csrBlock_entry I h0 _ _ hi hj, ← C13_slater_condon M I hn h2 hV _ _ (hb _ hbi) (hk _ hkj) hsij]
  by_cases h : bras[i] ≠ 0#(2*M) ∧ kets[j] ≠ 0#(2*M)
  · simp only [h, ne_eq, not_false_eq_true, true_and]
  · have z : bras[i] = 0#(2*M) ∧ kets[j] = 0#(2*M) := by
      by_cases h1 : bras[i] = 0#(2*M)
      · rw [h1] at hsij
        exact ⟨h1, eq_zero_of_sameSector hsij⟩
      · have h2 : kets[j] = 0#(2*M) := by by_contra h2; exact h ⟨h1, h2⟩
        rw [h2] at hsij
        exact ⟨eq_zero_of_sameSector ⟨hsij.1.symm, hsij.2.symm⟩, h2⟩
    rw [z.1, z.2, matrixElement_vacuum]
    simp

/-- The hypotheses of C17 are met by the two-electron determinants of two orbitals, and the block has
a genuinely off-diagonal entry and a dropped one. -/
example : let D : List (BitVec (2 * 2)) := [0b0101#4, 0b1001#4, 0b0110#4, 0b1010#4]
    (∀ b ∈ D, InSpace exInts.norb b) ∧ (∀ b ∈ D, ∀ k ∈ D, SameSector b k) ∧
    (exInts.csrBlock D D 2).rowptr = [0, 3, 6, 9, 12] ∧
    (exInts.csrBlock D D 2).colind = [0, 1, 2, 0, 1, 3, 0, 2, 3, 1, 2, 3] := by
  dsimp only
  decide +kernel

end Macis
