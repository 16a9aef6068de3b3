import Verif.Lemmas.Bits

/-! Properties C01–C04: bit level queries (`bitset_operations.hpp`). -/
namespace Macis

/-- C01 (non-empty bitsets): `ffs` is one plus the lowest set position, every width. -/
theorem C01_ffs_lowest (N : Nat) (s : BitVec N) (h : ∃ i, s.getLsbD i = true) :
    ∃ i, ffs s = i + 1 ∧ s.getLsbD i = true ∧ ∀ j, s.getLsbD j = true → i ≤ j := by
  have hne : s ≠ 0#N := by rintro rfl; simp at h
  obtain ⟨i, _, hb, hmin, he⟩ := ffs_spec hne
  refine ⟨i, he, hb, fun j hj => ?_⟩
  by_contra hc
  rw [hmin j (by omega)] at hj; simp at hj

/-- C01 (non-empty bitsets): `fls` is the highest set position, every width, with no undefined
behaviour. -/
theorem C01_fls_highest (N : Nat) (s : BitVec N) (h : ∃ i, s.getLsbD i = true) :
    ∃ i, fls s = some i ∧ s.getLsbD i = true ∧ ∀ j, s.getLsbD j = true → j ≤ i := by
  have hne : s ≠ 0#N := by rintro rfl; simp at h
  obtain ⟨i, _, hb, hmax, he⟩ := fls_spec hne
  refine ⟨i, he, hb, fun j hj => ?_⟩
  by_contra hc
  rw [hmax j (by omega)] at hj; simp at hj

/-- C54 (empty bitset): `ffs` is `0` for widths up to 64. -/
theorem C54_ffs_empty_le64_partial (N : Nat) (h : N ≤ 64) : ffs (0#N) = 0 := by
  have h0 : ffsWord 0 = 0 := by decide +kernel
  unfold ffs
  split
  · simpa using h0
  · simp [h0]

/-- C54 refuted on the empty bitset: for widths 65..128 `ffs` of the empty bitset is 64, for
wider ones it is the width; with 128 bits this is also the answer for "bit 63 is the lowest". -/
theorem C54_ffs_empty_refuted :
    (∀ N, 64 < N → N ≤ 128 → ffs (0#N) = 64) ∧ (∀ N, 128 < N → ffs (0#N) = N) ∧
    ffs (0#128) = ffs (BitVec.twoPow 128 63) := by
  have h0 : ffsWord 0 = 0 := by decide +kernel
  refine ⟨fun N h1 h2 => ?_, fun N h => ?_, by decide +kernel⟩
  · unfold ffs
    simp [h0, h2, show ¬ N ≤ 32 by omega, show ¬ N ≤ 64 by omega]
  · unfold ffs
    have : (List.range N).find? (fun i => (0#N).getLsbD i) = none := by
      simp
    rw [this]
    simp [show ¬ N ≤ 32 by omega, show ¬ N ≤ 64 by omega, show ¬ N ≤ 128 by omega]

/-- C54: `fls` of the empty bitset is undefined behaviour at every width. -/
theorem C54_fls_empty_undefined (N : Nat) : fls (0#N) = none := by
  unfold fls
  simp [flsWord, clz64]

example : ∃ i, (BitVec.ofNat 128 (2 ^ 70 + 2 ^ 100)).getLsbD i = true := ⟨70, by decide +kernel⟩
example : ffs (BitVec.ofNat 128 (2 ^ 70 + 2 ^ 100)) = 71 := by decide +kernel
example : fls (BitVec.ofNat 128 (2 ^ 70 + 2 ^ 100)) = some 100 := by decide +kernel

/-- C02: `bits_to_indices` lists exactly the set positions in strictly increasing order. -/
theorem C02_bits_to_indices_exact (N : Nat) (s : BitVec N) :
    (bitsToIndices s).Pairwise (· < ·) ∧
    (∀ i, i ∈ bitsToIndices s ↔ s.getLsbD i = true) ∧
    (bitsToIndices s).length = count s := by
  rw [bitsToIndices_eq_occ]
  exact ⟨occ_sorted s, fun i => mem_occ, (count_eq_length s).symm⟩

/-- C02: the list determines the bitset. -/
theorem C02_bits_to_indices_injective (N : Nat) (s t : BitVec N)
    (h : bitsToIndices s = bitsToIndices t) : s = t := by
  rw [bitsToIndices_eq_occ, bitsToIndices_eq_occ] at h
  apply BitVec.eq_of_getLsbD_eq
  intro i _
  rw [Bool.eq_iff_iff, ← mem_occ, ← mem_occ, h]

/-- C02: rebuilding: or-ing the listed positions gives the bitset back. -/
theorem C02_rebuild (N : Nat) (s : BitVec N) :
    (bitsToIndices s).foldl (fun acc i => acc ||| BitVec.twoPow N i) 0#N = s := by
  rw [bitsToIndices_eq_occ]
  have key : ∀ (l : List Nat) (acc : BitVec N) (j : Nat),
      (l.foldl (fun acc i => acc ||| BitVec.twoPow N i) acc).getLsbD j
        = (acc.getLsbD j || (decide (j < N) && decide (j ∈ l))) := by
    intro l
    induction l with
    | nil => simp
    | cons a l ih =>
      intro acc j
      rw [List.foldl_cons, ih, BitVec.getLsbD_or, BitVec.getLsbD_twoPow]
      by_cases hja : j = a
      · subst hja; cases acc.getLsbD j <;> simp; tauto
      · have : a ≠ j := fun h => hja h.symm
        simp [hja, this]
  apply BitVec.eq_of_getLsbD_eq
  intro i hi
  rw [key, Bool.eq_iff_iff]
  simp [hi, mem_occ]

example : bitsToIndices (BitVec.ofNat 8 0b10110010) = [1, 4, 5, 7] := by decide +kernel

/-- C03: `full_mask<N>(i)` has exactly the bits below `i`. -/
theorem C03_full_mask_exact (N i : Nat) (hi : i ≤ N) (j : Nat) :
    (fullMask N i).getLsbD j = true ↔ j < i := by
  simp [getLsbD_fullMask hi]

/-- C03: compile-time `full_mask<N,M>()`, all its special cases. -/
theorem C03_full_mask_static_exact (N M : Nat) (h : N ≤ M) (j : Nat) :
    (fullMaskStatic N M).getLsbD j = true ↔ j < N := by
  simp [getLsbD_fullMaskStatic h]

/-- C03: truncating an expanded bitset gives it back, all width paths. -/
theorem C03_truncate_expand (N M : Nat) (h : M ≤ N) (s : BitVec M) :
    truncateBitset M (expandBitset N s) = s := by
  apply BitVec.eq_of_getLsbD_eq
  intro i hi
  rw [getLsbD_truncateBitset h, getLsbD_expandBitset h]; simp [hi]

/-- C03: expanding a truncated bitset keeps exactly the low bits. -/
theorem C03_expand_truncate (N M : Nat) (h : M ≤ N) (s : BitVec N) (i : Nat) :
    (expandBitset N (truncateBitset M s)).getLsbD i = true ↔ i < M ∧ s.getLsbD i = true := by
  rw [getLsbD_expandBitset h, getLsbD_truncateBitset h]; simp

/-- C03: the two halves of a determinant reassemble it, as done all over the code with
`expand_bitset` and `<<`. -/
theorem C03_halves (M : Nat) (s : BitVec (2 * M)) :
    expandBitset (2 * M) (loWord s) ||| (expandBitset (2 * M) (hiWord s) <<< M) = s := by
  apply BitVec.eq_of_getLsbD_eq
  intro i hi
  rw [BitVec.getLsbD_or, getLsbD_expandBitset (by omega), BitVec.getLsbD_shiftLeft,
    getLsbD_expandBitset (by omega), getLsbD_loWord, getLsbD_hiWord]
  by_cases h : i < M
  · simp [h]
  · simp [h, hi, show i - M < M by omega, show i - M + M = i by omega]

example : (4 : Nat) ≤ 6 ∧ fullMask 6 4 = 0b001111#6 := ⟨by decide, by decide +kernel⟩
example : truncateBitset 32 (BitVec.ofNat 64 (2 ^ 40 + 5)) = 5#32 := by decide +kernel

/-- C04: `bitset_less` compares the encoded unsigned integers, every width path. -/
theorem C04_bitset_less_numeric (N : Nat) (x y : BitVec N) :
    bitsetLess x y = true ↔ x.toNat < y.toNat := bitsetLess_iff x y

/-- C04: `bitset_less` is a strict total order. -/
theorem C04_bitset_less_strict_total (N : Nat) (x y z : BitVec N) :
    bitsetLess x x = false ∧
    (bitsetLess x y = true → bitsetLess y z = true → bitsetLess x z = true) ∧
    (bitsetLess x y = true ∨ x = y ∨ bitsetLess y x = true) ∧
    (bitsetLess x y = true → bitsetLess y x = false) := by
  refine ⟨?_, ?_, ?_, ?_⟩
  · rw [Bool.eq_false_iff, ne_eq, bitsetLess_iff]; omega
  · simp only [bitsetLess_iff]; omega
  · simp only [bitsetLess_iff]
    rcases Nat.lt_trichotomy x.toNat y.toNat with h | h | h
    · exact Or.inl h
    · exact Or.inr (Or.inl (BitVec.eq_of_toNat_eq h))
    · exact Or.inr (Or.inr h)
  · rw [Bool.eq_false_iff, ne_eq, bitsetLess_iff, bitsetLess_iff]; omega

example : bitsetLess (BitVec.ofNat 100 (2 ^ 90)) (BitVec.ofNat 100 (2 ^ 90 + 1)) = true := by
  decide +kernel

end Macis
