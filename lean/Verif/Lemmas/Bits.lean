import Verif.Model.Bits
import Verif.Base

namespace Macis

variable {N M : Nat}

/-- Occupied positions of a bitset, as a filtered range. -/
def occ (s : BitVec N) : List Nat := (List.range N).filter (fun i => s.getLsbD i)

theorem getLsbD_flip {s : BitVec N} {i : Nat} (hi : i < N) (j : Nat) :
    (flip s i).getLsbD j = (s.getLsbD j ^^ decide (i = j)) := by
  simp [flip, BitVec.getLsbD_xor, BitVec.getLsbD_twoPow, hi]

theorem getLsbD_flip' {s : BitVec N} {i : Nat} (j : Nat) :
    (flip s i).getLsbD j = (s.getLsbD j ^^ (decide (i < N) && decide (i = j))) := by
  simp [flip, BitVec.getLsbD_xor, BitVec.getLsbD_twoPow]

theorem exists_bit_of_ne_zero {s : BitVec N} (h : s ≠ 0#N) : ∃ i, i < N ∧ s.getLsbD i = true := by
  by_contra hc
  push Not at hc
  apply h
  apply BitVec.eq_of_getLsbD_eq
  intro i hi
  simpa using hc i hi

theorem getLsbD_eq_testBit (s : BitVec N) (i : Nat) : s.getLsbD i = s.toNat.testBit i := rfl

theorem ffsWord_of_ne {w : Nat} (hw : w < 2 ^ 64) (h0 : w ≠ 0) :
    ∃ i, w.testBit i = true ∧ (∀ j, j < i → w.testBit j = false) ∧ ffsWord w = i + 1 := by
  unfold ffsWord
  cases hf : (List.range 64).find? (fun i => w.testBit i) with
  | none =>
    exfalso
    rw [List.find?_range_eq_none] at hf
    apply h0
    apply Nat.eq_of_testBit_eq
    intro i
    by_cases hi : i < 64
    · simpa using hf i hi
    · have : w < 2 ^ i := lt_of_lt_of_le hw (Nat.pow_le_pow_right (by norm_num) (by omega))
      simp [Nat.testBit_lt_two_pow this]
  | some i =>
    rw [List.find?_range_eq_some] at hf
    refine ⟨i, hf.1, fun j hj => by simpa using hf.2.2 j hj, rfl⟩

theorem toNat_ne_zero {s : BitVec N} (h : s ≠ 0#N) : s.toNat ≠ 0 := by
  intro hc; apply h; apply BitVec.eq_of_toNat_eq; simpa using hc

theorem testBit_lo (x i k : Nat) : (x % 2 ^ k).testBit i = (decide (i < k) && x.testBit i) :=
  Nat.testBit_mod_two_pow x k i

theorem testBit_hi (x i k : Nat) : (x / 2 ^ k).testBit i = x.testBit (i + k) := by
  rw [Nat.testBit_div_two_pow]

theorem ffs_spec {s : BitVec N} (h : s ≠ 0#N) :
    ∃ i, i < N ∧ s.getLsbD i = true ∧ (∀ j, j < i → s.getLsbD j = false) ∧ ffs s = i + 1 := by
  have hlt := s.isLt
  have h0 := toNat_ne_zero h
  have key : ∃ i, s.getLsbD i = true ∧ (∀ j, j < i → s.getLsbD j = false) ∧ ffs s = i + 1 := by
    unfold ffs
    by_cases h32 : N ≤ 32
    · simp only [h32, if_true]
      exact ffsWord_of_ne (lt_of_lt_of_le hlt (Nat.pow_le_pow_right (by norm_num) (by omega))) h0
    simp only [h32, if_false]
    by_cases h64 : N ≤ 64
    · simp only [h64, if_true]
      exact ffsWord_of_ne (lt_of_lt_of_le hlt (Nat.pow_le_pow_right (by norm_num) (by omega))) h0
    simp only [h64, if_false]
    by_cases h128 : N ≤ 128
    · simp only [h128, if_true]
      by_cases hw : s.toNat % 2 ^ 64 = 0
      · simp only [hw, ne_eq, not_true_eq_false, if_false]
        have hlo : ∀ j, j < 64 → s.getLsbD j = false := by
          intro j hj
          have := testBit_lo s.toNat j 64
          rw [hw] at this
          simpa [hj, getLsbD_eq_testBit] using this.symm
        have h1 : s.toNat / 2 ^ 64 ≠ 0 := by
          intro hc
          have := Nat.div_add_mod s.toNat (2 ^ 64)
          rw [hc, hw] at this; simp at this; omega
        have h1' : s.toNat / 2 ^ 64 < 2 ^ 64 := by
          rw [Nat.div_lt_iff_lt_mul (by positivity), ← pow_add]
          exact lt_of_lt_of_le hlt (Nat.pow_le_pow_right (by norm_num) (by omega))
        obtain ⟨i, hi, hj, he⟩ := ffsWord_of_ne h1' h1
        refine ⟨i + 64, ?_, ?_, by omega⟩
        · rw [testBit_hi] at hi; exact hi
        · intro j hj'
          by_cases hjj : j < 64
          · exact hlo j hjj
          · have := hj (j - 64) (by omega)
            rw [testBit_hi] at this
            rw [getLsbD_eq_testBit, show j = j - 64 + 64 by omega]; exact this
      · simp only [hw, ne_eq, not_false_eq_true, if_true]
        obtain ⟨i, hi, hj, he⟩ := ffsWord_of_ne (Nat.mod_lt _ (by positivity)) hw
        have hi64 : i < 64 := by
          by_contra hc
          rw [testBit_lo] at hi; simp [hc] at hi
        refine ⟨i, ?_, ?_, he⟩
        · rw [testBit_lo] at hi; simpa [hi64, getLsbD_eq_testBit] using hi
        · intro j hjj
          have := hj j hjj
          rw [testBit_lo] at this
          simpa [show j < 64 by omega, getLsbD_eq_testBit] using this
    · simp only [h128, if_false]
      cases hf : (List.range N).find? (fun i => s.getLsbD i) with
      | none =>
        exfalso
        rw [List.find?_range_eq_none] at hf
        obtain ⟨i, hi, hb⟩ := exists_bit_of_ne_zero h
        have := hf i hi; simp [hb] at this
      | some i =>
        rw [List.find?_range_eq_some] at hf
        exact ⟨i, hf.1, fun j hj => by simpa using hf.2.2 j hj, rfl⟩
  obtain ⟨i, hi, hj, he⟩ := key
  exact ⟨i, BitVec.lt_of_getLsbD hi, hi, hj, he⟩

theorem flsWord_of_ne {w : Nat} (hw : w < 2 ^ 64) (h0 : w ≠ 0) :
    ∃ i, w.testBit i = true ∧ (∀ j, i < j → w.testBit j = false) ∧ flsWord w = some i := by
  have hl : w.log2 < 64 := (Nat.log2_lt h0).2 hw
  refine ⟨w.log2, ?_, ?_, ?_⟩
  · exact Nat.testBit_log2 h0
  · intro j hj
    apply Nat.testBit_lt_two_pow
    exact (Nat.log2_lt h0).1 hj
  · simp only [flsWord, clz64, h0, if_false, Option.map_some]; congr 1; omega

theorem fls_spec {s : BitVec N} (h : s ≠ 0#N) :
    ∃ i, i < N ∧ s.getLsbD i = true ∧ (∀ j, i < j → s.getLsbD j = false) ∧ fls s = some i := by
  have hlt := s.isLt
  have h0 := toNat_ne_zero h
  have key : ∃ i, s.getLsbD i = true ∧ (∀ j, i < j → s.getLsbD j = false) ∧ fls s = some i := by
    unfold fls
    by_cases h32 : N ≤ 32
    · simp only [h32, if_true]
      exact flsWord_of_ne (lt_of_lt_of_le hlt (Nat.pow_le_pow_right (by norm_num) (by omega))) h0
    simp only [h32, if_false]
    by_cases h64 : N ≤ 64
    · simp only [h64, if_true]
      exact flsWord_of_ne (lt_of_lt_of_le hlt (Nat.pow_le_pow_right (by norm_num) (by omega))) h0
    simp only [h64, if_false]
    by_cases h128 : N ≤ 128
    · simp only [h128, if_true]
      by_cases hw : s.toNat / 2 ^ 64 = 0
      · simp only [hw, ne_eq, not_true_eq_false, if_false]
        have hs : s.toNat < 2 ^ 64 := by
          rcases Nat.div_eq_zero_iff.1 hw with h | h
          · simp at h
          · exact h
        rw [Nat.mod_eq_of_lt hs]
        exact flsWord_of_ne hs h0
      · simp only [hw, ne_eq, not_false_eq_true, if_true]
        have h1' : s.toNat / 2 ^ 64 < 2 ^ 64 := by
          rw [Nat.div_lt_iff_lt_mul (by positivity), ← pow_add]
          exact lt_of_lt_of_le hlt (Nat.pow_le_pow_right (by norm_num) (by omega))
        obtain ⟨i, hi, hj, he⟩ := flsWord_of_ne h1' hw
        refine ⟨i + 64, ?_, ?_, by rw [he]; rfl⟩
        · rw [testBit_hi] at hi; exact hi
        · intro j hjj
          have := hj (j - 64) (by omega)
          rw [testBit_hi] at this
          rw [getLsbD_eq_testBit, show j = j - 64 + 64 by omega]; exact this
    · simp only [h128, if_false]
      cases hf : (List.range N).reverse.find? (fun i => s.getLsbD i) with
      | none =>
        exfalso
        obtain ⟨i, hi, hb⟩ := exists_bit_of_ne_zero h
        rw [List.find?_eq_none] at hf
        have := hf i (by simpa using hi)
        exact this hb
      | some i =>
        rw [List.find?_eq_some_iff_append] at hf
        obtain ⟨hb, as, bs, hab, hno⟩ := hf
        refine ⟨i, hb, ?_, rfl⟩
        intro j hj
        by_contra hc
        have hjN : j < N := by
          by_contra hge
          rw [BitVec.getLsbD_of_ge _ _ (by omega)] at hc; simp at hc
        have hmem : j ∈ as ++ i :: bs := by rw [← hab]; simpa using hjN
        have hpw : (as ++ i :: bs).Pairwise (· > ·) := by
          rw [← hab, List.pairwise_reverse]; exact List.pairwise_lt_range
        rw [List.pairwise_append] at hpw
        rcases List.mem_append.1 hmem with hm | hm
        · have := hno j hm; simp at hc; simp [hc] at this
        · rcases List.mem_cons.1 hm with rfl | hm
          · omega
          · have := (List.pairwise_cons.1 hpw.2.1).1 j hm; omega
  obtain ⟨i, hi, hj, he⟩ := key
  exact ⟨i, BitVec.lt_of_getLsbD hi, hi, hj, he⟩

theorem count_eq_length (s : BitVec N) : count s = (occ s).length := by
  simp [count, occ, List.countP_eq_length_filter]

theorem mem_occ {s : BitVec N} {i : Nat} : i ∈ occ s ↔ s.getLsbD i = true := by
  simp only [occ, List.mem_filter, List.mem_range, and_iff_right_iff_imp]
  exact BitVec.lt_of_getLsbD

theorem occ_lt {s : BitVec N} {i : Nat} (h : i ∈ occ s) : i < N :=
  BitVec.lt_of_getLsbD (mem_occ.1 h)

theorem occ_sorted (s : BitVec N) : (occ s).Pairwise (· < ·) :=
  List.Pairwise.filter _ List.pairwise_lt_range

theorem occ_nodup (s : BitVec N) : (occ s).Nodup :=
  List.Nodup.filter _ List.nodup_range

/-- Two strictly increasing lists with the same members are equal. -/
theorem eq_of_sorted_of_mem_iff {l₁ l₂ : List Nat} (h₁ : l₁.Pairwise (· < ·))
    (h₂ : l₂.Pairwise (· < ·)) (h : ∀ x, x ∈ l₁ ↔ x ∈ l₂) : l₁ = l₂ := by
  have hp : l₁.Perm l₂ := by
    rw [List.perm_ext_iff_of_nodup]
    · exact h
    · exact h₁.imp (fun h => Nat.ne_of_lt h)
    · exact h₂.imp (fun h => Nat.ne_of_lt h)
  exact hp.eq_of_pairwise (fun a b _ _ hab hba => by omega) h₁ h₂

theorem count_eq_zero_iff {s : BitVec N} : count s = 0 ↔ s = 0#N := by
  constructor
  · intro h
    by_contra hne
    obtain ⟨i, hi, hb⟩ := exists_bit_of_ne_zero hne
    rw [count_eq_length, List.length_eq_zero_iff] at h
    have := mem_occ.2 hb
    rw [h] at this; simp at this
  · rintro rfl; simp [count]

theorem occ_flip_min {s : BitVec N} {i : Nat} (hb : s.getLsbD i = true)
    (hmin : ∀ j, j < i → s.getLsbD j = false) : occ s = i :: occ (flip s i) := by
  have hi := BitVec.lt_of_getLsbD hb
  apply eq_of_sorted_of_mem_iff (occ_sorted s)
  · rw [List.pairwise_cons]
    refine ⟨fun j hj => ?_, occ_sorted _⟩
    rw [mem_occ, getLsbD_flip hi] at hj
    by_contra hc
    rcases Nat.lt_or_ge j i with h | h
    · simp [hmin j h, show i ≠ j by omega] at hj
    · have : i = j := by omega
      subst this; simp [hb] at hj
  · intro x
    rw [List.mem_cons, mem_occ, mem_occ, getLsbD_flip hi]
    by_cases hx : x = i
    · subst hx; simp [hb]
    · simp [hx, show i ≠ x from fun h => hx h.symm]

theorem bitsToIndicesLoop_eq (c : Nat) : ∀ (s : BitVec N), count s = c →
    bitsToIndicesLoop c s = occ s := by
  induction c with
  | zero =>
    intro s h
    rw [count_eq_length, List.length_eq_zero_iff] at h
    simp [bitsToIndicesLoop, h]
  | succ c ih =>
    intro s h
    have hne : s ≠ 0#N := by
      intro h0; rw [count_eq_zero_iff.2 h0] at h; omega
    obtain ⟨i, hi, hb, hmin, he⟩ := ffs_spec hne
    have ho := occ_flip_min hb hmin
    have hc : count (flip s i) = c := by
      rw [count_eq_length] at h ⊢
      rw [ho] at h; simpa using h
    simp only [bitsToIndicesLoop, he, Nat.add_sub_cancel]
    rw [ih _ hc, ho]

theorem bitsToIndices_eq_occ (s : BitVec N) : bitsToIndices s = occ s :=
  bitsToIndicesLoop_eq _ s rfl

theorem getLsbD_fullMask {i j : Nat} (hi : i ≤ N) :
    (fullMask N i).getLsbD j = decide (j < i) := by
  simp only [fullMask, BitVec.getLsbD_ushiftRight, BitVec.getLsbD_not, BitVec.getLsbD_zero]
  simp; omega

theorem testBit_mask (k j : Nat) : (2 ^ k - 1).testBit j = decide (j < k) := by
  simp [Nat.testBit_two_pow_sub_one]

theorem getLsbD_fullMaskStatic {j : Nat} (h : N ≤ M) :
    (fullMaskStatic N M).getLsbD j = decide (j < N) := by
  have hsh : ((~~~(0#M)) >>> (M - N)).getLsbD j = decide (j < N) := by
    simp only [BitVec.getLsbD_ushiftRight, BitVec.getLsbD_not, BitVec.getLsbD_zero]
    simp; omega
  unfold fullMaskStatic
  split
  · split
    · rename_i h1 h2
      rw [BitVec.getLsbD_ofNat, testBit_mask]
      subst h2
      by_cases hj : j < 64 <;> simp [hj]; omega
    · split
      · rename_i h1 h2 h3
        rw [BitVec.getLsbD_ofNat, testBit_mask]
        subst h3
        by_cases hj : j < 32 <;> simp [hj]; omega
      · exact hsh
  · exact hsh

theorem getLsbD_copyBits_aux {bits : BitVec M} (l : List Nat) (acc : BitVec N) (j : Nat) :
    (l.foldl (fun acc i => if bits.getLsbD i then acc ||| BitVec.twoPow N i else acc) acc).getLsbD j
      = (acc.getLsbD j || (decide (j < N) && decide (j ∈ l) && bits.getLsbD j)) := by
  induction l generalizing acc with
  | nil => simp
  | cons a l ih =>
    rw [List.foldl_cons, ih]
    by_cases ha : bits.getLsbD a
    · simp only [ha, if_true, BitVec.getLsbD_or, BitVec.getLsbD_twoPow, List.mem_cons]
      by_cases hja : j = a
      · subst hja; simp [ha]
        cases acc.getLsbD j <;> simp <;> tauto
      · have : a ≠ j := fun h => hja h.symm
        simp [hja, this]
    · simp only [ha]
      by_cases hja : j = a
      · subst hja; simp at ha; simp [ha]
      · simp [hja]

theorem getLsbD_copyBits {K : Nat} {bits : BitVec M} (j : Nat) :
    (copyBits N K bits).getLsbD j = (decide (j < N) && decide (j < K) && bits.getLsbD j) := by
  rw [copyBits, getLsbD_copyBits_aux]; simp

theorem getLsbD_truncateBitset {bits : BitVec M} (h : N ≤ M) (j : Nat) :
    (truncateBitset N bits).getLsbD j = (decide (j < N) && bits.getLsbD j) := by
  unfold truncateBitset
  split
  · rw [BitVec.getLsbD_ofNat, ← getLsbD_eq_testBit, BitVec.getLsbD_and, getLsbD_fullMaskStatic h]
    by_cases hj : j < N <;> simp [hj]
  · rw [getLsbD_copyBits]; simp

theorem getLsbD_expandBitset {bits : BitVec M} (h : M ≤ N) (j : Nat) :
    (expandBitset N bits).getLsbD j = bits.getLsbD j := by
  have : bits.getLsbD j = true → j < N := fun hb => lt_of_lt_of_le (BitVec.lt_of_getLsbD hb) h
  unfold expandBitset
  split
  · rw [BitVec.getLsbD_ofNat, ← getLsbD_eq_testBit]
    cases hb : bits.getLsbD j <;> simp
    exact this hb
  · rw [getLsbD_copyBits]
    cases hb : bits.getLsbD j <;> simp
    exact ⟨this hb, BitVec.lt_of_getLsbD hb⟩

theorem getLsbD_loWord (s : BitVec (2 * M)) (j : Nat) :
    (loWord s).getLsbD j = (decide (j < M) && s.getLsbD j) := by
  rw [loWord, BitVec.getLsbD_ofNat, testBit_lo, ← getLsbD_eq_testBit]
  by_cases hj : j < M <;> simp [hj]

theorem getLsbD_hiWord (s : BitVec (2 * M)) (j : Nat) :
    (hiWord s).getLsbD j = (decide (j < M) && s.getLsbD (j + M)) := by
  rw [hiWord, BitVec.getLsbD_ofNat, testBit_hi, ← getLsbD_eq_testBit]

/-- Numeric comparison is decided by the highest differing bit. -/
theorem lt_of_highest_diff {x y : Nat} {i : Nat} (hx : x.testBit i = false)
    (hy : y.testBit i = true) (h : ∀ j, i < j → x.testBit j = y.testBit j) : x < y :=
  Nat.lt_of_testBit i hx hy h

theorem bitsetLess_iff (x y : BitVec N) : bitsetLess x y = true ↔ x.toNat < y.toNat := by
  unfold bitsetLess
  split
  · simp
  · cases hf : (List.range N).reverse.find? (fun i => x.getLsbD i ^^ y.getLsbD i) with
    | none =>
      rw [List.find?_eq_none] at hf
      have : x = y := by
        apply BitVec.eq_of_getLsbD_eq
        intro i hi
        have := hf i (by simpa using hi)
        revert this
        cases x.getLsbD i <;> cases y.getLsbD i <;> simp
      subst this; simp
    | some i =>
      rw [List.find?_eq_some_iff_append] at hf
      obtain ⟨hb, as, bs, hab, hno⟩ := hf
      have hhi : ∀ j, i < j → x.toNat.testBit j = y.toNat.testBit j := by
        intro j hj
        by_cases hjN : j < N
        · have hmem : j ∈ as ++ i :: bs := by rw [← hab]; simpa using hjN
          have hpw : (as ++ i :: bs).Pairwise (· > ·) := by
            rw [← hab, List.pairwise_reverse]; exact List.pairwise_lt_range
          rw [List.pairwise_append] at hpw
          rcases List.mem_append.1 hmem with hm | hm
          · have := hno j hm
            rw [← getLsbD_eq_testBit, ← getLsbD_eq_testBit]
            revert this
            cases x.getLsbD j <;> cases y.getLsbD j <;> simp
          · rcases List.mem_cons.1 hm with rfl | hm
            · omega
            · have := (List.pairwise_cons.1 hpw.2.1).1 j hm; omega
        · rw [← getLsbD_eq_testBit, ← getLsbD_eq_testBit, BitVec.getLsbD_of_ge _ _ (by omega),
            BitVec.getLsbD_of_ge _ _ (by omega)]
      simp only
      cases hyi : y.getLsbD i with
      | true =>
        have hxi : x.getLsbD i = false := by
          revert hb; rw [hyi]; cases x.getLsbD i <;> simp
        simp only [true_iff]
        exact Nat.lt_of_testBit i hxi hyi hhi
      | false =>
        have hxi : x.getLsbD i = true := by
          revert hb; rw [hyi]; cases x.getLsbD i <;> simp
        have := Nat.lt_of_testBit i hyi hxi (fun j hj => (hhi j hj).symm)
        simp only [Bool.false_eq_true, false_iff]
        omega

end Macis
