import Verif.Model.RdmBin
import Verif.Lemmas.Fcidump

/-! Properties C37, C78: binary RDM files. -/
namespace Macis
open Spec

theorem mem_pairs2 {n : Nat} {x : Nat × Nat} : x ∈ pairs2 n ↔ x.1 < n ∧ x.2 < n := by
  obtain ⟨a, b⟩ := x
  simp only [pairs2, List.mem_flatMap, List.mem_map, List.mem_range, Prod.mk.injEq]
  constructor
  · rintro ⟨i, hi, j, hj, rfl, rfl⟩; exact ⟨hi, hj⟩
  · rintro ⟨h1, h2⟩; exact ⟨a, h1, b, h2, rfl, rfl⟩

theorem mem_quads {n : Nat} {x : Nat × Nat × Nat × Nat} :
    x ∈ quads n ↔ x.1 < n ∧ x.2.1 < n ∧ x.2.2.1 < n ∧ x.2.2.2 < n := by
  obtain ⟨a, b, c, d⟩ := x
  simp only [quads, List.mem_flatMap, List.mem_map, List.mem_range, Prod.mk.injEq]
  constructor
  · rintro ⟨i, hi, j, hj, k, hk, l, hl, rfl, rfl, rfl, rfl⟩; exact ⟨hi, hj, hk, hl⟩
  · rintro ⟨h1, h2, h3, h4⟩; exact ⟨a, h1, b, h2, c, h3, d, h4, rfl, rfl, rfl, rfl⟩

/-- filling an `n x n` block -/
theorem fill2 {R : Type} {n ld : Nat} (hld : n ≤ ld) (m : Nat → R) (f : Nat × Nat → R) :
    (∀ i j, i < n → j < n →
      storeAll m ((pairs2 n).map fun x => (x.1 + x.2 * ld, f x)) (i + j * ld) = f (i, j)) ∧
    (∀ a, (∀ i j, i < n → j < n → a ≠ i + j * ld) →
      storeAll m ((pairs2 n).map fun x => (x.1 + x.2 * ld, f x)) a = m a) := by
  constructor
  · intro i j hi hj
    apply storeAll_const
    · intro w hw hwa
      obtain ⟨⟨a, b⟩, hx, rfl⟩ := List.mem_map.mp hw
      obtain ⟨h1, h2⟩ := mem_pairs2.mp hx
      obtain ⟨rfl, rfl⟩ := addr2_inj hld h1 hi hwa
      rfl
    · exact ⟨(i + j * ld, f (i, j)), List.mem_map.mpr ⟨(i, j), mem_pairs2.mpr ⟨hi, hj⟩, rfl⟩, rfl⟩
  · intro a ha
    apply storeAll_none
    intro w hw hwa
    obtain ⟨⟨i, j⟩, hx, rfl⟩ := List.mem_map.mp hw
    obtain ⟨h1, h2⟩ := mem_pairs2.mp hx
    exact ha i j h1 h2 hwa.symm

/-- filling an `n^4` block -/
theorem fill4 {R : Type} {n ld : Nat} (hld : n ≤ ld) (m : Nat → R) (f : Nat × Nat × Nat × Nat → R) :
    (∀ i j k l, i < n → j < n → k < n → l < n →
      storeAll m ((quads n).map fun x =>
        (x.1 + x.2.1 * ld + x.2.2.1 * ld * ld + x.2.2.2 * ld * ld * ld, f x)) (addr4 ld i j k l) = f (i, j, k, l)) ∧
    (∀ a, (∀ i j k l, i < n → j < n → k < n → l < n → a ≠ addr4 ld i j k l) →
      storeAll m ((quads n).map fun x =>
        (x.1 + x.2.1 * ld + x.2.2.1 * ld * ld + x.2.2.2 * ld * ld * ld, f x)) a = m a) := by
  constructor
  · intro i j k l hi hj hk hl
    apply storeAll_const
    · intro w hw hwa
      obtain ⟨⟨a, b, c, d⟩, hx, rfl⟩ := List.mem_map.mp hw
      obtain ⟨h1, h2, h3, h4⟩ := mem_quads.mp hx
      obtain ⟨rfl, rfl, rfl, rfl⟩ := addr4_inj hld h1 h2 h3 hi hj hk hwa
      rfl
    · exact ⟨(addr4 ld i j k l, f (i, j, k, l)),
        List.mem_map.mpr ⟨(i, j, k, l), mem_quads.mpr ⟨hi, hj, hk, hl⟩, rfl⟩, rfl⟩
  · intro a ha
    apply storeAll_none
    intro w hw hwa
    obtain ⟨⟨i, j, k, l⟩, hx, rfl⟩ := List.mem_map.mp hw
    obtain ⟨h1, h2, h3, h4⟩ := mem_quads.mp hx
    exact ha i j k l h1 h2 h3 h4 hwa.symm

theorem lt_sq {n i j : Nat} (hi : i < n) (hj : j < n) : i + j * n < n * n := by
  have : j + 1 ≤ n := hj
  have := Nat.mul_le_mul_right n this
  rw [Nat.add_mul] at this; omega

theorem lt_quart {n i j k l : Nat} (hi : i < n) (hj : j < n) (hk : k < n) (hl : l < n) :
    addr4 n i j k l < n * n * n * n := by
  rw [addr4_eq]
  have h1 : k + l * n < n * n := lt_sq hk hl
  have h2 : j + (k + l * n) * n < n * n * n := by
    have := Nat.mul_le_mul_right n (show k + l * n + 1 ≤ n * n from h1)
    rw [Nat.add_mul] at this; omega
  have := Nat.mul_le_mul_right n (show j + (k + l * n) * n + 1 ≤ n * n * n from h2)
  rw [Nat.add_mul] at this; omega

/-- C37: reading back a written file fills exactly the `norb x norb` and `norb^4` blocks of the
destination with the values written, for any leading dimensions on both sides and any previous
contents. -/
theorem C37_round_trip {R : Type} [Zero R] (norb ld1 ld2 ld1' ld2' : Nat) (h1 : norb ≤ ld1')
    (h2 : norb ≤ ld2') (D1 D2 O T : Nat → R) :
    ∃ O' T', readRdmsBinary (some (writeRdmsBinary norb D1 ld1 D2 ld2)) norb O ld1' T ld2' =
        (.ok (), O', T') ∧
      (∀ i j, i < norb → j < norb → O' (i + j * ld1') = D1 (i + j * ld1)) ∧
      (∀ i j k l, i < norb → j < norb → k < norb → l < norb →
        T' (addr4 ld2' i j k l) = D2 (addr4 ld2 i j k l)) ∧
      (∀ a, (∀ i j, i < norb → j < norb → a ≠ i + j * ld1') → O' a = O a) ∧
      (∀ a, (∀ i j k l, i < norb → j < norb → k < norb → l < norb → a ≠ addr4 ld2' i j k l) →
        T' a = T a) := by
  simp only [writeRdmsBinary, readRdmsBinary, ne_eq, not_true_eq_false, if_false]
  refine ⟨_, _, rfl, ?_, ?_, ?_, ?_⟩
  · intro i j hi hj
    rw [(fill2 h1 _ _).1 i j hi hj]
    have hlt := lt_sq hi hj
    rw [fillRaw, if_pos hlt, List.getD_eq_getElem?_getD,
      List.getElem?_append_left (by simpa using hlt), List.getElem?_map, List.getElem?_range hlt]
    exact (fill2 (le_refl norb) _ (fun x => D1 (x.1 + x.2 * ld1))).1 i j hi hj
  · intro i j k l hi hj hk hl
    rw [(fill4 h2 _ _).1 i j k l hi hj hk hl]
    have hlt := lt_quart hi hj hk hl
    have e : i + j * norb + k * norb * norb + l * norb * norb * norb = addr4 norb i j k l := rfl
    rw [e, fillRaw, if_pos hlt, List.drop_append_of_le_length (by simp),
      List.drop_eq_nil_of_le (by simp), List.nil_append, List.getD_eq_getElem?_getD,
      List.getElem?_map, List.getElem?_range hlt]
    exact (fill4 (le_refl norb) _ (fun x => D2 (addr4 ld2 x.1 x.2.1 x.2.2.1 x.2.2.2))).1 i j k l hi hj hk hl
  · intro a ha
    rw [(fill2 h1 _ _).2 a ha, (fill2 h1 _ (fun _ => (0 : R))).2 a ha]
  · intro a ha
    rw [(fill4 h2 _ _).2 a ha, (fill4 h2 _ (fun _ => (0 : R))).2 a ha]

theorem toInt32_inj {a b : Nat} (ha : a < 4294967296) (hb : b < 4294967296)
    (h : toInt32 a = toInt32 b) : a = b := by
  rw [toInt32, toInt32, Nat.mod_eq_of_lt ha, Nat.mod_eq_of_lt hb] at h
  split at h <;> split at h <;> omega

/-- C37: a missing file, or one written for another orbital count, makes the read throw; the
destination blocks are zero afterwards. -/
theorem C37_mismatch_throws {R : Type} [Zero R] (norb norb' ld1 ld2 ld1' ld2' : Nat)
    (hn : norb < 4294967296) (hn' : norb' < 4294967296) (hne : norb ≠ norb') (h1 : norb' ≤ ld1')
    (h2 : norb' ≤ ld2') (D1 D2 O T : Nat → R) (file : Option (RdmFile R))
    (hf : file = none ∨ file = some (writeRdmsBinary norb D1 ld1 D2 ld2)) :
    ∃ O' T', readRdmsBinary file norb' O ld1' T ld2' = (.throw, O', T') ∧
      (∀ i j, i < norb' → j < norb' → O' (i + j * ld1') = 0) ∧
      (∀ i j k l, i < norb' → j < norb' → k < norb' → l < norb' → T' (addr4 ld2' i j k l) = 0) := by
  have hne' : ¬ toInt32 norb = toInt32 norb' := fun h => hne (toInt32_inj hn hn' h)
  rcases hf with rfl | rfl <;>
  · simp only [writeRdmsBinary, readRdmsBinary, ne_eq, hne', not_false_eq_true, if_true]
    exact ⟨_, _, rfl, fun i j hi hj => (fill2 h1 _ (fun _ => (0 : R))).1 i j hi hj,
      fun i j k l hi hj hk hl => (fill4 h2 _ (fun _ => (0 : R))).1 i j k l hi hj hk hl⟩

/-- C37: a file starting with the 32-bit integer `h` is refused exactly when `h` is not the requested orbital count
as a 32-bit integer (for a count below `2 ^ 31`: is not the orbital count), whatever follows; a written file starts
with the orbital count. -/
theorem C37_header {R : Type} [Zero R] (norb ld1 ld2 : Nat) (h : Int) (h1 : -2 ^ 31 ≤ h) (h2 : h < 2 ^ 31)
    (vals : List R) (O T : Nat → R) (D1 D2 : Nat → R) :
    ((readRdmsBinary (some ⟨some h, vals⟩) norb O ld1 T ld2).1 = .throw ↔ ¬ (2 ^ 32 : Int) ∣ h - norb) ∧
    (norb < 2 ^ 31 → ((readRdmsBinary (some ⟨some h, vals⟩) norb O ld1 T ld2).1 = .throw ↔ h ≠ norb)) ∧
    ∃ k : Int, (writeRdmsBinary norb D1 ld1 D2 ld2).hdr = some k ∧ -2 ^ 31 ≤ k ∧ k < 2 ^ 31 ∧ (2 ^ 32 : Int) ∣ k - norb := by
  have hr : (readRdmsBinary (some ⟨some h, vals⟩) norb O ld1 T ld2).1 = .throw ↔ h ≠ toInt32 norb := by
    simp only [readRdmsBinary]
    split_ifs with hc <;> simp [hc]
  have ht : -2 ^ 31 ≤ toInt32 norb ∧ toInt32 norb < 2 ^ 31 ∧ (2 ^ 32 : Int) ∣ toInt32 norb - norb := by
    unfold toInt32
    split_ifs <;> omega
  refine ⟨?_, ?_, toInt32 norb, rfl, ht⟩
  · rw [hr]; omega
  · intro hn
    rw [hr]; omega

/-- The hypotheses are met by a two-orbital case with padded destinations. -/
example : ∃ O' T', readRdmsBinary (some (writeRdmsBinary (R := Int) 2 (fun a => a) 2 (fun a => -a) 2))
    2 (fun _ => 9) 3 (fun _ => 9) 5 = (.ok (), O', T') ∧ O' (1 + 1 * 3) = 3 ∧
      T' (addr4 5 0 1 0 1) = -10 := by
  obtain ⟨O', T', h, a, b, _⟩ := C37_round_trip (R := Int) 2 2 2 3 5 (by decide) (by decide)
    (fun a => a) (fun a => -a) (fun _ => 9) (fun _ => 9)
  exact ⟨O', T', h, a 1 1 (by decide) (by decide),
    b 0 1 0 1 (by decide) (by decide) (by decide) (by decide)⟩

/-- C78 (refuted): a file cut after the one-body block is accepted, and the head of the two-body array
is filled with the one-body data still in the buffer. -/
theorem C78_truncated_rdm_file_refuted :
    ∃ O' T', readRdmsBinary (some (⟨some 1, [5]⟩ : RdmFile Int)) 1 (fun _ => 0) 1 (fun _ => 0) 1 =
      (.ok (), O', T') ∧ O' 0 = 5 ∧ T' 0 = 5 :=
  ⟨_, _, rfl, by decide, by decide⟩

end Macis
