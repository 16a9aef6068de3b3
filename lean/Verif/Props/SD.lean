import Verif.Lemmas.Combs
import Verif.Lemmas.Sign
import Mathlib.Order.Defs.LinearOrder

/-! Properties C05–C12, C51: determinant generation, signs, text encoding (`sd_operations.hpp`). -/
namespace Macis
open Spec

/-! ### C05 -/

/-- C05: for a determinant inside the orbital space, the occupied and virtual lists are sorted and
partition `{0..norb-1}`. -/
theorem C05_occ_vir_partition (N norb : Nat) (hn : norb ≤ N) (s : BitVec N)
    (hs : SupportedOn norb s) :
    ∃ o v, bitsetToOccVir norb s = some (o, v) ∧ o.Pairwise (· < ·) ∧ v.Pairwise (· < ·) ∧
      (∀ i, i ∈ o ↔ s.getLsbD i = true) ∧ (∀ i, i ∈ v ↔ i < norb ∧ s.getLsbD i = false) ∧
      (∀ i, i < norb ↔ i ∈ o ∨ i ∈ v) ∧ (∀ i, i ∈ o → i ∉ v) := by
  refine ⟨occ s, vir norb s, bitsetToOccVir_eq hs hn, occ_sorted s,
    List.Pairwise.filter _ List.pairwise_lt_range, fun i => mem_occ, fun i => mem_vir, ?_, ?_⟩
  · intro i
    rw [mem_occ, mem_vir]
    constructor
    · intro h
      cases hb : s.getLsbD i
      · exact Or.inr ⟨h, rfl⟩
      · exact Or.inl rfl
    · rintro (h | h)
      · exact hs i h
      · exact h.1
  · intro i h1 h2
    rw [mem_occ] at h1
    rw [mem_vir, h1] at h2; simp at h2

/-- C05 (active space variant): the two lists partition the active orbitals, keeping their order. -/
theorem C05_occ_vir_as_partition (N : Nat) (s : BitVec N) (asOrbs : List Nat) :
    (bitsetToOccVirAs s asOrbs).1.Sublist asOrbs ∧ (bitsetToOccVirAs s asOrbs).2.Sublist asOrbs ∧
    (∀ i, i ∈ (bitsetToOccVirAs s asOrbs).1 ↔ i ∈ asOrbs ∧ s.getLsbD i = true) ∧
    (∀ i, i ∈ (bitsetToOccVirAs s asOrbs).2 ↔ i ∈ asOrbs ∧ s.getLsbD i = false) ∧
    (bitsetToOccVirAs s asOrbs).1.length + (bitsetToOccVirAs s asOrbs).2.length = asOrbs.length := by
  refine ⟨List.filter_sublist, List.filter_sublist, fun i => by simp [bitsetToOccVirAs],
    fun i => by simp [bitsetToOccVirAs], ?_⟩
  have := List.length_eq_length_filter_add (l := asOrbs) (fun i => s.getLsbD i)
  simp only [bitsetToOccVirAs]; omega

/-- The support hypothesis of C05 is needed: an electron above `norb` silently removes a genuine
virtual orbital from the list (here orbital 1 of a 2-orbital space). -/
theorem C05_unsupported_loses_virtual :
    bitsetToOccVir 2 (0b1000#4) = some ([3], [0]) := by decide +kernel

example : SupportedOn 5 (0b01011#8) ∧ bitsetToOccVir 5 (0b01011#8) = some ([0, 1, 3], [2, 4]) :=
  ⟨by intro i hi; by_contra h
      have : i < 8 := BitVec.lt_of_getLsbD hi
      interval_cases i <;> simp at hi, by decide +kernel⟩

/-! ### C06 -/

/-- C06: the reference determinant occupies exactly the lowest alpha and beta orbitals. -/
theorem C06_canonical_hf (M na nb : Nat) (ha : na ≤ M) (hb : nb ≤ M) :
    (∀ i, (loWord (canonicalHF M na nb)).getLsbD i = true ↔ i < na) ∧
    (∀ i, (hiWord (canonicalHF M na nb)).getLsbD i = true ↔ i < nb) := by
  constructor
  · intro i
    rw [getLsbD_loWord, canonicalHF, BitVec.getLsbD_or, BitVec.getLsbD_shiftLeft,
      getLsbD_fullMask (by omega), getLsbD_fullMask (by omega)]
    by_cases h : i < M
    · simp [h]
    · simp [h]; omega
  · intro i
    rw [getLsbD_hiWord, canonicalHF, BitVec.getLsbD_or, BitVec.getLsbD_shiftLeft,
      getLsbD_fullMask (by omega), getLsbD_fullMask (by omega)]
    by_cases h : i < M
    · simp [h]; omega
    · simp [h]; omega

/-- helper: the bits produced by flipping a duplicate free in-range list of positions -/
theorem foldl_flip_bits {N : Nat} (f : Nat → Nat) (l : List Nat) (hn : (l.map f).Nodup)
    (hlt : ∀ i ∈ l, f i < N) (acc : BitVec N) (hacc : ∀ i ∈ l, acc.getLsbD (f i) = false) (j : Nat) :
    (l.foldl (fun s i => flip s (f i)) acc).getLsbD j = true ↔
      acc.getLsbD j = true ∨ ∃ i ∈ l, f i = j := by
  induction l generalizing acc with
  | nil => simp
  | cons a l ih =>
    rw [List.map_cons, List.nodup_cons] at hn
    have hmem : ∀ i ∈ l, f a ≠ f i := fun i hi h => hn.1 (h ▸ List.mem_map_of_mem hi)
    have ha := hacc a (by simp)
    rw [List.foldl_cons, ih hn.2 (fun i hi => hlt i (by simp [hi]))]
    · rw [getLsbD_flip (hlt a (by simp))]
      by_cases hj : f a = j
      · subst hj; simp [ha]
      · simp [hj]
    · intro i hi
      rw [getLsbD_flip (hlt a (by simp)), hacc i (by simp [hi])]
      simp [hmem i hi]

/-- helper: the stable sort orders indices by energy, ties by index -/
theorem sorted_idx {α : Type} [LinearOrder α] (n : Nat) (e : Nat → α) :
    ((List.range n).mergeSort (fun i1 i2 => !decide (e i2 < e i1))).Pairwise
      (fun i a => e i < e a ∨ (e i = e a ∧ i < a)) := by
  set le : Nat → Nat → Bool := fun i1 i2 => !decide (e i2 < e i1) with hle
  have hs : ((List.range n).mergeSort le).Pairwise (fun a b => le a b = true) := by
    apply List.pairwise_mergeSort
    · intro a b c; simp only [hle]; simp; intro h1 h2; exact le_trans h1 h2
    · intro a b; simp only [hle]; simp; exact le_total _ _
  have hnd : ((List.range n).mergeSort le).Nodup :=
    (List.mergeSort_perm (List.range n) le).nodup_iff.2 List.nodup_range
  rw [List.pairwise_iff_forall_sublist]
  intro i a hsub
  have h1 : le i a = true := (List.pairwise_iff_forall_sublist.1 hs) hsub
  have hle' : e i ≤ e a := by simpa [hle] using h1
  rcases lt_or_eq_of_le hle' with h | h
  · exact Or.inl h
  · refine Or.inr ⟨h, ?_⟩
    have hne : i ≠ a := by
      have := (List.Nodup.sublist hsub hnd); simpa using this
    by_contra hc
    have hai : a < i := by omega
    have hmi : i ∈ List.range n := (List.mergeSort_perm (List.range n) le).mem_iff.1
      (hsub.subset (by simp))
    have hma : a ∈ List.range n := (List.mergeSort_perm (List.range n) le).mem_iff.1
      (hsub.subset (by simp))
    have hsubr : [a, i].Sublist (List.range n) := by
      have hp : (List.range n).Pairwise (· < ·) := List.pairwise_lt_range
      simp only [List.mem_range] at hmi hma
      have : [a, i].Sublist (List.range (i + 1)) := by
        rw [List.range_succ]
        have h2 : [a].Sublist (List.range i) := by simpa using hai
        exact h2.append (List.Sublist.refl [i])
      exact this.trans (List.range_sublist.2 (by omega))
    have hback : [a, i].Sublist ((List.range n).mergeSort le) :=
      List.pair_sublist_mergeSort
        (by intro a b c; simp only [hle]; simp; intro h1 h2; exact le_trans h1 h2)
        (by intro a b; simp only [hle]; simp; exact le_total _ _)
        (by simp [hle, h]) hsubr
    have hcontra : ∀ l : List Nat, l.Nodup → [i, a].Sublist l → [a, i].Sublist l → False := by
      intro l hl h1 h2
      induction l with
      | nil => simp at h1
      | cons x l ih =>
        rw [List.nodup_cons] at hl
        cases h1 with
        | cons _ h1 =>
          cases h2 with
          | cons _ h2 => exact ih hl.2 h1 h2
          | cons_cons _ h2 => exact hl.1 (h1.subset (by simp))
        | cons_cons _ h1 =>
          cases h2 with
          | cons _ h2 => exact hl.1 (h2.subset (by simp))
          | cons_cons _ h2 => omega
    exact hcontra _ hnd hsub hback

/-- C06 (orbital energies): exactly `na` alpha and `nb` beta electrons, and no occupied orbital
lies above an unoccupied one (ties broken by index). -/
theorem C06_canonical_hf_energies {α : Type} [LinearOrder α] (M na nb n : Nat) (e : Nat → α)
    (hn : n ≤ M) (ha : na ≤ n) (hb : nb ≤ n) :
    ∃ d, canonicalHFEns M na nb n e = some d ∧
      (electrons (loWord d) = na ∧ SupportedOn n (loWord d) ∧
        ∀ i a, (loWord d).getLsbD i = true → a < n → (loWord d).getLsbD a = false →
          e i < e a ∨ (e i = e a ∧ i < a)) ∧
      (electrons (hiWord d) = nb ∧ SupportedOn n (hiWord d) ∧
        ∀ i a, (hiWord d).getLsbD i = true → a < n → (hiWord d).getLsbD a = false →
          e i < e a ∨ (e i = e a ∧ i < a)) := by
  set le : Nat → Nat → Bool := fun i1 i2 => !decide (e i2 < e i1) with hle
  set idx := (List.range n).mergeSort le with hidx
  have hperm : idx.Perm (List.range n) := List.mergeSort_perm (List.range n) le
  have hlen : idx.length = n := by rw [hperm.length_eq]; simp
  have hnd : idx.Nodup := hperm.nodup_iff.2 List.nodup_range
  have hmem : ∀ i, i ∈ idx ↔ i < n := fun i => by rw [hperm.mem_iff]; simp
  have hsort := sorted_idx n e
  rw [← hle, ← hidx] at hsort
  set al := (idx.take na).foldl (fun s i => flip s i) (0#(2 * M)) with hal
  set be := (idx.take nb).foldl (fun s i => flip s (i + M)) (0#(2 * M)) with hbe
  have hbits_a : ∀ j, al.getLsbD j = true ↔ j ∈ idx.take na := by
    intro j
    have := foldl_flip_bits (N := 2 * M) (fun i => i) (idx.take na)
      (by simpa using (List.take_sublist na idx).nodup hnd)
      (fun i hi => by
        have := (hmem i).1 (List.mem_of_mem_take hi)
        omega) (0#(2 * M)) (by simp) j
    rw [hal, this]; simp
  have hbits_b : ∀ j, be.getLsbD j = true ↔ ∃ i ∈ idx.take nb, i + M = j := by
    intro j
    have := foldl_flip_bits (N := 2 * M) (fun i => i + M) (idx.take nb)
      (List.Nodup.map (fun a b h => by simpa using h) ((List.take_sublist nb idx).nodup hnd))
      (fun i hi => by
        have := (hmem i).1 (List.mem_of_mem_take hi)
        omega) (0#(2 * M)) (by simp) j
    rw [hbe, this]; simp
  have hA : ∀ i, (loWord (al ||| be)).getLsbD i = true ↔ i ∈ idx.take na := by
    intro i
    rw [getLsbD_loWord, BitVec.getLsbD_or, Bool.and_eq_true, Bool.or_eq_true, hbits_a, hbits_b,
      decide_eq_true_eq]
    constructor
    · rintro ⟨h1, h2 | ⟨k, _, hk⟩⟩
      · exact h2
      · omega
    · intro h
      have := (hmem i).1 (List.mem_of_mem_take h)
      exact ⟨by omega, Or.inl h⟩
  have hB : ∀ i, (hiWord (al ||| be)).getLsbD i = true ↔ i ∈ idx.take nb := by
    intro i
    rw [getLsbD_hiWord, BitVec.getLsbD_or, Bool.and_eq_true, Bool.or_eq_true, hbits_a, hbits_b,
      decide_eq_true_eq]
    constructor
    · rintro ⟨h1, h2 | ⟨k, hk, hk'⟩⟩
      · have := (hmem _).1 (List.mem_of_mem_take h2); omega
      · have : k = i := by omega
        subst this; exact hk
    · intro h
      have := (hmem i).1 (List.mem_of_mem_take h)
      exact ⟨by omega, Or.inr ⟨i, h, rfl⟩⟩
  have gen : ∀ (k : Nat) (d : BitVec M), k ≤ n → (∀ i, d.getLsbD i = true ↔ i ∈ idx.take k) →
      (electrons d = k ∧ SupportedOn n d ∧
        ∀ i a, d.getLsbD i = true → a < n → d.getLsbD a = false →
          e i < e a ∨ (e i = e a ∧ i < a)) := by
    intro k d hk hd
    refine ⟨?_, ?_, ?_⟩
    · have : (occ d).Perm (idx.take k) := by
        rw [List.perm_ext_iff_of_nodup (occ_nodup d) ((List.take_sublist k idx).nodup hnd)]
        intro i; rw [mem_occ, hd]
      change (occ d).length = k
      rw [this.length_eq, List.length_take]; omega
    · intro i hi
      exact (hmem i).1 (List.mem_of_mem_take ((hd i).1 hi))
    · intro i a hi han ha'
      have h1 := (hd i).1 hi
      have h2 : a ∈ idx.drop k := by
        have : a ∈ idx.take k ++ idx.drop k := by rw [List.take_append_drop]; exact (hmem a).2 han
        rcases List.mem_append.1 this with h | h
        · rw [(hd a).2 h] at ha'; simp at ha'
        · exact h
      have hp : (idx.take k ++ idx.drop k).Pairwise
          (fun i a => e i < e a ∨ (e i = e a ∧ i < a)) := by
        rw [List.take_append_drop]; exact hsort
      exact (List.pairwise_append.1 hp).2.2 i h1 a h2
  refine ⟨al ||| be, ?_, gen na _ ha hA, gen nb _ hb hB⟩
  simp only [canonicalHFEns, ← hle, ← hidx, hlen, ha, hb, and_self, if_true, ← hal, ← hbe]

example : ∃ d, canonicalHFEns 4 2 1 4 (fun i => [3, 1, 2, 1].getD i (0 : Nat)) = some d ∧
    electrons (loWord d) = 2 :=
  let ⟨d, h, h', _⟩ := C06_canonical_hf_energies 4 2 1 4 (fun i => [3, 1, 2, 1].getD i (0 : Nat))
    (by omega) (by omega) (by omega)
  ⟨d, h, h'.1⟩

/-! ### C07, C08 -/

/-- C07: `generate_singles` lists exactly the single excitations within `norb` orbitals, once each. -/
theorem C07_singles_exact (N norb : Nat) (hn : norb ≤ N) (s : BitVec N) (hs : SupportedOn norb s) :
    ∃ l, generateSingles norb s = some l ∧ l.Nodup ∧
      ∀ t, t ∈ l ↔ ExcitedWithin 1 (· < norb) s t :=
  ⟨_, generateSingles_eq hs hn,
    appendSingles_nodup (occ_nodup s) (vir_nodup norb s) (fun i hi => mem_occ.1 hi)
      (fun a ha => ⟨by have := (mem_vir.1 ha).1; omega, (mem_vir.1 ha).2⟩),
    fun _ => mem_appendSingles_iff (occ_spec hs) (vir_spec hn)⟩

/-- C07 (active space variant), any duplicate free in-range list of active orbitals. -/
theorem C07_singles_as_exact (N : Nat) (s : BitVec N) (asOrbs : List Nat) (hnd : asOrbs.Nodup)
    (hlt : ∀ i ∈ asOrbs, i < N) :
    (generateSinglesAs s asOrbs).Nodup ∧
      ∀ t, t ∈ generateSinglesAs s asOrbs ↔ ExcitedWithin 1 (· ∈ asOrbs) s t := by
  constructor
  · apply appendSingles_nodup (List.Nodup.filter _ hnd) (List.Nodup.filter _ hnd)
    · intro i hi; exact (List.mem_filter.1 hi).2
    · intro a ha
      have := List.mem_filter.1 ha
      exact ⟨hlt a this.1, by simpa using this.2⟩
  · intro t
    apply mem_appendSingles_iff
    · intro i; simp [bitsetToOccVirAs]
    · intro a
      simp only [bitsetToOccVirAs, List.mem_filter]
      constructor
      · rintro ⟨h1, h2⟩; exact ⟨hlt a h1, h1, by simpa using h2⟩
      · rintro ⟨_, h1, h2⟩; exact ⟨h1, by simp [h2]⟩

/-- C08: `generate_doubles` lists exactly the double excitations within `norb` orbitals, once each. -/
theorem C08_doubles_exact (N norb : Nat) (hn : norb ≤ N) (s : BitVec N) (hs : SupportedOn norb s) :
    ∃ l, generateDoubles norb s = some l ∧ l.Nodup ∧
      ∀ t, t ∈ l ↔ ExcitedWithin 2 (· < norb) s t :=
  ⟨_, generateDoubles_eq hs hn,
    appendDoubles_nodup (occ_nodup s) (vir_nodup norb s) (fun i hi => mem_occ.1 hi)
      (fun a ha => ⟨by have := (mem_vir.1 ha).1; omega, (mem_vir.1 ha).2⟩),
    fun _ => mem_appendDoubles_iff (occ_nodup s) (vir_nodup norb s) (occ_spec hs) (vir_spec hn)⟩

/-- C08 (active space variant). -/
theorem C08_doubles_as_exact (N : Nat) (s : BitVec N) (asOrbs : List Nat) (hnd : asOrbs.Nodup)
    (hlt : ∀ i ∈ asOrbs, i < N) :
    (generateDoublesAs s asOrbs).Nodup ∧
      ∀ t, t ∈ generateDoublesAs s asOrbs ↔ ExcitedWithin 2 (· ∈ asOrbs) s t := by
  constructor
  · apply appendDoubles_nodup (List.Nodup.filter _ hnd) (List.Nodup.filter _ hnd)
    · intro i hi; exact (List.mem_filter.1 hi).2
    · intro a ha
      have := List.mem_filter.1 ha
      exact ⟨hlt a this.1, by simpa using this.2⟩
  · intro t
    apply mem_appendDoubles_iff (List.Nodup.filter _ hnd) (List.Nodup.filter _ hnd)
    · intro i; simp [bitsetToOccVirAs]
    · intro a
      simp only [bitsetToOccVirAs, List.mem_filter]
      constructor
      · rintro ⟨h1, h2⟩; exact ⟨hlt a h1, h1, by simpa using h2⟩
      · rintro ⟨_, h1, h2⟩; exact ⟨h1, by simp [h2]⟩

example : generateSingles 4 (0b0011#4) = some [0b0110#4, 0b0101#4, 0b1010#4, 0b1001#4] := by
  decide +kernel
example : generateDoubles 4 (0b0011#4) = some [0b1100#4] := by decide +kernel

/-! ### C09 -/

/-- C09: the CISD space is exactly the set of determinants reached by moving at most two electrons
(spin conserving, inside `norb` orbitals), each listed once, the reference first. -/
theorem C09_cisd_exact (M norb : Nat) (hn : norb ≤ M) (s : BitVec (2 * M))
    (ha : SupportedOn norb (loWord s)) (hb : SupportedOn norb (hiWord s)) :
    ∃ l, generateCisd norb s = some l ∧ l.head? = some s ∧ l.Nodup ∧
      ∀ t, t ∈ l ↔ ∃ ka kb, ka + kb ≤ 2 ∧
        ExcitedWithin ka (· < norb) (loWord s) (loWord t) ∧
        ExcitedWithin kb (· < norb) (hiWord s) (hiWord t) := by
  obtain ⟨sA, hsA, hsAn, hsAm⟩ := C07_singles_exact M norb hn _ ha
  obtain ⟨sB, hsB, hsBn, hsBm⟩ := C07_singles_exact M norb hn _ hb
  obtain ⟨dA, hdA, hdAn, hdAm⟩ := C08_doubles_exact M norb hn _ ha
  obtain ⟨dB, hdB, hdBn, hdBm⟩ := C08_doubles_exact M norb hn _ hb
  have hmem : ∀ t, t ∈ s :: (spinSingles (loWord s) (hiWord s) sA sB ++
      spinDoubles (loWord s) (hiWord s) sA sB dA dB) ↔ ∃ ka kb, ka + kb ≤ 2 ∧
        ExcitedWithin ka (· < norb) (loWord s) (loWord t) ∧
        ExcitedWithin kb (· < norb) (hiWord s) (hiWord t) := by
    intro t
    simp only [spinSingles, spinDoubles, List.mem_cons, List.mem_append, List.mem_map,
      List.mem_flatMap]
    constructor
    · rintro (rfl | (⟨a, ha, rfl⟩ | ⟨b, hb, rfl⟩) | ((⟨a, ha, rfl⟩ | ⟨b, hb, rfl⟩) |
        ⟨a, ha, b, hb, rfl⟩)) <;> try simp only [loWord_joinSpin, hiWord_joinSpin]
      · exact ⟨0, 0, by omega, excited_zero.2 rfl, excited_zero.2 rfl⟩
      · exact ⟨1, 0, by omega, (hsAm a).1 ha, excited_zero.2 rfl⟩
      · exact ⟨0, 1, by omega, excited_zero.2 rfl, (hsBm b).1 hb⟩
      · exact ⟨2, 0, by omega, (hdAm a).1 ha, excited_zero.2 rfl⟩
      · exact ⟨0, 2, by omega, excited_zero.2 rfl, (hdBm b).1 hb⟩
      · exact ⟨1, 1, by omega, (hsAm a).1 ha, (hsBm b).1 hb⟩
    · rintro ⟨ka, kb, hk, h1, h2⟩
      have hcases : (ka = 0 ∧ kb = 0) ∨ (ka = 1 ∧ kb = 0) ∨ (ka = 0 ∧ kb = 1) ∨
          (ka = 2 ∧ kb = 0) ∨ (ka = 0 ∧ kb = 2) ∨ (ka = 1 ∧ kb = 1) := by omega
      rcases hcases with ⟨rfl, rfl⟩ | ⟨rfl, rfl⟩ | ⟨rfl, rfl⟩ | ⟨rfl, rfl⟩ | ⟨rfl, rfl⟩ | ⟨rfl, rfl⟩
      · left
        rw [← joinSpin_lo_hi t, excited_zero.1 h1, excited_zero.1 h2, joinSpin_lo_hi]
      · right; left; left
        exact ⟨loWord t, (hsAm _).2 h1, by rw [← excited_zero.1 h2, joinSpin_lo_hi]⟩
      · right; left; right
        exact ⟨hiWord t, (hsBm _).2 h2, by rw [← excited_zero.1 h1, joinSpin_lo_hi]⟩
      · right; right; left; left
        exact ⟨loWord t, (hdAm _).2 h1, by rw [← excited_zero.1 h2, joinSpin_lo_hi]⟩
      · right; right; left; right
        exact ⟨hiWord t, (hdBm _).2 h2, by rw [← excited_zero.1 h1, joinSpin_lo_hi]⟩
      · right; right; right
        exact ⟨loWord t, (hsAm _).2 h1, hiWord t, (hsBm _).2 h2, joinSpin_lo_hi t⟩
  -- a determinant in a block has a definite excitation rank
  have rk : ∀ {k l : Nat} {x y : BitVec M}, ExcitedWithin k (· < norb) x y →
      ExcitedWithin l (· < norb) x y → k = l := fun h1 h2 => excited_card_unique h1 h2
  have blk1 : ∀ t ∈ sA.map (fun x => joinSpin x (hiWord s)),
      ExcitedWithin 1 (· < norb) (loWord s) (loWord t) ∧
      ExcitedWithin 0 (· < norb) (hiWord s) (hiWord t) := by
    intro t ht
    obtain ⟨a, ha, rfl⟩ := List.mem_map.1 ht
    rw [loWord_joinSpin, hiWord_joinSpin]; exact ⟨(hsAm a).1 ha, excited_zero.2 rfl⟩
  have blk2 : ∀ t ∈ sB.map (fun x => joinSpin (loWord s) x),
      ExcitedWithin 0 (· < norb) (loWord s) (loWord t) ∧
      ExcitedWithin 1 (· < norb) (hiWord s) (hiWord t) := by
    intro t ht
    obtain ⟨a, ha, rfl⟩ := List.mem_map.1 ht
    rw [loWord_joinSpin, hiWord_joinSpin]; exact ⟨excited_zero.2 rfl, (hsBm a).1 ha⟩
  have blk3 : ∀ t ∈ dA.map (fun x => joinSpin x (hiWord s)),
      ExcitedWithin 2 (· < norb) (loWord s) (loWord t) ∧
      ExcitedWithin 0 (· < norb) (hiWord s) (hiWord t) := by
    intro t ht
    obtain ⟨a, ha, rfl⟩ := List.mem_map.1 ht
    rw [loWord_joinSpin, hiWord_joinSpin]; exact ⟨(hdAm a).1 ha, excited_zero.2 rfl⟩
  have blk4 : ∀ t ∈ dB.map (fun x => joinSpin (loWord s) x),
      ExcitedWithin 0 (· < norb) (loWord s) (loWord t) ∧
      ExcitedWithin 2 (· < norb) (hiWord s) (hiWord t) := by
    intro t ht
    obtain ⟨a, ha, rfl⟩ := List.mem_map.1 ht
    rw [loWord_joinSpin, hiWord_joinSpin]; exact ⟨excited_zero.2 rfl, (hdBm a).1 ha⟩
  have blk5 : ∀ t ∈ sA.flatMap (fun a => sB.map fun b => joinSpin a b),
      ExcitedWithin 1 (· < norb) (loWord s) (loWord t) ∧
      ExcitedWithin 1 (· < norb) (hiWord s) (hiWord t) := by
    intro t ht
    simp only [List.mem_flatMap, List.mem_map] at ht
    obtain ⟨a, ha, b, hb, rfl⟩ := ht
    rw [loWord_joinSpin, hiWord_joinSpin]; exact ⟨(hsAm a).1 ha, (hsBm b).1 hb⟩
  have jl : ∀ y : BitVec M, Function.Injective (fun x => joinSpin x y) :=
    fun y a b h => (joinSpin_inj h).1
  have jr : ∀ y : BitVec M, Function.Injective (fun x => joinSpin y x) :=
    fun y a b h => (joinSpin_inj h).2
  have n5 : (sA.flatMap (fun a => sB.map fun b => joinSpin a b)).Nodup := by
    rw [List.nodup_flatMap]
    refine ⟨fun a _ => List.Nodup.map (jr a) hsBn, hsAn.imp ?_⟩
    intro x y hxy z h1 h2
    obtain ⟨_, _, rfl⟩ := List.mem_map.1 h1
    obtain ⟨_, _, h⟩ := List.mem_map.1 h2
    exact hxy (joinSpin_inj h).1.symm
  have hnod : (s :: (spinSingles (loWord s) (hiWord s) sA sB ++
      spinDoubles (loWord s) (hiWord s) sA sB dA dB)).Nodup := by
    have disj : ∀ {l1 l2 : List (BitVec (2 * M))} {k1 k2 l1' l2' : Nat},
        (∀ t ∈ l1, ExcitedWithin k1 (· < norb) (loWord s) (loWord t) ∧
          ExcitedWithin l1' (· < norb) (hiWord s) (hiWord t)) →
        (∀ t ∈ l2, ExcitedWithin k2 (· < norb) (loWord s) (loWord t) ∧
          ExcitedWithin l2' (· < norb) (hiWord s) (hiWord t)) →
        ¬ (k1 = k2 ∧ l1' = l2') → List.Disjoint l1 l2 := by
      intro l1 l2 k1 k2 l1' l2' h1 h2 hne t ht1 ht2
      exact hne ⟨rk (h1 t ht1).1 (h2 t ht2).1, rk (h1 t ht1).2 (h2 t ht2).2⟩
    have refl0 : ∀ t ∈ [s], ExcitedWithin 0 (· < norb) (loWord s) (loWord t) ∧
        ExcitedWithin 0 (· < norb) (hiWord s) (hiWord t) := by
      intro t ht
      rw [List.mem_singleton] at ht
      subst ht
      exact ⟨excited_zero.2 rfl, excited_zero.2 rfl⟩
    have hs12 : (spinSingles (loWord s) (hiWord s) sA sB).Nodup :=
      List.Nodup.append (List.Nodup.map (jl _) hsAn) (List.Nodup.map (jr _) hsBn)
        (disj blk1 blk2 (by omega))
    have hd345 : (spinDoubles (loWord s) (hiWord s) sA sB dA dB).Nodup := by
      apply List.Nodup.append
      · exact List.Nodup.append (List.Nodup.map (jl _) hdAn) (List.Nodup.map (jr _) hdBn)
          (disj blk3 blk4 (by omega))
      · exact n5
      · rw [List.disjoint_append_left]
        exact ⟨disj blk3 blk5 (by omega), disj blk4 blk5 (by omega)⟩
    have : ([s] ++ (spinSingles (loWord s) (hiWord s) sA sB ++
      spinDoubles (loWord s) (hiWord s) sA sB dA dB)).Nodup := by
      apply List.Nodup.append (by simp)
      · apply List.Nodup.append hs12 hd345
        simp only [spinSingles, spinDoubles, List.disjoint_append_left, List.disjoint_append_right]
        exact ⟨⟨⟨disj blk1 blk3 (by omega), disj blk2 blk3 (by omega)⟩,
          ⟨disj blk1 blk4 (by omega), disj blk2 blk4 (by omega)⟩⟩,
          ⟨disj blk1 blk5 (by omega), disj blk2 blk5 (by omega)⟩⟩
      · simp only [spinSingles, spinDoubles, List.disjoint_append_right]
        exact ⟨⟨disj refl0 blk1 (by omega), disj refl0 blk2 (by omega)⟩,
          ⟨disj refl0 blk3 (by omega), disj refl0 blk4 (by omega)⟩,
          disj refl0 blk5 (by omega)⟩
    simpa using this
  refine ⟨_, ?_, rfl, hnod, hmem⟩
  simp [generateCisd, generateSinglesDoublesSpin, hsA, hsB, hdA, hdB]

example : (generateCisd (M := 4) 2 (0b00010001#8)).map List.length = some 4 := by decide +kernel

/-! ### C10 -/

/-- C10: `generate_combs` lists exactly the strings with `k` electrons in `n` orbitals, once each. -/
theorem C10_combs_exact (N n k : Nat) (hn : n ≤ N) (hk : k ≤ n) :
    ∃ l, generateCombs N n k = some l ∧ l.Nodup ∧ l.length = n.choose k ∧
      ∀ t, t ∈ l ↔ SupportedOn n t ∧ electrons t = k :=
  ⟨_, generateCombs_eq hk, combs_map_nodup hn, by rw [List.length_map, combsDesc_length],
    fun t => mem_combs_map hn t⟩

/-- C10: the loop of `generate_combs` stops by itself: any larger iteration budget gives the same
list. -/
theorem C10_combs_loop_stops (N n k : Nat) (hk : k ≤ n) (fuel : Nat)
    (hf : n.choose k ≤ fuel + 1) :
    some (combsLoop N fuel (List.replicate k true ++ List.replicate (n - k) false))
      = generateCombs N n k := by
  rw [generateCombs_eq hk]; exact congrArg some (combsLoop_fuel hk fuel hf)

/-- C10: `generate_hilbert_space` lists the full sector once, of size `C(n,na) * C(n,nb)`. -/
theorem C10_hilbert_space_exact (M n na nb : Nat) (hn : n ≤ M) (hna : na ≤ n) (hnb : nb ≤ n) :
    ∃ l, generateHilbertSpace M n na nb = some l ∧ l.Nodup ∧
      l.length = n.choose na * n.choose nb ∧
      ∀ t, t ∈ l ↔ SupportedOn n (loWord t) ∧ SupportedOn n (hiWord t) ∧
        electrons (loWord t) = na ∧ electrons (hiWord t) = nb := by
  obtain ⟨lA, hA, nA, cA, mA⟩ := C10_combs_exact (2 * M) n na (by omega) hna
  obtain ⟨lB, hB, nB, cB, mB⟩ := C10_combs_exact (2 * M) n nb (by omega) hnb
  have bits : ∀ (a b : BitVec (2 * M)), SupportedOn n a → SupportedOn n b →
      (∀ i, (loWord (a ||| (b <<< M))).getLsbD i = a.getLsbD i) ∧
      (∀ i, (hiWord (a ||| (b <<< M))).getLsbD i = b.getLsbD i) := by
    intro a b ha hb
    constructor
    · intro i
      rw [getLsbD_loWord, BitVec.getLsbD_or, BitVec.getLsbD_shiftLeft]
      by_cases h : i < M
      · simp [h]
      · cases hi : a.getLsbD i
        · simp [h]
        · have := ha i hi; omega
    · intro i
      rw [getLsbD_hiWord, BitVec.getLsbD_or, BitVec.getLsbD_shiftLeft]
      have h0 : a.getLsbD (i + M) = false := by
        cases hi : a.getLsbD (i + M)
        · rfl
        · have := ha _ hi; omega
      by_cases h : i < M
      · simp [h, h0]; intro _; omega
      · cases hi : b.getLsbD i
        · simp [h]
        · have := hb i hi; omega
  have elec : ∀ {K L : Nat} {x : BitVec K} {y : BitVec L},
      (∀ i, x.getLsbD i = y.getLsbD i) → electrons x = electrons y := by
    intro K L x y h
    have hx : (occ x) = (occ y) := eq_of_sorted_of_mem_iff (occ_sorted _) (occ_sorted _)
      (fun i => by rw [mem_occ, mem_occ, h])
    exact congrArg List.length hx
  refine ⟨lA.flatMap fun a => lB.map fun (b : BitVec (2 * M)) => a ||| (b <<< M),
    by simp [generateHilbertSpace, hA, hB], ?_, ?_, ?_⟩
  · have inj : ∀ a ∈ lA, ∀ b ∈ lB, ∀ a' ∈ lA, ∀ b' ∈ lB,
        a ||| (b <<< M) = a' ||| (b' <<< M) → a = a' ∧ b = b' := by
      intro a ha b hb a' ha' b' hb' h
      have h1 := bits a b ((mA a).1 ha).1 ((mB b).1 hb).1
      have h2 := bits a' b' ((mA a').1 ha').1 ((mB b').1 hb').1
      constructor
      · apply BitVec.eq_of_getLsbD_eq; intro i _; rw [← h1.1, ← h2.1, h]
      · apply BitVec.eq_of_getLsbD_eq; intro i _; rw [← h1.2, ← h2.2, h]
    rw [List.nodup_flatMap]
    refine ⟨fun a ha => List.Nodup.map_on (fun b hb b' hb' h => (inj a ha b hb a ha b' hb' h).2) nB,
      ?_⟩
    rw [List.pairwise_iff_forall_sublist]
    intro a a' hsub z h1 h2
    have hne : a ≠ a' := by simpa using hsub.nodup nA
    obtain ⟨b, hb, rfl⟩ := List.mem_map.1 h1
    obtain ⟨b', hb', h⟩ := List.mem_map.1 h2
    exact hne (inj a' (hsub.subset (by simp)) b' hb' a (hsub.subset (by simp)) b hb h).1.symm
  · simp [List.length_flatMap, cA, cB]
  · intro t
    simp only [List.mem_flatMap, List.mem_map]
    constructor
    · rintro ⟨a, ha, b, hb, rfl⟩
      have h := bits a b ((mA a).1 ha).1 ((mB b).1 hb).1
      refine ⟨fun i hi => ((mA a).1 ha).1 i (by rw [← h.1]; exact hi),
        fun i hi => ((mB b).1 hb).1 i (by rw [← h.2]; exact hi), ?_, ?_⟩
      · rw [elec h.1]; exact ((mA a).1 ha).2
      · rw [elec h.2]; exact ((mB b).1 hb).2
    · rintro ⟨h1, h2, h3, h4⟩
      have e1 : ∀ i, (expandBitset (2 * M) (loWord t)).getLsbD i = (loWord t).getLsbD i :=
        getLsbD_expandBitset (by omega)
      have e2 : ∀ i, (expandBitset (2 * M) (hiWord t)).getLsbD i = (hiWord t).getLsbD i :=
        getLsbD_expandBitset (by omega)
      refine ⟨expandBitset (2 * M) (loWord t), (mA _).2 ⟨fun i hi => h1 i (by rw [← e1]; exact hi),
        by rw [elec e1]; exact h3⟩, expandBitset (2 * M) (hiWord t),
        (mB _).2 ⟨fun i hi => h2 i (by rw [← e2]; exact hi), by rw [elec e2]; exact h4⟩, ?_⟩
      exact joinSpin_lo_hi t

example : generateCombs 4 3 2 = some [0b0011#4, 0b0101#4, 0b0110#4] := by decide +kernel
example : (generateHilbertSpace 4 3 2 1).map List.length = some 9 := by decide +kernel

/-! ### C11 -/

/-- C11: the single excitation sign is the parity of the electrons strictly between. -/
theorem C11_single_sign_parity (N : Nat) (s : BitVec N) (p q : Nat) (hp : p < N) (hq : q < N)
    (h : p ≠ q) :
    singleExcitationSign s p q
      = (-1) ^ ((List.range N).countP
          (fun i => s.getLsbD i && decide (min p q < i) && decide (i < max p q))) := by
  rw [singleExcitationSign_eq s hp hq h]
  congr 1
  rw [between, List.countP_eq_length_filter]
  congr 1
  apply eq_of_sorted_of_mem_iff (List.Pairwise.filter _ (List.pairwise_lt_range' ..))
    (List.Pairwise.filter _ List.pairwise_lt_range)
  intro x
  simp only [List.mem_filter, List.mem_range'_1, List.mem_range, Bool.and_eq_true, decide_eq_true_eq]
  constructor
  · rintro ⟨h1, h2⟩; exact ⟨BitVec.lt_of_getLsbD h2, ⟨h2, by omega⟩, by omega⟩
  · rintro ⟨h1, ⟨h2, h3⟩, h4⟩; exact ⟨by omega, h2⟩

/-- C11: the single excitation sign is the sign of `a†_p a_q` applied to the determinant. -/
theorem C11_single_sign_operator (N : Nat) (s : BitVec N) (p q : Nat) (hp : p < N)
    (hq : s.getLsbD q = true) (hv : s.getLsbD p = false) :
    cre p (ann q (some (1, s))) = some (singleExcitationSign s p q, flip (flip s q) p) := by
  rw [cre_ann hq hv hp, mul_one]

/-- C11: for determinants differing by one moved electron, `single_excitation_sign_indices` returns
the orbitals and the sign with `bra = sign * a†_v a_o ket`. -/
theorem C11_single_indices (N : Nat) (bra ket : BitVec N)
    (h : ExcitedWithin 1 (fun _ => True) ket bra) :
    ∃ o v sgn, singleExcitationSignIndices bra ket (bra ^^^ ket) = (o, v, sgn) ∧
      ket.getLsbD o = true ∧ bra.getLsbD v = true ∧
      cre v (ann o (some (1, ket))) = some (sgn, bra) := by
  obtain ⟨R, A, hR, hA, hRo, hAv, hk⟩ := h
  obtain ⟨x, rfl⟩ := Finset.card_eq_one.1 hR
  obtain ⟨c, rfl⟩ := Finset.card_eq_one.1 hA
  have hx := (hRo x (by simp)).2
  have hc := hAv c (by simp)
  have hcx : c ≠ x := by rintro rfl; rw [hx] at hc; simp at hc
  have hbx : bra.getLsbD x = false := by
    rw [← Bool.not_eq_true, hk]; simp [Ne.symm hcx]
  have hbc : bra.getLsbD c = true := by rw [hk]; simp
  have exb : ∀ j, (bra ^^^ ket).getLsbD j = true → j = x ∨ j = c := by
    intro j hj
    by_contra hn
    rw [not_or] at hn
    have : bra.getLsbD j = ket.getLsbD j := by
      rw [Bool.eq_iff_iff, hk]; simp [hn.1, hn.2]
    rw [BitVec.getLsbD_xor, this] at hj; simp at hj
  obtain ⟨o1, o2, _⟩ := firstOccupiedFlipped_spec (s := ket) (ex := bra ^^^ ket)
    ⟨x, hx, by rw [BitVec.getLsbD_xor, hbx, hx]; rfl⟩
  obtain ⟨v1, v2, _⟩ := firstOccupiedFlipped_spec (s := bra) (ex := bra ^^^ ket)
    ⟨c, hbc, by rw [BitVec.getLsbD_xor, hbc, hc.2.2]; rfl⟩
  have ho : firstOccupiedFlipped ket (bra ^^^ ket) = x := by
    rcases exb _ o2 with h | h
    · exact h
    · rw [h, hc.2.2] at o1; simp at o1
  have hv : firstOccupiedFlipped bra (bra ^^^ ket) = c := by
    rcases exb _ v2 with h | h
    · rw [h, hbx] at v1; simp at v1
    · exact h
  refine ⟨x, c, singleExcitationSign ket c x, by simp [singleExcitationSignIndices, ho, hv], hx, hbc,
    ?_⟩
  rw [cre_ann hx hc.2.2 hc.1, mul_one]
  congr 2
  apply BitVec.eq_of_getLsbD_eq
  intro j _
  rw [getLsbD_flip hc.1, getLsbD_flip (BitVec.lt_of_getLsbD hx), Bool.eq_iff_iff, hk]
  by_cases h1 : j = x
  · subst h1; simp [hx, hcx, Ne.symm hcx]
  · by_cases h2 : j = c
    · subst h2; simp [hc.2.2, hcx.symm]
    · simp [h1, h2, Ne.symm h1, Ne.symm h2]

/-- C11: for determinants differing by two moved electrons, `doubles_sign_indices` returns ordered
orbitals `o1 < o2`, `v1 < v2` and the sign with `bra = sign * a†_v2 a_o2 a†_v1 a_o1 ket`. -/
theorem C11_double_indices (N : Nat) (bra ket : BitVec N)
    (h : ExcitedWithin 2 (fun _ => True) ket bra) :
    ∃ o1 v1 o2 v2 sgn, doublesSignIndices bra ket (bra ^^^ ket) = (o1, v1, o2, v2, sgn) ∧
      o1 < o2 ∧ v1 < v2 ∧ ket.getLsbD o1 = true ∧ ket.getLsbD o2 = true ∧
      ket.getLsbD v1 = false ∧ ket.getLsbD v2 = false ∧
      bra.getLsbD v1 = true ∧ bra.getLsbD v2 = true ∧
      doublesSign bra ket (bra ^^^ ket) = sgn ∧
      cre v2 (ann o2 (cre v1 (ann o1 (some (1, ket))))) = some (sgn, bra) := by
  obtain ⟨R, A, hR, hA, hRo, hAv, hk⟩ := h
  -- ordered names
  have ord : ∀ S : Finset Nat, S.card = 2 → ∃ x y, x < y ∧ S = {x, y} := by
    intro S hS
    obtain ⟨x, y, hxy, rfl⟩ := Finset.card_eq_two.1 hS
    rcases Nat.lt_or_gt_of_ne hxy with h | h
    · exact ⟨x, y, h, rfl⟩
    · exact ⟨y, x, h, Finset.pair_comm x y⟩
  obtain ⟨x, y, hxy, rfl⟩ := ord R hR
  obtain ⟨c, d, hcd, rfl⟩ := ord A hA
  have hx := (hRo x (by simp)).2
  have hy := (hRo y (by simp)).2
  have hc := hAv c (by simp)
  have hd := hAv d (by simp)
  have hxN := BitVec.lt_of_getLsbD hx
  have hyN := BitVec.lt_of_getLsbD hy
  have ne : ∀ {i a : Nat}, ket.getLsbD i = true → ket.getLsbD a = false → a ≠ i := by
    rintro i a h1 h2 rfl; rw [h1] at h2; simp at h2
  have hcx := ne hx hc.2.2
  have hcy := ne hy hc.2.2
  have hdx := ne hx hd.2.2
  have hdy := ne hy hd.2.2
  have hbra : ∀ j, bra.getLsbD j = true ↔ (ket.getLsbD j = true ∧ j ≠ x ∧ j ≠ y) ∨ j = c ∨ j = d := by
    intro j; rw [hk]; simp [not_or]
  have hbx : bra.getLsbD x = false := by
    rw [← Bool.not_eq_true, hbra]; simp [hcx.symm, hdx.symm]
  have hby : bra.getLsbD y = false := by
    rw [← Bool.not_eq_true, hbra]; simp [hcy.symm, hdy.symm]
  have hbc : bra.getLsbD c = true := by rw [hbra]; simp
  have hbd : bra.getLsbD d = true := by rw [hbra]; simp
  have exb : ∀ j, (bra ^^^ ket).getLsbD j = true ↔ j = x ∨ j = y ∨ j = c ∨ j = d := by
    intro j
    rw [BitVec.getLsbD_xor]
    by_cases h1 : j = x
    · subst h1; simp [hbx, hx]
    by_cases h2 : j = y
    · subst h2; simp [hby, hy]
    by_cases h3 : j = c
    · subst h3; simp [hbc, hc.2.2]
    by_cases h4 : j = d
    · subst h4; simp [hbd, hd.2.2]
    have : bra.getLsbD j = ket.getLsbD j := by
      rw [Bool.eq_iff_iff, hbra]; simp [h1, h2, h3, h4]
    simp [this, h1, h2, h3, h4]
  have uniq : ∀ {s ex : BitVec N} {z : Nat}, s.getLsbD z = true → ex.getLsbD z = true →
      (∀ j, s.getLsbD j = true → ex.getLsbD j = true → z ≤ j) → firstOccupiedFlipped s ex = z := by
    intro s ex z h1 h2 h3
    obtain ⟨p1, p2, p3⟩ := firstOccupiedFlipped_spec ⟨z, h1, h2⟩
    have := p3 z h1 h2
    have := h3 _ p1 p2
    omega
  have e1 : firstOccupiedFlipped ket (bra ^^^ ket) = x := by
    apply uniq hx ((exb x).2 (by simp))
    intro j h1 h2
    rcases (exb j).1 h2 with rfl | rfl | rfl | rfl
    · omega
    · omega
    · rw [hc.2.2] at h1; simp at h1
    · rw [hd.2.2] at h1; simp at h1
  have e2 : firstOccupiedFlipped bra (bra ^^^ ket) = c := by
    apply uniq hbc ((exb c).2 (by simp))
    intro j h1 h2
    rcases (exb j).1 h2 with rfl | rfl | rfl | rfl
    · rw [hbx] at h1; simp at h1
    · rw [hby] at h1; simp at h1
    · omega
    · omega
  set ket' := flip (flip ket x) c with hket'
  set ex' := flip (flip (bra ^^^ ket) x) c with hex'
  have bk' : ∀ j, ket'.getLsbD j = true ↔ (ket.getLsbD j = true ∧ j ≠ x) ∨ j = c := by
    intro j
    rw [hket', getLsbD_flip hc.1, getLsbD_flip hxN]
    by_cases h1 : j = x
    · subst h1; simp [hx, hcx, hcx.symm]
    · by_cases h2 : j = c
      · subst h2; simp [hc.2.2, hcx.symm]
      · simp [h1, h2, Ne.symm h1, Ne.symm h2]
  have bex' : ∀ j, ex'.getLsbD j = true ↔ j = y ∨ j = d := by
    intro j
    rw [hex', getLsbD_flip hc.1, getLsbD_flip hxN]
    have hexj := exb j
    by_cases h1 : j = x
    · subst h1
      have : (bra ^^^ ket).getLsbD j = true := hexj.2 (by simp)
      simp only [this]
      simp [hcx, hdx.symm]; omega
    · by_cases h2 : j = c
      · subst h2
        have : (bra ^^^ ket).getLsbD j = true := hexj.2 (by simp)
        simp only [this]
        simp [hcx.symm, hcy]; omega
      · simp only [Ne.symm h1, Ne.symm h2, decide_false, Bool.xor_false]
        rw [hexj]; simp [h1, h2]
  have ky : ket'.getLsbD y = true := by rw [bk']; exact Or.inl ⟨hy, by omega⟩
  have kd : ket'.getLsbD d = false := by
    rw [← Bool.not_eq_true, bk']; simp [hd.2.2]; omega
  have e3 : firstOccupiedFlipped ket' ex' = y := by
    apply uniq ky ((bex' y).2 (by simp))
    intro j h1 h2
    rcases (bex' j).1 h2 with rfl | rfl
    · omega
    · rw [kd] at h1; simp at h1
  have e4 : firstOccupiedFlipped bra ex' = d := by
    apply uniq hbd ((bex' d).2 (by simp))
    intro j h1 h2
    rcases (bex' j).1 h2 with rfl | rfl
    · rw [hby] at h1; simp at h1
    · omega
  have hres : doublesSignIndices bra ket (bra ^^^ ket) = (x, c, y, d,
      singleExcitationSign ket c x * singleExcitationSign ket' d y) := by
    simp only [doublesSignIndices, e1, e2, ← hket', ← hex', e3, e4]
  refine ⟨x, c, y, d, _, hres, hxy, hcd, hx, hy, hc.2.2, hd.2.2, hbc, hbd,
    by rw [doublesSign, hres], ?_⟩
  rw [cre_ann hx hc.2.2 hc.1, ← hket', cre_ann ky kd hd.1]
  congr 2
  · rw [mul_one, mul_comm]
  · apply BitVec.eq_of_getLsbD_eq
    intro j _
    rw [getLsbD_flip hd.1, getLsbD_flip hyN, Bool.eq_iff_iff, hbra]
    have hkj := bk' j
    by_cases h1 : j = y
    · subst h1; simp [ky, hcy.symm, hdy, hdy.symm]
    · by_cases h2 : j = d
      · subst h2; simp [kd, hdy.symm]
      · simp only [Ne.symm h1, Ne.symm h2, decide_false, Bool.xor_false]
        rw [hkj]; simp [h1, h2]

example : doublesSignIndices (0b1100#4) (0b0011#4) (0b1111#4) = (0, 2, 1, 3, 1) := by
  decide +kernel
example : singleExcitationSign (0b0111#4) 3 0 = 1 ∧ singleExcitationSign (0b0011#4) 3 0 = -1 := by
  decide +kernel
example : ExcitedWithin 2 (fun _ => True) (0b0011#4) (0b1100#4) :=
  ⟨{0, 1}, {2, 3}, rfl, rfl, by decide, by decide, by
    intro j
    by_cases h : j < 4
    · interval_cases j <;> simp
    · rw [BitVec.getLsbD_of_ge _ _ (by omega), BitVec.getLsbD_of_ge _ _ (by omega)]
      simp; omega⟩

end Macis
