import Verif.Lemmas.Sparse
import Verif.Lemmas.Diag
import Verif.Props.Ham
import Verif.Model.HamCsr
import Mathlib.Algebra.Order.Field.Basic
namespace Macis
open Spec
variable {R : Type} [Field R] [LinearOrder R] {M : Nat}

theorem loWord_xor (a b : BitVec (2 * M)) : loWord (a ^^^ b) = loWord a ^^^ loWord b := by
  apply BitVec.eq_of_getLsbD_eq
  intro i hi
  rw [BitVec.getLsbD_xor]; simp only [getLsbD_loWord, BitVec.getLsbD_xor, hi]; simp

theorem hiWord_xor (a b : BitVec (2 * M)) : hiWord (a ^^^ b) = hiWord a ^^^ hiWord b := by
  apply BitVec.eq_of_getLsbD_eq
  intro i hi
  rw [BitVec.getLsbD_xor]; simp only [getLsbD_hiWord, BitVec.getLsbD_xor, hi]; simp

theorem diffOrbitals_eq_count (a b : BitVec (2 * M)) : diffOrbitals a b = count (a ^^^ b) := by
  rw [count_eq_length, occ, diffOrbitals]
  congr 1
  apply List.filter_congr
  intro x hx
  simp

/-- entries the ket loop appends for one bra determinant -/
def rowEntries (I : Integrals R) (thresh : R) (kets : List (BitVec (2 * M)))
    (bra : BitVec (2 * M)) : List (Nat × R) :=
  (enumerate kets).filterMap fun jk =>
    if bra ≠ 0#(2*M) ∧ jk.2 ≠ 0#(2*M) ∧ |I.matrixElement bra jk.2| > thresh
    then some (jk.1, I.matrixElement bra jk.2) else none

theorem ketStep_eq (I : Integrals R) {thresh : R} (h0 : 0 ≤ thresh) [IsOrderedAddMonoid R]
    {bra : BitVec (2 * M)} (hb : bra ≠ 0#(2*M)) (st : BlockState R) (jk : Nat × BitVec (2 * M)) :
    ketStep I thresh bra st jk
      = if bra ≠ 0#(2*M) ∧ jk.2 ≠ 0#(2*M) ∧ |I.matrixElement bra jk.2| > thresh then
          { st with nrow := st.nrow + 1, colind := st.colind ++ [jk.1],
                    nzval := st.nzval ++ [I.matrixElement bra jk.2] }
        else st := by
  obtain ⟨j, ket⟩ := jk
  unfold ketStep
  dsimp only
  by_cases hk : ket = 0#(2*M)
  · simp [hk, count_eq_zero_iff]
  · simp only [ne_eq, count_eq_zero_iff, hk, hb, not_false_eq_true, true_and, if_true]
    by_cases hc : count (bra ^^^ ket) ≤ 4
    · rw [if_pos hc, loWord_xor, hiWord_xor]
      rfl
    · rw [if_neg hc, if_neg]
      rw [C15_zero_beyond_doubles M I bra ket (by rw [diffOrbitals_eq_count]; omega)]
      simp [h0]

theorem ketFold_eq (I : Integrals R) {thresh : R} (h0 : 0 ≤ thresh) [IsOrderedAddMonoid R]
    {bra : BitVec (2 * M)} (hb : bra ≠ 0#(2*M)) (l : List (Nat × BitVec (2 * M))) (st : BlockState R) :
    l.foldl (ketStep I thresh bra) st
      = let r := l.filterMap fun jk =>
          if bra ≠ 0#(2*M) ∧ jk.2 ≠ 0#(2*M) ∧ |I.matrixElement bra jk.2| > thresh
          then some (jk.1, I.matrixElement bra jk.2) else none
        { st with nrow := st.nrow + r.length, colind := st.colind ++ r.map Prod.fst,
                  nzval := st.nzval ++ r.map Prod.snd } := by
  induction l generalizing st with
  | nil => simp
  | cons x l ih =>
    rw [List.foldl_cons, ih, ketStep_eq I h0 hb]
    by_cases hx : bra ≠ 0#(2*M) ∧ x.2 ≠ 0#(2*M) ∧ |I.matrixElement bra x.2| > thresh
    · simp only [if_pos hx, List.filterMap_cons_some (f := fun jk : Nat × BitVec (2 * M) =>
        if bra ≠ 0#(2*M) ∧ jk.2 ≠ 0#(2*M) ∧ |I.matrixElement bra jk.2| > thresh
          then some (jk.1, I.matrixElement bra jk.2) else none) (if_pos hx)]
      simp
      omega
    · simp only [if_neg hx, List.filterMap_cons_none (f := fun jk : Nat × BitVec (2 * M) =>
        if bra ≠ 0#(2*M) ∧ jk.2 ≠ 0#(2*M) ∧ |I.matrixElement bra jk.2| > thresh
          then some (jk.1, I.matrixElement bra jk.2) else none) (if_neg hx)]

theorem braStep_eq (I : Integrals R) {thresh : R} (h0 : 0 ≤ thresh) [IsOrderedAddMonoid R]
    (kets : List (BitVec (2 * M))) (st : BlockState R) (bra : BitVec (2 * M)) :
    braStep I thresh kets st bra
      = let r := rowEntries I thresh kets bra
        { rowptr := st.rowptr ++ [st.rowptr.getLastD 0 + r.length]
          colind := st.colind ++ r.map Prod.fst, nzval := st.nzval ++ r.map Prod.snd
          nrow := r.length } := by
  unfold braStep
  by_cases hb : bra = 0#(2*M)
  · have : rowEntries I thresh kets bra = [] := by simp [rowEntries, hb]
    simp only [this]
    simp [hb, count_eq_zero_iff]
  · simp only [ne_eq, count_eq_zero_iff, hb, not_false_eq_true, if_true]
    rw [ketFold_eq I h0 hb]
    simp [rowEntries]

theorem braFold_eq (I : Integrals R) {thresh : R} (h0 : 0 ≤ thresh) [IsOrderedAddMonoid R]
    (kets : List (BitVec (2 * M))) (bras : List (BitVec (2 * M))) (st : BlockState R) :
    ∃ nr, bras.foldl (braStep I thresh kets) st
      = { rowptr := st.rowptr ++ (List.range bras.length).map (fun i => st.rowptr.getLastD 0 +
            (((bras.map (rowEntries I thresh kets)).take (i + 1)).map List.length).sum)
          colind := st.colind ++ ((bras.map (rowEntries I thresh kets)).flatten).map Prod.fst
          nzval := st.nzval ++ ((bras.map (rowEntries I thresh kets)).flatten).map Prod.snd
          nrow := nr } := by
  induction bras generalizing st with
  | nil => exact ⟨st.nrow, by simp⟩
  | cons b bras ih =>
    rw [List.foldl_cons]
    obtain ⟨nr, h⟩ := ih (braStep I thresh kets st b)
    refine ⟨nr, ?_⟩
    rw [h, braStep_eq I h0]
    simp only [BlockState.mk.injEq, and_true]
    refine ⟨?_, ?_, ?_⟩
    · rw [List.length_cons, List.range_succ_eq_map, List.map_cons, List.map_map, List.append_assoc,
        List.singleton_append]
      simp [Nat.add_assoc]
    · simp
    · simp

theorem csrBlock_eq (I : Integrals R) {thresh : R} (h0 : 0 ≤ thresh) [IsOrderedAddMonoid R]
    (bras kets : List (BitVec (2 * M))) :
    I.csrBlock bras kets thresh
      = csrOfRows bras.length kets.length 0 (bras.map (rowEntries I thresh kets)) := by
  unfold Integrals.csrBlock
  split
  · unfold Integrals.csrBlockImpl
    obtain ⟨nr, h⟩ := braFold_eq I h0 kets bras { rowptr := [0], colind := [], nzval := [], nrow := 0 }
    simp only [h, Csr.ofArrays, csrOfRows, Csr.mk.injEq, true_and]
    refine ⟨by simp, ?_, by simp, by simp⟩
    rw [List.range_succ_eq_map]
    simp [Function.comp_def]
  · rename_i h
    have he : bras.map (rowEntries I thresh kets) = bras.map (fun _ => []) := by
      apply List.map_congr_left
      intro b hb
      have : kets = [] := by
        by_contra hk
        apply h
        constructor
        · intro e; rw [List.length_eq_zero_iff] at e; rw [e] at hb; simp at hb
        · simpa using hk
      simp [rowEntries, this, enumerate]
    rw [he]
    simp only [Csr.alloc, csrOfRows, Csr.mk.injEq, true_and]
    refine ⟨?_, ?_, ?_⟩
    · symm
      rw [List.eq_replicate_iff]
      refine ⟨by simp, ?_⟩
      intro b hb
      simp only [List.mem_map] at hb
      obtain ⟨i, -, rfl⟩ := hb
      rw [← List.map_take, List.map_map]
      simp [Function.comp_def]
    · simp
    · simp

theorem enumerate_mem {α : Type} {l : List α} {p : Nat × α} :
    p ∈ enumerate l ↔ ∃ h : p.1 < l.length, l[p.1] = p.2 := by
  unfold enumerate
  rw [List.mem_iff_getElem]
  constructor
  · rintro ⟨i, hi, rfl⟩
    simp at hi
    simpa using hi
  · rintro ⟨h, e⟩
    exact ⟨p.1, by simpa using h, by simp [e]⟩

theorem mem_rowEntries {I : Integrals R} {thresh : R} {kets : List (BitVec (2 * M))}
    {bra : BitVec (2 * M)} {p : Nat × R} :
    p ∈ rowEntries I thresh kets bra ↔ bra ≠ 0#(2*M) ∧ ∃ h : p.1 < kets.length,
      kets[p.1] ≠ 0#(2*M) ∧ |I.matrixElement bra kets[p.1]| > thresh
        ∧ p.2 = I.matrixElement bra kets[p.1] := by
  unfold rowEntries
  rw [List.mem_filterMap]
  constructor
  · rintro ⟨⟨j, k⟩, hm, h⟩
    rw [enumerate_mem] at hm
    obtain ⟨hj, e⟩ := hm
    dsimp only at hj e h
    split at h
    · rename_i hc
      simp only [Option.some.injEq] at h
      subst h
      subst e
      exact ⟨hc.1, hj, hc.2.1, hc.2.2, rfl⟩
    · simp at h
  · rintro ⟨hb, hj, h1, h2, h3⟩
    refine ⟨(p.1, kets[p.1]), enumerate_mem.2 ⟨hj, rfl⟩, ?_⟩
    rw [if_pos ⟨hb, h1, h2⟩]
    simp [← h3]

theorem enumerate_sorted {α : Type} (l : List α) : ((enumerate l).map Prod.fst).Pairwise (· < ·) := by
  unfold enumerate
  rw [List.map_fst_zip (by simp)]
  exact List.pairwise_lt_range

theorem rowEntries_sorted (I : Integrals R) (thresh : R) (kets : List (BitVec (2 * M)))
    (bra : BitVec (2 * M)) : ((rowEntries I thresh kets bra).map Prod.fst).Pairwise (· < ·) := by
  have h := enumerate_sorted kets
  rw [List.pairwise_map] at h ⊢
  unfold rowEntries
  rw [List.pairwise_filterMap]
  apply h.imp
  intro a b hab x hx y hy
  split at hx
  · split at hy
    · simp at hx hy; subst hx; subst hy; exact hab
    · simp at hy
  · simp at hx

/-- sum over a key-sorted association list picks the value of the key -/
theorem sum_assoc {S : Type} [AddCommMonoid S] {l : List (Nat × S)}
    (hs : (l.map Prod.fst).Pairwise (· < ·)) {j : Nat} {v : S} (hm : (j, v) ∈ l) :
    (l.map fun p => if p.1 = j then p.2 else 0).sum = v := by
  induction l with
  | nil => simp at hm
  | cons x l ih =>
    rw [List.map_cons, List.pairwise_cons] at hs
    rw [List.map_cons, List.sum_cons]
    rcases List.mem_cons.1 hm with h | h
    · subst h
      have : (l.map fun p => if p.1 = j then p.2 else 0).sum = 0 := by
        apply List.sum_eq_zero
        intro y hy
        simp only [List.mem_map] at hy
        obtain ⟨p, hp, rfl⟩ := hy
        have := hs.1 p.1 (List.mem_map_of_mem hp)
        rw [if_neg (by dsimp only at this; omega)]
      simp [this]
    · have := hs.1 j (List.mem_map.2 ⟨(j, v), h, rfl⟩)
      rw [if_neg (by omega), ih hs.2 h, zero_add]

theorem sum_assoc_none {S : Type} [AddCommMonoid S] {l : List (Nat × S)}
    {j : Nat} (hm : ∀ p ∈ l, p.1 ≠ j) :
    (l.map fun p => if p.1 = j then p.2 else 0).sum = 0 := by
  apply List.sum_eq_zero
  intro y hy
  simp only [List.mem_map] at hy
  obtain ⟨p, hp, rfl⟩ := hy
  rw [if_neg (hm p hp)]

end Macis
