import Verif.Model.RoundHam
import Verif.Props.HamCsr
/-! The sparse Hamiltonian builder in floating point: which elements it stores (Lemmas/HamCsr.lean with rounded elements). -/
namespace Macis
open Spec
variable {M : Nat}

theorem matrixElementR_zero (rnd : ℝ → ℝ) (I : Integrals ℝ) (bra ket : BitVec (2 * M)) (h : 4 < count (bra ^^^ ket)) :
    I.matrixElementR rnd bra ket = 0 := by
  rw [← diffOrbitals_eq_count, ← count_xor_add] at h
  simp only [Integrals.matrixElementR, Integrals.matrixElementSpinR]
  rw [if_pos (by omega)]

/-- entries the ket loop appends for one bra determinant -/
noncomputable def rowEntriesR (rnd : ℝ → ℝ) (I : Integrals ℝ) (thresh : ℝ) (kets : List (BitVec (2 * M)))
    (bra : BitVec (2 * M)) : List (Nat × ℝ) :=
  (enumerate kets).filterMap fun jk =>
    if bra ≠ 0#(2*M) ∧ jk.2 ≠ 0#(2*M) ∧ |I.matrixElementR rnd bra jk.2| > thresh
    then some (jk.1, I.matrixElementR rnd bra jk.2) else none

theorem ketStep_eqR (rnd : ℝ → ℝ) (I : Integrals ℝ) {thresh : ℝ} (h0 : 0 ≤ thresh) 
    {bra : BitVec (2 * M)} (hb : bra ≠ 0#(2*M)) (st : BlockState ℝ) (jk : Nat × BitVec (2 * M)) :
    ketStepR rnd I thresh bra st jk
      = if bra ≠ 0#(2*M) ∧ jk.2 ≠ 0#(2*M) ∧ |I.matrixElementR rnd bra jk.2| > thresh then
          { st with nrow := st.nrow + 1, colind := st.colind ++ [jk.1],
                    nzval := st.nzval ++ [I.matrixElementR rnd bra jk.2] }
        else st := by
  obtain ⟨j, ket⟩ := jk
  unfold ketStepR
  dsimp only
  by_cases hk : ket = 0#(2*M)
  · simp [hk, count_eq_zero_iff]
  · simp only [ne_eq, count_eq_zero_iff, hk, hb, not_false_eq_true, true_and, if_true]
    by_cases hc : count (bra ^^^ ket) ≤ 4
    · rw [if_pos hc, loWord_xor, hiWord_xor]
      rfl
    · rw [if_neg hc, if_neg]
      rw [matrixElementR_zero rnd I bra ket (by omega)]
      simp [h0]

theorem ketFold_eqR (rnd : ℝ → ℝ) (I : Integrals ℝ) {thresh : ℝ} (h0 : 0 ≤ thresh) 
    {bra : BitVec (2 * M)} (hb : bra ≠ 0#(2*M)) (l : List (Nat × BitVec (2 * M))) (st : BlockState ℝ) :
    l.foldl (ketStepR rnd I thresh bra) st
      = let r := l.filterMap fun jk =>
          if bra ≠ 0#(2*M) ∧ jk.2 ≠ 0#(2*M) ∧ |I.matrixElementR rnd bra jk.2| > thresh
          then some (jk.1, I.matrixElementR rnd bra jk.2) else none
        { st with nrow := st.nrow + r.length, colind := st.colind ++ r.map Prod.fst,
                  nzval := st.nzval ++ r.map Prod.snd } := by
  induction l generalizing st with
  | nil => simp
  | cons x l ih =>
    rw [List.foldl_cons, ih, ketStep_eqR rnd I h0 hb]
    by_cases hx : bra ≠ 0#(2*M) ∧ x.2 ≠ 0#(2*M) ∧ |I.matrixElementR rnd bra x.2| > thresh
    · simp only [if_pos hx, List.filterMap_cons_some (f := fun jk : Nat × BitVec (2 * M) =>
        if bra ≠ 0#(2*M) ∧ jk.2 ≠ 0#(2*M) ∧ |I.matrixElementR rnd bra jk.2| > thresh
          then some (jk.1, I.matrixElementR rnd bra jk.2) else none) (if_pos hx)]
      simp
      omega
    · simp only [if_neg hx, List.filterMap_cons_none (f := fun jk : Nat × BitVec (2 * M) =>
        if bra ≠ 0#(2*M) ∧ jk.2 ≠ 0#(2*M) ∧ |I.matrixElementR rnd bra jk.2| > thresh
          then some (jk.1, I.matrixElementR rnd bra jk.2) else none) (if_neg hx)]

theorem braStep_eqR (rnd : ℝ → ℝ) (I : Integrals ℝ) {thresh : ℝ} (h0 : 0 ≤ thresh) 
    (kets : List (BitVec (2 * M))) (st : BlockState ℝ) (bra : BitVec (2 * M)) :
    braStepR rnd I thresh kets st bra
      = let r := rowEntriesR rnd I thresh kets bra
        { rowptr := st.rowptr ++ [st.rowptr.getLastD 0 + r.length]
          colind := st.colind ++ r.map Prod.fst, nzval := st.nzval ++ r.map Prod.snd
          nrow := r.length } := by
  unfold braStepR
  by_cases hb : bra = 0#(2*M)
  · have : rowEntriesR rnd I thresh kets bra = [] := by simp [rowEntriesR, hb]
    simp only [this]
    simp [hb, count_eq_zero_iff]
  · simp only [ne_eq, count_eq_zero_iff, hb, not_false_eq_true, if_true]
    rw [ketFold_eqR rnd I h0 hb]
    simp [rowEntriesR]

theorem braFold_eqR (rnd : ℝ → ℝ) (I : Integrals ℝ) {thresh : ℝ} (h0 : 0 ≤ thresh) 
    (kets : List (BitVec (2 * M))) (bras : List (BitVec (2 * M))) (st : BlockState ℝ) :
    ∃ nr, bras.foldl (braStepR rnd I thresh kets) st
      = { rowptr := st.rowptr ++ (List.range bras.length).map (fun i => st.rowptr.getLastD 0 +
            (((bras.map (rowEntriesR rnd I thresh kets)).take (i + 1)).map List.length).sum)
          colind := st.colind ++ ((bras.map (rowEntriesR rnd I thresh kets)).flatten).map Prod.fst
          nzval := st.nzval ++ ((bras.map (rowEntriesR rnd I thresh kets)).flatten).map Prod.snd
          nrow := nr } := by
  induction bras generalizing st with
  | nil => exact ⟨st.nrow, by simp⟩
  | cons b bras ih =>
    rw [List.foldl_cons]
    obtain ⟨nr, h⟩ := ih (braStepR rnd I thresh kets st b)
    refine ⟨nr, ?_⟩
    rw [h, braStep_eqR rnd I h0]
    simp only [BlockState.mk.injEq, and_true]
    refine ⟨?_, ?_, ?_⟩
    · rw [List.length_cons, List.range_succ_eq_map, List.map_cons, List.map_map, List.append_assoc,
        List.singleton_append]
      simp [Nat.add_assoc]
    · simp
    · simp

theorem csrBlock_eqR (rnd : ℝ → ℝ) (I : Integrals ℝ) {thresh : ℝ} (h0 : 0 ≤ thresh) 
    (bras kets : List (BitVec (2 * M))) :
    I.csrBlockR rnd bras kets thresh
      = csrOfRows bras.length kets.length 0 (bras.map (rowEntriesR rnd I thresh kets)) := by
  unfold Integrals.csrBlockR
  split
  · unfold Integrals.csrBlockImplR
    obtain ⟨nr, h⟩ := braFold_eqR rnd I h0 kets bras { rowptr := [0], colind := [], nzval := [], nrow := 0 }
    simp only [h, Csr.ofArrays, csrOfRows, Csr.mk.injEq, true_and]
    refine ⟨by simp, ?_, by simp, by simp⟩
    rw [List.range_succ_eq_map]
    simp [Function.comp_def]
  · rename_i h
    have he : bras.map (rowEntriesR rnd I thresh kets) = bras.map (fun _ => []) := by
      apply List.map_congr_left
      intro b hb
      have : kets = [] := by
        by_contra hk
        apply h
        constructor
        · intro e; rw [List.length_eq_zero_iff] at e; rw [e] at hb; simp at hb
        · simpa using hk
      simp [rowEntriesR, this, enumerate]
    rw [he]
    simp only [Csr.alloc, csrOfRows, Csr.mk.injEq, true_and]
    refine ⟨?_, ?_, ?_⟩
    · symm
      rw [List.eq_replicate_iff]
      refine ⟨by simp, ?_⟩
      intro b hb
      simp only [List.mem_map] at hb
      obtain ⟨i, -, rfl⟩ := hb
      rw [← List.map_take, List.map_map]
      simp [Function.comp_def]
    · simp
    · simp

theorem mem_rowEntriesR {rnd : ℝ → ℝ} {I : Integrals ℝ} {thresh : ℝ} {kets : List (BitVec (2 * M))}
    {bra : BitVec (2 * M)} {p : Nat × ℝ} :
    p ∈ rowEntriesR rnd I thresh kets bra ↔ bra ≠ 0#(2*M) ∧ ∃ h : p.1 < kets.length,
      kets[p.1] ≠ 0#(2*M) ∧ |I.matrixElementR rnd bra kets[p.1]| > thresh
        ∧ p.2 = I.matrixElementR rnd bra kets[p.1] := by
  unfold rowEntriesR
  rw [List.mem_filterMap]
  constructor
  · rintro ⟨⟨j, k⟩, hm, h⟩
    rw [enumerate_mem] at hm
    obtain ⟨hj, e⟩ := hm
    dsimp only at hj e h
    split at h
    · rename_i hc
      simp only [Option.some.injEq] at h
      subst h
      subst e
      exact ⟨hc.1, hj, hc.2.1, hc.2.2, rfl⟩
    · simp at h
  · rintro ⟨hb, hj, h1, h2, h3⟩
    refine ⟨(p.1, kets[p.1]), enumerate_mem.2 ⟨hj, rfl⟩, ?_⟩
    rw [if_pos ⟨hb, h1, h2⟩]
    simp [← h3]

theorem rowEntries_sortedR (rnd : ℝ → ℝ) (I : Integrals ℝ) (thresh : ℝ) (kets : List (BitVec (2 * M)))
    (bra : BitVec (2 * M)) : ((rowEntriesR rnd I thresh kets bra).map Prod.fst).Pairwise (· < ·) := by
  have h := enumerate_sorted kets
  rw [List.pairwise_map] at h ⊢
  unfold rowEntriesR
  rw [List.pairwise_filterMap]
  apply h.imp
  intro a b hab x hx y hy
  split at hx
  · split at hy
    · simp at hx hy; subst hx; subst hy; exact hab
    · simp at hy
  · simp at hx

theorem csrBlock_wfR (rnd : ℝ → ℝ) (I : Integrals ℝ) {thresh : ℝ} (h0 : 0 ≤ thresh)
    (bras kets : List (BitVec (2 * M))) : CsrWF (I.csrBlockR rnd bras kets thresh) := by
  rw [csrBlock_eqR rnd I h0]
  apply csrOfRows_wf (by simp)
  intro r hr p hp
  simp only [List.mem_map] at hr
  obtain ⟨b, -, rfl⟩ := hr
  obtain ⟨-, hj, -⟩ := mem_rowEntriesR.1 hp
  exact ⟨Nat.zero_le _, by omega⟩

theorem csrBlock_rowR (rnd : ℝ → ℝ) (I : Integrals ℝ) {thresh : ℝ} (h0 : 0 ≤ thresh)
    (bras kets : List (BitVec (2 * M))) {i : Nat} (hi : i < bras.length) :
    (I.csrBlockR rnd bras kets thresh).row i = rowEntriesR rnd I thresh kets bras[i] := by
  rw [csrBlock_eqR rnd I h0, csrOfRows_row (by simp) hi, List.getElem_map]

theorem csrBlock_mR (rnd : ℝ → ℝ) (I : Integrals ℝ) {thresh : ℝ} (h0 : 0 ≤ thresh)
    (bras kets : List (BitVec (2 * M))) : (I.csrBlockR rnd bras kets thresh).m = bras.length := by
  rw [csrBlock_eqR rnd I h0]; rfl

theorem csrBlock_nR (rnd : ℝ → ℝ) (I : Integrals ℝ) {thresh : ℝ} (h0 : 0 ≤ thresh)
    (bras kets : List (BitVec (2 * M))) : (I.csrBlockR rnd bras kets thresh).n = kets.length := by
  rw [csrBlock_eqR rnd I h0]; rfl

theorem csrBlock_indexingR (rnd : ℝ → ℝ) (I : Integrals ℝ) {thresh : ℝ} (h0 : 0 ≤ thresh)
    (bras kets : List (BitVec (2 * M))) : (I.csrBlockR rnd bras kets thresh).indexing = 0 := by
  rw [csrBlock_eqR rnd I h0]; rfl

theorem csrBlock_storedR (rnd : ℝ → ℝ) (I : Integrals ℝ) {thresh : ℝ} (h0 : 0 ≤ thresh)
    (bras kets : List (BitVec (2 * M))) {i j : Nat} (hi : i < bras.length) :
    csrStored (I.csrBlockR rnd bras kets thresh) i j ↔ ∃ hj : j < kets.length,
      (bras[i] ≠ 0#(2*M) ∧ kets[j] ≠ 0#(2*M) ∧ |I.matrixElementR rnd bras[i] kets[j]| > thresh) := by
  have wf := csrBlock_wfR rnd I h0 bras kets
  rw [csrStored_iff wf (by rw [csrBlock_mR rnd I h0]; exact hi), csrBlock_rowR rnd I h0 _ _ hi,
    csrBlock_indexingR rnd I h0, Nat.add_zero, List.mem_map]
  constructor
  · rintro ⟨p, hp, rfl⟩
    obtain ⟨hb, hj, hk, h, -⟩ := mem_rowEntriesR.1 hp
    exact ⟨hj, hb, hk, h⟩
  · rintro ⟨hj, hb, hk, h⟩
    exact ⟨(j, I.matrixElementR rnd bras[i] kets[j]), mem_rowEntriesR.2 ⟨hb, hj, hk, h, rfl⟩, rfl⟩

theorem csrBlock_entryR (rnd : ℝ → ℝ) (I : Integrals ℝ) {thresh : ℝ} (h0 : 0 ≤ thresh)
    (bras kets : List (BitVec (2 * M))) {i j : Nat} (hi : i < bras.length) (hj : j < kets.length) :
    csrEntry (I.csrBlockR rnd bras kets thresh) i j
      = if bras[i] ≠ 0#(2*M) ∧ kets[j] ≠ 0#(2*M) ∧ |I.matrixElementR rnd bras[i] kets[j]| > thresh
        then I.matrixElementR rnd bras[i] kets[j] else 0 := by
  have wf := csrBlock_wfR rnd I h0 bras kets
  rw [csrEntry_eq wf (by rw [csrBlock_mR rnd I h0]; exact hi), csrBlock_rowR rnd I h0 _ _ hi,
    csrBlock_indexingR rnd I h0, Nat.add_zero]
  split
  · rename_i h
    exact sum_assoc (rowEntries_sortedR _ _ _ _ _) (mem_rowEntriesR.2 ⟨h.1, hj, h.2.1, h.2.2, rfl⟩)
  · rename_i h
    apply sum_assoc_none
    rintro p hp rfl
    obtain ⟨hb, hj, hk, h', -⟩ := mem_rowEntriesR.1 hp
    exact h ⟨hb, hk, h'⟩

theorem csrBlock_sortedR (rnd : ℝ → ℝ) (I : Integrals ℝ) {thresh : ℝ} (h0 : 0 ≤ thresh)
    (bras kets : List (BitVec (2 * M))) : CsrSorted (I.csrBlockR rnd bras kets thresh) := by
  apply sorted_of_rows (csrBlock_wfR rnd I h0 bras kets)
  intro i hi
  rw [csrBlock_mR rnd I h0] at hi
  rw [csrBlock_rowR rnd I h0 _ _ hi]
  exact rowEntries_sortedR _ _ _ _ _

end Macis
