import Verif.Props.SpUtil
/-
C47: upper triangle, diagonal and trace of CSR matrices.
-/
namespace Macis
open Spec
variable {R : Type}

theorem part_ge {A : Csr R} [Zero R] (h : CsrWF A) (hs : CsrSorted A) {r : Nat} (hr : r < A.m) (b : Nat) :
    (A.row r).Pairwise fun x y =>
      decide (x.1 - A.indexing ≥ b) = true → decide (y.1 - A.indexing ≥ b) = true := by
  have := row_sorted h hs hr
  rw [List.pairwise_map] at this
  apply this.imp
  intro a c hac hc
  rw [decide_eq_true_eq] at hc ⊢
  omega

theorem upperTriangle_eq [Zero R] {A : Csr R} (h : CsrWF A) (hs : CsrSorted A) :
    A.upperTriangle = csrOfRows A.m A.n A.indexing
      ((List.range A.m).map fun i =>
        ((A.row i).filter fun p => decide (p.1 - A.indexing ≥ i)).map fun p => (p.1, p.2)) := by
  have hmid : ∀ i < A.m, ∀ {β : Type} (f : Nat × R → β),
      ((A.row i).map f).drop (findIdx (fun j => decide (j - A.indexing ≥ i)) ((A.row i).map Prod.fst))
      = ((A.row i).filter fun p => decide (p.1 - A.indexing ≥ i)).map f := by
    intro i hi β f
    unfold findIdx
    rw [findIdx_map, ← List.map_drop, drop_findIdx _ _ (part_ge h hs hi i)]
  unfold Csr.upperTriangle
  dsimp only
  rw [buildCsr_eq _ _ _ _ _ _ _ (by simp) rfl
    (by
      intro i hi
      simp only [List.getElem_map, List.getElem_range]
      rw [Csr.rowCols_eq h hi, hmid i hi, List.length_map, List.countP_map,
        List.countP_eq_length_filter]
      rfl)
    (by
      intro i hi
      rw [Csr.rowCols_eq h hi, Csr.rowVals_eq h hi, hmid i hi, hmid i hi]
      simp)]
  congr 1
  apply List.map_congr_left
  intro i hi
  rw [List.mem_range] at hi
  rw [Csr.rowCols_eq h hi, Csr.rowVals_eq h hi, hmid i hi, hmid i hi, zip_fst_snd]
  simp

/-- C47 (triangle): for every well-formed CSR matrix with sorted rows, of any shape and index base,
`extract_upper_triangle` returns a well-formed sorted matrix of the same shape which stores exactly
the stored positions with column at least row, with the same values. -/
theorem C47_upper_triangle [AddCommMonoid R] (A : Csr R) (h : CsrWF A) (hs : CsrSorted A) :
    let U := A.upperTriangle
    CsrWF U ∧ CsrSorted U ∧ U.indexing = A.indexing ∧ U.m = A.m ∧ U.n = A.n ∧
    ∀ i < A.m, ∀ j < A.n,
      csrEntry U i j = (if i ≤ j then csrEntry A i j else 0) ∧
      (csrStored U i j ↔ csrStored A i j ∧ i ≤ j) := by
  intro B
  have hB : B = _ := upperTriangle_eq h hs
  set rows := (List.range A.m).map fun i =>
        ((A.row i).filter fun p => decide (p.1 - A.indexing ≥ i)).map fun p => (p.1, p.2) with hrows
  have hm : rows.length = A.m := by simp [hrows]
  have hmem : ∀ i (hi : i < A.m), rows[i]'(by omega) =
      ((A.row i).filter fun p => decide (p.1 - A.indexing ≥ i)).map fun p => (p.1, p.2) := by
    intro i hi; simp [hrows]
  have hr : ∀ r ∈ rows, ∀ p ∈ r, A.indexing ≤ p.1 ∧ p.1 < A.indexing + A.n := by
    intro r hr p hp
    obtain ⟨i, hi, rfl⟩ := List.mem_iff_getElem.1 hr
    rw [hmem i (by omega), List.mem_map] at hp
    obtain ⟨q, hq, rfl⟩ := hp
    rw [List.mem_filter, decide_eq_true_eq] at hq
    exact row_col_range h (i := i) (by omega) hq.1
  have hw : CsrWF B := hB ▸ csrOfRows_wf hm hr
  refine ⟨hw, ?_, ?_, ?_, ?_, ?_⟩
  · rw [hB]
    apply csrOfRows_sorted hm hr
    intro r hr
    obtain ⟨i, hi, rfl⟩ := List.mem_iff_getElem.1 hr
    rw [hmem i (by omega), List.map_map, List.pairwise_map]
    have := row_sorted h hs (i := i) (by omega)
    rw [List.pairwise_map] at this
    exact this.filter _
  · rw [hB]; rfl
  · rw [hB]; rfl
  · rw [hB]; rfl
  · intro i hi j hj
    constructor
    · rw [hB, csrOfRows_filter_entry h _ _ _ rows hm hr hi (r := i) (by omega)
        (fun c => c - A.indexing ≥ i) (fun c => c) (hmem i hi)
        (c := j) (by intro p hp hq; exact Iff.rfl)]
      by_cases hc : i ≤ j
      · rw [if_pos hc, if_pos (by omega)]
      · rw [if_neg hc, if_neg (by omega)]
    · rw [csrStored_iff hw (by rw [hB]; exact hi), csrStored_iff h (by omega)]
      have e1 : B.row i = rows[i]'(by omega) := by rw [hB]; exact csrOfRows_row hm hi
      have e2 : B.indexing = A.indexing := by rw [hB]; rfl
      rw [e1, e2, hmem i hi, List.map_map]
      simp only [List.mem_map, List.mem_filter, decide_eq_true_eq, Function.comp]
      constructor
      · rintro ⟨p, ⟨hp, hq⟩, e⟩
        exact ⟨⟨p, hp, e⟩, by omega⟩
      · rintro ⟨⟨p, hp, e⟩, hc⟩
        exact ⟨p, ⟨hp, by omega⟩, e⟩

/-- looking a key up with `std::find` in a list without repeated keys, 0 when absent -/
theorem find_value [AddCommMonoid R] (l : List (Nat × R)) (c : Nat) (hnd : (l.map Prod.fst).Nodup) :
    (if findIdx (fun j => decide (j = c)) (l.map Prod.fst) ≠ (l.map Prod.fst).length
      then (l.map Prod.snd).getD (findIdx (fun j => decide (j = c)) (l.map Prod.fst)) 0 else 0)
      = (l.map fun p => if p.1 = c then p.2 else 0).sum := by
  unfold findIdx
  induction l with
  | nil => simp
  | cons a l ih =>
    rw [List.map_cons, List.nodup_cons] at hnd
    rw [List.map_cons, List.map_cons, List.map_cons, List.sum_cons, List.findIdx_cons]
    by_cases hc : a.1 = c
    · have : ∀ x ∈ l.map (fun p => if p.1 = c then p.2 else 0), x = 0 := by
        intro x hx
        rw [List.mem_map] at hx
        obtain ⟨p, hp, rfl⟩ := hx
        rw [if_neg]
        intro e
        exact hnd.1 (by rw [hc, ← e]; exact List.mem_map_of_mem hp)
      rw [List.sum_eq_zero this]
      simp [hc]
    · have hd : decide (a.1 = c) = false := decide_eq_false hc
      rw [if_neg hc, zero_add, ← ih hnd.2, hd, cond_false, List.length_cons, List.getD_cons_succ]
      simp only [ne_eq, Nat.add_right_cancel_iff]

/-- C47 (diagonal): for every well-formed CSR matrix without repeated positions (sorted or not),
of any shape, entry `i` of `extract_diagonal_elements` is the matrix entry `(i,i)`, whether or not
it is stored. -/
theorem C47_diagonal [AddCommMonoid R] (A : Csr R) (h : CsrWF A)
    (hnd : ∀ i < A.m, (A.rowCols i).Nodup) :
    A.diagonal.length = A.m ∧ ∀ i < A.m, A.diagonal.getD i 0 = csrEntry A i i := by
  refine ⟨by simp [Csr.diagonal], ?_⟩
  intro i hi
  have hn := hnd i hi
  unfold Csr.diagonal
  simp only [List.getD_eq_getElem?_getD, List.getElem?_map, List.getElem?_range hi, Option.map_some,
    Option.getD_some]
  rw [csrEntry_eq h hi]
  rw [Csr.rowCols_eq h hi] at hn ⊢
  rw [Csr.rowVals_eq h hi]
  simpa [List.getD_eq_getElem?_getD] using find_value (A.row i) (i + A.indexing) hn

/-- C47 (trace): `trace` is the sum of the diagonal entries. -/
theorem C47_trace [AddCommMonoid R] (A : Csr R) (h : CsrWF A)
    (hnd : ∀ i < A.m, (A.rowCols i).Nodup) :
    A.trace = ∑ i ∈ Finset.range A.m, csrEntry A i i := by
  have key : ∀ k ≤ A.m, (List.range k).foldl (fun tr i =>
      let off := findIdx (fun j => decide (j = i + A.indexing)) (A.rowCols i)
      if off ≠ (A.rowCols i).length then tr + (A.rowVals i).getD off 0 else tr) 0
      = ∑ i ∈ Finset.range k, csrEntry A i i := by
    intro k
    induction k with
    | zero => intro _; rfl
    | succ k ih =>
      intro hk
      have hi : k < A.m := by omega
      have hn := hnd k hi
      rw [List.range_succ, List.foldl_append, ih (by omega), Finset.sum_range_succ]
      simp only [List.foldl_cons, List.foldl_nil]
      rw [csrEntry_eq h hi]
      rw [Csr.rowCols_eq h hi] at hn ⊢
      rw [Csr.rowVals_eq h hi, ← find_value (A.row k) (k + A.indexing) hn]
      split <;> simp
  exact key A.m le_rfl

/-- sorted rows are duplicate-free, so the two theorems above apply to the matrices of C47 -/
theorem sorted_rowCols_nodup [Zero R] {A : Csr R} (h : CsrWF A) (hs : CsrSorted A) :
    ∀ i < A.m, (A.rowCols i).Nodup := by
  intro i hi
  rw [Csr.rowCols_eq h hi]
  exact (row_sorted h hs hi).imp fun hab => Nat.ne_of_lt hab

example : exCsr34.upperTriangle
    = { m := 3, n := 4, indexing := 1, rowptr := [1, 4, 4, 5], colind := [1, 3, 4, 4],
        nzval := [1, 2, 3, 5] } := by decide +kernel

example : exCsr34.diagonal = [1, 0, 0] ∧ exCsr34.trace = 1 := by decide +kernel

example : ∀ i < exCsr34.m, (exCsr34.rowCols i).Nodup := sorted_rowCols_nodup exCsr34_wf exCsr34_sorted

/-- C47 needs sorted rows for the triangle: on an unsorted row the count and the copied range
disagree, and an entry below the diagonal shows up. -/
theorem C47_needs_sorted_rows :
    ∃ A : Csr Int, CsrWF A ∧ (∀ i < A.m, (A.rowCols i).Nodup) ∧ csrEntry A 1 2 = 7 ∧
      csrEntry A.upperTriangle 1 2 = 0 ∧ csrEntry A.upperTriangle 1 0 = 6 :=
  ⟨{ m := 2, n := 3, indexing := 0, rowptr := [0, 0, 3], colind := [1, 0, 2], nzval := [5, 6, 7] },
   ⟨rfl, rfl, by decide, rfl, rfl, by decide⟩, by decide, by decide +kernel, by decide +kernel,
   by decide +kernel⟩

end Macis
