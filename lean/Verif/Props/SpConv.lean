import Verif.Lemmas.SpConv
import Verif.Lemmas.SpBlas
/-
C43: conversions between sparse formats (CSC → CSR, CSR → COO, COO → CSR, COO → CSC);
C56: conversion to dense; C57: sorting and triangle expansion of COO matrices.
-/
namespace Macis
open Spec
variable {R : Type}

/-! ### CSC → CSR -/

/-- a CSC matrix read as the CSR storage of its transpose -/
def Csc.tr (A : Csc R) : Csr R :=
  { m := A.n, n := A.m, indexing := A.indexing, rowptr := A.colptr, colind := A.rowind,
    nzval := A.nzval }

theorem Csc.tr_wf {A : Csc R} (h : CscWF A) : CsrWF A.tr :=
  ⟨h.colptr_length, h.colptr_first, h.colptr_mono, h.colptr_last, h.rowind_length, h.row_range⟩

theorem Csr.ofCsc_eq [Zero R] {A : Csc R} (h : CscWF A) :
    Csr.ofCsc A = csrOfRows A.m A.n A.indexing (transRows A.tr) :=
  csrToCsc_spec (Csc.tr_wf h) _

/-- C43 (CSC → CSR): for every well-formed CSC matrix, of any shape, index base and sparsity pattern,
the CSR matrix is well formed and denotes the same matrix; if no position is stored twice and the
rows are sorted in every column then the columns are sorted in every row. -/
theorem C43_csc_to_csr [AddCommMonoid R] (A : Csc R) (h : CscWF A) :
    CsrWF (Csr.ofCsc A) ∧ (Csr.ofCsc A).m = A.m ∧ (Csr.ofCsc A).n = A.n ∧
    (Csr.ofCsc A).indexing = A.indexing ∧
    ∀ i < A.m, ∀ j < A.n, csrEntry (Csr.ofCsc A) i j = cscEntry A i j := by
  have hm : (transRows A.tr).length = A.m := by simp [transRows, Csc.tr]
  rw [Csr.ofCsc_eq h]
  refine ⟨csrOfRows_wf hm transRows_range, rfl, rfl, rfl, ?_⟩
  intro i hi j hj
  exact transRows_entry (Csc.tr_wf h) hi hj

/-- C43 (CSC → CSR), order: columns come out strictly increasing in every row as soon as no position
is stored twice. -/
theorem C43_csc_to_csr_sorted [AddCommMonoid R] (A : Csc R) (h : CscWF A)
    (hs : ∀ j < A.n, ∀ k l, A.colptr.getD j 0 ≤ k + A.indexing → k < l →
      l + A.indexing < A.colptr.getD (j + 1) 0 → A.rowind.getD k 0 ≠ A.rowind.getD l 0) :
    CsrSorted (Csr.ofCsc A) := by
  have hw := (C43_csc_to_csr A h).1
  apply sorted_of_rows hw
  have hm : (transRows A.tr).length = A.m := by simp [transRows, Csc.tr]
  rw [Csr.ofCsc_eq h]
  intro i hi
  change i < A.m at hi
  rw [csrOfRows_row hm hi]
  simp only [transRows, List.getElem_map, List.getElem_range, List.map_map, Function.comp_def]
  have ht := Csc.tr_wf h
  -- inside `csrEntries` pairs of equal second index have increasing first index
  have hp : (csrEntries A.tr).Pairwise fun a b => a.2.1 = b.2.1 → a.1 < b.1 := by
    unfold csrEntries
    rw [List.pairwise_flatMap]
    constructor
    · intro j hj
      rw [List.mem_range] at hj
      rw [Csr.row_eq ht hj, List.map_map, List.pairwise_map]
      apply List.Pairwise.imp_of_mem _ List.pairwise_lt_range
      intro a b ha hb hab e
      exfalso
      simp only [Function.comp] at e
      rw [List.mem_range] at ha hb
      have h1 := CsrWFL.ge_idx ht (i := j) (by omega)
      have h2 := CsrWFL.le_last ht (i := j + 1) (by omega)
      have h3 := ht.rowptr_mono j hj
      unfold Csr.rp at ha hb e
      have hl := ht.colind_length
      have r1 := ht.col_range (A.tr.colind.getD (A.tr.rowptr.getD j 0 - A.tr.indexing + a) 0) (by
        rw [List.getD_eq_getElem _ _ (by omega)]; exact List.getElem_mem _)
      have r2 := ht.col_range (A.tr.colind.getD (A.tr.rowptr.getD j 0 - A.tr.indexing + b) 0) (by
        rw [List.getD_eq_getElem _ _ (by omega)]; exact List.getElem_mem _)
      have key := hs j hj (A.tr.rowptr.getD j 0 - A.tr.indexing + a)
        (A.tr.rowptr.getD j 0 - A.tr.indexing + b)
        (by show A.tr.rowptr.getD j 0 ≤ _ + A.tr.indexing; omega) (by omega)
        (by show _ + A.tr.indexing < A.tr.rowptr.getD (j + 1) 0; omega)
      apply key
      show A.tr.colind.getD _ 0 = A.tr.colind.getD _ 0
      omega
    · apply List.Pairwise.imp _ List.pairwise_lt_range
      intro a b hab x hx y hy _
      rw [List.mem_map] at hx hy
      obtain ⟨p, -, rfl⟩ := hx
      obtain ⟨q, -, rfl⟩ := hy
      exact hab
  rw [List.pairwise_map]
  have := hp.filter fun e : Nat × Nat × R => e.2.1 == i
  apply List.Pairwise.imp_of_mem _ this
  intro a b ha hb hab
  have ha' : a.2.1 = i := by simpa using (List.mem_filter.1 ha).2
  have hb' : b.2.1 = i := by simpa using (List.mem_filter.1 hb).2
  have := hab (by omega)
  omega

/-- a 2x3 one-based example with an empty row part -/
example : Csr.ofCsc (
    { m := 2, n := 3, indexing := 1, colptr := [1, 3, 3, 5], rowind := [1, 2, 1, 2],
      nzval := [10, 20, 30, 40] } : Csc Int)
    = { m := 2, n := 3, indexing := 1, rowptr := [1, 3, 5], colind := [1, 3, 1, 3],
        nzval := [10, 30, 20, 40] } := by decide +kernel

/-! ### CSR → COO -/

theorem ofCsr_rowind [Zero R] {A : Csr R} (h : CsrWF A) :
    (Coo.ofCsr A).rowind = (csrPositions A.indexing A.m A.rowptr).map fun ij => ij.1 + A.indexing := by
  unfold Coo.ofCsr csrPositions
  dsimp only
  rw [List.map_flatMap]
  apply List.flatMap_congr
  intro i hi
  rw [List.mem_range] at hi
  have h1 := CsrWFL.ge_idx h (i := i) (by omega)
  have h3 := h.rowptr_mono i hi
  rw [List.map_map]
  apply List.ext_getElem
  · generalize A.rowptr.getD i 0 = a at h1 h3 ⊢
    generalize A.rowptr.getD (i + 1) 0 = b at h1 h3 ⊢
    simp; omega
  · intro k hk hk'
    simp

/-- C43 (CSR → COO): every well-formed CSR matrix is converted to a well-formed, row-sorted COO
matrix denoting the same matrix. -/
theorem C43_csr_to_coo [AddCommMonoid R] (A : Csr R) (h : CsrWF A) :
    CooWF (Coo.ofCsr A) ∧ (Coo.ofCsr A).m = A.m ∧ (Coo.ofCsr A).n = A.n ∧
    (Coo.ofCsr A).indexing = A.indexing ∧ (Coo.ofCsr A).rowind.Pairwise (· ≤ ·) ∧
    ∀ i < A.m, ∀ j < A.n, cooEntry (Coo.ofCsr A) i j = csrEntry A i j := by
  have hri := ofCsr_rowind h
  have hlen : (csrPositions A.indexing A.m A.rowptr).length = A.nzval.length := by
    rw [← List.length_map (f := Prod.snd), csrPositions_snd h, List.length_range]
  have hmem : ∀ ij ∈ csrPositions A.indexing A.m A.rowptr, ij.1 < A.m := by
    intro ij hij
    simp only [csrPositions, List.mem_flatMap, List.mem_range, List.mem_map] at hij
    obtain ⟨i, hi, k, -, rfl⟩ := hij
    exact hi
  refine ⟨⟨rfl, ?_, h.colind_length, ?_, h.col_range⟩, rfl, rfl, rfl, ?_, ?_⟩
  · rw [hri, List.length_map, hlen]; rfl
  · intro c hc
    rw [hri, List.mem_map] at hc
    obtain ⟨ij, hij, rfl⟩ := hc
    have := hmem ij hij
    show A.indexing ≤ _ ∧ _ < A.indexing + A.m
    omega
  · rw [hri, List.pairwise_map]
    unfold csrPositions
    rw [List.pairwise_flatMap]
    constructor
    · intro i _
      rw [List.pairwise_map]
      exact List.pairwise_of_forall fun _ _ => le_rfl
    · apply List.Pairwise.imp _ List.pairwise_lt_range
      intro a b hab x hx y hy
      rw [List.mem_map] at hx hy
      obtain ⟨p, -, rfl⟩ := hx
      obtain ⟨q, -, rfl⟩ := hy
      dsimp only; omega
  · intro i hi j hj
    rw [← csrEntries_sum h hi, ← csrPositions_map h, List.map_map]
    unfold cooEntry
    rw [← sum_map_range]
    show ((List.range A.nzval.length).map _).sum = _
    rw [← csrPositions_snd h, List.map_map]
    congr 1
    apply List.ext_getElem
    · simp
    · intro k hk hk'
      rw [List.length_map] at hk
      simp only [List.getElem_map, Function.comp]
      have hsnd : (csrPositions A.indexing A.m A.rowptr)[k].2 = k := by
        have h1 : ((csrPositions A.indexing A.m A.rowptr).map Prod.snd)[k]'(by simpa using hk)
            = k := by
          simp only [csrPositions_snd h, List.getElem_range]
        simpa using h1
      simp only [hsnd]
      have hr1 : (Coo.ofCsr A).rowind.getD k 0
          = (csrPositions A.indexing A.m A.rowptr)[k].1 + A.indexing := by
        rw [hri, List.getD_eq_getElem _ _ (by simpa using hk), List.getElem_map]
      have hcr : A.indexing ≤ A.colind.getD k 0 := by
        have hk2 : k < A.colind.length := by rw [h.colind_length, ← hlen]; exact hk
        rw [List.getD_eq_getElem _ _ hk2]
        exact (h.col_range _ (List.getElem_mem hk2)).1
      rw [hr1]
      show (if _ ∧ A.colind.getD k 0 = j + A.indexing then A.nzval.getD k 0 else 0) = _
      have : ((csrPositions A.indexing A.m A.rowptr)[k].1 + A.indexing = i + (Coo.ofCsr A).indexing
          ∧ A.colind.getD k 0 = j + A.indexing) ↔
          ((csrPositions A.indexing A.m A.rowptr)[k].1 = i ∧ A.colind.getD k 0 - A.indexing = j) := by
        show (_ = i + A.indexing ∧ _) ↔ _
        omega
      simp only [this]

example : Coo.ofCsr (
    { m := 3, n := 3, indexing := 1, rowptr := [1, 3, 3, 4], colind := [1, 3, 2],
      nzval := [5, 6, 7] } : Csr Int)
    = { m := 3, n := 3, nnz := 3, indexing := 1, rowind := [1, 1, 3], colind := [1, 3, 2],
        nzval := [5, 6, 7] } := by decide +kernel

/-! ### COO → CSR, COO → CSC -/

theorem ptr_entry [AddCommMonoid R] (idx d : Nat) (ind oth : List Nat) (nz : List R)
    (hs : ind.Pairwise (· ≤ ·)) (hl : ind.length = nz.length) (ptr : List Nat) {i : Nat} (hi : i < d)
    (hp : ∀ r ≤ d, ptr.getD r 0 = idx + ind.countP (fun x => decide (x < r + idx))) (j : Nat) :
    (∑ k ∈ Finset.Ico (ptr.getD i 0 - idx) (ptr.getD (i + 1) 0 - idx),
      if oth.getD k 0 = j + idx then nz.getD k 0 else 0)
      = ∑ k ∈ Finset.range nz.length,
        if ind.getD k 0 = i + idx ∧ oth.getD k 0 = j + idx then nz.getD k 0 else 0 := by
  rw [hp i (by omega), hp (i + 1) (by omega), Nat.add_sub_cancel_left, Nat.add_sub_cancel_left]
  have hsub : Finset.Ico (ind.countP (fun x => decide (x < i + idx)))
      (ind.countP (fun x => decide (x < i + 1 + idx))) ⊆ Finset.range nz.length := by
    intro k hk
    rw [Finset.mem_Ico] at hk
    rw [Finset.mem_range, ← hl]
    exact lt_of_lt_of_le hk.2 List.countP_le_length
  rw [← Finset.sum_subset hsub]
  · apply Finset.sum_congr rfl
    intro k hk
    rw [Finset.mem_Ico] at hk
    have hkl : k < ind.length := lt_of_lt_of_le hk.2 List.countP_le_length
    have a := (sorted_countP ind hs (i + 1 + idx) k hkl).1 hk.2
    have b := (sorted_countP ind hs (i + idx) k hkl).not.1 (by omega)
    rw [List.getD_eq_getElem _ _ hkl]
    have : ind[k] = i + idx := by omega
    simp only [this, true_and]
  · intro k hk hk'
    rw [Finset.mem_range, ← hl] at hk
    rw [Finset.mem_Ico] at hk'
    rw [if_neg]
    rintro ⟨e, -⟩
    rw [List.getD_eq_getElem _ _ hk] at e
    apply hk'
    refine ⟨?_, (sorted_countP ind hs (i + 1 + idx) k hk).2 (by omega)⟩
    have := (sorted_countP ind hs (i + idx) k hk).not.2 (by omega)
    omega

theorem ptr_set {d idx : Nat} {ind ptr : List Nat} (hl : ptr.length = d + 1)
    (hr : ∀ x ∈ ind, idx ≤ x ∧ x < idx + d)
    (hp : ∀ r < max d 1, ptr.getD r 0 = idx + ind.countP (fun x => decide (x < r + idx))) :
    ∀ r ≤ d, (ptr.set d (ind.length + idx)).getD r 0
      = idx + ind.countP (fun x => decide (x < r + idx)) := by
  intro r hr'
  rcases Nat.lt_or_ge r d with h | h
  · rw [List.getD_eq_getElem _ _ (by simp [hl]; omega), List.getElem_set_ne (by omega),
      ← hp r (by omega), List.getD_eq_getElem]
  · have : r = d := by omega
    subst this
    rw [List.getD_eq_getElem _ _ (by simp [hl]), List.getElem_set_self]
    have : ind.countP (fun x => decide (x < r + idx)) = ind.length := by
      rw [List.countP_eq_length]
      intro x hx
      have := hr x hx
      simp; omega
    rw [this]; omega

/-- C58 (COO → CSR), the part that holds: row-sorted COO matrices in which every row except possibly
the first one has at least one entry.  Missing from the full property: matrices with empty rows, see
`C58_coo_to_csr_empty_row_refuted`. -/
theorem C58_coo_to_csr_partial [AddCommMonoid R] (A : Coo R) (h : CooWF A)
    (hs : A.rowind.Pairwise (· ≤ ·)) (hne : ∀ r, 1 ≤ r → r < A.m → r + A.indexing ∈ A.rowind) :
    ∃ B, Csr.ofCoo A = some B ∧ CsrWF B ∧ B.m = A.m ∧ B.n = A.n ∧ B.indexing = A.indexing ∧
      ∀ i < A.m, ∀ j < A.n, csrEntry B i j = cooEntry A i j := by
  obtain ⟨ptr, cur, he, hl, hp⟩ := cooPtrLoop_spec A.indexing A.m A.rowind hs h.row_range hne
  have hp' := ptr_set hl h.row_range hp
  have hsb : isSorted A.rowind = true := (isSorted_iff _).2 hs
  refine ⟨{ m := A.m, n := A.n, indexing := A.indexing, rowptr := ptr.set A.m (A.nnz + A.indexing)
            colind := A.colind, nzval := A.nzval }, ?_, ?_, ?_, ?_, ?_, ?_⟩
  · unfold Csr.ofCoo
    rw [he]
    simp [hsb]
  · rw [h.nnz_eq, ← h.rowind_length]
    constructor
    · simp [hl]
    · show (ptr.set A.m (A.rowind.length + A.indexing)).getD 0 0 = A.indexing
      rw [hp' 0 (by omega)]
      have : A.rowind.countP (fun x => decide (x < 0 + A.indexing)) = 0 := by
        rw [List.countP_eq_zero]
        intro x hx
        have := h.row_range x hx
        simp; omega
      rw [this]; rfl
    · intro i hi
      change i < A.m at hi
      show (ptr.set A.m (A.rowind.length + A.indexing)).getD i 0
        ≤ (ptr.set A.m (A.rowind.length + A.indexing)).getD (i + 1) 0
      rw [hp' i (by omega), hp' (i + 1) (by omega)]
      have := List.countP_mono_left (l := A.rowind) (p := fun x => decide (x < i + A.indexing))
        (q := fun x => decide (x < i + 1 + A.indexing)) (by intro x _; simp; omega)
      omega
    · show (ptr.set A.m (A.rowind.length + A.indexing)).getD A.m 0 = A.indexing + A.nzval.length
      rw [List.getD_eq_getElem _ _ (by simp [hl]), List.getElem_set_self, h.rowind_length]
      omega
    · exact h.colind_length
    · exact h.col_range
  · rfl
  · rfl
  · rfl
  · intro i hi j hj
    rw [h.nnz_eq, ← h.rowind_length]
    exact ptr_entry A.indexing A.m A.rowind A.colind A.nzval hs h.rowind_length _ hi hp' j

/-- C58 (COO → CSR): unsorted input is always rejected. -/
theorem C58_coo_to_csr_rejects_unsorted (A : Coo R) (hs : ¬ A.rowind.Pairwise (· ≤ ·)) :
    Csr.ofCoo A = none := by
  unfold Csr.ofCoo
  rw [if_pos]
  rw [isSorted_iff]; exact hs

/-- C58 refuted for empty rows: converting the row-sorted zero-based 3x3 matrix with the entries
`(0,0)=1, (2,0)=2, (2,1)=3` succeeds and yields a CSR matrix in which the entry `(2,0)` sits in the
empty row 1. -/
theorem C58_coo_to_csr_empty_row_refuted :
    let A : Coo Int := { m := 3, n := 3, nnz := 3, indexing := 0, rowind := [0, 2, 2],
                         colind := [0, 0, 1], nzval := [1, 2, 3] }
    ∃ B, Csr.ofCoo A = some B ∧ cooEntry A 2 0 = 2 ∧ csrEntry B 2 0 = 0 ∧ csrEntry B 1 0 = 2 := by
  dsimp only
  exact ⟨_, rfl, by decide +kernel, by decide +kernel, by decide +kernel⟩

/-- C58 refuted for a trailing empty row: a 2x2 zero-based matrix with the single entry `(0,0)=7`
becomes the matrix with the entry `(1,0)=7`. -/
theorem C58_coo_to_csr_last_row_refuted :
    let A : Coo Int := { m := 2, n := 2, nnz := 1, indexing := 0, rowind := [0], colind := [0],
                         nzval := [7] }
    ∃ B, Csr.ofCoo A = some B ∧ cooEntry A 0 0 = 7 ∧ csrEntry B 0 0 = 0 ∧ csrEntry B 1 0 = 7 := by
  dsimp only
  exact ⟨_, rfl, by decide +kernel, by decide +kernel, by decide +kernel⟩

/-- hypotheses of the partial theorem are met by a one-based matrix with an empty first row -/
example : Csr.ofCoo (
    { m := 3, n := 3, nnz := 3, indexing := 1, rowind := [2, 2, 3],
      colind := [1, 3, 2], nzval := [5, 6, 7] } : Coo Int)
    = some { m := 3, n := 3, indexing := 1, rowptr := [1, 1, 3, 4], colind := [1, 3, 2],
             nzval := [5, 6, 7] } := by decide +kernel

/-- C58 (COO → CSC), the part that holds: square, column-sorted matrices in which every column except
possibly the first has an entry. -/
theorem C58_coo_to_csc_partial [AddCommMonoid R] (A : Coo R) (h : CooWF A) (hsq : A.m = A.n)
    (hs : A.colind.Pairwise (· ≤ ·)) (hne : ∀ r, 1 ≤ r → r < A.n → r + A.indexing ∈ A.colind) :
    ∃ B, Csc.ofCoo A = some B ∧ CscWF B ∧ B.m = A.m ∧ B.n = A.n ∧ B.indexing = A.indexing ∧
      ∀ i < A.m, ∀ j < A.n, cscEntry B i j = cooEntry A i j := by
  obtain ⟨ptr, cur, he, hl, hp⟩ := cooPtrLoop_spec A.indexing A.n A.colind hs h.col_range hne
  have hp' := ptr_set hl h.col_range hp
  have hsb : isSorted A.colind = true := (isSorted_iff _).2 hs
  refine ⟨{ m := A.n, n := A.n, indexing := A.indexing, colptr := ptr.set A.n (A.nnz + A.indexing)
            rowind := A.rowind, nzval := A.nzval }, ?_, ?_, ?_, ?_, ?_, ?_⟩
  · unfold Csc.ofCoo
    rw [he]
    simp only [hsb, not_true, if_false, Option.bind_some]
    rw [if_pos (by omega), hsq]
  · rw [h.nnz_eq, ← h.colind_length]
    constructor
    · simp [hl]
    · show (ptr.set A.n (A.colind.length + A.indexing)).getD 0 0 = A.indexing
      rw [hp' 0 (by omega)]
      have : A.colind.countP (fun x => decide (x < 0 + A.indexing)) = 0 := by
        rw [List.countP_eq_zero]
        intro x hx
        have := h.col_range x hx
        simp; omega
      rw [this]; rfl
    · intro i hi
      change i < A.n at hi
      show (ptr.set A.n (A.colind.length + A.indexing)).getD i 0
        ≤ (ptr.set A.n (A.colind.length + A.indexing)).getD (i + 1) 0
      rw [hp' i (by omega), hp' (i + 1) (by omega)]
      have := List.countP_mono_left (l := A.colind) (p := fun x => decide (x < i + A.indexing))
        (q := fun x => decide (x < i + 1 + A.indexing)) (by intro x _; simp; omega)
      omega
    · show (ptr.set A.n (A.colind.length + A.indexing)).getD A.n 0 = A.indexing + A.nzval.length
      rw [List.getD_eq_getElem _ _ (by simp [hl]), List.getElem_set_self, h.colind_length]
      omega
    · exact h.rowind_length
    · intro c hc
      have := h.row_range c hc
      rw [hsq] at this
      exact this
  · exact hsq.symm
  · rfl
  · rfl
  · intro i hi j hj
    rw [h.nnz_eq, ← h.colind_length]
    have := ptr_entry A.indexing A.n A.colind A.rowind A.nzval hs h.colind_length _ hj hp' i
    refine this.trans ?_
    unfold cooEntry
    apply Finset.sum_congr rfl
    intro k _
    have e : (A.colind.getD k 0 = j + A.indexing ∧ A.rowind.getD k 0 = i + A.indexing) ↔
      (A.rowind.getD k 0 = i + A.indexing ∧ A.colind.getD k 0 = j + A.indexing) := And.comm
    simp only [e]

/-- C58 refuted for non-square COO → CSC: with more rows than columns the conversion of a perfectly
valid column-sorted matrix always throws. -/
theorem C58_coo_to_csc_tall_refuted (A : Coo R) (h : A.n < A.m) : Csc.ofCoo A = none := by
  have hlen : ∀ st, cooPtrLoop A.indexing A.colind ((List.replicate (A.n + 1) 0).set 0 A.indexing)
      = some st → st.1.length = A.n + 1 := by
    intro st
    unfold cooPtrLoop
    have key : ∀ (l : List Nat) (s : List Nat × Nat), s.1.length = A.n + 1 → ∀ st,
        l.foldlM (fun (st : List Nat × Nat) i =>
          if A.colind.getD i 0 ≠ st.2 + A.indexing then
            if st.2 + 1 < st.1.length then
              some (st.1.set (st.2 + 1) (i + A.indexing), st.2 + 1) else none
          else some st) s = some st → st.1.length = A.n + 1 := by
      intro l
      induction l with
      | nil => intro s hs st h; simp at h; rw [← h]; exact hs
      | cons a l ih =>
        intro s hs st h
        rw [List.foldlM_cons] at h
        simp only [Option.bind_eq_bind] at h
        rw [Option.bind_eq_some_iff] at h
        obtain ⟨s', h1, h2⟩ := h
        apply ih s' _ st h2
        split at h1
        · split at h1
          · simp only [Option.some.injEq] at h1; subst h1; simp [hs]
          · simp at h1
        · simp only [Option.some.injEq] at h1; subst h1; exact hs
    exact key _ _ (by simp) st
  unfold Csc.ofCoo
  split
  · rfl
  · rw [Option.bind_eq_none_iff]
    intro st hst
    rw [if_neg]
    rw [hlen st hst]; omega

/-- ... and with fewer rows than columns the column pointer is corrupted: the 1x2 matrix `[3, 4]`
loses both entries. -/
theorem C58_coo_to_csc_wide_refuted :
    let A : Coo Int := { m := 1, n := 2, nnz := 2, indexing := 0, rowind := [0, 0], colind := [0, 1],
                         nzval := [3, 4] }
    ∃ B, Csc.ofCoo A = some B ∧ cooEntry A 0 1 = 4 ∧ cscEntry B 0 1 = 0 ∧ ¬ CscWF B := by
  dsimp only
  refine ⟨_, rfl, by decide +kernel, by decide +kernel, ?_⟩
  intro h
  exact absurd h.colptr_last (by decide +kernel)

/-! ### C56: dense conversion -/

/-- C56 (CSR): conversion to dense assigns every stored position of a duplicate-free matrix and leaves
everything else of the buffer alone; in particular on a zeroed buffer it produces the matrix. -/
theorem C56_csr_to_dense [AddCommMonoid R] (A : Csr R) (h : CsrWF A) (hs : CsrSorted A) (LD : Nat)
    (hLD : A.m ≤ LD) (D : Nat → R) :
    ∃ D', denseOfCsr A LD D = some D' ∧
      (∀ i < A.m, ∀ j < A.n, csrStored A i j → D' (i + j * LD) = csrEntry A i j) ∧
      (∀ i < A.m, ∀ j < A.n, ¬ csrStored A i j → D' (i + j * LD) = D (i + j * LD)) ∧
      (∀ a, (∀ i < A.m, ∀ j < A.n, a ≠ i + j * LD) → D' a = D a) := by
  have hfold : ∀ D : Nat → R, (List.range A.m).foldl (fun D i =>
      (A.row i).foldl (fun D p => store D (i + (p.1 - A.indexing) * LD) p.2) D) D
      = (csrEntries A).foldl (fun D e => store D (e.1 + e.2.1 * LD) e.2.2) D := by
    intro D
    unfold csrEntries
    rw [List.foldl_flatMap]
    simp only [List.foldl_map]
  have hmem : ∀ e, e ∈ csrEntries A ↔ e.1 < A.m ∧ (e.2.1 + A.indexing, e.2.2) ∈ A.row e.1 := by
    intro e
    simp only [csrEntries, List.mem_flatMap, List.mem_range, List.mem_map]
    constructor
    · rintro ⟨i, hi, p, hp, rfl⟩
      refine ⟨hi, ?_⟩
      have := row_col_range h hi hp
      dsimp only
      rw [Nat.sub_add_cancel this.1]; exact hp
    · rintro ⟨hi, hp⟩
      exact ⟨e.1, hi, _, hp, by simp⟩
  have huniq : ∀ i < A.m, ∀ p ∈ A.row i, ∀ q ∈ A.row i, p.1 = q.1 → p = q := by
    intro i hi p hp q hq e
    have hsr := row_sorted h hs hi
    rw [List.pairwise_map] at hsr
    by_contra hne
    rcases (List.pairwise_iff_getElem.1 hsr) with hg
    obtain ⟨a, ha, rfl⟩ := List.mem_iff_getElem.1 hp
    obtain ⟨b, hb, rfl⟩ := List.mem_iff_getElem.1 hq
    rcases Nat.lt_trichotomy a b with h1 | h1 | h1
    · have := hg a b ha hb h1; omega
    · subst h1; exact hne rfl
    · have := hg b a hb ha h1; omega
  have hnodup : (csrEntries A).Nodup := by
    unfold csrEntries
    rw [List.nodup_flatMap]
    constructor
    · intro i hi
      rw [List.mem_range] at hi
      have hsr := row_sorted h hs hi
      rw [List.pairwise_map] at hsr
      rw [List.Nodup, List.pairwise_map]
      apply List.Pairwise.imp_of_mem _ hsr
      intro p q hp hq hpq e
      have h1 := row_col_range h hi hp
      have h2 := row_col_range h hi hq
      simp only [Prod.mk.injEq, true_and] at e
      omega
    · apply List.Pairwise.imp _ List.pairwise_lt_range
      intro a b hab x hx y
      rw [List.mem_map] at hx y
      obtain ⟨p, -, rfl⟩ := hx
      obtain ⟨q, -, e⟩ := y
      have := congrArg Prod.fst e
      dsimp only at this; omega
  have hinj : ∀ x ∈ csrEntries A, ∀ y ∈ csrEntries A,
      x.1 + x.2.1 * LD = y.1 + y.2.1 * LD → x = y := by
    intro x hx y hy e
    have hx' := (hmem x).1 hx
    have hy' := (hmem y).1 hy
    obtain ⟨e1, e2⟩ := addr_inj hLD hx'.1 hy'.1 e
    have := huniq _ hx'.1 _ hx'.2 _ (e2 ▸ hy'.2) (by dsimp only; omega)
    rw [Prod.mk.injEq] at this
    exact Prod.ext e2 (Prod.ext e1 this.2)
  obtain ⟨f1, f2⟩ := foldl_store (fun e : Nat × Nat × R => e.1 + e.2.1 * LD) (fun e _ => e.2.2)
    (csrEntries A) hnodup hinj D
  have hstored : ∀ i < A.m, ∀ j, csrStored A i j ↔ ∃ v, (i, j, v) ∈ csrEntries A := by
    intro i hi j
    rw [csrStored_iff h hi]
    constructor
    · intro hx
      rw [List.mem_map] at hx
      obtain ⟨p, hp, e⟩ := hx
      exact ⟨p.2, (hmem _).2 ⟨hi, by dsimp only; rw [← e]; exact hp⟩⟩
    · rintro ⟨v, hv⟩
      exact List.mem_map.2 ⟨_, ((hmem _).1 hv).2, rfl⟩
  refine ⟨_, by unfold denseOfCsr; rw [if_neg (by omega), hfold], ?_, ?_, ?_⟩
  · intro i hi j hj hst
    obtain ⟨v, hv⟩ := (hstored i hi j).1 hst
    have a := f1 _ hv
    dsimp only at a
    rw [a, csrEntry_eq h hi]
    have hv' := ((hmem _).1 hv).2
    dsimp only at hv'
    -- the only entry of the row with that column
    have hsr := row_sorted h hs hi
    rw [List.pairwise_map] at hsr
    have key : ∀ (l : List (Nat × R)), l.Pairwise (fun p q => p.1 < q.1) →
        (j + A.indexing, v) ∈ l →
        (l.map fun p => if p.1 = j + A.indexing then p.2 else 0).sum = v := by
      intro l hl hm
      induction l with
      | nil => simp at hm
      | cons q l ih =>
        obtain ⟨q1, q2⟩ := List.pairwise_cons.1 hl
        rw [List.map_cons, List.sum_cons]
        rcases List.mem_cons.1 hm with e | hm'
        · subst e
          have hz : (l.map fun p => if p.1 = j + A.indexing then p.2 else 0).sum = 0 := by
            apply List.sum_eq_zero
            intro x hx
            rw [List.mem_map] at hx
            obtain ⟨p, hp, rfl⟩ := hx
            have := q1 p hp
            dsimp only at this
            rw [if_neg (by omega)]
          rw [hz]; simp
        · have := q1 _ hm'
          dsimp only at this
          rw [if_neg (by omega), zero_add, ih q2 hm']
    exact (key _ hsr hv').symm
  · intro i hi j hj hst
    apply f2
    intro x hx e
    have hx' := (hmem x).1 hx
    obtain ⟨e1, e2⟩ := addr_inj hLD hx'.1 hi e
    apply hst
    rw [hstored i hi j]
    exact ⟨x.2.2, by rw [← e1, ← e2]; exact hx⟩
  · intro a ha
    apply f2
    intro x hx e
    have hx' := (hmem x).1 hx
    have := row_col_range h hx'.1 hx'.2
    exact ha x.1 hx'.1 x.2.1 (by dsimp only at this; omega) e.symm

/-- C56 (CSR), zeroed buffer: the dense array is the matrix. -/
theorem C56_csr_to_dense_zeroed [AddCommMonoid R] (A : Csr R) (h : CsrWF A) (hs : CsrSorted A)
    (LD : Nat) (hLD : A.m ≤ LD) :
    ∃ D', denseOfCsr A LD (fun _ => 0) = some D' ∧
      ∀ i < A.m, ∀ j < A.n, D' (i + j * LD) = csrEntry A i j := by
  obtain ⟨D', h1, h2, h3, -⟩ := C56_csr_to_dense A h hs LD hLD (fun _ => 0)
  refine ⟨D', h1, fun i hi j hj => ?_⟩
  by_cases hst : csrStored A i j
  · exact h2 i hi j hj hst
  · rw [h3 i hi j hj hst, csrEntry_eq h hi]
    symm
    apply List.sum_eq_zero
    intro x hx
    rw [List.mem_map] at hx
    obtain ⟨p, hp, rfl⟩ := hx
    rw [if_neg]
    intro e
    exact hst ((csrStored_iff h hi j).2 (List.mem_map.2 ⟨p, hp, e⟩))

/-- C59, the part that holds: zero-based duplicate-free matrices, any order of the parallel
loop. -/
theorem C59_coo_to_dense_partial [AddCommMonoid R] (A : Coo R) (h : CooWF A) (h0 : A.indexing = 0)
    (hd : CooNodup A) (LD : Nat) (hLD : A.m ≤ LD) (sched : List Nat)
    (hsch : sched.Perm (List.range A.nnz)) :
    ∃ D', denseOfCoo sched A LD (fun _ => 0) = some D' ∧
      ∀ i < A.m, ∀ j < A.n, D' (i + j * LD) = cooEntry A i j := by
  have hl1 := h.rowind_length
  have hl2 := h.colind_length
  have hpos : ∀ k ∈ sched, k < A.nzval.length := by
    intro k hk
    have := hsch.mem_iff.1 hk
    rw [List.mem_range, h.nnz_eq] at this; exact this
  have hrow : ∀ k, k < A.nzval.length → A.rowind.getD k 0 < A.m := by
    intro k hk
    rw [List.getD_eq_getElem _ _ (by omega)]
    have := h.row_range _ (List.getElem_mem (by omega : k < A.rowind.length))
    omega
  have huniq : ∀ k l, k < A.nzval.length → l < A.nzval.length →
      A.rowind.getD k 0 = A.rowind.getD l 0 → A.colind.getD k 0 = A.colind.getD l 0 → k = l := by
    intro k l hk hl e1 e2
    rw [List.getD_eq_getElem _ _ (by omega), List.getD_eq_getElem _ _ (by omega)] at e1 e2
    have hk' : k < (A.rowind.zip A.colind).length := by simp; omega
    have hl' : l < (A.rowind.zip A.colind).length := by simp; omega
    apply (List.Nodup.getElem_inj_iff hd (hi := hk') (hj := hl')).1
    simp [e1, e2]
  obtain ⟨f1, f2⟩ := foldl_store (fun k => A.rowind.getD k 0 + A.colind.getD k 0 * LD)
    (fun k _ => A.nzval.getD k 0) sched (hsch.nodup_iff.2 List.nodup_range) (by
      intro x hx y hy e
      obtain ⟨e1, e2⟩ := addr_inj hLD (hrow x (hpos x hx)) (hrow y (hpos y hy)) e
      exact huniq x y (hpos x hx) (hpos y hy) e2 e1) (fun _ => (0 : R))
  refine ⟨_, by unfold denseOfCoo; rw [if_neg (by omega)], ?_⟩
  intro i hi j hj
  unfold cooEntry
  rw [h0]
  by_cases hex : ∃ k < A.nzval.length, A.rowind.getD k 0 = i ∧ A.colind.getD k 0 = j
  · obtain ⟨k, hk, e1, e2⟩ := hex
    have := f1 k (hsch.mem_iff.2 (by rw [List.mem_range, h.nnz_eq]; exact hk))
    rw [e1, e2] at this
    rw [this, Finset.sum_eq_single k]
    · rw [if_pos ⟨by omega, by omega⟩]
    · intro l hl hne
      rw [if_neg]
      rintro ⟨a, b⟩
      exact hne (huniq l k (Finset.mem_range.1 hl) hk (by omega) (by omega))
    · intro hk'; exact absurd (Finset.mem_range.2 hk) hk'
  · rw [f2]
    · symm
      apply Finset.sum_eq_zero
      intro k hk
      rw [if_neg]
      rintro ⟨a, b⟩
      exact hex ⟨k, Finset.mem_range.1 hk, by omega, by omega⟩
    · intro k hk e
      obtain ⟨e1, e2⟩ := addr_inj hLD (hrow k (hpos k hk)) hi e
      exact hex ⟨k, hpos k hk, e2, e1⟩

/-- C59 refuted for one-based COO matrices (the default index base of the container): the 1x1 matrix
`[5]` is written to address 2, one row and one column off, outside the 1x1 buffer. -/
theorem C59_coo_to_dense_index_base_refuted :
    let A : Coo Int := { m := 1, n := 1, nnz := 1, indexing := 1, rowind := [1], colind := [1],
                         nzval := [5] }
    ∃ D', denseOfCoo [0] A 1 (fun _ => 0) = some D' ∧ cooEntry A 0 0 = 5 ∧ D' 0 = 0 ∧ D' 2 = 5 := by
  dsimp only
  exact ⟨_, rfl, by decide +kernel, by decide +kernel, by decide +kernel⟩

/-! ### C57: sorting and triangle expansion of COO matrices -/

/-- C57 (sort): whatever permutation `std::sort` produced, the sorted matrix is well formed and
denotes the same matrix. -/
theorem C57_sort_same_matrix [AddCommMonoid R] (A : Coo R) (h : CooWF A) (indx : List Nat)
    (hp : indx.Perm (List.range A.nnz)) :
    CooWF (A.gather indx) ∧ ∀ i j, cooEntry (A.gather indx) i j = cooEntry A i j := by
  have hl1 := h.rowind_length
  have hl2 := h.colind_length
  have hlen : indx.length = A.nzval.length := by rw [hp.length_eq, List.length_range, h.nnz_eq]
  have hpos : ∀ k ∈ indx, k < A.nzval.length := by
    intro k hk
    have := hp.mem_iff.1 hk
    rw [List.mem_range, h.nnz_eq] at this; exact this
  refine ⟨⟨?_, ?_, ?_, ?_, ?_⟩, ?_⟩
  · show A.nnz = (indx.map _).length
    rw [List.length_map, hlen, h.nnz_eq]
  · show (indx.map _).length = (indx.map _).length
    simp
  · show (indx.map _).length = (indx.map _).length
    simp
  · intro c hc
    change c ∈ indx.map _ at hc
    rw [List.mem_map] at hc
    obtain ⟨k, hk, rfl⟩ := hc
    have := hpos k hk
    rw [List.getD_eq_getElem _ _ (by omega)]
    exact h.row_range _ (List.getElem_mem _)
  · intro c hc
    change c ∈ indx.map _ at hc
    rw [List.mem_map] at hc
    obtain ⟨k, hk, rfl⟩ := hc
    have := hpos k hk
    rw [List.getD_eq_getElem _ _ (by omega)]
    exact h.col_range _ (List.getElem_mem _)
  · intro i j
    unfold cooEntry
    rw [← sum_map_range, ← sum_map_range]
    have e : ((List.range (A.gather indx).nzval.length).map fun k =>
        if (A.gather indx).rowind.getD k 0 = i + (A.gather indx).indexing ∧
          (A.gather indx).colind.getD k 0 = j + (A.gather indx).indexing
        then (A.gather indx).nzval.getD k 0 else 0)
        = indx.map fun k => if A.rowind.getD k 0 = i + A.indexing ∧ A.colind.getD k 0 = j + A.indexing
          then A.nzval.getD k 0 else 0 := by
      apply List.ext_getElem
      · simp [Coo.gather]
      · intro k hk hk'
        rw [List.length_map] at hk'
        simp only [Coo.gather, List.getElem_map, List.getElem_range]
        simp only [List.getD_eq_getElem _ _ (show k < (indx.map _).length by simpa using hk'),
          List.getElem_map]
    rw [e]
    have := hp.map fun k => if A.rowind.getD k 0 = i + A.indexing ∧ A.colind.getD k 0 = j + A.indexing
          then A.nzval.getD k 0 else (0 : R)
    rw [h.nnz_eq] at this
    exact this.sum_eq

/-- C57 (sort): if `std::sort` fulfilled its contract for the row comparison, the result passes the
row-sorted test demanded by the COO → CSR conversion, and columns are sorted inside a row. -/
theorem C57_sort_by_row [Zero R] (A : Coo R) (indx : List Nat)
    (hs : indx.Pairwise fun a b => A.rowLess b a = false) :
    (A.gather indx).rowind.Pairwise (· ≤ ·) ∧
    ((A.gather indx).rowind.zip (A.gather indx).colind).Pairwise
      (fun p q => p.1 < q.1 ∨ p.1 = q.1 ∧ p.2 ≤ q.2) := by
  have hz : (A.gather indx).rowind.zip (A.gather indx).colind
      = indx.map fun i => (A.rowind.getD i 0, A.colind.getD i 0) := by
    unfold Coo.gather
    rw [List.zip_map']
  constructor
  · show (indx.map _).Pairwise _
    rw [List.pairwise_map]
    apply hs.imp
    intro a b h
    unfold Coo.rowLess at h
    split at h
    · simp at h
    · omega
  · rw [hz, List.pairwise_map]
    apply hs.imp
    intro a b h
    unfold Coo.rowLess at h
    split at h
    · simp at h
    · split at h
      · left; omega
      · rw [decide_eq_false_iff_not] at h
        right; omega

/-- C57 (sort): the same for the column comparison. -/
theorem C57_sort_by_col [Zero R] (A : Coo R) (indx : List Nat)
    (hs : indx.Pairwise fun a b => A.colLess b a = false) :
    (A.gather indx).colind.Pairwise (· ≤ ·) ∧
    ((A.gather indx).rowind.zip (A.gather indx).colind).Pairwise
      (fun p q => p.2 < q.2 ∨ p.2 = q.2 ∧ p.1 ≤ q.1) := by
  have hz : (A.gather indx).rowind.zip (A.gather indx).colind
      = indx.map fun i => (A.rowind.getD i 0, A.colind.getD i 0) := by
    unfold Coo.gather
    rw [List.zip_map']
  constructor
  · show (indx.map _).Pairwise _
    rw [List.pairwise_map]
    apply hs.imp
    intro a b h
    unfold Coo.colLess at h
    split at h
    · simp at h
    · omega
  · rw [hz, List.pairwise_map]
    apply hs.imp
    intro a b h
    unfold Coo.colLess at h
    split at h
    · simp at h
    · split at h
      · left; omega
      · rw [decide_eq_false_iff_not] at h
        right; omega

example : let A : Coo Int := { m := 2, n := 2, nnz := 3, indexing := 0, rowind := [1, 0, 1],
                               colind := [1, 1, 0], nzval := [5, 6, 7] }
    [1, 2, 0].Perm (List.range A.nnz) ∧ ([1, 2, 0].Pairwise fun a b => A.rowLess b a = false) ∧
    A.gather [1, 2, 0] = { A with rowind := [0, 1, 1], colind := [1, 0, 1], nzval := [6, 7, 5] } := by
  dsimp only
  decide +kernel

/-- all stored entries on or above the diagonal -/
def UpperStored (A : Coo R) : Prop := ∀ k < A.nzval.length, A.rowind.getD k 0 ≤ A.colind.getD k 0
/-- all stored entries on or below the diagonal -/
def LowerStored (A : Coo R) : Prop := ∀ k < A.nzval.length, A.colind.getD k 0 ≤ A.rowind.getD k 0
/-- number of stored diagonal entries -/
def diagStored (A : Coo R) : Nat :=
  (List.range A.nzval.length).countP fun k => A.rowind.getD k 0 = A.colind.getD k 0

/-- C60, part 1: matrices that are neither a pure upper nor a pure lower triangle, and
diagonal ones, are left unchanged. -/
theorem C60_expand_unchanged [Zero R] (A : Coo R) (h : CooWF A)
    (hc : UpperStored A ↔ LowerStored A) : A.expandFromTriangle = some A := by
  unfold Coo.expandFromTriangle
  have e1 : ((List.range A.nnz).all fun i => decide (A.rowind.getD i 0 ≤ A.colind.getD i 0)) = true
      ↔ UpperStored A := by
    simp only [List.all_eq_true, List.mem_range, decide_eq_true_eq, h.nnz_eq, UpperStored]
  have e2 : ((List.range A.nnz).all fun i => decide (A.rowind.getD i 0 ≥ A.colind.getD i 0)) = true
      ↔ LowerStored A := by
    simp only [List.all_eq_true, List.mem_range, decide_eq_true_eq, h.nnz_eq, LowerStored, ge_iff_le]
  dsimp only
  rw [if_pos]
  by_cases hu : UpperStored A
  · rw [e1.2 hu, e2.2 (hc.1 hu)]; rfl
  · have hl : ¬ LowerStored A := fun x => hu (hc.2 x)
    rw [← e1] at hu
    rw [← e2] at hl
    rw [Bool.not_eq_true] at hu hl
    rw [hu, hl]; rfl

/-- C60, part 2: a triangle with at least `n/2` stored entries is expanded; the arrays then
denote the symmetric matrix (off-diagonal entries mirrored, diagonal kept), for every sparsity
pattern.  The recorded number of entries equals the array length exactly when the number of stored
diagonal entries is `n`. -/
theorem C60_expand_partial [AddCommMonoid R] (A : Coo R) (h : CooWF A)
    (ht : (UpperStored A ∧ ¬ LowerStored A) ∨ (LowerStored A ∧ ¬ UpperStored A))
    (hn : A.n ≤ 2 * A.nnz) :
    ∃ B, A.expandFromTriangle = some B ∧ B.m = A.m ∧ B.n = A.n ∧ B.indexing = A.indexing ∧
      B.rowind.length = B.nzval.length ∧ B.colind.length = B.nzval.length ∧
      (∀ i j, cooEntry B i j = cooEntry A i j + if i = j then 0 else cooEntry A j i) ∧
      (B.nnz = B.nzval.length ↔ diagStored A = A.n) := by
  unfold Coo.expandFromTriangle
  have e1 : ((List.range A.nnz).all fun i => decide (A.rowind.getD i 0 ≤ A.colind.getD i 0)) = true
      ↔ UpperStored A := by
    simp only [List.all_eq_true, List.mem_range, decide_eq_true_eq, h.nnz_eq, UpperStored]
  have e2 : ((List.range A.nnz).all fun i => decide (A.rowind.getD i 0 ≥ A.colind.getD i 0)) = true
      ↔ LowerStored A := by
    simp only [List.all_eq_true, List.mem_range, decide_eq_true_eq, h.nnz_eq, LowerStored, ge_iff_le]
  dsimp only
  rw [if_neg, if_neg (by omega)]
  swap
  · rcases ht with ⟨hu, hl⟩ | ⟨hl, hu⟩
    · rw [← e2, Bool.not_eq_true] at hl
      rw [e1.2 hu, hl]; decide
    · rw [← e1, Bool.not_eq_true] at hu
      rw [e2.2 hl, hu]; decide
  set off := (List.range A.nnz).filter fun i => decide (A.rowind.getD i 0 ≠ A.colind.getD i 0)
    with hoff
  refine ⟨_, rfl, rfl, rfl, rfl, ?_, ?_, ?_, ?_⟩
  · simp [h.rowind_length]
  · simp [h.colind_length]
  · intro i j
    unfold cooEntry
    dsimp only
    rw [List.length_append, List.length_map, Finset.sum_range_add]
    congr 1
    · apply Finset.sum_congr rfl
      intro k hk
      rw [Finset.mem_range] at hk
      rw [List.getD_append _ _ _ _ (by rw [h.rowind_length]; exact hk),
        List.getD_append _ _ _ _ (by rw [h.colind_length]; exact hk),
        List.getD_append _ _ _ _ hk]
    · have s1 : ∀ k ∈ Finset.range off.length,
          (if (A.rowind ++ off.map fun i => A.colind.getD i 0).getD (A.nzval.length + k) 0
              = i + A.indexing ∧
            (A.colind ++ off.map fun i => A.rowind.getD i 0).getD (A.nzval.length + k) 0
              = j + A.indexing
          then (A.nzval ++ off.map fun i => A.nzval.getD i 0).getD (A.nzval.length + k) 0 else 0)
          = (fun x => if A.colind.getD x 0 = i + A.indexing ∧ A.rowind.getD x 0 = j + A.indexing
              then A.nzval.getD x 0 else 0) (off.getD k 0) := by
        intro k hk
        rw [Finset.mem_range] at hk
        have g : ∀ {β : Type} (l : List β) (f : Nat → β) (z : β), l.length = A.nzval.length →
            (l ++ off.map f).getD (A.nzval.length + k) z = f (off.getD k 0) := by
          intro β l f z hl
          rw [List.getD_append_right _ _ _ _ (by omega), hl, Nat.add_sub_cancel_left,
            List.getD_eq_getElem _ _ (by simpa using hk), List.getElem_map,
            List.getD_eq_getElem _ _ hk]
        rw [g _ _ _ h.rowind_length, g _ _ _ h.colind_length, g _ _ _ rfl]
      rw [Finset.sum_congr rfl s1, ← sum_map_range]
      have s2 : ((List.range off.length).map fun k =>
          (fun x => if A.colind.getD x 0 = i + A.indexing ∧ A.rowind.getD x 0 = j + A.indexing
              then A.nzval.getD x 0 else (0 : R)) (off.getD k 0))
          = off.map fun x => if A.colind.getD x 0 = i + A.indexing ∧
              A.rowind.getD x 0 = j + A.indexing then A.nzval.getD x 0 else 0 := by
        apply List.ext_getElem
        · simp
        · intro k hk hk'
          rw [List.length_map] at hk'
          simp only [List.getElem_map, List.getElem_range]
          rw [List.getD_eq_getElem _ _ hk']
      rw [s2, hoff, sum_ite_filter, h.nnz_eq, sum_map_range]
      split
      · rename_i hij
        subst hij
        apply Finset.sum_eq_zero
        intro k _
        rw [if_neg]
        rintro ⟨a, b, c⟩
        exact a (c.trans b.symm)
      · rename_i hij
        apply Finset.sum_congr rfl
        intro k _
        have : (A.rowind.getD k 0 ≠ A.colind.getD k 0 ∧ A.colind.getD k 0 = i + A.indexing ∧
          A.rowind.getD k 0 = j + A.indexing) ↔ (A.rowind.getD k 0 = j + A.indexing ∧
          A.colind.getD k 0 = i + A.indexing) := by
          constructor
          · rintro ⟨-, a, b⟩; exact ⟨b, a⟩
          · rintro ⟨a, b⟩; refine ⟨?_, b, a⟩; omega
        simp only [this]
  · dsimp only
    rw [List.length_append, List.length_map]
    have hcount : off.length + diagStored A = A.nzval.length := by
      rw [hoff, ← List.countP_eq_length_filter, diagStored, h.nnz_eq]
      have := List.length_eq_countP_add_countP (l := List.range A.nzval.length)
        fun k => decide (A.rowind.getD k 0 = A.colind.getD k 0)
      rw [List.length_range] at this
      have e3 : (fun k => decide (A.rowind.getD k 0 ≠ A.colind.getD k 0))
          = fun k => decide (¬ (decide (A.rowind.getD k 0 = A.colind.getD k 0)) = true) := by
        funext k; simp
      rw [e3]
      omega
    have := h.nnz_eq
    omega

/-- C60 refuted: (1) a 2x2 lower triangle `[[1,0],[2,0]]` without the second diagonal entry keeps a
correct array but records `nnz = 2` for three stored entries, so `[0,1]` is not seen by the loops
over `nnz`; (2) a 4x4 triangle with a single off-diagonal entry throws. -/
theorem C60_expand_missing_diagonal_refuted :
    (let A : Coo Int := { m := 2, n := 2, nnz := 2, indexing := 0, rowind := [0, 1], colind := [0, 0],
                          nzval := [1, 2] }
     ∃ B, A.expandFromTriangle = some B ∧ B.nnz = 2 ∧ B.nzval = [1, 2, 2]) ∧
    (let A : Coo Int := { m := 4, n := 4, nnz := 1, indexing := 0, rowind := [1], colind := [0],
                          nzval := [1] }
     A.expandFromTriangle = none) := by
  dsimp only
  exact ⟨⟨_, rfl, by decide +kernel, by decide +kernel⟩, by decide +kernel⟩

/-- the hypotheses are met by a full-diagonal lower triangle -/
example : let A : Coo Int := { m := 2, n := 2, nnz := 3, indexing := 1, rowind := [1, 2, 2],
                               colind := [1, 1, 2], nzval := [1, 2, 3] }
    A.expandFromTriangle = some { A with nnz := 4, rowind := [1, 2, 2, 1], colind := [1, 1, 2, 2],
                                         nzval := [1, 2, 3, 2] } := by
  dsimp only
  decide +kernel

end Macis
