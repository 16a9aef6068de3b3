import Verif.Props.DecimalGen
/-! C94, C99: what exactly is read in the cases in which the full statements fail. -/
namespace Macis
open Spec
variable {R : Type}

/-- reading the lines written for a block, with the base the reader finds -/
theorem read_block [AddCommMonoid R] [One R] {io : NumIO R} (hio : NumIO.Readable io) {A : Csr R} (h : CsrWF A)
    (ro k b : Nat) (hbig : A.m + ro < 9223372036854775808 ∧ A.n + k < 9223372036854775808 ∧
      A.nzval.length < 9223372036854775808)
    (hb : b = 1 ∧ (∀ e ∈ trip A ro k, e.1 ≠ 0 ∧ e.2.1 ≠ 0) ∨ b = 0 ∧ ∃ e ∈ trip A ro k, e.1 = 0 ∨ e.2.1 = 0) :
    ∃ B, readMmCoo io (unlinesC (mmHeader A.m A.n A.nzval.length false ++ mmBlock io A ro ((k : Int) - A.indexing)))
        = .ok B ∧ B.m = A.m ∧ B.n = A.n ∧ B.indexing = b ∧ B.nzval = A.nzval ∧
      ∀ i j, cooEntry B i j = listed (trip A ro k) (i + b) (j + b) := by
  have hf := mmFile_of (io := io) (m := A.m) (n := A.n) hbig.2.2
    (mmBlock_no_newline hio A (ro : Int) ((k : Int) - A.indexing)) (mmBlock_shows hio h ro k)
  have key := readMmCoo_file hf (by omega) (by omega) (by simp) (fun e he => by have := trip_mem h he; omega)
  have hm : (trip A ro k).flatMap (mirrored false) = trip A ro k := by
    have : ∀ e : Nat × Nat × R, mirrored false e = [e] := by intro e; simp [mirrored]
    rw [show mirrored (R := R) false = fun e => [e] from funext this]
    exact List.flatMap_singleton' _
  rw [hm] at key
  have hidx : (if ((trip A ro k).map (·.1)).any (· == 0) || ((trip A ro k).map (·.2.1)).any (· == 0) then 0 else 1) = b := by
    simp only [Bool.or_eq_true, List.any_map, List.any_eq_true, Function.comp, beq_iff_eq]
    rcases hb with ⟨rfl, h1⟩ | ⟨rfl, e, he, h0⟩
    · rw [if_neg]
      rintro (⟨e, he, h0⟩ | ⟨e, he, h0⟩)
      · exact (h1 e he).1 h0
      · exact (h1 e he).2 h0
    · rw [if_pos]
      rcases h0 with h0 | h0
      · exact .inl ⟨e, he, h0⟩
      · exact .inr ⟨e, he, h0⟩
  have t1 : (trip A ro k).map (·.2.2) = A.nzval := by
    obtain ⟨-, e2⟩ := rows_take h A.m le_rfl
    have hl : A.rp A.m - A.indexing = A.nzval.length := by have : A.rp A.m = _ := h.rowptr_last; omega
    rw [hl, List.take_of_length_le le_rfl] at e2
    rw [← e2, trip, List.map_flatMap, List.map_flatMap]
    simp only [List.map_map]; rfl
  refine ⟨_, key, rfl, rfl, hidx, t1, ?_⟩
  intro i j
  rw [Coo.determineIndexing]
  dsimp only
  rw [hidx]
  exact cooEntry_list _ _ _ _ _ _ _

theorem trip_first_row [Zero R] {A : Csr R} (h : CsrWF A) (k : Nat) {j : Nat} (hm : 0 < A.m) (hst : csrStored A 0 j) :
    ∃ e ∈ trip A 0 k, e.1 = 0 := by
  rw [csrStored_iff h hm, List.mem_map] at hst
  obtain ⟨p, hp, -⟩ := hst
  refine ⟨(0 + 0, p.1 - A.indexing + k, p.2), ?_, rfl⟩
  simp only [trip, List.mem_flatMap, List.mem_range, List.mem_map]
  exact ⟨0, hm, p, hp, rfl⟩

/-- C94: the default call writes the rows of a matrix with index base one counted from zero. If the first row holds an
entry, all columns are moved by one to the right in the matrix read back (the last one out of the matrix); if it is
empty, all rows are moved up by one. -/
theorem C94_one_based_default [AddCommMonoid R] [One R] (io : NumIO R) (hio : NumIO.Readable io) (A : Csr R)
    (h : CsrWF A) (h1 : A.indexing = 1) (hbig : A.m < 9223372036854775808 ∧ A.n + 1 < 9223372036854775808 ∧
      A.nzval.length < 9223372036854775808) (hm : 0 < A.m) :
    ∃ text B, writeMm io A false none = .ok text ∧ readMmCoo io text = .ok B ∧ B.m = A.m ∧ B.n = A.n ∧
      B.nzval = A.nzval ∧
      ((∃ j, csrStored A 0 j) → B.indexing = 0 ∧
        ∀ i < A.m, cooEntry B i 0 = 0 ∧ ∀ j, cooEntry B i (j + 1) = csrEntry A i j) ∧
      ((¬ ∃ j, csrStored A 0 j) → B.indexing = 1 ∧
        ∀ i, i + 1 < A.m → ∀ j, cooEntry B i j = csrEntry A (i + 1) j) := by
  have hw : writeMm io A false none = .ok (unlinesC (mmHeader A.m A.n A.nzval.length false ++
      mmBlock io A ((0 : Nat) : Int) (((1 : Nat) : Int) - A.indexing))) := by
    rw [writeMm, h1]; rfl
  by_cases hst : ∃ j, csrStored A 0 j
  · obtain ⟨j, hj⟩ := hst
    obtain ⟨e, he, he0⟩ := trip_first_row h 1 hm hj
    obtain ⟨B, e0, e1, e2, e3, e4, e5⟩ := read_block hio h 0 1 0 (by omega) (.inr ⟨rfl, e, he, .inl he0⟩)
    refine ⟨_, B, hw, e0, e1, e2, e4, fun _ => ⟨e3, fun i hi => ⟨?_, fun j => ?_⟩⟩, fun hn => absurd ⟨j, hj⟩ hn⟩
    · rw [e5, listed]
      apply List.sum_eq_zero
      intro x hx
      rw [List.mem_map] at hx
      obtain ⟨e, he, rfl⟩ := hx
      have := trip_mem h he
      exact if_neg (by omega)
    · rw [e5]; exact listed_trip (ro := 0) (k := 1) h hi j
  · have hz : ∀ e ∈ trip A 0 1, e.1 ≠ 0 ∧ e.2.1 ≠ 0 := by
      intro e he
      refine ⟨?_, by have := trip_mem h he; omega⟩
      simp only [trip, List.mem_flatMap, List.mem_range, List.mem_map] at he
      obtain ⟨i, hi, p, hp, rfl⟩ := he
      intro h0
      dsimp only at h0
      obtain rfl : i = 0 := by omega
      refine hst ⟨p.1 - A.indexing, (csrStored_iff h hm _).2 (List.mem_map.2 ⟨p, hp, ?_⟩)⟩
      have := row_col_range h hi hp
      omega
    obtain ⟨B, e0, e1, e2, e3, e4, e5⟩ := read_block hio h 0 1 1 (by omega) (.inl ⟨rfl, hz⟩)
    refine ⟨_, B, hw, e0, e1, e2, e4, fun hn => absurd hn hst, fun _ => ⟨e3, fun i hi j => ?_⟩⟩
    rw [e5]; exact listed_trip (ro := 0) (k := 1) h hi j

/-- C94: a matrix with index base zero whose first row and first column are empty is read back, from the default file,
moved by one row up and one column to the left. -/
theorem C94_zero_based_empty [AddCommMonoid R] [One R] (io : NumIO R) (hio : NumIO.Readable io) (A : Csr R)
    (h : CsrWF A) (h0 : A.indexing = 0) (hbig : A.m < 9223372036854775808 ∧ A.n < 9223372036854775808 ∧
      A.nzval.length < 9223372036854775808)
    (hz : ∀ i j, i < A.m → csrStored A i j → 0 < i ∧ 0 < j) :
    ∃ text B, writeMm io A false none = .ok text ∧ readMmCoo io text = .ok B ∧ B.m = A.m ∧ B.n = A.n ∧
      B.indexing = 1 ∧ B.nzval = A.nzval ∧
      ∀ i, i + 1 < A.m → ∀ j, cooEntry B i j = csrEntry A (i + 1) (j + 1) := by
  have hw : writeMm io A false none = .ok (unlinesC (mmHeader A.m A.n A.nzval.length false ++
      mmBlock io A ((0 : Nat) : Int) (((0 : Nat) : Int) - A.indexing))) := by
    rw [writeMm, h0]; rfl
  have hz' : ∀ e ∈ trip A 0 0, e.1 ≠ 0 ∧ e.2.1 ≠ 0 := by
    intro e he
    simp only [trip, List.mem_flatMap, List.mem_range, List.mem_map] at he
    obtain ⟨i, hi, p, hp, rfl⟩ := he
    have hc := row_col_range h hi hp
    have := hz i (p.1 - A.indexing) hi ((csrStored_iff h hi _).2 (List.mem_map.2 ⟨p, hp, by omega⟩))
    dsimp only
    omega
  obtain ⟨B, e0, e1, e2, e3, e4, e5⟩ := read_block hio h 0 0 1 (by omega) (.inl ⟨rfl, hz'⟩)
  refine ⟨_, B, hw, e0, e1, e2, e3, e4, fun i hi j => ?_⟩
  rw [e5]
  exact listed_trip (ro := 0) (k := 0) h hi (j + 1)

/-- C94: a written file cut after any number of its entry lines is read without complaint: the matrix read holds exactly
the entries that are left. -/
theorem C94_cut [Zero R] [One R] (io : NumIO R) (hio : NumIO.Readable io) (A : Csr R) (h : CsrWF A)
    (hbig : A.m + 1 < 9223372036854775808 ∧ A.n + 1 < 9223372036854775808 ∧ A.nzval.length < 9223372036854775808)
    (l : Nat) :
    ∃ lines B, writeMm io A false (some 1) = .ok (unlinesC (mmHeader A.m A.n A.nzval.length false ++ lines)) ∧
      lines.length = A.nzval.length ∧
      readMmCoo io (unlinesC (mmHeader A.m A.n A.nzval.length false ++ lines.take l)) = .ok B ∧
      B.m = A.m ∧ B.n = A.n ∧ B.indexing = 1 ∧ B.nnz = min l A.nzval.length ∧ B.nzval = A.nzval.take l ∧
      B.colind = (A.colind.take l).map (fun c => c - A.indexing + 1) := by
  have hf := mmFile_of (io := io) (m := A.m) (n := A.n) (body := (mmBlock io A ((1 : Nat) : Int)
      (((1 : Nat) : Int) - A.indexing)).take l) (es := (trip A 1 1).take l) hbig.2.2
    (fun l hl => mmBlock_no_newline hio A ((1 : Nat) : Int) (((1 : Nat) : Int) - A.indexing) l (List.mem_of_mem_take hl))
    (List.forall₂_take l (mmBlock_shows hio h 1 1))
  have key := readMmCoo_file hf (by omega) (by omega) (by simp)
    (fun e he => by have := trip_mem h (List.mem_of_mem_take he); omega)
  have hm : ((trip A 1 1).take l).flatMap (mirrored false) = (trip A 1 1).take l := by
    have : ∀ e : Nat × Nat × R, mirrored false e = [e] := by intro e; simp [mirrored]
    rw [show mirrored (R := R) false = fun e => [e] from funext this]
    exact List.flatMap_singleton' _
  rw [hm] at key
  obtain ⟨e1, e2⟩ := rows_take h A.m le_rfl
  have hl : A.rp A.m - A.indexing = A.nzval.length := by have : A.rp A.m = _ := h.rowptr_last; omega
  rw [hl] at e1 e2
  rw [List.take_of_length_le (by rw [h.colind_length])] at e1
  rw [List.take_of_length_le le_rfl] at e2
  have t1 : (trip A 1 1).map (·.2.2) = A.nzval := by
    rw [← e2, trip, List.map_flatMap, List.map_flatMap]
    simp only [List.map_map]; rfl
  have t2 : (trip A 1 1).map (·.2.1) = A.colind.map (fun c => c - A.indexing + 1) := by
    rw [← e1, List.map_map, trip, List.map_flatMap, List.map_flatMap]
    simp only [List.map_map]; rfl
  have tl : (trip A 1 1).length = A.nzval.length := by rw [← t1, List.length_map]
  refine ⟨_, _, rfl, C49_lines io A h _ _, key, rfl, rfl, ?_, ?_, ?_, ?_⟩
  · rw [Coo.determineIndexing]
    refine if_neg ?_
    simp only [Bool.or_eq_true, List.any_map, List.any_eq_true, Function.comp, beq_iff_eq]
    rintro (⟨e, he, h0⟩ | ⟨e, he, h0⟩) <;> have := trip_mem h (List.mem_of_mem_take he) <;> omega
  · show ((trip A 1 1).take l).length = _
    rw [List.length_take, tl]
  · show ((trip A 1 1).take l).map (·.2.2) = _
    rw [List.map_take, t1]
  · show ((trip A 1 1).take l).map (·.2.1) = _
    rw [List.map_take, t2, ← List.map_take]

/-- C99: whatever type word a Rutherford-Boeing file carries, only the entries it stores are read. For a file that stores
the lower triangle everything above the diagonal is zero, so that the matrix read is symmetric exactly when it is
diagonal. -/
theorem C99_reads_triangle [AddCommMonoid R] (io : NumIO R) (file : List Char) (n : Nat) (colptr rowind : List Nat)
    (nzval : List R) (h : RbFile io file n n colptr rowind nzval) (hn : n < 9223372036854775808)
    (hnnz : nzval.length < 9223372036854775808) (hc : colptr.length = n + 1) (hr : rowind.length = nzval.length)
    (htri : ∀ j k, colptr.getD j 0 ≤ k + 1 → k + 1 < colptr.getD (j + 1) 0 → j + 1 ≤ rowind.getD k 0) :
    ∃ B, readRbCsc io file = .ok B ∧ (∀ i j, i < j → cscEntry B i j = 0) ∧
      ((∀ i j, cscEntry B i j = cscEntry B j i) ↔ ∀ i j, i ≠ j → cscEntry B i j = 0) := by
  refine ⟨_, C98_read_rb io file n n colptr rowind nzval h hn hn hnnz hc hr, ?_⟩
  have up : ∀ i j, i < j → cscEntry ({ m := n, n := n, indexing := 1, colptr := colptr, rowind := rowind, nzval := nzval } : Csc R) i j = 0 := by
    intro i j hij
    rw [cscEntry]
    apply Finset.sum_eq_zero
    intro k hk
    rw [Finset.mem_Ico] at hk
    dsimp only at hk ⊢
    have := htri j k (by omega) (by omega)
    exact if_neg (by omega)
  refine ⟨up, fun hs i j hij => ?_, fun hd i j => ?_⟩
  · rcases Nat.lt_or_gt_of_ne hij with hl | hl
    · exact up i j hl
    · rw [hs i j]; exact up j i hl
  · by_cases e : i = j
    · rw [e]
    · rw [hd i j e, hd j i (Ne.symm e)]

/-! The hypotheses: base one with entries in the first row, base one without, base zero with empty first row and column. -/
example : let A : Csr Nat := { m := 2, n := 2, indexing := 1, rowptr := [1, 2, 3], colind := [1, 2], nzval := [5, 7] }
    CsrWF A ∧ csrStored A 0 0 :=
  ⟨⟨by simp, by simp, by decide, by simp, by simp, by decide⟩, 0, by decide, by decide, by decide⟩
example : let A : Csr Nat := { m := 2, n := 2, indexing := 1, rowptr := [1, 1, 2], colind := [2], nzval := [7] }
    CsrWF A ∧ ¬ ∃ j, csrStored A 0 j :=
  ⟨⟨by simp, by simp, by decide, by simp, by simp, by decide⟩, by
    rintro ⟨j, k, h1, h2, -⟩; simp at h1 h2; try omega⟩
example : let A : Csr Nat := { m := 2, n := 2, indexing := 0, rowptr := [0, 0, 1], colind := [1], nzval := [7] }
    CsrWF A ∧ ∀ i j, i < A.m → csrStored A i j → 0 < i ∧ 0 < j :=
  ⟨⟨by simp, by simp, by decide, by simp, by simp, by decide⟩, by
    rintro i j hi ⟨k, h1, h2, h3⟩
    simp only at hi h1 h2 h3
    obtain rfl | rfl : i = 0 ∨ i = 1 := by omega
    · simp at h2
    · simp at h1 h2; subst h2; simp at h3; omega⟩
/-- the columns 1 and 2 of `[[7, 8], [8, 9]]` as a lower triangle -/
example : let colptr := [1, 3, 4]; let rowind := [1, 2, 2]
    ∀ j k, colptr.getD j 0 ≤ k + 1 → k + 1 < colptr.getD (j + 1) 0 → j + 1 ≤ rowind.getD k 0 := by
  intro colptr rowind j k h1 h2
  match j with
  | 0 => match k with
    | 0 => decide
    | 1 => decide
    | k + 2 => simp [colptr] at h2; omega
  | 1 => match k with
    | 0 => simp [colptr] at h1
    | 1 => simp [colptr] at h1
    | 2 => decide
    | k + 3 => simp [colptr] at h2; omega
  | j + 2 => simp [colptr] at h2

end Macis
