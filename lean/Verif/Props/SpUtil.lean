import Verif.Lemmas.SpUtil
import Verif.Props.PSpmv
/-
C46: submatrix extraction; C61: distributing a serial matrix; C47: triangle, diagonal, trace.
-/
namespace Macis
open Spec
variable {R : Type}

/-! ### C46 -/

theorem part_lt {A : Csr R} [Zero R] (h : CsrWF A) (hs : CsrSorted A) {r : Nat} (hr : r < A.m) (b : Nat) :
    (A.row r).Pairwise fun x y =>
      decide (y.1 - A.indexing < b) = true → decide (x.1 - A.indexing < b) = true := by
  have := row_sorted h hs hr
  rw [List.pairwise_map] at this
  apply this.imp
  intro a c hac hc
  rw [decide_eq_true_eq] at hc ⊢
  omega

theorem extractSubmatrix_eq [Zero R] {A : Csr R} (h : CsrWF A) (hs : CsrSorted A) {lo up : Nat × Nat}
    (h2 : up.1 ≤ A.m) (h3 : lo.2 ≤ up.2) :
    A.extractSubmatrix lo up = csrOfRows (up.1 - lo.1) (up.2 - lo.2) A.indexing
      ((List.range (up.1 - lo.1)).map fun i =>
        ((A.row (lo.1 + i)).filter fun p =>
          decide (lo.2 ≤ p.1 - A.indexing ∧ p.1 - A.indexing < up.2)).map
            fun p => (p.1 - lo.2, p.2)) := by
  have hlt : ∀ i < up.1 - lo.1, lo.1 + i < A.m := by intro i hi; omega
  have hmid : ∀ i < up.1 - lo.1, ∀ {β : Type} (f : Nat × R → β),
      ((((A.row (lo.1 + i)).map f).take
        (partitionPoint (fun j => decide (j - A.indexing < up.2)) ((A.row (lo.1 + i)).map Prod.fst))).drop
        (partitionPoint (fun j => decide (j - A.indexing < lo.2)) ((A.row (lo.1 + i)).map Prod.fst)))
      = ((A.row (lo.1 + i)).filter fun p =>
          decide (lo.2 ≤ p.1 - A.indexing ∧ p.1 - A.indexing < up.2)).map f := by
    intro i hi β f
    rw [partitionPoint_map, partitionPoint_map, ← List.map_take, ← List.map_drop,
      between_points _ _ _ (part_lt h hs (hlt i hi) _) (part_lt h hs (hlt i hi) _)
        (by intro x hx; rw [decide_eq_true_eq] at hx ⊢; omega)]
    congr 1
    apply List.filter_congr
    intro x _
    by_cases a : x.1 - A.indexing < lo.2 <;> by_cases b : x.1 - A.indexing < up.2 <;>
      simp [a, b] <;> omega
  unfold Csr.extractSubmatrix
  dsimp only
  have hb := buildCsr_eq (up.1 - lo.1) (up.2 - lo.2)
    (((List.range (up.1 - lo.1)).map fun i => (A.rowCols (lo.1 + i)).countP fun j =>
      decide (lo.2 ≤ j - A.indexing ∧ j - A.indexing < up.2)).sum) A.indexing
    ((List.range (up.1 - lo.1)).map fun i => (A.rowCols (lo.1 + i)).countP fun j =>
      decide (lo.2 ≤ j - A.indexing ∧ j - A.indexing < up.2))
    (fun i => ((A.rowCols (lo.1 + i)).take (partitionPoint (fun j => decide (j - A.indexing < up.2))
      (A.rowCols (lo.1 + i)))).drop (partitionPoint (fun j => decide (j - A.indexing < lo.2))
      (A.rowCols (lo.1 + i))))
    (fun i => ((A.rowVals (lo.1 + i)).take (partitionPoint (fun j => decide (j - A.indexing < up.2))
      (A.rowCols (lo.1 + i)))).drop (partitionPoint (fun j => decide (j - A.indexing < lo.2))
      (A.rowCols (lo.1 + i)))) (by simp) rfl
    (by
      intro i hi
      simp only [List.getElem_map, List.getElem_range]
      rw [Csr.rowCols_eq h (hlt i hi), hmid i hi, List.length_map, List.countP_map,
        List.countP_eq_length_filter]
      rfl)
    (by
      intro i hi
      rw [Csr.rowCols_eq h (hlt i hi), Csr.rowVals_eq h (hlt i hi), hmid i hi, hmid i hi]
      simp)
  rw [hb, csrOfRows_mapCols]
  congr 1
  rw [List.map_map]
  apply List.map_congr_left
  intro i hi
  rw [List.mem_range] at hi
  simp only [Function.comp]
  rw [Csr.rowCols_eq h (hlt i hi), Csr.rowVals_eq h (hlt i hi), hmid i hi, hmid i hi, zip_fst_snd]

theorem extractExclCol_eq [Zero R] {A : Csr R} (h : CsrWF A) (hs : CsrSorted A) {lo up : Nat × Nat}
    (h2 : up.1 ≤ A.m) (h3 : lo.2 ≤ up.2) :
    A.extractExclCol lo up = csrOfRows (up.1 - lo.1) A.n A.indexing
      ((List.range (up.1 - lo.1)).map fun i =>
        ((A.row (lo.1 + i)).filter fun p =>
          decide (p.1 - A.indexing < lo.2 ∨ up.2 ≤ p.1 - A.indexing)).map fun p => (p.1, p.2)) := by
  have hlt : ∀ i < up.1 - lo.1, lo.1 + i < A.m := by intro i hi; omega
  have hmid : ∀ i < up.1 - lo.1, ∀ {β : Type} (f : Nat × R → β),
      (((A.row (lo.1 + i)).map f).take
        (partitionPoint (fun j => decide (j - A.indexing < lo.2)) ((A.row (lo.1 + i)).map Prod.fst)))
      ++ (((A.row (lo.1 + i)).map f).drop
        (partitionPoint (fun j => decide (j - A.indexing < up.2)) ((A.row (lo.1 + i)).map Prod.fst)))
      = ((A.row (lo.1 + i)).filter fun p =>
          decide (p.1 - A.indexing < lo.2 ∨ up.2 ≤ p.1 - A.indexing)).map f := by
    intro i hi β f
    have p1 := part_lt h hs (hlt i hi) lo.2
    have p2 := part_lt h hs (hlt i hi) up.2
    rw [partitionPoint_map, partitionPoint_map, ← List.map_take, ← List.map_drop, ← List.map_append,
      (partitionPoint_split _ _ p1).1, (partitionPoint_split _ _ p2).2]
    congr 1
    -- the filtered list splits at the window
    have p3 := p1.filter fun p =>
      decide (p.1 - A.indexing < lo.2 ∨ up.2 ≤ p.1 - A.indexing)
    have hsp := partitionPoint_split _ _ p3
    have e := List.take_append_drop (partitionPoint (fun x : Nat × R => decide (x.1 - A.indexing < lo.2))
      ((A.row (lo.1 + i)).filter fun p =>
        decide (p.1 - A.indexing < lo.2 ∨ up.2 ≤ p.1 - A.indexing)))
      ((A.row (lo.1 + i)).filter fun p =>
        decide (p.1 - A.indexing < lo.2 ∨ up.2 ≤ p.1 - A.indexing))
    rw [hsp.1, hsp.2, List.filter_filter, List.filter_filter] at e
    rw [← e]
    congr 1
    · apply List.filter_congr
      intro x _
      by_cases a : x.1 - A.indexing < lo.2 <;> simp [a]
    · apply List.filter_congr
      intro x _
      by_cases a : x.1 - A.indexing < lo.2 <;> by_cases b : x.1 - A.indexing < up.2 <;>
        simp [a, b] <;> omega
  unfold Csr.extractExclCol
  dsimp only
  have hb := buildCsr_eq (up.1 - lo.1) A.n
    (((List.range (up.1 - lo.1)).map fun i => (A.rowCols (lo.1 + i)).countP fun j =>
      decide (j - A.indexing < lo.2 ∨ up.2 ≤ j - A.indexing)).sum) A.indexing
    ((List.range (up.1 - lo.1)).map fun i => (A.rowCols (lo.1 + i)).countP fun j =>
      decide (j - A.indexing < lo.2 ∨ up.2 ≤ j - A.indexing))
    (fun i => (A.rowCols (lo.1 + i)).take (partitionPoint (fun j => decide (j - A.indexing < lo.2))
      (A.rowCols (lo.1 + i))) ++ (A.rowCols (lo.1 + i)).drop
        (partitionPoint (fun j => decide (j - A.indexing < up.2)) (A.rowCols (lo.1 + i))))
    (fun i => (A.rowVals (lo.1 + i)).take (partitionPoint (fun j => decide (j - A.indexing < lo.2))
      (A.rowCols (lo.1 + i))) ++ (A.rowVals (lo.1 + i)).drop
        (partitionPoint (fun j => decide (j - A.indexing < up.2)) (A.rowCols (lo.1 + i))))
    (by simp) rfl
    (by
      intro i hi
      simp only [List.getElem_map, List.getElem_range]
      rw [Csr.rowCols_eq h (hlt i hi), hmid i hi, List.length_map, List.countP_map,
        List.countP_eq_length_filter]
      rfl)
    (by
      intro i hi
      rw [Csr.rowCols_eq h (hlt i hi), Csr.rowVals_eq h (hlt i hi), hmid i hi, hmid i hi]
      simp)
  rw [hb]
  congr 1
  apply List.map_congr_left
  intro i hi
  rw [List.mem_range] at hi
  rw [Csr.rowCols_eq h (hlt i hi), Csr.rowVals_eq h (hlt i hi), hmid i hi, hmid i hi, zip_fst_snd]
  simp

/-- C46 (block): for every well-formed CSR matrix with sorted rows, any index base and any window
inside the matrix, `extract_submatrix` returns a well-formed sorted matrix of the window's shape whose
entry `(i,j)` is entry `(row_lo+i, col_lo+j)` of the original, with the same stored pattern. -/
theorem C46_submatrix [AddCommMonoid R] (A : Csr R) (h : CsrWF A) (hs : CsrSorted A)
    (lo up : Nat × Nat) (h1 : lo.1 ≤ up.1) (h2 : up.1 ≤ A.m) (h3 : lo.2 ≤ up.2) (h4 : up.2 ≤ A.n) :
    let B := A.extractSubmatrix lo up
    CsrWF B ∧ CsrSorted B ∧ B.indexing = A.indexing ∧ B.m = up.1 - lo.1 ∧ B.n = up.2 - lo.2 ∧
    ∀ i < up.1 - lo.1, ∀ j < up.2 - lo.2,
      csrEntry B i j = csrEntry A (lo.1 + i) (lo.2 + j) ∧
      (csrStored B i j ↔ csrStored A (lo.1 + i) (lo.2 + j)) := by
  intro B
  have hB : B = _ := extractSubmatrix_eq h hs h2 h3
  set rows := (List.range (up.1 - lo.1)).map fun i =>
        ((A.row (lo.1 + i)).filter fun p =>
          decide (lo.2 ≤ p.1 - A.indexing ∧ p.1 - A.indexing < up.2)).map
            fun p => (p.1 - lo.2, p.2) with hrows
  have hm : rows.length = up.1 - lo.1 := by simp [hrows]
  have hmem : ∀ i (hi : i < up.1 - lo.1), rows[i]'(by omega) =
      ((A.row (lo.1 + i)).filter fun p =>
          decide (lo.2 ≤ p.1 - A.indexing ∧ p.1 - A.indexing < up.2)).map
            fun p => (p.1 - lo.2, p.2) := by
    intro i hi; simp [hrows]
  have hr : ∀ r ∈ rows, ∀ p ∈ r, A.indexing ≤ p.1 ∧ p.1 < A.indexing + (up.2 - lo.2) := by
    intro r hr p hp
    obtain ⟨i, hi, rfl⟩ := List.mem_iff_getElem.1 hr
    rw [hmem i (by omega), List.mem_map] at hp
    obtain ⟨q, hq, rfl⟩ := hp
    rw [List.mem_filter, decide_eq_true_eq] at hq
    have := row_col_range h (i := lo.1 + i) (by omega) hq.1
    dsimp only; omega
  have hw : CsrWF B := hB ▸ csrOfRows_wf hm hr
  refine ⟨hw, ?_, ?_, ?_, ?_, ?_⟩
  · rw [hB]
    apply csrOfRows_sorted hm hr
    intro r hr
    obtain ⟨i, hi, rfl⟩ := List.mem_iff_getElem.1 hr
    rw [hmem i (by omega), List.map_map, List.pairwise_map]
    have := row_sorted h hs (i := lo.1 + i) (by omega)
    rw [List.pairwise_map] at this
    apply List.Pairwise.imp_of_mem _ (this.filter _)
    intro a b ha hb hab
    rw [List.mem_filter, decide_eq_true_eq] at ha hb
    simp only [Function.comp]
    omega
  · rw [hB]; rfl
  · rw [hB]; rfl
  · rw [hB]; rfl
  · intro i hi j hj
    constructor
    · rw [hB, csrOfRows_filter_entry h _ _ _ rows hm hr hi (r := lo.1 + i) (by omega)
        (fun c => lo.2 ≤ c - A.indexing ∧ c - A.indexing < up.2) (fun c => c - lo.2) (hmem i hi)
        (c := lo.2 + j) (by
          intro p hp hq
          have := row_col_range h (i := lo.1 + i) (by omega) hp
          omega)]
      rw [if_pos (by omega)]
    · rw [csrStored_iff hw (by rw [hB]; exact hi), csrStored_iff h (by omega)]
      have e1 : B.row i = rows[i]'(by omega) := by rw [hB]; exact csrOfRows_row hm hi
      have e2 : B.indexing = A.indexing := by rw [hB]; rfl
      rw [e1, e2, hmem i hi, List.map_map]
      simp only [List.mem_map, List.mem_filter, decide_eq_true_eq, Function.comp]
      constructor
      · rintro ⟨p, ⟨hp, hq⟩, e⟩
        have := row_col_range h (i := lo.1 + i) (by omega) hp
        exact ⟨p, hp, by omega⟩
      · rintro ⟨p, hp, e⟩
        exact ⟨p, ⟨hp, by omega⟩, by omega⟩

/-- C46 (complement): `extract_submatrix_inclrow_exclcol` returns the selected rows at full width with
the column window removed. -/
theorem C46_inclrow_exclcol [AddCommMonoid R] (A : Csr R) (h : CsrWF A) (hs : CsrSorted A)
    (lo up : Nat × Nat) (h1 : lo.1 ≤ up.1) (h2 : up.1 ≤ A.m) (h3 : lo.2 ≤ up.2) :
    let B := A.extractExclCol lo up
    CsrWF B ∧ CsrSorted B ∧ B.indexing = A.indexing ∧ B.m = up.1 - lo.1 ∧ B.n = A.n ∧
    ∀ i < up.1 - lo.1, ∀ j < A.n,
      csrEntry B i j = (if lo.2 ≤ j ∧ j < up.2 then 0 else csrEntry A (lo.1 + i) j) ∧
      (csrStored B i j ↔ csrStored A (lo.1 + i) j ∧ ¬ (lo.2 ≤ j ∧ j < up.2)) := by
  intro B
  have hB : B = _ := extractExclCol_eq h hs h2 h3
  set rows := (List.range (up.1 - lo.1)).map fun i =>
        ((A.row (lo.1 + i)).filter fun p =>
          decide (p.1 - A.indexing < lo.2 ∨ up.2 ≤ p.1 - A.indexing)).map fun p => (p.1, p.2) with hrows
  have hm : rows.length = up.1 - lo.1 := by simp [hrows]
  have hmem : ∀ i (hi : i < up.1 - lo.1), rows[i]'(by omega) =
      ((A.row (lo.1 + i)).filter fun p =>
          decide (p.1 - A.indexing < lo.2 ∨ up.2 ≤ p.1 - A.indexing)).map fun p => (p.1, p.2) := by
    intro i hi; simp [hrows]
  have hr : ∀ r ∈ rows, ∀ p ∈ r, A.indexing ≤ p.1 ∧ p.1 < A.indexing + A.n := by
    intro r hr p hp
    obtain ⟨i, hi, rfl⟩ := List.mem_iff_getElem.1 hr
    rw [hmem i (by omega), List.mem_map] at hp
    obtain ⟨q, hq, rfl⟩ := hp
    rw [List.mem_filter, decide_eq_true_eq] at hq
    exact row_col_range h (i := lo.1 + i) (by omega) hq.1
  have hw : CsrWF B := hB ▸ csrOfRows_wf hm hr
  refine ⟨hw, ?_, ?_, ?_, ?_, ?_⟩
  · rw [hB]
    apply csrOfRows_sorted hm hr
    intro r hr
    obtain ⟨i, hi, rfl⟩ := List.mem_iff_getElem.1 hr
    rw [hmem i (by omega), List.map_map, List.pairwise_map]
    have := row_sorted h hs (i := lo.1 + i) (by omega)
    rw [List.pairwise_map] at this
    exact this.filter _
  · rw [hB]; rfl
  · rw [hB]; rfl
  · rw [hB]; rfl
  · intro i hi j hj
    constructor
    · rw [hB, csrOfRows_filter_entry h _ _ _ rows hm hr hi (r := lo.1 + i) (by omega)
        (fun c => c - A.indexing < lo.2 ∨ up.2 ≤ c - A.indexing) (fun c => c) (hmem i hi)
        (c := j) (by intro p hp hq; exact Iff.rfl)]
      by_cases hc : lo.2 ≤ j ∧ j < up.2
      · rw [if_pos hc, if_neg (by omega)]
      · rw [if_neg hc, if_pos (by omega)]
    · rw [csrStored_iff hw (by rw [hB]; exact hi), csrStored_iff h (by omega)]
      have e1 : B.row i = rows[i]'(by omega) := by rw [hB]; exact csrOfRows_row hm hi
      have e2 : B.indexing = A.indexing := by rw [hB]; rfl
      rw [e1, e2, hmem i hi, List.map_map]
      simp only [List.mem_map, List.mem_filter, decide_eq_true_eq, Function.comp]
      constructor
      · rintro ⟨p, ⟨hp, hq⟩, e⟩
        exact ⟨⟨p, hp, e⟩, by omega⟩
      · rintro ⟨⟨p, hp, e⟩, hc⟩
        exact ⟨p, ⟨hp, by omega⟩, e⟩

/-- C46: the two extractions together restore the rows. -/
theorem C46_parts_restore_rows [AddCommMonoid R] (A : Csr R) (h : CsrWF A) (hs : CsrSorted A)
    (lo up : Nat × Nat) (h1 : lo.1 ≤ up.1) (h2 : up.1 ≤ A.m) (h3 : lo.2 ≤ up.2) (h4 : up.2 ≤ A.n) :
    ∀ i < up.1 - lo.1, ∀ j < A.n, csrEntry A (lo.1 + i) j
      = (if lo.2 ≤ j ∧ j < up.2 then csrEntry (A.extractSubmatrix lo up) i (j - lo.2) else 0)
        + csrEntry (A.extractExclCol lo up) i j := by
  intro i hi j hj
  obtain ⟨-, -, -, -, -, e1⟩ := C46_submatrix A h hs lo up h1 h2 h3 h4
  obtain ⟨-, -, -, -, -, e2⟩ := C46_inclrow_exclcol A h hs lo up h1 h2 h3
  rw [(e2 i hi j hj).1]
  by_cases hc : lo.2 ≤ j ∧ j < up.2
  · rw [if_pos hc, if_pos hc, (e1 i hi (j - lo.2) (by omega)).1, add_zero,
      Nat.add_sub_cancel' hc.1]
  · rw [if_neg hc, if_neg hc, zero_add]

/-- the sorted one-based 3x4 matrix `[[1,0,2,3],[0,0,0,0],[0,4,0,5]]` -/
def exCsr34 : Csr Int := { m := 3, n := 4, indexing := 1, rowptr := [1, 4, 4, 6],
                           colind := [1, 3, 4, 2, 4], nzval := [1, 2, 3, 4, 5] }

theorem exCsr34_wf : CsrWF exCsr34 where
  rowptr_length := rfl
  rowptr_first := rfl
  rowptr_mono := by decide
  rowptr_last := rfl
  colind_length := rfl
  col_range := by decide

theorem exCsr34_sorted : CsrSorted exCsr34 := by
  apply sorted_of_rows exCsr34_wf
  decide +kernel

example : exCsr34.extractSubmatrix (0, 1) (3, 3)
    = { m := 3, n := 2, indexing := 1, rowptr := [1, 2, 2, 3], colind := [2, 1], nzval := [2, 4] } := by
  decide +kernel

example : exCsr34.extractExclCol (0, 1) (3, 3)
    = { m := 3, n := 4, indexing := 1, rowptr := [1, 3, 3, 4], colind := [1, 4, 4], nzval := [1, 3, 5] } := by
  decide +kernel

/-- C46 needs sorted rows: with an unsorted row the binary searches disagree with the counts and an
entry of the window is lost. -/
theorem C46_needs_sorted_rows :
    ∃ A : Csr Int, CsrWF A ∧ csrEntry A 0 2 = 7 ∧
      csrEntry (A.extractSubmatrix (0, 0) (1, 3)) 0 2 = 0 :=
  ⟨{ m := 1, n := 4, indexing := 0, rowptr := [0, 3], colind := [0, 3, 2], nzval := [5, 6, 7] },
   ⟨rfl, rfl, by decide, rfl, rfl, by decide⟩, by decide +kernel, by decide +kernel⟩

/-! ### C61: distributing a serial matrix -/

theorem tiles_ok [AddCommMonoid R] {A : Csr R} (h : CsrWF A) (hs : CsrSorted A) (hsq : A.m = A.n)
    {st en : Nat} (h1 : st ≤ en) (h2 : en ≤ A.m) :
    let D := (A.extractSubmatrix (st, st) (en, en)).setIndexing 0
    let O := (A.extractExclCol (st, st) (en, en)).setIndexing 0
    (CsrWF D ∧ D.indexing = 0 ∧ D.m = en - st ∧ D.n = en - st) ∧
    (CsrWF O ∧ O.indexing = 0 ∧ O.m = en - st ∧ O.n = A.n ∧ ∀ c ∈ O.colind, ¬ (st ≤ c ∧ c < en)) ∧
    ∀ i < en - st, ∀ j < A.n,
      (if st ≤ j ∧ j < en then csrEntry D i (j - st) else 0) + csrEntry O i j
        = csrEntry A (st + i) j := by
  obtain ⟨w1, s1, i1, m1, n1, e1⟩ := C46_submatrix A h hs (st, st) (en, en) h1 h2 h1 (by dsimp only; omega)
  obtain ⟨w2, s2, i2, m2, n2, e2⟩ := C46_inclrow_exclcol A h hs (st, st) (en, en) h1 h2 h1
  dsimp only at w1 w2 i1 i2 m1 m2 n1 n2 e1 e2
  obtain ⟨a1, a2, a3, a4, a5, a6⟩ := setIndexing_spec w1 0
  obtain ⟨b1, b2, b3, b4, b5, b6⟩ := setIndexing_spec w2 0
  refine ⟨⟨a1, a4, by rw [a2, m1], by rw [a3, n1]⟩,
    ⟨b1, b4, by rw [b2, m2], by rw [b3, n2], ?_⟩, ?_⟩
  · intro c hc
    obtain ⟨i, hi, hst⟩ := colind_stored b1 hc
    rw [b4, Nat.sub_zero] at hst
    rw [csrStored_iff b1 hi, b4, b5 i (by rw [b2] at hi; exact hi), List.map_map] at hst
    rw [b2] at hi
    rw [List.mem_map] at hst
    obtain ⟨p, hp, e⟩ := hst
    have hr := row_col_range w2 hi hp
    have : csrStored (A.extractExclCol (st, st) (en, en)) i c := by
      rw [csrStored_iff w2 hi]
      refine List.mem_map.2 ⟨p, hp, ?_⟩
      simp only [Function.comp] at e
      omega
    have hcn : c < A.n := by
      simp only [Function.comp] at e
      rw [n2] at hr; omega
    exact ((e2 i (by rw [m2] at hi; exact hi) c hcn).2.1 this).2
  · intro i hi j hj
    rw [b6 i (by rw [m2]; exact hi), (e2 i hi j hj).1]
    by_cases hc : st ≤ j ∧ j < en
    · rw [if_pos hc, if_pos hc, a6 i (by rw [m1]; exact hi), (e1 i hi (j - st) (by omega)).1, add_zero,
        Nat.add_sub_cancel' hc.1]
    · rw [if_neg hc, if_neg hc, zero_add]

/-- C61: distributing a serial square matrix over any number of ranks, each rank holds exactly its
rows: the objects form a consistent distributed matrix and row `i` of rank `r` is row `st+i` of the
serial matrix. -/
theorem C61_distribute_serial [AddCommMonoid R] (A : Csr R) (h : CsrWF A) (hs : CsrSorted A)
    (hsq : A.m = A.n) (P : Nat) (hP : 0 < P) :
    DistributedMatrix (fun r => DistCsr.ofSerial P r A) P A.n (defaultExtents A.m P) ∧
    ∀ r < P, ∀ st en, (defaultExtents A.m P)[r]? = some (st, en) → ∀ i < en - st, ∀ j < A.n,
      distEntry (DistCsr.ofSerial P r A) st en i j = csrEntry A (st + i) j := by
  have part := defaultExtents_partition A.m P hP
  have hb : ∀ r st en, (defaultExtents A.m P)[r]? = some (st, en) →
      (DistCsr.create P r A.m A.n : DistCsr R).rowBounds r = (st, en) := by
    intro r st en hse
    show (defaultExtents A.m P).getD r (0, 0) = (st, en)
    rw [List.getD_eq_getElem?_getD, hse]; rfl
  have hen : ∀ r < P, ∀ st en, (defaultExtents A.m P)[r]? = some (st, en) → st ≤ en ∧ en ≤ A.m := by
    intro r hr st en hse
    refine ⟨part.ordered (st, en) (List.mem_of_getElem? hse), ?_⟩
    rcases Nat.lt_or_ge r (P - 1) with hlt | hge
    · have hl2 : P - 1 < (defaultExtents A.m P).length := by rw [part.length_eq]; omega
      have e := List.getElem?_eq_getElem hl2
      have h1 := part.mono hlt hse e
      have h2 := part.ordered _ (List.getElem_mem hl2)
      rw [part.ends _ e] at h2
      dsimp only at h1; omega
    · have : r = P - 1 := by omega
      subst this
      exact (part.ends _ hse).le
  have hd : ∀ r st en, (defaultExtents A.m P)[r]? = some (st, en) →
      (DistCsr.ofSerial P r A).diag = some ((A.extractSubmatrix (st, st) (en, en)).setIndexing 0) ∧
      (DistCsr.ofSerial P r A).offdiag = some ((A.extractExclCol (st, st) (en, en)).setIndexing 0) := by
    intro r st en hse
    unfold DistCsr.ofSerial
    simp only [hb r st en hse, and_self]
  refine ⟨⟨hsq ▸ part, ?_, ?_, ?_, ?_, ?_, ?_⟩, ?_⟩
  · intro r _; rfl
  · intro r _; rfl
  · intro r _; rfl
  · intro r _; rfl
  · intro r hr st en hse
    obtain ⟨h1, h2⟩ := hen r hr st en hse
    exact ⟨_, (hd r st en hse).1, (tiles_ok h hs hsq h1 h2).1⟩
  · intro r hr st en hse O hO
    obtain ⟨h1, h2⟩ := hen r hr st en hse
    rw [(hd r st en hse).2, Option.some.injEq] at hO
    subst hO
    exact (tiles_ok h hs hsq h1 h2).2.1
  · intro r hr st en hse i hi j hj
    obtain ⟨h1, h2⟩ := hen r hr st en hse
    unfold distEntry
    rw [(hd r st en hse).1, (hd r st en hse).2]
    exact (tiles_ok h hs hsq h1 h2).2.2 i hi j hj

/-- C61, user supplied tiles: rejected tilings throw, accepted ones give the same statement. -/
theorem C61_distribute_serial_tiled [AddCommMonoid R] (A : Csr R) (h : CsrWF A) (hs : CsrSorted A)
    (hsq : A.m = A.n) (P : Nat) (hP : 0 < P) (tiles : List (Nat × Nat)) :
    (∀ r, (DistCsr.ofSerialTiled P r A tiles).isSome ↔ RowPartition A.m P tiles) ∧
    ∀ B : Nat → DistCsr R, (∀ r < P, DistCsr.ofSerialTiled P r A tiles = some (B r)) →
      DistributedMatrix B P A.n tiles ∧
      ∀ r < P, ∀ st en, tiles[r]? = some (st, en) → ∀ i < en - st, ∀ j < A.n,
        distEntry (B r) st en i j = csrEntry A (st + i) j := by
  constructor
  · intro r
    unfold DistCsr.ofSerialTiled
    rw [Option.isSome_map]
    exact (C42_custom_tiles R P r A.m A.n hP tiles).1
  · intro B hB
    have hx : ∀ r < P, ∃ D : DistCsr R, DistCsr.createTiled P r A.m A.n tiles = some D ∧ D.extents = tiles ∧
        B r = { D with
          diag := some ((A.extractSubmatrix ((D.rowBounds r).1, (D.rowBounds r).1)
            ((D.rowBounds r).2, (D.rowBounds r).2)).setIndexing 0)
          offdiag := some ((A.extractExclCol ((D.rowBounds r).1, (D.rowBounds r).1)
            ((D.rowBounds r).2, (D.rowBounds r).2)).setIndexing 0) } ∧
        D.size = P ∧ D.rank = r ∧ D.n = A.n := by
      intro r hr
      have := hB r hr
      unfold DistCsr.ofSerialTiled at this
      rw [Option.map_eq_some_iff] at this
      obtain ⟨D, hD, e⟩ := this
      refine ⟨D, hD, ((C42_custom_tiles R P r A.m A.n hP tiles).2 D hD).1, e.symm, ?_⟩
      unfold DistCsr.createTiled at hD
      rw [Option.map_eq_some_iff] at hD
      obtain ⟨x, -, rfl⟩ := hD
      exact ⟨rfl, rfl, rfl⟩
    have part : RowPartition A.m P tiles := by
      obtain ⟨D, hD, -⟩ := hx 0 hP
      exact (C42_custom_tiles R P 0 A.m A.n hP tiles).1.1 (by rw [hD]; rfl)
    have hen : ∀ r < P, ∀ st en, tiles[r]? = some (st, en) → st ≤ en ∧ en ≤ A.m := by
      intro r hr st en hse
      refine ⟨part.ordered (st, en) (List.mem_of_getElem? hse), ?_⟩
      rcases Nat.lt_or_ge r (P - 1) with hlt | hge
      · have hl2 : P - 1 < tiles.length := by rw [part.length_eq]; omega
        have e := List.getElem?_eq_getElem hl2
        have h1 := part.mono hlt hse e
        have h2 := part.ordered _ (List.getElem_mem hl2)
        rw [part.ends _ e] at h2
        dsimp only at h1; omega
      · have : r = P - 1 := by omega
        subst this
        exact (part.ends _ hse).le
    have hd : ∀ r < P, ∀ st en, tiles[r]? = some (st, en) →
        (B r).diag = some ((A.extractSubmatrix (st, st) (en, en)).setIndexing 0) ∧
        (B r).offdiag = some ((A.extractExclCol (st, st) (en, en)).setIndexing 0) := by
      intro r hr st en hse
      obtain ⟨D, -, e1, e2, -⟩ := hx r hr
      have hb : D.rowBounds r = (st, en) := by
        unfold DistCsr.rowBounds
        rw [e1, List.getD_eq_getElem?_getD, hse]; rfl
      rw [e2, hb]
      exact ⟨rfl, rfl⟩
    refine ⟨⟨hsq ▸ part, ?_, ?_, ?_, ?_, ?_, ?_⟩, ?_⟩
    · intro r hr
      obtain ⟨D, -, -, e, s, -, -⟩ := hx r hr
      rw [e]; exact s
    · intro r hr
      obtain ⟨D, -, -, e, -, s, -⟩ := hx r hr
      rw [e]; exact s
    · intro r hr
      obtain ⟨D, -, -, e, -, -, s⟩ := hx r hr
      rw [e]; exact s
    · intro r hr
      obtain ⟨D, -, s, e, -⟩ := hx r hr
      rw [e]; exact s
    · intro r hr st en hse
      obtain ⟨h1, h2⟩ := hen r hr st en hse
      exact ⟨_, (hd r hr st en hse).1, (tiles_ok h hs hsq h1 h2).1⟩
    · intro r hr st en hse O hO
      obtain ⟨h1, h2⟩ := hen r hr st en hse
      rw [(hd r hr st en hse).2, Option.some.injEq] at hO
      subst hO
      exact (tiles_ok h hs hsq h1 h2).2.1
    · intro r hr st en hse i hi j hj
      obtain ⟨h1, h2⟩ := hen r hr st en hse
      unfold distEntry
      rw [(hd r hr st en hse).1, (hd r hr st en hse).2]
      exact (tiles_ok h hs hsq h1 h2).2.2 i hi j hj

/-- C61 with C45: distributing a serial matrix and multiplying in parallel gives the rows of the
serial product. -/
theorem C61_distributed_product [Semiring R] (A : Csr R) (h : CsrWF A) (hs : CsrSorted A)
    (hsq : A.m = A.n) (P : Nat) (hP : 0 < P) (alpha beta : R) (V : Nat → Nat → R)
    (x AV garbage : Nat → R)
    (hV : ∀ r < P, ∀ st en, (defaultExtents A.m P)[r]? = some (st, en) →
      ∀ k < en - st, V r k = x (st + k)) :
    ∀ r < P, ∀ st en, (defaultExtents A.m P)[r]? = some (st, en) → ∀ i < en - st,
      pgespmv (fun r => DistCsr.ofSerial P r A) (spmvInfo fun r => DistCsr.ofSerial P r A)
          alpha V beta AV garbage r i
        = alpha * (∑ j ∈ Finset.range A.n, csrEntry A (st + i) j * x j) + beta * AV i := by
  obtain ⟨hd, he⟩ := C61_distribute_serial A h hs hsq P hP
  intro r hr st en hse i hi
  rw [C45_distributed_spmv hd alpha beta V x AV garbage hV r hr st en hse i hi]
  congr 2
  apply Finset.sum_congr rfl
  intro j hj
  rw [he r hr st en hse i hi j (Finset.mem_range.1 hj)]

end Macis
