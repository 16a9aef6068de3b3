import Verif.Base
import Verif.Spec.Sparse
import Mathlib.Algebra.BigOperators.Intervals
import Mathlib.Data.List.GetD
namespace Macis
open Spec
variable {R : Type}

theorem sum_map_range {R : Type} [AddCommMonoid R] (f : Nat → R) (n : Nat) :
    ((List.range n).map f).sum = ∑ k ∈ Finset.range n, f k := by
  induction n with
  | zero => simp
  | succ n ih => rw [List.range_succ, List.map_append, List.sum_append, ih,
      Finset.sum_range_succ]; simp

theorem slice_zip {α β : Type} (l₁ : List α) (l₂ : List β) (a b : α) (z : β) (lo cnt : Nat)
    (h₁ : lo + cnt ≤ l₁.length) (h₂ : lo + cnt ≤ l₂.length) :
    ((l₁.drop lo).take cnt).zip ((l₂.drop lo).take cnt)
      = (List.range cnt).map fun k => (l₁.getD (lo + k) a, l₂.getD (lo + k) z) := by
  apply List.ext_getElem
  · simp; omega
  · intro i hi hi'
    simp at hi'
    simp [List.getD_eq_getElem, show lo + i < l₁.length by omega,
      show lo + i < l₂.length by omega]

theorem slice_eq {α : Type} (l₁ : List α) (a : α) (lo cnt : Nat)
    (h₁ : lo + cnt ≤ l₁.length) :
    ((l₁.drop lo).take cnt) = (List.range cnt).map fun k => l₁.getD (lo + k) a := by
  apply List.ext_getElem
  · simp; omega
  · intro i hi hi'
    simp at hi'
    simp [List.getD_eq_getElem, show lo + i < l₁.length by omega]

namespace CsrWFL
variable {A : Csr R}

theorem mono (h : CsrWF A) : ∀ i j, i ≤ j → j ≤ A.m → A.rowptr.getD i 0 ≤ A.rowptr.getD j 0 := by
  intro i j hij hj
  induction j with
  | zero => simp [Nat.le_zero.mp hij]
  | succ j ih =>
    rcases Nat.lt_or_ge i (j + 1) with h' | h'
    · exact le_trans (ih (by omega) (by omega)) (h.rowptr_mono j (by omega))
    · rw [show i = j + 1 by omega]

theorem ge_idx (h : CsrWF A) {i : Nat} (hi : i ≤ A.m) : A.indexing ≤ A.rowptr.getD i 0 := by
  rw [← h.rowptr_first]; exact mono h 0 i (by omega) hi

theorem le_last (h : CsrWF A) {i : Nat} (hi : i ≤ A.m) :
    A.rowptr.getD i 0 ≤ A.indexing + A.nzval.length := by
  rw [← h.rowptr_last]; exact mono h i A.m hi le_rfl

end CsrWFL

/-- a row as a list of `(column, value)` pairs, position by position -/
theorem Csr.row_eq [Zero R] {A : Csr R} (h : CsrWF A) {i : Nat} (hi : i < A.m) :
    A.row i = (List.range (A.rp (i + 1) - A.rp i)).map fun k =>
      (A.colind.getD (A.rp i - A.indexing + k) 0, A.nzval.getD (A.rp i - A.indexing + k) 0) := by
  have h1 := CsrWFL.ge_idx h (i := i) (by omega)
  have h2 := CsrWFL.le_last h (i := i + 1) (by omega)
  have h3 := h.rowptr_mono i hi
  have h4 := h.colind_length
  unfold Csr.row Csr.rowCols Csr.rowVals
  unfold Csr.rp
  rw [show A.rowptr.getD (i + 1) 0 - A.indexing - (A.rowptr.getD i 0 - A.indexing)
      = A.rowptr.getD (i + 1) 0 - A.rowptr.getD i 0 by omega]
  apply slice_zip (a := 0) (b := 0)
  · omega
  · omega

theorem Csr.rowCols_eq [Zero R] {A : Csr R} (h : CsrWF A) {i : Nat} (hi : i < A.m) :
    A.rowCols i = (A.row i).map Prod.fst := by
  rw [Csr.row_eq h hi]
  have h1 := CsrWFL.ge_idx h (i := i) (by omega)
  have h2 := CsrWFL.le_last h (i := i + 1) (by omega)
  have h3 := h.rowptr_mono i hi
  have h4 := h.colind_length
  unfold Csr.rowCols Csr.rp
  rw [show A.rowptr.getD (i + 1) 0 - A.indexing - (A.rowptr.getD i 0 - A.indexing)
      = A.rowptr.getD (i + 1) 0 - A.rowptr.getD i 0 by omega, slice_eq _ 0]
  · simp
  · omega

theorem Csr.rowVals_eq [Zero R] {A : Csr R} (h : CsrWF A) {i : Nat} (hi : i < A.m) :
    A.rowVals i = (A.row i).map Prod.snd := by
  rw [Csr.row_eq h hi]
  have h1 := CsrWFL.ge_idx h (i := i) (by omega)
  have h2 := CsrWFL.le_last h (i := i + 1) (by omega)
  have h3 := h.rowptr_mono i hi
  have h4 := h.colind_length
  unfold Csr.rowVals Csr.rp
  rw [show A.rowptr.getD (i + 1) 0 - A.indexing - (A.rowptr.getD i 0 - A.indexing)
      = A.rowptr.getD (i + 1) 0 - A.rowptr.getD i 0 by omega, slice_eq _ 0]
  · simp
  · omega

theorem csrEntry_eq [AddCommMonoid R] {A : Csr R} (h : CsrWF A) {i : Nat} (hi : i < A.m)
    (j : Nat) :
    csrEntry A i j
      = ((A.row i).map fun p => if p.1 = j + A.indexing then p.2 else 0).sum := by
  have h1 := CsrWFL.ge_idx h (i := i) (by omega)
  have h3 := h.rowptr_mono i hi
  rw [Csr.row_eq h hi, List.map_map, sum_map_range, csrEntry, Finset.sum_Ico_eq_sum_range]
  unfold Csr.rp
  rw [show A.rowptr.getD (i + 1) 0 - A.indexing - (A.rowptr.getD i 0 - A.indexing)
      = A.rowptr.getD (i + 1) 0 - A.rowptr.getD i 0 by omega]
  rfl

theorem csrStored_iff [Zero R] {A : Csr R} (h : CsrWF A) {i : Nat} (hi : i < A.m) (j : Nat) :
    csrStored A i j ↔ j + A.indexing ∈ (A.row i).map Prod.fst := by
  have h1 := CsrWFL.ge_idx h (i := i) (by omega)
  have h3 := h.rowptr_mono i hi
  rw [Csr.row_eq h hi, List.map_map]
  simp only [List.mem_map, List.mem_range, Function.comp, csrStored]
  unfold Csr.rp
  constructor
  · rintro ⟨k, hk1, hk2, hk3⟩
    refine ⟨k - (A.rowptr.getD i 0 - A.indexing), by omega, ?_⟩
    rw [show A.rowptr.getD i 0 - A.indexing + (k - (A.rowptr.getD i 0 - A.indexing)) = k by omega]
    exact hk3
  · rintro ⟨a, ha, e⟩
    exact ⟨_, by omega, by omega, e⟩

theorem row_col_range [Zero R] {A : Csr R} (h : CsrWF A) {i : Nat} (hi : i < A.m)
    {p : Nat × R} (hp : p ∈ A.row i) : A.indexing ≤ p.1 ∧ p.1 < A.indexing + A.n := by
  have : p.1 ∈ A.rowCols i := by
    rw [Csr.rowCols_eq h hi]; exact List.mem_map_of_mem hp
  exact h.col_range _ (List.mem_of_mem_drop (List.mem_of_mem_take this))

/-- sortedness of a row as a list -/
theorem row_sorted [Zero R] {A : Csr R} (h : CsrWF A) (hs : CsrSorted A) {i : Nat}
    (hi : i < A.m) : ((A.row i).map Prod.fst).Pairwise (· < ·) := by
  rw [Csr.row_eq h hi, List.map_map]
  have h1 := CsrWFL.ge_idx h (i := i) (by omega)
  have h3 := h.rowptr_mono i hi
  rw [List.pairwise_map]
  apply List.Pairwise.imp_of_mem _ List.pairwise_lt_range
  intro k l hk hl hkl
  simp at hk hl
  simp only [Function.comp]
  unfold Csr.rp at *
  apply hs i hi <;> omega

theorem sorted_of_rows [Zero R] {A : Csr R} (h : CsrWF A)
    (hs : ∀ i < A.m, ((A.row i).map Prod.fst).Pairwise (· < ·)) : CsrSorted A := by
  intro i hi k l hk hkl hl
  have := hs i hi
  rw [Csr.row_eq h hi, List.map_map, List.pairwise_iff_getElem] at this
  have h1 := CsrWFL.ge_idx h (i := i) (by omega)
  have h3 := h.rowptr_mono i hi
  unfold Csr.rp at this
  have := this (k - (A.rowptr.getD i 0 - A.indexing)) (l - (A.rowptr.getD i 0 - A.indexing))
    (by rw [List.length_map, List.length_range]; omega)
    (by rw [List.length_map, List.length_range]; omega) (by omega)
  simp only [List.getElem_map, List.getElem_range, Function.comp] at this
  rwa [show A.rowptr.getD i 0 - A.indexing + (k - (A.rowptr.getD i 0 - A.indexing)) = k by omega,
    show A.rowptr.getD i 0 - A.indexing + (l - (A.rowptr.getD i 0 - A.indexing)) = l by omega]
    at this

/-! ### matrices assembled row by row -/

/-- CSR storage of a list of rows (helper of the proofs). -/
def csrOfRows (m n idx : Nat) (rows : List (List (Nat × R))) : Csr R :=
  { m, n, indexing := idx
    rowptr := (List.range (m + 1)).map fun i => idx + ((rows.take i).map List.length).sum
    colind := rows.flatten.map Prod.fst
    nzval := rows.flatten.map Prod.snd }

theorem csrOfRows_rp [Zero R] (m n idx : Nat) (rows : List (List (Nat × R))) {i : Nat} (hi : i ≤ m) :
    (csrOfRows m n idx rows).rowptr.getD i 0 = idx + ((rows.take i).map List.length).sum := by
  simp [csrOfRows, List.getD_eq_getElem, Nat.lt_succ_of_le hi]

theorem csrOfRows_wf [Zero R] {m n idx : Nat} {rows : List (List (Nat × R))}
    (hm : rows.length = m)
    (hc : ∀ r ∈ rows, ∀ p ∈ r, idx ≤ p.1 ∧ p.1 < idx + n) :
    CsrWF (csrOfRows m n idx rows) where
  rowptr_length := by simp [csrOfRows]
  rowptr_first := by rw [csrOfRows_rp _ _ _ _ (by omega)]; simp [csrOfRows]
  rowptr_mono := by
    intro i hi
    change i < m at hi
    rw [csrOfRows_rp _ _ _ _ (by omega), csrOfRows_rp _ _ _ _ (by omega)]
    rw [List.take_succ_eq_append_getElem (by omega), List.map_append, List.sum_append]
    omega
  rowptr_last := by
    change (csrOfRows m n idx rows).rowptr.getD m 0 = _
    rw [csrOfRows_rp _ _ _ _ le_rfl, List.take_of_length_le (by omega)]
    simp only [csrOfRows, List.length_map, List.length_flatten]
  colind_length := by simp only [csrOfRows, List.length_map]
  col_range := by
    intro c hc'
    simp only [csrOfRows, List.mem_map, List.mem_flatten] at hc'
    obtain ⟨p, ⟨r, hr, hp⟩, rfl⟩ := hc'
    exact hc r hr p hp

theorem csrOfRows_row [Zero R] {m n idx : Nat} {rows : List (List (Nat × R))}
    (hm : rows.length = m) {i : Nat} (hi : i < m) :
    (csrOfRows m n idx rows).row i = rows[i] := by
  have hsl : (rows.flatten.drop ((rows.take i).map List.length).sum).take rows[i].length
      = rows[i] := by
    have e : rows.flatten = (rows.take i).flatten ++ (rows[i] ++ (rows.drop (i + 1)).flatten) := by
      conv_lhs => rw [← List.take_append_drop i rows, List.flatten_append,
        List.drop_eq_getElem_cons (by omega), List.flatten_cons]
    rw [e, List.drop_append_of_le_length (by simp [List.length_flatten]), List.drop_of_length_le
      (by simp [List.length_flatten]), List.nil_append, List.take_append_of_le_length le_rfl,
      List.take_length]
  have hlen : ((rows.take (i + 1)).map List.length).sum
      = ((rows.take i).map List.length).sum + rows[i].length := by
    rw [List.take_succ_eq_append_getElem (by omega), List.map_append, List.sum_append]
    rfl
  unfold Csr.row Csr.rowCols Csr.rowVals Csr.rp
  rw [csrOfRows_rp _ _ _ _ (by omega), csrOfRows_rp _ _ _ _ (by omega), hlen]
  simp only [csrOfRows]
  rw [show idx + (((rows.take i).map List.length).sum + rows[i].length) - idx
      - (idx + ((rows.take i).map List.length).sum - idx) = rows[i].length by omega,
    show idx + ((rows.take i).map List.length).sum - idx = ((rows.take i).map List.length).sum by
      omega, ← List.map_drop, ← List.map_drop, ← List.map_take, ← List.map_take, hsl]
  exact List.zip_unzip rows[i] |> fun h => by simpa [List.unzip_eq_map] using h

theorem csrOfRows_entry [AddCommMonoid R] {m n idx : Nat} {rows : List (List (Nat × R))}
    (hm : rows.length = m) (hc : ∀ r ∈ rows, ∀ p ∈ r, idx ≤ p.1 ∧ p.1 < idx + n)
    {i : Nat} (hi : i < m) (j : Nat) :
    csrEntry (csrOfRows m n idx rows) i j
      = ((rows[i]).map fun p => if p.1 = j + idx then p.2 else 0).sum := by
  rw [csrEntry_eq (csrOfRows_wf hm hc) (by exact hi), csrOfRows_row hm hi]
  rfl

theorem flatten_slices {α : Type} (l : List α) (f : Nat → Nat) (h0 : f 0 = 0) (m : Nat)
    (hm : ∀ i < m, f i ≤ f (i + 1)) :
    ((List.range m).map fun i => (l.drop (f i)).take (f (i + 1) - f i)).flatten
      = l.take (f m) := by
  induction m with
  | zero => simp [h0]
  | succ m ih =>
    rw [List.range_succ, List.map_append, List.flatten_append, ih (fun i hi => hm i (by omega))]
    have := hm m (by omega)
    simp only [List.map_cons, List.map_nil, List.flatten_cons, List.flatten_nil, List.append_nil]
    conv_rhs => rw [show f (m + 1) = f m + (f (m + 1) - f m) by omega, List.take_add]

/-- a well-formed matrix is the matrix of its rows -/
theorem csr_eq_ofRows [Zero R] {A : Csr R} (h : CsrWF A) :
    A = csrOfRows A.m A.n A.indexing ((List.range A.m).map A.row) := by
  have hmono : ∀ i < A.m, A.rp i - A.indexing ≤ A.rp (i + 1) - A.indexing := by
    intro i hi
    have := h.rowptr_mono i hi
    unfold Csr.rp; omega
  have h0 : A.rp 0 - A.indexing = 0 := by have := h.rowptr_first; unfold Csr.rp; omega
  have hlast : A.rp A.m - A.indexing = A.nzval.length := by
    have := h.rowptr_last; unfold Csr.rp; omega
  have hcol : (((List.range A.m).map A.row).flatten).map Prod.fst = A.colind := by
    rw [List.map_flatten, List.map_map]
    have := flatten_slices A.colind (fun i => A.rp i - A.indexing) h0 A.m hmono
    rw [hlast, ← h.colind_length, List.take_length] at this
    rw [← this]
    congr 1
    apply List.map_congr_left
    intro i hi
    rw [List.mem_range] at hi
    exact (Csr.rowCols_eq h hi).symm
  have hval : (((List.range A.m).map A.row).flatten).map Prod.snd = A.nzval := by
    rw [List.map_flatten, List.map_map]
    have := flatten_slices A.nzval (fun i => A.rp i - A.indexing) h0 A.m hmono
    rw [hlast, List.take_length] at this
    rw [← this]
    congr 1
    apply List.map_congr_left
    intro i hi
    rw [List.mem_range] at hi
    exact (Csr.rowVals_eq h hi).symm
  have hrp : A.rowptr = (csrOfRows A.m A.n A.indexing ((List.range A.m).map A.row)).rowptr := by
    apply List.ext_getElem
    · simp [csrOfRows, h.rowptr_length]
    · intro i hi hi'
      have hle : i ≤ A.m := by rw [h.rowptr_length] at hi; omega
      rw [← List.getD_eq_getElem _ 0 hi, ← List.getD_eq_getElem _ 0 hi', csrOfRows_rp _ _ _ _ hle,
        ← List.map_take, List.take_range, Nat.min_eq_left hle, List.map_map]
      clear hi hi'
      induction i with
      | zero => simpa using h.rowptr_first
      | succ i ih =>
        rw [List.range_succ, List.map_append, List.sum_append, ← Nat.add_assoc, ← ih (by omega)]
        have := h.rowptr_mono i (by omega)
        have e := Csr.row_eq h (i := i) (by omega)
        simp only [List.map_cons, List.map_nil, Function.comp, e, List.length_map,
          List.length_range, List.sum_cons, List.sum_nil]
        unfold Csr.rp
        omega
  cases A
  simp only [csrOfRows, Csr.mk.injEq, true_and]
  exact ⟨hrp, hcol.symm, hval.symm⟩

end Macis
