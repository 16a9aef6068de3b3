import Verif.Lemmas.SpUtil
import Mathlib.Algebra.Group.PUnit

/-! Property C101: the adjacency graph of a sparse matrix (`util/graph.hpp`). -/
namespace Macis
open Spec
variable {R : Type}

/-- The graph returned by `extract_adjacency` as a pattern: the two arrays with their index base. -/
def adjGraph (m n ret : Nat) (g : List Nat × List Nat) : Csr Unit :=
  { m := m, n := n, indexing := ret, rowptr := g.1, colind := g.2, nzval := List.replicate g.2.length () }

theorem drop_first_eq_filter (l : List Nat) (h : l.Nodup) (x : Nat) :
    (if findIdx (fun j => decide (j = x)) l ≠ l.length then
        l.take (findIdx (fun j => decide (j = x)) l) ++ l.drop (findIdx (fun j => decide (j = x)) l + 1)
      else l.take (findIdx (fun j => decide (j = x)) l)) = l.filter (fun j => decide (j ≠ x)) ∧
    (if findIdx (fun j => decide (j = x)) l ≠ l.length then l.length - 1 else l.length) =
      (l.filter (fun j => decide (j ≠ x))).length := by
  have hidx : findIdx (fun j => decide (j = x)) l = l.idxOf x := by
    unfold findIdx List.idxOf
    congr 1
  have hf : l.filter (fun j => decide (j ≠ x)) = l.erase x := by
    rw [List.Nodup.erase_eq_filter h]
    congr 1; ext j; simp [bne]; cases h : decide (j = x) <;> simp_all
  rw [hidx, hf]
  by_cases hx : x ∈ l
  · have : l.idxOf x < l.length := List.idxOf_lt_length_iff.2 hx
    rw [if_pos this.ne, if_pos this.ne, List.length_erase_of_mem hx]
    refine ⟨?_, rfl⟩
    rw [List.erase_eq_eraseIdx_of_idxOf (i := l.idxOf x) rfl, List.eraseIdx_eq_take_drop_succ]
  · have : l.idxOf x = l.length := List.idxOf_eq_length hx
    rw [this, List.erase_of_not_mem hx]; simp

/-- The loop as prefix sums and concatenation. -/
theorem adjacency_loop (idx ret : Nat) (rows : Nat → List Nat) (hn : ∀ i, (rows i).Nodup) (m : Nat) :
    (List.range m).foldl (fun (st : List Nat × List Nat) i =>
      if findIdx (fun j => decide (j = i + idx)) (rows i) ≠ (rows i).length then
        (st.1 ++ [st.1.getLastD 0 + (rows i).length - 1],
          st.2 ++ (rows i).take (findIdx (fun j => decide (j = i + idx)) (rows i)) ++
            (rows i).drop (findIdx (fun j => decide (j = i + idx)) (rows i) + 1))
      else (st.1 ++ [st.1.getLastD 0 + (rows i).length],
        st.2 ++ (rows i).take (findIdx (fun j => decide (j = i + idx)) (rows i)))) ([ret], [])
    = (rowptrFromCounts ret ((List.range m).map fun i => ((rows i).filter (fun j => decide (j ≠ i + idx))).length),
        (List.range m).flatMap fun i => (rows i).filter (fun j => decide (j ≠ i + idx))) := by
  induction m with
  | zero => rfl
  | succ m ih =>
    rw [List.range_succ, List.foldl_append, ih]
    obtain ⟨h1, h2⟩ := drop_first_eq_filter (rows m) (hn m) (m + idx)
    have hlen : 0 < (rows m).length ∨ (rows m).length = 0 := by omega
    simp only [List.foldl_cons, List.foldl_nil, List.map_append, List.map_cons, List.map_nil,
      List.flatMap_append, List.flatMap_cons, List.flatMap_nil, List.append_nil]
    rw [← h2, ← h1]
    by_cases hc : findIdx (fun j => decide (j = m + idx)) (rows m) ≠ (rows m).length
    · rw [if_pos hc, if_pos hc, if_pos hc]
      have : 0 < (rows m).length := by
        rcases hlen with h | h
        · exact h
        · exfalso; apply hc
          rw [List.length_eq_zero_iff] at h; rw [h]; rfl
      simp only [rowptrFromCounts, List.foldl_append, List.foldl_cons, List.foldl_nil, List.append_assoc]
      rw [Nat.add_sub_assoc this]
    · rw [if_neg hc, if_neg hc, if_neg hc]
      simp only [rowptrFromCounts, List.foldl_append, List.foldl_cons, List.foldl_nil]

theorem adjacency_eq [Zero R] {A : Csr R} (hw : CsrWF A) (hs : CsrSorted A) (ret : Nat) :
    adjGraph A.m A.n ret (A.extractAdjacency ret) = csrOfRows A.m A.n ret ((List.range A.m).map fun i =>
      ((A.rowCols i).filter fun j => decide (j ≠ i + A.indexing)).map fun j => (j + ret - A.indexing, ())) := by
  -- rows beyond the matrix are irrelevant: make them empty
  have hfold := adjacency_loop A.indexing ret (fun i => if i < A.m then A.rowCols i else [])
    (fun i => by
      split
      · rename_i hi
        rw [Csr.rowCols_eq hw hi]; exact (row_sorted hw hs hi).imp (fun h => h.ne)
      · exact List.nodup_nil) A.m
  have hcongr : ∀ (f g : List Nat × List Nat → Nat → List Nat × List Nat) (st : List Nat × List Nat),
      (∀ st, ∀ i < A.m, f st i = g st i) → (List.range A.m).foldl f st = (List.range A.m).foldl g st := by
    intro f g st h
    exact List.foldl_ext _ _ _ (fun st i hi => h st i (List.mem_range.1 hi))
  have hE : A.extractAdjacency ret =
      (rowptrFromCounts ret ((List.range A.m).map fun i =>
          ((A.rowCols i).filter (fun j => decide (j ≠ i + A.indexing))).length),
        ((List.range A.m).flatMap fun i => (A.rowCols i).filter (fun j => decide (j ≠ i + A.indexing))).map
          fun j => j + ret - A.indexing) := by
    unfold Csr.extractAdjacency
    rw [hcongr _ (fun (st : List Nat × List Nat) i =>
      if findIdx (fun j => decide (j = i + A.indexing)) (if i < A.m then A.rowCols i else []) ≠
          (if i < A.m then A.rowCols i else []).length then
        (st.1 ++ [st.1.getLastD 0 + (if i < A.m then A.rowCols i else []).length - 1],
          st.2 ++ (if i < A.m then A.rowCols i else []).take
              (findIdx (fun j => decide (j = i + A.indexing)) (if i < A.m then A.rowCols i else [])) ++
            (if i < A.m then A.rowCols i else []).drop
              (findIdx (fun j => decide (j = i + A.indexing)) (if i < A.m then A.rowCols i else []) + 1))
      else (st.1 ++ [st.1.getLastD 0 + (if i < A.m then A.rowCols i else []).length],
        st.2 ++ (if i < A.m then A.rowCols i else []).take
          (findIdx (fun j => decide (j = i + A.indexing)) (if i < A.m then A.rowCols i else []))))
      ([ret], []) (fun st i hi => by simp only [if_pos hi])]
    rw [hfold]
    simp only
    congr 1
    · congr 1
      apply List.map_congr_left
      intro i hi
      rw [if_pos (List.mem_range.1 hi)]
    · congr 1
      unfold List.flatMap
      congr 1
      apply List.map_congr_left
      intro i hi
      rw [if_pos (List.mem_range.1 hi)]
  rw [hE]
  unfold adjGraph csrOfRows
  congr 1
  · rw [rowptrFromCounts_eq]
    simp only [List.length_map, List.length_range]
    apply List.map_congr_left
    intro i _
    rw [← List.map_take, ← List.map_take, List.map_map]
    congr 2
    simp [Function.comp_def]
  · simp only [List.flatMap, List.map_flatten, List.map_map, Function.comp_def]
  · apply List.ext_getElem
    · simp [List.flatMap, List.map_flatten, Function.comp_def, List.length_flatten]
    · intro i _ _; rfl

/-! ### C101 -/

/-- C101: for well-formed sorted storage, the adjacency arrays are well-formed, sorted and list for every
row exactly the stored positions off the diagonal, in the requested index base. -/
theorem C101_adjacency [Zero R] (A : Csr R) (hw : CsrWF A) (hs : CsrSorted A) (ret : Nat) :
    CsrWF (adjGraph A.m A.n ret (A.extractAdjacency ret)) ∧
    CsrSorted (adjGraph A.m A.n ret (A.extractAdjacency ret)) ∧
    ∀ i < A.m, ∀ j, csrStored (adjGraph A.m A.n ret (A.extractAdjacency ret)) i j ↔
      i ≠ j ∧ csrStored A i j := by
  rw [adjacency_eq hw hs]
  have hrange : ∀ i < A.m, ∀ c ∈ A.rowCols i, A.indexing ≤ c ∧ c < A.indexing + A.n := fun i hi c hc =>
    h_col hw hi hc
  have hlen : ((List.range A.m).map fun i =>
      ((A.rowCols i).filter fun j => decide (j ≠ i + A.indexing)).map fun j =>
        (j + ret - A.indexing, ())).length = A.m := by simp
  have hwf := csrOfRows_wf (R := Unit) (m := A.m) (n := A.n) (idx := ret) hlen (by
    intro r hr p hp
    obtain ⟨i, hi, rfl⟩ := List.mem_map.1 hr
    obtain ⟨c, hc, rfl⟩ := List.mem_map.1 hp
    have := hrange i (List.mem_range.1 hi) c (List.mem_filter.1 hc).1
    simp only; omega)
  refine ⟨hwf, ?_, ?_⟩
  · apply sorted_of_rows hwf
    intro i hi
    have hi' : i < A.m := hi
    rw [csrOfRows_row hlen hi']
    simp only [List.getElem_map, List.getElem_range, List.map_map]
    have hsort : (A.rowCols i).Pairwise (· < ·) := by
      rw [Csr.rowCols_eq hw hi']; exact row_sorted hw hs hi'
    rw [List.pairwise_map]
    refine (List.Pairwise.filter _ hsort).imp_of_mem ?_
    intro a b ha hb hab
    have h1 := hrange i hi' a (List.mem_filter.1 ha).1
    have h2 := hrange i hi' b (List.mem_filter.1 hb).1
    simp only [Function.comp]; omega
  · intro i hi j
    rw [csrStored_iff hwf hi, csrOfRows_row hlen hi, csrStored_iff hw hi, ← Csr.rowCols_eq hw hi]
    simp only [List.getElem_map, List.getElem_range, List.map_map, List.mem_map, List.mem_filter,
      Function.comp, decide_eq_true_eq]
    constructor
    · rintro ⟨c, ⟨hc, hne⟩, h⟩
      have h1 := hrange i hi c hc
      have h2 : (c + ret - A.indexing) = j + ret := h
      have : c = j + A.indexing := by omega
      subst this
      exact ⟨by omega, hc⟩
    · rintro ⟨hne, hc⟩
      exact ⟨j + A.indexing, ⟨hc, by omega⟩, by
        show j + A.indexing + ret - A.indexing = j + ret; omega⟩
where
  h_col {R : Type} [Zero R] {A : Csr R} (hw : CsrWF A) {i : Nat} (hi : i < A.m) {c : Nat}
      (hc : c ∈ A.rowCols i) : A.indexing ≤ c ∧ c < A.indexing + A.n := by
    rw [Csr.rowCols_eq hw hi] at hc
    obtain ⟨p, hp, rfl⟩ := List.mem_map.1 hc
    exact row_col_range hw hi hp

/-- C101: the graph of a pattern-symmetric matrix is undirected. -/
theorem C101_undirected [Zero R] (A : Csr R) (hw : CsrWF A) (hs : CsrSorted A) (ret : Nat)
    (hsym : ∀ i < A.m, ∀ j < A.m, csrStored A i j → csrStored A j i) :
    ∀ i < A.m, ∀ j < A.m, csrStored (adjGraph A.m A.n ret (A.extractAdjacency ret)) i j →
      csrStored (adjGraph A.m A.n ret (A.extractAdjacency ret)) j i := by
  intro i hi j hj h
  have h1 := ((C101_adjacency A hw hs ret).2.2 i hi j).1 h
  exact ((C101_adjacency A hw hs ret).2.2 j hj i).2 ⟨h1.1.symm, hsym i hi j hj h1.2⟩

-- a one-based 3 × 3 matrix with an empty diagonal entry, read with base 0
example : (⟨3, 3, 1, [1, 3, 5, 6], [1, 2, 1, 3, 3], [7, 8, 9, 10, 11]⟩ : Csr Int).extractAdjacency 0 =
    ([0, 1, 3, 3], [1, 0, 2]) := by decide
example : CsrWF (⟨3, 3, 1, [1, 3, 5, 6], [1, 2, 1, 3, 3], [7, 8, 9, 10, 11]⟩ : Csr Int) :=
  ⟨by decide, by decide, by decide, by decide, by decide, by decide⟩

end Macis
