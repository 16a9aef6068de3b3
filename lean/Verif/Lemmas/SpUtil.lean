import Verif.Model.SpUtil
import Verif.Lemmas.Pack
import Verif.Lemmas.SpConv
namespace Macis
open Spec
variable {R : Type}

theorem rowptrFromCounts_eq (idx : Nat) (cnts : List Nat) :
    rowptrFromCounts idx cnts
      = (List.range (cnts.length + 1)).map fun i => idx + (cnts.take i).sum := by
  unfold rowptrFromCounts
  induction cnts using List.reverseRecOn with
  | nil => simp
  | append_singleton l c ih =>
    rw [List.foldl_append, ih]
    simp only [List.foldl_cons, List.foldl_nil, List.length_append, List.length_singleton]
    rw [List.range_succ (n := l.length + 1), List.map_append]
    congr 1
    · apply List.map_congr_left
      intro i hi
      rw [List.mem_range] at hi
      rw [List.take_append_of_le_length (by omega)]
    · rw [List.range_succ, List.map_append]
      simp
      omega

theorem buildCsr_eq [Zero R] (m n nnz idx : Nat) (counts : List Nat) (cols : Nat → List Nat)
    (vals : Nat → List R) (hc : counts.length = m) (hnnz : nnz = counts.sum)
    (h1 : ∀ i (hi : i < m), counts[i] = (cols i).length)
    (h2 : ∀ i < m, (vals i).length = (cols i).length) :
    buildCsr m n nnz idx counts cols vals
      = csrOfRows m n idx ((List.range m).map fun i => (cols i).zip (vals i)) := by
  subst hnnz
  have hcnt : ∀ k ≤ m, counts.take k = (List.range k).map fun i => (cols i).length := by
    intro k hk
    apply List.ext_getElem
    · simp; omega
    · intro i hi hi'
      simp at hi'
      simp [h1 i (by omega)]
  have hrp : ∀ i ≤ m, (rowptrFromCounts idx counts).getD i 0 = idx + (counts.take i).sum := by
    intro i hi
    rw [rowptrFromCounts_eq, List.getD_eq_getElem _ _ (by simp; omega)]
    simp
  have hposc : ∀ i < m, (rowptrFromCounts idx counts).getD i 0 - idx
      = (((List.range i).map cols).flatten).length := by
    intro i hi
    rw [hrp i hi.le, hcnt i hi.le, Nat.add_sub_cancel_left, List.length_flatten, List.map_map]
    rfl
  have hposv : ∀ i < m, (rowptrFromCounts idx counts).getD i 0 - idx
      = (((List.range i).map vals).flatten).length := by
    intro i hi
    rw [hrp i hi.le, hcnt i hi.le, Nat.add_sub_cancel_left, List.length_flatten, List.map_map]
    congr 1
    apply List.map_congr_left
    intro k hk
    rw [List.mem_range] at hk
    exact (h2 k (by omega)).symm
  have hsum : counts.sum = ((List.range m).map fun i => (cols i).length).sum := by
    rw [← hcnt m le_rfl, List.take_of_length_le (by omega)]
  unfold buildCsr csrOfRows
  dsimp only
  congr 1
  · rw [rowptrFromCounts_eq, hc]
    apply List.map_congr_left
    intro i hi
    rw [List.mem_range] at hi
    rw [hcnt i (by omega), ← List.map_take, List.map_map, List.take_range, Nat.min_eq_left (by omega)]
    congr 2
    apply List.map_congr_left
    intro k hk
    rw [List.mem_range] at hk
    simp [h2 k (by omega)]
  · rw [writeRows_full m _ cols _ hposc]
    · rw [List.map_flatten, List.map_map]
      congr 1
      apply List.map_congr_left
      intro k hk
      rw [List.mem_range] at hk
      simp only [Function.comp]
      rw [List.map_fst_zip (by rw [h2 k hk])]
    · rw [List.length_replicate, hsum, List.length_flatten, List.map_map]
      rfl
  · rw [writeRows_full m _ vals _ hposv]
    · rw [List.map_flatten, List.map_map]
      congr 1
      apply List.map_congr_left
      intro k hk
      rw [List.mem_range] at hk
      simp only [Function.comp]
      rw [List.map_snd_zip (by rw [h2 k hk])]
    · rw [List.length_replicate, hsum, List.length_flatten, List.map_map]
      congr 1
      apply List.map_congr_left
      intro k hk
      rw [List.mem_range] at hk
      exact h2 k hk

theorem partitionPointGo_map {α β : Type} (f : α → β) (p : β → Bool) (l : List α) :
    ∀ fuel first len, partitionPointGo p (l.map f) fuel first len
      = partitionPointGo (fun x => p (f x)) l fuel first len := by
  intro fuel
  induction fuel with
  | zero => intros; rfl
  | succ fuel ih =>
    intro first len
    unfold partitionPointGo
    split
    · rfl
    · dsimp only
      rw [List.getElem?_map]
      cases l[first + len / 2]? with
      | none => rfl
      | some x =>
        simp only [Option.map_some]
        split
        · exact ih _ _
        · exact ih _ _

theorem partitionPoint_map {α β : Type} (f : α → β) (p : β → Bool) (l : List α) :
    partitionPoint p (l.map f) = partitionPoint (fun x => p (f x)) l := by
  unfold partitionPoint
  rw [List.length_map, partitionPointGo_map]

/-- the range between two partition points is the filtered middle part -/
theorem between_points {α : Type} (p q : α → Bool) (l : List α)
    (hp : l.Pairwise fun x y => p y = true → p x = true)
    (hq : l.Pairwise fun x y => q y = true → q x = true)
    (hpq : ∀ x, p x = true → q x = true) :
    (l.take (partitionPoint q l)).drop (partitionPoint p l) = l.filter fun x => !p x && q x := by
  have hq' := (partitionPoint_split q l hq).1
  have hp' := (partitionPoint_split p l hp).1
  have e1 : (l.filter q).take (partitionPoint p l) = (l.filter q).filter p := by
    rw [← hq', List.take_take]
    have hle : partitionPoint p l ≤ partitionPoint q l ∨ l.length ≤ partitionPoint q l := by
      by_contra hcon
      push Not at hcon
      have a := congrArg List.length hp'
      have b := congrArg List.length hq'
      rw [List.length_take] at a b
      have : (l.filter p).length ≤ (l.filter q).length := by
        rw [← List.countP_eq_length_filter, ← List.countP_eq_length_filter]
        exact List.countP_mono_left fun x _ => hpq x
      omega
    rw [hq', List.filter_filter]
    have e2 : (l.filter fun a => p a && q a) = l.filter p := by
      apply List.filter_congr
      intro x _
      cases hx : p x with
      | false => rfl
      | true => rw [hpq x hx]; rfl
    rw [e2, ← hp']
    rcases hle with h | h
    · rw [Nat.min_eq_left h]
    · rcases Nat.le_total (partitionPoint p l) (partitionPoint q l) with h' | h'
      · rw [Nat.min_eq_left h']
      · rw [Nat.min_eq_right h', List.take_of_length_le h, List.take_of_length_le (by omega)]
  have hsplit := partitionPoint_split p (l.filter q) (hp.filter q)
  have e3 : (l.filter q).filter p ++ (l.filter q).filter (fun x => !p x) = l.filter q := by
    rw [← hsplit.1, ← hsplit.2, List.take_append_drop]
  rw [hq']
  have e4 := List.take_append_drop (partitionPoint p l) (l.filter q)
  rw [e1] at e4
  have e5 := List.append_cancel_left (e4.trans e3.symm)
  rw [e5, List.filter_filter]

theorem drop_findIdx {α : Type} (p : α → Bool) (l : List α)
    (hp : l.Pairwise fun x y => p x = true → p y = true) :
    l.drop (l.findIdx p) = l.filter p := by
  induction l with
  | nil => rfl
  | cons a l ih =>
    obtain ⟨h1, h2⟩ := List.pairwise_cons.1 hp
    rw [List.findIdx_cons]
    by_cases ha : p a
    · simp only [ha, cond_true, List.drop_zero, List.filter_cons, if_true]
      congr 1
      exact (List.filter_eq_self.2 fun x hx => h1 x hx ha).symm
    · simp only [ha, cond_false, List.drop_succ_cons, List.filter_cons]
      simpa using ih h2

theorem findIdx_map {α β : Type} (f : α → β) (p : β → Bool) (l : List α) :
    (l.map f).findIdx p = l.findIdx (fun x => p (f x)) := by
  induction l with
  | nil => rfl
  | cons a l ih => rw [List.map_cons, List.findIdx_cons, List.findIdx_cons, ih]

theorem zip_fst_snd {α β : Type} (l : List (α × β)) : (l.map Prod.fst).zip (l.map Prod.snd) = l :=
  (List.zip_of_prod rfl rfl).symm

/-- CSR matrices obtained by filtering the rows of another one -/
theorem csrOfRows_filter_entry [AddCommMonoid R] {A : Csr R} (h : CsrWF A) (m n idx : Nat)
    (rows : List (List (Nat × R))) (hm : rows.length = m)
    (hr : ∀ r ∈ rows, ∀ p ∈ r, idx ≤ p.1 ∧ p.1 < idx + n)
    {i r : Nat} (hi : i < m) (hri : r < A.m) (q : Nat → Prop) [DecidablePred q] (f : Nat → Nat)
    (hrow : rows[i] = ((A.row r).filter fun p => decide (q p.1)).map fun p => (f p.1, p.2))
    {j c : Nat} (hfj : ∀ p ∈ A.row r, q p.1 → (f p.1 = j + idx ↔ p.1 = c + A.indexing)) :
    csrEntry (csrOfRows m n idx rows) i j
      = if q (c + A.indexing) then csrEntry A r c else 0 := by
  rw [csrOfRows_entry hm hr hi, hrow, List.map_map, csrEntry_eq h hri]
  have e := sum_ite_filter (A.row r) (fun p : Nat × R => q p.1) (fun p => f p.1 = j + idx)
    (fun p => p.2)
  refine (e.trans ?_)
  split
  · rename_i hq
    congr 1
    apply List.map_congr_left
    intro p hp
    by_cases hc : p.1 = c + A.indexing
    · have hqp : q p.1 := by rw [hc]; exact hq
      rw [if_pos ⟨hqp, (hfj p hp hqp).2 hc⟩, if_pos hc]
    · rw [if_neg hc, if_neg]
      rintro ⟨a, b⟩
      exact hc ((hfj p hp a).1 b)
  · rename_i hq
    apply List.sum_eq_zero
    intro x hx
    rw [List.mem_map] at hx
    obtain ⟨p, hp, rfl⟩ := hx
    rw [if_neg]
    rintro ⟨a, b⟩
    have := (hfj p hp a).1 b
    rw [this] at a
    exact hq a

theorem csrOfRows_mapCols (m n idx : Nat) (rows : List (List (Nat × R))) (f : Nat → Nat) :
    { csrOfRows m n idx rows with colind := (csrOfRows m n idx rows).colind.map f }
      = csrOfRows m n idx (rows.map fun r => r.map fun p => (f p.1, p.2)) := by
  unfold csrOfRows
  dsimp only
  congr 1
  · apply List.map_congr_left
    intro i _
    rw [← List.map_take, List.map_map]
    congr 2
    apply List.map_congr_left
    intro r _
    simp
  · rw [List.map_map, List.map_flatten, List.map_flatten, List.map_map]
    simp [Function.comp_def]
  · rw [List.map_flatten, List.map_flatten, List.map_map]
    simp [Function.comp_def]

/-- sortedness of rows assembled from a list -/
theorem csrOfRows_sorted [Zero R] {m n idx : Nat} {rows : List (List (Nat × R))}
    (hm : rows.length = m) (hc : ∀ r ∈ rows, ∀ p ∈ r, idx ≤ p.1 ∧ p.1 < idx + n)
    (hs : ∀ r ∈ rows, (r.map Prod.fst).Pairwise (· < ·)) : CsrSorted (csrOfRows m n idx rows) := by
  apply sorted_of_rows (csrOfRows_wf hm hc)
  intro i hi
  change i < m at hi
  rw [csrOfRows_row hm hi]
  exact hs _ (List.getElem_mem _)

theorem setIndexing_eq [Zero R] {A : Csr R} (h : CsrWF A) (k : Nat) :
    A.setIndexing k = csrOfRows A.m A.n k
      ((List.range A.m).map fun i => (A.row i).map fun p => (p.1 + k - A.indexing, p.2)) := by
  unfold Csr.setIndexing
  split
  · rename_i hk
    subst hk
    conv_lhs => rw [csr_eq_ofRows h]
    congr 1
    apply List.map_congr_left
    intro i _
    conv_lhs => rw [← List.map_id (A.row i)]
    apply List.map_congr_left
    intro p _
    simp
  · have e := csr_eq_ofRows h
    have er : A.rowptr = (List.range (A.m + 1)).map fun i =>
        A.indexing + ((((List.range A.m).map A.row).take i).map List.length).sum :=
      congrArg Csr.rowptr e
    have ec : A.colind = ((List.range A.m).map A.row).flatten.map Prod.fst := congrArg Csr.colind e
    have ev : A.nzval = ((List.range A.m).map A.row).flatten.map Prod.snd := congrArg Csr.nzval e
    unfold csrOfRows
    have hrows : ((List.range A.m).map fun i => (A.row i).map fun p => (p.1 + k - A.indexing, p.2))
        = ((List.range A.m).map A.row).map fun r => r.map fun p => (p.1 + k - A.indexing, p.2) := by
      rw [List.map_map]; rfl
    rw [hrows]
    have g1 : A.rowptr.map (fun i => i + k - A.indexing)
        = (List.range (A.m + 1)).map fun i => k + (((((List.range A.m).map A.row).map
            fun r => r.map fun p => (p.1 + k - A.indexing, p.2)).take i).map List.length).sum := by
      rw [er, List.map_map]
      apply List.map_congr_left
      intro i _
      rw [← List.map_take, List.map_map]
      have : (List.length ∘ fun r : List (Nat × R) => r.map fun p => (p.1 + k - A.indexing, p.2))
          = List.length := by funext r; simp
      rw [this]
      simp only [Function.comp]
      omega
    have g2 : A.colind.map (fun i => i + k - A.indexing)
        = (((List.range A.m).map A.row).map
            fun r => r.map fun p => (p.1 + k - A.indexing, p.2)).flatten.map Prod.fst := by
      rw [ec, List.map_map, List.map_flatten, List.map_flatten, List.map_map]
      simp [Function.comp_def]
    have g3 : A.nzval
        = (((List.range A.m).map A.row).map
            fun r => r.map fun p => (p.1 + k - A.indexing, p.2)).flatten.map Prod.snd := by
      conv_lhs => rw [ev]
      rw [List.map_flatten, List.map_flatten, List.map_map]
      simp [Function.comp_def]
    rw [g1, g2, ← g3]

theorem setIndexing_spec [AddCommMonoid R] {A : Csr R} (h : CsrWF A) (k : Nat) :
    CsrWF (A.setIndexing k) ∧ (A.setIndexing k).m = A.m ∧ (A.setIndexing k).n = A.n ∧
    (A.setIndexing k).indexing = k ∧
    (∀ i < A.m, (A.setIndexing k).row i = (A.row i).map fun p => (p.1 + k - A.indexing, p.2)) ∧
    ∀ i < A.m, ∀ j, csrEntry (A.setIndexing k) i j = csrEntry A i j := by
  have hm : ((List.range A.m).map fun i => (A.row i).map fun p =>
      (p.1 + k - A.indexing, p.2)).length = A.m := by simp
  have hr : ∀ r ∈ ((List.range A.m).map fun i => (A.row i).map fun p =>
      (p.1 + k - A.indexing, p.2)), ∀ p ∈ r, k ≤ p.1 ∧ p.1 < k + A.n := by
    intro r hr p hp
    simp only [List.mem_map, List.mem_range] at hr
    obtain ⟨i, hi, rfl⟩ := hr
    rw [List.mem_map] at hp
    obtain ⟨q, hq, rfl⟩ := hp
    have := row_col_range h hi hq
    dsimp only; omega
  rw [setIndexing_eq h]
  have hrow : ∀ i < A.m, (csrOfRows A.m A.n k ((List.range A.m).map fun i => (A.row i).map fun p =>
      (p.1 + k - A.indexing, p.2))).row i = (A.row i).map fun p => (p.1 + k - A.indexing, p.2) := by
    intro i hi
    rw [csrOfRows_row hm hi]; simp
  refine ⟨csrOfRows_wf hm hr, rfl, rfl, rfl, hrow, ?_⟩
  intro i hi j
  rw [csrEntry_eq (csrOfRows_wf hm hr) hi, hrow i hi, csrEntry_eq h hi, List.map_map]
  congr 1
  apply List.map_congr_left
  intro p hp
  have := row_col_range h hi hp
  have e : p.1 + k - A.indexing = j + k ↔ p.1 = j + A.indexing := by omega
  simp only [Function.comp]
  show (if p.1 + k - A.indexing = j + k then p.2 else 0) = _
  simp only [e]

end Macis
