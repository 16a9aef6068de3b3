import Verif.Props.Permute
import Verif.Lemmas.Omp
/-
C148: the OpenMP loops of the sparse permutation utilities under every distribution of the rows over threads and every
interleaving.
-/
namespace Macis
open Spec Omp Spec.Omp
variable {R : Type}

theorem writeRows_pos {α : Type} (m : Nat) (pos pos' : Nat → Nat) (src : Nat → List α) (buf : List α)
    (h : ∀ i < m, pos i = pos' i) : writeRows m pos src buf = writeRows m pos' src buf := by
  unfold writeRows
  apply List.foldl_ext
  intro a b hb
  rw [h b (List.mem_range.1 hb)]

/-- an array every element of which has been written holds the rows -/
theorem fill_rows {α : Type} (m : Nat) (pos : Nat → Nat) (src : Nat → List α) (f : Nat → α) (d : α)
    (hpos : ∀ i < m, pos i = (((List.range i).map src).flatten).length)
    (hf : ∀ i < m, ∀ j < (src i).length, f (pos i + j) = (src i).getD j d) :
    (List.range (((List.range m).map src).flatten).length).map f = ((List.range m).map src).flatten := by
  induction m with
  | zero => simp
  | succ m ih =>
    have ih := ih (fun i hi => hpos i (by omega)) (fun i hi => hf i (by omega))
    rw [List.range_succ, List.map_append, List.flatten_append, List.length_append, List.range_add, List.map_append, ih]
    congr 1
    simp only [List.map_cons, List.map_nil, List.flatten_cons, List.flatten_nil, List.append_nil, List.map_map]
    apply List.ext_getElem
    · simp
    · intro j h1 h2
      have := hf m (by omega) j h2
      rw [hpos m (by omega), List.getD_eq_getElem _ _ h2] at this
      simpa using this

theorem prefix_succ (f : Nat → Nat) (i : Nat) :
    ((List.range (i + 1)).map f).sum = ((List.range i).map f).sum + f i := by
  rw [List.range_succ, List.map_append, List.sum_append]; simp

theorem prefix_mono (f : Nat → Nat) {i k : Nat} (h : i ≤ k) :
    ((List.range i).map f).sum ≤ ((List.range k).map f).sum := by
  induction k, h using Nat.le_induction with
  | base => exact le_rfl
  | succ k _ ih => rw [prefix_succ]; omega

theorem disjoint_of_prefix {J : RowJob R} {m : Nat} (h : ∀ i < m, J.dst i = ((List.range i).map J.ext).sum) :
    Omp.Disjoint J m := by
  intro i hi i' hi' j hj j' hj' e
  rw [h i hi, h i' hi'] at e
  have h1 := prefix_succ J.ext i
  have h2 := prefix_succ J.ext i'
  rcases Nat.lt_trichotomy i i' with c | c | c
  · have := prefix_mono J.ext (i := i + 1) (k := i') c
    omega
  · subst c; exact ⟨rfl, by omega⟩
  · have := prefix_mono J.ext (i := i' + 1) (k := i) c
    omega

/-- the arrays after the loop are those of the sequential loop -/
theorem job_writes [Zero R] {J : RowJob R} {m N : Nat} {s : State R} (cols : Nat → List Nat) (vals : Nat → List R)
    (hdst : ∀ i < m, J.dst i = ((List.range i).map J.ext).sum) (hN : ((List.range m).map J.ext).sum = N)
    (hc : ∀ i < m, (cols i).length = J.ext i) (hv : ∀ i < m, (vals i).length = J.ext i)
    (hw : ∀ i < m, ∀ j < J.ext i, s.ci (J.dst i + j) = (cols i).getD j 0 ∧ s.nz (J.dst i + j) = (vals i).getD j 0) :
    (List.range N).map s.ci = writeRows m J.dst cols (List.replicate N 0) ∧
    (List.range N).map s.nz = writeRows m J.dst vals (List.replicate N 0) := by
  have aux : ∀ {α : Type} (src : Nat → List α) (k : Nat), (∀ i < k, (src i).length = J.ext i) →
      (((List.range k).map src).flatten).length = ((List.range k).map J.ext).sum := by
    intro α src k hs
    rw [List.length_flatten, List.map_map]
    congr 1
    apply List.map_congr_left
    intro i hi
    exact hs i (List.mem_range.1 hi)
  have p1 : ∀ i < m, J.dst i = (((List.range i).map cols).flatten).length := fun i hi => by
    rw [aux cols i (fun k hk => hc k (by omega)), hdst i hi]
  have p2 : ∀ i < m, J.dst i = (((List.range i).map vals).flatten).length := fun i hi => by
    rw [aux vals i (fun k hk => hv k (by omega)), hdst i hi]
  have f1 := fill_rows m J.dst cols s.ci 0 p1 (fun i hi j hj => (hw i hi j (by rw [← hc i hi]; exact hj)).1)
  have f2 := fill_rows m J.dst vals s.nz 0 p2 (fun i hi j hj => (hw i hi j (by rw [← hv i hi]; exact hj)).2)
  rw [aux cols m hc, hN] at f1
  rw [aux vals m hv, hN] at f2
  constructor
  · rw [f1, writeRows_full m J.dst cols _ p1 (by rw [aux cols m hc, hN, List.length_replicate])]
  · rw [f2, writeRows_full m J.dst vals _ p2 (by rw [aux vals m hv, hN, List.length_replicate])]

theorem AlwaysEnds.mono {J : RowJob R} {s : State R} {Q Q' : State R → Prop} (h : AlwaysEnds J s Q)
    (hq : ∀ s', Q s' → Q' s') : AlwaysEnds J s Q' := by
  obtain ⟨N, hN⟩ := h
  refine ⟨N, fun n s' hr => ?_⟩
  obtain ⟨a, b, c, d⟩ := hN n s' hr
  exact ⟨a, b, fun e => ⟨(c e).1, hq _ (c e).2⟩, d⟩

theorem rowptr_prefix (idx m : Nat) (ext : Nat → Nat) {i : Nat} (hi : i < m) :
    (rowptrFromCounts idx ((List.range m).map ext)).getD i 0 - idx = ((List.range i).map ext).sum := by
  rw [rowptrFromCounts_eq, List.getD_eq_getElem _ _ (by simp; omega)]
  simp only [List.getElem_map, List.getElem_range, ← List.map_take, List.take_range, Nat.add_sub_cancel_left]
  rw [Nat.min_eq_left hi.le]

theorem rowext_sum [Zero R] {A : Csr R} (h : CsrWF A) {perm : List Nat} (hp : perm.Perm (List.range A.m)) :
    ((List.range A.m).map fun i => (A.rp (perm.getD i 0 + 1) - A.indexing) - (A.rp (perm.getD i 0) - A.indexing)).sum
      = A.nzval.length := by
  rw [nnz_eq_rows h, ← perm_rows_sum hp fun r => (A.row r).length]
  congr 1
  apply List.map_congr_left
  intro i hi
  exact (row_length h (isPerm_getD hp (List.mem_range.1 hi))).symm

theorem rowCols_ext [Zero R] {A : Csr R} (h : CsrWF A) {r : Nat} (hr : r < A.m) :
    (A.rowCols r).length = (A.rp (r + 1) - A.indexing) - (A.rp r - A.indexing) ∧
    (A.rowVals r).length = (A.rp (r + 1) - A.indexing) - (A.rp r - A.indexing) := by
  rw [Csr.rowCols_eq h hr, Csr.rowVals_eq h hr, List.length_map, List.length_map, row_length h hr]
  exact ⟨rfl, rfl⟩

/-- C148 (rows): for every well-formed matrix and permutation, however OpenMP distributes the rows over threads and
interleaves them, `permute_rows` ends without two threads ever being about to write the same element, and returns a
well-formed matrix whose row `i` is row `perm[i]` of the original. -/
theorem C148_permute_rows [AddCommMonoid R] (A : Csr R) (h : CsrWF A) (perm : List Nat)
    (hp : perm.Perm (List.range A.m)) (s : State R) (hs : Starts A.m s) :
    AlwaysEnds (permuteRowsJob A perm) s fun s' =>
      let B := resultRows A (permuteRowsJob A perm).ext s'
      CsrWF B ∧ B.indexing = A.indexing ∧ B.m = A.m ∧ B.n = A.n ∧
      ∀ i < A.m, ∀ j, csrEntry B i j = csrEntry A (perm.getD i 0) j ∧
        (csrStored B i j ↔ csrStored A (perm.getD i 0) j) := by
  have hdst : ∀ i < A.m, (permuteRowsJob A perm).dst i = ((List.range i).map (permuteRowsJob A perm).ext).sum :=
    fun i hi => rowptr_prefix _ _ _ hi
  refine AlwaysEnds.mono (loop_ends (Q := fun _ => True) (disjoint_of_prefix hdst) (fun _ _ _ _ => trivial) trivial hs) ?_
  rintro s' ⟨ind, -, hw⟩
  have key := job_writes (s := s') (fun i => A.rowCols (perm.getD i 0)) (fun i => A.rowVals (perm.getD i 0)) hdst
    (rowext_sum h hp) (fun i hi => (rowCols_ext h (isPerm_getD hp hi)).1)
    (fun i hi => (rowCols_ext h (isPerm_getD hp hi)).2) (fun i hi j hj => hw i hi j hj)
  have : resultRows A (permuteRowsJob A perm).ext s' = A.permuteRows perm := by
    unfold resultRows Csr.permuteRows buildCsr
    rw [key.1, key.2]
    rfl
  rw [this]
  obtain ⟨h1, h2, h3, h4, -, h5⟩ := C48_permute_rows A h perm hp
  exact ⟨h1, h2, h3, h4, h5⟩

theorem map_getD {α : Type} {l : List Nat} {f : Nat → α} {j : Nat} {d : α} (h : j < l.length) :
    (l.map f).getD j d = f (l.getD j 0) := by
  rw [List.getD_eq_getElem _ _ (by simpa using h), List.getElem_map, List.getD_eq_getElem _ _ h]

theorem indPrepare_perm {prev : List Nat} (h : prev.Perm (List.range prev.length)) (ext : Nat) :
    (indPrepare prev ext).Perm (List.range ext) := by
  unfold indPrepare
  split
  · exact List.Perm.refl _
  · rename_i e; rw [ne_eq, not_not] at e; rw [← e]; exact h

/-- C148 (rows and columns): the same for `permute_rows_cols`, whose threads reuse their index arrays from row to row,
for every `std::sort` (`srt i` sorts the index array of row `i` by the permuted column). -/
theorem C148_permute_rows_cols [AddCommMonoid R] (A : Csr R) (h : CsrWF A)
    (hnd : ∀ i < A.m, (A.rowCols i).Nodup) (rperm cperm : List Nat)
    (hp : rperm.Perm (List.range A.m)) (hc : cperm.Perm (List.range A.n)) (srt : Nat → List Nat → List Nat)
    (hsrt : ∀ i < A.m, ∀ l : List Nat, l.Perm (List.range (A.rowCols (rperm.getD i 0)).length) →
      SortedInd A (invertPerm cperm) (rperm.getD i 0) l (srt i l))
    (s : State R) (hs : Starts A.m s) :
    AlwaysEnds (permuteRowsColsJob A rperm cperm srt) s fun s' =>
      let B := resultRows A (permuteRowsColsJob A rperm cperm srt).ext s'
      CsrWF B ∧ CsrSorted B ∧ B.indexing = A.indexing ∧ B.m = A.m ∧ B.n = A.n ∧
      ∀ i < A.m, ∀ j < A.n, csrEntry B i j = csrEntry A (rperm.getD i 0) (cperm.getD j 0) ∧
        (csrStored B i j ↔ csrStored A (rperm.getD i 0) (cperm.getD j 0)) := by
  set J := permuteRowsColsJob A rperm cperm srt with hJ
  have hdst : ∀ i < A.m, J.dst i = ((List.range i).map J.ext).sum := fun i hi => rowptr_prefix _ _ _ hi
  have hext : ∀ i < A.m, J.ext i = (A.rowCols (rperm.getD i 0)).length :=
    fun i hi => (rowCols_ext h (isPerm_getD hp hi)).1.symm
  have hprep : ∀ i < A.m, ∀ l : List Nat, l.Perm (List.range l.length) →
      SortedInd A (invertPerm cperm) (rperm.getD i 0) (indPrepare l (J.ext i)) (J.prepare i l) := by
    intro i hi l hl
    exact hsrt i hi _ (by rw [← hext i hi]; exact indPrepare_perm hl _)
  have hlen : ∀ i < A.m, ∀ l : List Nat, l.Perm (List.range l.length) → (J.prepare i l).Perm (List.range (J.ext i)) :=
    fun i hi l hl => (hprep i hi l hl).1.trans (indPrepare_perm hl _)
  refine AlwaysEnds.mono (loop_ends (Q := fun l => l.Perm (List.range l.length)) (disjoint_of_prefix hdst) ?_
    (List.Perm.refl _) hs) ?_
  · intro i hi l hl
    have := hlen i hi l hl
    rw [this.length_eq, List.length_range]
    exact this
  rintro s' ⟨ind, hu, hw⟩
  have hlen' : ∀ i < A.m, (ind i).length = J.ext i := by
    intro i hi
    obtain ⟨prev, hq, e⟩ := hu i hi
    rw [e, (hlen i hi prev hq).length_eq, List.length_range]
  have key := job_writes (s := s')
    (fun i => (ind i).map fun k => (invertPerm cperm).getD ((A.rowCols (rperm.getD i 0)).getD k 0 - A.indexing) 0 + A.indexing)
    (fun i => (ind i).map fun k => (A.rowVals (rperm.getD i 0)).getD k 0) hdst (rowext_sum h hp)
    (fun i hi => by rw [List.length_map, hlen' i hi]) (fun i hi => by rw [List.length_map, hlen' i hi])
    (fun i hi j hj => by
      have hj' : j < (ind i).length := by rw [hlen' i hi]; exact hj
      obtain ⟨a, b⟩ := hw i hi j hj
      rw [a, b, map_getD hj', map_getD hj']
      exact ⟨rfl, rfl⟩)
  have e : resultRows A J.ext s' = A.permuteRowsCols rperm cperm ind := by
    unfold resultRows Csr.permuteRowsCols buildCsr
    rw [key.1, key.2]
    rfl
  rw [e]
  refine C48_permute_rows_cols A h hnd rperm cperm hp hc ind ?_
  intro i hi
  obtain ⟨prev, hq, e⟩ := hu i hi
  refine ⟨prev, hq, ?_⟩
  rw [e, ← hext i hi]
  exact hprep i hi prev hq

theorem rp_prefix [Zero R] {A : Csr R} (h : CsrWF A) {i : Nat} (hi : i ≤ A.m) :
    A.rp i - A.indexing = ((List.range i).map fun k => (A.rp (k + 1) - A.indexing) - (A.rp k - A.indexing)).sum := by
  induction i with
  | zero => simp [Csr.rp, ← h.rowptr_first]
  | succ k ih =>
    have h1 := CsrWFL.ge_idx h (i := k) (by omega)
    have h3 := h.rowptr_mono k (by omega)
    rw [prefix_succ, ← ih (by omega)]
    unfold Csr.rp at *
    omega

/-- C148 (columns): the same for `permute_cols`. -/
theorem C148_permute_cols [AddCommMonoid R] (A : Csr R) (h : CsrWF A)
    (hnd : ∀ i < A.m, (A.rowCols i).Nodup) (perm : List Nat)
    (hc : perm.Perm (List.range A.n)) (srt : Nat → List Nat → List Nat)
    (hsrt : ∀ i < A.m, ∀ l : List Nat, l.Perm (List.range (A.rowCols i).length) →
      SortedInd A (invertPerm perm) i l (srt i l))
    (s : State R) (hs : Starts A.m s) :
    AlwaysEnds (permuteColsJob A perm srt) s fun s' =>
      let B := resultCols A s'
      CsrWF B ∧ CsrSorted B ∧ B.indexing = A.indexing ∧ B.m = A.m ∧ B.n = A.n ∧
      ∀ i < A.m, ∀ j < A.n, csrEntry B i j = csrEntry A i (perm.getD j 0) ∧
        (csrStored B i j ↔ csrStored A i (perm.getD j 0)) := by
  set J := permuteColsJob A perm srt with hJ
  have hdst : ∀ i < A.m, J.dst i = ((List.range i).map J.ext).sum := fun i hi => rp_prefix h hi.le
  have hext : ∀ i < A.m, J.ext i = (A.rowCols i).length := fun i hi => (rowCols_ext h hi).1.symm
  have hprep : ∀ i < A.m, ∀ l : List Nat, l.Perm (List.range l.length) →
      SortedInd A (invertPerm perm) i (indPrepare l (J.ext i)) (J.prepare i l) := by
    intro i hi l hl
    exact hsrt i hi _ (by rw [← hext i hi]; exact indPrepare_perm hl _)
  have hlen : ∀ i < A.m, ∀ l : List Nat, l.Perm (List.range l.length) → (J.prepare i l).Perm (List.range (J.ext i)) :=
    fun i hi l hl => (hprep i hi l hl).1.trans (indPrepare_perm hl _)
  refine AlwaysEnds.mono (loop_ends (Q := fun l => l.Perm (List.range l.length)) (disjoint_of_prefix hdst) ?_
    (List.Perm.refl _) hs) ?_
  · intro i hi l hl
    have := hlen i hi l hl
    rw [this.length_eq, List.length_range]
    exact this
  rintro s' ⟨ind, hu, hw⟩
  have hlen' : ∀ i < A.m, (ind i).length = J.ext i := by
    intro i hi
    obtain ⟨prev, hq, e⟩ := hu i hi
    rw [e, (hlen i hi prev hq).length_eq, List.length_range]
  have hsum : ((List.range A.m).map J.ext).sum = A.nzval.length := by
    rw [nnz_eq_rows h]
    congr 1
    apply List.map_congr_left
    intro i hi
    exact (row_length h (List.mem_range.1 hi)).symm
  have key := job_writes (s := s')
    (fun i => (ind i).map fun k => (invertPerm perm).getD ((A.rowCols i).getD k 0 - A.indexing) 0 + A.indexing)
    (fun i => (ind i).map fun k => (A.rowVals i).getD k 0) hdst hsum
    (fun i hi => by rw [List.length_map, hlen' i hi]) (fun i hi => by rw [List.length_map, hlen' i hi])
    (fun i hi j hj => by
      have hj' : j < (ind i).length := by rw [hlen' i hi]; exact hj
      obtain ⟨a, b⟩ := hw i hi j hj
      rw [a, b, map_getD hj', map_getD hj']
      exact ⟨rfl, rfl⟩)
  have e : resultCols A s' = A.permuteCols perm ind := by
    unfold resultCols Csr.permuteCols
    rw [key.1, key.2]
    rfl
  rw [e]
  refine C48_permute_cols A h hnd perm hc ind ?_
  intro i hi
  obtain ⟨prev, hq, e⟩ := hu i hi
  refine ⟨prev, hq, ?_⟩
  rw [e, ← hext i hi]
  exact hprep i hi prev hq

/-- a `std::sort` of the index array -/
def exOmpSort (A : Csr R) (ic : List Nat) (r : Nat) (l : List Nat) : List Nat :=
  l.insertionSort fun a b => ic.getD ((A.rowCols r).getD a 0 - A.indexing) 0
    ≤ ic.getD ((A.rowCols r).getD b 0 - A.indexing) 0

theorem exOmpSort_spec (A : Csr R) (ic : List Nat) (r : Nat) (l : List Nat) :
    SortedInd A ic r l (exOmpSort A ic r l) := by
  refine ⟨List.perm_insertionSort _ _, ?_⟩
  have := List.pairwise_insertionSort (fun a b => ic.getD ((A.rowCols r).getD a 0 - A.indexing) 0
    ≤ ic.getD ((A.rowCols r).getD b 0 - A.indexing) 0) (l := l)
  exact this

/-- two threads: rows 2 and 0, and row 1; garbage in the output arrays -/
def exOmpStart : State Int where
  thr := fun t => if t = 0 then ⟨[2, 0], none, []⟩ else if t = 1 then ⟨[1], none, []⟩ else ⟨[], none, []⟩
  ci := fun i => 5 * i
  nz := fun _ => -1

theorem exOmpStart_starts : Starts 3 exOmpStart where
  ind := by intro t; unfold exOmpStart; dsimp only; split; · rfl
            split <;> rfl
  idle := by intro t; unfold exOmpStart; dsimp only; split; · rfl
             split <;> rfl
  once := by intro t; unfold exOmpStart; dsimp only; split; · decide
             split <;> decide
  rows := by intro t; unfold exOmpStart; dsimp only; split; · decide
             split <;> decide
  all := by
    intro i hi
    have : i = 0 ∨ i = 1 ∨ i = 2 := by omega
    rcases this with rfl | rfl | rfl
    · exact ⟨0, by decide⟩
    · exact ⟨1, by decide⟩
    · exact ⟨0, by decide⟩
  disjoint := by
    intro t t' i hi hi'
    have key : ∀ t, i ∈ (exOmpStart.thr t).todo → (t = 0 ∧ (i = 2 ∨ i = 0)) ∨ (t = 1 ∧ i = 1) := by
      intro t h
      unfold exOmpStart at h
      dsimp only at h
      split at h
      · left; simp at h; exact ⟨by assumption, h⟩
      · split at h
        · right; simp at h; exact ⟨by assumption, h⟩
        · simp at h
    have a := key t hi
    have b := key t' hi'
    omega

example : AlwaysEnds (permuteRowsColsJob exCsr34 [2, 0, 1] [2, 0, 3, 1]
      fun i => exOmpSort exCsr34 (invertPerm [2, 0, 3, 1]) ([2, 0, 1].getD i 0)) exOmpStart fun s' =>
    csrEntry (resultRows exCsr34 (permuteRowsColsJob exCsr34 [2, 0, 1] [2, 0, 3, 1]
      fun i => exOmpSort exCsr34 (invertPerm [2, 0, 3, 1]) ([2, 0, 1].getD i 0)).ext s') 0 2 = csrEntry exCsr34 2 3 := by
  refine AlwaysEnds.mono (C148_permute_rows_cols exCsr34 ?_ ?_ [2, 0, 1] [2, 0, 3, 1] (by decide) (by decide) _
    (fun i _ l _ => exOmpSort_spec _ _ _ l) _ exOmpStart_starts) ?_
  · exact exCsr34_wf
  · decide +kernel
  · rintro s' ⟨-, -, -, -, -, h⟩
    exact (h 0 (by decide) 2 (by decide)).1

end Macis
