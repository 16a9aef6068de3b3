import Verif.Props.SpTri
import Verif.Lemmas.Permute
/-
C48: permutation utilities of sparsexx.  A permutation of `n` indices is a list which is a
rearrangement of `0,…,n-1`.
-/
namespace Macis
open Spec
variable {R : Type}

/-! ### vectors -/

/-- C48 (inverse): `invert_perm` of a permutation is its two-sided inverse. -/
theorem C48_invert_perm (perm : List Nat) (n : Nat) (h : perm.Perm (List.range n)) :
    (invertPerm perm).Perm (List.range n) ∧
    ∀ i < n, (invertPerm perm).getD (perm.getD i 0) 0 = i ∧
      perm.getD ((invertPerm perm).getD i 0) 0 = i :=
  ⟨invertPerm_perm h, fun _ hi => ⟨invertPerm_left h hi, (invertPerm_right h hi).2⟩⟩

theorem permuteForward_spec [Zero R] (V : List R) (P : List Nat) (Vp : List R)
    (hV : Vp.length = V.length) (h : P.Perm (List.range V.length)) :
    (permuteForward V P Vp).length = V.length ∧
    ∀ i < V.length, (permuteForward V P Vp).getD (P.getD i 0) 0 = V.getD i 0 := by
  unfold permuteForward
  refine ⟨by rw [foldl_set_length, hV], ?_⟩
  exact foldl_set_getD V.length (fun i => P.getD i 0) (fun i => V.getD i 0) Vp 0
    (fun i hi => by rw [hV]; exact isPerm_getD h hi) (fun i hi j hj e => isPerm_inj h hi hj e)

theorem permuteBackward_spec [Zero R] (V : List R) (P : List Nat) (Vp : List R)
    (hV : Vp.length = V.length) :
    (permuteBackward V P Vp).length = V.length ∧
    ∀ i < V.length, (permuteBackward V P Vp).getD i 0 = V.getD (P.getD i 0) 0 := by
  unfold permuteBackward
  refine ⟨by rw [foldl_set_length, hV], ?_⟩
  exact foldl_set_getD V.length (fun i => i) (fun i => V.getD (P.getD i 0) 0) Vp 0
    (fun i hi => by rw [hV]; exact hi) (fun i hi j hj e => e)

theorem list_ext_getD [Zero R] {l l' : List R} (hl : l.length = l'.length)
    (h : ∀ i < l.length, l.getD i 0 = l'.getD i 0) : l = l' := by
  apply List.ext_getElem hl
  intro i h1 h2
  have := h i h1
  rwa [List.getD_eq_getElem _ _ h1, List.getD_eq_getElem _ _ h2] at this

/-- C48 (vectors): `Forward` stores `V[i]` at `P[i]`, `Backward` reads `V[P[i]]` into `i`, whatever the
output buffers held, and the two directions undo each other. -/
theorem C48_permute_vector [Zero R] (V : List R) (P : List Nat) (h : P.Perm (List.range V.length))
    (g g' : List R) (hg : g.length = V.length) (hg' : g'.length = V.length) :
    (∀ i < V.length, (permuteForward V P g).getD (P.getD i 0) 0 = V.getD i 0) ∧
    (∀ i < V.length, (permuteBackward V P g).getD i 0 = V.getD (P.getD i 0) 0) ∧
    permuteBackward (permuteForward V P g) P g' = V ∧
    permuteForward (permuteBackward V P g) P g' = V := by
  obtain ⟨f1, f2⟩ := permuteForward_spec V P g hg h
  obtain ⟨b1, b2⟩ := permuteBackward_spec V P g hg
  refine ⟨f2, b2, ?_, ?_⟩
  · obtain ⟨c1, c2⟩ := permuteBackward_spec (permuteForward V P g) P g' (by rw [f1, hg'])
    apply list_ext_getD (by rw [c1, f1])
    intro i hi
    rw [c1, f1] at hi
    rw [c2 i (by rw [f1]; exact hi), f2 i hi]
  · obtain ⟨c1, c2⟩ := permuteForward_spec (permuteBackward V P g) P g' (by rw [b1, hg'])
      (by rw [b1]; exact h)
    apply list_ext_getD (by rw [c1, b1])
    intro i hi
    rw [c1, b1] at hi
    obtain ⟨k, hk, rfl⟩ := isPerm_surj h hi
    rw [c2 k (by rw [b1]; exact hk), b2 k hk]

example : invertPerm [2, 0, 1, 3] = [1, 2, 0, 3] ∧
    permuteForward [10, 20, 30, 40] [2, 0, 1, 3] [7, 7, 7, 7] = ([20, 30, 10, 40] : List Int) ∧
    permuteBackward [10, 20, 30, 40] [2, 0, 1, 3] [7, 7, 7, 7] = ([30, 10, 20, 40] : List Int) := by
  decide +kernel

/-! ### matrices -/

theorem nnz_eq_rows [Zero R] {A : Csr R} (h : CsrWF A) :
    A.nzval.length = ((List.range A.m).map fun i => (A.row i).length).sum := by
  have e := congrArg (fun B : Csr R => B.nzval.length) (csr_eq_ofRows h)
  rw [e]
  unfold csrOfRows
  simp [List.length_flatten, Function.comp_def]

theorem row_length [Zero R] {A : Csr R} (h : CsrWF A) {i : Nat} (hi : i < A.m) :
    (A.row i).length = (A.rp (i + 1) - A.indexing) - (A.rp i - A.indexing) := by
  rw [Csr.row_eq h hi, List.length_map, List.length_range]
  have h1 := CsrWFL.ge_idx h (i := i) (by omega)
  have h3 := h.rowptr_mono i hi
  unfold Csr.rp; omega

theorem permuteRows_eq [Zero R] {A : Csr R} (h : CsrWF A) {perm : List Nat}
    (hp : perm.Perm (List.range A.m)) :
    A.permuteRows perm = csrOfRows A.m A.n A.indexing
      ((List.range A.m).map fun i => A.row (perm.getD i 0)) := by
  unfold Csr.permuteRows
  dsimp only
  rw [buildCsr_eq _ _ _ _ _ _ _ (by simp)
    (by
      rw [nnz_eq_rows h, ← perm_rows_sum hp]
      congr 1
      apply List.map_congr_left
      intro i hi
      exact row_length h (isPerm_getD hp (List.mem_range.1 hi)))
    (by
      intro i hi
      simp only [List.getElem_map, List.getElem_range]
      rw [Csr.rowCols_eq h (isPerm_getD hp hi), List.length_map, row_length h (isPerm_getD hp hi)])
    (by
      intro i hi
      rw [Csr.rowCols_eq h (isPerm_getD hp hi), Csr.rowVals_eq h (isPerm_getD hp hi)]
      simp)]
  rfl

/-- C48 (rows): for every well-formed CSR matrix and every permutation, `permute_rows` returns a
well-formed matrix of the same shape whose row `i` is row `perm[i]` of the original, same pattern. -/
theorem C48_permute_rows [AddCommMonoid R] (A : Csr R) (h : CsrWF A) (perm : List Nat)
    (hp : perm.Perm (List.range A.m)) :
    let B := A.permuteRows perm
    CsrWF B ∧ B.indexing = A.indexing ∧ B.m = A.m ∧ B.n = A.n ∧ (CsrSorted A → CsrSorted B) ∧
    ∀ i < A.m, ∀ j, csrEntry B i j = csrEntry A (perm.getD i 0) j ∧
      (csrStored B i j ↔ csrStored A (perm.getD i 0) j) := by
  intro B
  have hB : B = _ := permuteRows_eq h hp
  have hm : ((List.range A.m).map fun i => A.row (perm.getD i 0)).length = A.m := by simp
  have hr : ∀ r ∈ (List.range A.m).map (fun i => A.row (perm.getD i 0)), ∀ p ∈ r,
      A.indexing ≤ p.1 ∧ p.1 < A.indexing + A.n := by
    intro r hr p hpr
    rw [List.mem_map] at hr
    obtain ⟨i, hi, rfl⟩ := hr
    exact row_col_range h (isPerm_getD hp (List.mem_range.1 hi)) hpr
  have hw : CsrWF B := hB ▸ csrOfRows_wf hm hr
  have hrow : ∀ i < A.m, B.row i = A.row (perm.getD i 0) := by
    intro i hi; rw [hB, csrOfRows_row hm hi]; simp
  have hidx : B.indexing = A.indexing := by rw [hB]; rfl
  have hBm : B.m = A.m := by rw [hB]; rfl
  refine ⟨hw, hidx, hBm, by rw [hB]; rfl, ?_, ?_⟩
  · intro hs
    apply sorted_of_rows hw
    intro i hi
    rw [hBm] at hi
    rw [hrow i hi]
    exact row_sorted h hs (isPerm_getD hp hi)
  · intro i hi j
    rw [csrEntry_eq hw (by rw [hBm]; exact hi), csrEntry_eq h (isPerm_getD hp hi),
      csrStored_iff hw (by rw [hBm]; exact hi), csrStored_iff h (isPerm_getD hp hi), hrow i hi, hidx]
    exact ⟨rfl, Iff.rfl⟩

/-- The contract of `std::sort` on the thread's index array for row `i` of the result: a
rearrangement of what the array held before, in nondecreasing order of the permuted column. -/
def SortedInd (A : Csr R) (ic : List Nat) (r : Nat) (before ind : List Nat) : Prop :=
  ind.Perm before ∧
  ind.Pairwise fun a b => ic.getD ((A.rowCols r).getD a 0 - A.indexing) 0
    ≤ ic.getD ((A.rowCols r).getD b 0 - A.indexing) 0

/-- The index arrays of all rows: each row is processed by some thread whose array holds some
permutation of `0..len-1` left by an earlier row (any length, also none). -/
def IndexArrays (A : Csr R) (ic : List Nat) (p : Nat → Nat) (ind : Nat → List Nat) : Prop :=
  ∀ i < A.m, ∃ prev : List Nat, prev.Perm (List.range prev.length) ∧
    SortedInd A ic (p i) (indPrepare prev (A.rowCols (p i)).length) (ind i)

/-- the reused array is always a permutation of the positions of the current row; so after the sort
the thread's array again satisfies the assumption of `IndexArrays` -/
theorem indexArrays_perm {A : Csr R} {ic : List Nat} {p : Nat → Nat} {ind : Nat → List Nat}
    (h : IndexArrays A ic p ind) : ∀ i < A.m,
      (ind i).Perm (List.range (A.rowCols (p i)).length) ∧ (ind i).Perm (List.range (ind i).length) := by
  intro i hi
  obtain ⟨prev, h1, h2, -⟩ := h i hi
  have : (indPrepare prev (A.rowCols (p i)).length).Perm (List.range (A.rowCols (p i)).length) := by
    unfold indPrepare
    split
    · exact List.Perm.refl _
    · rename_i e
      rw [ne_eq, not_not] at e
      rw [← e]; exact h1
  have h3 := h2.trans this
  refine ⟨h3, ?_⟩
  rw [h3.length_eq, List.length_range]
  exact h3

theorem getD_row [Zero R] {A : Csr R} (h : CsrWF A) {r : Nat} (hr : r < A.m) (k : Nat) :
    (A.rowCols r).getD k 0 = ((A.row r).getD k (0, 0)).1 ∧
    (A.rowVals r).getD k 0 = ((A.row r).getD k (0, 0)).2 := by
  rw [Csr.rowCols_eq h hr, Csr.rowVals_eq h hr]
  simp only [List.getD_eq_getElem?_getD, List.getElem?_map]
  cases (A.row r)[k]? <;> simp

theorem gatherRow_eq [Zero R] {A : Csr R} (h : CsrWF A) {r : Nat} (hr : r < A.m) (ic : List Nat)
    {ind : List Nat} (hi : ind.Perm (List.range (A.rowCols r).length)) :
    ((ind.map fun k => ic.getD ((A.rowCols r).getD k 0 - A.indexing) 0 + A.indexing).zip
      (ind.map fun k => (A.rowVals r).getD k 0))
    = (ind.map fun k => (A.row r).getD k (0, 0)).map fun p =>
        (ic.getD (p.1 - A.indexing) 0 + A.indexing, p.2) := by
  rw [List.zip_map', List.map_map]
  apply List.map_congr_left
  intro k hk
  simp only [Function.comp]
  rw [(getD_row h hr k).1, (getD_row h hr k).2]

/-- the row lists of a row and column permuted matrix -/
def permRows [Zero R] (A : Csr R) (p : Nat → Nat) (ic : List Nat) (ind : Nat → List Nat) :
    List (List (Nat × R)) :=
  (List.range A.m).map fun i => ((ind i).map fun k => (A.row (p i)).getD k (0, 0)).map fun q =>
    (ic.getD (q.1 - A.indexing) 0 + A.indexing, q.2)

theorem permuteRowsCols_eq [Zero R] {A : Csr R} (h : CsrWF A) {rperm cperm : List Nat}
    (hp : rperm.Perm (List.range A.m)) {ind : Nat → List Nat}
    (hi : ∀ i < A.m, (ind i).Perm (List.range (A.rowCols (rperm.getD i 0)).length)) :
    A.permuteRowsCols rperm cperm ind = csrOfRows A.m A.n A.indexing
      (permRows A (fun i => rperm.getD i 0) (invertPerm cperm) ind) := by
  unfold Csr.permuteRowsCols
  dsimp only
  rw [buildCsr_eq _ _ _ _ _ _ _ (by simp)
    (by
      rw [nnz_eq_rows h, ← perm_rows_sum hp]
      congr 1
      apply List.map_congr_left
      intro i hi
      exact row_length h (isPerm_getD hp (List.mem_range.1 hi)))
    (by
      intro i hi'
      simp only [List.getElem_map, List.getElem_range]
      rw [List.length_map, (hi i hi').length_eq, List.length_range, Csr.rowCols_eq h (isPerm_getD hp hi'),
        List.length_map, row_length h (isPerm_getD hp hi')])
    (by intro i hi; simp)]
  congr 1
  apply List.map_congr_left
  intro i hi'
  have hi' := List.mem_range.1 hi'
  exact gatherRow_eq h (isPerm_getD hp hi') _ (hi i hi')

theorem permuteCols_eq [Zero R] {A : Csr R} (h : CsrWF A) (perm : List Nat) (ind : Nat → List Nat) :
    A.permuteCols perm ind = A.permuteRowsCols (List.range A.m) perm ind := by
  have hg : ∀ i < A.m, (List.range A.m).getD i 0 = i := by
    intro i hi; simp [List.getD_eq_getElem, hi]
  have hrp : rowptrFromCounts A.indexing ((List.range A.m).map fun i =>
      (A.rp ((List.range A.m).getD i 0 + 1) - A.indexing) - (A.rp ((List.range A.m).getD i 0) - A.indexing))
      = A.rowptr := by
    have e : ((List.range A.m).map fun i =>
      (A.rp ((List.range A.m).getD i 0 + 1) - A.indexing) - (A.rp ((List.range A.m).getD i 0) - A.indexing))
      = (List.range A.m).map fun i => (A.rp (i + 1) - A.indexing) - (A.rp i - A.indexing) := by
      apply List.map_congr_left
      intro i hi
      rw [hg i (List.mem_range.1 hi)]
    rw [e, rowptrFromCounts_eq]
    have hs : ∀ k ≤ A.m, A.indexing + (((List.range A.m).map fun i =>
        (A.rp (i + 1) - A.indexing) - (A.rp i - A.indexing)).take k).sum = A.rp k := by
      intro k hk
      induction k with
      | zero => simp [Csr.rp, ← h.rowptr_first]
      | succ k ih =>
        have h1 := CsrWFL.ge_idx h (i := k) (by omega)
        have h3 := h.rowptr_mono k (by omega)
        have := ih (by omega)
        rw [List.take_succ, List.sum_append]
        simp only [List.getElem?_map, List.getElem?_range (show k < A.m by omega), Option.map_some,
          Option.toList_some, List.sum_singleton]
        unfold Csr.rp at *
        omega
    apply List.ext_getElem
    · simp [h.rowptr_length]
    · intro i h1 h2
      simp only [List.length_map, List.length_range] at h1
      simp only [List.getElem_map, List.getElem_range]
      rw [hs i (by omega)]
      unfold Csr.rp
      rw [List.getD_eq_getElem _ _ h2]
  unfold Csr.permuteCols Csr.permuteRowsCols buildCsr
  dsimp only
  rw [hrp]
  have hw : ∀ {α : Type} (f f' : Nat → List α) (buf : List α), (∀ i < A.m, f i = f' i) →
      writeRows A.m (fun i => A.rp i - A.indexing) f buf
        = writeRows A.m (fun i => A.rowptr.getD i 0 - A.indexing) f' buf := by
    intro α f f' buf hf
    unfold writeRows
    apply List.foldl_ext
    intro a b hb
    rw [hf b (List.mem_range.1 hb)]
    rfl
  congr 1
  · apply hw
    intro i hi; rw [hg i hi]
  · apply hw
    intro i hi; rw [hg i hi]

/-- C48 (rows and columns): for every well-formed CSR matrix without repeated positions, all row and
column permutations and every state of the reused sort buffers, `permute_rows_cols` returns a
well-formed matrix with sorted rows whose entry `(i,j)` is entry `(rperm[i], cperm[j])`. -/
theorem C48_permute_rows_cols [AddCommMonoid R] (A : Csr R) (h : CsrWF A)
    (hnd : ∀ i < A.m, (A.rowCols i).Nodup) (rperm cperm : List Nat)
    (hp : rperm.Perm (List.range A.m)) (hc : cperm.Perm (List.range A.n)) (ind : Nat → List Nat)
    (hi : IndexArrays A (invertPerm cperm) (fun i => rperm.getD i 0) ind) :
    let B := A.permuteRowsCols rperm cperm ind
    CsrWF B ∧ CsrSorted B ∧ B.indexing = A.indexing ∧ B.m = A.m ∧ B.n = A.n ∧
    ∀ i < A.m, ∀ j < A.n, csrEntry B i j = csrEntry A (rperm.getD i 0) (cperm.getD j 0) ∧
      (csrStored B i j ↔ csrStored A (rperm.getD i 0) (cperm.getD j 0)) := by
  intro B
  have hperm := fun i hi' => (indexArrays_perm hi i hi').1
  have hB : B = _ := permuteRowsCols_eq h hp hperm
  set rows := permRows A (fun i => rperm.getD i 0) (invertPerm cperm) ind with hrows
  have hm : rows.length = A.m := by simp [hrows, permRows]
  have hgat : ∀ i < A.m, ((ind i).map fun k => (A.row (rperm.getD i 0)).getD k (0, 0)).Perm
      (A.row (rperm.getD i 0)) := by
    intro i hi'
    apply gather_perm
    have := hperm i hi'
    rwa [Csr.rowCols_eq h (isPerm_getD hp hi'), List.length_map] at this
  have hmem : ∀ i (hi : i < A.m), rows[i]'(by omega) =
      ((ind i).map fun k => (A.row (rperm.getD i 0)).getD k (0, 0)).map fun q =>
        ((invertPerm cperm).getD (q.1 - A.indexing) 0 + A.indexing, q.2) := by
    intro i hi; simp [hrows, permRows]
  have hmp : ∀ i (hi : i < A.m), (rows[i]'(by omega)).Perm ((A.row (rperm.getD i 0)).map fun q =>
        ((invertPerm cperm).getD (q.1 - A.indexing) 0 + A.indexing, q.2)) := by
    intro i hi
    rw [hmem i hi]
    exact (hgat i hi).map _
  have hr : ∀ r ∈ rows, ∀ p ∈ r, A.indexing ≤ p.1 ∧ p.1 < A.indexing + A.n := by
    intro r hr p hpr
    obtain ⟨i, hi, rfl⟩ := List.mem_iff_getElem.1 hr
    have := (hmp i (by omega)).mem_iff.1 hpr
    rw [List.mem_map] at this
    obtain ⟨q, hq, rfl⟩ := this
    have hq := row_col_range h (isPerm_getD hp (i := i) (by omega)) hq
    have := (invertPerm_right hc (i := q.1 - A.indexing) (by omega)).1
    dsimp only; omega
  have hw : CsrWF B := hB ▸ csrOfRows_wf hm hr
  have hidx : B.indexing = A.indexing := by rw [hB]; rfl
  have hBm : B.m = A.m := by rw [hB]; rfl
  have hrow : ∀ i (hi : i < A.m), B.row i = rows[i]'(by omega) := by
    intro i hi; rw [hB]; exact csrOfRows_row hm hi
  have hcol : ∀ i < A.m, ∀ q ∈ A.row (rperm.getD i 0), ∀ j < A.n,
      ((invertPerm cperm).getD (q.1 - A.indexing) 0 + A.indexing = j + A.indexing ↔
        q.1 = cperm.getD j 0 + A.indexing) := by
    intro i hi' q hq j hj
    have hq := row_col_range h (isPerm_getD hp hi') hq
    constructor
    · intro e
      have := (invertPerm_right hc (i := q.1 - A.indexing) (by omega)).2
      rw [Nat.add_right_cancel e] at this
      omega
    · intro e
      rw [e, Nat.add_sub_cancel, invertPerm_left hc hj]
  refine ⟨hw, ?_, hidx, hBm, by rw [hB]; rfl, ?_⟩
  · apply sorted_of_rows hw
    intro i hi'
    rw [hBm] at hi'
    rw [hrow i hi']
    -- nondecreasing by the sort, strict because the columns are distinct
    have hle : ((rows[i]'(by omega)).map Prod.fst).Pairwise (· ≤ ·) := by
      rw [hmem i hi', List.map_map, List.map_map, List.pairwise_map]
      obtain ⟨prev, -, -, hsrt⟩ := hi i hi'
      apply List.Pairwise.imp_of_mem _ hsrt
      intro a b ha hb hab
      have hk : ∀ a ∈ ind i, ((A.row (rperm.getD i 0)).getD a (0, 0)).1
          = (A.rowCols (rperm.getD i 0)).getD a 0 := by
        intro a ha
        exact (getD_row h (isPerm_getD hp hi') a).1.symm
      simp only [Function.comp]
      rw [hk a ha, hk b hb]
      exact Nat.add_le_add_right hab _
    have hndr : ((rows[i]'(by omega)).map Prod.fst).Nodup := by
      rw [((hmp i hi').map _).nodup_iff, List.map_map, List.nodup_map_iff_inj_on]
      · intro q hq q' hq' e
        have h1 := row_col_range h (isPerm_getD hp hi') hq
        have h2 := row_col_range h (isPerm_getD hp hi') hq'
        simp only [Function.comp] at e
        have e := isPerm_inj (invertPerm_perm hc) (by omega) (by omega) (Nat.add_right_cancel e)
        have e1 : q.1 = q'.1 := by omega
        have := hnd _ (isPerm_getD hp hi')
        rw [Csr.rowCols_eq h (isPerm_getD hp hi')] at this
        exact List.inj_on_of_nodup_map this hq hq' e1
      · have := hnd _ (isPerm_getD hp hi')
        rw [Csr.rowCols_eq h (isPerm_getD hp hi')] at this
        exact List.Nodup.of_map _ this
    exact (hle.and hndr).imp fun hab => lt_of_le_of_ne hab.1 hab.2
  · intro i hi' j hj
    have hpi := isPerm_getD hp hi'
    constructor
    · rw [csrEntry_eq hw (by rw [hBm]; exact hi'), csrEntry_eq h hpi, hrow i hi', hidx,
        ((hmp i hi').map _).sum_eq, List.map_map]
      congr 1
      apply List.map_congr_left
      intro q hq
      simp only [Function.comp, hcol i hi' q hq j hj]
    · rw [csrStored_iff hw (by rw [hBm]; exact hi'), csrStored_iff h hpi, hrow i hi', hidx,
        ((hmp i hi').map _).mem_iff, List.map_map, List.mem_map, List.mem_map]
      constructor
      · rintro ⟨q, hq, e⟩
        exact ⟨q, hq, (hcol i hi' q hq j hj).1 e⟩
      · rintro ⟨q, hq, e⟩
        exact ⟨q, hq, (hcol i hi' q hq j hj).2 e⟩

/-- C48 (columns): the same for `permute_cols`. -/
theorem C48_permute_cols [AddCommMonoid R] (A : Csr R) (h : CsrWF A)
    (hnd : ∀ i < A.m, (A.rowCols i).Nodup) (perm : List Nat)
    (hc : perm.Perm (List.range A.n)) (ind : Nat → List Nat)
    (hi : IndexArrays A (invertPerm perm) (fun i => i) ind) :
    let B := A.permuteCols perm ind
    CsrWF B ∧ CsrSorted B ∧ B.indexing = A.indexing ∧ B.m = A.m ∧ B.n = A.n ∧
    ∀ i < A.m, ∀ j < A.n, csrEntry B i j = csrEntry A i (perm.getD j 0) ∧
      (csrStored B i j ↔ csrStored A i (perm.getD j 0)) := by
  have hg : ∀ i < A.m, (List.range A.m).getD i 0 = i := by
    intro i hi; simp [List.getD_eq_getElem, hi]
  have := C48_permute_rows_cols A h hnd (List.range A.m) perm (List.Perm.refl _) hc ind
    (by intro i hi'; simp only [hg i hi']; exact hi i hi')
  rw [permuteCols_eq h]
  obtain ⟨h1, h2, h3, h4, h5, h6⟩ := this
  refine ⟨h1, h2, h3, h4, h5, ?_⟩
  intro i hi' j hj
  have := h6 i hi' j hj
  rwa [hg i hi'] at this

/-- the buffers of the example below: row 0 has 3 entries, row 1 none, row 2 two -/
def exInd : Nat → List Nat := fun i => if i = 0 then [1, 0, 2] else if i = 1 then [] else [1, 0]

example : IndexArrays exCsr34 (invertPerm [2, 0, 3, 1]) (fun i => i) exInd := by
  intro i hi
  have : i = 0 ∨ i = 1 ∨ i = 2 := by have : exCsr34.m = 3 := rfl; omega
  rcases this with rfl | rfl | rfl
  · exact ⟨[], List.Perm.refl _, by decide +kernel, by decide +kernel⟩
  · exact ⟨[1, 0, 2], by decide +kernel, by decide +kernel, by decide +kernel⟩
  · exact ⟨[1, 0], by decide +kernel, by decide +kernel, by decide +kernel⟩

example : exCsr34.permuteCols [2, 0, 3, 1] exInd
    = { m := 3, n := 4, indexing := 1, rowptr := [1, 4, 4, 6], colind := [1, 2, 3, 3, 4],
        nzval := [2, 1, 3, 5, 4] } := by decide +kernel

example : exCsr34.permuteRows [2, 0, 1]
    = { m := 3, n := 4, indexing := 1, rowptr := [1, 3, 6, 6], colind := [2, 4, 1, 3, 4],
        nzval := [4, 5, 1, 2, 3] } := by decide +kernel

/-! ### partitions -/

/-- indices of part `p`, in increasing order -/
def partIdx (part : List Nat) (p : Nat) : List Nat :=
  (List.range part.length).filter fun i => part.getD i 0 = p

theorem permFromPartLoop_eq (part : List Nat) (k : Nat) :
    (List.range k).foldl (fun (st : List Nat × List Nat × List Nat) p =>
      let f := st.2.1.filter fun i => part.getD i 0 == p
      let g := st.2.1.filter fun i => !(part.getD i 0 == p)
      (st.1 ++ f, g, st.2.2 ++ [(st.1 ++ f).length])) ([], List.range part.length, [0])
    = (((List.range k).map (partIdx part)).flatten,
       (List.range part.length).filter (fun i => decide (k ≤ part.getD i 0)),
       (List.range (k + 1)).map fun j => (((List.range j).map (partIdx part)).flatten).length) := by
  induction k with
  | zero => simp
  | succ k ih =>
    rw [List.range_succ, List.foldl_append, ih]
    simp only [List.foldl_cons, List.foldl_nil]
    have hf : ((List.range part.length).filter (fun i => decide (k ≤ part.getD i 0))).filter
        (fun i => part.getD i 0 == k) = partIdx part k := by
      rw [List.filter_filter]
      unfold partIdx
      apply List.filter_congr
      intro i _
      generalize part.getD i 0 = x
      by_cases e : x = k <;> simp [e]
    have hg : ((List.range part.length).filter (fun i => decide (k ≤ part.getD i 0))).filter
        (fun i => !(part.getD i 0 == k))
        = (List.range part.length).filter (fun i => decide (k + 1 ≤ part.getD i 0)) := by
      rw [List.filter_filter]
      apply List.filter_congr
      intro i _
      rw [Bool.eq_iff_iff]
      simp only [Bool.and_eq_true, Bool.not_eq_true', beq_eq_false_iff_ne, decide_eq_true_eq]
      omega
    have hd : ((List.range (k + 1)).map (partIdx part)).flatten
        = ((List.range k).map (partIdx part)).flatten ++ partIdx part k := by
      rw [List.range_succ, List.map_append, List.flatten_append]; simp
    have hp : ((List.range (k + 1 + 1)).map fun j => (((List.range j).map (partIdx part)).flatten).length)
        = ((List.range (k + 1)).map fun j => (((List.range j).map (partIdx part)).flatten).length)
          ++ [(((List.range k).map (partIdx part)).flatten ++ partIdx part k).length] := by
      rw [List.range_succ, List.map_append, ← hd]; rfl
    rw [hf, hg, ← List.range_succ, hd, hp]

theorem partIdx_take {l : List (List Nat)} {p : Nat} (hp : p < l.length) :
    (l.flatten.drop ((l.take p).flatten.length)).take
      ((l.take (p + 1)).flatten.length - (l.take p).flatten.length) = l[p] := by
  have e : l.flatten = (l.take p).flatten ++ (l[p] ++ (l.drop (p + 1)).flatten) := by
    conv_lhs => rw [← List.take_append_drop p l, List.flatten_append,
      List.drop_eq_getElem_cons hp, List.flatten_cons]
  have e2 : (l.take (p + 1)).flatten.length = (l.take p).flatten.length + l[p].length := by
    rw [List.take_succ_eq_append_getElem hp, List.flatten_append, List.length_append]; simp
  rw [e2, Nat.add_sub_cancel_left, e, List.drop_left, List.take_left]

theorem partIdx_perm (part : List Nat) (k : Nat) :
    (((List.range k).map (partIdx part)).flatten ++
      (List.range part.length).filter (fun i => decide (k ≤ part.getD i 0))).Perm
      (List.range part.length) := by
  induction k with
  | zero => simp
  | succ k ih =>
    refine List.Perm.trans ?_ ih
    rw [List.range_succ, List.map_append, List.flatten_append, List.append_assoc]
    apply List.Perm.append_left
    have h := List.filter_append_perm (fun i => part.getD i 0 == k)
      ((List.range part.length).filter (fun i => decide (k ≤ part.getD i 0)))
    refine List.Perm.trans ?_ h
    rw [List.filter_filter, List.filter_filter]
    simp only [List.map_cons, List.map_nil, List.flatten_cons, List.flatten_nil, List.append_nil]
    apply List.Perm.of_eq
    congr 1
    · unfold partIdx
      apply List.filter_congr
      intro i _
      generalize part.getD i 0 = x
      by_cases e : x = k <;> simp [e]
    · apply List.filter_congr
      intro i _
      rw [Bool.eq_iff_iff]
      simp only [Bool.and_eq_true, Bool.not_eq_true', beq_eq_false_iff_ne, decide_eq_true_eq]
      omega

/-- C48 (partition): for every assignment of indices to `npart ≥ 1` parts, `perm_from_part` throws
exactly when some index names a part outside `0..npart-1`; otherwise the permutation lists every
index once, part after part, inside each part in increasing order, and `partptr[p]` is where part `p`
starts. -/
theorem C48_perm_from_part (npart : Nat) (hn : 0 < npart) (part : List Nat) :
    ((∃ i < part.length, npart ≤ part.getD i 0) → permFromPart npart part = none) ∧
    ((∀ i < part.length, part.getD i 0 < npart) →
      ∃ perm ptr, permFromPart npart part = some (perm, ptr) ∧
        perm.Perm (List.range part.length) ∧ ptr.length = npart + 1 ∧ ptr.getD 0 0 = 0 ∧
        ptr.getD npart 0 = part.length ∧
        ∀ p < npart, ptr.getD p 0 ≤ ptr.getD (p + 1) 0 ∧
          (perm.drop (ptr.getD p 0)).take (ptr.getD (p + 1) 0 - ptr.getD p 0)
            = (List.range part.length).filter fun i => part.getD i 0 = p) := by
  obtain ⟨k, rfl⟩ : ∃ k, npart = k + 1 := ⟨npart - 1, by omega⟩
  have hloop := permFromPartLoop_eq part k
  have hpp : permFromPartLoop (k + 1) part = _ := hloop
  set done := ((List.range k).map (partIdx part)).flatten with hdone
  set rest := (List.range part.length).filter (fun i => decide (k ≤ part.getD i 0)) with hrest
  set ptr := (List.range (k + 1)).map fun j => (((List.range j).map (partIdx part)).flatten).length
    with hptr
  have hperm : (done ++ rest).Perm (List.range part.length) := partIdx_perm part k
  have hlen : (done ++ rest).length = part.length := by rw [hperm.length_eq, List.length_range]
  -- the blocks
  let L := (List.range k).map (partIdx part) ++ [rest]
  have hL : L.length = k + 1 := by simp [L]
  have hfl : L.flatten = done ++ rest := by simp [L, hdone]
  have hp' : ∀ j ≤ k + 1, (ptr ++ [(done ++ rest).length]).getD j 0 = (L.take j).flatten.length := by
    intro j hj
    rcases Nat.lt_or_ge j (k + 1) with h | h
    · rw [List.getD_append _ _ _ _ (by simp [hptr]; omega)]
      rw [List.getD_eq_getElem _ _ (by simp [hptr]; omega)]
      have : L.take j = (List.range j).map (partIdx part) := by
        simp only [L]
        rw [List.take_append_of_le_length (by simp; omega), ← List.map_take, List.take_range,
          Nat.min_eq_left (by omega)]
      rw [this]; simp [hptr]
    · have : j = k + 1 := by omega
      subst this
      rw [List.take_of_length_le (by omega), hfl, List.getD_append_right _ _ _ _ (by simp [hptr])]
      simp [hptr]
  have hblk : ∀ p (hp : p < k + 1), ((done ++ rest).drop ((ptr ++ [(done ++ rest).length]).getD p 0)).take
      ((ptr ++ [(done ++ rest).length]).getD (p + 1) 0 - (ptr ++ [(done ++ rest).length]).getD p 0)
      = L[p] := by
    intro p hp
    rw [hp' p (by omega), hp' (p + 1) (by omega), ← hfl]
    exact partIdx_take (by omega)
  have hLk : L[k] = rest := by simp [L]
  have hLp : ∀ p (hp : p < k), L[p] = partIdx part p := by
    intro p hp
    simp only [L]
    rw [List.getElem_append_left (by simpa using hp)]
    simp
  have hval : permFromPart (k + 1) part = if (List.range (k + 1)).any (fun p =>
      (((done ++ rest).drop ((ptr ++ [(done ++ rest).length]).getD p 0)).take
        ((ptr ++ [(done ++ rest).length]).getD (p + 1) 0 - (ptr ++ [(done ++ rest).length]).getD p 0)).any
        fun i => part.getD i 0 != p)
      then none else some (done ++ rest, ptr ++ [(done ++ rest).length]) := by
    unfold permFromPart
    rw [hpp]
  constructor
  · rintro ⟨i, hi, hge⟩
    rw [hval, if_pos]
    rw [List.any_eq_true]
    refine ⟨k, List.mem_range.2 (by omega), ?_⟩
    rw [hblk k (by omega), hLk, List.any_eq_true]
    refine ⟨i, ?_, ?_⟩
    · rw [hrest, List.mem_filter, decide_eq_true_eq]
      exact ⟨List.mem_range.2 hi, by omega⟩
    · simp only [bne_iff_ne, ne_eq]; omega
  · intro hlt
    have hrest' : rest = partIdx part k := by
      rw [hrest]
      unfold partIdx
      apply List.filter_congr
      intro i hi
      have := hlt i (List.mem_range.1 hi)
      rw [Bool.eq_iff_iff]
      simp only [decide_eq_true_eq]
      omega
    have hLall : ∀ p (hp : p < k + 1), L[p] = partIdx part p := by
      intro p hp
      rcases Nat.lt_or_ge p k with h | h
      · exact hLp p h
      · have : p = k := by omega
        subst this
        rw [hLk, hrest']
    refine ⟨done ++ rest, ptr ++ [(done ++ rest).length], ?_, hperm, by simp [hptr], ?_, ?_, ?_⟩
    · rw [hval, if_neg]
      rw [List.any_eq_true]
      rintro ⟨p, hp, hany⟩
      have hp := List.mem_range.1 hp
      rw [hblk p hp, hLall p hp, List.any_eq_true] at hany
      obtain ⟨i, hi, hne⟩ := hany
      unfold partIdx at hi
      rw [List.mem_filter, decide_eq_true_eq] at hi
      simp only [bne_iff_ne, ne_eq] at hne
      exact hne hi.2
    · rw [hp' 0 (by omega)]; simp
    · rw [hp' (k + 1) (by omega), List.take_of_length_le (by omega), hfl, hlen]
    · intro p hp
      constructor
      · rw [hp' p (by omega), hp' (p + 1) (by omega),
          List.take_succ_eq_append_getElem (by omega), List.flatten_append, List.length_append]
        omega
      · rw [hblk p hp, hLall p hp]
        rfl

example : permFromPart 3 [2, 0, 1, 0, 2] = some ([1, 3, 2, 0, 4], [0, 2, 3, 5]) := by decide +kernel
example : permFromPart 2 [2, 0, 1] = none := by decide +kernel

end Macis
