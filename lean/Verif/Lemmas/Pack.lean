import Verif.Lemmas.SpBlas
namespace Macis
open Spec
variable {R : Type}

/-! ### partition_point on a sorted list -/

theorem partitionPointGo_spec {α : Type} (p : α → Bool) (l : List α)
    (hp : ∀ i j (hi : i < l.length) (hj : j < l.length), i < j → p l[j] = true → p l[i] = true) :
    ∀ fuel first len, len ≤ fuel → first + len ≤ l.length →
      (∀ i (hi : i < l.length), i < first → p l[i] = true) →
      (∀ i (hi : i < l.length), first + len ≤ i → p l[i] = false) →
      let r := partitionPointGo p l fuel first len
      r ≤ l.length ∧ (∀ i (hi : i < l.length), i < r → p l[i] = true) ∧
        (∀ i (hi : i < l.length), r ≤ i → p l[i] = false) := by
  intro fuel
  induction fuel with
  | zero =>
    intro first len hf hl h1 h2
    simp only [partitionPointGo]
    exact ⟨by omega, h1, fun i hi hr => h2 i hi (by omega)⟩
  | succ fuel ih =>
    intro first len hf hl h1 h2
    simp only [partitionPointGo]
    split
    · exact ⟨by omega, h1, fun i hi hr => h2 i hi (by omega)⟩
    · rename_i hlen
      have hmid : first + len / 2 < l.length := by omega
      rw [List.getElem?_eq_getElem hmid]
      dsimp only
      split
      · rename_i hpm
        apply ih
        · omega
        · omega
        · intro i hi hlt
          rcases Nat.lt_or_ge i (first + len / 2) with h | h
          · exact hp i _ hi hmid h hpm
          · have : i = first + len / 2 := by omega
            subst this; exact hpm
        · intro i hi hge
          exact h2 i hi (by omega)
      · rename_i hpm
        apply ih
        · omega
        · omega
        · exact h1
        · intro i hi hge
          by_contra hc
          simp only [Bool.not_eq_false] at hc
          rcases Nat.lt_or_ge (first + len / 2) i with h | h
          · exact hpm (hp _ i hmid hi h hc)
          · have : i = first + len / 2 := by omega
            subst this; exact hpm hc

/-- `partition_point` splits a partitioned list. -/
theorem partitionPoint_split {α : Type} (p : α → Bool) (l : List α)
    (hp : l.Pairwise fun x y => p y = true → p x = true) :
    l.take (partitionPoint p l) = l.filter p ∧
    l.drop (partitionPoint p l) = l.filter (fun x => !p x) := by
  have hp' : ∀ i j (hi : i < l.length) (hj : j < l.length), i < j → p l[j] = true → p l[i] = true := by
    intro i j hi hj hij
    exact (List.pairwise_iff_getElem.1 hp) i j hi hj hij
  obtain ⟨hr, h1, h2⟩ := partitionPointGo_spec p l hp' l.length 0 l.length le_rfl (by omega)
    (fun i _ h => by omega) (fun i hi h => by omega)
  change partitionPoint p l ≤ _ at hr
  have e1 : ∀ x ∈ l.take (partitionPoint p l), p x = true := by
    intro x hx
    obtain ⟨i, hi, rfl⟩ := List.mem_iff_getElem.1 hx
    simp at hi
    rw [List.getElem_take]; exact h1 i hi.2 hi.1
  have e2 : ∀ x ∈ l.drop (partitionPoint p l), p x = false := by
    intro x hx
    obtain ⟨i, hi, rfl⟩ := List.mem_iff_getElem.1 hx
    simp at hi
    rw [List.getElem_drop]
    exact h2 _ (by omega) (Nat.le_add_right _ _)
  constructor
  · conv_rhs => rw [← List.take_append_drop (partitionPoint p l) l]
    rw [List.filter_append, List.filter_eq_self.2 e1, List.filter_eq_nil_iff.2 (by
      intro x hx; simp [e2 x hx]), List.append_nil]
  · conv_rhs => rw [← List.take_append_drop (partitionPoint p l) l]
    rw [List.filter_append, List.filter_eq_nil_iff.2 (by intro x hx; simp [e1 x hx]),
      List.filter_eq_self.2 (by intro x hx; simp [e2 x hx]), List.nil_append]

/-! ### std::set -/

theorem mem_setInsert {x y : Nat} {l : List Nat} : y ∈ setInsert x l ↔ y = x ∨ y ∈ l := by
  induction l with
  | nil => simp [setInsert]
  | cons z l ih =>
    unfold setInsert
    split
    · simp
    · split
      · rename_i h; subst h; simp
      · simp [ih]; tauto

theorem setInsert_sorted {x : Nat} {l : List Nat} (h : l.Pairwise (· < ·)) :
    (setInsert x l).Pairwise (· < ·) := by
  induction l with
  | nil => simp [setInsert]
  | cons z l ih =>
    rw [List.pairwise_cons] at h
    unfold setInsert
    split
    · rename_i hx
      rw [List.pairwise_cons]
      refine ⟨?_, List.pairwise_cons.2 h⟩
      intro y hy
      rcases List.mem_cons.1 hy with rfl | hy
      · exact hx
      · have := h.1 y hy; omega
    · split
      · exact List.pairwise_cons.2 h
      · rw [List.pairwise_cons]
        refine ⟨?_, ih h.2⟩
        intro y hy
        rcases mem_setInsert.1 hy with rfl | hy
        · omega
        · exact h.1 y hy

theorem stdSet_aux (l : List Nat) (s : List Nat) (hs : s.Pairwise (· < ·)) :
    (l.foldl (fun s x => setInsert x s) s).Pairwise (· < ·) ∧
    ∀ y, y ∈ l.foldl (fun s x => setInsert x s) s ↔ y ∈ s ∨ y ∈ l := by
  induction l generalizing s with
  | nil => simp [hs]
  | cons x l ih =>
    rw [List.foldl_cons]
    refine ⟨(ih _ (setInsert_sorted hs)).1, fun y => ?_⟩
    rw [(ih _ (setInsert_sorted hs)).2, mem_setInsert]
    simp; tauto

theorem stdSet_sorted (l : List Nat) : (stdSet l).Pairwise (· < ·) :=
  (stdSet_aux l [] List.Pairwise.nil).1

theorem mem_stdSet {l : List Nat} {y : Nat} : y ∈ stdSet l ↔ y ∈ l := by
  have := (stdSet_aux l [] List.Pairwise.nil).2 y
  rw [stdSet, this]; simp

/-! ### scans and slices -/

theorem exclusiveScan_eq (l : List Nat) :
    exclusiveScan l = (List.range l.length).map fun i => (l.take i).sum := by
  have key : ∀ (l : List Nat), l.foldl (fun (st : List Nat × Nat) c => (st.1 ++ [st.2], st.2 + c)) ([], 0)
      = ((List.range l.length).map fun i => (l.take i).sum, l.sum) := by
    intro l
    induction l using List.reverseRecOn with
    | nil => simp
    | append_singleton l x ih =>
      rw [List.foldl_append, ih]
      simp only [List.foldl_cons, List.foldl_nil, List.length_append, List.length_singleton,
        List.range_succ, List.map_append, List.map_cons, List.map_nil, List.sum_append,
        List.sum_cons, List.sum_nil]
      simp only [Prod.mk.injEq, and_true, List.append_cancel_right_eq]
      constructor
      · congr 1
        · apply List.map_congr_left
          intro i hi
          rw [List.mem_range] at hi
          rw [List.take_append_of_le_length (by omega)]
        · rw [List.take_append_of_le_length le_rfl, List.take_length]
      · omega
  unfold exclusiveScan
  rw [key]

theorem exclusiveScan_getD (l : List Nat) {i : Nat} (hi : i < l.length) :
    (exclusiveScan l).getD i 0 = (l.take i).sum := by
  rw [exclusiveScan_eq, List.getD_eq_getElem _ _ (by simpa using hi)]
  simp

theorem flatten_slice {α : Type} (rows : List (List α)) {i : Nat} (hi : i < rows.length) :
    (rows.flatten.drop ((rows.map List.length).take i).sum).take rows[i].length = rows[i] := by
  have e : rows.flatten = (rows.take i).flatten ++ (rows[i] ++ (rows.drop (i + 1)).flatten) := by
    conv_lhs => rw [← List.take_append_drop i rows, List.flatten_append,
      List.drop_eq_getElem_cons (by omega), List.flatten_cons]
  rw [← List.map_take, e, List.drop_append_of_le_length (by simp [List.length_flatten]),
    List.drop_of_length_le (by simp [List.length_flatten]), List.nil_append,
    List.take_append_of_le_length le_rfl, List.take_length]

theorem writeRows_eq {α : Type} (m : Nat) (pos : Nat → Nat) (src : Nat → List α) (dst : List α)
    (hpos : ∀ i < m, pos i = (((List.range i).map src).flatten).length)
    (hlen : (((List.range m).map src).flatten).length ≤ dst.length) :
    writeRows m pos src dst
      = ((List.range m).map src).flatten ++ dst.drop (((List.range m).map src).flatten).length := by
  unfold writeRows
  induction m with
  | zero => simp
  | succ m ih =>
    have hl : (((List.range (m + 1)).map src).flatten).length
        = (((List.range m).map src).flatten).length + (src m).length := by
      rw [List.range_succ, List.map_append, List.flatten_append, List.length_append]; simp
    rw [List.range_succ, List.foldl_append, ih (fun i hi => hpos i (by omega)) (by omega)]
    simp only [List.foldl_cons, List.foldl_nil]
    unfold writeAt
    rw [hpos m (by omega)]
    generalize hF : ((List.range m).map src).flatten = F at *
    rw [List.map_append, List.flatten_append, hF]
    simp only [List.map_cons, List.map_nil, List.flatten_cons, List.flatten_nil, List.append_nil,
      List.length_append]
    rw [List.take_append_of_le_length le_rfl, List.take_length, List.drop_append,
      List.drop_of_length_le (by omega), List.nil_append, List.drop_drop]
    congr 2
    omega

/-- writing a list of pieces exactly fills the array -/
theorem writeRows_full {α : Type} (m : Nat) (pos : Nat → Nat) (src : Nat → List α) (dst : List α)
    (hpos : ∀ i < m, pos i = (((List.range i).map src).flatten).length)
    (hlen : (((List.range m).map src).flatten).length = dst.length) :
    writeRows m pos src dst = ((List.range m).map src).flatten := by
  rw [writeRows_eq m pos src dst hpos hlen.le, hlen, List.drop_length, List.append_nil]

/-! ### chunks by owner -/

theorem pairwise_lt_part {l : List Nat} (h : l.Pairwise (· < ·)) (e : Nat) :
    l.Pairwise fun x y => decide (y < e) = true → decide (x < e) = true :=
  h.imp (fun {a b} hab hb => by simp at hb ⊢; omega)

theorem recvLoop_eq (A : DistCsr R) {M : Nat} (h : RowPartition M A.size A.extents) :
    ∀ k, k ≤ A.size →
      (List.range k).foldl (fun (st : List (List Nat) × List Nat) i =>
        let rowEn := (A.rowBounds i).2
        let k := partitionPoint (fun c => decide (c < rowEn)) st.2
        (st.1 ++ [st.2.take k], st.2.drop k)) ([], A.neededCols)
      = ((List.range k).map fun i =>
          A.neededCols.filter fun c => decide ((A.rowBounds i).1 ≤ c ∧ c < (A.rowBounds i).2),
        A.neededCols.filter fun c => decide (∀ i < k, (A.rowBounds i).2 ≤ c)) := by
  have hsort : A.neededCols.Pairwise (· < ·) := by
    unfold DistCsr.neededCols
    split
    · exact stdSet_sorted _
    · exact List.Pairwise.nil
  have hb : ∀ i, i < A.size → A.extents[i]? = some (A.rowBounds i) := by
    intro i hi
    unfold DistCsr.rowBounds
    rw [List.getD_eq_getElem _ _ (by rw [h.length_eq]; exact hi)]
    exact List.getElem?_eq_getElem _
  intro k
  induction k with
  | zero => intro _; simp
  | succ k ih =>
    intro hk
    rw [List.range_succ, List.foldl_append, ih (by omega), List.foldl_cons, List.foldl_nil]
    dsimp only
    obtain ⟨e1, e2⟩ := partitionPoint_split (fun c => decide (c < (A.rowBounds k).2))
      (A.neededCols.filter fun c => decide (∀ i < k, (A.rowBounds i).2 ≤ c))
      (pairwise_lt_part (hsort.filter _) _)
    rw [e1, e2, List.map_append, List.filter_filter, List.filter_filter]
    have hend : ∀ c, (∀ i < k, (A.rowBounds i).2 ≤ c) ↔ (A.rowBounds k).1 ≤ c := by
      intro c
      constructor
      · intro hc
        rcases Nat.eq_zero_or_pos k with h0 | h0
        · subst h0
          have := h.starts _ (hb 0 (by omega)); omega
        · have := h.contiguous (k - 1) _ _ (hb (k - 1) (by omega))
            (by rw [show k - 1 + 1 = k by omega]; exact hb k (by omega))
          rw [← this]; exact hc (k - 1) (by omega)
      · intro hc i hi
        exact le_trans (h.mono hi (hb i (by omega)) (hb k (by omega))) hc
    congr 1
    · congr 1
      simp only [List.map_cons, List.map_nil, List.cons.injEq, and_true]
      apply List.filter_congr
      intro c _
      rw [Bool.eq_iff_iff]
      simp only [Bool.and_eq_true, decide_eq_true_eq]
      rw [hend]; exact and_comm
    · apply List.filter_congr
      intro c _
      rw [Bool.eq_iff_iff]
      simp only [Bool.and_eq_true, decide_eq_true_eq, Bool.not_eq_true', decide_eq_false_iff_not]
      constructor
      · rintro ⟨h1, h2⟩ i hi
        rcases Nat.lt_or_ge i k with h3 | h3
        · exact h2 i h3
        · have : i = k := by omega
          subst this; omega
      · intro hc
        refine ⟨?_, fun i hi => hc i (by omega)⟩
        have := hc k (by omega); omega

theorem recvByRank_eq (A : DistCsr R) {M : Nat} (h : RowPartition M A.size A.extents) :
    recvByRank A = (List.range A.size).map fun i =>
      A.neededCols.filter fun c => decide ((A.rowBounds i).1 ≤ c ∧ c < (A.rowBounds i).2) := by
  unfold recvByRank
  rw [recvLoop_eq A h A.size le_rfl]

/-- the chunks together are the needed columns, in order -/
theorem recvByRank_flatten (A : DistCsr R) {M : Nat} (h : RowPartition M A.size A.extents)
    (hP : 0 < A.size) (hU : ∀ c ∈ A.neededCols, c < M) :
    (recvByRank A).flatten = A.neededCols := by
  -- the fold never loses elements: prefix ++ rest is constant
  have key : ∀ (l : List Nat) (st : List (List Nat) × List Nat),
      let r := l.foldl (fun (st : List (List Nat) × List Nat) i =>
        let rowEn := (A.rowBounds i).2
        let k := partitionPoint (fun c => decide (c < rowEn)) st.2
        (st.1 ++ [st.2.take k], st.2.drop k)) st
      r.1.flatten ++ r.2 = st.1.flatten ++ st.2 := by
    intro l
    induction l with
    | nil => intro st; rfl
    | cons x l ih =>
      intro st
      simp only [List.foldl_cons]
      rw [ih]
      simp [List.take_append_drop]
  have e := key (List.range A.size) ([], A.neededCols)
  dsimp only at e
  rw [recvLoop_eq A h A.size le_rfl] at e
  rw [recvByRank_eq A h]
  have hnil : (A.neededCols.filter fun c => decide (∀ i < A.size, (A.rowBounds i).2 ≤ c)) = [] := by
    rw [List.filter_eq_nil_iff]
    intro c hc
    simp only [decide_eq_true_eq]
    intro hall
    have h1 := hall (A.size - 1) (by omega)
    have hb : A.extents[A.size - 1]? = some (A.rowBounds (A.size - 1)) := by
      unfold DistCsr.rowBounds
      rw [List.getD_eq_getElem _ _ (by rw [h.length_eq]; omega)]
      exact List.getElem?_eq_getElem _
    rw [h.ends _ hb] at h1
    have := hU c hc
    omega
  rw [hnil] at e
  simpa using e

end Macis
