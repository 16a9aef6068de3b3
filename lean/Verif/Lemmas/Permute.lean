import Verif.Lemmas.SpUtil
/-
Permutations as lists of naturals, scatter loops.
-/
namespace Macis
open Spec
variable {R : Type}

section scatter
variable {α : Type}

theorem foldl_set_length (n : Nat) (pos : Nat → Nat) (val : Nat → α) (l : List α) :
    ((List.range n).foldl (fun l i => l.set (pos i) (val i)) l).length = l.length := by
  induction n with
  | zero => rfl
  | succ n ih => rw [List.range_succ, List.foldl_append]; simp [ih]

theorem foldl_set_getD (n : Nat) (pos : Nat → Nat) (val : Nat → α) (l : List α) (d : α)
    (hb : ∀ i < n, pos i < l.length) (hinj : ∀ i < n, ∀ j < n, pos i = pos j → i = j) :
    ∀ k < n, ((List.range n).foldl (fun l i => l.set (pos i) (val i)) l).getD (pos k) d = val k := by
  induction n with
  | zero => intro k hk; omega
  | succ n ih =>
    intro k hk
    rw [List.range_succ, List.foldl_append, List.foldl_cons, List.foldl_nil,
      List.getD_eq_getElem?_getD, List.getElem?_set]
    have hl := foldl_set_length n pos val l
    by_cases e : k = n
    · subst e
      rw [if_pos rfl, if_pos (by rw [hl]; exact hb k (by omega))]; rfl
    · rw [if_neg (fun h => e (hinj n (by omega) k hk h).symm), ← List.getD_eq_getElem?_getD]
      exact ih (fun i hi => hb i (by omega)) (fun i hi j hj => hinj i (by omega) j (by omega)) k
        (by omega)

end scatter

/-- `perm` lists every index below `n` once -/
theorem isPerm_getD {perm : List Nat} {n : Nat} (h : perm.Perm (List.range n)) {i : Nat} (hi : i < n) :
    perm.getD i 0 < n := by
  have hl : perm.length = n := by rw [h.length_eq, List.length_range]
  rw [List.getD_eq_getElem _ _ (by omega)]
  exact List.mem_range.1 (h.mem_iff.1 (List.getElem_mem _))

theorem isPerm_inj {perm : List Nat} {n : Nat} (h : perm.Perm (List.range n)) {i j : Nat} (hi : i < n)
    (hj : j < n) (e : perm.getD i 0 = perm.getD j 0) : i = j := by
  have hl : perm.length = n := by rw [h.length_eq, List.length_range]
  have hnd : perm.Nodup := h.nodup_iff.2 List.nodup_range
  rw [List.getD_eq_getElem _ _ (by omega), List.getD_eq_getElem _ _ (by omega)] at e
  exact (List.Nodup.getElem_inj_iff hnd).1 e

theorem isPerm_surj {perm : List Nat} {n : Nat} (h : perm.Perm (List.range n)) {k : Nat} (hk : k < n) :
    ∃ i < n, perm.getD i 0 = k := by
  have hl : perm.length = n := by rw [h.length_eq, List.length_range]
  obtain ⟨i, hi, e⟩ := List.mem_iff_getElem.1 (h.mem_iff.2 (List.mem_range.2 hk))
  exact ⟨i, by omega, by rw [List.getD_eq_getElem _ _ hi]; exact e⟩

/-- the tabulation of an injective self-map of `[0,n)` is a permutation -/
theorem isPerm_of_inj {l : List Nat} {n : Nat} (hl : l.length = n) (hb : ∀ i < n, l.getD i 0 < n)
    (hinj : ∀ i < n, ∀ j < n, l.getD i 0 = l.getD j 0 → i = j) : l.Perm (List.range n) := by
  have hnd : l.Nodup := by
    rw [List.nodup_iff_injective_getElem]
    intro i j e
    apply Fin.ext
    have := hinj i (by rw [← hl]; exact i.2) j (by rw [← hl]; exact j.2)
    rw [List.getD_eq_getElem _ _ i.2, List.getD_eq_getElem _ _ j.2] at this
    exact this e
  have hsub : l ⊆ List.range n := by
    intro x hx
    obtain ⟨i, hi, rfl⟩ := List.mem_iff_getElem.1 hx
    have := hb i (by omega)
    rw [List.getD_eq_getElem _ _ hi] at this
    exact List.mem_range.2 this
  exact (List.subperm_of_subset hnd hsub).perm_of_length_le (by simp [hl])

theorem invertPerm_length (perm : List Nat) : (invertPerm perm).length = perm.length := by
  unfold invertPerm; rw [foldl_set_length]; simp

theorem invertPerm_left {perm : List Nat} {n : Nat} (h : perm.Perm (List.range n)) {i : Nat} (hi : i < n) :
    (invertPerm perm).getD (perm.getD i 0) 0 = i := by
  have hl : perm.length = n := by rw [h.length_eq, List.length_range]
  unfold invertPerm
  rw [hl]
  exact foldl_set_getD n (fun i => perm.getD i 0) (fun i => i) _ 0
    (by intro i hi; rw [List.length_replicate]; exact isPerm_getD h hi)
    (fun i hi j hj e => isPerm_inj h hi hj e) i hi

theorem invertPerm_right {perm : List Nat} {n : Nat} (h : perm.Perm (List.range n)) {i : Nat} (hi : i < n) :
    (invertPerm perm).getD i 0 < n ∧ perm.getD ((invertPerm perm).getD i 0) 0 = i := by
  obtain ⟨k, hk, rfl⟩ := isPerm_surj h hi
  rw [invertPerm_left h hk]
  exact ⟨hk, rfl⟩

theorem invertPerm_perm {perm : List Nat} {n : Nat} (h : perm.Perm (List.range n)) :
    (invertPerm perm).Perm (List.range n) := by
  have hl : perm.length = n := by rw [h.length_eq, List.length_range]
  apply isPerm_of_inj (by rw [invertPerm_length, hl])
  · intro i hi; exact (invertPerm_right h hi).1
  · intro i hi j hj e
    rw [← (invertPerm_right h hi).2, ← (invertPerm_right h hj).2, e]

/-- gathering through a permuted index list -/
theorem gather_perm {α : Type} (l : List α) (d : α) {ind : List Nat}
    (h : ind.Perm (List.range l.length)) : (ind.map fun k => l.getD k d).Perm l := by
  have e : l = (List.range l.length).map fun k => l.getD k d := by
    apply List.ext_getElem
    · simp
    · intro i h1 h2; simp [List.getD_eq_getElem, h1]
  conv_rhs => rw [e]
  exact h.map _

/-- the lists of a row-permuting build have the right total length -/
theorem perm_rows_sum {perm : List Nat} {m : Nat} (h : perm.Perm (List.range m)) (f : Nat → Nat) :
    ((List.range m).map fun i => f (perm.getD i 0)).sum = ((List.range m).map f).sum := by
  have hl : perm.length = m := by rw [h.length_eq, List.length_range]
  have e : ((List.range m).map fun i => f (perm.getD i 0)) = perm.map f := by
    apply List.ext_getElem
    · simp [hl]
    · intro i h1 h2
      simp at h2
      simp [List.getD_eq_getElem, h2]
  rw [e]
  exact (h.map f).sum_eq

end Macis
