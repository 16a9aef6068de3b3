import Verif.Lemmas.ConstraintDist
namespace Macis
open Spec
variable {N : Nat}

theorem exactlyOne_of_countP {α : Type} {p : α → Prop} {q : α → Bool} {l : List α}
    (hq : ∀ x ∈ l, q x = true ↔ p x) (h : l.countP q = 1) : ExactlyOne p l := by
  induction l with
  | nil => simp at h
  | cons a l ih =>
    rw [List.countP_cons] at h
    have hq' : ∀ x ∈ l, q x = true ↔ p x := fun x hx => hq x (List.mem_cons_of_mem _ hx)
    by_cases ha : q a = true
    · rw [if_pos ha] at h
      have h0 : l.countP q = 0 := by omega
      rw [List.countP_eq_zero] at h0
      refine ⟨[], a, l, rfl, (hq a List.mem_cons_self).1 ha, ?_⟩
      intro d hd hp
      exact h0 d hd ((hq' d hd).2 hp)
    · rw [if_neg ha] at h
      obtain ⟨pre, c, post, rfl, hc, hd⟩ := ih hq' (by omega)
      refine ⟨a :: pre, c, post, rfl, hc, ?_⟩
      intro d hd'
      rw [List.cons_append, List.mem_cons] at hd'
      rcases hd' with rfl | hd'
      · intro hp; exact ha ((hq d List.mem_cons_self).2 hp)
      · exact hd d hd'

/-! ### the assignment of constraints to ranks -/

theorem minRank_aux (loads : List Nat) (n : Nat) (hn : n ≤ loads.length) (h0 : 0 < loads.length) :
    ((List.range n).foldl (fun m r => if loads.getD r 0 < loads.getD m 0 then r else m) 0) < loads.length ∧
    ∀ s < n, loads.getD ((List.range n).foldl (fun m r => if loads.getD r 0 < loads.getD m 0 then r else m) 0) 0
      ≤ loads.getD s 0 := by
  induction n with
  | zero => exact ⟨h0, fun s hs => absurd hs (Nat.not_lt_zero s)⟩
  | succ n ih =>
    obtain ⟨h1, h2⟩ := ih (by omega)
    rw [List.range_succ, List.foldl_append]
    simp only [List.foldl_cons, List.foldl_nil]
    generalize (List.range n).foldl (fun m r => if loads.getD r 0 < loads.getD m 0 then r else m) 0 = m at h1 h2 ⊢
    split
    · rename_i h
      refine ⟨by omega, fun s hs => ?_⟩
      rcases Nat.lt_succ_iff_lt_or_eq.1 hs with hs | rfl
      · have := h2 s hs; omega
      · exact le_refl _
    · rename_i h
      refine ⟨h1, fun s hs => ?_⟩
      rcases Nat.lt_succ_iff_lt_or_eq.1 hs with hs | rfl
      · exact h2 s hs
      · omega

theorem minRank_spec {loads : List Nat} (h0 : 0 < loads.length) :
    minRank loads < loads.length ∧ ∀ s < loads.length, loads.getD (minRank loads) 0 ≤ loads.getD s 0 :=
  minRank_aux loads loads.length (le_refl _) h0

theorem getD_set' (l : List Nat) (i v s : Nat) (hi : i < l.length) :
    (l.set i v).getD s 0 = if i = s then v else l.getD s 0 := by
  rw [List.getD_eq_getElem?_getD, List.getD_eq_getElem?_getD, List.getElem?_set]
  split
  · rename_i h; subst h; simp [hi]
  · rfl

theorem assign_items {α : Type} (items : List (α × Nat)) : ∀ loads : List Nat,
    (assignRanks loads items).1.map (·.1) = items.map (·.1) := by
  induction items with
  | nil => intro _; rfl
  | cons x items ih =>
    intro loads
    obtain ⟨c, nw⟩ := x
    simp only [assignRanks, List.map_cons, ih]

theorem assign_owner_lt {α : Type} (items : List (α × Nat)) : ∀ loads : List Nat, 0 < loads.length →
    ∀ x ∈ (assignRanks loads items).1, x.2 < loads.length := by
  induction items with
  | nil => intro _ _ x hx; simp [assignRanks] at hx
  | cons y items ih =>
    intro loads h0 x hx
    obtain ⟨c, nw⟩ := y
    simp only [assignRanks, List.mem_cons] at hx
    rcases hx with rfl | hx
    · exact (minRank_spec h0).1
    · have := ih _ (by simpa using h0) x hx
      simpa using this

theorem assign_greedy {α : Type} (items : List (α × Nat)) : ∀ (loads : List Nat), 0 < loads.length →
    ∀ (i r : Nat), ((assignRanks loads items).1.map (·.2))[i]? = some r → ∀ s < loads.length,
      loads.getD r 0 + loadOf (((assignRanks loads items).1.map (·.2)).take i) ((items.map (·.2)).take i) r
      ≤ loads.getD s 0 + loadOf (((assignRanks loads items).1.map (·.2)).take i) ((items.map (·.2)).take i) s := by
  induction items with
  | nil => intro _ _ i r hr; simp [assignRanks] at hr
  | cons y items ih =>
    intro loads h0 i r hr s hs
    obtain ⟨c, nw⟩ := y
    obtain ⟨m1, m2⟩ := minRank_spec h0
    cases i with
    | zero =>
      simp only [assignRanks, List.map_cons, List.getElem?_cons_zero, Option.some.injEq] at hr
      subst hr
      simpa [loadOf] using m2 s hs
    | succ i =>
      simp only [assignRanks, List.map_cons, List.getElem?_cons_succ] at hr
      have := ih _ (by simpa using h0) i r hr s (by simpa using hs)
      rw [getD_set' _ _ _ _ m1, getD_set' _ _ _ _ m1] at this
      simp only [assignRanks, List.map_cons, List.take_succ_cons]
      have e : ∀ (os ws : List Nat) (x : Nat), loadOf (minRank loads :: os) (nw :: ws) x
          = (if minRank loads = x then nw else 0) + loadOf os ws x := by
        intro os ws x; simp [loadOf]
      rw [e, e]
      generalize loadOf _ _ r = A at this ⊢
      generalize loadOf _ _ s = B at this ⊢
      split at this <;> split at this <;> simp_all <;> omega

theorem assign_final {α : Type} (items : List (α × Nat)) : ∀ (loads : List Nat), 0 < loads.length →
    (assignRanks loads items).2.length = loads.length ∧
    ∀ r < loads.length, (assignRanks loads items).2.getD r 0
      = loads.getD r 0 + loadOf ((assignRanks loads items).1.map (·.2)) (items.map (·.2)) r := by
  induction items with
  | nil => intro loads _; exact ⟨rfl, fun r _ => by simp [assignRanks, loadOf]⟩
  | cons y items ih =>
    intro loads h0
    obtain ⟨c, nw⟩ := y
    obtain ⟨m1, m2⟩ := minRank_spec h0
    obtain ⟨i1, i2⟩ := ih (loads.set (minRank loads) (loads.getD (minRank loads) 0 + nw)) (by simpa using h0)
    refine ⟨by simpa [assignRanks] using i1, ?_⟩
    intro r hr
    have := i2 r (by simpa using hr)
    rw [getD_set' _ _ _ _ m1] at this
    simp only [assignRanks, List.map_cons]
    rw [this]
    have e : ∀ (os ws : List Nat) (x : Nat), loadOf (minRank loads :: os) (nw :: ws) x
        = (if minRank loads = x then nw else 0) + loadOf os ws x := by
      intro os ws x; simp [loadOf]
    rw [e]
    split
    · rename_i h; subst h; omega
    · omega

theorem assign_balance {α : Type} (w : Nat) (items : List (α × Nat)) (hw : ∀ x ∈ items, x.2 ≤ w) :
    ∀ (loads : List Nat), 0 < loads.length →
    (∀ r < loads.length, ∀ s < loads.length, loads.getD r 0 ≤ loads.getD s 0 + w) →
    ∀ r < loads.length, ∀ s < loads.length,
      (assignRanks loads items).2.getD r 0 ≤ (assignRanks loads items).2.getD s 0 + w := by
  induction items with
  | nil => intro loads _ h; exact h
  | cons y items ih =>
    intro loads h0 h r hr s hs
    obtain ⟨c, nw⟩ := y
    obtain ⟨m1, m2⟩ := minRank_spec h0
    have hnw : nw ≤ w := hw (c, nw) List.mem_cons_self
    refine ih (fun x hx => hw x (List.mem_cons_of_mem _ hx)) _ (by simpa using h0) ?_ r (by simpa using hr) s
      (by simpa using hs)
    intro r hr s hs
    rw [getD_set' _ _ _ _ m1, getD_set' _ _ _ _ m1]
    simp only [List.length_set] at hr hs
    have a1 := h r hr s hs
    have a2 := m2 s hs
    split <;> split <;> rename_i q1 q2 <;> (try subst q1) <;> (try subst q2) <;> omega

/-- the ranks' lists together are a rearrangement of the list -/
theorem perm_owners {α : Type} (owners : List (α × Nat)) (W : Nat) (h : ∀ x ∈ owners, x.2 < W) :
    ((List.range W).flatMap fun r => (owners.filter fun x => x.2 = r).map (·.1)).Perm (owners.map (·.1)) := by
  induction owners with
  | nil => simp
  | cons a l ih =>
    have hl := ih (fun x hx => h x (List.mem_cons_of_mem _ hx))
    have ha := h a List.mem_cons_self
    refine List.Perm.trans ?_ (List.Perm.cons a.1 hl)
    obtain ⟨k, rfl⟩ : ∃ k, W = a.2 + (1 + k) := ⟨W - a.2 - 1, by omega⟩
    have hne : ∀ (L : List Nat), a.2 ∉ L →
        (L.flatMap fun r => ((a :: l).filter fun x => x.2 = r).map (·.1))
        = L.flatMap fun r => (l.filter fun x => x.2 = r).map (·.1) := by
      intro L hL
      apply List.flatMap_congr
      intro r hr
      have : ¬ a.2 = r := fun e => hL (e ▸ hr)
      rw [List.filter_cons, if_neg (by simpa using this)]
    rw [List.range_add, List.flatMap_append, List.flatMap_append, List.range_add, List.map_append,
      List.flatMap_append, List.flatMap_append, hne (List.range a.2) (by simp)]
    have e1 : ∀ f : Nat → List α, ((List.range 1).map (a.2 + ·)).flatMap f = f a.2 := by
      intro f; simp
    rw [e1, e1, hne _ (by simp; intros; omega), List.filter_cons, if_pos (by simp), List.map_cons]
    rw [List.cons_append]
    exact List.perm_middle

/-! ### work is non-zero where there is something to generate -/

theorem isConstraint_wf {O C B : BitVec N} {cmin : Nat} (h : IsConstraint O C B cmin) : WFCon O C B cmin :=
  ⟨fun i hi => mem_bitSet.2 (h.inMask i (mem_bitSet.1 hi)), mem_bitSet.2 h.lowest,
    fun i hi => h.least i (mem_bitSet.1 hi), fun i => mem_bitSet.trans (h.below i)⟩

theorem wf_isConstraint {O C B : BitVec N} {cmin : Nat} (h : WFCon O C B cmin) : IsConstraint O C B cmin :=
  ⟨fun i hi => mem_bitSet.1 (h.inO (mem_bitSet.2 hi)), mem_bitSet.1 h.low,
    fun i hi => h.min i (mem_bitSet.2 hi), fun i => mem_bitSet.symm.trans (h.below i)⟩

theorem singles_length (det T O B : BitVec N) :
    (generateConstraintSingles det T O B []).length = countConstraintSingles det T O B := by
  unfold generateConstraintSingles countConstraintSingles
  dsimp only
  generalize (constraintSingleEx det T O B).1 = o
  generalize (constraintSingleEx det T O B).2 = v
  split
  · rename_i h
    rcases h with h | h <;> simp [h]
  · simp [List.length_flatMap, length_indices]

theorem doubles_length (det T O B : BitVec N) (old : List (BitVec N)) :
    (generateConstraintDoubles det T O B old).length = countConstraintDoubles det T O B := by
  rw [countConstraintDoubles_eq]
  unfold generateConstraintDoubles
  dsimp only
  simp [List.length_flatMap]

theorem ffs_cmin {O C B : BitVec N} {cmin : Nat} (h : WFCon O C B cmin) : ffs C - 1 = cmin := by
  have hne : C ≠ 0#N := by
    rintro rfl
    have := h.low
    rw [bitSet_zero] at this
    simp at this
  obtain ⟨i, _, hb, hmin, he⟩ := ffs_spec hne
  rw [he, Nat.add_sub_cancel]
  have h1 := h.min i (mem_bitSet.2 hb)
  rcases Nat.lt_or_ge cmin i with h2 | h2
  · have := hmin cmin h2
    rw [mem_bitSet.1 h.low] at this; cases this
  · omega

theorem ne_nil_iff_exists {α : Type} {l : List α} : l ≠ [] ↔ ∃ x, x ∈ l := by
  cases l <;> simp

/-- the predicted work vanishes exactly when nothing can be generated -/
theorem histogram_ne_zero {det O C B : BitVec N} {cmin : Nat} (hN : N < 2 ^ 64) (wf : WFCon O C B cmin)
    (h3 : 3 ≤ count C) (hdO : bitSet det ⊆ bitSet O) (nos nod : Nat) :
    constraintHistogram det nos nod C O B ≠ 0 ↔
      ∃ k ≤ 2, ∃ t, ExcitedWithin k (fun i => O.getLsbD i = true) det t ∧ Satisfies C cmin t := by
  have hs := mem_constraintSingles hN wf hdO
  have hd := mem_constraintDoubles wf h3 hdO []
  have hs' : countConstraintSingles det C O B ≠ 0 ↔ ∃ t, ExcitedWithin 1 (fun i => O.getLsbD i = true) det t ∧ Satisfies C cmin t := by
    rw [← singles_length, ne_eq, List.length_eq_zero_iff, ← ne_eq, ne_nil_iff_exists]
    simp only [hs]
  have hd' : countConstraintDoubles det C O B ≠ 0 ↔ ∃ t, ExcitedWithin 2 (fun i => O.getLsbD i = true) det t ∧ Satisfies C cmin t := by
    rw [← doubles_length (old := []), ne_eq, List.length_eq_zero_iff, ← ne_eq, ne_nil_iff_exists]
    simp only [hd]
  have h0 : satisfiesConstraint det C (ffs C - 1) = true ↔ ∃ t, ExcitedWithin 0 (fun i => O.getLsbD i = true) det t ∧ Satisfies C cmin t := by
    rw [ffs_cmin wf, satisfiesConstraint_iff wf.min]
    constructor
    · intro h
      exact ⟨det, ⟨∅, ∅, rfl, rfl, by simp, by simp, by simp⟩, h⟩
    · rintro ⟨t, ht, h⟩
      rw [excited_zero.1 ht] at h; exact h
  have split : (∃ k ≤ 2, ∃ t, ExcitedWithin k (fun i => O.getLsbD i = true) det t ∧ Satisfies C cmin t) ↔
      (satisfiesConstraint det C (ffs C - 1) = true ∨ countConstraintSingles det C O B ≠ 0 ∨ countConstraintDoubles det C O B ≠ 0) := by
    rw [h0, hs', hd']
    constructor
    · rintro ⟨k, hk, h⟩
      have : k = 0 ∨ k = 1 ∨ k = 2 := by omega
      rcases this with rfl | rfl | rfl
      · exact Or.inl h
      · exact Or.inr (Or.inl h)
      · exact Or.inr (Or.inr h)
    · rintro (h | h | h)
      · exact ⟨0, by omega, h⟩
      · exact ⟨1, by omega, h⟩
      · exact ⟨2, by omega, h⟩
  rw [split]
  unfold constraintHistogram
  dsimp only
  generalize countConstraintSingles det C O B = a
  generalize countConstraintDoubles det C O B = b
  cases satisfiesConstraint det C (ffs C - 1)
  · simp only [Bool.false_eq_true, if_false, false_or]
    have : a * nos ≠ 0 → a ≠ 0 := fun h => left_ne_zero_of_mul h
    omega
  · simp

theorem work_ne_zero {norb nos nod : Nat} (hn : norb ≤ N) (hN : N < 2 ^ 64) {ua : List (BitVec N)} {a t : BitVec N}
    (ha : a ∈ ua) (has : ∀ i ∈ bitSet a, i < norb) {k : Nat} (hk : k ≤ 2)
    (ht : ExcitedWithin k (fun i => i < norb) a t) (c : WfnConstraint N) (hc : SWF norb c) (hl : c.Cmin ∈ bitSet c.C)
    (h3 : 3 ≤ count c.C) (hs : satB t c = true) : constraintWork norb nos nod ua c ≠ 0 := by
  have wf := swf_wfcon hn hc hl
  have hm : ∀ i, (fullMask N norb).getLsbD i = true ↔ i < norb := by
    intro i; rw [getLsbD_fullMask hn]; simp
  have key : constraintHistogram a nos nod c.C (fullMask N norb) c.B ≠ 0 := by
    rw [histogram_ne_zero hN wf h3 (fun i hi => mem_bitSet.2 ((hm i).2 (has i hi)))]
    refine ⟨k, hk, t, ?_, (satisfiesConstraint_iff hc.min).1 hs⟩
    simpa only [hm] using ht
  unfold constraintWork
  intro h0
  rw [List.sum_eq_zero_iff] at h0
  exact key (h0 _ (List.mem_map.2 ⟨a, ha, rfl⟩))

end Macis
