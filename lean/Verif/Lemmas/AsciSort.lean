import Verif.Spec.AsciSort
import Verif.Lemmas.Bits
import Mathlib.Tactic.Ring
import Mathlib.Data.List.Perm.Basic
import Mathlib.Algebra.Order.Group.Unbundled.Abs
import Mathlib.Algebra.Order.Group.Defs
namespace Macis
open Spec
variable {N : Nat} {R : Type}

/-! ### combining runs -/

/-- combination and removal of duplicates in one pass -/
def runs (op : R → R → R) (cur : Contrib N R) : List (Contrib N R) → List (Contrib N R)
  | [] => [cur]
  | x :: xs => if x.state ≠ cur.state then cur :: runs op x xs else runs op { cur with rv := op cur.rv x.rv } xs

theorem combineRun_state (op : R → R → R) (leave : Contrib N R → Contrib N R) (xs : List (Contrib N R)) :
    ∀ cur, (combineRun op leave cur xs).1.state = cur.state := by
  induction xs with
  | nil => intro _; rfl
  | cons x xs ih =>
    intro cur
    rw [combineRun]
    split
    · rfl
    · exact ih _

theorem combineRun_runs (op : R → R → R) (leave : Contrib N R → Contrib N R)
    (hl : ∀ x, (leave x).state = x.state) (xs : List (Contrib N R)) : ∀ cur,
    (combineRun op leave cur xs).1 :: uniqueFrom (combineRun op leave cur xs).1 (combineRun op leave cur xs).2
      = runs op cur xs := by
  induction xs with
  | nil => intro _; rfl
  | cons x xs ih =>
    intro cur
    rw [combineRun, runs]
    by_cases h : x.state = cur.state
    · rw [if_neg (not_not.2 h), if_neg (not_not.2 h)]
      dsimp only
      rw [uniqueFrom, if_pos (by rw [hl, combineRun_state]; exact h)]
      exact ih _
    · rw [if_pos h, if_pos h]
      dsimp only
      rw [uniqueFrom, if_neg (by rw [combineRun_state]; exact h), ih]

/-- non-decreasing states -/
def Sorted (l : List (Contrib N R)) : Prop := l.Pairwise fun x y => x.state.toNat ≤ y.state.toNat

theorem runs_head (op : R → R → R) (xs : List (Contrib N R)) : ∀ cur, ∀ p ∈ runs op cur xs,
    p.state = cur.state ∨ ∃ q ∈ xs, q.state = p.state := by
  induction xs with
  | nil => intro cur p hp; rw [runs, List.mem_singleton] at hp; exact Or.inl (by rw [hp])
  | cons x xs ih =>
    intro cur p hp
    rw [runs] at hp
    split at hp
    · rw [List.mem_cons] at hp
      rcases hp with rfl | hp
      · exact Or.inl rfl
      · rcases ih _ _ hp with h | ⟨q, hq, h⟩
        · exact Or.inr ⟨x, List.mem_cons_self, h.symm⟩
        · exact Or.inr ⟨q, List.mem_cons_of_mem _ hq, h⟩
    · rcases ih _ _ hp with h | ⟨q, hq, h⟩
      · exact Or.inl h
      · exact Or.inr ⟨q, List.mem_cons_of_mem _ hq, h⟩

theorem runs_mem (op : R → R → R) (xs : List (Contrib N R)) : ∀ cur, ∀ q ∈ cur :: xs,
    ∃ p ∈ runs op cur xs, p.state = q.state := by
  induction xs with
  | nil => intro cur q hq; rw [List.mem_singleton] at hq; exact ⟨cur, by simp [runs], by rw [hq]⟩
  | cons x xs ih =>
    intro cur q hq
    rw [runs]
    split
    · rw [List.mem_cons] at hq
      rcases hq with rfl | hq
      · exact ⟨q, List.mem_cons_self, rfl⟩
      · obtain ⟨p, hp, h⟩ := ih x q hq
        exact ⟨p, List.mem_cons_of_mem _ hp, h⟩
    · rename_i hx
      rw [not_not] at hx
      rw [List.mem_cons, List.mem_cons] at hq
      rcases hq with rfl | rfl | hq
      · obtain ⟨p, hp, h⟩ := ih { q with rv := op q.rv x.rv } _ List.mem_cons_self
        exact ⟨p, hp, h⟩
      · obtain ⟨p, hp, h⟩ := ih { cur with rv := op cur.rv q.rv } _ List.mem_cons_self
        exact ⟨p, hp, h.trans hx.symm⟩
      · obtain ⟨p, hp, h⟩ := ih { cur with rv := op cur.rv x.rv } _ (List.mem_cons_of_mem _ hq)
        exact ⟨p, hp, h⟩

theorem runs_sorted (op : R → R → R) (xs : List (Contrib N R)) : ∀ cur, Sorted (cur :: xs) →
    (runs op cur xs).Pairwise fun x y => x.state.toNat < y.state.toNat := by
  induction xs with
  | nil => intro cur _; rw [runs]; exact List.pairwise_singleton _ _
  | cons x xs ih =>
    intro cur h
    obtain ⟨h1, h2⟩ := List.pairwise_cons.1 h
    rw [runs]
    split
    · rename_i hx
      rw [List.pairwise_cons]
      refine ⟨?_, ih x h2⟩
      intro p hp
      have hle : cur.state.toNat ≤ x.state.toNat := h1 x List.mem_cons_self
      have hne : cur.state.toNat ≠ x.state.toNat := fun e => hx (BitVec.eq_of_toNat_eq e.symm)
      rcases runs_head op xs x p hp with e | ⟨q, hq, e⟩
      · rw [e]; omega
      · have := (List.pairwise_cons.1 h2).1 q hq
        rw [← e]; omega
    · apply ih
      rw [Sorted, List.pairwise_cons]
      exact ⟨fun y hy => h1 y (List.mem_cons_of_mem _ hy), (List.pairwise_cons.1 h2).2⟩

theorem runs_value (op : R → R → R) (xs : List (Contrib N R)) : ∀ cur, Sorted (cur :: xs) → ∀ p ∈ runs op cur xs,
    ∃ f r, (cur :: xs).filter (fun q => q.state = p.state) = f :: r ∧
      p.rv = r.foldl (fun a q => op a q.rv) f.rv := by
  induction xs with
  | nil =>
    intro cur _ p hp
    rw [runs, List.mem_singleton] at hp
    subst hp
    exact ⟨p, [], by simp, rfl⟩
  | cons x xs ih =>
    intro cur h p hp
    obtain ⟨h1, h2⟩ := List.pairwise_cons.1 h
    rw [runs] at hp
    split at hp
    · rename_i hx
      have hle : cur.state.toNat ≤ x.state.toNat := h1 x List.mem_cons_self
      have hne : cur.state.toNat ≠ x.state.toNat := fun e => hx (BitVec.eq_of_toNat_eq e.symm)
      have hall : ∀ y ∈ x :: xs, cur.state.toNat < y.state.toNat := by
        intro y hy
        rw [List.mem_cons] at hy
        rcases hy with rfl | hy
        · omega
        · have := (List.pairwise_cons.1 h2).1 y hy; omega
      rw [List.mem_cons] at hp
      rcases hp with rfl | hp
      · refine ⟨p, [], ?_, rfl⟩
        rw [List.filter_cons, if_pos (by simp)]
        congr 1
        rw [List.filter_eq_nil_iff]
        intro y hy
        have := hall y hy
        simp only [decide_eq_true_eq]
        intro e; rw [e] at this; omega
      · obtain ⟨f, r, e1, e2⟩ := ih x h2 p hp
        refine ⟨f, r, ?_, e2⟩
        rw [List.filter_cons, if_neg, e1]
        have hf : f ∈ (x :: xs).filter (fun q => q.state = p.state) := by rw [e1]; simp
        rw [List.mem_filter] at hf
        have := hall f hf.1
        have e := hf.2
        simp only [decide_eq_true_eq] at e ⊢
        intro e'; rw [e', ← e] at this; omega
    · rename_i hx
      rw [not_not] at hx
      have hs : Sorted ({ cur with rv := op cur.rv x.rv } :: xs) := by
        rw [Sorted, List.pairwise_cons]
        exact ⟨fun y hy => h1 y (List.mem_cons_of_mem _ hy), (List.pairwise_cons.1 h2).2⟩
      obtain ⟨f, r, e1, e2⟩ := ih _ hs p hp
      by_cases hc : cur.state = p.state
      · rw [List.filter_cons, if_pos (by simpa using hc)] at e1
        obtain ⟨rfl, rfl⟩ := List.cons.inj e1
        refine ⟨cur, x :: xs.filter (fun q => q.state = p.state), ?_, ?_⟩
        · rw [List.filter_cons, if_pos (by simpa using hc), List.filter_cons,
            if_pos (by simpa using hx.trans hc)]
        · rw [List.foldl_cons]; exact e2
      · rw [List.filter_cons, if_neg (by simpa using hc)] at e1
        refine ⟨f, r, ?_, e2⟩
        rw [List.filter_cons, if_neg (by simpa using hc), List.filter_cons,
          if_neg (by simpa using fun e => hc (hx.symm.trans e)), e1]

theorem sorted_of_sortsBy {srt : List (Contrib N R) → List (Contrib N R)}
    (h : SortsBy (fun x y => bitsetLess x.state y.state) srt) (l : List (Contrib N R)) : Sorted (srt l) := by
  refine (h l).2.imp ?_
  intro x y hxy
  rw [Bool.eq_false_iff, ne_eq, bitsetLess_iff] at hxy
  omega

/-- what `sortCombine` computes -/
theorem sortCombine_spec (op : R → R → R) (leave : Contrib N R → Contrib N R)
    (hl : ∀ x, (leave x).state = x.state) {srt : List (Contrib N R) → List (Contrib N R)}
    (h : SortsBy (fun x y => bitsetLess x.state y.state) srt) (l : List (Contrib N R)) :
    (sortCombine op leave srt l).Pairwise (fun x y => x.state.toNat < y.state.toNat) ∧
    (∀ s, (∃ p ∈ sortCombine op leave srt l, p.state = s) ↔ ∃ p ∈ l, p.state = s) ∧
    ∀ p ∈ sortCombine op leave srt l, ∃ f r, (f :: r).Perm (l.filter fun q => q.state = p.state) ∧
      p.rv = r.foldl (fun a q => op a q.rv) f.rv := by
  have hp := (h l).1
  have hs := sorted_of_sortsBy h l
  unfold sortCombine
  generalize srt l = m at hp hs
  cases m with
  | nil =>
    have : l = [] := by simpa using hp.symm
    subst this
    simp
  | cons x xs =>
    dsimp only
    rw [combineRun_runs op leave hl]
    refine ⟨runs_sorted op xs x hs, ?_, ?_⟩
    · intro s
      constructor
      · rintro ⟨p, hp', e⟩
        rcases runs_head op xs x p hp' with e' | ⟨q, hq, e'⟩
        · exact ⟨x, hp.mem_iff.1 List.mem_cons_self, e'.symm.trans e⟩
        · exact ⟨q, hp.mem_iff.1 (List.mem_cons_of_mem _ hq), e'.trans e⟩
      · rintro ⟨p, hp', e⟩
        obtain ⟨q, hq, e'⟩ := runs_mem op xs x p (hp.mem_iff.2 hp')
        exact ⟨q, hq, e'.trans e⟩
    · intro p hp'
      obtain ⟨f, r, e1, e2⟩ := runs_value op xs x hs p hp'
      refine ⟨f, r, ?_, e2⟩
      rw [← e1]
      exact hp.filter _

theorem foldl_add_sum_asci [AddCommGroup R] (r : List (Contrib N R)) : ∀ a : R,
    r.foldl (fun a q => a + q.rv) a = a + (r.map (·.rv)).sum := by
  induction r with
  | nil => intro a; simp
  | cons x r ih => intro a; rw [List.foldl_cons, ih, List.map_cons, List.sum_cons, add_assoc]

theorem foldl_max_spec [LinearOrder R] (r : List (Contrib N R)) : ∀ f : Contrib N R,
    (∀ q ∈ f :: r, q.rv ≤ r.foldl (fun a q => max a q.rv) f.rv) ∧
    ∃ q ∈ f :: r, q.rv = r.foldl (fun a q => max a q.rv) f.rv := by
  induction r with
  | nil => intro f; simp
  | cons x r ih =>
    intro f
    rw [List.foldl_cons]
    obtain ⟨h1, q, hq, h2⟩ := ih { f with rv := max f.rv x.rv }
    have hm : max f.rv x.rv ≤ r.foldl (fun a q => max a q.rv) (max f.rv x.rv) :=
      h1 { f with rv := max f.rv x.rv } List.mem_cons_self
    constructor
    · intro y hy
      rw [List.mem_cons, List.mem_cons] at hy
      rcases hy with rfl | rfl | hy
      · exact (le_max_left _ _).trans hm
      · exact (le_max_right _ _).trans hm
      · exact h1 y (List.mem_cons_of_mem _ hy)
    · rw [List.mem_cons] at hq
      rcases hq with rfl | hq
      · rcases le_total f.rv x.rv with h | h
        · exact ⟨x, by simp, by rw [← h2]; exact (max_eq_right h).symm⟩
        · exact ⟨f, by simp, by rw [← h2]; exact (max_eq_left h).symm⟩
      · exact ⟨q, by simp [hq], h2⟩

theorem sortCombine_of_ne (l : List (Contrib N R)) (f : List (Contrib N R) → List (Contrib N R))
    (h : (f []).Perm []) : (if l.isEmpty then l else f l) = f l := by
  cases l with
  | nil => simp only [List.isEmpty_nil, if_true]; exact (by simpa using h : f [] = []).symm
  | cons x l => rfl

theorem sortCombine_nil (op : R → R → R) (leave : Contrib N R → Contrib N R)
    {srt : List (Contrib N R) → List (Contrib N R)}
    (h : SortsBy (fun x y => bitsetLess x.state y.state) srt) : sortCombine op leave srt [] = [] := by
  have : srt [] = [] := by simpa using (h []).1
  unfold sortCombine
  rw [this]

theorem sortAccumulate_spec [AddCommGroup R] {srt : List (Contrib N R) → List (Contrib N R)}
    (h : SortsBy (fun x y => bitsetLess x.state y.state) srt) (l : List (Contrib N R)) :
    (sortAccumulate srt l).Pairwise (fun x y => x.state.toNat < y.state.toNat) ∧
    (∀ s, (∃ p ∈ sortAccumulate srt l, p.state = s) ↔ ∃ p ∈ l, p.state = s) ∧
    ∀ p ∈ sortAccumulate srt l, p.rv = totalScore l p.state := by
  unfold sortAccumulate
  rw [sortCombine_of_ne l _ (by rw [sortCombine_nil _ _ h])]
  obtain ⟨h1, h2, h3⟩ := sortCombine_spec (· + ·) (fun x : Contrib N R => { x with rv := 0 }) (fun _ => rfl) h l
  refine ⟨h1, h2, ?_⟩
  intro p hp
  obtain ⟨f, r, e1, e2⟩ := h3 p hp
  rw [e2, foldl_add_sum_asci, totalScore, ← (e1.map (·.rv)).sum_eq, List.map_cons, List.sum_cons]

theorem keepLargest_spec [LinearOrder R] {srt : List (Contrib N R) → List (Contrib N R)}
    (h : SortsBy (fun x y => bitsetLess x.state y.state) srt) (l : List (Contrib N R)) :
    (keepLargestCopy srt l).Pairwise (fun x y => x.state.toNat < y.state.toNat) ∧
    (∀ s, (∃ p ∈ keepLargestCopy srt l, p.state = s) ↔ ∃ p ∈ l, p.state = s) ∧
    ∀ p ∈ keepLargestCopy srt l, p ∈ l ∧ ∀ q ∈ l, q.state = p.state → q.rv ≤ p.rv := by
  unfold keepLargestCopy
  rw [sortCombine_of_ne l _ (by rw [sortCombine_nil _ _ h])]
  obtain ⟨h1, h2, h3⟩ := sortCombine_spec max id (fun _ => rfl) h l
  refine ⟨h1, h2, ?_⟩
  intro p hp
  obtain ⟨f, r, e1, e2⟩ := h3 p hp
  obtain ⟨m1, q, hq, m2⟩ := foldl_max_spec r f
  rw [← e2] at m1 m2
  constructor
  · have hq' := e1.mem_iff.1 hq
    rw [List.mem_filter] at hq'
    have e : q = p := by
      cases q; cases p
      simp only [decide_eq_true_eq] at hq' m2
      simp [hq'.2, m2]
    rw [← e]; exact hq'.1
  · intro q hq e
    exact m1 q (e1.mem_iff.2 (List.mem_filter.2 ⟨hq, by simpa using e⟩))

theorem nodup_of_lt {l : List (Contrib N R)} (h : l.Pairwise fun x y => x.state.toNat < y.state.toNat) :
    (l.map (·.state)).Nodup := by
  rw [List.Nodup, List.pairwise_map]
  refine h.imp ?_
  intro x y hxy e
  rw [e] at hxy; omega

end Macis
