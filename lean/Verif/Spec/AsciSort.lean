import Verif.Model.AsciSort
import Mathlib.Algebra.BigOperators.Group.List.Defs
/-
Specifications for the ASCI sorting and selection steps.
-/
namespace Macis.Spec
open Macis

/-- what `std::sort` guarantees for the comparator "`less` on keys": a rearrangement in which no
later element is less than an earlier one -/
def SortsBy {α : Type} (less : α → α → Bool) (srt : List α → List α) : Prop :=
  ∀ l, (srt l).Perm l ∧ (srt l).Pairwise fun x y => less y x = false

/-- what `std::partition` is used for here: a rearrangement -/
def Rearranges {α : Type} (f : List α → List α) : Prop := ∀ l, (f l).Perm l

/-- what `std::nth_element` at position `k` guarantees for the comparator "`f x > f y`": a
rearrangement in which no element from position `k` on comes before an element ahead of it -/
def NthElement {α β : Type} [LT β] (f : α → β) (nth : Nat → List α → List α) : Prop :=
  ∀ k l, (nth k l).Perm l ∧ ∀ x ∈ (nth k l).take k, ∀ y ∈ (nth k l).drop k, ¬ f x < f y

/-- sum of the scores given to determinant `s` -/
def totalScore {N : Nat} {R : Type} [AddCommGroup R] (l : List (Contrib N R)) (s : BitVec N) : R :=
  ((l.filter fun p => p.state = s).map (·.rv)).sum

/-- `v` is the `k`-th largest element (ties counted) of the multiset `l` -/
def IsKthLargest {α : Type} [LinearOrder α] (l : List α) (k : Nat) (v : α) : Prop :=
  v ∈ l ∧ (l.filter fun x => v < x).length < k ∧ k ≤ (l.filter fun x => v ≤ x).length

/-- `K` is a best choice of at most `k` candidates under `score`: no repetitions, all candidates
unless `k` are taken, and nothing left out scores more than something taken. -/
structure BestOf {α β : Type} [LinearOrder β] (cand : α → Prop) (score : α → β) (k : Nat) (K : List α) : Prop where
  nodup : K.Nodup
  sub : ∀ s ∈ K, cand s
  atMost : K.length ≤ k
  full : K.length < k → ∀ s, cand s → s ∈ K
  best : ∀ s ∈ K, ∀ t, cand t → t ∉ K → score t ≤ score s

end Macis.Spec
