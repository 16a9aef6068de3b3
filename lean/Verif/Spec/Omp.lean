import Verif.Model.Omp
/-! Executions of a parallel loop under every distribution of the iterations and every interleaving. -/
namespace Macis.Spec.Omp
open Macis.Omp
variable {R : Type}

/-- executions of `n` steps, in each of which some thread takes its next step -/
inductive Run (J : RowJob R) : Nat → State R → State R → Prop
  | nil (s) : Run J 0 s s
  | cons {n s s' s''} (t : Nat) : step J s t = some s' → Run J n s' s'' → Run J (n + 1) s s''

/-- How OpenMP may start the loop over `m` rows: every row is given to exactly one thread, in any order; the
threads' index arrays are empty (permute.hpp:161, 214); the output arrays hold anything. -/
structure Starts (m : Nat) (s : State R) : Prop where
  ind : ∀ t, (s.thr t).ind = []
  idle : ∀ t, (s.thr t).cur = none
  once : ∀ t, (s.thr t).todo.Nodup
  rows : ∀ t, ∀ i ∈ (s.thr t).todo, i < m
  all : ∀ i < m, ∃ t, i ∈ (s.thr t).todo
  disjoint : ∀ t t' i, i ∈ (s.thr t).todo → i ∈ (s.thr t').todo → t = t'

/-- every thread has done all its iterations -/
def Finished (s : State R) : Prop := ∀ t, (s.thr t).todo = [] ∧ (s.thr t).cur = none

/-- Whatever the interleaving, from `s` the loop ends, after the same number of steps; at no time are two threads
about to write the same element; at the end the state satisfies `Q`. -/
def AlwaysEnds (J : RowJob R) (s : State R) (Q : State R → Prop) : Prop :=
  ∃ N, ∀ n s', Run J n s s' →
    n ≤ N ∧ (n < N → ∃ t s'', step J s' t = some s'') ∧ (n = N → Finished s' ∧ Q s') ∧
    ∀ t t', t ≠ t' → ∀ x, writing J s' t = some x → writing J s' t' ≠ some x

end Macis.Spec.Omp
