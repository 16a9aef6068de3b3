import Verif.Model.OmpCell
/-! Executions of a parallel loop that updates single elements, under every distribution of the iterations over
threads and every interleaving. -/
namespace Macis.Spec.OmpCell
open Macis.OmpCell
variable {R : Type}

/-- executions of `n` steps, in each of which some thread takes its next step -/
inductive Run (J : Job R) : Nat → State R → State R → Prop
  | nil (s) : Run J 0 s s
  | cons {n s s' s''} (t : Nat) : step J s t = some s' → Run J n s' s'' → Run J (n + 1) s s''

/-- How OpenMP may start the loop over the iterations `its`: each is given to exactly one thread, in any order. -/
structure Starts (its : List (Nat × Nat)) (s : State R) : Prop where
  idle : ∀ t, (s.thr t).cur = none
  once : ∀ t, (s.thr t).todo.Nodup
  rows : ∀ t, ∀ q ∈ (s.thr t).todo, q ∈ its
  all : ∀ q ∈ its, ∃ t, q ∈ (s.thr t).todo
  disjoint : ∀ t t' q, q ∈ (s.thr t).todo → q ∈ (s.thr t').todo → t = t'

/-- every thread has done all its iterations -/
def Finished (s : State R) : Prop := ∀ t, (s.thr t).todo = [] ∧ (s.thr t).cur = none

/-- Whatever the interleaving, from `s` the loop ends, after the same number of steps; at no time are two threads
about to access the same element; at the end the output array satisfies `Q`. -/
def AlwaysEnds (J : Job R) (s : State R) (Q : (Nat → R) → Prop) : Prop :=
  ∃ N, ∀ n s', Run J n s s' →
    n ≤ N ∧ (n < N → ∃ t s'', step J s' t = some s'') ∧ (n = N → Finished s' ∧ Q s'.mem) ∧
    ∀ t t', t ≠ t' → ∀ x, touching J s' t = some x → touching J s' t' ≠ some x

end Macis.Spec.OmpCell
