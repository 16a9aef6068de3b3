import Verif.Model.Mpi
/-! Executions of a communicator under every schedule. -/
namespace Macis.Spec.Mpi
open Macis.Mpi

variable {σ μ : Type}

/-- some rank takes a step -/
def Step (eager : Nat → Nat → Bool) (w w' : World σ μ) : Prop := ∃ r, stepRank eager w r = some w'

/-- executions of `n` steps -/
inductive Run (eager : Nat → Nat → Bool) : Nat → World σ μ → World σ μ → Prop
  | nil (w) : Run eager 0 w w
  | cons {n w w' w''} : Step eager w w' → Run eager n w' w'' → Run eager (n + 1) w w''

/-- every rank has run to the end of its program -/
def Finished (w : World σ μ) : Prop := ∀ r, w.prog r = []

/-- Whatever the schedule and whatever sends the library buffers: from `w` no execution gets stuck, every
execution ends after the same number of steps, and it ends with these memories and all messages received. -/
def AlwaysEnds (w : World σ μ) (st : Nat → σ) : Prop :=
  ∃ N, ∀ eager : Nat → Nat → Bool, ∀ n w', Run eager n w w' →
    n ≤ N ∧ (n < N → ∃ w'', Step eager w' w'') ∧ (n = N → Finished w' ∧ w'.st = st ∧ ∀ k, w'.chan k = [])

/-- A block of instructions that begins by posting sends and receives and ends with waiting for all of them
does not touch the buffers in between: what is sent is not changed after it was posted, and what is received
does not interfere with the work done before it is waited for. -/
def BuffersUntouched (p : List (Instr σ μ)) : Prop :=
  p.Pairwise fun i j =>
    match i, j with
    | .isend _ _ m, .comp f => ∀ x, m (f x) = m x
    | .isend _ _ m, .recv _ _ k => ∀ v x, m (k v x) = m x
    | .comp f, .recv _ _ k => ∀ v x, k v (f x) = f (k v x)
    | _, _ => True

end Macis.Spec.Mpi
