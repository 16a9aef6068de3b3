import Mathlib.Logic.Function.Basic
import Mathlib.Data.List.Basic
/-
Message passing between the ranks of a communicator, as the code uses it: `MPI_Isend`, `MPI_Irecv`,
`MPI_Waitall`, `MPI_Send`, `MPI_Recv`, and collectives (src/sparsexx/include/sparsexx/util/mpi.hpp,
include/macis/util/mpi.hpp).

What MPI guarantees and the model uses: messages from one rank to another with the same tag arrive in the order
in which they were sent; a receive names its source.  What MPI leaves open and the model leaves open: the order
in which the ranks run, and whether the completion of a send waits for the receiver.

Simplifications: the data of a message is that of the send buffer when the send is posted, and the receive buffer
is written when the receive is waited for; MPI forbids the program to touch these buffers in between, and
`Props/MpiSpmv` states that the programs modelled here do not.  A collective is the exchange of one message between
every pair of ranks that depend on each other, under its own tag.
-/
namespace Macis.Mpi

/-- Instructions of a rank with memory `σ`, messages `μ`. -/
inductive Instr (σ μ : Type) : Type
  /-- work on the rank's own memory -/
  | comp (f : σ → σ)
  /-- `MPI_Isend`: post a message -/
  | isend (tag dst : Nat) (m : σ → μ)
  /-- completion of a receive: `MPI_Recv`, or waiting for an `MPI_Irecv` -/
  | recv (tag src : Nat) (k : μ → σ → σ)
  /-- completion of the sends to `dst` -/
  | wsend (tag dst : Nat)
  /-- control flow that depends on data -/
  | dyn (f : σ → List (Instr σ μ))

/-- Programs left to run, memories, messages under way (tag, source, destination). -/
structure World (σ μ : Type) where
  prog : Nat → List (Instr σ μ)
  st : Nat → σ
  chan : Nat × Nat × Nat → List μ

/-- The next step of rank `r`, if it is not blocked.  `eager r n` says whether the MPI library completes the
send that rank `r` waits for with `n` instructions left to run before the receiver took the message. -/
def stepRank {σ μ : Type} (eager : Nat → Nat → Bool) (w : World σ μ) (r : Nat) : Option (World σ μ) :=
  match w.prog r with
  | [] => none
  | .comp f :: p => some ⟨Function.update w.prog r p, Function.update w.st r (f (w.st r)), w.chan⟩
  | .isend t d m :: p =>
    some ⟨Function.update w.prog r p, w.st,
      Function.update w.chan (t, r, d) (w.chan (t, r, d) ++ [m (w.st r)])⟩
  | .recv t s k :: p =>
    match w.chan (t, s, r) with
    | [] => none
    | m :: ms => some ⟨Function.update w.prog r p, Function.update w.st r (k m (w.st r)),
        Function.update w.chan (t, s, r) ms⟩
  | .wsend t d :: p =>
    if eager r p.length = true ∨ w.chan (t, r, d) = [] then some ⟨Function.update w.prog r p, w.st, w.chan⟩
    else none
  | .dyn f :: p => some ⟨Function.update w.prog r (f (w.st r) ++ p), w.st, w.chan⟩

/-- a loop of `MPI_Isend` (sparsexx util/mpi.hpp:99-111) -/
def isends {σ μ : Type} (t : Nat) (L : List (Nat × (σ → μ))) : List (Instr σ μ) := L.map fun x => .isend t x.1 x.2

/-- `MPI_Waitall` for a list of receives (sparsexx util/mpi.hpp:85-97, 113-115) -/
def recvs {σ μ : Type} (t : Nat) (L : List (Nat × (μ → σ → σ))) : List (Instr σ μ) := L.map fun x => .recv t x.1 x.2

/-- `MPI_Waitall` for the sends to a list of ranks (sparsexx util/mpi.hpp:113-115) -/
def wsends {σ μ : Type} (t : Nat) (L : List Nat) : List (Instr σ μ) := L.map fun d => .wsend t d

/-- a sequence of local computations -/
def comps {σ μ : Type} (F : List (σ → σ)) : List (Instr σ μ) := F.map .comp

end Macis.Mpi
