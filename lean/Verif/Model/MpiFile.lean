import Verif.Model.SpIO
import Mathlib.Logic.Function.Basic
/-
`write_dist_mm` (src/sparsexx/include/sparsexx/io/write_dist_mm.hpp) as a program of `P` ranks that share a file.

What is left open: the order in which the ranks run, how much of a text reaches the file at a time (here: one
character), whether `MPI_Send` waits for the receiver and whether a rank leaves `MPI_Reduce` before the root.
What MPI guarantees: nobody leaves `MPI_Barrier` before everybody entered, the root leaves `MPI_Reduce` after all
contributed, `MPI_Recv` waits for the message.

Simplifications: a file opened in append mode is written at its end, and is written completely when the stream is
closed; the sum of the entry counts is that of `writeDistMm`; output to the terminal is dropped.
-/
namespace Macis.MpiFile
open Macis
variable {R : Type}

/-- The texts: header (rank 0), diagonal and off-diagonal block of every rank. -/
structure Texts where
  header : List Char
  diag : Nat → List Char
  off : Nat → List Char

/-- Where every rank is in the function (lines of write_dist_mm.hpp), the text it still has to write, the file:
0 calls `MPI_Reduce` (32), 1 leaves it, 2 opens the file (37), 3 writes the header (38), 4 enters the barrier (40),
5 leaves it, 6 waits for the token (52), 7 writes the diagonal block (57-63), 8 writes the off-diagonal block
(66-72), 9 sends the token (75), 10 waits for the completion of the send, 11 enters the barrier (78), 12 leaves it,
13 returned. -/
structure State where
  pc : Nat → Nat
  left : Nat → List Char
  file : List Char

/-- rank `r` goes on, with `l` to write next -/
def State.go (s : State) (r : Nat) (l : List Char) : State :=
  { s with pc := Function.update s.pc r (s.pc r + 1), left := Function.update s.left r l }

/-- rank `r` writes a character, or goes on when there is none left -/
def State.write (s : State) (r : Nat) (next : List Char) : State :=
  match s.left r with
  | [] => s.go r next
  | c :: cs => { s with left := Function.update s.left r cs, file := s.file ++ [c] }

/-- The next step of rank `r`, if it is not blocked (write_dist_mm.hpp:32-78).  `eager r`: the library lets rank
`r` go on without waiting for the receiver. -/
def step (T : Texts) (P : Nat) (eager : Nat → Bool) (s : State) (r : Nat) : Option State :=
  if r < P then
    match s.pc r with
    | 0 => some (s.go r [])
    | 1 => if (r = 0 ∧ ∀ q < P, 1 ≤ s.pc q) ∨ (r ≠ 0 ∧ (eager r = true ∨ 2 ≤ s.pc 0)) then some (s.go r []) else none
    | 2 => if r = 0 then some { s.go r T.header with file := [] } else some (s.go r [])
    | 3 => some (s.write r [])
    | 4 => some (s.go r [])
    | 5 => if ∀ q < P, 5 ≤ s.pc q then some (s.go r []) else none
    | 6 => if r = 0 ∨ 10 ≤ s.pc (r - 1) then some (s.go r (T.diag r)) else none
    | 7 => some (s.write r (T.off r))
    | 8 => some (s.write r [])
    | 9 => some (s.go r [])
    | 10 => if r = P - 1 ∨ eager r = true ∨ 7 ≤ s.pc (r + 1) then some (s.go r []) else none
    | 11 => some (s.go r [])
    | 12 => if ∀ q < P, 12 ≤ s.pc q then some (s.go r []) else none
    | _ => none
  else none

/-- The texts of `write_dist_mm` (write_dist_mm.hpp:28-72). -/
def texts [Zero R] (io : NumIO R) (P : Nat) (A : Nat → DistCsr R) (forced : Option Nat) : Texts :=
  let off := match forced with | none => 0 | some f => f
  { header := unlinesC (mmHeader (A 0).m (A 0).n ((List.range P).map fun r => distNnz (A r)).sum false)
    diag := fun r => match (A r).diag with
      | none => []
      | some D => unlinesC (mmBlock io D (((A r).localRowStart + off : Nat) : Int) (((A r).localRowStart + off : Nat) : Int))
    off := fun r => match (A r).offdiag with
      | none => []
      | some O => unlinesC (mmBlock io O (((A r).localRowStart + off : Nat) : Int) (off : Int)) }

/-- All ranks at the start of the call, with a file that may already exist. -/
def start (old : List Char) : State := ⟨fun _ => 0, fun _ => [], old⟩

end Macis.MpiFile
