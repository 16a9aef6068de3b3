import Mathlib.Data.List.Basic
import Mathlib.Logic.Function.Basic
/-
The type-safe wrappers `allreduce` and `bcast` of include/macis/util/mpi.hpp:148-223: they cut a buffer of any length
into calls of at most `INT_MAX` elements, because MPI takes an `int` count.

`MPI_Allreduce` and `MPI_Bcast` on one stretch of the buffer have their standard meaning.  Buffers are functions of the
position; all ranks pass the same `count`, as MPI demands.
-/
namespace Macis.MpiWrap
variable {T : Type}

/-- `std::numeric_limits<int>::max()` -/
def intMax : Nat := 2 ^ 31 - 1

/-- The stretches (offset, length) the wrapper communicates, in order (mpi.hpp:163-174, 182-192, 207-218) without the
exception of line 165: `nchunk` stretches of `intmax`, then the remainder if there is one. -/
def stretches (intmax count : Nat) : List (Nat × Nat) :=
  ((List.range (count / intmax)).map fun i => (i * intmax, intmax)) ++
  (if count % intmax ≠ 0 then [(count / intmax * intmax, count % intmax)] else [])

/-- The calls made: none and an exception if a full stretch were needed (mpi.hpp:165, 184, 209). -/
def calls (intmax count : Nat) : Option (List (Nat × Nat)) :=
  if count / intmax ≠ 0 then none else some (stretches intmax count)

/-- `MPI_Allreduce` on one stretch, seen by rank `r`: the elements are combined over the ranks `0..P-1` -/
def reduceStretch (P : Nat) (op : T → T → T) (send : Nat → Nat → T) (recv : Nat → Nat → T) (s : Nat × Nat) :
    Nat → Nat → T :=
  fun r i => if r < P ∧ s.1 ≤ i ∧ i < s.1 + s.2 then
      ((List.range (P - 1)).foldl (fun acc q => op acc (send (q + 1) i)) (send 0 i))
    else recv r i

/-- `allreduce(send, recv, count, op, comm)` (mpi.hpp:159-176) on the buffers of all ranks -/
def allreduce (intmax P : Nat) (op : T → T → T) (send recv : Nat → Nat → T) (count : Nat) : Option (Nat → Nat → T) :=
  (calls intmax count).map fun L => L.foldl (reduceStretch P op send) recv

/-- `allreduce(recv, count, op, comm)` with `MPI_IN_PLACE` (mpi.hpp:178-193): the data to combine is what the buffers
hold at the time of each call -/
def allreduceInPlace (intmax P : Nat) (op : T → T → T) (recv : Nat → Nat → T) (count : Nat) : Option (Nat → Nat → T) :=
  (calls intmax count).map fun L => L.foldl (fun b s => reduceStretch P op b b s) recv

/-- `allreduce(d, op, comm)` (mpi.hpp:197-202): the result on rank `r` -/
def allreduceScalar (intmax P : Nat) (op : T → T → T) (d : Nat → T) (r0 : T) (r : Nat) : Option T :=
  (allreduce intmax P op (fun q _ => d q) (fun _ _ => r0) 1).map fun b => b r 0

/-- `MPI_Bcast` on one stretch -/
def bcastStretch (P root : Nat) (b : Nat → Nat → T) (s : Nat × Nat) : Nat → Nat → T :=
  fun r i => if r < P ∧ s.1 ≤ i ∧ i < s.1 + s.2 then b root i else b r i

/-- `bcast(buffer, count, root, comm)` (mpi.hpp:205-220) on the buffers of all ranks -/
def bcast (intmax P root : Nat) (b : Nat → Nat → T) (count : Nat) : Option (Nat → Nat → T) :=
  (calls intmax count).map fun L => L.foldl (bcastStretch P root) b

end Macis.MpiWrap
