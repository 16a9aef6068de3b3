import Verif.Model.Mpi
import Verif.Model.AsciSort
/-
`dist_quickselect` (include/macis/util/dist_quickselect.hpp) as what it is: a program that every rank runs on its own
data, with collectives.  `Model/AsciSort` describes the ranks together; here nothing is assumed about them agreeing.
-/
namespace Macis.Mpi
variable {α : Type}

/-- What the collectives carry: a local size, the pivot, three partition sizes, local data. -/
inductive QsMsg (α : Type)
  | size (n : Nat)
  | pivot (v : Option α)
  | counts (l e g : Nat)
  | data (l : List α)

/-- The variables of one rank: the local range, `k`, `local_sizes` as gathered, the pivot, the parts of the range,
the partition sizes of all ranks (which `MPI_Allreduce` adds up), the gathered data, the returned value.  `err` is
set when a message does not fit the collective it arrives in or an access is out of range. -/
structure QsMem (α : Type) where
  rng : List α
  k : Nat
  sizes : Nat → Nat
  pivot : Option α
  parts : List α × List α × List α
  counts : Nat → Nat × Nat × Nat
  data : Nat → List α
  out : Option α
  err : Bool

/-- the contribution of rank `s` to `MPI_Allgather` (dist_quickselect.hpp:41) -/
def putSize (s : Nat) : QsMsg α → QsMem α → QsMem α
  | .size n, m => { m with sizes := Function.update m.sizes s n }
  | _, m => { m with err := true }

/-- the receiving side of `MPI_Bcast` (dist_quickselect.hpp:97) -/
def putPivot : QsMsg α → QsMem α → QsMem α
  | .pivot v, m => { m with pivot := v, err := m.err || v.isNone }
  | _, m => { m with err := true }

/-- the contribution of rank `s` to `MPI_Allreduce` (dist_quickselect.hpp:109) -/
def putParts (s : Nat) : QsMsg α → QsMem α → QsMem α
  | .counts l e g, m => { m with counts := Function.update m.counts s (l, e, g) }
  | _, m => { m with err := true }

/-- the contribution of rank `s` to `MPI_Allgatherv`, of the size announced before (dist_quickselect.hpp:134-135);
the displacements are the exclusive scan of the sizes, so the contributions end up one after the other. -/
def putData (s : Nat) : QsMsg α → QsMem α → QsMem α
  | .data l, m => { m with data := Function.update m.data s l, err := m.err || l.length != m.sizes s }
  | _, m => { m with err := true }

/-- tag of the communicator's collectives -/
def qsColl : Nat := 1

/-- `total_gather_and_exclusive_scan` (dist_quickselect.hpp:31-46): every rank contributes its local size. -/
def qsGather (P : Nat) : List (Instr (QsMem α) (QsMsg α)) :=
  isends qsColl ((List.range P).map fun d => (d, fun m => .size m.rng.length)) ++
  recvs qsColl ((List.range P).map fun s => (s, putSize s))

/-- `MPI_Bcast(&pivot, 1, dtype, owner, comm)` on rank `r` (dist_quickselect.hpp:97) -/
def qsBcast (P owner r : Nat) : List (Instr (QsMem α) (QsMsg α)) :=
  let dsts := if r = owner then (List.range P).filter fun d => d ≠ r else []
  isends qsColl (dsts.map fun d => (d, fun m => .pivot m.pivot)) ++
  (recvs qsColl ((if r = owner then [] else [owner]).map fun s => (s, putPivot)) ++ wsends qsColl dsts)

/-- the part after the loop (dist_quickselect.hpp:127-150) on rank `r` -/
def qsFinish [LinearOrder α] (P : Nat) (nth : Nat → List α → List α) : List (Instr (QsMem α) (QsMsg α)) :=
  qsGather P ++
  (isends qsColl ((List.range P).map fun d => (d, fun m => .data m.rng)) ++
  (recvs qsColl ((List.range P).map fun s => (s, putData s)) ++
  comps [fun m => { m with out := quickFinish nth ((List.range P).map m.data) m.k }]))

/-- the loop of `dist_quickselect` on rank `r` (dist_quickselect.hpp:74-125), at most `fuel` times round; `draw` are
the random numbers, the same on all ranks because all seed the generator alike (line 67); `part` is how this rank's
`std::partition` reorders in this round. -/
def qsLoop [LinearOrder α] (P r : Nat) (draw : Nat → Nat) (part : Nat → List α → List α)
    (nth : Nat → List α → List α) : Nat → Nat → List (Instr (QsMem α) (QsMsg α))
  | 0, _ => comps [fun m => { m with err := true }]
  | fuel + 1, step =>
    qsGather P ++
    [.dyn fun m =>
      let sizes := (List.range P).map m.sizes
      let total := sizes.sum
      if total < P then qsFinish P nth
      else
        let pivotIdx := draw step % (total - 1)
        let starts := qsStarts sizes
        let owner := pivotOwner starts pivotIdx
        comps (if r = owner then [fun m =>
          { m with pivot := m.rng[pivotIdx - starts.getD r 0]?,
                   err := m.err || (m.rng[pivotIdx - starts.getD r 0]?).isNone }] else []) ++
        (qsBcast P owner r ++
        (comps [fun m => { m with parts := match m.pivot with
            | some v => legPartition (part step) id v m.rng
            | none => m.parts }] ++
        (isends qsColl ((List.range P).map fun d => (d, fun m =>
          .counts m.parts.1.length m.parts.2.1.length m.parts.2.2.length)) ++
        (recvs qsColl ((List.range P).map fun s => (s, putParts s)) ++
        [.dyn fun m =>
          let totL := ((List.range P).map fun s => (m.counts s).1).sum
          let totE := ((List.range P).map fun s => (m.counts s).2.1).sum
          if m.k ≤ totL then
            comps [fun m => { m with rng := m.parts.1 }] ++ qsLoop P r draw part nth fuel (step + 1)
          else if m.k ≤ totL + totE then comps [fun m => { m with out := m.pivot }]
          else
            comps [fun m => { m with rng := m.parts.2.2, k := m.k - (totL + totE) }] ++
            qsLoop P r draw part nth fuel (step + 1)]))))]

/-- `dist_quickselect` on rank `r` of `P` (dist_quickselect.hpp:48-150) with the order `greater`. -/
def qsProg [LinearOrder α] (P r : Nat) (draw : Nat → Nat) (part : Nat → List α → List α)
    (nth : Nat → List α → List α) (fuel : Nat) : List (Instr (QsMem α) (QsMsg α)) :=
  if P = 1 then comps [fun m => { m with out := quickFinish nth [m.rng] m.k }]
  else qsLoop P r draw part nth fuel 0

/-- The memory of a rank that calls `dist_quickselect` with this range and `k`. -/
def qsStart (l : List α) (k : Nat) : QsMem α :=
  ⟨l, k, fun _ => 0, none, ([], [], []), fun _ => (0, 0, 0), fun _ => [], none, false⟩

/-- All ranks of a communicator of size `P` call `dist_quickselect`. -/
def qsWorld [LinearOrder α] (P : Nat) (draw : Nat → Nat) (part : Nat → Nat → List α → List α)
    (nth : Nat → Nat → List α → List α) (fuel : Nat) (locals : Nat → List α) (k : Nat) : World (QsMem α) (QsMsg α) :=
  ⟨fun r => if r < P then qsProg P r draw (part r) (nth r) fuel else [], fun r => qsStart (locals r) k, fun _ => []⟩

end Macis.Mpi
