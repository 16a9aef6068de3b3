import Verif.Model.MpiQuick
import Verif.Model.MpiLift
/-
`asci_search` on several ranks (include/macis/asci/determinant_search.hpp:394-663) as the program every rank runs: the
collectives it takes part in, in order, and its local work in between.  The contributions of the constraints a rank
owns (Model/AsciContrib) are this rank's input.

Simplification: reductions whose result is only logged carry a number nobody uses.
-/
namespace Macis.Mpi
variable {N : Nat} {R : Type}

/-- What the collectives of `asci_search` itself carry: a statistic, a local count, determinants. -/
inductive SearchMsg (N : Nat)
  | stat (n : Nat)
  | size (n : Nat)
  | strings (l : List (BitVec N))

/-- The variables of `asci_search` on one rank: `asci_pairs`, the strings kept here, `local_sizes`, the strings of all
ranks, `new_dets`.  `err`: a message does not fit the collective it arrives in, or an access is out of range. -/
structure SearchMem (N : Nat) (R : Type) where
  pairs : List (Contrib N R)
  keep : List (BitVec N)
  sizes : Nat → Nat
  data : Nat → List (BitVec N)
  out : Option (List (BitVec N))
  err : Bool

/-- all variables of a rank: those of `dist_quickselect` and those of `asci_search` -/
abbrev SearchSt (N : Nat) (R : Type) := QsMem R × SearchMem N R
/-- all messages on the communicator -/
abbrev SearchMs (N : Nat) (R : Type) := QsMsg R ⊕ SearchMsg N

/-- a contribution to a reduction that is only logged -/
def putStat : SearchMs N R → SearchSt N R → SearchSt N R
  | .inr (.stat _), m => m
  | _, m => (m.1, { m.2 with err := true })

/-- the contribution of rank `s` to the `MPI_Allgather` of the counts (dist_quickselect.hpp:41) -/
def putCount (s : Nat) : SearchMs N R → SearchSt N R → SearchSt N R
  | .inr (.size n), m => (m.1, { m.2 with sizes := Function.update m.2.sizes s n })
  | _, m => (m.1, { m.2 with err := true })

/-- the contribution of rank `s` to `MPI_Allgatherv` of the strings, of the size announced before
(determinant_search.hpp:600-602) -/
def putStrings (s : Nat) : SearchMs N R → SearchSt N R → SearchSt N R
  | .inr (.strings l), m =>
    (m.1, { m.2 with data := Function.update m.2.data s l, err := m.2.err || l.length != m.2.sizes s })
  | _, m => (m.1, { m.2 with err := true })

/-- `n` collectives whose results are only logged, or barriers -/
def searchStats (P : Nat) : Nat → List (Instr (SearchSt N R) (SearchMs N R))
  | 0 => []
  | n + 1 =>
    isends qsColl ((List.range P).map fun d => (d, fun m => .inr (.stat m.2.pairs.length))) ++
    (recvs qsColl ((List.range P).map fun s => (s, putStat)) ++ searchStats P n)

/-- `total_gather_and_exclusive_scan(n_geq_local, …)` (determinant_search.hpp:593-594) -/
def searchCounts (P : Nat) : List (Instr (SearchSt N R) (SearchMs N R)) :=
  isends qsColl ((List.range P).map fun d => (d, fun m => .inr (.size m.2.keep.length))) ++
  recvs qsColl ((List.range P).map fun s => (s, putCount s))

/-- `MPI_Allgatherv` of the strings (determinant_search.hpp:597-602) -/
def searchStrings (P : Nat) : List (Instr (SearchSt N R) (SearchMs N R)) :=
  isends qsColl ((List.range P).map fun d => (d, fun m => .inr (.strings m.2.keep))) ++
  recvs qsColl ((List.range P).map fun s => (s, putStrings s))

variable [AddCommGroup R] [LinearOrder R]

/-- The candidates and their scores (determinant_search.hpp:528-547, 568-573), and the call of `dist_quickselect`. -/
def searchPrepare (srt part : List (Contrib N R) → List (Contrib N R)) (ndetsMax : Nat) (cdets : List (BitVec N))
    (C : List R) (m : SearchSt N R) : SearchSt N R :=
  let pairs := searchCandidates srt part cdets C m.2.pairs
  (qsStart (pairs.map fun p => |p.rv|) (topKElements ndetsMax cdets.length),
   { m.2 with pairs := pairs, err := m.2.err || decide (C.length < cdets.length) })

/-- The strings scoring at least the returned score (determinant_search.hpp:580-591) -/
def searchKeep (part : List (Contrib N R) → List (Contrib N R)) (m : SearchSt N R) : SearchSt N R :=
  match m.1.out with
  | none => (m.1, { m.2 with err := true })
  | some kth =>
    let p := legPartition part (fun p : Contrib N R => |p.rv|) kth m.2.pairs
    (m.1, { m.2 with keep := (p.1 ++ p.2.1).map (·.state), err := m.2.err || m.1.err })

/-- The cut to `top_k_elements` and the returned list (determinant_search.hpp:604-616, 647-653) -/
def searchFinish (P ndetsMax : Nat) (cdets : List (BitVec N)) (m : SearchSt N R) : SearchSt N R :=
  let k := topKElements ndetsMax cdets.length
  let all := ((List.range P).map m.2.data).flatten
  (m.1, { m.2 with out := some ((if all.length > k then all.take k else all) ++ cdets) })

/-- `asci_search` on rank `r` of `P` > 1 after the contributions have been collected.  The reductions: the barrier
(determinant_search.hpp:441), number of pairs (461, 469, 470), their memory (480-482), the number of determinants
(503), three timings (516-518), three timings (554-556); after the selection three timings (634-636) and a barrier
(658). -/
def searchProg (P r : Nat) (srt part : List (Contrib N R) → List (Contrib N R)) (draw : Nat → Nat)
    (partS : Nat → List R → List R) (nthS : Nat → List R → List R) (fuel ndetsMax : Nat) (cdets : List (BitVec N))
    (C : List R) : List (Instr (SearchSt N R) (SearchMs N R)) :=
  searchStats P 11 ++
  (comps [searchPrepare srt part ndetsMax cdets C] ++
  (searchStats P 3 ++
  (liftL (fun e : SearchMem N R => { e with err := true }) (qsProg P r draw partS nthS fuel) ++
  (comps [searchKeep part] ++
  (searchCounts P ++
  (searchStrings P ++
  (searchStats P 3 ++
  (comps [searchFinish P ndetsMax cdets] ++ searchStats P 1))))))))

/-- a rank that enters the collective part with these contributions -/
def searchStart (pairs : List (Contrib N R)) : SearchSt N R :=
  (qsStart [] 0, ⟨pairs, [], fun _ => 0, fun _ => [], none, false⟩)

/-- All ranks of a communicator of size `P` call `asci_search`. -/
def searchWorld (P : Nat) (srt part : List (Contrib N R) → List (Contrib N R)) (draw : Nat → Nat)
    (partS : Nat → Nat → List R → List R) (nthS : Nat → Nat → List R → List R) (fuel ndetsMax : Nat)
    (cdets : List (BitVec N)) (C : List R) (pairs : Nat → List (Contrib N R)) : World (SearchSt N R) (SearchMs N R) :=
  ⟨fun r => if r < P then searchProg P r srt part draw (partS r) (nthS r) fuel ndetsMax cdets C else [],
   fun r => searchStart (pairs r), fun _ => []⟩

end Macis.Mpi
