import Verif.Model.Mpi
import Verif.Model.SpBlas
/-
The communication of the distributed matrix - vector product as a message-passing program:
src/sparsexx/include/sparsexx/spblas/pspmbv.hpp.
-/
namespace Macis.Mpi
variable {R : Type}

/-- Messages: the `recv_counts` of a rank, the indices it needs, vector elements. -/
inductive SpmvMsg (R : Type)
  | counts (l : List Nat)
  | indices (l : List Nat)
  | values (l : List R)

/-- The memory of a rank: the variables of `generate_spmv_comm_info` that messages are written to, its result,
the packed buffers of `pgespmv`, the local parts of `V` and `AV`; `err` is set when a message does not fit the
receive that was posted for it. -/
structure SpmvMem (R : Type) where
  gathered : Nat → List Nat
  sendBy : Nat → List Nat
  info : SpmvInfo
  sendPack : List R
  recvPack : List R
  V : Nat → R
  AV : Nat → R
  err : Bool

/-- tags: point-to-point messages all have tag 0; collectives have a context of their own -/
def p2p : Nat := 0
def coll : Nat := 1

/-- the part of `mpi_allgather(recv_counts)` that comes from rank `s` (pspmbv.hpp:119-122) -/
def putCounts (P s : Nat) : SpmvMsg R → SpmvMem R → SpmvMem R
  | .counts l, m => { m with gathered := Function.update m.gathered s l, err := m.err || l.length != P }
  | _, m => { m with err := true }

/-- `mpi_irecv(send_indices_by_rank[i], i, 0, comm)` for `n` elements (pspmbv.hpp:127-137) -/
def putIndices (n i : Nat) : SpmvMsg R → SpmvMem R → SpmvMem R
  | .indices l, m => { m with sendBy := Function.update m.sendBy i l, err := m.err || l.length != n }
  | _, m => { m with err := true }

/-- `mpi_irecv(X + recv_offsets[i], recv_counts[i], i, 0, comm)` (pspmbv.hpp:46-56) -/
def putValues (i : Nat) : SpmvMsg R → SpmvMem R → SpmvMem R
  | .values l, m => { m with recvPack := writeAt m.recvPack (m.info.recvOffsets.getD i 0) l,
                             err := m.err || l.length != m.info.recvCounts.getD i 0 }
  | _, m => { m with err := true }

/-- `generate_spmv_comm_info` on rank `r` (pspmbv.hpp:72-196): gather the counts, exchange the indices, build
the result. -/
def genProg (A : DistCsr R) (r : Nat) : List (Instr (SpmvMem R) (SpmvMsg R)) :=
  let P := A.size
  let recvBy := recvByRank A
  let recvCounts := recvBy.map List.length
  comps [fun m => { m with sendBy := fun _ => [] }] ++
  (isends coll ((List.range P).map fun d => (d, fun _ => .counts recvCounts)) ++
  (recvs coll ((List.range P).map fun s => (s, putCounts P s)) ++
  [.dyn fun m =>
    let srcs := (List.range P).filter fun i => decide (i ≠ r) && (m.gathered i).getD r 0 != 0
    let dsts := (List.range P).filter fun i => recvCounts.getD i 0 != 0
    isends p2p (dsts.map fun i => (i, fun _ => .indices (recvBy.getD i []))) ++
    (recvs p2p (srcs.map fun i => (i, putIndices ((m.gathered i).getD r 0) i)) ++
    (comps [fun m =>
      let sendBy := (List.range P).map m.sendBy
      let sendCounts := sendBy.map List.length
      { m with info :=
        { sendIndices := sendBy.flatten.map fun i => i - A.localRowStart
          recvIndices := recvBy.flatten
          sendOffsets := exclusiveScan sendCounts
          recvOffsets := exclusiveScan recvCounts
          sendCounts := sendCounts
          recvCounts := recvCounts } }] ++
    wsends p2p dsts))]))

/-- `pgespmv` on one rank (pspmbv.hpp:201-287); `garbage` is the uninitialised `V_remote`, the packed receive
buffer, also uninitialised, is taken as zero. -/
def spmvProg [Semiring R] (A : DistCsr R) (alpha beta : R) (garbage : Nat → R) :
    List (Instr (SpmvMem R) (SpmvMsg R)) :=
  comps [fun m => { m with recvPack := List.replicate m.info.recvIndices.length 0
                           sendPack := m.info.sendIndices.map m.V }] ++
  [.dyn fun m =>
    let dsts := (List.range m.info.sendOffsets.length).filter fun i => m.info.sendCounts.getD i 0 != 0
    let srcs := (List.range m.info.recvOffsets.length).filter fun i => m.info.recvCounts.getD i 0 != 0
    isends p2p (dsts.map fun i => (i, fun m =>
      .values ((m.sendPack.drop (m.info.sendOffsets.getD i 0)).take (m.info.sendCounts.getD i 0)))) ++
    (comps [fun m => { m with AV := match A.diag with
        | some D => gespmbv 1 alpha D m.V A.n beta m.AV A.n
        | none => m.AV }] ++
    (recvs p2p (srcs.map fun i => (i, putValues i)) ++
    (comps [fun m => { m with AV := match A.offdiag with
        | some O => gespmbv 1 alpha O ((List.range m.info.recvIndices.length).foldl
            (fun mem k => store mem (m.info.recvIndices.getD k 0) (m.recvPack.getD k 0)) garbage) A.n 1 m.AV A.n
        | none => m.AV }] ++
    wsends p2p dsts)))]

/-- `spmv_info::communication_volume` (pspmbv.hpp:42-45): the sum over the ranks of half of what each sends and
receives, in `size_t`. -/
def commVolume (info : Nat → SpmvInfo) (P : Nat) : Nat :=
  ((List.range P).map fun r => ((info r).sendIndices.length + (info r).recvIndices.length) / 2).sum

/-- One product in a sequence: what the rank does to its local vectors before it, and the scalars. -/
structure SpmvCall (R : Type) where
  prepare : Nat → (Nat → R) × (Nat → R) → (Nat → R) × (Nat → R)
  alpha : R
  beta : R
  garbage : Nat → Nat → R

/-- A rank that sets up the communication and then multiplies any number of times, as the eigensolvers do. -/
def spmvSession [Semiring R] (A : DistCsr R) (r : Nat) (calls : List (SpmvCall R)) :
    List (Instr (SpmvMem R) (SpmvMsg R)) :=
  genProg A r ++ calls.flatMap fun c =>
    comps [fun m => { m with V := (c.prepare r (m.V, m.AV)).1, AV := (c.prepare r (m.V, m.AV)).2 }] ++
    spmvProg A c.alpha c.beta (c.garbage r)

/-- All ranks of a communicator of size `P` at the start. -/
def spmvWorld [Semiring R] (P : Nat) (A : Nat → DistCsr R) (calls : List (SpmvCall R)) (mem : Nat → SpmvMem R) :
    World (SpmvMem R) (SpmvMsg R) :=
  ⟨fun r => if r < P then spmvSession (A r) r calls else [], mem, fun _ => []⟩

end Macis.Mpi
