import Verif.Model.Dist
import Mathlib.Algebra.Ring.Defs
/-
Sparse matrix - block vector products: src/sparsexx/include/sparsexx/spblas/spmbv.hpp and
src/sparsexx/include/sparsexx/spblas/pspmbv.hpp.

Simplification: a dense buffer is a function from addresses to values (`Function.update` is a
store); allocation sizes are not modelled.
-/
namespace Macis
variable {R : Type}

/-- a store -/
def store (mem : Nat → R) (a : Nat) (v : R) : Nat → R := fun b => if b = a then v else mem b

/-- The inner product loop of one row (spmbv.hpp:58-69): `V_k[c] = V[k*LDV - indexing + c]`,
here `x c = V[k*LDV + c]`. -/
def Csr.rowDot [Semiring R] (A : Csr R) (x : Nat → R) (i : Nat) : R :=
  (A.row i).foldl (fun av p => av + p.2 * x (p.1 - A.indexing)) 0

/-- One iteration `(k,i)` of the collapsed parallel loop of the CSR `gespmbv` (spmbv.hpp:56-72). -/
def gespmbvIter [Semiring R] (alpha : R) (A : Csr R) (V : Nat → R) (LDV : Nat) (beta : R)
    (LDAV : Nat) (AV : Nat → R) (ki : Nat × Nat) : Nat → R :=
  let (k, i) := ki
  store AV (i + k * LDAV) (alpha * A.rowDot (fun c => V (k * LDV + c)) i + beta * AV (i + k * LDAV))

/-- Iteration space of `for k < K, for i < M` (spmbv.hpp:56-57). -/
def iterSpace (K M : Nat) : List (Nat × Nat) :=
  (List.range K).flatMap fun k => (List.range M).map fun i => (k, i)

/-- CSR `gespmbv` (spmbv.hpp:38-73), with the iterations of the `omp parallel for collapse(2)`
executed in the order `sched`. -/
def gespmbvSched [Semiring R] (sched : List (Nat × Nat)) (alpha : R) (A : Csr R) (V : Nat → R)
    (LDV : Nat) (beta : R) (AV : Nat → R) (LDAV : Nat) : Nat → R :=
  sched.foldl (gespmbvIter alpha A V LDV beta LDAV) AV

/-- CSR `gespmbv` in program order (spmbv.hpp:38-73). -/
def gespmbv [Semiring R] (K : Nat) (alpha : R) (A : Csr R) (V : Nat → R) (LDV : Nat) (beta : R)
    (AV : Nat → R) (LDAV : Nat) : Nat → R :=
  gespmbvSched (iterSpace K A.m) alpha A V LDV beta AV LDAV

/-- COO `gespmbv` (spmbv.hpp:97-128): scale, then accumulate; the index base is read into a variable
and not used. -/
def gespmbvCoo [Semiring R] (K : Nat) (alpha : R) (A : Coo R) (V : Nat → R) (LDV : Nat) (beta : R)
    (AV : Nat → R) (LDAV : Nat) : Nat → R :=
  let scaled := (iterSpace K A.m).foldl (fun AV (k, i) =>
    store AV (i + k * LDAV) (AV (i + k * LDAV) * beta)) AV
  (iterSpace K A.nnz).foldl (fun AV (k, inz) =>
    let i := A.rowind.getD inz 0
    let j := A.colind.getD inz 0
    store AV (i + k * LDAV)
      (AV (i + k * LDAV) + alpha * A.nzval.getD inz 0 * V (j + k * LDV))) scaled

/-! ### Distributed product -/

/-- `std::set::insert` on the sorted sequence of its elements. -/
def setInsert (x : Nat) : List Nat → List Nat
  | [] => [x]
  | y :: l => if x < y then x :: y :: l else if x = y then y :: l else y :: setInsert x l

/-- Contents, in order, of a `std::set` filled from a range (pspmbv.hpp:82-93). -/
def stdSet (l : List Nat) : List Nat := l.foldl (fun s x => setInsert x s) []

/-- `std::exclusive_scan(l, 0)`. -/
def exclusiveScan (l : List Nat) : List Nat :=
  (l.foldl (fun (st : List Nat × Nat) c => (st.1 ++ [st.2], st.2 + c)) ([], 0)).1

/-- `spmv_info` (pspmbv.hpp:29-43). -/
structure SpmvInfo where
  sendIndices : List Nat
  recvIndices : List Nat
  sendOffsets : List Nat
  recvOffsets : List Nat
  sendCounts : List Nat
  recvCounts : List Nat

/-- Off-diagonal columns needed by one rank (pspmbv.hpp:80-93). -/
def DistCsr.neededCols (A : DistCsr R) : List Nat :=
  match A.offdiag with
  | some O => stdSet O.colind
  | none => []

/-- `recv_indices_by_rank` (pspmbv.hpp:95-111): for each rank the elements up to its row end, found
with `std::lower_bound` from where the previous rank stopped. -/
def recvByRank (A : DistCsr R) : List (List Nat) :=
  ((List.range A.size).foldl (fun (st : List (List Nat) × List Nat) i =>
    let rowEn := (A.rowBounds i).2
    let k := partitionPoint (fun c => decide (c < rowEn)) st.2
    (st.1 ++ [st.2.take k], st.2.drop k)) ([], A.neededCols)).1

/-- `generate_spmv_comm_info` on rank `r` (pspmbv.hpp:73-196).  `A q` is the object of rank `q`.
The index exchange (lines 122-153) is the delivery of `recv_indices_by_rank[r]` of every other rank
`i`. -/
def spmvInfo (A : Nat → DistCsr R) (r : Nat) : SpmvInfo :=
  let P := (A r).size
  let recvBy := recvByRank (A r)
  let recvCounts := recvBy.map List.length
  let sendBy := (List.range P).map fun i =>
    if i ≠ r then (recvByRank (A i)).getD r [] else []
  let sendCounts := sendBy.map List.length
  let lrs := (A r).localRowStart
  { sendIndices := sendBy.flatten.map fun i => i - lrs
    recvIndices := recvBy.flatten
    sendOffsets := exclusiveScan sendCounts
    recvOffsets := exclusiveScan recvCounts
    sendCounts := sendCounts
    recvCounts := recvCounts }

/-- Data sent by rank `q` to rank `d` (pspmbv.hpp:58-68 and :246-249): the packed vector
`V_send_pack[k] = V[send_indices[k]]`, from `send_offsets[d]`, `send_counts[d]` elements. -/
def spmvMessage [Zero R] (info : Nat → SpmvInfo) (V : Nat → Nat → R) (q d : Nat) : List R :=
  let pack := (info q).sendIndices.map (V q)
  (pack.drop ((info q).sendOffsets.getD d 0)).take ((info q).sendCounts.getD d 0)

/-- `V_recv_pack` of rank `r` after the receives completed (pspmbv.hpp:46-56, 239-241). -/
def spmvRecvPack [Zero R] (info : Nat → SpmvInfo) (V : Nat → Nat → R) (r : Nat) : List R :=
  writeRows (info r).recvOffsets.length (fun i => (info r).recvOffsets.getD i 0)
    (fun i => if (info r).recvCounts.getD i 0 ≠ 0 then spmvMessage info V i r else [])
    (List.replicate (info r).recvIndices.length 0)

/-- `pgespmv` on rank `r` (pspmbv.hpp:201-287).  `V q` is the local vector of rank `q`, `AV` the local
result buffer of rank `r`, `garbage` the uninitialised contents of `V_remote`. -/
def pgespmv [Semiring R] (A : Nat → DistCsr R) (info : Nat → SpmvInfo) (alpha : R)
    (V : Nat → Nat → R) (beta : R) (AV : Nat → R) (garbage : Nat → R) (r : Nat) : Nat → R :=
  let N := (A r).n
  let recv := spmvRecvPack info V r
  let AV1 := match (A r).diag with
    | some D => gespmbv 1 alpha D (V r) N beta AV N
    | none => AV
  let Vremote := (List.range (info r).recvIndices.length).foldl
    (fun mem k => store mem ((info r).recvIndices.getD k 0) (recv.getD k 0)) garbage
  match (A r).offdiag with
  | some O => gespmbv 1 alpha O Vremote N 1 AV1 N
  | none => AV1

end Macis
