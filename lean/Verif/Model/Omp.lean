import Verif.Model.SpUtil
/-
The parallel loops over rows of src/sparsexx/include/sparsexx/util/permute.hpp, as threads that share the output
arrays and run in any interleaving.

Simplification: one write of an element to both arrays is one step; the memory model is sequentially consistent (which
for a program without data races - C148 - is what C++ guarantees).
-/
namespace Macis.Omp
variable {R : Type}

/-- The body of `#pragma omp parallel for` over rows: row `i` writes `ext i` elements from position `dst i` on; before
that it prepares the thread's index array; what it writes depends on that array and on read-only data. -/
structure RowJob (R : Type) where
  ext : Nat → Nat
  dst : Nat → Nat
  prepare : Nat → List Nat → List Nat
  col : Nat → List Nat → Nat → Nat
  val : Nat → List Nat → Nat → R

/-- A thread: the iterations the OpenMP runtime gave it, the one it is in (row, next element), its index array
(`ind_th[omp_get_thread_num()]`, permute.hpp:161, 175, 214, 238). -/
structure Thread where
  todo : List Nat
  cur : Option (Nat × Nat)
  ind : List Nat

/-- All threads and the shared output arrays. -/
structure State (R : Type) where
  thr : Nat → Thread
  ci : Nat → Nat
  nz : Nat → R

/-- One step of thread `t`: begin its next row, write the next element of the row, or leave the row. -/
def step (J : RowJob R) (s : State R) (t : Nat) : Option (State R) :=
  match (s.thr t).cur with
  | none =>
    match (s.thr t).todo with
    | [] => none
    | i :: rest => some { s with thr := Function.update s.thr t ⟨rest, some (i, 0), J.prepare i (s.thr t).ind⟩ }
  | some (i, j) =>
    if j < J.ext i then
      some { thr := Function.update s.thr t { s.thr t with cur := some (i, j + 1) }
             ci := Function.update s.ci (J.dst i + j) (J.col i (s.thr t).ind j)
             nz := Function.update s.nz (J.dst i + j) (J.val i (s.thr t).ind j) }
    else some { s with thr := Function.update s.thr t { s.thr t with cur := none } }

/-- where thread `t` is about to write -/
def writing (J : RowJob R) (s : State R) (t : Nat) : Option Nat :=
  match (s.thr t).cur with
  | none => none
  | some (i, j) => if j < J.ext i then some (J.dst i + j) else none

/-- the parallel loop of `permute_rows` (permute.hpp:121-139) -/
def permuteRowsJob [Zero R] (A : Csr R) (perm : List Nat) : RowJob R :=
  let p := fun i => perm.getD i 0
  let ext := fun i => (A.rp (p i + 1) - A.indexing) - (A.rp (p i) - A.indexing)
  { ext := ext
    dst := fun i => (rowptrFromCounts A.indexing ((List.range A.m).map ext)).getD i 0 - A.indexing
    prepare := fun _ l => l
    col := fun i _ j => (A.rowCols (p i)).getD j 0
    val := fun i _ j => (A.rowVals (p i)).getD j 0 }

/-- the parallel loop of `permute_rows_cols` (permute.hpp:226-254); `srt i` is `std::sort` with the comparison of
row `i` -/
def permuteRowsColsJob [Zero R] (A : Csr R) (rperm cperm : List Nat) (srt : Nat → List Nat → List Nat) : RowJob R :=
  let p := fun i => rperm.getD i 0
  let ic := invertPerm cperm
  let ext := fun i => (A.rp (p i + 1) - A.indexing) - (A.rp (p i) - A.indexing)
  { ext := ext
    dst := fun i => (rowptrFromCounts A.indexing ((List.range A.m).map ext)).getD i 0 - A.indexing
    prepare := fun i l => srt i (indPrepare l (ext i))
    col := fun i ind j => ic.getD ((A.rowCols (p i)).getD (ind.getD j 0) 0 - A.indexing) 0 + A.indexing
    val := fun i ind j => (A.rowVals (p i)).getD (ind.getD j 0) 0 }

/-- the parallel loop of `permute_cols` (permute.hpp:166-192) -/
def permuteColsJob [Zero R] (A : Csr R) (perm : List Nat) (srt : Nat → List Nat → List Nat) : RowJob R :=
  let ic := invertPerm perm
  let ext := fun i => (A.rp (i + 1) - A.indexing) - (A.rp i - A.indexing)
  { ext := ext
    dst := fun i => A.rp i - A.indexing
    prepare := fun i l => srt i (indPrepare l (ext i))
    col := fun i ind j => ic.getD ((A.rowCols i).getD (ind.getD j 0) 0 - A.indexing) 0 + A.indexing
    val := fun i ind j => (A.rowVals i).getD (ind.getD j 0) 0 }

/-- the matrix returned by `permute_rows` and `permute_rows_cols` (permute.hpp:109-119, 216-224) once the arrays
hold what state `s` says -/
def resultRows (A : Csr R) (ext : Nat → Nat) (s : State R) : Csr R :=
  { m := A.m, n := A.n, indexing := A.indexing
    rowptr := rowptrFromCounts A.indexing ((List.range A.m).map ext)
    colind := (List.range A.nzval.length).map s.ci
    nzval := (List.range A.nzval.length).map s.nz }

/-- the matrix returned by `permute_cols`: the row pointer is copied (permute.hpp:164) -/
def resultCols (A : Csr R) (s : State R) : Csr R :=
  { m := A.m, n := A.n, indexing := A.indexing, rowptr := A.rowptr
    colind := (List.range A.nzval.length).map s.ci
    nzval := (List.range A.nzval.length).map s.nz }

end Macis.Omp
