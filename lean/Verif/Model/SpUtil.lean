import Verif.Model.SpConv
/-
CSR utilities of sparsexx: src/sparsexx/include/sparsexx/util/{submatrix,permute,graph}.hpp and the
constructors of `dist_sparse_matrix` from a serial matrix.

Simplifications: bounds are naturals (the code uses signed integers); parallel row loops that write
disjoint parts of the output are run in program order.
-/
namespace Macis
variable {R : Type}

/-- Allocate the output, fill the row pointer from row counts, then copy row `i` (columns `cols i`,
values `vals i`) to position `rowptr[i] - indexing`: the common shape of `extract_submatrix`,
`extract_submatrix_inclrow_exclcol`, `extract_upper_triangle`, `permute_rows`
(submatrix.hpp:63-110, 143-194, 215-259; permute.hpp:99-139). -/
def buildCsr [Zero R] (m n nnz idx : Nat) (counts : List Nat) (cols : Nat → List Nat)
    (vals : Nat → List R) : Csr R :=
  let rp := rowptrFromCounts idx counts
  { m, n, indexing := idx, rowptr := rp
    colind := writeRows m (fun i => rp.getD i 0 - idx) cols (List.replicate nnz 0)
    nzval := writeRows m (fun i => rp.getD i 0 - idx) vals (List.replicate nnz 0) }

/-- `extract_submatrix` (submatrix.hpp:42-118): counts with `std::count_if`, copies the range between
two `std::partition_point`s, then shifts the columns. -/
def Csr.extractSubmatrix [Zero R] (A : Csr R) (lo up : Nat × Nat) : Csr R :=
  let inWin := fun j => decide (lo.2 ≤ j - A.indexing ∧ j - A.indexing < up.2)
  let ms := up.1 - lo.1
  let counts := (List.range ms).map fun i => (A.rowCols (lo.1 + i)).countP inWin
  let st := fun i => partitionPoint (fun j => decide (j - A.indexing < lo.2)) (A.rowCols (lo.1 + i))
  let en := fun i => partitionPoint (fun j => decide (j - A.indexing < up.2)) (A.rowCols (lo.1 + i))
  let B := buildCsr ms (up.2 - lo.2) counts.sum A.indexing counts
    (fun i => ((A.rowCols (lo.1 + i)).take (en i)).drop (st i))
    (fun i => ((A.rowVals (lo.1 + i)).take (en i)).drop (st i))
  { B with colind := B.colind.map fun j => j - lo.2 }

/-- `extract_submatrix_inclrow_exclcol` (submatrix.hpp:120-201). -/
def Csr.extractExclCol [Zero R] (A : Csr R) (lo up : Nat × Nat) : Csr R :=
  let outWin := fun j => decide (j - A.indexing < lo.2 ∨ up.2 ≤ j - A.indexing)
  let ms := up.1 - lo.1
  let counts := (List.range ms).map fun i => (A.rowCols (lo.1 + i)).countP outWin
  let st := fun i => partitionPoint (fun j => decide (j - A.indexing < lo.2)) (A.rowCols (lo.1 + i))
  let en := fun i => partitionPoint (fun j => decide (j - A.indexing < up.2)) (A.rowCols (lo.1 + i))
  buildCsr ms A.n counts.sum A.indexing counts
    (fun i => (A.rowCols (lo.1 + i)).take (st i) ++ (A.rowCols (lo.1 + i)).drop (en i))
    (fun i => (A.rowVals (lo.1 + i)).take (st i) ++ (A.rowVals (lo.1 + i)).drop (en i))

/-- `std::find_if(l) - l.begin()`, the length if not found. -/
def findIdx {α : Type} (p : α → Bool) (l : List α) : Nat := l.findIdx p

/-- `extract_upper_triangle` (submatrix.hpp:203-262). -/
def Csr.upperTriangle [Zero R] (A : Csr R) : Csr R :=
  let counts := (List.range A.m).map fun i =>
    (A.rowCols i).countP fun j => decide (j - A.indexing ≥ i)
  let st := fun i => findIdx (fun j => decide (j - A.indexing ≥ i)) (A.rowCols i)
  buildCsr A.m A.n counts.sum A.indexing counts
    (fun i => (A.rowCols i).drop (st i)) (fun i => (A.rowVals i).drop (st i))

/-- `extract_diagonal_elements` (submatrix.hpp:264-296). -/
def Csr.diagonal [Zero R] (A : Csr R) : List R :=
  (List.range A.m).map fun i =>
    let off := findIdx (fun j => decide (j = i + A.indexing)) (A.rowCols i)
    if off ≠ (A.rowCols i).length then (A.rowVals i).getD off 0 else 0

/-- `trace` (submatrix.hpp:298-328). -/
def Csr.trace [Zero R] [Add R] (A : Csr R) : R :=
  (List.range A.m).foldl (fun tr i =>
    let off := findIdx (fun j => decide (j = i + A.indexing)) (A.rowCols i)
    if off ≠ (A.rowCols i).length then tr + (A.rowVals i).getD off 0 else tr) 0

/-- `dist_sparse_matrix(comm, A)` (dist_sparse_matrix.hpp:93-106). -/
def DistCsr.ofSerial [Zero R] (P rank : Nat) (A : Csr R) : DistCsr R :=
  let D : DistCsr R := DistCsr.create P rank A.m A.n
  let (st, en) := D.rowBounds rank
  { D with
    diag := some ((A.extractSubmatrix (st, st) (en, en)).setIndexing 0)
    offdiag := some ((A.extractExclCol (st, st) (en, en)).setIndexing 0) }

/-- `dist_sparse_matrix(comm, A, row_tiles)` (dist_sparse_matrix.hpp:108-122); `none` is the
exception of the tiled constructor. -/
def DistCsr.ofSerialTiled [Zero R] (P rank : Nat) (A : Csr R) (tiles : List (Nat × Nat)) :
    Option (DistCsr R) :=
  (DistCsr.createTiled P rank A.m A.n tiles).map fun (D : DistCsr R) =>
    let (st, en) := D.rowBounds rank
    { D with
      diag := some ((A.extractSubmatrix (st, st) (en, en)).setIndexing 0)
      offdiag := some ((A.extractExclCol (st, st) (en, en)).setIndexing 0) }

/-! ### permutations -/

/-- The loop of `perm_from_part` (permute.hpp:33-40): `perm` so far, the rest still to be partitioned
and `partptr`. -/
def permFromPartLoop (npart : Nat) (part : List Nat) : List Nat × List Nat × List Nat :=
  (List.range (npart - 1)).foldl (fun (st : List Nat × List Nat × List Nat) p =>
    let f := st.2.1.filter fun i => part.getD i 0 == p
    let g := st.2.1.filter fun i => !(part.getD i 0 == p)
    (st.1 ++ f, g, st.2.2 ++ [(st.1 ++ f).length])) ([], List.range part.length, [0])

/-- `perm_from_part` for `npart ≥ 1` (permute.hpp:26-50); `none` is the exception of the sanity
check. -/
def permFromPart (npart : Nat) (part : List Nat) : Option (List Nat × List Nat) :=
  let (done, rest, ptr) := permFromPartLoop npart part
  let perm := done ++ rest
  let partptr := ptr ++ [perm.length]
  if (List.range npart).any (fun p =>
      ((perm.drop (partptr.getD p 0)).take (partptr.getD (p + 1) 0 - partptr.getD p 0)).any
        fun i => part.getD i 0 != p)
  then none else some (perm, partptr)

/-- `invert_perm` (permute.hpp:52-62). -/
def invertPerm (perm : List Nat) : List Nat :=
  (List.range perm.length).foldl (fun ip i => ip.set (perm.getD i 0) i)
    (List.replicate perm.length 0)

/-- `permute_vector(.., Forward)` into a fresh array of previous contents `Vp` (permute.hpp:75-83). -/
def permuteForward [Zero R] (V : List R) (P : List Nat) (Vp : List R) : List R :=
  (List.range V.length).foldl (fun Vp i => Vp.set (P.getD i 0) (V.getD i 0)) Vp

/-- `permute_vector(.., Backward)` (permute.hpp:85-90). -/
def permuteBackward [Zero R] (V : List R) (P : List Nat) (Vp : List R) : List R :=
  (List.range V.length).foldl (fun Vp i => Vp.set i (V.getD (P.getD i 0) 0)) Vp

/-- `permute_rows` (permute.hpp:96-142). -/
def Csr.permuteRows [Zero R] (A : Csr R) (perm : List Nat) : Csr R :=
  let p := fun i => perm.getD i 0
  buildCsr A.m A.n A.nzval.length A.indexing
    ((List.range A.m).map fun i => (A.rp (p i + 1) - A.indexing) - (A.rp (p i) - A.indexing))
    (fun i => A.rowCols (p i)) (fun i => A.rowVals (p i))

/-- The thread's index array before the sort of a row with `ext` entries: refilled only when its size
changed, otherwise the (already permuted) array of the thread's previous row is reused
(permute.hpp:174-178, 234-238). -/
def indPrepare (ind : List Nat) (ext : Nat) : List Nat :=
  if ind.length ≠ ext then List.range ext else ind

/-- `permute_rows_cols` (permute.hpp:198-257).  `ind i` is the thread's index array after `std::sort`
in the iteration for row `i`. -/
def Csr.permuteRowsCols [Zero R] (A : Csr R) (rperm cperm : List Nat) (ind : Nat → List Nat) :
    Csr R :=
  let p := fun i => rperm.getD i 0
  let ic := invertPerm cperm
  buildCsr A.m A.n A.nzval.length A.indexing
    ((List.range A.m).map fun i => (A.rp (p i + 1) - A.indexing) - (A.rp (p i) - A.indexing))
    (fun i => (ind i).map fun k =>
      ic.getD ((A.rowCols (p i)).getD k 0 - A.indexing) 0 + A.indexing)
    (fun i => (ind i).map fun k => (A.rowVals (p i)).getD k 0)

/-- `permute_cols` (permute.hpp:145-195): row pointer copied, rows written in place. -/
def Csr.permuteCols [Zero R] (A : Csr R) (perm : List Nat) (ind : Nat → List Nat) : Csr R :=
  let ic := invertPerm perm
  { m := A.m, n := A.n, indexing := A.indexing, rowptr := A.rowptr
    colind := writeRows A.m (fun i => A.rp i - A.indexing)
      (fun i => (ind i).map fun k => ic.getD ((A.rowCols i).getD k 0 - A.indexing) 0 + A.indexing)
      (List.replicate A.nzval.length 0)
    nzval := writeRows A.m (fun i => A.rp i - A.indexing)
      (fun i => (ind i).map fun k => (A.rowVals i).getD k 0)
      (List.replicate A.nzval.length 0) }

/-- `extract_adjacency` (graph.hpp:35-83): the pattern without the diagonal, as `(rowptr, colind)`. -/
def Csr.extractAdjacency (A : Csr R) (retIdx : Nat) : List Nat × List Nat :=
  let (rp, ci) := (List.range A.m).foldl (fun (st : List Nat × List Nat) i =>
    let row := A.rowCols i
    let d := findIdx (fun j => decide (j = i + A.indexing)) row
    let last := st.1.getLastD 0
    if d ≠ row.length then
      (st.1 ++ [last + row.length - 1], st.2 ++ row.take d ++ row.drop (d + 1))
    else (st.1 ++ [last + row.length], st.2 ++ row.take d)) ([retIdx], [])
  (rp, ci.map fun j => j + retIdx - A.indexing)

end Macis
