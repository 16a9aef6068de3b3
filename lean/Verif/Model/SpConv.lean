import Verif.Model.SpBlas
/-
Conversions between the sparse formats of sparsexx
(src/sparsexx/include/sparsexx/matrix_types/{conversions,coo_conversions,dense_conversions,
coo_matrix_ops}.hpp).

Raw arrays written element by element are functions from positions to values (`store` is an
assignment); `std::vector`s with checked access (`.at`) are lists.
-/
namespace Macis
variable {R : Type}

/-- State of the reordering loop of `csr_to_csc`: `Bp`, `Bi`, `Bz`. -/
structure ScatterState (R : Type) where
  Bp : Nat → Nat
  Bi : Nat → Nat
  Bz : Nat → R

/-- Column counts (conversions.hpp:27-30). -/
def cscCounts (idx nnz : Nat) (Ai : List Nat) : Nat → Nat :=
  (List.range nnz).foldl
    (fun Bp i => store Bp (Ai.getD i 0 - idx) (Bp (Ai.getD i 0 - idx) + 1)) (fun _ => 0)

/-- Cumulative sum (conversions.hpp:33-38): returns `Bp` and the final `csum`. -/
def cscCumsum (N : Nat) (Bp : Nat → Nat) : (Nat → Nat) × Nat :=
  (List.range N).foldl (fun (st : (Nat → Nat) × Nat) j => (store st.1 j st.2, st.2 + st.1 j)) (Bp, 0)

/-- The iterations `(i, j)` of the reordering loop (conversions.hpp:41-42). -/
def csrPositions (idx M : Nat) (Ap : List Nat) : List (Nat × Nat) :=
  (List.range M).flatMap fun i =>
    (List.range' (Ap.getD i 0 - idx) ((Ap.getD (i + 1) 0 - idx) - (Ap.getD i 0 - idx))).map
      fun j => (i, j)

/-- One iteration of the reordering loop (conversions.hpp:43-48). -/
def scatterStep (idx : Nat) (Ai : List Nat) (Az : Nat → R) (st : ScatterState R) (ij : Nat × Nat) :
    ScatterState R :=
  let col := Ai.getD ij.2 0 - idx
  let dest := st.Bp col
  { Bp := store st.Bp col (st.Bp col + 1)
    Bi := store st.Bi dest ij.1
    Bz := store st.Bz dest (Az ij.2) }

/-- `for(j = 0, last = 0; j < N; ++j) std::swap(Bp[j], last)` (conversions.hpp:51-53). -/
def swapShift (N : Nat) (Bp : Nat → Nat) : Nat → Nat :=
  ((List.range N).foldl (fun (st : (Nat → Nat) × Nat) j => (store st.1 j st.2, st.1 j)) (Bp, 0)).1

/-- `csr_to_csc` (conversions.hpp:21-60).  `B0` is the previous contents of the output arrays.
Adding `indexing` when it is zero changes nothing, so the `if(indexing)` is dropped. -/
def csrToCsc (M N : Nat) (Ap Ai : List Nat) (Az : Nat → R) (idx : Nat) (B0 : ScatterState R) :
    ScatterState R :=
  let nnz := Ap.getD M 0 - idx
  let Bp1 := cscCounts idx nnz Ai
  let Bp2 := (cscCumsum N Bp1).1
  let Bp3 := store Bp2 N nnz
  let s := (csrPositions idx M Ap).foldl (scatterStep idx Ai Az) { B0 with Bp := Bp3 }
  let Bp5 := swapShift N s.Bp
  { Bp := fun j => Bp5 j + idx
    Bi := fun i => s.Bi i + idx
    Bz := s.Bz }

/-- `csr_matrix(csc_matrix)` (conversions.hpp:118-125): the CSC arrays are read as the CSR arrays of
the transpose. -/
def Csr.ofCsc [Zero R] (A : Csc R) : Csr R :=
  let B := csrToCsc A.n A.m A.colptr A.rowind (fun k => A.nzval.getD k 0) A.indexing
    { Bp := fun _ => 0, Bi := fun _ => 0, Bz := fun _ => 0 }
  { m := A.m, n := A.n, indexing := A.indexing
    rowptr := (List.range (A.m + 1)).map B.Bp
    colind := (List.range A.nzval.length).map B.Bi
    nzval := (List.range A.nzval.length).map B.Bz }

/-- `std::is_sorted` -/
def isSorted : List Nat → Bool
  | [] => true
  | [_] => true
  | a :: b :: l => decide (a ≤ b) && isSorted (b :: l)

/-- The pointer loop shared by COO → CSR and COO → CSC (conversions.hpp:77-83, 104-110): `ptr` is a
`std::vector` accessed with `.at`, `none` is its `std::out_of_range`. -/
def cooPtrLoop (idx : Nat) (ind : List Nat) (ptr : List Nat) : Option (List Nat × Nat) :=
  (List.range ind.length).foldlM (fun (st : List Nat × Nat) i =>
    if ind.getD i 0 ≠ st.2 + idx then
      if st.2 + 1 < st.1.length then some (st.1.set (st.2 + 1) (i + idx), st.2 + 1) else none
    else some st) (ptr, 0)

/-- `csr_matrix(coo_matrix)` (conversions.hpp:64-89); `none` is an exception. -/
def Csr.ofCoo (A : Coo R) : Option (Csr R) :=
  if ¬ isSorted A.rowind then none
  else
    (cooPtrLoop A.indexing A.rowind ((List.replicate (A.m + 1) 0).set 0 A.indexing)).map fun st =>
      { m := A.m, n := A.n, indexing := A.indexing
        rowptr := st.1.set A.m (A.nnz + A.indexing)
        colind := A.colind, nzval := A.nzval }

/-- `csc_matrix(coo_matrix)` (conversions.hpp:91-116); `none` is an exception.  The final entry is
written with `colptr_.at(m_)`. -/
def Csc.ofCoo (A : Coo R) : Option (Csc R) :=
  if ¬ isSorted A.colind then none
  else
    (cooPtrLoop A.indexing A.colind ((List.replicate (A.n + 1) 0).set 0 A.indexing)).bind fun st =>
      if A.m < st.1.length then
        some { m := A.m, n := A.n, indexing := A.indexing
               colptr := st.1.set A.m (A.nnz + A.indexing)
               rowind := A.rowind, nzval := A.nzval }
      else none

/-- `coo_matrix(csr_matrix)` (coo_conversions.hpp:18-32). -/
def Coo.ofCsr (A : Csr R) : Coo R :=
  { m := A.m, n := A.n, nnz := A.nzval.length, indexing := A.indexing
    rowind := (List.range A.m).flatMap fun i =>
      List.replicate (A.rowptr.getD (i + 1) 0 - A.rowptr.getD i 0) (i + A.indexing)
    colind := A.colind, nzval := A.nzval }

/-- `convert_to_dense(csr_matrix)` (dense_conversions.hpp:18-43); `none` is the exception.  Only
stored positions are assigned. -/
def denseOfCsr [Zero R] (A : Csr R) (LD : Nat) (D : Nat → R) : Option (Nat → R) :=
  if A.m > LD then none
  else some ((List.range A.m).foldl (fun D i =>
    (A.row i).foldl (fun D p => store D (i + (p.1 - A.indexing) * LD) p.2) D) D)

/-- `convert_to_dense(coo_matrix)` (dense_conversions.hpp:45-64); the index base is not used.  The
loop is parallel: `sched` is the order in which the iterations run. -/
def denseOfCoo [Zero R] (sched : List Nat) (A : Coo R) (LD : Nat) (D : Nat → R) :
    Option (Nat → R) :=
  if A.m > LD then none
  else some (sched.foldl (fun D i =>
    store D (A.rowind.getD i 0 + A.colind.getD i 0 * LD) (A.nzval.getD i 0)) D)

/-- `sort_by_row_index` / `sort_by_col_index` (coo_matrix_ops.hpp:45-69, 155-179) after `std::sort`
left the index array `indx`. -/
def Coo.gather [Zero R] (A : Coo R) (indx : List Nat) : Coo R :=
  { A with
    rowind := indx.map fun i => A.rowind.getD i 0
    colind := indx.map fun i => A.colind.getD i 0
    nzval := indx.map fun i => A.nzval.getD i 0 }

/-- The comparison of `sort_by_row_index` (coo_matrix_ops.hpp:48-55). -/
def Coo.rowLess (A : Coo R) (i j : Nat) : Bool :=
  if A.rowind.getD i 0 < A.rowind.getD j 0 then true
  else if A.rowind.getD j 0 < A.rowind.getD i 0 then false
  else decide (A.colind.getD i 0 < A.colind.getD j 0)

/-- The comparison of `sort_by_col_index` (coo_matrix_ops.hpp:158-165). -/
def Coo.colLess (A : Coo R) (i j : Nat) : Bool :=
  if A.colind.getD i 0 < A.colind.getD j 0 then true
  else if A.colind.getD j 0 < A.colind.getD i 0 then false
  else decide (A.rowind.getD i 0 < A.rowind.getD j 0)

/-- `expand_from_triangle` (coo_matrix_ops.hpp:73-131); `none` is the `std::length_error` that
`reserve` throws when `2*nnz - n` wraps around below zero.  The assertions are disabled in release
builds and are not part of the model. -/
def Coo.expandFromTriangle [Zero R] (A : Coo R) : Option (Coo R) :=
  let indx := List.range A.nnz
  let lower := indx.all fun i => decide (A.rowind.getD i 0 ≤ A.colind.getD i 0)
  let upper := indx.all fun i => decide (A.rowind.getD i 0 ≥ A.colind.getD i 0)
  if lower && upper || !lower && !upper then some A
  else if 2 * A.nnz < A.n then none
  else
    let off := indx.filter fun i => decide (A.rowind.getD i 0 ≠ A.colind.getD i 0)
    some { A with
      nnz := 2 * A.nnz - A.n
      rowind := A.rowind ++ off.map fun i => A.colind.getD i 0
      colind := A.colind ++ off.map fun i => A.rowind.getD i 0
      nzval := A.nzval ++ off.map fun i => A.nzval.getD i 0 }

end Macis
