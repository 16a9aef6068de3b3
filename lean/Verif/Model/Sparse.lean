import Mathlib.Algebra.Field.Defs
import Mathlib.Algebra.BigOperators.Group.List.Defs
import Mathlib.Algebra.Order.Group.Defs
/-
Sparse matrix containers of sparsexx and the small pieces of the C++ library used on them.

Simplifications: `index_t` / `size_type` are unbounded naturals (the code uses 32/64 bit signed
integers); pointers into an array are positions in a list; storage that the code leaves
uninitialised or value-initialised is `0`; an out-of-range read gives `0`.  `T` is any type of
coefficients.
-/
namespace Macis

variable {R : Type} [Zero R]

/-- `csr_matrix` (src/sparsexx/include/sparsexx/matrix_types/csr_matrix.hpp:44-52).
`nnz_` always equals `nzval_.size()` here (both constructors, :65-82). -/
structure Csr (R : Type) where
  m : Nat
  n : Nat
  indexing : Nat
  rowptr : List Nat
  colind : List Nat
  nzval : List R
deriving DecidableEq

/-- `csc_matrix` (src/sparsexx/include/sparsexx/matrix_types/csc_matrix.hpp:44-52). -/
structure Csc (R : Type) where
  m : Nat
  n : Nat
  indexing : Nat
  colptr : List Nat
  rowind : List Nat
  nzval : List R
deriving DecidableEq

/-- `coo_matrix` (src/sparsexx/include/sparsexx/matrix_types/coo_matrix.hpp:48-55); here `nnz_` is a
separate member because `expand_from_triangle` can set it to something else than the array length. -/
structure Coo (R : Type) where
  m : Nat
  n : Nat
  nnz : Nat
  indexing : Nat
  rowind : List Nat
  colind : List Nat
  nzval : List R
deriving DecidableEq

namespace Csr

/-- `csr_matrix(m, n, nnz, indexing)`: value-initialised arrays (csr_matrix.hpp:65-72). -/
def alloc (m n nnz indexing : Nat) : Csr R :=
  { m, n, indexing, rowptr := List.replicate (m + 1) 0, colind := List.replicate nnz 0,
    nzval := List.replicate nnz 0 }

/-- `csr_matrix(m, n, rowptr, colind, nzval)`: the index base is `rowptr[0]`
(csr_matrix.hpp:74-82). -/
def ofArrays (m n : Nat) (rowptr colind : List Nat) (nzval : List R) : Csr R :=
  { m, n, indexing := rowptr.getD 0 0, rowptr, colind, nzval }

/-- `rowptr()[i]` -/
def rp (A : Csr R) (i : Nat) : Nat := A.rowptr.getD i 0

/-- The pointer range `colind + (rowptr[i]-indexing) .. colind + (rowptr[i+1]-indexing)`, the
idiom of every row loop (e.g. spblas/spmbv.hpp:58-66). -/
def rowCols (A : Csr R) (i : Nat) : List Nat :=
  (A.colind.drop (A.rp i - A.indexing)).take
    ((A.rp (i + 1) - A.indexing) - (A.rp i - A.indexing))

/-- The same pointer range of `nzval` (e.g. spblas/spmbv.hpp:58-66). -/
def rowVals (A : Csr R) (i : Nat) : List R :=
  (A.nzval.drop (A.rp i - A.indexing)).take
    ((A.rp (i + 1) - A.indexing) - (A.rp i - A.indexing))

/-- Simultaneous iteration over columns and values of a row. -/
def row (A : Csr R) (i : Nat) : List (Nat × R) := (A.rowCols i).zip (A.rowVals i)

/-- `set_indexing` (csr_matrix.hpp:189-194): `i -= indexing_ - idx` on signed integers is
`i + idx - indexing_`. -/
def setIndexing (A : Csr R) (idx : Nat) : Csr R :=
  if idx = A.indexing then A
  else { A with
    colind := A.colind.map fun i => i + idx - A.indexing
    rowptr := A.rowptr.map fun i => i + idx - A.indexing
    indexing := idx }

end Csr

/-- `std::copy(src, src + n, dst + pos)` / `std::fill_n` into an allocated array. -/
def writeAt {α : Type} (dst : List α) (pos : Nat) (src : List α) : List α :=
  dst.take pos ++ src ++ dst.drop (pos + src.length)

/-- The loop `for(i = 0; i < m; ++i) std::copy(src_i, dst + pos_i)`. -/
def writeRows {α : Type} (m : Nat) (pos : Nat → Nat) (src : Nat → List α) (dst : List α) :
    List α :=
  (List.range m).foldl (fun d i => writeAt d (pos i) (src i)) dst

/-- `rowptr[0] = indexing; for(i) rowptr[i+1] = rowptr[i] + cnt[i]`
(util/submatrix.hpp:33-38, util/permute.hpp:113-121, util/submatrix.hpp:219-234). -/
def rowptrFromCounts (indexing : Nat) (cnts : List Nat) : List Nat :=
  cnts.foldl (fun rp c => rp ++ [rp.getLastD 0 + c]) [indexing]

/-- The halving loop of `std::partition_point` / `std::lower_bound` (libstdc++), on
`[first, first+len)`; the first argument bounds the number of rounds (`len` is enough). -/
def partitionPointGo {α : Type} (p : α → Bool) (l : List α) : Nat → Nat → Nat → Nat
  | 0, first, _ => first
  | fuel + 1, first, len =>
    if len = 0 then first
    else
      let half := len / 2
      match l[first + half]? with
      | none => first
      | some x =>
        if p x then partitionPointGo p l fuel (first + half + 1) (len - half - 1)
        else partitionPointGo p l fuel first half

/-- `std::partition_point(l.begin(), l.end(), p) - l.begin()`. -/
def partitionPoint {α : Type} (p : α → Bool) (l : List α) : Nat :=
  partitionPointGo p l l.length 0 l.length

end Macis
