import Verif.Model.Sparse
/-
Model of `dist_sparse_matrix`
(src/sparsexx/include/sparsexx/matrix_types/dist_sparse_matrix.hpp).  Each rank holds one object;
the MPI communicator is represented by its size and the own rank.  `P ≥ 1`.
-/
namespace Macis
variable {R : Type}

/-- Row extents of the default distribution (dist_sparse_matrix.hpp:48-62): the loop over ranks,
then the remainder is added to the last one. -/
def defaultExtents (M P : Nat) : List (Nat × Nat) :=
  let per := M / P
  let ext := (List.range (P - 1)).foldl
    (fun e _ => let s := (e.getLastD (0, 0)).2; e ++ [(s, s + per)]) [(0, per)]
  ext.dropLast ++ [((ext.getLastD (0, 0)).1, (ext.getLastD (0, 0)).2 + M % P)]

/-- Validation in the constructor with user supplied tiles (dist_sparse_matrix.hpp:65-84);
`none` is the `std::runtime_error`. -/
def customExtents (M P : Nat) (tiles : List (Nat × Nat)) : Option (List (Nat × Nat)) :=
  if tiles.length ≠ P then none
  else if (tiles.getD 0 (0, 0)).1 ≠ 0 ∨ (tiles.getLastD (0, 0)).2 ≠ M then none
  else if tiles.any (fun t => decide (t.1 > t.2)) then none
  else if (List.range (P - 1)).any
      (fun i => decide ((tiles.getD i (0, 0)).2 ≠ (tiles.getD (i + 1) (0, 0)).1)) then none
  else some tiles

/-- What one rank holds of a distributed CSR matrix (dist_sparse_matrix.hpp:31-41). -/
structure DistCsr (R : Type) where
  size : Nat
  rank : Nat
  m : Nat
  n : Nat
  extents : List (Nat × Nat)
  diag : Option (Csr R)
  offdiag : Option (Csr R)

namespace DistCsr

/-- `dist_sparse_matrix(comm, M, N)` (dist_sparse_matrix.hpp:48-62). -/
def create (P rank M N : Nat) : DistCsr R :=
  { size := P, rank := rank, m := M, n := N, extents := defaultExtents M P, diag := none,
    offdiag := none }

/-- `dist_sparse_matrix(comm, M, N, row_tiles)` (dist_sparse_matrix.hpp:65-84). -/
def createTiled (P rank M N : Nat) (tiles : List (Nat × Nat)) : Option (DistCsr R) :=
  (customExtents M P tiles).map fun e =>
    { size := P, rank := rank, m := M, n := N, extents := e, diag := none, offdiag := none }

/-- Copy constructor (dist_sparse_matrix.hpp:86-91): delegates to the default distribution, then
copies the tiles. -/
def copy (A : DistCsr R) : DistCsr R :=
  { (create A.size A.rank A.m A.n : DistCsr R) with diag := A.diag, offdiag := A.offdiag }

/-- `row_bounds(rank)` (dist_sparse_matrix.hpp:129). -/
def rowBounds (A : DistCsr R) (r : Nat) : Nat × Nat := A.extents.getD r (0, 0)

/-- `row_extent(rank)` (dist_sparse_matrix.hpp:131-133). -/
def rowExtent (A : DistCsr R) (r : Nat) : Nat := (A.rowBounds r).2 - (A.rowBounds r).1

/-- `local_row_extent()` (dist_sparse_matrix.hpp:135). -/
def localRowExtent (A : DistCsr R) : Nat := A.rowExtent A.rank

/-- `local_row_start()` (dist_sparse_matrix.hpp:137-139). -/
def localRowStart (A : DistCsr R) : Nat := (A.rowBounds A.rank).1

end DistCsr
end Macis
