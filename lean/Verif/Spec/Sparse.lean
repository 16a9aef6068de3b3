import Verif.Model.Sparse
import Mathlib.Algebra.BigOperators.Group.Finset.Defs
import Mathlib.Order.Interval.Finset.Nat
/-
What a stored sparse matrix means.  Only the storage records are shared with the model.
Logical rows and columns are counted from 0 whatever the index base.
-/
namespace Macis.Spec
open Macis
variable {R : Type}

/-- Value of the matrix denoted by CSR storage at `(i,j)`: the sum of the values stored between the
two row pointers under column `j`. -/
def csrEntry [AddCommMonoid R] (A : Csr R) (i j : Nat) : R :=
  ∑ k ∈ Finset.Ico (A.rowptr.getD i 0 - A.indexing) (A.rowptr.getD (i + 1) 0 - A.indexing),
    if A.colind.getD k 0 = j + A.indexing then A.nzval.getD k 0 else 0

/-- Value of the matrix denoted by CSC storage at `(i,j)`. -/
def cscEntry [AddCommMonoid R] (A : Csc R) (i j : Nat) : R :=
  ∑ k ∈ Finset.Ico (A.colptr.getD j 0 - A.indexing) (A.colptr.getD (j + 1) 0 - A.indexing),
    if A.rowind.getD k 0 = i + A.indexing then A.nzval.getD k 0 else 0

/-- Value of the matrix denoted by COO storage at `(i,j)`. -/
def cooEntry [AddCommMonoid R] (A : Coo R) (i j : Nat) : R :=
  ∑ k ∈ Finset.range A.nzval.length,
    if A.rowind.getD k 0 = i + A.indexing ∧ A.colind.getD k 0 = j + A.indexing
    then A.nzval.getD k 0 else 0

/-- Well-formed CSR storage: the row pointer starts at the index base, never decreases, ends at
`nnz`, the arrays have matching lengths and every column is inside the matrix. -/
structure CsrWF (A : Csr R) : Prop where
  rowptr_length : A.rowptr.length = A.m + 1
  rowptr_first : A.rowptr.getD 0 0 = A.indexing
  rowptr_mono : ∀ i < A.m, A.rowptr.getD i 0 ≤ A.rowptr.getD (i + 1) 0
  rowptr_last : A.rowptr.getD A.m 0 = A.indexing + A.nzval.length
  colind_length : A.colind.length = A.nzval.length
  col_range : ∀ c ∈ A.colind, A.indexing ≤ c ∧ c < A.indexing + A.n

/-- Columns strictly increase inside each row (so no position is stored twice). -/
def CsrSorted (A : Csr R) : Prop :=
  ∀ i < A.m, ∀ k l, A.rowptr.getD i 0 ≤ k + A.indexing → k < l →
    l + A.indexing < A.rowptr.getD (i + 1) 0 → A.colind.getD k 0 < A.colind.getD l 0

/-- The position `(i,j)` is stored (explicitly present in the sparsity pattern). -/
def csrStored (A : Csr R) (i j : Nat) : Prop :=
  ∃ k, A.rowptr.getD i 0 ≤ k + A.indexing ∧ k + A.indexing < A.rowptr.getD (i + 1) 0 ∧
    A.colind.getD k 0 = j + A.indexing

/-- Well-formed CSC storage. -/
structure CscWF (A : Csc R) : Prop where
  colptr_length : A.colptr.length = A.n + 1
  colptr_first : A.colptr.getD 0 0 = A.indexing
  colptr_mono : ∀ j < A.n, A.colptr.getD j 0 ≤ A.colptr.getD (j + 1) 0
  colptr_last : A.colptr.getD A.n 0 = A.indexing + A.nzval.length
  rowind_length : A.rowind.length = A.nzval.length
  row_range : ∀ c ∈ A.rowind, A.indexing ≤ c ∧ c < A.indexing + A.m

/-- Well-formed COO storage. -/
structure CooWF (A : Coo R) : Prop where
  nnz_eq : A.nnz = A.nzval.length
  rowind_length : A.rowind.length = A.nzval.length
  colind_length : A.colind.length = A.nzval.length
  row_range : ∀ c ∈ A.rowind, A.indexing ≤ c ∧ c < A.indexing + A.m
  col_range : ∀ c ∈ A.colind, A.indexing ≤ c ∧ c < A.indexing + A.n

/-- No position is stored twice. -/
def CooNodup (A : Coo R) : Prop := (A.rowind.zip A.colind).Nodup

end Macis.Spec
