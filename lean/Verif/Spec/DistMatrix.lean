import Verif.Spec.Dist
import Verif.Spec.Sparse
import Verif.Model.Dist
/-
A consistent distributed square matrix and the global matrix it denotes.
-/
namespace Macis.Spec
open Macis
variable {R : Type}

/-- Entry `(i, j)` of the local rows of one rank owning rows `st .. en-1`: the diagonal tile carries
columns `st .. en-1` (renumbered from 0), the off-diagonal tile the other columns. -/
def distEntry [AddCommMonoid R] (A : DistCsr R) (st en i j : Nat) : R :=
  (if st ≤ j ∧ j < en then A.diag.elim 0 fun D => csrEntry D i (j - st) else 0)
    + A.offdiag.elim 0 fun O => csrEntry O i j

/-- The objects `A 0, ..., A (P-1)` of the ranks form a distributed `N × N` matrix with row
intervals `ext`. -/
structure DistributedMatrix (A : Nat → DistCsr R) (P N : Nat) (ext : List (Nat × Nat)) : Prop where
  partition : RowPartition N P ext
  size_eq : ∀ r < P, (A r).size = P
  rank_eq : ∀ r < P, (A r).rank = r
  n_eq : ∀ r < P, (A r).n = N
  extents_eq : ∀ r < P, (A r).extents = ext
  diag_ok : ∀ r < P, ∀ st en, ext[r]? = some (st, en) → ∃ D, (A r).diag = some D ∧ CsrWF D ∧
    D.indexing = 0 ∧ D.m = en - st ∧ D.n = en - st
  offdiag_ok : ∀ r < P, ∀ st en, ext[r]? = some (st, en) → ∀ O, (A r).offdiag = some O → CsrWF O ∧
    O.indexing = 0 ∧ O.m = en - st ∧ O.n = N ∧ ∀ c ∈ O.colind, ¬ (st ≤ c ∧ c < en)

end Macis.Spec
