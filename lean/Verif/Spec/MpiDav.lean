import Verif.Model.MpiDav
import Verif.Spec.DistMatrix
import Mathlib.Data.Matrix.Mul
/-! What the distributed eigensolver is compared with: the serial solver on the whole matrix. -/
namespace Macis.Spec
open Macis Macis.Mpi

/-- first row of rank `r` -/
def startOf (ext : List (Nat × Nat)) (r : Nat) : Nat := (ext.getD r (0, 0)).1

/-- number of rows of rank `r` -/
def rowsOf (ext : List (Nat × Nat)) (r : Nat) : Nat := (ext.getD r (0, 0)).2 - (ext.getD r (0, 0)).1

/-- `M` is the matrix whose rows the ranks hold -/
def IsGlobal {N : Nat} (A : Nat → DistCsr ℝ) (P : Nat) (ext : List (Nat × Nat)) (M : Matrix (Fin N) (Fin N) ℝ) : Prop :=
  ∀ r < P, ∀ t < rowsOf ext r, ∀ i j : Fin N, (i : Nat) = startOf ext r + t →
    M i j = distEntry (A r) (ext.getD r (0, 0)).1 (ext.getD r (0, 0)).2 t j

/-- the rank holds its piece of the vector `x` -/
def IsPiece {N : Nat} (ext : List (Nat × Nat)) (x : Fin N → ℝ) (r : Nat) (X : Nat → ℝ) : Prop :=
  ∀ t < rowsOf ext r, ∀ i : Fin N, (i : Nat) = startOf ext r + t → X t = x i

/-- What rank `r` ends with when the serial solver ends with `R`: the same number of iterations, the same eigenvalue
and its piece of the same eigenvector; or the exception. -/
def EndsLike {N : Nat} (ext : List (Nat × Nat)) (R : DavResult (Fin N → ℝ)) (r : Nat) (m : DavMem) : Prop :=
  match R with
  | .converged iter lam x => m.out = .converged iter lam ∧ IsPiece ext x r m.X
  | .notConverged => m.out = .failed
  | .breakdown => m.out = .failed
  | .ub => False

/-- the eigensolver for small matrices reads the `k × k` matrix it is given, nothing else -/
def EigLocal (eig : Nat → (Nat → Nat → ℝ) → ℝ × (Nat → ℝ)) : Prop :=
  ∀ k M M', (∀ p < k, ∀ q < k, M p q = M' p q) → eig k M = eig k M'

end Macis.Spec
