import Verif.Spec.Mp2
import Verif.Spec.Davidson
import Mathlib.Data.Matrix.Mul
/-! What the LAPACK routines used by LOBPCG do in exact arithmetic, and what its result should be. -/
namespace Macis.Spec
open Finset

/-- `potrf(Lower)` on a symmetric matrix: a Cholesky factor, or a nonzero info code when the matrix is
not positive definite. -/
def PotrfSpec (potrf : Nat → (Nat → Nat → ℝ) → Option (Nat → Nat → ℝ)) : Prop :=
  ∀ n G, (∀ i j, G i j = G j i) → match potrf n G with
    | some L => (∀ i < n, 0 < L i i) ∧
        ∀ i < n, ∀ j ≤ i, (∑ k ∈ range (j + 1), L i k * L j k) = G i j
    | none => ∃ v : Nat → ℝ, (∃ i < n, v i ≠ 0) ∧
        ∑ i ∈ range n, ∑ j ∈ range n, v i * v j * G i j ≤ 0

/-- `syev(Vec, Lower)` -/
def SyevMatSpec (syev : Nat → (Nat → Nat → ℝ) → (Nat → ℝ) × (Nat → Nat → ℝ)) : Prop :=
  ∀ n A, SymEig n (fun p q => if q ≤ p then A p q else A q p) (syev n A).1 (syev n A).2

/-- orthogonal factor of an LQ decomposition (`m ≤ n`): orthonormal rows, and `B Qᵀ` is lower
triangular -/
def LqSpec (lq : Nat → Nat → (Nat → Nat → ℝ) → (Nat → Nat → ℝ)) : Prop :=
  ∀ m n B, m ≤ n →
    (∀ j < n, ∀ k < n, (∑ p ∈ range n, lq m n B j p * lq m n B k p) = if j = k then 1 else 0) ∧
    ∀ i < m, ∀ j < n, i < j → (∑ p ∈ range n, B i p * lq m n B j p) = 0

/-- the columns `X` with values `lam` are Ritz pairs of `A`: orthonormal, values ascending, and `A`
diagonal between them -/
structure RitzPairs {ι : Type} [Fintype ι] (A : Matrix ι ι ℝ) (k : Nat) (lam : Nat → ℝ)
    (X : Nat → ι → ℝ) : Prop where
  ortho : OrthonormalCols k X
  asc : ∀ i j, i ≤ j → j < k → lam i ≤ lam j
  diag : ∀ i < k, ∀ j < k, (∑ t, X i t * A.mulVec (X j) t) = if i = j then lam i else 0

end Macis.Spec
