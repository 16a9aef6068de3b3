import Mathlib.Algebra.BigOperators.Intervals
import Mathlib.Data.Real.Basic
/-! Singular value decompositions and the cached combinations of two-electron integrals, with no reference to how
arrays are laid out. -/
namespace Macis.Spec
open Finset

/-- `U` and `S` are the left singular vectors (columns) and the singular values, largest first, of the `n x n` matrix
`A`. -/
structure Svd (n : Nat) (A U : Nat → Nat → ℝ) (S : Nat → ℝ) : Prop where
  left : ∀ j k, j < n → k < n → ∑ p ∈ range n, U p j * U p k = if j = k then 1 else 0
  nonneg : ∀ k, k < n → 0 ≤ S k
  desc : ∀ j k, j ≤ k → k < n → S k ≤ S j
  factor : ∃ W : Nat → Nat → ℝ,
    (∀ j k, j < n → k < n → ∑ p ∈ range n, W p j * W p k = if j = k then 1 else 0) ∧
    ∀ p q, p < n → q < n → A p q = ∑ k ∈ range n, U p k * S k * W q k

/-- A real symmetric matrix without negative eigenvalues. -/
def SymPsd (n : Nat) (A : Nat → Nat → ℝ) : Prop :=
  (∀ p q, p < n → q < n → A p q = A q p) ∧
  ∀ x : Nat → ℝ, 0 ≤ ∑ p ∈ range n, ∑ q ∈ range n, x p * A p q * x q

end Macis.Spec
