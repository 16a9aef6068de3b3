import Mathlib.Data.Real.Sqrt
import Mathlib.Algebra.BigOperators.Fin
/-
What the eigensolver is expected to do.
-/
namespace Macis.Spec

/-- `eig k M` is the lowest eigenpair (normalised) of the symmetric matrix whose lower triangle is
that of `M`: LAPACK's `syev` in exact arithmetic. -/
def LowestPair (eig : Nat → (Nat → Nat → ℝ) → ℝ × (Nat → ℝ)) : Prop :=
  ∀ k M, 0 < k →
    let S := fun p q => if q ≤ p then M p q else M q p
    let lam := (eig k M).1
    let c := (eig k M).2
    (∑ p ∈ Finset.range k, c p * c p) = 1 ∧
    (∀ p < k, ∑ q ∈ Finset.range k, S p q * c q = lam * c p) ∧
    ∀ d : Nat → ℝ, lam * (∑ p ∈ Finset.range k, d p * d p)
      ≤ ∑ p ∈ Finset.range k, ∑ q ∈ Finset.range k, d p * (S p q * d q)

/-- the first `k` vectors are orthonormal -/
def OrthonormalCols {ι : Type} [Fintype ι] (k : Nat) (V : Nat → ι → ℝ) : Prop :=
  ∀ p < k, ∀ q < k, (∑ t, V p t * V q t) = if p = q then 1 else 0

/-- `m` is the first position of the smallest element -/
def FirstMin {K : Type} [LinearOrder K] (D : List K) (m : Nat) : Prop :=
  ∃ v, D[m]? = some v ∧ (∀ d ∈ D, v ≤ d) ∧ ∀ j < m, ∀ w, D[j]? = some w → v < w

end Macis.Spec
