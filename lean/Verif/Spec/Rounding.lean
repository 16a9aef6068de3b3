import Verif.Model.Ham
import Mathlib.Data.Real.Basic
/-! Rounding to floating point numbers. -/
namespace Macis.Spec

/-- `rnd` rounds with relative error at most `u` (the unit roundoff: `2^-53` for `double` rounded to nearest).  Overflow
and underflow are left out: this is the standard model of floating point arithmetic. -/
structure RoundsTo (rnd : ℝ → ℝ) (u : ℝ) : Prop where
  nonneg : 0 ≤ u
  err : ∀ x, |rnd x - x| ≤ u * |x|

/-- bound on the rounding error of the diagonal elements updated from those of another determinant: `n` electrons, integrals
of at most `B` -/
def fastDiagErr (u : ℝ) (n : Nat) (B : ℝ) : ℝ := ((1 + u) ^ (n ^ 2 + n + 20) - 1) * ((n ^ 2 + 9 * n + 20 : Nat) * B)

/-- numbers of the format are not changed by rounding, and rounding gives a number of the format -/
def Idempotent (rnd : ℝ → ℝ) : Prop := ∀ x, rnd (rnd x) = rnd x

/-- the integrals in the orbital space are at most `B` in absolute value -/
structure Bounded (I : Integrals ℝ) (B : ℝ) : Prop where
  nonneg : 0 ≤ B
  T : ∀ p q, p < I.norb → q < I.norb → |I.T p q| ≤ B
  V : ∀ p q r s, p < I.norb → q < I.norb → r < I.norb → s < I.norb → |I.V p q r s| ≤ B

end Macis.Spec
