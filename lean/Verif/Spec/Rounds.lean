import Verif.Spec.Text
import Mathlib.Data.Real.Basic
/-! Number formatting with rounding: what the restart theorems need to know about printed coefficients. -/
namespace Macis.Spec

/-- Numbers up to one in size are printed as one word, recognisable as a float, and read back with an error of at most
`δ`. -/
def NumIO.Rounds (io : NumIO ℝ) (δ : ℝ) : Prop :=
  ∀ x, |x| ≤ 1 → (∃ y, io.parse (io.fmt x) = some y ∧ |y - x| ≤ δ) ∧ (∀ c ∈ io.fmt x, isSpaceC c = false) ∧
    ∃ c ∈ io.fmt x, c.isAlpha = true ∨ c = '.'

end Macis.Spec
