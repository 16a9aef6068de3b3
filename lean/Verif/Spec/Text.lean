import Verif.Model.Text
/-! What the proofs need to know about number formatting. -/
namespace Macis.Spec

/-- Seventeen significant digits identify a double: parsing what was printed gives it back.  The
printed form is one word, and is recognisable as a float: it has a letter (the exponent mark, or
`nan`, `inf`) or a decimal point. -/
structure NumIO.Faithful {R : Type} (io : NumIO R) : Prop where
  roundTrip : ∀ x, io.parse (io.fmt x) = some x
  oneWord : ∀ x, ∀ c ∈ io.fmt x, isSpaceC c = false
  floatLike : ∀ x, ∃ c ∈ io.fmt x, c.isAlpha = true ∨ c = '.'

/-- The same for one value `x`. -/
structure NumIO.FaithfulAt {R : Type} (io : NumIO R) (x : R) : Prop where
  roundTrip : io.parse (io.fmt x) = some x
  oneWord : ∀ c ∈ io.fmt x, isSpaceC c = false
  floatLike : ∃ c ∈ io.fmt x, c.isAlpha = true ∨ c = '.'

end Macis.Spec
