import Verif.Model.Decimal
/-! What the C library is trusted to do when it converts between binary and decimal. -/
namespace Macis.Spec

/-- rounding to a nearest integer, ties in any way -/
def RoundsNearest (near : ℚ → ℤ) : Prop := ∀ q, |(near q : ℚ) - q| ≤ 1 / 2

/-- `x` is closer to the number with the sign of `x` and absolute value `q` than every other double of that sign -/
def Closest (x : Dbl) (q : ℚ) : Prop := ∀ y : Dbl, y.neg = x.neg → y ≠ x → |x.mag - q| < |y.mag - q|

/-- `std::stod` of glibc: below the overflow threshold the closest double is the result; it throws `out_of_range` when
that one is subnormal. -/
structure StodSpec (toDouble : Bool → ℚ → Option {x : Dbl // x.Normal}) : Prop where
  closest : ∀ (x : {x : Dbl // x.Normal}) (q : ℚ), 0 ≤ q → q < 2 ^ 1024 - 2 ^ 970 → Closest x.1 q →
    toDouble x.1.neg q = some x
  subnormal : ∀ (x : Dbl) (q : ℚ), ¬ x.Normal → 0 ≤ q → Closest x q → toDouble x.neg q = none

end Macis.Spec
