import Verif.Spec.Decimal
/-! Decimal numerals as people and programs write them: specification used by C177. -/
namespace Macis.Spec

/-- an optional sign -/
def signText : Option Bool → List Char
  | none => []
  | some false => ['+']
  | some true => ['-']

/-- `w` consists of the digits `ip`, perhaps a point, and the digits `fp`; at least one digit. -/
structure Mantissa (w ip fp : List Char) : Prop where
  int : ∀ c ∈ ip, c.isDigit = true
  frac : ∀ c ∈ fp, c.isDigit = true
  some : ip ++ fp ≠ []
  text : w = ip ++ '.' :: fp ∨ (fp = [] ∧ w = ip)

/-- its value: the digits as a number, the point `fp.length` places from the right -/
def mantissaValue (ip fp : List Char) : ℚ := (Nat.ofDigitChars 10 (ip ++ fp) 0 : Nat) / 10 ^ fp.length

/-- the value of an exponent with the given sign and digits -/
def exponentValue (sign : Option Bool) (ds : List Char) : ℤ :=
  (if sign = some true then -1 else 1) * (Nat.ofDigitChars 10 ds 0 : Nat)

/-- What follows cannot be read as part of a decimal (or hexadecimal) number. -/
def Stops (rest : List Char) : Prop := ∀ c ∈ rest.head?, c.isDigit = false ∧ c ∉ ['.', 'e', 'E', 'x', 'X']

end Macis.Spec
