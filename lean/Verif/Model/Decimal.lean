import Verif.Model.Text
import Mathlib.Data.Int.Log
import Mathlib.Data.Rat.Floor
/-
Printing and reading of doubles, down to the digits: what `{:25.16e}` (src/macis/fcidump.cxx:188) and
`std::scientific << std::setprecision(16)` (include/macis/wavefunction_io.hpp:109) write before padding, and what
`std::stod` (src/macis/fcidump.cxx:50 and 56, include/macis/wavefunction_io.hpp:71) reads.  Not modelled: infinities, NaN
and hexadecimal input.
-/
namespace Macis

/-- A finite IEEE double: sign, significand and exponent; normal numbers have a significand of 53 bits, subnormal
numbers and zero the least exponent. -/
structure Dbl where
  neg : Bool
  m : Nat
  e : Int
  ok : m < 2 ^ 53 ∧ -1074 ≤ e ∧ e ≤ 971 ∧ (2 ^ 52 ≤ m ∨ e = -1074)
deriving DecidableEq

/-- the absolute value of a double -/
def Dbl.mag (x : Dbl) : ℚ := x.m * 2 ^ x.e

/-- The digits (as a number below `10^(p+1)`) and the decimal exponent of `v` in scientific notation with `p` digits
after the point; `near` rounds to a nearest integer (the C library: to even on ties). -/
def sciParts (near : ℚ → ℤ) (p : Nat) (v : ℚ) : Nat × Int :=
  if v = 0 then (0, 0)
  else
    let k := Int.log 10 v
    let D := (near (v / 10 ^ (k - p))).toNat
    if D = 10 ^ (p + 1) then (10 ^ p, k + 1) else (D, k)

/-- zero padding on the left to `w` digits -/
def padZero (w : Nat) (s : List Char) : List Char := List.replicate (w - s.length) '0' ++ s

/-- `{:.pe}`, `std::scientific << std::setprecision(p)` (fcidump.cxx:188, wavefunction_io.hpp:109): sign, one digit, the
point, `p` digits, `e`, the sign and at least two digits of the exponent. -/
def fmtSci (near : ℚ → ℤ) (p : Nat) (x : Dbl) : List Char :=
  let d := sciParts near p x.mag
  let ds := padZero (p + 1) (showNat d.1)
  (if x.neg then ['-'] else []) ++ (ds.take 1 ++ '.' :: ds.drop 1) ++
    'e' :: (if d.2 < 0 then '-' else '+') :: padZero 2 (showNat d.2.natAbs)

/-- removal of trailing zeros -/
def stripZeros (l : List Char) : List Char := (l.reverse.dropWhile (· = '0')).reverse

/-- the exponent part: `e`, the sign and at least two digits -/
def expText : Option Int → List Char
  | none => []
  | some k => 'e' :: (if k < 0 then '-' else '+') :: padZero 2 (showNat k.natAbs)

/-- A number with integer digits `ip`, fraction `fp` without its trailing zeros (and without the point if nothing is
left) and exponent `ex`, if any. -/
def fmtParts (ip fp : List Char) (ex : Option Int) : List Char :=
  let f := stripZeros fp
  ip ++ (if f.isEmpty then [] else '.' :: f) ++ expText ex

/-- The default format with `std::setprecision(17)` (src/sparsexx/include/sparsexx/io/write_mm.hpp:51 and 81,
write_dist_mm.hpp:59 and 68), which is `%.17g`: seventeen significant digits without trailing zeros, in scientific
notation if the exponent is below -4 or at least 17. -/
def fmtGen (near : ℚ → ℤ) (x : Dbl) : List Char :=
  let d := sciParts near 16 x.mag
  let ds := padZero 17 (showNat d.1)
  (if x.neg then ['-'] else []) ++
    (if d.2 < -4 ∨ 17 ≤ d.2 then fmtParts (ds.take 1) (ds.drop 1) (some d.2)
     else if d.2 < 0 then fmtParts ['0'] (List.replicate (d.2.natAbs - 1) '0' ++ ds) none
     else fmtParts (ds.take (d.2.toNat + 1)) (ds.drop (d.2.toNat + 1)) none)

/-- an optional sign -/
def splitSign : List Char → Bool × List Char
  | '-' :: t => (true, t)
  | '+' :: t => (false, t)
  | t => (false, t)

/-- the digits after a point, if there is one, and the rest -/
def readFrac : List Char → List Char × List Char
  | '.' :: t => (t.takeWhile Char.isDigit, t.dropWhile Char.isDigit)
  | t => ([], t)

/-- the exponent, zero if there is none -/
def readExp : List Char → Int
  | c :: t =>
    if c = 'e' ∨ c = 'E' then
      let u := splitSign t
      (if u.1 then -1 else 1) * (Nat.ofDigitChars 10 (u.2.takeWhile Char.isDigit) 0 : Nat)
    else 0
  | [] => 0

/-- The decimal number at the start of a string, as `strtod` reads it: white space, an optional sign, digits with an
optional point, an optional exponent; the rest is ignored.  `none`: there is no digit. -/
def strtodExact (str : List Char) : Option (Bool × ℚ) :=
  let s := splitSign (str.dropWhile isSpaceC)
  let ip := s.2.takeWhile Char.isDigit
  let s1 := s.2.dropWhile Char.isDigit
  let f := readFrac s1
  if (ip ++ f.1).isEmpty then none
  else some (s.1, (Nat.ofDigitChars 10 (ip ++ f.1) 0 : Nat) * (10 : ℚ) ^ (readExp f.2 - f.1.length))

/-- zero or a normal number; the other doubles are subnormal -/
def Dbl.Normal (x : Dbl) : Prop := x.m = 0 ∨ 2 ^ 52 ≤ x.m

/-- Doubles written with `p` digits after the point (fcidump.cxx:188, wavefunction_io.hpp:109) and read with `std::stod`
(fcidump.cxx:50, wavefunction_io.hpp:71); `toDouble` is the library's conversion of a decimal number (sign and absolute
value) to a double, `none` when `std::stod` throws because the result is out of range. -/
def doubleIO (near : ℚ → ℤ) (p : Nat) (toDouble : Bool → ℚ → Option {x : Dbl // x.Normal}) :
    NumIO {x : Dbl // x.Normal} where
  fmt x := fmtSci near p x.1
  parse s := (strtodExact s).bind fun v => toDouble v.1 v.2

/-- Doubles written by the Matrix Market writers (write_mm.hpp:51) and read with `std::stod` (read_mm.hpp:326). -/
def mmDoubleIO (near : ℚ → ℤ) (toDouble : Bool → ℚ → Option {x : Dbl // x.Normal}) :
    NumIO {x : Dbl // x.Normal} where
  fmt x := fmtGen near x.1
  parse s := (strtodExact s).bind fun v => toDouble v.1 v.2

end Macis
