/-
Text primitives of the C++ standard library that the file readers and writers use.  A file is the
list of its characters.
-/
namespace Macis

/-- characters for which `std::isspace` holds in the "C" locale -/
def isSpaceC (c : Char) : Bool :=
  c == ' ' || c == '\t' || c == '\n' || c == '\x0b' || c == '\x0c' || c == '\r'

/-- `while(std::getline(file, line))`: the lines of the file.  The text after the last newline is a
line only if it is not empty. -/
def fileLines (file : List Char) : List (List Char) :=
  let ps := file.splitOn '\n'
  if ps.getLast? = some [] then ps.dropLast else ps

/-- `std::stringstream ss{line}; ss >> a >> b ...`: the white-space separated words. -/
def words (line : List Char) : List (List Char) :=
  (line.splitOnP isSpaceC).filter (fun t => !t.isEmpty)

/-- `std::stoi` (base 10): leading white space, an optional sign, then the longest run of digits; the
rest of the string is ignored.  `none`: it throws (no digit, or out of range of `int`). -/
def stoi (str : List Char) : Option Int :=
  let s := str.dropWhile isSpaceC
  let sgn : Int := if s.head? = some '-' then -1 else 1
  let s := if s.head? = some '-' || s.head? = some '+' then s.tail else s
  let ds := s.takeWhile Char.isDigit
  if ds.isEmpty then none
  else
    let v : Int := sgn * (Nat.ofDigitChars 10 ds 0 : Nat)
    if -2147483648 ≤ v ∧ v ≤ 2147483647 then some v else none

/-- decimal rendering of an unsigned integer -/
def showNat (n : Nat) : List Char := Nat.toDigits 10 n

/-- right alignment in a field of width `w` (`std::setw`, `{:w}`) -/
def padLeft (w : Nat) (s : List Char) : List Char := List.replicate (w - s.length) ' ' ++ s

/-- How floating-point numbers are written and read: `fmt` is the scientific rendering with 17
significant digits (before padding), `parse` is `std::stod` (`none`: it throws). -/
structure NumIO (R : Type) where
  fmt : R → List Char
  parse : List Char → Option R

end Macis
