import Mathlib.Data.List.Basic
/-
Model of the input-file reader of the standalone driver: tests/ini_input.cxx, tests/ini_input.hpp, and the
validation of the active-space options in tests/standalone_driver.cxx.

Strings are lists of characters; `std::string::npos` is `none`; `std::unordered_map` is a partial function.
-/
namespace Macis.Ini

abbrev Str := List Char

/-- what can go wrong: exceptions of the standard library and of the reader, and indexing an empty
`std::vector` -/
inductive Err
  | outOfRange | invalidArgument | undefined | sectionNotFound | dataNotFound | rejected
  deriving DecidableEq, Repr

/-- `std::isspace` in the C locale. -/
def isSpace (c : Char) : Bool :=
  c == ' ' || c == '\t' || c == '\n' || c == '\x0b' || c == '\x0c' || c == '\r'

/-- `trim_left` (ini_input.cxx:18-23). -/
def trimLeft (s : Str) : Str := s.dropWhile isSpace

/-- `trim_right` (ini_input.cxx:30-36). -/
def trimRight (s : Str) : Str := (s.reverse.dropWhile isSpace).reverse

/-- `trim` (ini_input.cxx:43-45). -/
def trim (s : Str) : Str := trimLeft (trimRight s)

/-- `std::toupper` applied to every character (ini_input.cxx:152-154, 178-179, 231-232). -/
def upper (s : Str) : Str := s.map Char.toUpper

/-- `split` (ini_input.cxx:55-72): the maximal runs of characters that are no delimiters.  The positions
`lastPos`, `pos` become the current run. -/
def split (delim : Char → Bool) : Str → List Str
  | [] => []
  | c :: s =>
    if delim c then split delim s
    else
      match s with
      | [] => [[c]]
      | d :: t =>
        if delim d then [c] :: split delim (d :: t)
        else match split delim (d :: t) with
          | [] => [[c]]
          | w :: ws => (c :: w) :: ws

/-- `std::string::find`, `find_first_not_of` for one character. -/
def findIdx (p : Char → Bool) (s : Str) : Option Nat := s.findIdx? p

/-- `find_last_not_of(" ")` (ini_input.cxx:111). -/
def lastNonSpace (s : Str) : Option Nat :=
  (s.reverse.findIdx? fun c => c != ' ').map fun k => s.length - 1 - k

/-- `std::string::substr(pos, n)`: throws when `pos` is past the end. -/
def substr (s : Str) (pos n : Nat) : Except Err Str :=
  if s.length < pos then .error .outOfRange else .ok ((s.drop pos).take n)

/-- `line.substr(0, comPos)` (ini_input.cxx:121). -/
def cutComment (line : Str) : Option Nat → Str
  | some c => line.take c
  | none => line

/-- The map `dict_` (ini_input.hpp:25-27). -/
abbrev Dict := Str → Option (Str → Option Str)

/-- `dict_[sec][key] = val`, creating the section when it is missing. -/
def Dict.set (d : Dict) (sec key val : Str) : Dict := fun s =>
  if s = sec then some fun k => if k = key then some val else ((d sec).getD fun _ => none) k else d s

/-- `dict_[sec] = {}` -/
def Dict.reset (d : Dict) (sec : Str) : Dict := fun s => if s = sec then some fun _ => none else d s

/-- The variables of `parse` that live across lines (ini_input.cxx:92-96). -/
structure State where
  dict : Dict
  parseSection : Bool
  prevLineData : Bool
  sectionHeader : Str
  dataHeader : Str

/-- One line (ini_input.cxx:99-189). -/
def parseLine (st : State) (line : Str) : Except Err State := do
  if line.length < 1 then return { st with prevLineData := false }
  let first := findIdx (fun c => c != ' ') line
  let last := lastNonSpace line
  let com := findIdx (fun c => c == '#') line
  if com = first then return st
  let f := first.getD 0
  let line := trimRight (cutComment line com)
  let lBrck := findIdx (fun c => c == '[') line
  let rBrck := findIdx (fun c => c == ']') line
  let eqPos := findIdx (fun c => c == '=') line
  let colPos := findIdx (fun c => c == ':') line
  let sectionLine := lBrck = first ∧ rBrck = last
  let dataLine := eqPos ≠ none ∨ colPos ≠ none
  let multiLine := st.prevLineData ∧ line.head? = some ' '
  if sectionLine then
    let line ← substr line f line.length
    let hdr ← substr line 1 (line.length - 2)
    let hdr := upper hdr
    return { st with dict := st.dict.reset hdr, parseSection := true, prevLineData := false,
                     sectionHeader := hdr }
  let (st, line) ← if st.parseSection ∧ dataLine then do
      let line ← substr line f (line.length - f)
      let tokens := (split (fun c => c == '=' || c == ':') line).map trim
      match tokens with
      | [] => Except.error Err.undefined
      | [t] => pure ({ st with dict := st.dict.set st.sectionHeader (upper t) [' '],
                               dataHeader := upper t, prevLineData := true }, line)
      | t :: v :: _ => pure ({ st with dict := st.dict.set st.sectionHeader (upper t) v,
                                       dataHeader := upper t, prevLineData := true }, line)
    else pure (st, line)
  if st.parseSection ∧ multiLine then do
    let line ← substr line f (line.length - f)
    let old := (((st.dict st.sectionHeader).getD fun _ => none) st.dataHeader).getD []
    return { st with dict := st.dict.set st.sectionHeader st.dataHeader (old ++ '\n' :: line) }
  else return st

/-- The lines `std::getline` delivers until the end of the file is reached (ini_input.cxx:99-101). -/
def lines : Str → List Str
  | [] => [[]]
  | c :: s =>
    if c = '\n' then [] :: lines s
    else match lines s with
      | [] => [[c]]
      | l :: ls => (c :: l) :: ls

/-- `INIFile::parse` for a file that could be opened (ini_input.cxx:85-208). -/
def parse (content : Str) : Except Err Dict := do
  let st ← (lines content).foldlM parseLine ⟨fun _ => none, false, false, [], []⟩
  return st.dict

/-- `INIFile::splitQuery` (ini_input.cxx:221-237). -/
def splitQuery (q : Str) : Except Err (Str × Str) :=
  match (split (fun c => c == '.') q).map fun x => upper (trim x) with
  | a :: b :: _ => .ok (a, b)
  | _ => .error .undefined

/-- `INIFile::getData<std::string>` (ini_input.cxx:302-317). -/
def getString (d : Dict) (q : Str) : Except Err Str := do
  let (a, b) ← splitQuery q
  match d a with
  | none => .error .sectionNotFound
  | some m =>
    match m b with
    | none => .error .dataNotFound
    | some v => return v

/-- `INIFile::containsData` (ini_input.hpp:103-107). -/
def containsData (d : Dict) (q : Str) : Except Err Bool := do
  let (a, b) ← splitQuery q
  match d a with
  | none => return false
  | some m => return (m b).isSome

/-- `INIFile::getData<bool>` (ini_input.cxx:339-345). -/
def getBool (d : Dict) (q : Str) : Except Err Bool := do
  let v ← getString d q
  return v == "TRUE".toList || v == "ON".toList

/-- value of a run of decimal digits -/
def digits (s : Str) : Nat := s.foldl (fun n c => 10 * n + (c.toNat - 48)) 0

/-- `std::stoul`, base 10, 64-bit `unsigned long`: leading white space, an optional sign, digits; the rest is
ignored; a negative number wraps around; without digits `std::invalid_argument`, beyond `2^64 - 1`
`std::out_of_range`. -/
def stoul (s : Str) : Except Err Nat :=
  let s := s.dropWhile isSpace
  let (neg, s) := match s with
    | '-' :: t => (true, t)
    | '+' :: t => (false, t)
    | t => (false, t)
  let ds := s.takeWhile Char.isDigit
  if ds = [] then .error .invalidArgument
  else if 2 ^ 64 ≤ digits ds then .error .outOfRange
  else .ok (if neg then (2 ^ 64 - digits ds) % 2 ^ 64 else digits ds)

/-- `INIFile::getData<size_t>` (ini_input.cxx:354-358). -/
def getSize (d : Dict) (q : Str) : Except Err Nat := do
  stoul (← getString d q)

/-- `OPT_KEYWORD(STR, RES, size_t)` (standalone_driver.cxx:106-109). -/
def optSize (d : Dict) (q : Str) (dflt : Nat) : Except Err Nat := do
  if ← containsData d q then getSize d q else return dflt

/-- The active space of the driver. -/
structure Space where
  nalpha : Nat
  nbeta : Nat
  ninactive : Nat
  nactive : Nat
  nvirtual : Nat
  deriving DecidableEq, Repr

/-- The required and active-space keywords with their checks (standalone_driver.cxx:89-92, 130-149);
`size_t` arithmetic wraps. `norb` is what the FCIDUMP file says. -/
def readSpace (d : Dict) (norb : Nat) : Except Err Space := do
  let na ← getSize d "CI.NALPHA".toList
  let nb ← getSize d "CI.NBETA".toList
  if na ≠ nb then Except.error .rejected
  let ni ← optSize d "CI.NINACTIVE".toList 0
  if norb ≤ ni then Except.error .rejected
  let nact ← optSize d "CI.NACTIVE".toList (norb - ni)
  if norb < (ni + nact) % 2 ^ 64 then Except.error .rejected
  let nv := (norb + (2 ^ 64 - nact) + (2 ^ 64 - ni)) % 2 ^ 64
  if 64 / 2 < nact then Except.error .rejected
  return ⟨na, nb, ni, nact, nv⟩

end Macis.Ini
