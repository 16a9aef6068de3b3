/-! Reference meaning of the driver's input files: a list of lines, each a blank line, a comment, a section
header, an option, an option without a value or the continuation of an option. -/
namespace Macis.Spec.Ini

abbrev Str := List Char

/-- the white space characters of C -/
def Space (c : Char) : Prop := c ∈ [' ', '\t', '\n', '\x0b', '\x0c', '\r']

instance (c : Char) : Decidable (Space c) :=
  inferInstanceAs (Decidable (c ∈ [' ', '\t', '\n', '\x0b', '\x0c', '\r']))

/-- a non-empty text that neither starts nor ends with white space -/
def Tight (s : Str) : Prop := s ≠ [] ∧ (∀ c, s.head? = some c → ¬ Space c) ∧ (∀ c, s.getLast? = some c → ¬ Space c)

/-- the lines of an input file; numbers count spaces -/
inductive Line
  | blank (n : Nat)
  | comment (n : Nat) (text : Str)
  | header (n : Nat) (name : Str) (m : Nat)
  | option (key : Str) (s1 : Nat) (sep : Char) (s2 : Nat) (value : Str) (s3 : Nat) (note : Option Str)
  | bare (key : Str) (s1 : Nat) (sep : Char) (s2 : Nat) (note : Option Str)
  | continuation (n : Nat) (text : Str) (m : Nat) (note : Option Str)

def spaces (n : Nat) : Str := List.replicate n ' '

def noteText : Option Str → Str
  | none => []
  | some t => '#' :: t

/-- how a line is written -/
def Line.text : Line → Str
  | .blank n => spaces n
  | .comment n t => spaces n ++ '#' :: t
  | .header n name m => spaces n ++ '[' :: (name ++ ']' :: spaces m)
  | .option key s1 sep s2 value s3 note =>
    key ++ (spaces s1 ++ sep :: (spaces s2 ++ (value ++ (spaces s3 ++ noteText note))))
  | .bare key s1 sep s2 note => key ++ (spaces s1 ++ sep :: (spaces s2 ++ noteText note))
  | .continuation n t m note => spaces (n + 1) ++ (t ++ (spaces m ++ noteText note))

/-- which texts may stand where -/
def Line.WF : Line → Prop
  | .blank _ => True
  | .comment _ t => '\n' ∉ t
  | .header _ name _ => ']' ∉ name ∧ '#' ∉ name ∧ '\n' ∉ name
  | .option key _ sep _ value _ note =>
    Tight key ∧ (∀ c ∈ key, c ∉ ['=', ':', '#', '\n']) ∧ key.head? ≠ some '[' ∧ sep ∈ ['=', ':'] ∧
    Tight value ∧ (∀ c ∈ value, c ∉ ['=', ':', '#', '\n']) ∧ ∀ t, note = some t → '\n' ∉ t
  | .bare key _ sep _ note =>
    Tight key ∧ (∀ c ∈ key, c ∉ ['=', ':', '#', '\n']) ∧ key.head? ≠ some '[' ∧ sep ∈ ['=', ':'] ∧
    ∀ t, note = some t → '\n' ∉ t
  | .continuation _ t _ note =>
    Tight t ∧ (∀ c ∈ t, c ∉ ['=', ':', '#', '\n']) ∧ t.head? ≠ some '[' ∧ ∀ u, note = some u → '\n' ∉ u

/-- the file with these lines -/
def file (ls : List Line) : Str := ls.flatMap fun l => l.text ++ ['\n']

def up (s : Str) : Str := s.map Char.toUpper

/-- what has been read so far: the value of every option of every section seen, the current section, and
the option that a continuation would extend -/
structure Read where
  value : Str → Option (Str → Option Str)
  current : Option Str
  extend : Option Str

/-- an option is given a value; outside all sections nothing happens -/
def Read.assign (r : Read) (key value : Str) : Read :=
  match r.current with
  | none => r
  | some sec =>
    { r with
      value := fun s => if s = sec then
          some fun k => if k = up key then some value else (r.value s).bind fun m => m k
        else r.value s
      extend := some (up key) }

/-- the meaning of a line; an option without a value has the value of one space -/
def Read.line (r : Read) : Line → Read
  | .blank 0 => { r with extend := none }
  | .blank (_ + 1) => r
  | .comment _ _ => r
  | .header _ name _ =>
    { value := fun s => if s = up name then some fun _ => none else r.value s
      current := some (up name)
      extend := none }
  | .option key _ _ _ value _ _ => r.assign key value
  | .bare key _ _ _ _ => r.assign key [' ']
  | .continuation _ t _ _ =>
    match r.current, r.extend with
    | some sec, some key =>
      { r with
        value := fun s => if s = sec then
            some fun k => if k = key then
                some ((((r.value s).bind fun m => m k).getD []) ++ '\n' :: t)
              else (r.value s).bind fun m => m k
          else r.value s }
    | _, _ => r

/-- the meaning of a file -/
def meaning (ls : List Line) : Str → Option (Str → Option Str) :=
  (ls.foldl Read.line ⟨fun _ => none, none, none⟩).value

end Macis.Spec.Ini
