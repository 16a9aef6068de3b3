import Verif.Model.Fcidump
/-
Several processes that log to the same file: `write_fcidump` (src/macis/fcidump.cxx:184-207) as every rank of the
standalone program runs it (tests/standalone_driver.cxx:413-416: the call is not restricted to one rank).
`spdlog::basic_logger_mt` opens the file for appending; the C library hands the text on in pieces (a full buffer, or the
rest at the end of the process), and the operating system appends each piece as a whole.
-/
namespace Macis

/-- The file, and the pieces each process has still to append. -/
structure LogState where
  file : List Char
  pending : Nat → List (List Char)

/-- One of the `P` processes appends its next piece (fcidump.cxx:186-206, the buffer behind `logger->info`). -/
inductive LogStep (P : Nat) : LogState → LogState → Prop
  | append {s : LogState} {r : Nat} {c : List Char} {cs : List (List Char)} (hr : r < P) (h : s.pending r = c :: cs) :
      LogStep P s ⟨s.file ++ c, Function.update s.pending r cs⟩

/-- A full buffer of `b` characters at a time, the rest at the end. -/
def bufferPieces (b : Nat) : Nat → List Char → List (List Char)
  | 0, _ => []
  | n + 1, text => if text.length ≤ b then [text] else text.take b :: bufferPieces b n (text.drop b)

/-- The text `write_fcidump` logs (fcidump.cxx:190-206). -/
def fcidumpText {R : Type} (io : NumIO R) (norb : Nat) (T : Nat → R) (ldt : Nat) (V : Nat → R) (ldv : Nat) (ecore : R) :
    List Char := (fcidumpLines io norb T ldt V ldv ecore).flatMap fun l => l ++ ['\n']

end Macis
