import Verif.Model.Text
import Verif.Model.SD
import Verif.Model.AsciDrive
/-
Model of include/macis/wavefunction_io.hpp.  A file is the list of its characters; a missing file reads
like an empty one.  Coefficients are elements of any type `R` with a printing and a parsing function.
-/
namespace Macis

/-- The line written for one determinant (wavefunction_io.hpp:111-112). -/
def wfnLine {M : Nat} {R : Type} (io : NumIO R) (c : R) (d : BitVec (2 * M)) : List Char :=
  padLeft 30 (io.fmt c) ++ ' ' :: toCanonicalString d ++ [' ']

/-- The header line (wavefunction_io.hpp:108). -/
def wfnHeader (nstates norb nalpha nbeta : Nat) : List Char :=
  showNat nstates ++ ' ' :: showNat norb ++ ' ' :: showNat nalpha ++ ' ' :: showNat nbeta

/-- `write_wavefunction` (wavefunction_io.hpp:94-114): the new contents of the file, or `none` when
the file is not touched (no determinants). -/
def writeWavefunction {M : Nat} {R : Type} (io : NumIO R) (norb : Nat) (states : List (BitVec (2 * M)))
    (coeffs : List R) : Run (Option (List Char)) :=
  if states.length ≠ coeffs.length then .throw
  else match states with
    | [] => .ok none
    | s0 :: _ =>
      let nalpha := count (s0 <<< M)
      let nbeta := count (s0 >>> M)
      let lines := wfnHeader states.length norb nalpha nbeta ::
        List.zipWith (fun c d => wfnLine io c d) coeffs states
      .ok (some (lines.flatMap fun l => l ++ ['\n']))

/-- One round of the reading loop (wavefunction_io.hpp:66-72).  A missing word is an empty string.
`from_canonical_string` throws when an occupied position exceeds the bitset. -/
def readWfnLine (M : Nat) {R : Type} (io : NumIO R) (line : List Char) :
    Option (BitVec (2 * M) × R) :=
  let ws := words line
  match fromCanonicalString M (ws.getD 1 []), io.parse (ws.getD 0 []) with
  | some d, some c => some (d, c)
  | _, _ => none

/-- `read_wavefunction` (wavefunction_io.hpp:39-73).  `states.reserve(nstate)` throws
`std::length_error` for a negative count. -/
def readWavefunction (M : Nat) {R : Type} (io : NumIO R) (file : List Char) :
    Run (List (BitVec (2 * M)) × List R) :=
  let lines := fileLines file
  let hd := words (lines.headD [])
  match stoi (hd.getD 0 []), stoi (hd.getD 1 []), stoi (hd.getD 2 []), stoi (hd.getD 3 []) with
  | some nstate, some _, some _, some _ =>
    if nstate < 0 then .throw
    else match lines.tail.mapM (readWfnLine M io) with
      | some rows => .ok (rows.map Prod.fst, rows.map Prod.snd)
      | none => .throw
  | _, _, _, _ => .throw

end Macis
