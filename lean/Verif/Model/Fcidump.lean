import Verif.Model.Text
import Verif.Model.AsciDrive
/-
Model of src/macis/fcidump.cxx.  Text files are lists of characters (a missing file reads like an empty
one); integrals are elements of any type `R` with a printing and a parsing function; arrays behind raw
pointers are functions from addresses to values.
-/
namespace Macis

/-- `split(line, " ")` (fcidump.cxx:19-29): pieces between single spaces, empty ones dropped. -/
def splitTokens (line : List Char) : List (List Char) :=
  (line.splitOnP (· == ' ')).filter (fun t => !t.isEmpty)

/-- `is_float` (fcidump.cxx:31-34). -/
def isFloat (str : List Char) : Bool := str.any fun c => c.isAlpha || c == '.'

/-- One parsed line: indices and value. -/
structure FciEntry (R : Type) where
  p : Nat
  q : Nat
  r : Nat
  s : Nat
  val : R
deriving DecidableEq

/-- `fcidump_line` on the five tokens of a line (fcidump.cxx:36-63); `none`: it throws. -/
def fcidumpLine {R : Type} (io : NumIO R) (t0 t1 t2 t3 t4 : List Char) : Option (FciEntry R) :=
  let idxFirst := isFloat t4
  let intFirst := isFloat t0
  if idxFirst && intFirst then none
  else
    let (a, b, c, d, x) := if idxFirst then (t0, t1, t2, t3, t4) else (t1, t2, t3, t4, t0)
    match stoi a, stoi b, stoi c, stoi d, io.parse x with
    | some p, some q, some r, some s, some v =>
      if p < 0 ∨ q < 0 ∨ r < 0 ∨ s < 0 then none
      else some ⟨p.toNat, q.toNat, r.toNat, s.toNat, v⟩
    | _, _, _, _, _ => none

/-- The body shared by all reading loops (fcidump.cxx:82-86, 97-101, ...): a line without exactly
five tokens is skipped (`some none`), otherwise it is parsed (`none`: throws). -/
def fcidumpRow {R : Type} (io : NumIO R) (line : List Char) : Option (Option (FciEntry R)) :=
  match splitTokens line with
  | [t0, t1, t2, t3, t4] => (fcidumpLine io t0 t1 t2 t3 t4).map some
  | _ => some none

/-- `enum LineClassification` (fcidump.cxx:65). -/
inductive LineClass where
  | core | oneBody | twoBody
deriving DecidableEq

/-- `line_classification` (fcidump.cxx:67-74). -/
def lineClassification (p q r s : Nat) : LineClass :=
  if p = 0 ∧ q = 0 ∧ r = 0 ∧ s = 0 then .core
  else if p ≠ 0 ∧ q ≠ 0 ∧ r ≠ 0 ∧ s ≠ 0 then .twoBody
  else .oneBody

/-- A loop over the lines of the file that folds the parsed entries into a state. -/
def fciLoop {R σ : Type} (io : NumIO R) (step : σ → FciEntry R → Run σ) :
    List (List Char) → σ → Run σ
  | [], st => .ok st
  | l :: ls, st =>
    match fcidumpRow io l with
    | none => .throw
    | some none => fciLoop io step ls st
    | some (some e) => (step st e).bind (fciLoop io step ls)

/-- `read_fcidump_norb` (fcidump.cxx:78-92). -/
def readFcidumpNorb {R : Type} (io : NumIO R) (file : List Char) : Run Nat :=
  fciLoop io (fun m e => .ok (max m (max e.p (max e.q (max e.r e.s))))) (fileLines file) 0

/-- The loop of `read_fcidump_core` (fcidump.cxx:94-108), which returns at the first core line. -/
def readCoreLoop {R : Type} [Zero R] (io : NumIO R) : List (List Char) → Run R
  | [] => .ok 0
  | l :: ls =>
    match fcidumpRow io l with
    | none => .throw
    | some none => readCoreLoop io ls
    | some (some e) =>
      if lineClassification e.p e.q e.r e.s = .core then .ok e.val else readCoreLoop io ls

/-- `read_fcidump_core` (fcidump.cxx:94-108). -/
def readFcidumpCore {R : Type} [Zero R] (io : NumIO R) (file : List Char) : Run R :=
  readCoreLoop io (fileLines file)

/-- store to one address -/
def memSet {R : Type} (m : Nat → R) (a : Nat) (v : R) : Nat → R := fun b => if b = a then v else m b

/-- a sequence of stores -/
def storeAll {R : Type} (m : Nat → R) (ws : List (Nat × R)) : Nat → R :=
  ws.foldl (fun m w => memSet m w.1 w.2) m

/-- Loop body of `read_fcidump_1body` (fcidump.cxx:125-130) for a view with column stride `ld`.
`p--` of a zero index gives `-1`: an access outside the view. -/
def oneBodyStep {R : Type} (ld : Nat) (T : Nat → R) (e : FciEntry R) : Run (Nat → R) :=
  if lineClassification e.p e.q e.r e.s = .oneBody then
    if e.p = 0 ∨ e.q = 0 then .ub
    else
      let p := e.p - 1
      let q := e.q - 1
      .ok (storeAll T [(p + q * ld, e.val), (q + p * ld, e.val)])
  else .ok T

/-- `read_fcidump_1body(fname, span)` (fcidump.cxx:110-132) for an `e0` by `e1` view. -/
def readFcidump1bodySpan {R : Type} (io : NumIO R) (file : List Char) (e0 e1 ld : Nat)
    (T : Nat → R) : Run (Nat → R) :=
  if e0 ≠ e1 then .throw
  else (readFcidumpNorb io file).bind fun norb =>
    if e0 ≠ norb then .throw
    else fciLoop io (oneBodyStep ld) (fileLines file) T

/-- `read_fcidump_1body(fname, T, LDT)` (fcidump.cxx:134-139). -/
def readFcidump1body {R : Type} (io : NumIO R) (file : List Char) (ldt : Nat) (T : Nat → R) :
    Run (Nat → R) :=
  (readFcidumpNorb io file).bind fun norb => readFcidump1bodySpan io file norb norb ldt T

/-- address of element `(i,j,k,l)` of a four-index array with leading dimension `ld` -/
def addr4 (ld i j k l : Nat) : Nat := i + j * ld + k * ld * ld + l * ld * ld * ld

/-- Loop body of `read_fcidump_2body` (fcidump.cxx:158-172). -/
def twoBodyStep {R : Type} (ld : Nat) (V : Nat → R) (e : FciEntry R) : Run (Nat → R) :=
  if lineClassification e.p e.q e.r e.s = .twoBody then
    let p := e.p - 1
    let q := e.q - 1
    let r := e.r - 1
    let s := e.s - 1
    .ok (storeAll V [(addr4 ld p q r s, e.val), (addr4 ld p q s r, e.val),
      (addr4 ld q p r s, e.val), (addr4 ld q p s r, e.val),
      (addr4 ld r s p q, e.val), (addr4 ld s r p q, e.val),
      (addr4 ld r s q p, e.val), (addr4 ld s r q p, e.val)])
  else .ok V

/-- `read_fcidump_2body(fname, span)` (fcidump.cxx:141-174). -/
def readFcidump2bodySpan {R : Type} (io : NumIO R) (file : List Char) (e0 e1 e2 e3 ld : Nat)
    (V : Nat → R) : Run (Nat → R) :=
  if e0 ≠ e1 then .throw
  else if e0 ≠ e2 then .throw
  else if e0 ≠ e3 then .throw
  else (readFcidumpNorb io file).bind fun norb =>
    if e0 ≠ norb then .throw
    else fciLoop io (twoBodyStep ld) (fileLines file) V

/-- `read_fcidump_2body(fname, V, LDV)` (fcidump.cxx:176-182). -/
def readFcidump2body {R : Type} (io : NumIO R) (file : List Char) (ldv : Nat) (V : Nat → R) :
    Run (Nat → R) :=
  (readFcidumpNorb io file).bind fun norb =>
    readFcidump2bodySpan io file norb norb norb norb ldv V

/-- the format string `"{:8} {:8} {:8} {:8} {:25.16e}"` (fcidump.cxx:188) -/
def fciFmt {R : Type} (io : NumIO R) (p q r s : Nat) (x : R) : List Char :=
  padLeft 8 (showNat p) ++ ' ' :: padLeft 8 (showNat q) ++ ' ' :: padLeft 8 (showNat r) ++
    ' ' :: padLeft 8 (showNat s) ++ ' ' :: padLeft 25 (io.fmt x)

/-- The lines logged by `write_fcidump` (fcidump.cxx:190-206), in order. -/
def fcidumpLines {R : Type} (io : NumIO R) (norb : Nat) (T : Nat → R) (ldt : Nat) (V : Nat → R)
    (ldv : Nat) (ecore : R) : List (List Char) :=
  ((List.range norb).flatMap fun i => (List.range norb).flatMap fun j =>
    (List.range norb).flatMap fun k => (List.range norb).map fun l =>
      fciFmt io (i + 1) (j + 1) (k + 1) (l + 1)
        (V (i + j * ldv + k * ldv * ldv + l * ldv * ldv * ldv))) ++
  ((List.range norb).flatMap fun i => (List.range norb).map fun j =>
    fciFmt io (i + 1) (j + 1) 0 0 (T (i + j * ldt))) ++
  [fciFmt io 0 0 0 0 ecore]

/-- What `write_fcidump` depends on in the process: whether a logger named `fcidump` is registered,
the text already in the target file. -/
structure LogWorld where
  registered : Bool
  file : List Char
deriving DecidableEq

/-- `write_fcidump` (fcidump.cxx:184-207).  `spdlog::basic_logger_mt("fcidump", fname)` throws when a
logger of that name exists, and opens the file for appending; the logger stays registered.  The text is
what the file holds once the logger's buffer has been flushed. -/
def writeFcidump {R : Type} (io : NumIO R) (norb : Nat) (T : Nat → R) (ldt : Nat) (V : Nat → R)
    (ldv : Nat) (ecore : R) (w : LogWorld) : Run LogWorld :=
  if w.registered then .throw
  else .ok ⟨true, w.file ++ (fcidumpLines io norb T ldt V ldv ecore).flatMap fun l => l ++ ['\n']⟩

end Macis
