import Verif.Model.Driver
import Verif.Spec.Driver
import Verif.Spec.AsciDrive
/-
What is required of the libraries and files the standalone program uses.
-/
namespace Macis.Spec
open Macis

/-- The input file `input` names an FCIDUMP file with the entries `es` and asks for the calculation `job`, `exp`
in the active space `sp` with the settings `o`. -/
def Asks (env : DriverEnv) (input : List Char) (es : List (FciEntry ℝ)) (job : Job) (exp : Expansion)
    (sp : Ini.Space) (o : DriverSettings) : Prop :=
  ∃ d name, Ini.parse input = .ok d ∧ Ini.getString d "CI.FCIDUMP".toList = .ok name ∧
    Entries env.io (fileLines (env.text name)) es ∧ (∀ e ∈ es, Standard e) ∧
    readOptions env.io d (maxIdx es) = .ok (job, exp, sp, o)

/-- the library's sorting routines do what they are specified to do -/
structure SortsOk (env : DriverEnv) : Prop where
  idx : SortsCoeffs env.srtIdx
  srt : SortsBy (fun x y => bitsetLess x.state y.state) env.srt
  part : Rearranges env.part
  nth : NthElement (fun p : Contrib (2 * 32) ℝ => |p.rv|) env.nth

/-- A wave function file, if one is named, has different determinants with the right numbers of electrons, and they are
followed by at least one growth or refinement step. -/
def GuessFile (env : DriverEnv) (o : DriverSettings) (n na nb : Nat) : Prop :=
  o.wfnFile ≠ [] → ∀ dets C, readWavefunction 32 env.io (env.text o.wfnFile) = .ok (dets, C) →
    InSector n na nb dets ∧ (dets.length < o.asci.ntdetsMax ∨ o.asci.maxRefineIter ≠ 0)

end Macis.Spec
