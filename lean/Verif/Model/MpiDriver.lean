import Verif.Model.MpiIter
/-
An ASCI calculation of the standalone program (tests/standalone_driver.cxx) on several ranks.  Every rank reads the
same files and computes the same guess by itself; the ranks meet in `asci_grow` and `asci_refine`.

Simplification: a rank's files are those of every other rank.
-/
namespace Macis

/-- What a rank has when it enters `asci_grow` (standalone_driver.cxx:246-341): the integrals of the FCIDUMP file (in
the guess orbitals), the inactive energy, the active-space Hamiltonian, `E0`, `dets`, `C`. -/
structure AsciJob where
  f : FciData
  eInactive : ℝ
  h : GenState
  E0 : ℝ
  dets : List (BitVec (2 * 32))
  C : List ℝ

/-- The input and FCIDUMP files (standalone_driver.cxx:80-244): what is asked for, and the integrals. -/
noncomputable def readJob (env : DriverEnv) (input : List Char) :
    Out (Job × Expansion × Ini.Space × DriverSettings × FciData) :=
  (ofExcept (Ini.parse input)).bind fun d =>
  (ofExcept (Ini.getString d "CI.FCIDUMP".toList)).bind fun name =>
  (ofExcept (Ini.getSize d "CI.NALPHA".toList)).bind fun na =>
  (ofExcept (Ini.getSize d "CI.NBETA".toList)).bind fun nb =>
  if na ≠ nb then .throw
  else
    (readIntegrals env.io (env.text name)).toOut.bind fun f =>
    (ofExcept (readOptions env.io d f.norb)).bind fun (job, exp, sp, o) => .ok (job, exp, sp, o, f)

/-- From the integrals to the guess of an ASCI calculation (standalone_driver.cxx:246-341). -/
noncomputable def asciJob (env : DriverEnv) (sp : Ini.Space) (o : DriverSettings) (f : FciData) : Out AsciJob :=
  (if o.mp2Guess then mp2Guess env ((sp.ninactive + sp.nalpha) % 2 ^ 64) f else .ok f).bind fun f =>
  let z : Nat → ℝ := fun _ => 0
  let (Fi, Ta, Va) := activeHamiltonian f.norb sp.nactive sp.ninactive f.T f.norb f.V f.norb z f.norb z sp.nactive z
    sp.nactive
  let eInactive := inactiveEnergy sp.ninactive f.T f.norb Fi f.norb
  (asciGuess env o (viewInts sp.nactive Ta Va) sp.nalpha f.core eInactive).bind fun (E0, dets, C) =>
    .ok ⟨f, eInactive, ⟨Ta, Va⟩, E0, dets, C⟩

/-- The end of the program on rank `r` (standalone_driver.cxx:356-369, 411-424): the energy, the wave-function file
written by rank 0 only, the FCIDUMP file written by every rank (see C164 for the file that results). -/
noncomputable def rankEnd (env : DriverEnv) (sp : Ini.Space) (o : DriverSettings) (j : AsciJob) (r : Nat) (E0 : ℝ)
    (dets : List (BitVec (2 * 32))) (C : List ℝ) : Out DriverOut :=
  (if o.wfnOut ≠ [] ∧ r = 0 then (writeWavefunction env.io sp.nactive dets C).toOut else .ok none).bind fun w =>
    .ok ⟨j.f.core, j.eInactive, E0 + (j.eInactive + j.f.core), none, [], w,
      if o.fciOut ≠ [] then some (fcidumpLines env.io j.f.norb j.f.T j.f.norb j.f.V j.f.norb j.f.core) else none⟩

/-- Growth and refinement (standalone_driver.cxx:343-355) around a search and a diagonalisation. -/
noncomputable def asciPhases (e : AsciEnv (2 * 32) ℝ GenState) (s : AsciSettings ℝ) (fuel : Nat) (j : AsciJob) :
    Out (ℝ × List (BitVec (2 * 32)) × List ℝ) :=
  (asciGrow e s fuel j.h j.E0 j.dets j.C).toOut.bind fun g =>
  if s.maxRefineIter ≠ 0 then
    (asciRefine e s g.h g.E0 g.wfn g.X).toOut.bind fun (Es, dets, C) => .ok (Es.headD 0, dets, C)
  else .ok (g.E0, g.wfn, g.X)

namespace Mpi

/-- What the program calls on several ranks and not on one. -/
structure RankEnv where
  P : Nat
  draw : Nat → Nat
  partS : Nat → Nat → List ℝ → List ℝ
  nthS : Nat → Nat → List ℝ → List ℝ
  avg : List (BitVec (2 * 32)) → Nat
  partC : List (WfnConstraint (2 * 32) × Nat) → List (WfnConstraint (2 * 32) × Nat)
  sortC : List (WfnConstraint (2 * 32) × Nat) → List (WfnConstraint (2 * 32) × Nat)

/-- the arguments of `asci_grow` and `asci_refine` that do not change (standalone_driver.cxx:344-354) -/
noncomputable def rankPar (env : DriverEnv) (re : RankEnv) (o : DriverSettings) (norb : Nat) : AsciPar 32 where
  P := re.P
  norb := norb
  asci := o.asci
  contrib := o.contrib
  ci := o.ci
  srtIdx := env.srtIdx
  srt := env.srt
  part := env.part
  draw := re.draw
  partS := re.partS
  nthS := re.nthS
  avg := re.avg
  partC := re.partC
  sortC := re.sortC
  eig := env.eig
  rotate := asciRotate env.syev norb

/-- the energies start anew (refine.hpp:38-42) -/
def refineStart {M : Nat} (m : AsciMem M) : AsciMem M := { m with energies := [m.E0] }

/-- Growth, then refinement of as many determinants as there are (standalone_driver.cxx:343-355) on rank `r`;
`garbage` is what is in freshly allocated memory. -/
noncomputable def asciProg {M : Nat} (a : AsciPar M) (r fuel : Nat) (garbage garbage' : Nat → Nat → Nat → ℝ)
    (rounds : Nat) : List (Instr (AsciMem M) (AsciMsg M)) :=
  growProg a r fuel garbage rounds ++
  andThen (if a.asci.maxRefineIter ≠ 0 then
    comps [refineStart] ++ [.dyn fun m => refineProg a r fuel m.wfn.length garbage' a.asci.maxRefineIter]
  else [])

/-- All ranks enter `asci_grow` with what they have read and computed. -/
noncomputable def jobWorld (a : AsciPar 32) (j : AsciJob) (fuel rounds : Nat)
    (garbage garbage' : Nat → Nat → Nat → Nat → ℝ) (mem : Nat → AsciMem 32) : World (AsciMem 32) (AsciMsg 32) :=
  asciWorld a (fun r => asciProg a r fuel (garbage r) (garbage' r) rounds) j.h j.E0 j.dets j.C mem

end Mpi
end Macis
