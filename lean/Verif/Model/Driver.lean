import Verif.Model.Ini
import Verif.Model.Fcidump
import Verif.Model.RdmBin
import Verif.Model.WfnIO
import Verif.Model.Mp2
import Verif.Model.Mcscf
import Verif.Model.Casci
import Verif.Model.AsciContrib
/-
Model of the standalone program, tests/standalone_driver.cxx, one process without MPI, composed from the
models of everything it calls.

Simplifications: numbers are real numbers; memory is unbounded (`norb^4` does not wrap); the text of files
that cannot be opened is empty, except for the input file, whose contents are a parameter; printing is
reduced to the values printed; LAPACK and the sorting routines are parameters.  An abnormal end of the CI
solver (no convergence, division by zero, too many electrons) is reported as `throw` whatever its kind, and a
growth phase that is not over after `fuel` rounds as `ub`.
-/
namespace Macis
open Ini (Dict Str)

/-- outcomes of the input reader -/
def ofExcept {α : Type} : Except Ini.Err α → Out α
  | .ok a => .ok a
  | .error .undefined => .ub
  | .error _ => .throw

/-- `INIFile::getData<int>` (ini_input.cxx:326-330). -/
def getInt (d : Dict) (q : Str) : Except Ini.Err Int := do
  match stoi (← Ini.getString d q) with
  | some v => return v
  | none => .error .invalidArgument

/-- `INIFile::getData<double>` (ini_input.cxx:381-384). -/
def getDouble (io : NumIO ℝ) (d : Dict) (q : Str) : Except Ini.Err ℝ := do
  match io.parse (← Ini.getString d q) with
  | some v => return v
  | none => .error .invalidArgument

/-- `OPT_KEYWORD(STR, RES, DTYPE)` (standalone_driver.cxx:106-109). -/
def optKey {α : Type} (get : Dict → Str → Except Ini.Err α) (d : Dict) (q : String) (dflt : α) :
    Except Ini.Err α := do
  if ← Ini.containsData d q.toList then get d q.toList else return dflt

/-- `enum class Job` (standalone_driver.cxx:42). -/
inductive Job
  | ci | mcscf
  deriving DecidableEq

/-- `enum class CIExpansion` (standalone_driver.cxx:44). -/
inductive Expansion
  | cas | asci
  deriving DecidableEq

/-- `job_map.at` (standalone_driver.cxx:46, 113-120). -/
def jobOf (s : Str) : Except Ini.Err Job :=
  if s = "CI".toList then .ok .ci else if s = "MCSCF".toList then .ok .mcscf else .error .rejected

/-- `ci_exp_map.at` (standalone_driver.cxx:48-49, 122-129). -/
def expansionOf (s : Str) : Except Ini.Err Expansion :=
  if s = "CAS".toList then .ok .cas else if s = "ASCI".toList then .ok .asci else .error .rejected

/-- Settings of the CI solver (mcscf.hpp:28-30). -/
structure CiSettings where
  resTol : ℝ
  maxSub : Nat
  matelTol : ℝ

/-- The options behind the active space (standalone_driver.cxx:144-247). -/
structure DriverSettings where
  rdmFile : Str
  fciOut : Str
  mc : McSettings
  ci : CiSettings
  asci : AsciSettings ℝ
  contrib : ContribSettings ℝ
  wfnFile : Str
  wfnOut : Str
  /-- `asci_E0` when given -/
  e0 : Option ℝ
  mp2Guess : Bool
  printDets : Bool
  detThresh : ℝ

/-- The optional files (standalone_driver.cxx:144-147). -/
def readFileNames (d : Dict) : Except Ini.Err (Str × Str) := do
  return (← optKey Ini.getString d "CI.RDMFILE" [], ← optKey Ini.getString d "CI.FCIDUMP_OUT" [])

/-- The MCSCF keywords (standalone_driver.cxx:151-168) with the defaults of mcscf.hpp:15-30. -/
noncomputable def readMcscf (io : NumIO ℝ) (d : Dict) : Except Ini.Err (McSettings × CiSettings) := do
  let maxIter ← optKey Ini.getSize d "MCSCF.MAX_MACRO_ITER" 100
  let step ← optKey (getDouble io) d "MCSCF.MAX_ORB_STEP" (1 / 2)
  let tol ← optKey (getDouble io) d "MCSCF.MCSCF_ORB_TOL" (5 / 1000000)
  let diis ← optKey Ini.getBool d "MCSCF.ENABLE_DIIS" true
  let start ← optKey Ini.getSize d "MCSCF.DIIS_START_ITER" 3
  let nkeep ← optKey Ini.getSize d "MCSCF.DIIS_NKEEP" 10
  let res ← optKey (getDouble io) d "MCSCF.CI_RES_TOL" (1 / 100000000)
  let sub ← optKey Ini.getSize d "MCSCF.CI_MAX_SUB" 20
  let matel ← optKey (getDouble io) d "MCSCF.CI_MATEL_TOL" (1 / 2 ^ 52)
  return (⟨maxIter, step, tol, diis, start, nkeep⟩, ⟨res, sub, matel⟩)

/-- conversion of an `int` to `size_t` -/
def intToSize (i : Int) : Nat := (i % 2 ^ 64).toNat

/-- The ASCI keywords (standalone_driver.cxx:170-196) with the defaults of determinant_search.hpp:34-51. -/
noncomputable def readAsci (io : NumIO ℝ) (d : Dict) :
    Except Ini.Err (AsciSettings ℝ × ContribSettings ℝ × Str × Str × Option ℝ) := do
  let tmax ← optKey Ini.getSize d "ASCI.NTDETS_MAX" 100000
  let tmin ← optKey Ini.getSize d "ASCI.NTDETS_MIN" 100
  let cmax ← optKey Ini.getSize d "ASCI.NCDETS_MAX" 100
  let hel ← optKey (getDouble io) d "ASCI.HAM_EL_TOL" (1 / 100000000)
  let rv ← optKey (getDouble io) d "ASCI.RV_PRUNE_TOL" (1 / 100000000)
  let pair ← optKey Ini.getSize d "ASCI.PAIR_MAX_LIM" 500000000
  let grow ← optKey (fun d q => do return intToSize (← getInt d q)) d "ASCI.GROW_FACTOR" 8
  let refine ← optKey Ini.getSize d "ASCI.MAX_REFINE_ITER" 6
  let etol ← optKey (getDouble io) d "ASCI.REFINE_ETOL" (1 / 1000000)
  let rot ← optKey Ini.getBool d "ASCI.GROW_WITH_ROT" false
  let rotStart ← optKey Ini.getSize d "ASCI.ROT_SIZE_START" 1000
  let lvl ← optKey getInt d "ASCI.CONSTRAINT_LVL" 2
  let wfn ← optKey Ini.getString d "ASCI.WFN_FILE" []
  let wfnOut ← optKey Ini.getString d "ASCI.WFN_OUT_FILE" []
  let e0 ← optKey (fun d q => do return some (← getDouble io d q)) d "ASCI.E0_WFN" none
  return (⟨tmax, tmin, cmax, grow, refine, etol, rot, rotStart⟩, ⟨hel, rv, pair, false, lvl.toNat⟩, wfn, wfnOut, e0)

/-- The print keywords (standalone_driver.cxx:225-237); only the last two matter outside the log. -/
noncomputable def readPrint (io : NumIO ℝ) (d : Dict) : Except Ini.Err (Bool × ℝ) := do
  let _ ← optKey Ini.getBool d "PRINT.DAVIDSON" false
  let _ ← optKey Ini.getBool d "PRINT.CI" false
  let _ ← optKey Ini.getBool d "PRINT.MCSCF" true
  let _ ← optKey Ini.getBool d "PRINT.DIIS" false
  let _ ← optKey Ini.getBool d "PRINT.ASCI_SEARCH" false
  let p ← optKey Ini.getBool d "PRINT.DETERMINANTS" false
  let t ← optKey (getDouble io) d "PRINT.DETERMINANTS_THRES" (1 / 100)
  return (p, t)

/-- Everything read from the input file after the FCIDUMP file (standalone_driver.cxx:111-237).  `NALPHA` and
`NBETA` are read a second time with the active space; they are the same. -/
noncomputable def readOptions (io : NumIO ℝ) (d : Dict) (norb : Nat) :
    Except Ini.Err (Job × Expansion × Ini.Space × DriverSettings) := do
  let job ← jobOf (← optKey Ini.getString d "CI.JOB" "MCSCF".toList)
  let exp ← expansionOf (← optKey Ini.getString d "CI.EXPANSION" "CAS".toList)
  let space ← Ini.readSpace d norb
  let (rdm, fci) ← readFileNames d
  let (mc, ci) ← readMcscf io d
  let (asci, contrib, wfn, wfnOut, e0) ← readAsci io d
  let mp2 ← optKey Ini.getBool d "MCSCF.MP2_GUESS" false
  let (pd, pt) ← readPrint io d
  return (job, exp, space, ⟨rdm, fci, mc, ci, asci, contrib, wfn, wfnOut, e0, mp2, pd, pt⟩)

/-- The integrals read from the FCIDUMP file (standalone_driver.cxx:94-104): number of orbitals, core energy,
`T`, `V`. -/
structure FciData where
  norb : Nat
  core : ℝ
  T : Nat → ℝ
  V : Nat → ℝ

/-- Reading the FCIDUMP file into arrays filled with zeros (standalone_driver.cxx:94-104). -/
noncomputable def readIntegrals (io : NumIO ℝ) (file : List Char) : Run FciData :=
  (readFcidumpNorb io file).bind fun norb =>
  (readFcidumpCore io file).bind fun core =>
  (readFcidump1body io file norb fun _ => 0).bind fun T =>
  (readFcidump2body io file norb fun _ => 0).bind fun V => .ok ⟨norb, core, T, V⟩

/-- What the program calls or reads and is not modelled as code. -/
structure DriverEnv where
  io : NumIO ℝ
  /-- contents of a text file by name -/
  text : Str → List Char
  /-- a binary RDM file by name -/
  rdmFile : Str → Option (RdmFile ℝ)
  /-- lowest eigenpair of the Davidson subspace matrix -/
  eig : Nat → (Nat → Nat → ℝ) → ℝ × (Nat → ℝ)
  /-- `lapack::syev(Vec, Lower, n, A, lda, W)`: the arrays it leaves behind -/
  syev : Nat → (Nat → ℝ) → Nat → (Nat → ℝ) × (Nat → ℝ)
  gelss : Nat → (Nat → ℝ) → Nat → ℝ
  /-- the sorting routines of the determinant search -/
  srtIdx : List ℝ → List Nat → List Nat
  srt : List (Contrib (2 * 32) ℝ) → List (Contrib (2 * 32) ℝ)
  part : List (Contrib (2 * 32) ℝ) → List (Contrib (2 * 32) ℝ)
  nth : Nat → List (Contrib (2 * 32) ℝ) → List (Contrib (2 * 32) ℝ)
  /-- rounds of the growth phase that are followed -/
  fuel : Nat

/-- the array behind a matrix view with leading dimension `n` (elements outside the view are not read) -/
def flat2 (n : Nat) (A : Nat → Nat → ℝ) : Nat → ℝ := fun m => A (m % n) (m / n)

/-- the array behind a rank-4 view with leading dimension `n` -/
def flat4 (n : Nat) (A : Nat → Nat → Nat → Nat → ℝ) : Nat → ℝ :=
  fun m => A (m % n) (m / n % n) (m / (n * n) % n) (m / (n * n * n))

/-- views of two arrays with leading dimension `n` -/
def viewInts (n : Nat) (T V : Nat → ℝ) : Integrals ℝ :=
  ⟨n, fun p q => T (p + q * n), fun p q r s => V (addr4 n p q r s)⟩

/-- `CASRDMFunctor::rdms` (cas.hpp:66-72, 32-63) on arrays, 64 determinant bits: energy, RDM arrays, CI vector.
The returned vector has one entry per determinant. -/
noncomputable def casRdms (eig : Nat → (Nat → Nat → ℝ) → ℝ × (Nat → ℝ)) (ci : CiSettings) (n nalpha nbeta : Nat)
    (Ta Va A1 A2 : Nat → ℝ) (C : List ℝ) : Out (ℝ × (Nat → ℝ) × (Nat → ℝ) × List ℝ) :=
  match computeCasciRdms 32 eig (viewInts n Ta Va) nalpha nbeta ci.matelTol ci.maxSub ci.resTol C
      ⟨fun p q => A1 (p + q * n), fun p q r s => A2 (addr4 n p q r s)⟩,
    generateHilbertSpace 32 n nalpha nbeta with
  | some r, some dets =>
    .ok (r.E0, flat2 n r.rdms.ordm, flat4 n r.rdms.trdm, (List.range dets.length).map r.C)
  | _, _ => .throw

/-- The state of the Hamiltonian generator that the ASCI routines change: the arrays `T`, `V`. -/
structure GenState where
  T : Nat → ℝ
  V : Nat → ℝ

/-- Natural-orbital rotation of the integrals (grow.hpp:71-122): all elements of the 1-RDM change sign, the
eigenvectors replace it, and the integrals are transformed in place. -/
noncomputable def asciRotate (syev : Nat → (Nat → ℝ) → Nat → (Nat → ℝ) × (Nat → ℝ)) (norb : Nat)
    (h : GenState) (wfn : List (BitVec (2 * 32))) (X : List ℝ) : GenState :=
  let r := formRdms wfn wfn (fun i => X.getD i 0) true ⟨fun _ _ => 0, fun _ _ _ _ => 0⟩
  let C := (syev norb (fun m => flat2 norb r.ordm m * (-1)) norb).1
  ⟨twoIndexTransform norb norb h.T norb C norb h.T norb, fourIndexTransform norb norb h.V norb C norb h.V norb⟩

/-- What `asci_grow` and `asci_refine` call in the program (determinant_search.hpp:394-663,
selected_ci_diag.hpp:124-207, grow.hpp:67-154). -/
noncomputable def asciEnv (env : DriverEnv) (o : DriverSettings) (norb : Nat) :
    AsciEnv (2 * 32) ℝ GenState where
  srtIdx := env.srtIdx
  search h ndets cdets E0 C :=
    asciSearchSerial (viewInts norb h.T h.V) o.contrib norb E0 env.srt env.part env.nth ndets cdets C
  diag h dets :=
    match selectedCiDiag env.eig (viewInts norb h.T h.V) dets o.ci.matelTol o.ci.maxSub o.ci.resTol [] with
    | .converged _ E x => some (E, (List.range dets.length).map x)
    | _ => none
  rotate h wfn X := asciRotate env.syev norb h wfn X

/-- `E0` of a wave function from a file (standalone_driver.cxx:317-325); `C[jj]` beyond the end is undefined. -/
noncomputable def guessEnergy (I : Integrals ℝ) (dets : List (BitVec (2 * 32))) (C : List ℝ) : Out ℝ :=
  if C.length < dets.length then .ub
  else .ok (((List.range dets.length).map fun i => C.getD i 0 *
    ((List.range dets.length).map fun j => I.matrixElement (dets.getD i 0) (dets.getD j 0) * C.getD j 0).sum).sum)

/-- The guess of an ASCI calculation (standalone_driver.cxx:307-337). -/
noncomputable def asciGuess (env : DriverEnv) (o : DriverSettings) (I : Integrals ℝ) (nalpha : Nat)
    (eCore eInactive : ℝ) : Out (ℝ × List (BitVec (2 * 32)) × List ℝ) :=
  if o.wfnFile ≠ [] then
    (readWavefunction 32 env.io (env.text o.wfnFile)).toOut.bind fun (dets, C) =>
      match o.e0 with
      | none => (guessEnergy I dets C).bind fun E0 => .ok (E0, dets, C)
      | some e => .ok (e - eCore - eInactive, dets, C)
  else
    let hf := canonicalHF 32 (nalpha % 2 ^ 32) (nalpha % 2 ^ 32)
    .ok (I.matrixElement hf hf, [hf], [1])

/-- What the program leaves behind. -/
structure DriverOut where
  eCore : ℝ
  eInactive : ℝ
  /-- `E(CI)`, the last energy printed -/
  eCI : ℝ
  /-- `E(RDM)` when printed -/
  eRDM : Option ℝ
  /-- the printed leading determinants -/
  dets : List (BitVec (2 * 32) × ℝ)
  /-- new contents of `WFN_OUT_FILE`, if it is written -/
  wfnOut : Option (List Char)
  /-- lines of the `FCIDUMP_OUT` file, if it is written -/
  fciOut : Option (List (List Char))

/-- the energies, printed determinants and written wave function of the CI/MCSCF part -/
structure CalcOut where
  eCI : ℝ
  eRDM : Option ℝ
  dets : List (BitVec (2 * 32) × ℝ)
  wfnOut : Option (List Char)

/-- CAS-CI (standalone_driver.cxx:281-305). -/
noncomputable def runCas (env : DriverEnv) (o : DriverSettings) (sp : Ini.Space) (eCore eInactive : ℝ)
    (Ta Va : Nat → ℝ) : Out CalcOut :=
  let z : Nat → ℝ := fun _ => 0
  (casRdms env.eig o.ci sp.nactive sp.nalpha sp.nbeta Ta Va z z []).bind fun (E0, _, _, C) =>
    let all := (generateHilbertSpace 32 sp.nactive sp.nalpha sp.nbeta).getD []
    let shown := if o.printDets then (all.zip C).filter fun x => o.detThresh < |x.2| else []
    .ok ⟨E0 + (eInactive + eCore), none, shown, none⟩

/-- ASCI (standalone_driver.cxx:306-369). -/
noncomputable def runAsci (env : DriverEnv) (o : DriverSettings) (sp : Ini.Space) (eCore eInactive : ℝ)
    (Ta Va : Nat → ℝ) : Out CalcOut :=
  let na := sp.nactive
  (asciGuess env o (viewInts na Ta Va) sp.nalpha eCore eInactive).bind fun (E0, dets, C) =>
  (asciGrow (asciEnv env o na) o.asci env.fuel ⟨Ta, Va⟩ E0 dets C).toOut.bind fun g =>
  (if o.asci.maxRefineIter ≠ 0 then
      (asciRefine (asciEnv env o na) o.asci g.h g.E0 g.wfn g.X).toOut.bind fun (Es, dets, C) =>
        .ok (Es.headD 0, dets, C)
    else .ok (g.E0, g.wfn, g.X)).bind fun (E0, dets, C) =>
  (if o.wfnOut ≠ [] then (writeWavefunction env.io na dets C).toOut else .ok none).bind fun w =>
    .ok ⟨E0 + (eInactive + eCore), none, [], w⟩

/-- MCSCF (standalone_driver.cxx:382-416): the RDMs of a file, its energy, then `casscf_diis`
(casscf.cxx:16-28). -/
noncomputable def runMcscf (env : DriverEnv) (o : DriverSettings) (sp : Ini.Space) (f : FciData)
    (eInactive : ℝ) (Ta Va : Nat → ℝ) : Out CalcOut :=
  let z : Nat → ℝ := fun _ => 0
  let na := sp.nactive
  let start : Out (Option ℝ × (Nat → ℝ) × (Nat → ℝ)) :=
    if o.rdmFile ≠ [] then
      let r := readRdmsBinary (env.rdmFile o.rdmFile) f.norb z f.norb z f.norb
      r.1.toOut.bind fun _ =>
        let A1 := activeSubmatrix1body na sp.ninactive r.2.1 f.norb z na
        let A2 := activeSubtensor2body na sp.ninactive r.2.2 f.norb z na
        .ok (some (dotN (na * na) A1 Ta + dotN (na * na * (na * na)) A2 Va + eInactive + f.core), A1, A2)
    else .ok (none, z, z)
  start.bind fun (eRDM, A1, A2) =>
    (mcscf ⟨casRdms env.eig o.ci na sp.nalpha sp.nbeta, env.gelss⟩ o.mc
      ⟨sp.nalpha, sp.nbeta, sp.ninactive, na, sp.nvirtual, f.norb, f.core, f.T, f.norb, f.V, f.norb, na, na⟩
      [] A1 A2).bind fun s => .ok ⟨s.E0, eRDM, [], none⟩

/-- The MP2 guess orbitals (standalone_driver.cxx:246-266): the integrals in the natural orbitals.  With more
occupied orbitals than there are, `nvir_canon` wraps around. -/
noncomputable def mp2Guess (env : DriverEnv) (nocc : Nat) (f : FciData) : Out FciData :=
  if f.norb < nocc then .ub
  else
    let C := (mp2NaturalOrbitals env.syev f.norb nocc (f.norb - nocc) f.T f.norb f.V f.norb (fun _ => 0) f.norb).2
    .ok { f with
      T := twoIndexTransform f.norb f.norb f.T f.norb C f.norb f.T f.norb
      V := fourIndexTransform f.norb f.norb f.V f.norb C f.norb f.V f.norb }

/-- From the integrals on (standalone_driver.cxx:246-424). -/
noncomputable def runJob (env : DriverEnv) (job : Job) (exp : Expansion) (sp : Ini.Space) (o : DriverSettings)
    (f : FciData) : Out DriverOut :=
  (if o.mp2Guess then mp2Guess env ((sp.ninactive + sp.nalpha) % 2 ^ 64) f else .ok f).bind fun f =>
  let z : Nat → ℝ := fun _ => 0
  let (Fi, Ta, Va) := activeHamiltonian f.norb sp.nactive sp.ninactive f.T f.norb f.V f.norb z f.norb z sp.nactive z
    sp.nactive
  let eInactive := inactiveEnergy sp.ninactive f.T f.norb Fi f.norb
  (match job, exp with
    | .ci, .cas => runCas env o sp f.core eInactive Ta Va
    | .ci, .asci => runAsci env o sp f.core eInactive Ta Va
    | .mcscf, _ => runMcscf env o sp f eInactive Ta Va).bind fun r =>
  .ok ⟨f.core, eInactive, r.eCI, r.eRDM, r.dets, r.wfnOut,
    if o.fciOut ≠ [] then some (fcidumpLines env.io f.norb f.T f.norb f.V f.norb f.core) else none⟩

/-- The program run on an input file with the contents `input` (standalone_driver.cxx:80-424). -/
noncomputable def driver (env : DriverEnv) (input : List Char) : Out DriverOut :=
  (ofExcept (Ini.parse input)).bind fun d =>
  (ofExcept (Ini.getString d "CI.FCIDUMP".toList)).bind fun name =>
  (ofExcept (Ini.getSize d "CI.NALPHA".toList)).bind fun na =>
  (ofExcept (Ini.getSize d "CI.NBETA".toList)).bind fun nb =>
  if na ≠ nb then .throw
  else
    (readIntegrals env.io (env.text name)).toOut.bind fun f =>
    (ofExcept (readOptions env.io d f.norb)).bind fun (job, exp, sp, o) =>
    runJob env job exp sp o f

end Macis
