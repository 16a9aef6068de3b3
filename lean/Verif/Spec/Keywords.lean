import Verif.Spec.Ini
import Verif.Model.Driver
/-! The optional keywords of the standalone program: section, name, default and the setting they stand for. -/
namespace Macis.Spec
open Macis Spec.Ini

/-- what the file says for a keyword -/
def given (ls : List Line) (sec key : String) : Option Str := (meaning ls sec.toList).bind fun m => m key.toList

structure Keyword (α : Type) where
  sec : String
  key : String
  dflt : α
  setting : DriverSettings → α

def countKeywords : List (Keyword Nat) := [
  ⟨"MCSCF", "MAX_MACRO_ITER", 100, fun o => o.mc.maxMacroIter⟩,
  ⟨"MCSCF", "DIIS_START_ITER", 3, fun o => o.mc.diisStart⟩,
  ⟨"MCSCF", "DIIS_NKEEP", 10, fun o => o.mc.diisNkeep⟩,
  ⟨"MCSCF", "CI_MAX_SUB", 20, fun o => o.ci.maxSub⟩,
  ⟨"ASCI", "NTDETS_MAX", 100000, fun o => o.asci.ntdetsMax⟩,
  ⟨"ASCI", "NTDETS_MIN", 100, fun o => o.asci.ntdetsMin⟩,
  ⟨"ASCI", "NCDETS_MAX", 100, fun o => o.asci.ncdetsMax⟩,
  ⟨"ASCI", "PAIR_MAX_LIM", 500000000, fun o => o.contrib.pairSizeMax⟩,
  ⟨"ASCI", "MAX_REFINE_ITER", 6, fun o => o.asci.maxRefineIter⟩,
  ⟨"ASCI", "ROT_SIZE_START", 1000, fun o => o.asci.rotSizeStart⟩]

noncomputable def realKeywords : List (Keyword ℝ) := [
  ⟨"MCSCF", "MAX_ORB_STEP", 0.5, fun o => o.mc.maxStep⟩,
  ⟨"MCSCF", "MCSCF_ORB_TOL", 5e-6, fun o => o.mc.tol⟩,
  ⟨"MCSCF", "CI_RES_TOL", 1e-8, fun o => o.ci.resTol⟩,
  ⟨"MCSCF", "CI_MATEL_TOL", 1 / 2 ^ 52, fun o => o.ci.matelTol⟩,
  ⟨"ASCI", "HAM_EL_TOL", 1e-8, fun o => o.contrib.hElTol⟩,
  ⟨"ASCI", "RV_PRUNE_TOL", 1e-8, fun o => o.contrib.rvPruneTol⟩,
  ⟨"ASCI", "REFINE_ETOL", 1e-6, fun o => o.asci.refineEnergyTol⟩,
  ⟨"PRINT", "DETERMINANTS_THRES", 1e-2, fun o => o.detThresh⟩]

def switchKeywords : List (Keyword Bool) := [
  ⟨"MCSCF", "ENABLE_DIIS", true, fun o => o.mc.enableDiis⟩,
  ⟨"MCSCF", "MP2_GUESS", false, fun o => o.mp2Guess⟩,
  ⟨"ASCI", "GROW_WITH_ROT", false, fun o => o.asci.growWithRot⟩,
  ⟨"PRINT", "DETERMINANTS", false, fun o => o.printDets⟩]

def nameKeywords : List (Keyword Str) := [
  ⟨"CI", "RDMFILE", [], fun o => o.rdmFile⟩,
  ⟨"CI", "FCIDUMP_OUT", [], fun o => o.fciOut⟩,
  ⟨"ASCI", "WFN_FILE", [], fun o => o.wfnFile⟩,
  ⟨"ASCI", "WFN_OUT_FILE", [], fun o => o.wfnOut⟩]

/-- every keyword the program looks at -/
def allKeywords : List (String × String) := [
  ("CI", "FCIDUMP"), ("CI", "NALPHA"), ("CI", "NBETA"), ("CI", "JOB"), ("CI", "EXPANSION"), ("CI", "NINACTIVE"),
  ("CI", "NACTIVE"), ("CI", "RDMFILE"), ("CI", "FCIDUMP_OUT"),
  ("MCSCF", "MAX_MACRO_ITER"), ("MCSCF", "MAX_ORB_STEP"), ("MCSCF", "MCSCF_ORB_TOL"), ("MCSCF", "ENABLE_DIIS"),
  ("MCSCF", "DIIS_START_ITER"), ("MCSCF", "DIIS_NKEEP"), ("MCSCF", "CI_RES_TOL"), ("MCSCF", "CI_MAX_SUB"),
  ("MCSCF", "CI_MATEL_TOL"), ("MCSCF", "MP2_GUESS"),
  ("ASCI", "NTDETS_MAX"), ("ASCI", "NTDETS_MIN"), ("ASCI", "NCDETS_MAX"), ("ASCI", "HAM_EL_TOL"), ("ASCI", "RV_PRUNE_TOL"),
  ("ASCI", "PAIR_MAX_LIM"), ("ASCI", "GROW_FACTOR"), ("ASCI", "MAX_REFINE_ITER"), ("ASCI", "REFINE_ETOL"),
  ("ASCI", "GROW_WITH_ROT"), ("ASCI", "ROT_SIZE_START"), ("ASCI", "CONSTRAINT_LVL"), ("ASCI", "WFN_FILE"),
  ("ASCI", "WFN_OUT_FILE"), ("ASCI", "E0_WFN"),
  ("PRINT", "DAVIDSON"), ("PRINT", "CI"), ("PRINT", "MCSCF"), ("PRINT", "DIIS"), ("PRINT", "ASCI_SEARCH"),
  ("PRINT", "DETERMINANTS"), ("PRINT", "DETERMINANTS_THRES")]

end Macis.Spec
