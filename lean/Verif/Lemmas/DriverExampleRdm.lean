import Verif.Lemmas.DriverExampleMc
/-! An input file for a CASSCF calculation that starts from a file with density matrices. -/
namespace Macis
open Spec Finset

def rdmInput : List Char :=
  "[CI]\nFCIDUMP = F\nNALPHA = 1\nNBETA = 1\nJOB = MCSCF\nRDMFILE = R\n[MCSCF]\nCI_RES_TOL = 9.".toList

set_option maxHeartbeats 2000000 in
theorem rdmInput_reads : ∃ d o, Ini.parse rdmInput = .ok d ∧ Ini.getString d "CI.FCIDUMP".toList = .ok "F".toList ∧
    Ini.getSize d "CI.NALPHA".toList = .ok 1 ∧ Ini.getSize d "CI.NBETA".toList = .ok 1 ∧
    readOptions exIO d 2 = .ok (.mcscf, .cas, ⟨1, 1, 0, 2, 0⟩, o) ∧ o.ci = ⟨9, 20, 1 / 2 ^ 52⟩ ∧ o.mp2Guess = false ∧
    o.fciOut = [] ∧ o.rdmFile = "R".toList ∧ 0 < o.mc.tol := by
  have hp : (Ini.parse rdmInput).isOk = true := by decide +kernel
  cases hd : Ini.parse rdmInput with
  | error e => rw [hd] at hp; cases hp
  | ok d =>
    have F : ∀ {q : String} {b : Bool}, (Ini.parse rdmInput >>= fun d => Ini.containsData d q.toList) = .ok b →
        Ini.containsData d q.toList = .ok b := fun h => parse_fact hd _ h
    have a1 : Ini.getString d "CI.JOB".toList = .ok "MCSCF".toList :=
      parse_fact hd (fun d => Ini.getString d "CI.JOB".toList) (by decide +kernel)
    have a2 : Ini.getString d "MCSCF.CI_RES_TOL".toList = .ok "9.".toList :=
      parse_fact hd (fun d => Ini.getString d "MCSCF.CI_RES_TOL".toList) (by decide +kernel)
    have a3 : Ini.readSpace d 2 = .ok ⟨1, 1, 0, 2, 0⟩ :=
      parse_fact hd (fun d => Ini.readSpace d 2) (by decide +kernel)
    have b1 : Ini.getString d "CI.FCIDUMP".toList = .ok "F".toList :=
      parse_fact hd (fun d => Ini.getString d "CI.FCIDUMP".toList) (by decide +kernel)
    have b2 : Ini.getSize d "CI.NALPHA".toList = .ok 1 :=
      parse_fact hd (fun d => Ini.getSize d "CI.NALPHA".toList) (by decide +kernel)
    have b3 : Ini.getSize d "CI.NBETA".toList = .ok 1 :=
      parse_fact hd (fun d => Ini.getSize d "CI.NBETA".toList) (by decide +kernel)
    have b4 : Ini.getString d "CI.RDMFILE".toList = .ok "R".toList :=
      parse_fact hd (fun d => Ini.getString d "CI.RDMFILE".toList) (by decide +kernel)
    have a4 : readFileNames d = .ok ("R".toList, []) := by
      unfold readFileNames
      rw [optKey_present (q := "CI.RDMFILE") (F (by decide +kernel)), b4, optKey_absent (F (by decide +kernel))]
      rfl
    have a5 : readMcscf exIO d = .ok (⟨100, 1 / 2, 5 / 1000000, true, 3, 10⟩, ⟨9, 20, 1 / 2 ^ 52⟩) := by
      unfold readMcscf
      rw [optKey_absent (F (by decide +kernel)), optKey_absent (F (by decide +kernel)),
        optKey_absent (F (by decide +kernel)), optKey_absent (F (by decide +kernel)),
        optKey_absent (F (by decide +kernel)), optKey_absent (F (by decide +kernel)),
        optKey_present (q := "MCSCF.CI_RES_TOL") (F (by decide +kernel)), optKey_absent (F (by decide +kernel)),
        optKey_absent (F (by decide +kernel)), getDouble, a2]
      have : exIO.parse "9.".toList = some 9 := by
        change (if "9.".toList = "0.".toList then some (0 : ℝ) else if "9.".toList = "1.".toList then some 1 else
          if "9.".toList = "9.".toList then some 9 else none) = _
        rw [if_neg (by decide +kernel), if_neg (by decide +kernel), if_pos rfl]
      simp only [bind, Except.bind, this]
      rfl
    have a6 : ∃ y1 y2 y4 y5, readAsci exIO d = .ok (y1, y2, [], y4, y5) := by
      unfold readAsci
      repeat rw [optKey_absent (F (by decide +kernel))]
      exact ⟨_, _, _, _, rfl⟩
    obtain ⟨y1, y2, y4, y5, a6⟩ := a6
    have a7 : ∃ x, readPrint exIO d = .ok x := by
      unfold readPrint
      repeat rw [optKey_absent (F (by decide +kernel))]
      exact ⟨_, rfl⟩
    obtain ⟨⟨z1, z2⟩, a7⟩ := a7
    refine ⟨d, ⟨"R".toList, [], ⟨100, 1 / 2, 5 / 1000000, true, 3, 10⟩, ⟨9, 20, 1 / 2 ^ 52⟩, y1, y2, [], y4, y5, false, z1, z2⟩,
      rfl, b1, b2, b3, ?_, rfl, rfl, rfl, rfl, by norm_num⟩
    unfold readOptions
    rw [optKey_present (q := "CI.JOB") (F (by decide +kernel)), a1]
    simp only [bind, Except.bind]
    rw [optKey_absent (q := "CI.EXPANSION") (F (by decide +kernel)), a3, a4, a5, a6, a7]
    simp only
    rw [optKey_absent (q := "MCSCF.MP2_GUESS") (F (by decide +kernel))]
    rfl

end Macis
