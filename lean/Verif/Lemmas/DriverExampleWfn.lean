import Verif.Lemmas.DriverExampleAsci
/-! Input files for calculations that write and read wave function files. -/
namespace Macis
open Spec Finset

def saveInput : List Char :=
  "[CI]\nFCIDUMP = F\nNALPHA = 1\nNBETA = 1\nJOB = CI\nEXPANSION = ASCI\n[ASCI]\nNTDETS_MAX = 1\nMAX_REFINE_ITER = 0\nWFN_OUT_FILE = W".toList

set_option maxHeartbeats 2000000 in
theorem saveInput_reads : ∃ d o, Ini.parse saveInput = .ok d ∧ Ini.getString d "CI.FCIDUMP".toList = .ok "F".toList ∧
    readOptions exIO d 2 = .ok (.ci, .asci, ⟨1, 1, 0, 2, 0⟩, o) ∧ 0 ≤ o.ci.matelTol ∧ o.mp2Guess = false ∧
    o.asci.growWithRot = false ∧ o.asci.ntdetsMax = 1 ∧ o.asci.maxRefineIter = 0 ∧ o.wfnFile = [] ∧
    o.wfnOut = "W".toList ∧ o.e0 = none := by
  have hp : (Ini.parse saveInput).isOk = true := by decide +kernel
  cases hd : Ini.parse saveInput with
  | error e => rw [hd] at hp; cases hp
  | ok d =>
    have F : ∀ {q : String} {b : Bool}, (Ini.parse saveInput >>= fun d => Ini.containsData d q.toList) = .ok b →
        Ini.containsData d q.toList = .ok b := fun h => parse_fact hd _ h
    have a1 : Ini.getString d "CI.JOB".toList = .ok "CI".toList :=
      parse_fact hd (fun d => Ini.getString d "CI.JOB".toList) (by decide +kernel)
    have a1' : Ini.getString d "CI.EXPANSION".toList = .ok "ASCI".toList :=
      parse_fact hd (fun d => Ini.getString d "CI.EXPANSION".toList) (by decide +kernel)
    have a3 : Ini.readSpace d 2 = .ok ⟨1, 1, 0, 2, 0⟩ :=
      parse_fact hd (fun d => Ini.readSpace d 2) (by decide +kernel)
    have b1 : Ini.getString d "CI.FCIDUMP".toList = .ok "F".toList :=
      parse_fact hd (fun d => Ini.getString d "CI.FCIDUMP".toList) (by decide +kernel)
    have b4 : Ini.getSize d "ASCI.NTDETS_MAX".toList = .ok 1 :=
      parse_fact hd (fun d => Ini.getSize d "ASCI.NTDETS_MAX".toList) (by decide +kernel)
    have b5 : Ini.getSize d "ASCI.MAX_REFINE_ITER".toList = .ok 0 :=
      parse_fact hd (fun d => Ini.getSize d "ASCI.MAX_REFINE_ITER".toList) (by decide +kernel)
    have b6 : Ini.getString d "ASCI.WFN_OUT_FILE".toList = .ok "W".toList :=
      parse_fact hd (fun d => Ini.getString d "ASCI.WFN_OUT_FILE".toList) (by decide +kernel)
    have a4 : readFileNames d = .ok ([], []) := by
      unfold readFileNames
      repeat rw [optKey_absent (F (by decide +kernel))]
      rfl
    have a5 : ∃ m, readMcscf exIO d = .ok (m, ⟨1 / 100000000, 20, 1 / 2 ^ 52⟩) := by
      unfold readMcscf
      repeat rw [optKey_absent (F (by decide +kernel))]
      exact ⟨_, rfl⟩
    obtain ⟨m, a5⟩ := a5
    have a6 : ∃ c, readAsci exIO d = .ok (⟨1, 100, 100, 8, 0, 1 / 1000000, false, 1000⟩, c, [], "W".toList, none) := by
      unfold readAsci
      rw [optKey_present (q := "ASCI.NTDETS_MAX") (F (by decide +kernel)), b4,
        optKey_present (q := "ASCI.MAX_REFINE_ITER") (F (by decide +kernel)), b5,
        optKey_present (q := "ASCI.WFN_OUT_FILE") (F (by decide +kernel)), b6]
      repeat rw [optKey_absent (F (by decide +kernel))]
      exact ⟨_, rfl⟩
    obtain ⟨c, a6⟩ := a6
    have a7 : ∃ x, readPrint exIO d = .ok x := by
      unfold readPrint
      repeat rw [optKey_absent (F (by decide +kernel))]
      exact ⟨_, rfl⟩
    obtain ⟨⟨z1, z2⟩, a7⟩ := a7
    refine ⟨d, ⟨[], [], m, ⟨1 / 100000000, 20, 1 / 2 ^ 52⟩, ⟨1, 100, 100, 8, 0, 1 / 1000000, false, 1000⟩, c, [],
      "W".toList, none, false, z1, z2⟩, rfl, b1, ?_, by norm_num, rfl, rfl, rfl, rfl, rfl, rfl, rfl⟩
    unfold readOptions
    rw [optKey_present (q := "CI.JOB") (F (by decide +kernel)), a1]
    simp only [bind, Except.bind]
    rw [optKey_present (q := "CI.EXPANSION") (F (by decide +kernel)), a1', a3, a4, a5, a6, a7]
    simp only
    rw [optKey_absent (q := "MCSCF.MP2_GUESS") (F (by decide +kernel))]
    rfl

def restartInput : List Char :=
  "[CI]\nFCIDUMP = F\nNALPHA = 1\nNBETA = 1\nJOB = CI\nEXPANSION = ASCI\n[ASCI]\nNTDETS_MAX = 1\nMAX_REFINE_ITER = 0\nWFN_FILE = W".toList

set_option maxHeartbeats 2000000 in
theorem restartInput_reads : ∃ d o, Ini.parse restartInput = .ok d ∧ Ini.getString d "CI.FCIDUMP".toList = .ok "F".toList ∧
    readOptions exIO d 2 = .ok (.ci, .asci, ⟨1, 1, 0, 2, 0⟩, o) ∧ 0 ≤ o.ci.matelTol ∧ o.mp2Guess = false ∧
    o.asci.growWithRot = false ∧ o.asci.ntdetsMax = 1 ∧ o.asci.maxRefineIter = 0 ∧ o.wfnFile = "W".toList ∧
    o.wfnOut = [] ∧ o.e0 = none := by
  have hp : (Ini.parse restartInput).isOk = true := by decide +kernel
  cases hd : Ini.parse restartInput with
  | error e => rw [hd] at hp; cases hp
  | ok d =>
    have F : ∀ {q : String} {b : Bool}, (Ini.parse restartInput >>= fun d => Ini.containsData d q.toList) = .ok b →
        Ini.containsData d q.toList = .ok b := fun h => parse_fact hd _ h
    have a1 : Ini.getString d "CI.JOB".toList = .ok "CI".toList :=
      parse_fact hd (fun d => Ini.getString d "CI.JOB".toList) (by decide +kernel)
    have a1' : Ini.getString d "CI.EXPANSION".toList = .ok "ASCI".toList :=
      parse_fact hd (fun d => Ini.getString d "CI.EXPANSION".toList) (by decide +kernel)
    have a3 : Ini.readSpace d 2 = .ok ⟨1, 1, 0, 2, 0⟩ :=
      parse_fact hd (fun d => Ini.readSpace d 2) (by decide +kernel)
    have b1 : Ini.getString d "CI.FCIDUMP".toList = .ok "F".toList :=
      parse_fact hd (fun d => Ini.getString d "CI.FCIDUMP".toList) (by decide +kernel)
    have b4 : Ini.getSize d "ASCI.NTDETS_MAX".toList = .ok 1 :=
      parse_fact hd (fun d => Ini.getSize d "ASCI.NTDETS_MAX".toList) (by decide +kernel)
    have b5 : Ini.getSize d "ASCI.MAX_REFINE_ITER".toList = .ok 0 :=
      parse_fact hd (fun d => Ini.getSize d "ASCI.MAX_REFINE_ITER".toList) (by decide +kernel)
    have b6 : Ini.getString d "ASCI.WFN_FILE".toList = .ok "W".toList :=
      parse_fact hd (fun d => Ini.getString d "ASCI.WFN_FILE".toList) (by decide +kernel)
    have a4 : readFileNames d = .ok ([], []) := by
      unfold readFileNames
      repeat rw [optKey_absent (F (by decide +kernel))]
      rfl
    have a5 : ∃ m, readMcscf exIO d = .ok (m, ⟨1 / 100000000, 20, 1 / 2 ^ 52⟩) := by
      unfold readMcscf
      repeat rw [optKey_absent (F (by decide +kernel))]
      exact ⟨_, rfl⟩
    obtain ⟨m, a5⟩ := a5
    have a6 : ∃ c, readAsci exIO d = .ok (⟨1, 100, 100, 8, 0, 1 / 1000000, false, 1000⟩, c, "W".toList, [], none) := by
      unfold readAsci
      rw [optKey_present (q := "ASCI.NTDETS_MAX") (F (by decide +kernel)), b4,
        optKey_present (q := "ASCI.MAX_REFINE_ITER") (F (by decide +kernel)), b5,
        optKey_present (q := "ASCI.WFN_FILE") (F (by decide +kernel)), b6]
      repeat rw [optKey_absent (F (by decide +kernel))]
      exact ⟨_, rfl⟩
    obtain ⟨c, a6⟩ := a6
    have a7 : ∃ x, readPrint exIO d = .ok x := by
      unfold readPrint
      repeat rw [optKey_absent (F (by decide +kernel))]
      exact ⟨_, rfl⟩
    obtain ⟨⟨z1, z2⟩, a7⟩ := a7
    refine ⟨d, ⟨[], [], m, ⟨1 / 100000000, 20, 1 / 2 ^ 52⟩, ⟨1, 100, 100, 8, 0, 1 / 1000000, false, 1000⟩, c, "W".toList,
      [], none, false, z1, z2⟩, rfl, b1, ?_, by norm_num, rfl, rfl, rfl, rfl, rfl, rfl, rfl⟩
    unfold readOptions
    rw [optKey_present (q := "CI.JOB") (F (by decide +kernel)), a1]
    simp only [bind, Except.bind]
    rw [optKey_present (q := "CI.EXPANSION") (F (by decide +kernel)), a1', a3, a4, a5, a6, a7]
    simp only
    rw [optKey_absent (q := "MCSCF.MP2_GUESS") (F (by decide +kernel))]
    rfl

def givenInput : List Char :=
  "[CI]\nFCIDUMP = F\nNALPHA = 1\nNBETA = 1\nJOB = CI\nEXPANSION = ASCI\n[ASCI]\nNTDETS_MAX = 1\nMAX_REFINE_ITER = 0\nWFN_FILE = W\nE0_WFN = 9.".toList

set_option maxHeartbeats 2000000 in
theorem givenInput_reads : ∃ d o, Ini.parse givenInput = .ok d ∧ Ini.getString d "CI.FCIDUMP".toList = .ok "F".toList ∧
    readOptions exIO d 2 = .ok (.ci, .asci, ⟨1, 1, 0, 2, 0⟩, o) ∧ 0 ≤ o.ci.matelTol ∧ o.mp2Guess = false ∧
    o.asci.growWithRot = false ∧ o.asci.ntdetsMax = 1 ∧ o.asci.maxRefineIter = 0 ∧ o.wfnFile = "W".toList ∧
    o.wfnOut = [] ∧ o.e0 = some 9 := by
  have hp : (Ini.parse givenInput).isOk = true := by decide +kernel
  cases hd : Ini.parse givenInput with
  | error e => rw [hd] at hp; cases hp
  | ok d =>
    have F : ∀ {q : String} {b : Bool}, (Ini.parse givenInput >>= fun d => Ini.containsData d q.toList) = .ok b →
        Ini.containsData d q.toList = .ok b := fun h => parse_fact hd _ h
    have a1 : Ini.getString d "CI.JOB".toList = .ok "CI".toList :=
      parse_fact hd (fun d => Ini.getString d "CI.JOB".toList) (by decide +kernel)
    have a1' : Ini.getString d "CI.EXPANSION".toList = .ok "ASCI".toList :=
      parse_fact hd (fun d => Ini.getString d "CI.EXPANSION".toList) (by decide +kernel)
    have a3 : Ini.readSpace d 2 = .ok ⟨1, 1, 0, 2, 0⟩ :=
      parse_fact hd (fun d => Ini.readSpace d 2) (by decide +kernel)
    have b1 : Ini.getString d "CI.FCIDUMP".toList = .ok "F".toList :=
      parse_fact hd (fun d => Ini.getString d "CI.FCIDUMP".toList) (by decide +kernel)
    have b4 : Ini.getSize d "ASCI.NTDETS_MAX".toList = .ok 1 :=
      parse_fact hd (fun d => Ini.getSize d "ASCI.NTDETS_MAX".toList) (by decide +kernel)
    have b5 : Ini.getSize d "ASCI.MAX_REFINE_ITER".toList = .ok 0 :=
      parse_fact hd (fun d => Ini.getSize d "ASCI.MAX_REFINE_ITER".toList) (by decide +kernel)
    have b6 : Ini.getString d "ASCI.WFN_FILE".toList = .ok "W".toList :=
      parse_fact hd (fun d => Ini.getString d "ASCI.WFN_FILE".toList) (by decide +kernel)
    have a4 : readFileNames d = .ok ([], []) := by
      unfold readFileNames
      repeat rw [optKey_absent (F (by decide +kernel))]
      rfl
    have a5 : ∃ m, readMcscf exIO d = .ok (m, ⟨1 / 100000000, 20, 1 / 2 ^ 52⟩) := by
      unfold readMcscf
      repeat rw [optKey_absent (F (by decide +kernel))]
      exact ⟨_, rfl⟩
    obtain ⟨m, a5⟩ := a5
    have b7 : Ini.getString d "ASCI.E0_WFN".toList = .ok "9.".toList :=
      parse_fact hd (fun d => Ini.getString d "ASCI.E0_WFN".toList) (by decide +kernel)
    have a6 : ∃ c, readAsci exIO d = .ok (⟨1, 100, 100, 8, 0, 1 / 1000000, false, 1000⟩, c, "W".toList, [], some 9) := by
      unfold readAsci
      rw [optKey_present (q := "ASCI.NTDETS_MAX") (F (by decide +kernel)), b4,
        optKey_present (q := "ASCI.MAX_REFINE_ITER") (F (by decide +kernel)), b5,
        optKey_present (q := "ASCI.WFN_FILE") (F (by decide +kernel)), b6]
      rw [optKey_present (q := "ASCI.E0_WFN") (F (by decide +kernel)), getDouble, b7]
      have : exIO.parse "9.".toList = some 9 := by
        change (if "9.".toList = "0.".toList then some (0 : ℝ) else if "9.".toList = "1.".toList then some 1 else
          if "9.".toList = "9.".toList then some 9 else none) = _
        rw [if_neg (by decide +kernel), if_neg (by decide +kernel), if_pos rfl]
      repeat rw [optKey_absent (F (by decide +kernel))]
      simp only [bind, Except.bind, this]
      exact ⟨_, rfl⟩
    obtain ⟨c, a6⟩ := a6
    have a7 : ∃ x, readPrint exIO d = .ok x := by
      unfold readPrint
      repeat rw [optKey_absent (F (by decide +kernel))]
      exact ⟨_, rfl⟩
    obtain ⟨⟨z1, z2⟩, a7⟩ := a7
    refine ⟨d, ⟨[], [], m, ⟨1 / 100000000, 20, 1 / 2 ^ 52⟩, ⟨1, 100, 100, 8, 0, 1 / 1000000, false, 1000⟩, c, "W".toList,
      [], some 9, false, z1, z2⟩, rfl, b1, ?_, by norm_num, rfl, rfl, rfl, rfl, rfl, rfl, rfl⟩
    unfold readOptions
    rw [optKey_present (q := "CI.JOB") (F (by decide +kernel)), a1]
    simp only [bind, Except.bind]
    rw [optKey_present (q := "CI.EXPANSION") (F (by decide +kernel)), a1', a3, a4, a5, a6, a7]
    simp only
    rw [optKey_absent (q := "MCSCF.MP2_GUESS") (F (by decide +kernel))]
    rfl

end Macis
