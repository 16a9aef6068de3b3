import Verif.Lemmas.DriverExample
/-! A CASSCF calculation that the standalone program completes. -/
namespace Macis
open Spec Finset

/-- a CASSCF calculation -/
def mcInput : List Char :=
  "[CI]\nFCIDUMP = F\nNALPHA = 1\nNBETA = 1\nJOB = MCSCF\nFCIDUMP_OUT = G\n[MCSCF]\nCI_RES_TOL = 9.".toList

set_option maxHeartbeats 2000000 in
theorem mcInput_reads : ∃ d o, Ini.parse mcInput = .ok d ∧ Ini.getString d "CI.FCIDUMP".toList = .ok "F".toList ∧
    Ini.getSize d "CI.NALPHA".toList = .ok 1 ∧ Ini.getSize d "CI.NBETA".toList = .ok 1 ∧
    readOptions exIO d 2 = .ok (.mcscf, .cas, ⟨1, 1, 0, 2, 0⟩, o) ∧ o.ci = ⟨9, 20, 1 / 2 ^ 52⟩ ∧ o.mp2Guess = false ∧
    o.fciOut = "G".toList ∧ o.rdmFile = [] ∧ 0 < o.mc.tol := by
  have hp : (Ini.parse mcInput).isOk = true := by decide +kernel
  cases hd : Ini.parse mcInput with
  | error e => rw [hd] at hp; cases hp
  | ok d =>
    have F : ∀ {q : String} {b : Bool}, (Ini.parse mcInput >>= fun d => Ini.containsData d q.toList) = .ok b →
        Ini.containsData d q.toList = .ok b := fun h => parse_fact hd _ h
    have a1 : Ini.getString d "CI.JOB".toList = .ok "MCSCF".toList :=
      parse_fact hd (fun d => Ini.getString d "CI.JOB".toList) (by decide +kernel)
    have a2 : Ini.getString d "MCSCF.CI_RES_TOL".toList = .ok "9.".toList :=
      parse_fact hd (fun d => Ini.getString d "MCSCF.CI_RES_TOL".toList) (by decide +kernel)
    have a3 : Ini.readSpace d 2 = .ok ⟨1, 1, 0, 2, 0⟩ :=
      parse_fact hd (fun d => Ini.readSpace d 2) (by decide +kernel)
    have b1 : Ini.getString d "CI.FCIDUMP".toList = .ok "F".toList :=
      parse_fact hd (fun d => Ini.getString d "CI.FCIDUMP".toList) (by decide +kernel)
    have b2 : Ini.getSize d "CI.NALPHA".toList = .ok 1 :=
      parse_fact hd (fun d => Ini.getSize d "CI.NALPHA".toList) (by decide +kernel)
    have b3 : Ini.getSize d "CI.NBETA".toList = .ok 1 :=
      parse_fact hd (fun d => Ini.getSize d "CI.NBETA".toList) (by decide +kernel)
    have b4 : Ini.getString d "CI.FCIDUMP_OUT".toList = .ok "G".toList :=
      parse_fact hd (fun d => Ini.getString d "CI.FCIDUMP_OUT".toList) (by decide +kernel)
    have a4 : readFileNames d = .ok ([], "G".toList) := by
      unfold readFileNames
      rw [optKey_absent (F (by decide +kernel)), optKey_present (q := "CI.FCIDUMP_OUT") (F (by decide +kernel)), b4]
      rfl
    have a5 : readMcscf exIO d = .ok (⟨100, 1 / 2, 5 / 1000000, true, 3, 10⟩, ⟨9, 20, 1 / 2 ^ 52⟩) := by
      unfold readMcscf
      rw [optKey_absent (F (by decide +kernel)), optKey_absent (F (by decide +kernel)),
        optKey_absent (F (by decide +kernel)), optKey_absent (F (by decide +kernel)),
        optKey_absent (F (by decide +kernel)), optKey_absent (F (by decide +kernel)),
        optKey_present (q := "MCSCF.CI_RES_TOL") (F (by decide +kernel)), optKey_absent (F (by decide +kernel)),
        optKey_absent (F (by decide +kernel)), getDouble, a2]
      have : exIO.parse "9.".toList = some 9 := by
        change (if "9.".toList = "0.".toList then some (0 : ℝ) else if "9.".toList = "1.".toList then some 1 else
          if "9.".toList = "9.".toList then some 9 else none) = _
        rw [if_neg (by decide +kernel), if_neg (by decide +kernel), if_pos rfl]
      simp only [bind, Except.bind, this]
      rfl
    have a6 : ∃ y1 y2 y4 y5, readAsci exIO d = .ok (y1, y2, [], y4, y5) := by
      unfold readAsci
      repeat rw [optKey_absent (F (by decide +kernel))]
      exact ⟨_, _, _, _, rfl⟩
    obtain ⟨y1, y2, y4, y5, a6⟩ := a6
    have a7 : ∃ x, readPrint exIO d = .ok x := by
      unfold readPrint
      repeat rw [optKey_absent (F (by decide +kernel))]
      exact ⟨_, rfl⟩
    obtain ⟨⟨z1, z2⟩, a7⟩ := a7
    refine ⟨d, ⟨[], "G".toList, ⟨100, 1 / 2, 5 / 1000000, true, 3, 10⟩, ⟨9, 20, 1 / 2 ^ 52⟩, y1, y2, [], y4, y5, false, z1, z2⟩,
      rfl, b1, b2, b3, ?_, rfl, rfl, rfl, rfl, by norm_num⟩
    unfold readOptions
    rw [optKey_present (q := "CI.JOB") (F (by decide +kernel)), a1]
    simp only [bind, Except.bind]
    rw [optKey_absent (q := "CI.EXPANSION") (F (by decide +kernel)), a3, a4, a5, a6, a7]
    simp only
    rw [optKey_absent (q := "MCSCF.MP2_GUESS") (F (by decide +kernel))]
    rfl

theorem nrmN_zero (f : Nat → ℝ) : nrmN 0 f = 0 := by simp [nrmN]

/-- The program completes this calculation. -/
theorem mcscf_example {eig : Nat → (Nat → Nat → ℝ) → ℝ × (Nat → ℝ)} (he : LowestPair eig)
    (syev : Nat → (Nat → ℝ) → Nat → (Nat → ℝ) × (Nat → ℝ)) : ∃ o out,
    Asks (drvEnv eig syev) mcInput exEntries .mcscf .cas ⟨1, 1, 0, 2, 0⟩ o ∧ o.mp2Guess = false ∧
      o.ci = ⟨9, 20, 1 / 2 ^ 52⟩ ∧ driver (drvEnv eig syev) mcInput = .ok out ∧ out.eRDM = none ∧ 0 < o.mc.tol := by
  obtain ⟨d, o, h1, h2, h3, h4, h5, h6, h7, h8, h9, h10⟩ := mcInput_reads
  obtain ⟨f, f1, f2, f3, f4, f5⟩ := readIntegrals_entries exFci_entries exEntries_std
  rw [exEntries_max] at f2
  rw [f2] at f4 f5
  set H := activeHamiltonian 2 2 0 f.T 2 f.V 2 (fun _ => 0) 2 (fun _ => 0) 2 (fun _ => 0) 2 with hH
  have hT : ∀ p q, p < 2 → q < 2 → asMat H.2.1 2 p q = hopI.T p q := by
    intro p q hp hq
    have : H.2.1 (p + q * 2) = H.1 (p + 0 + (q + 0) * 2) :=
      (fill2 (le_refl 2) (fun _ => 0) (fun x => H.1 (x.1 + 0 + (x.2 + 0) * 2))).1 p q hp hq
    rw [asMat, this, Nat.add_zero, Nat.add_zero, ← exEntries_T hp hq, ← f4 p q hp hq]
    have := inactiveFock_val (ldt := 2) (ldv := 2) (ni := 0) (le_refl 2) f.T f.V (fun _ => 0) hp hq
    refine this.trans ?_
    simp [fi]
  have hV : ∀ p q r s, p < 2 → q < 2 → r < 2 → s < 2 → asTen H.2.2 2 p q r s = 0 := by
    intro p q r s hp hq hr hs
    have : H.2.2 (addr4 2 p q r s) = f.V (p + 0 + (q + 0) * 2 + (r + 0) * (2 * 2) + (s + 0) * (2 * 2 * 2)) :=
      (fill4 (le_refl 2) (fun _ => 0) (fun x => f.V (x.1 + 0 + (x.2.1 + 0) * 2 + (x.2.2.1 + 0) * (2 * 2) +
        (x.2.2.2 + 0) * (2 * 2 * 2)))).1 p q r s hp hq hr hs
    rw [asTen, this, show p + 0 + (q + 0) * 2 + (r + 0) * (2 * 2) + (s + 0) * (2 * 2 * 2) = addr4 2 p q r s by
      unfold addr4; ring]
    exact (f5 p q r s hp hq hr hs).trans exEntries_V
  obtain ⟨x, hx⟩ := hop_cas (Ta := H.2.1) (Va := H.2.2) he (ci := o.ci) (by rw [h6]) (by rw [h6]; norm_num)
    (by rw [h6]; norm_num) (by rw [h6]; norm_num) hT hV (fillZero (2 * 2) fun _ => 0) (fillZero (2 * 2 * (2 * 2)) fun _ => 0)
  have hrun : ∃ out, driver (drvEnv eig syev) mcInput = .ok out ∧ out.eRDM = none := by
    unfold driver
    rw [h1]
    simp only [ofExcept, Out.bind]
    rw [h2]
    simp only [ofExcept]
    rw [h3, h4]
    simp only [ofExcept]
    rw [if_neg (by simp)]
    rw [show readIntegrals (drvEnv eig syev).io ((drvEnv eig syev).text "F".toList) = .ok f from f1]
    simp only [Run.toOut]
    rw [f2, show readOptions (drvEnv eig syev).io d 2 = _ from h5]
    simp only [ofExcept]
    unfold runJob
    rw [h7]
    simp only [Bool.false_eq_true, if_false, Out.bind, f2]
    rw [← hH]
    unfold runMcscf
    simp only [h9, ne_eq, not_true_eq_false, if_false, Out.bind]
    unfold mcscf mcInit
    dsimp only
    rw [f2, ← hH]
    rw [if_pos (by norm_num)]
    rw [show casRdms (drvEnv eig syev).eig o.ci 2 1 1 H.2.1 H.2.2 (fillZero (2 * 2) fun _ => 0) (fillZero (2 * 2 * (2 * 2)) fun _ => 0) [] = .ok x from hx]
    simp only [Out.bind]
    generalize hs : (McState.mk _ _ _ _ _ _ _ _ _ _ _ _ _ _ _ _ _ _ : McState (List ℝ)) = s0
    cases o.mc.maxMacroIter with
    | zero => exact ⟨_, rfl, rfl⟩
    | succ n =>
      unfold mcLoop
      rw [if_pos]
      · exact ⟨_, rfl, rfl⟩
      · subst hs
        refine decide_eq_true ?_
        rw [show 0 * (0 + 2) + 2 * 0 = 0 from rfl, nrmN_zero]
        exact h10
  obtain ⟨out, hout, hn⟩ := hrun
  exact ⟨o, out, ⟨d, _, h1, h2, exFci_entries, exEntries_std, by rw [exEntries_max]; exact h5⟩, h7, h6, hout, hn, h10⟩

end Macis
