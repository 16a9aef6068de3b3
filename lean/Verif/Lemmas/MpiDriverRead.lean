import Verif.Lemmas.MpiDriver
import Verif.Lemmas.DriverExampleAsci
/-! A small ASCI calculation of the standalone program that three ranks complete. -/
namespace Macis
open Spec Spec.Mpi Mpi Finset

/-- four orbitals, the last two coupled by 1, energy 1 for the last, no interaction -/
noncomputable def triI : Integrals ℝ :=
  ⟨4, fun p q => if p = 2 ∧ q = 3 ∨ p = 3 ∧ q = 2 ∨ p = 3 ∧ q = 3 then 1 else 0, fun _ _ _ _ => 0⟩

theorem triI_real : RealSymmetric triI := by
  refine ⟨fun p q => ?_, fun _ _ _ _ => rfl, fun _ _ _ _ => rfl⟩
  simp only [triI]
  refine if_congr ?_ rfl rfl
  omega

def triDets : List (BitVec (2 * 32)) :=
  [30064771079#64, 47244640263#64, 55834574855#64, 60129542151#64, 30064771083#64, 47244640267#64, 55834574859#64,
    60129542155#64, 30064771085#64, 47244640269#64, 55834574861#64, 60129542157#64, 30064771086#64, 47244640270#64,
    55834574862#64, 60129542158#64]

theorem tri_hilbert : generateHilbertSpace 32 4 3 3 = some triDets := by decide +kernel

def triVal (i j : Nat) : Int :=
  rdm1 (M := 32) (triDets.getD i 0) (triDets.getD j 0) 2 3 + rdm1 (M := 32) (triDets.getD i 0) (triDets.getD j 0) 3 2 +
    rdm1 (M := 32) (triDets.getD i 0) (triDets.getD j 0) 3 3

theorem tri_ham (i j : Nat) : hamiltonian triI (triDets.getD i 0) (triDets.getD j 0) = triVal i j := by
  rw [hamiltonian_rdm, triVal]
  simp [triI, sum_range_succ]
  ring

theorem tri_vals : (∀ i < 16, triVal i 0 ≠ 0 → i = 1 ∨ i = 4) ∧ triVal 0 0 = 0 ∧ triVal 1 1 = 1 ∧ triVal 4 4 = 1 ∧
    (∀ k ∈ [1, 4], triVal k 0 ≠ 0) ∧
    ∀ k ∈ [0, 1, 4], ∀ l ∈ [0, 1, 4], |triVal k l| ≤ 1 ∧ triVal k l = triVal l k := by decide +kernel

noncomputable def triRanks : RankEnv where
  P := 3
  draw _ := 0
  partS _ _ := id
  nthS _ _ := List.insertionSort fun x y => y ≤ x
  avg _ := 0
  partC := id
  sortC := id

theorem triRanks_ok : RanksOk triRanks where
  partS _ _ l := List.Perm.refl l
  nthS _ := exNth_spec (id : ℝ → ℝ) _ rfl
  partC l := List.Perm.refl l
  sortC l := List.Perm.refl l

def triFci : List Char := "1. 3 4 0 0\n1. 4 4 0 0\n".toList

noncomputable def triEntries : List (FciEntry ℝ) := [⟨3, 4, 0, 0, 1⟩, ⟨4, 4, 0, 0, 1⟩]

theorem triFci_entries : Entries exIO (fileLines triFci) triEntries := by
  have e : fileLines triFci = ["1. 3 4 0 0".toList, "1. 4 4 0 0".toList] := by decide +kernel
  rw [e]
  refine .entry ⟨"1.".toList, [], " ".toList, " ".toList, " ".toList, " ".toList, [], by simp [exIO], by decide, by decide,
    ⟨'.', by decide, Or.inr rfl⟩, by simp [Blank0], ?_, ?_, ?_, ?_, by simp [Blank0], Or.inr ?_⟩
    (by norm_num) (by norm_num) (by norm_num) (by norm_num) (.entry ⟨"1.".toList, [], " ".toList, " ".toList, " ".toList,
      " ".toList, [], by simp [exIO], by decide, by decide,
    ⟨'.', by decide, Or.inr rfl⟩, by simp [Blank0], ?_, ?_, ?_, ?_, by simp [Blank0], Or.inr ?_⟩
    (by norm_num) (by norm_num) (by norm_num) (by norm_num) .nil)
  · exact ⟨by decide, by decide⟩
  · exact ⟨by decide, by decide⟩
  · exact ⟨by decide, by decide⟩
  · exact ⟨by decide, by decide⟩
  · change _ = _ ++ showNat 3 ++ _ ++ showNat 4 ++ _ ++ showNat 0 ++ _ ++ showNat 0 ++ _
    decide +kernel
  · exact ⟨by decide, by decide⟩
  · exact ⟨by decide, by decide⟩
  · exact ⟨by decide, by decide⟩
  · exact ⟨by decide, by decide⟩
  · change _ = _ ++ showNat 4 ++ _ ++ showNat 4 ++ _ ++ showNat 0 ++ _ ++ showNat 0 ++ _
    decide +kernel

theorem triEntries_std : ∀ e ∈ triEntries, Standard e := by
  intro e he
  simp only [triEntries, List.mem_cons, List.not_mem_nil, or_false] at he
  rcases he with rfl | rfl
  · exact Or.inr (Or.inl (by simp))
  · exact Or.inr (Or.inl (by simp))

theorem triEntries_max : maxIdx triEntries = 4 := by simp [maxIdx, triEntries]

theorem triEntries_T {p q : Nat} (hp : p < 4) (hq : q < 4) : (fileInts triEntries).T p q = triI.T p q := by
  have : p = 0 ∨ p = 1 ∨ p = 2 ∨ p = 3 := by omega
  have : q = 0 ∨ q = 1 ∨ q = 2 ∨ q = 3 := by omega
  rcases ‹p = 0 ∨ _› with rfl | rfl | rfl | rfl <;> rcases ‹q = 0 ∨ _› with rfl | rfl | rfl | rfl <;>
    simp [fileInts, triEntries, lastSuch, givesOne, triI]

theorem triEntries_V {p q r s : Nat} : (fileInts triEntries).V p q r s = 0 := by
  simp [fileInts, triEntries, lastSuch, givesTwo]

/-- everything the program calls on one rank, with this file -/
noncomputable def triEnv (eig : Nat → (Nat → Nat → ℝ) → ℝ × (Nat → ℝ))
    (syev : Nat → (Nat → ℝ) → Nat → (Nat → ℝ) × (Nat → ℝ)) : DriverEnv :=
  let e := stepEnv eig syev
  ⟨e.io, fun _ => triFci, e.rdmFile, e.eig, e.syev, e.gelss, e.srtIdx, e.srt, e.part, e.nth, e.fuel⟩

theorem triEnv_sorts (eig : Nat → (Nat → Nat → ℝ) → ℝ × (Nat → ℝ))
    (syev : Nat → (Nat → ℝ) → Nat → (Nat → ℝ) × (Nat → ℝ)) : SortsOk (triEnv eig syev) := by
  obtain ⟨h1, h2, h3, h4⟩ := stepEnv_sorts eig syev
  constructor
  · exact h1
  · exact h2
  · exact h3
  · exact h4

/-- an ASCI calculation with three determinants -/
def triInput : List Char :=
  "[CI]\nFCIDUMP = F\nNALPHA = 3\nNBETA = 3\nJOB = CI\nEXPANSION = ASCI\n[MCSCF]\nCI_RES_TOL = 9.\nCI_MAX_SUB = 3\n[ASCI]\nNTDETS_MAX = 3\nMAX_REFINE_ITER = 0\nCONSTRAINT_LVL = 0".toList

/-- the keywords that are not given -/
def triAbsent : List String :=
  ["CI.RDMFILE", "CI.FCIDUMP_OUT", "MCSCF.MAX_MACRO_ITER", "MCSCF.MAX_ORB_STEP", "MCSCF.MCSCF_ORB_TOL", "MCSCF.ENABLE_DIIS", "MCSCF.DIIS_START_ITER", "MCSCF.DIIS_NKEEP", "MCSCF.CI_MATEL_TOL", "ASCI.NTDETS_MIN", "ASCI.NCDETS_MAX", "ASCI.HAM_EL_TOL", "ASCI.RV_PRUNE_TOL", "ASCI.PAIR_MAX_LIM", "ASCI.GROW_FACTOR", "ASCI.REFINE_ETOL", "ASCI.GROW_WITH_ROT", "ASCI.ROT_SIZE_START", "ASCI.WFN_FILE", "ASCI.WFN_OUT_FILE", "ASCI.E0_WFN", "PRINT.DAVIDSON", "PRINT.CI", "PRINT.MCSCF", "PRINT.DIIS", "PRINT.ASCI_SEARCH", "PRINT.DETERMINANTS", "PRINT.DETERMINANTS_THRES", "MCSCF.MP2_GUESS"]

def triPresent : List String :=
  ["CI.JOB", "CI.EXPANSION", "MCSCF.CI_RES_TOL", "MCSCF.CI_MAX_SUB", "ASCI.NTDETS_MAX", "ASCI.MAX_REFINE_ITER", "ASCI.CONSTRAINT_LVL"]

theorem tri_absent : (Ini.parse triInput >>= fun d => triAbsent.mapM fun q => Ini.containsData d q.toList) =
    .ok (triAbsent.map fun _ : String => false) := by decide +kernel

theorem tri_present : (Ini.parse triInput >>= fun d => triPresent.mapM fun q => Ini.containsData d q.toList) =
    .ok (triPresent.map fun _ => true) := by decide +kernel

theorem okBind {α β ε : Type} (d : α) (f : α → Except ε β) : (Except.ok d >>= f) = f d := rfl

theorem mapM_const {α β ε : Type} {f : α → Except ε β} {b : β} : ∀ {l : List α}, l.mapM f = .ok (l.map fun _ => b) →
    ∀ q ∈ l, f q = .ok b := by
  intro l
  induction l with
  | nil => intro _ q hq; cases hq
  | cons x l ih =>
    intro h q hq
    rw [List.mapM_cons] at h
    cases hx : f x with
    | error e => rw [hx] at h; cases h
    | ok y =>
      rw [hx] at h
      cases hl : l.mapM f with
      | error e => rw [hl] at h; cases h
      | ok ys =>
        rw [hl] at h
        have h' : y :: ys = b :: l.map fun _ => b := Except.ok.inj h
        obtain ⟨h1, h2⟩ := List.cons.inj h'
        rcases List.mem_cons.1 hq with rfl | hq
        · rw [hx, h1]
        · exact ih (by rw [hl, h2]) q hq

theorem tri_absent_of {d : Ini.Dict} (hd : Ini.parse triInput = .ok d) :
    ∀ q ∈ triAbsent, Ini.containsData d q.toList = .ok false := by
  have h := tri_absent
  rw [hd, okBind] at h
  exact mapM_const (f := fun q : String => Ini.containsData d q.toList) (b := false) (l := triAbsent) h

theorem tri_present_of {d : Ini.Dict} (hd : Ini.parse triInput = .ok d) :
    ∀ q ∈ triPresent, Ini.containsData d q.toList = .ok true := by
  have h := tri_present
  rw [hd, okBind] at h
  exact mapM_const (f := fun q : String => Ini.containsData d q.toList) (b := true) (l := triPresent) h

set_option maxHeartbeats 2000000 in
theorem triInput_reads : ∃ d o, Ini.parse triInput = .ok d ∧ Ini.getString d "CI.FCIDUMP".toList = .ok "F".toList ∧
    Ini.getSize d "CI.NALPHA".toList = .ok 3 ∧ Ini.getSize d "CI.NBETA".toList = .ok 3 ∧
    readOptions exIO d 4 = .ok (.ci, .asci, ⟨3, 3, 0, 4, 0⟩, o) ∧ o.ci = ⟨9, 3, 1 / 2 ^ 52⟩ ∧ o.mp2Guess = false ∧
    o.asci = ⟨3, 100, 100, 8, 0, 1 / 1000000, false, 1000⟩ ∧
    o.contrib = ⟨1 / 100000000, 1 / 100000000, 500000000, false, 0⟩ ∧ o.wfnFile = [] ∧ o.wfnOut = [] := by
  have hp : (Ini.parse triInput).isOk = true := by decide +kernel
  cases hd : Ini.parse triInput with
  | error e => rw [hd] at hp; cases hp
  | ok d =>
    have A : ∀ q ∈ triAbsent, Ini.containsData d q.toList = .ok false := tri_absent_of hd
    have B : ∀ q ∈ triPresent, Ini.containsData d q.toList = .ok true := tri_present_of hd
    have a1 : Ini.getString d "CI.JOB".toList = .ok "CI".toList :=
      parse_fact hd (fun d => Ini.getString d "CI.JOB".toList) (by decide +kernel)
    have a1' : Ini.getString d "CI.EXPANSION".toList = .ok "ASCI".toList :=
      parse_fact hd (fun d => Ini.getString d "CI.EXPANSION".toList) (by decide +kernel)
    have a2 : Ini.getString d "MCSCF.CI_RES_TOL".toList = .ok "9.".toList :=
      parse_fact hd (fun d => Ini.getString d "MCSCF.CI_RES_TOL".toList) (by decide +kernel)
    have a3 : Ini.readSpace d 4 = .ok ⟨3, 3, 0, 4, 0⟩ :=
      parse_fact hd (fun d => Ini.readSpace d 4) (by decide +kernel)
    have b1 : Ini.getString d "CI.FCIDUMP".toList = .ok "F".toList :=
      parse_fact hd (fun d => Ini.getString d "CI.FCIDUMP".toList) (by decide +kernel)
    have b2 : Ini.getSize d "CI.NALPHA".toList = .ok 3 :=
      parse_fact hd (fun d => Ini.getSize d "CI.NALPHA".toList) (by decide +kernel)
    have b3 : Ini.getSize d "CI.NBETA".toList = .ok 3 :=
      parse_fact hd (fun d => Ini.getSize d "CI.NBETA".toList) (by decide +kernel)
    have b4 : Ini.getSize d "ASCI.NTDETS_MAX".toList = .ok 3 :=
      parse_fact hd (fun d => Ini.getSize d "ASCI.NTDETS_MAX".toList) (by decide +kernel)
    have b5 : Ini.getSize d "ASCI.MAX_REFINE_ITER".toList = .ok 0 :=
      parse_fact hd (fun d => Ini.getSize d "ASCI.MAX_REFINE_ITER".toList) (by decide +kernel)
    have b6 : getInt d "ASCI.CONSTRAINT_LVL".toList = .ok 0 :=
      parse_fact hd (fun d => getInt d "ASCI.CONSTRAINT_LVL".toList) (by decide +kernel)
    have b7 : Ini.getSize d "MCSCF.CI_MAX_SUB".toList = .ok 3 :=
      parse_fact hd (fun d => Ini.getSize d "MCSCF.CI_MAX_SUB".toList) (by decide +kernel)
    have a4 : readFileNames d = .ok ([], []) := by
      unfold readFileNames
      rw [optKey_absent (A _ (by decide +kernel)), optKey_absent (A _ (by decide +kernel))]
      rfl
    have a5 : readMcscf exIO d = .ok (⟨100, 1 / 2, 5 / 1000000, true, 3, 10⟩, ⟨9, 3, 1 / 2 ^ 52⟩) := by
      unfold readMcscf
      rw [optKey_absent (A _ (by decide +kernel)), optKey_absent (A _ (by decide +kernel)),
        optKey_absent (A _ (by decide +kernel)), optKey_absent (A _ (by decide +kernel)),
        optKey_absent (A _ (by decide +kernel)), optKey_absent (A _ (by decide +kernel)),
        optKey_present (q := "MCSCF.CI_RES_TOL") (B _ (by decide +kernel)),
        optKey_present (q := "MCSCF.CI_MAX_SUB") (B _ (by decide +kernel)), b7,
        optKey_absent (A _ (by decide +kernel)), getDouble, a2]
      have : exIO.parse "9.".toList = some 9 := by
        change (if "9.".toList = "0.".toList then some (0 : ℝ) else if "9.".toList = "1.".toList then some 1 else
          if "9.".toList = "9.".toList then some 9 else none) = _
        rw [if_neg (by decide +kernel), if_neg (by decide +kernel), if_pos rfl]
      simp only [bind, Except.bind, this]
      rfl
    have a6 : readAsci exIO d = .ok (⟨3, 100, 100, 8, 0, 1 / 1000000, false, 1000⟩,
        ⟨1 / 100000000, 1 / 100000000, 500000000, false, 0⟩, [], [], none) := by
      unfold readAsci
      rw [optKey_present (q := "ASCI.NTDETS_MAX") (B _ (by decide +kernel)), b4,
        optKey_present (q := "ASCI.MAX_REFINE_ITER") (B _ (by decide +kernel)), b5,
        optKey_present (q := "ASCI.CONSTRAINT_LVL") (B _ (by decide +kernel)), b6]
      repeat rw [optKey_absent (A _ (by decide +kernel))]
      rfl
    have a7 : ∃ x, readPrint exIO d = .ok x := by
      unfold readPrint
      repeat rw [optKey_absent (A _ (by decide +kernel))]
      exact ⟨_, rfl⟩
    obtain ⟨⟨z1, z2⟩, a7⟩ := a7
    refine ⟨d, ⟨[], [], ⟨100, 1 / 2, 5 / 1000000, true, 3, 10⟩, ⟨9, 3, 1 / 2 ^ 52⟩,
      ⟨3, 100, 100, 8, 0, 1 / 1000000, false, 1000⟩, ⟨1 / 100000000, 1 / 100000000, 500000000, false, 0⟩, [], [], none,
      false, z1, z2⟩, rfl, b1, b2, b3, ?_, rfl, rfl, rfl, rfl, rfl, rfl⟩
    unfold readOptions
    rw [optKey_present (q := "CI.JOB") (B _ (by decide +kernel)), a1]
    simp only [bind, Except.bind]
    rw [optKey_present (q := "CI.EXPANSION") (B _ (by decide +kernel)), a1', a3, a4, a5, a6, a7]
    simp only
    rw [optKey_absent (q := "MCSCF.MP2_GUESS") (A _ (by decide +kernel))]
    rfl

theorem tri_sector : (∀ s ∈ triDets, InSpace 4 s ∧ alphaElectrons s = 3 ∧ betaElectrons s = 3) ∧
    ∀ t : BitVec (2 * 32), InSpace 4 t → alphaElectrons t = 3 → betaElectrons t = 3 → t ∈ triDets := by
  obtain ⟨hS, -, -, ha, hb, hall⟩ := hilbert_sector (M := 32) (n := 4) (by norm_num) (by norm_num) (by norm_num) tri_hilbert
  exact ⟨fun s hs => ⟨hS.1 s hs, ha s hs, hb s hs⟩, hall⟩

theorem tri_reach_card {s : BitVec (2 * 32)} (h1 : InSpace 4 s) (h2 : alphaElectrons s = 3) (h3 : betaElectrons s = 3) :
    {t | SearchReach 4 false s t}.ncard ≤ 16 := by
  have : {t | SearchReach 4 false s t} ⊆ (triDets.toFinset : Set (BitVec (2 * 32))) := by
    intro t ht
    obtain ⟨a, b, c⟩ := searchReach_sector h1 ht
    simpa using tri_sector.2 t a (b.trans h2) (c.trans h3)
  have := Set.ncard_le_ncard this (Finset.finite_toSet _)
  rw [Set.ncard_coe_finset] at this
  exact this.trans (List.toFinset_card_le _)


end Macis
