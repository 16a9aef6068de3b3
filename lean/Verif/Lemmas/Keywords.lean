import Verif.Spec.Keywords
import Verif.Props.Ini
import Verif.Lemmas.Text
/-! How the options are read. -/
namespace Macis
open Spec Spec.Ini

theorem exc_bind_ok {ε α β : Type} {x : Except ε α} {f : α → Except ε β} {b : β} (h : (x >>= f) = .ok b) :
    ∃ a, x = .ok a ∧ f a = .ok b := by
  cases x with
  | error e => cases h
  | ok a => exact ⟨a, rfl, h⟩

/-- the text of a keyword in a dictionary -/
def look (d : Ini.Dict) (s k : String) : Option Ini.Str := (d s.toList).bind fun m => m k.toList

theorem containsData_look {d : Ini.Dict} {q s k : String} (hq : Ini.splitQuery q.toList = .ok (s.toList, k.toList)) :
    Ini.containsData d q.toList = .ok (look d s k).isSome := by
  unfold Ini.containsData look
  rw [hq]
  show (match d s.toList with
    | none => Except.ok false
    | some m => Except.ok (m k.toList).isSome) = _
  cases d s.toList <;> rfl

theorem getString_look {d : Ini.Dict} {q s k : String} (hq : Ini.splitQuery q.toList = .ok (s.toList, k.toList)) {v : Ini.Str}
    (h : look d s k = some v) : Ini.getString d q.toList = .ok v := by
  unfold look at h
  obtain ⟨m, h1, h2⟩ := Option.bind_eq_some_iff.1 h
  unfold Ini.getString
  rw [hq]
  show (match d s.toList with
    | none => Except.error Ini.Err.sectionNotFound
    | some m => match m k.toList with
      | none => Except.error Ini.Err.dataNotFound
      | some v => Except.ok v) = _
  rw [h1]
  dsimp only
  rw [h2]

theorem optKey_none {α : Type} {g : Ini.Dict → Ini.Str → Except Ini.Err α} {d : Ini.Dict} {q s k : String} {x y : α}
    (hq : Ini.splitQuery q.toList = .ok (s.toList, k.toList)) (h : optKey g d q x = .ok y) (hl : look d s k = none) : y = x := by
  unfold optKey at h
  rw [containsData_look hq, hl] at h
  exact (Except.ok.inj h).symm

theorem optKey_some {α : Type} {g : Ini.Dict → Ini.Str → Except Ini.Err α} {d : Ini.Dict} {q s k : String} {x y : α}
    (hq : Ini.splitQuery q.toList = .ok (s.toList, k.toList)) (h : optKey g d q x = .ok y) {v : Ini.Str}
    (hl : look d s k = some v) : g d q.toList = .ok y := by
  unfold optKey at h
  rw [containsData_look hq, hl] at h
  exact h

theorem opt_count {d : Ini.Dict} {q s k : String} {x y : Nat} (hq : Ini.splitQuery q.toList = .ok (s.toList, k.toList))
    (h : optKey Ini.getSize d q x = .ok y) :
    (look d s k = none → y = x) ∧ ∀ n, look d s k = some (Nat.toDigits 10 n) → y = n := by
  refine ⟨optKey_none hq h, fun n hl => ?_⟩
  have := optKey_some hq h hl
  unfold Ini.getSize at this
  rw [getString_look hq hl] at this
  have e : Ini.stoul (Nat.toDigits 10 n) = .ok y := this
  have e2 := Ini.stoul_digits n [] (by simp)
  rw [List.append_nil, e] at e2
  split at e2
  · exact Except.ok.inj e2
  · cases e2

theorem opt_real {io : NumIO ℝ} {d : Ini.Dict} {q s k : String} {x y : ℝ} (hq : Ini.splitQuery q.toList = .ok (s.toList, k.toList))
    (h : optKey (getDouble io) d q x = .ok y) :
    (look d s k = none → y = x) ∧ ∀ v, look d s k = some v → io.parse v = some y := by
  refine ⟨optKey_none hq h, fun v hl => ?_⟩
  have := optKey_some hq h hl
  unfold getDouble at this
  rw [getString_look hq hl] at this
  have e : (match io.parse v with | some v => Except.ok v | none => Except.error Ini.Err.invalidArgument) = Except.ok y := this
  cases hp : io.parse v with
  | none => rw [hp] at e; cases e
  | some z => rw [hp] at e; rw [Except.ok.inj e]

theorem opt_switch {d : Ini.Dict} {q s k : String} {x y : Bool} (hq : Ini.splitQuery q.toList = .ok (s.toList, k.toList))
    (h : optKey Ini.getBool d q x = .ok y) :
    (look d s k = none → y = x) ∧ ∀ v, look d s k = some v → (y = true ↔ v = "TRUE".toList ∨ v = "ON".toList) := by
  refine ⟨optKey_none hq h, fun v hl => ?_⟩
  have := optKey_some hq h hl
  unfold Ini.getBool at this
  rw [getString_look hq hl] at this
  have e : Except.ok (v == "TRUE".toList || v == "ON".toList) = (Except.ok y : Except Ini.Err Bool) := this
  rw [← Except.ok.inj e]
  simp only [Bool.or_eq_true, beq_iff_eq]

theorem opt_name {d : Ini.Dict} {q s k : String} {x y : Ini.Str} (hq : Ini.splitQuery q.toList = .ok (s.toList, k.toList))
    (h : optKey Ini.getString d q x = .ok y) :
    (look d s k = none → y = x) ∧ ∀ v, look d s k = some v → y = v := by
  refine ⟨optKey_none hq h, fun v hl => ?_⟩
  have := optKey_some hq h hl
  rw [getString_look hq hl] at this
  exact (Except.ok.inj this).symm

theorem opt_int {d : Ini.Dict} {q s k : String} {x y : Int} (hq : Ini.splitQuery q.toList = .ok (s.toList, k.toList))
    (h : optKey getInt d q x = .ok y) :
    (look d s k = none → y = x) ∧ ∀ v, look d s k = some v → stoi v = some y := by
  refine ⟨optKey_none hq h, fun v hl => ?_⟩
  have := optKey_some hq h hl
  unfold getInt at this
  rw [getString_look hq hl] at this
  have e : (match stoi v with | some v => Except.ok v | none => Except.error Ini.Err.invalidArgument) = Except.ok y := this
  cases hp : stoi v with
  | none => rw [hp] at e; cases e
  | some z => rw [hp] at e; rw [Except.ok.inj e]

theorem readMcscf_ok {io : NumIO ℝ} {d : Ini.Dict} {mc : McSettings} {ci : CiSettings} (h : readMcscf io d = .ok (mc, ci)) :
    optKey Ini.getSize d "MCSCF.MAX_MACRO_ITER" 100 = .ok mc.maxMacroIter ∧
    optKey (getDouble io) d "MCSCF.MAX_ORB_STEP" (1 / 2) = .ok mc.maxStep ∧
    optKey (getDouble io) d "MCSCF.MCSCF_ORB_TOL" (5 / 1000000) = .ok mc.tol ∧
    optKey Ini.getBool d "MCSCF.ENABLE_DIIS" true = .ok mc.enableDiis ∧
    optKey Ini.getSize d "MCSCF.DIIS_START_ITER" 3 = .ok mc.diisStart ∧
    optKey Ini.getSize d "MCSCF.DIIS_NKEEP" 10 = .ok mc.diisNkeep ∧
    optKey (getDouble io) d "MCSCF.CI_RES_TOL" (1 / 100000000) = .ok ci.resTol ∧
    optKey Ini.getSize d "MCSCF.CI_MAX_SUB" 20 = .ok ci.maxSub ∧
    optKey (getDouble io) d "MCSCF.CI_MATEL_TOL" (1 / 2 ^ 52) = .ok ci.matelTol := by
  unfold readMcscf at h
  obtain ⟨_, h1, h⟩ := exc_bind_ok h
  obtain ⟨_, h2, h⟩ := exc_bind_ok h
  obtain ⟨_, h3, h⟩ := exc_bind_ok h
  obtain ⟨_, h4, h⟩ := exc_bind_ok h
  obtain ⟨_, h5, h⟩ := exc_bind_ok h
  obtain ⟨_, h6, h⟩ := exc_bind_ok h
  obtain ⟨_, h7, h⟩ := exc_bind_ok h
  obtain ⟨_, h8, h⟩ := exc_bind_ok h
  obtain ⟨_, h9, h⟩ := exc_bind_ok h
  cases h
  exact ⟨h1, h2, h3, h4, h5, h6, h7, h8, h9⟩

theorem readAsci_ok {io : NumIO ℝ} {d : Ini.Dict} {a : AsciSettings ℝ} {c : ContribSettings ℝ} {wfn out : Ini.Str}
    {e0 : Option ℝ} (h : readAsci io d = .ok (a, c, wfn, out, e0)) :
    optKey Ini.getSize d "ASCI.NTDETS_MAX" 100000 = .ok a.ntdetsMax ∧
    optKey Ini.getSize d "ASCI.NTDETS_MIN" 100 = .ok a.ntdetsMin ∧
    optKey Ini.getSize d "ASCI.NCDETS_MAX" 100 = .ok a.ncdetsMax ∧
    optKey (getDouble io) d "ASCI.HAM_EL_TOL" (1 / 100000000) = .ok c.hElTol ∧
    optKey (getDouble io) d "ASCI.RV_PRUNE_TOL" (1 / 100000000) = .ok c.rvPruneTol ∧
    optKey Ini.getSize d "ASCI.PAIR_MAX_LIM" 500000000 = .ok c.pairSizeMax ∧
    optKey (fun d q => do return intToSize (← getInt d q)) d "ASCI.GROW_FACTOR" 8 = .ok a.growFactor ∧
    optKey Ini.getSize d "ASCI.MAX_REFINE_ITER" 6 = .ok a.maxRefineIter ∧
    optKey (getDouble io) d "ASCI.REFINE_ETOL" (1 / 1000000) = .ok a.refineEnergyTol ∧
    optKey Ini.getBool d "ASCI.GROW_WITH_ROT" false = .ok a.growWithRot ∧
    optKey Ini.getSize d "ASCI.ROT_SIZE_START" 1000 = .ok a.rotSizeStart ∧
    (∃ l, optKey getInt d "ASCI.CONSTRAINT_LVL" 2 = .ok l ∧ c.constraintLevel = l.toNat) ∧
    optKey Ini.getString d "ASCI.WFN_FILE" [] = .ok wfn ∧
    optKey Ini.getString d "ASCI.WFN_OUT_FILE" [] = .ok out ∧
    optKey (fun d q => do return some (← getDouble io d q)) d "ASCI.E0_WFN" none = .ok e0 := by
  unfold readAsci at h
  obtain ⟨_, h1, h⟩ := exc_bind_ok h
  obtain ⟨_, h2, h⟩ := exc_bind_ok h
  obtain ⟨_, h3, h⟩ := exc_bind_ok h
  obtain ⟨_, h4, h⟩ := exc_bind_ok h
  obtain ⟨_, h5, h⟩ := exc_bind_ok h
  obtain ⟨_, h6, h⟩ := exc_bind_ok h
  obtain ⟨_, h7, h⟩ := exc_bind_ok h
  obtain ⟨_, h8, h⟩ := exc_bind_ok h
  obtain ⟨_, h9, h⟩ := exc_bind_ok h
  obtain ⟨_, h10, h⟩ := exc_bind_ok h
  obtain ⟨_, h11, h⟩ := exc_bind_ok h
  obtain ⟨_, h12, h⟩ := exc_bind_ok h
  obtain ⟨_, h13, h⟩ := exc_bind_ok h
  obtain ⟨_, h14, h⟩ := exc_bind_ok h
  obtain ⟨_, h15, h⟩ := exc_bind_ok h
  cases h
  exact ⟨h1, h2, h3, h4, h5, h6, h7, h8, h9, h10, h11, ⟨_, h12, rfl⟩, h13, h14, h15⟩

theorem readPrint_ok {io : NumIO ℝ} {d : Ini.Dict} {p : Bool} {t : ℝ} (h : readPrint io d = .ok (p, t)) :
    optKey Ini.getBool d "PRINT.DETERMINANTS" false = .ok p ∧
    optKey (getDouble io) d "PRINT.DETERMINANTS_THRES" (1 / 100) = .ok t := by
  unfold readPrint at h
  obtain ⟨_, h1, h⟩ := exc_bind_ok h
  obtain ⟨_, h2, h⟩ := exc_bind_ok h
  obtain ⟨_, h3, h⟩ := exc_bind_ok h
  obtain ⟨_, h4, h⟩ := exc_bind_ok h
  obtain ⟨_, h5, h⟩ := exc_bind_ok h
  obtain ⟨_, h6, h⟩ := exc_bind_ok h
  obtain ⟨_, h7, h⟩ := exc_bind_ok h
  cases h
  exact ⟨h6, h7⟩

theorem readOptions_ok {io : NumIO ℝ} {d : Ini.Dict} {norb : Nat} {job : Job} {exp : Expansion} {sp : Ini.Space}
    {o : DriverSettings} (h : readOptions io d norb = .ok (job, exp, sp, o)) :
    (∃ s, optKey Ini.getString d "CI.JOB" "MCSCF".toList = .ok s ∧ jobOf s = .ok job) ∧
    (∃ s, optKey Ini.getString d "CI.EXPANSION" "CAS".toList = .ok s ∧ expansionOf s = .ok exp) ∧
    Ini.readSpace d norb = .ok sp ∧
    optKey Ini.getString d "CI.RDMFILE" [] = .ok o.rdmFile ∧ optKey Ini.getString d "CI.FCIDUMP_OUT" [] = .ok o.fciOut ∧
    readMcscf io d = .ok (o.mc, o.ci) ∧ readAsci io d = .ok (o.asci, o.contrib, o.wfnFile, o.wfnOut, o.e0) ∧
    optKey Ini.getBool d "MCSCF.MP2_GUESS" false = .ok o.mp2Guess ∧ readPrint io d = .ok (o.printDets, o.detThresh) := by
  unfold readOptions at h
  obtain ⟨s1, h1, h⟩ := exc_bind_ok h
  obtain ⟨j, h2, h⟩ := exc_bind_ok h
  obtain ⟨s2, h3, h⟩ := exc_bind_ok h
  obtain ⟨e, h4, h⟩ := exc_bind_ok h
  obtain ⟨_, h5, h⟩ := exc_bind_ok h
  obtain ⟨⟨_, _⟩, h6, h⟩ := exc_bind_ok h
  obtain ⟨⟨_, _⟩, h7, h⟩ := exc_bind_ok h
  obtain ⟨⟨_, _, _, _, _⟩, h8, h⟩ := exc_bind_ok h
  obtain ⟨_, h9, h⟩ := exc_bind_ok h
  obtain ⟨⟨_, _⟩, h10, h⟩ := exc_bind_ok h
  cases h
  unfold readFileNames at h6
  obtain ⟨_, h11, h6⟩ := exc_bind_ok h6
  obtain ⟨_, h12, h6⟩ := exc_bind_ok h6
  cases h6
  exact ⟨⟨s1, h1, h2⟩, ⟨s2, h3, h4⟩, h5, h11, h12, h7, h8, h9, h10⟩

/-! ### nothing else matters -/

theorem optKey_congr {α : Type} {g : Ini.Dict → Ini.Str → Except Ini.Err α} {d d' : Ini.Dict} {q s k : String} {x : α}
    (hq : Ini.splitQuery q.toList = .ok (s.toList, k.toList)) (hl : look d s k = look d' s k)
    (hg : ∀ v, Ini.getString d q.toList = .ok v → Ini.getString d' q.toList = .ok v → g d q.toList = g d' q.toList) :
    optKey g d q x = optKey g d' q x := by
  unfold optKey
  rw [containsData_look hq, containsData_look hq, ← hl]
  cases hv : look d s k with
  | none => rfl
  | some v =>
    show g d q.toList = g d' q.toList
    exact hg v (getString_look hq hv) (getString_look hq (hl.symm.trans hv))

variable {d d' : Ini.Dict} {q : Ini.Str} {v : Ini.Str}

theorem getSize_congr (h : Ini.getString d q = .ok v) (h' : Ini.getString d' q = .ok v) : Ini.getSize d q = Ini.getSize d' q := by
  unfold Ini.getSize; rw [h, h']

theorem getBool_congr (h : Ini.getString d q = .ok v) (h' : Ini.getString d' q = .ok v) : Ini.getBool d q = Ini.getBool d' q := by
  unfold Ini.getBool; rw [h, h']

theorem getInt_congr (h : Ini.getString d q = .ok v) (h' : Ini.getString d' q = .ok v) : getInt d q = getInt d' q := by
  unfold getInt; rw [h, h']

theorem getDouble_congr (io : NumIO ℝ) (h : Ini.getString d q = .ok v) (h' : Ini.getString d' q = .ok v) :
    getDouble io d q = getDouble io d' q := by
  unfold getDouble; rw [h, h']

/-- the two dictionaries say the same for every keyword of the program -/
def SameKeywords (d d' : Ini.Dict) : Prop := ∀ s k, (s, k) ∈ allKeywords → look d s k = look d' s k

variable (hall : SameKeywords d d')
include hall

theorem readMcscf_congr (io : NumIO ℝ) : readMcscf io d = readMcscf io d' := by
  unfold readMcscf
  rw [
    optKey_congr (q := "MCSCF.MAX_MACRO_ITER") (s := "MCSCF") (k := "MAX_MACRO_ITER") (by decide +kernel) (hall _ _ (by decide +kernel)) (fun _ h h' => getSize_congr h h'),
    optKey_congr (q := "MCSCF.MAX_ORB_STEP") (s := "MCSCF") (k := "MAX_ORB_STEP") (by decide +kernel) (hall _ _ (by decide +kernel)) (fun _ h h' => getDouble_congr io h h'),
    optKey_congr (q := "MCSCF.MCSCF_ORB_TOL") (s := "MCSCF") (k := "MCSCF_ORB_TOL") (by decide +kernel) (hall _ _ (by decide +kernel)) (fun _ h h' => getDouble_congr io h h'),
    optKey_congr (q := "MCSCF.ENABLE_DIIS") (s := "MCSCF") (k := "ENABLE_DIIS") (by decide +kernel) (hall _ _ (by decide +kernel)) (fun _ h h' => getBool_congr h h'),
    optKey_congr (q := "MCSCF.DIIS_START_ITER") (s := "MCSCF") (k := "DIIS_START_ITER") (by decide +kernel) (hall _ _ (by decide +kernel)) (fun _ h h' => getSize_congr h h'),
    optKey_congr (q := "MCSCF.DIIS_NKEEP") (s := "MCSCF") (k := "DIIS_NKEEP") (by decide +kernel) (hall _ _ (by decide +kernel)) (fun _ h h' => getSize_congr h h'),
    optKey_congr (q := "MCSCF.CI_RES_TOL") (s := "MCSCF") (k := "CI_RES_TOL") (by decide +kernel) (hall _ _ (by decide +kernel)) (fun _ h h' => getDouble_congr io h h'),
    optKey_congr (q := "MCSCF.CI_MAX_SUB") (s := "MCSCF") (k := "CI_MAX_SUB") (by decide +kernel) (hall _ _ (by decide +kernel)) (fun _ h h' => getSize_congr h h'),
    optKey_congr (q := "MCSCF.CI_MATEL_TOL") (s := "MCSCF") (k := "CI_MATEL_TOL") (by decide +kernel) (hall _ _ (by decide +kernel)) (fun _ h h' => getDouble_congr io h h')]

theorem readAsci_congr (io : NumIO ℝ) : readAsci io d = readAsci io d' := by
  unfold readAsci
  rw [
    optKey_congr (q := "ASCI.NTDETS_MAX") (s := "ASCI") (k := "NTDETS_MAX") (by decide +kernel) (hall _ _ (by decide +kernel)) (fun _ h h' => getSize_congr h h'),
    optKey_congr (q := "ASCI.NTDETS_MIN") (s := "ASCI") (k := "NTDETS_MIN") (by decide +kernel) (hall _ _ (by decide +kernel)) (fun _ h h' => getSize_congr h h'),
    optKey_congr (q := "ASCI.NCDETS_MAX") (s := "ASCI") (k := "NCDETS_MAX") (by decide +kernel) (hall _ _ (by decide +kernel)) (fun _ h h' => getSize_congr h h'),
    optKey_congr (q := "ASCI.HAM_EL_TOL") (s := "ASCI") (k := "HAM_EL_TOL") (by decide +kernel) (hall _ _ (by decide +kernel)) (fun _ h h' => getDouble_congr io h h'),
    optKey_congr (q := "ASCI.RV_PRUNE_TOL") (s := "ASCI") (k := "RV_PRUNE_TOL") (by decide +kernel) (hall _ _ (by decide +kernel)) (fun _ h h' => getDouble_congr io h h'),
    optKey_congr (q := "ASCI.PAIR_MAX_LIM") (s := "ASCI") (k := "PAIR_MAX_LIM") (by decide +kernel) (hall _ _ (by decide +kernel)) (fun _ h h' => getSize_congr h h'),
    optKey_congr (q := "ASCI.GROW_FACTOR") (s := "ASCI") (k := "GROW_FACTOR") (by decide +kernel) (hall _ _ (by decide +kernel)) (fun _ h h' => by rw [getInt_congr h h']),
    optKey_congr (q := "ASCI.MAX_REFINE_ITER") (s := "ASCI") (k := "MAX_REFINE_ITER") (by decide +kernel) (hall _ _ (by decide +kernel)) (fun _ h h' => getSize_congr h h'),
    optKey_congr (q := "ASCI.REFINE_ETOL") (s := "ASCI") (k := "REFINE_ETOL") (by decide +kernel) (hall _ _ (by decide +kernel)) (fun _ h h' => getDouble_congr io h h'),
    optKey_congr (q := "ASCI.GROW_WITH_ROT") (s := "ASCI") (k := "GROW_WITH_ROT") (by decide +kernel) (hall _ _ (by decide +kernel)) (fun _ h h' => getBool_congr h h'),
    optKey_congr (q := "ASCI.ROT_SIZE_START") (s := "ASCI") (k := "ROT_SIZE_START") (by decide +kernel) (hall _ _ (by decide +kernel)) (fun _ h h' => getSize_congr h h'),
    optKey_congr (q := "ASCI.CONSTRAINT_LVL") (s := "ASCI") (k := "CONSTRAINT_LVL") (by decide +kernel) (hall _ _ (by decide +kernel)) (fun _ h h' => getInt_congr h h'),
    optKey_congr (q := "ASCI.WFN_FILE") (s := "ASCI") (k := "WFN_FILE") (by decide +kernel) (hall _ _ (by decide +kernel)) (fun _ h h' => h.trans h'.symm),
    optKey_congr (q := "ASCI.WFN_OUT_FILE") (s := "ASCI") (k := "WFN_OUT_FILE") (by decide +kernel) (hall _ _ (by decide +kernel)) (fun _ h h' => h.trans h'.symm),
    optKey_congr (q := "ASCI.E0_WFN") (s := "ASCI") (k := "E0_WFN") (by decide +kernel) (hall _ _ (by decide +kernel)) (fun _ h h' => by rw [getDouble_congr io h h'])]

theorem readPrint_congr (io : NumIO ℝ) : readPrint io d = readPrint io d' := by
  unfold readPrint
  rw [
    optKey_congr (q := "PRINT.DAVIDSON") (s := "PRINT") (k := "DAVIDSON") (by decide +kernel) (hall _ _ (by decide +kernel)) (fun _ h h' => getBool_congr h h'),
    optKey_congr (q := "PRINT.CI") (s := "PRINT") (k := "CI") (by decide +kernel) (hall _ _ (by decide +kernel)) (fun _ h h' => getBool_congr h h'),
    optKey_congr (q := "PRINT.MCSCF") (s := "PRINT") (k := "MCSCF") (by decide +kernel) (hall _ _ (by decide +kernel)) (fun _ h h' => getBool_congr h h'),
    optKey_congr (q := "PRINT.DIIS") (s := "PRINT") (k := "DIIS") (by decide +kernel) (hall _ _ (by decide +kernel)) (fun _ h h' => getBool_congr h h'),
    optKey_congr (q := "PRINT.ASCI_SEARCH") (s := "PRINT") (k := "ASCI_SEARCH") (by decide +kernel) (hall _ _ (by decide +kernel)) (fun _ h h' => getBool_congr h h'),
    optKey_congr (q := "PRINT.DETERMINANTS") (s := "PRINT") (k := "DETERMINANTS") (by decide +kernel) (hall _ _ (by decide +kernel)) (fun _ h h' => getBool_congr h h'),
    optKey_congr (q := "PRINT.DETERMINANTS_THRES") (s := "PRINT") (k := "DETERMINANTS_THRES") (by decide +kernel) (hall _ _ (by decide +kernel)) (fun _ h h' => getDouble_congr io h h')]

theorem readFileNames_congr : readFileNames d = readFileNames d' := by
  unfold readFileNames
  rw [
    optKey_congr (q := "CI.RDMFILE") (s := "CI") (k := "RDMFILE") (by decide +kernel) (hall _ _ (by decide +kernel)) (fun _ h h' => h.trans h'.symm),
    optKey_congr (q := "CI.FCIDUMP_OUT") (s := "CI") (k := "FCIDUMP_OUT") (by decide +kernel) (hall _ _ (by decide +kernel)) (fun _ h h' => h.trans h'.symm)]

theorem readSpace_congr (norb : Nat) (ha : Ini.getSize d "CI.NALPHA".toList = Ini.getSize d' "CI.NALPHA".toList)
    (hb : Ini.getSize d "CI.NBETA".toList = Ini.getSize d' "CI.NBETA".toList) : Ini.readSpace d norb = Ini.readSpace d' norb := by
  have h1 : ∀ x, Ini.optSize d "CI.NINACTIVE".toList x = Ini.optSize d' "CI.NINACTIVE".toList x := fun x =>
    optKey_congr (q := "CI.NINACTIVE") (s := "CI") (k := "NINACTIVE") (by decide +kernel) (hall _ _ (by decide +kernel)) (fun _ h h' => getSize_congr h h')
  have h2 : ∀ x, Ini.optSize d "CI.NACTIVE".toList x = Ini.optSize d' "CI.NACTIVE".toList x := fun x =>
    optKey_congr (q := "CI.NACTIVE") (s := "CI") (k := "NACTIVE") (by decide +kernel) (hall _ _ (by decide +kernel)) (fun _ h h' => getSize_congr h h')
  unfold Ini.readSpace
  rw [ha, hb, h1]
  simp only [h2]

theorem readOptions_congr (io : NumIO ℝ) (norb : Nat) (ha : Ini.getSize d "CI.NALPHA".toList = Ini.getSize d' "CI.NALPHA".toList)
    (hb : Ini.getSize d "CI.NBETA".toList = Ini.getSize d' "CI.NBETA".toList) :
    readOptions io d norb = readOptions io d' norb := by
  unfold readOptions
  rw [
    optKey_congr (q := "CI.JOB") (s := "CI") (k := "JOB") (by decide +kernel) (hall _ _ (by decide +kernel)) (fun _ h h' => h.trans h'.symm),
    optKey_congr (q := "CI.EXPANSION") (s := "CI") (k := "EXPANSION") (by decide +kernel) (hall _ _ (by decide +kernel)) (fun _ h h' => h.trans h'.symm),
    optKey_congr (q := "MCSCF.MP2_GUESS") (s := "MCSCF") (k := "MP2_GUESS") (by decide +kernel) (hall _ _ (by decide +kernel)) (fun _ h h' => getBool_congr h h'),
    readSpace_congr hall norb ha hb, readFileNames_congr hall, readMcscf_congr hall io, readAsci_congr hall io,
    readPrint_congr hall io]

/-- a required keyword -/
theorem required_congr {q s k : String} (hq : Ini.splitQuery q.toList = .ok (s.toList, k.toList)) (hm : (s, k) ∈ allKeywords) :
    (∃ v, Ini.getString d q.toList = .ok v ∧ Ini.getString d' q.toList = .ok v) ∨
    ((∃ e, e ≠ Ini.Err.undefined ∧ Ini.getString d q.toList = .error e) ∧
      ∃ e, e ≠ Ini.Err.undefined ∧ Ini.getString d' q.toList = .error e) := by
  have hl := hall s k hm
  cases hv : look d s k with
  | some v => exact Or.inl ⟨v, getString_look hq hv, getString_look hq (hl.symm.trans hv)⟩
  | none =>
    right
    have key : ∀ d : Ini.Dict, look d s k = none → ∃ e, e ≠ Ini.Err.undefined ∧ Ini.getString d q.toList = .error e := by
      intro d hd
      unfold look at hd
      unfold Ini.getString
      rw [hq]
      show ∃ e, e ≠ Ini.Err.undefined ∧ (match d s.toList with
        | none => Except.error Ini.Err.sectionNotFound
        | some m => match m k.toList with
          | none => Except.error Ini.Err.dataNotFound
          | some v => Except.ok v) = Except.error e
      cases hs : d s.toList with
      | none => exact ⟨_, by decide, rfl⟩
      | some m =>
        rw [hs] at hd
        have hd : m k.toList = none := hd
        dsimp only
        rw [hd]
        exact ⟨_, by decide, rfl⟩
    exact ⟨key d hv, key d' (hl.symm.trans hv)⟩

omit hall in
theorem ofExcept_err {α : Type} {e : Ini.Err} (h : e ≠ .undefined) : ofExcept (.error e : Except Ini.Err α) = .throw := by
  cases e <;> first | rfl | exact absurd rfl h

/-- from what is read for the keywords on -/
noncomputable def driverWith (env : DriverEnv) (F : Except Ini.Err Ini.Str) (A B : Except Ini.Err Nat)
    (opts : Nat → Except Ini.Err (Job × Expansion × Ini.Space × DriverSettings)) : Out DriverOut :=
  (ofExcept F).bind fun name =>
  (ofExcept A).bind fun na =>
  (ofExcept B).bind fun nb =>
  if na ≠ nb then .throw
  else
    (readIntegrals env.io (env.text name)).toOut.bind fun f =>
    (ofExcept (opts f.norb)).bind fun (job, exp, sp, o) => runJob env job exp sp o f

omit hall in
theorem driver_with (env : DriverEnv) (input : List Char) :
    driver env input = (ofExcept (Ini.parse input)).bind fun d =>
      driverWith env (Ini.getString d "CI.FCIDUMP".toList) (Ini.getSize d "CI.NALPHA".toList) (Ini.getSize d "CI.NBETA".toList)
        (readOptions env.io d) := rfl

/-- the same value, or both an error that ends the program -/
def SameOrThrow {α : Type} (x y : Except Ini.Err α) : Prop :=
  x = y ∨ ((∃ e, e ≠ Ini.Err.undefined ∧ x = .error e) ∧ ∃ e, e ≠ Ini.Err.undefined ∧ y = .error e)

omit hall in
theorem driverWith_congr (env : DriverEnv) {F F' : Except Ini.Err Ini.Str} {A A' B B' : Except Ini.Err Nat}
    {opts opts' : Nat → Except Ini.Err (Job × Expansion × Ini.Space × DriverSettings)} (hF : SameOrThrow F F')
    (hA : SameOrThrow A A') (hB : SameOrThrow B B') (ho : A = A' → B = B' → opts = opts') :
    driverWith env F A B opts = driverWith env F' A' B' opts' := by
  unfold driverWith
  rcases hF with rfl | ⟨⟨e, n1, rfl⟩, e', n2, rfl⟩
  swap
  · rw [ofExcept_err n1, ofExcept_err n2]; rfl
  cases ofExcept F with
  | throw => rfl
  | ub => rfl
  | nonfinite => rfl
  | ok name =>
  simp only [Out.bind]
  rcases hA with rfl | ⟨⟨e, n1, rfl⟩, e', n2, rfl⟩
  swap
  · rw [ofExcept_err n1, ofExcept_err n2]
  cases ofExcept A with
  | throw => rfl
  | ub => rfl
  | nonfinite => rfl
  | ok na =>
  simp only
  rcases hB with rfl | ⟨⟨e, n1, rfl⟩, e', n2, rfl⟩
  swap
  · rw [ofExcept_err n1, ofExcept_err n2]
  rw [ho rfl rfl]

omit hall in
theorem getSize_same {q : Ini.Str} (h : SameOrThrow (Ini.getString d q) (Ini.getString d' q)) :
    SameOrThrow (Ini.getSize d q) (Ini.getSize d' q) := by
  unfold Ini.getSize
  rcases h with h | ⟨⟨e, n1, h1⟩, e', n2, h2⟩
  · rw [h]; exact Or.inl rfl
  · rw [h1, h2]; exact Or.inr ⟨⟨e, n1, rfl⟩, e', n2, rfl⟩

theorem required_same {q s k : String} (hq : Ini.splitQuery q.toList = .ok (s.toList, k.toList)) (hm : (s, k) ∈ allKeywords) :
    SameOrThrow (Ini.getString d q.toList) (Ini.getString d' q.toList) := by
  rcases required_congr hall hq hm with ⟨v, h1, h2⟩ | h
  · exact Or.inl (h1.trans h2.symm)
  · exact Or.inr h

theorem driver_dict_congr (env : DriverEnv) :
    driverWith env (Ini.getString d "CI.FCIDUMP".toList) (Ini.getSize d "CI.NALPHA".toList) (Ini.getSize d "CI.NBETA".toList)
        (readOptions env.io d) =
      driverWith env (Ini.getString d' "CI.FCIDUMP".toList) (Ini.getSize d' "CI.NALPHA".toList)
        (Ini.getSize d' "CI.NBETA".toList) (readOptions env.io d') :=
  driverWith_congr env
    (required_same hall (q := "CI.FCIDUMP") (s := "CI") (k := "FCIDUMP") (by decide +kernel) (by decide +kernel))
    (getSize_same (required_same hall (q := "CI.NALPHA") (s := "CI") (k := "NALPHA") (by decide +kernel) (by decide +kernel)))
    (getSize_same (required_same hall (q := "CI.NBETA") (s := "CI") (k := "NBETA") (by decide +kernel) (by decide +kernel)))
    fun ha hb => funext fun norb => readOptions_congr hall env.io norb ha hb

end Macis
