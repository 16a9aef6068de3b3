import Verif.Lemmas.Keywords
/-
C167: every keyword of the standalone program's input file sets its own setting and no other, with its default when it
is not given; nothing else in the file matters.
-/
namespace Macis
open Spec Spec.Ini

variable {io : NumIO ℝ} {ls : List Line} {norb : Nat} {job : Job} {exp : Expansion} {sp : Ini.Space} {o : DriverSettings}

theorem read_meaning {α : Type} {ls : List Line} (wf : ∀ l ∈ ls, l.WF) {f : Ini.Dict → Except Ini.Err α} {x : α}
    (h : (Ini.parse (file ls) >>= f) = .ok x) : f (meaning ls) = .ok x := by
  obtain ⟨d, h1, h2⟩ := exc_bind_ok h
  rw [Ini.C138_read ls wf] at h1
  rwa [Except.ok.inj h1]

/-- C167 (counts): every well-formed input file: each count keyword sets its setting to the number written, and the
setting has its default when the keyword is not given. -/
theorem C167_counts (wf : ∀ l ∈ ls, l.WF)
    (h : (Ini.parse (file ls) >>= fun d => readOptions io d norb) = .ok (job, exp, sp, o)) :
    ∀ k ∈ countKeywords, (given ls k.sec k.key = none → k.setting o = k.dflt) ∧
      ∀ n, given ls k.sec k.key = some (Nat.toDigits 10 n) → k.setting o = n := by
  replace h := read_meaning wf h
  obtain ⟨-, -, -, -, -, hm, ha, -, -⟩ := readOptions_ok (d := meaning ls) h
  obtain ⟨m1, -, -, -, m5, m6, -, m8, -⟩ := readMcscf_ok hm
  obtain ⟨a1, a2, a3, -, -, a6, -, a8, -, -, a11, -⟩ := readAsci_ok ha
  intro k hk
  simp only [countKeywords, List.mem_cons, List.not_mem_nil, or_false] at hk
  rcases hk with rfl | rfl | rfl | rfl | rfl | rfl | rfl | rfl | rfl | rfl
  · exact opt_count (q := "MCSCF.MAX_MACRO_ITER") (s := "MCSCF") (k := "MAX_MACRO_ITER") (by decide +kernel) m1
  · exact opt_count (q := "MCSCF.DIIS_START_ITER") (s := "MCSCF") (k := "DIIS_START_ITER") (by decide +kernel) m5
  · exact opt_count (q := "MCSCF.DIIS_NKEEP") (s := "MCSCF") (k := "DIIS_NKEEP") (by decide +kernel) m6
  · exact opt_count (q := "MCSCF.CI_MAX_SUB") (s := "MCSCF") (k := "CI_MAX_SUB") (by decide +kernel) m8
  · exact opt_count (q := "ASCI.NTDETS_MAX") (s := "ASCI") (k := "NTDETS_MAX") (by decide +kernel) a1
  · exact opt_count (q := "ASCI.NTDETS_MIN") (s := "ASCI") (k := "NTDETS_MIN") (by decide +kernel) a2
  · exact opt_count (q := "ASCI.NCDETS_MAX") (s := "ASCI") (k := "NCDETS_MAX") (by decide +kernel) a3
  · exact opt_count (q := "ASCI.PAIR_MAX_LIM") (s := "ASCI") (k := "PAIR_MAX_LIM") (by decide +kernel) a6
  · exact opt_count (q := "ASCI.MAX_REFINE_ITER") (s := "ASCI") (k := "MAX_REFINE_ITER") (by decide +kernel) a8
  · exact opt_count (q := "ASCI.ROT_SIZE_START") (s := "ASCI") (k := "ROT_SIZE_START") (by decide +kernel) a11

/-- C167 (numbers): likewise for the keywords that stand for real numbers. -/
theorem C167_reals (wf : ∀ l ∈ ls, l.WF)
    (h : (Ini.parse (file ls) >>= fun d => readOptions io d norb) = .ok (job, exp, sp, o)) :
    ∀ k ∈ realKeywords, (given ls k.sec k.key = none → k.setting o = k.dflt) ∧
      ∀ v, given ls k.sec k.key = some v → io.parse v = some (k.setting o) := by
  replace h := read_meaning wf h
  obtain ⟨-, -, -, -, -, hm, ha, -, hp⟩ := readOptions_ok (d := meaning ls) h
  obtain ⟨-, m2, m3, -, -, -, m7, -, m9⟩ := readMcscf_ok hm
  obtain ⟨-, -, -, a4, a5, -, -, -, a9, -⟩ := readAsci_ok ha
  obtain ⟨-, p2⟩ := readPrint_ok hp
  have conv : ∀ {q s k : String} {x x' y : ℝ}, Ini.splitQuery q.toList = .ok (s.toList, k.toList) → x = x' →
      optKey (getDouble io) (meaning ls) q x = .ok y →
      (given ls s k = none → y = x') ∧ ∀ v, given ls s k = some v → io.parse v = some y := by
    rintro q s k x x' y hq rfl h
    exact opt_real hq h
  intro k hk
  simp only [realKeywords, List.mem_cons, List.not_mem_nil, or_false] at hk
  rcases hk with rfl | rfl | rfl | rfl | rfl | rfl | rfl | rfl
  · exact conv (q := "MCSCF.MAX_ORB_STEP") (s := "MCSCF") (k := "MAX_ORB_STEP") (by decide +kernel) (by norm_num) m2
  · exact conv (q := "MCSCF.MCSCF_ORB_TOL") (s := "MCSCF") (k := "MCSCF_ORB_TOL") (by decide +kernel) (by norm_num) m3
  · exact conv (q := "MCSCF.CI_RES_TOL") (s := "MCSCF") (k := "CI_RES_TOL") (by decide +kernel) (by norm_num) m7
  · exact conv (q := "MCSCF.CI_MATEL_TOL") (s := "MCSCF") (k := "CI_MATEL_TOL") (by decide +kernel) (by norm_num) m9
  · exact conv (q := "ASCI.HAM_EL_TOL") (s := "ASCI") (k := "HAM_EL_TOL") (by decide +kernel) (by norm_num) a4
  · exact conv (q := "ASCI.RV_PRUNE_TOL") (s := "ASCI") (k := "RV_PRUNE_TOL") (by decide +kernel) (by norm_num) a5
  · exact conv (q := "ASCI.REFINE_ETOL") (s := "ASCI") (k := "REFINE_ETOL") (by decide +kernel) (by norm_num) a9
  · exact conv (q := "PRINT.DETERMINANTS_THRES") (s := "PRINT") (k := "DETERMINANTS_THRES") (by decide +kernel) (by norm_num) p2

/-- C167 (switches): a switch is on exactly when `TRUE` or `ON` is written, and has its default when not given. -/
theorem C167_switches (wf : ∀ l ∈ ls, l.WF)
    (h : (Ini.parse (file ls) >>= fun d => readOptions io d norb) = .ok (job, exp, sp, o)) :
    ∀ k ∈ switchKeywords, (given ls k.sec k.key = none → k.setting o = k.dflt) ∧
      ∀ v, given ls k.sec k.key = some v → (k.setting o = true ↔ v = "TRUE".toList ∨ v = "ON".toList) := by
  replace h := read_meaning wf h
  obtain ⟨-, -, -, -, -, hm, ha, h2, hp⟩ := readOptions_ok (d := meaning ls) h
  obtain ⟨-, -, -, m4, -⟩ := readMcscf_ok hm
  obtain ⟨-, -, -, -, -, -, -, -, -, a10, -⟩ := readAsci_ok ha
  obtain ⟨p1, -⟩ := readPrint_ok hp
  intro k hk
  simp only [switchKeywords, List.mem_cons, List.not_mem_nil, or_false] at hk
  rcases hk with rfl | rfl | rfl | rfl
  · exact opt_switch (q := "MCSCF.ENABLE_DIIS") (s := "MCSCF") (k := "ENABLE_DIIS") (by decide +kernel) m4
  · exact opt_switch (q := "MCSCF.MP2_GUESS") (s := "MCSCF") (k := "MP2_GUESS") (by decide +kernel) h2
  · exact opt_switch (q := "ASCI.GROW_WITH_ROT") (s := "ASCI") (k := "GROW_WITH_ROT") (by decide +kernel) a10
  · exact opt_switch (q := "PRINT.DETERMINANTS") (s := "PRINT") (k := "DETERMINANTS") (by decide +kernel) p1

/-- C167 (file names): a file name is what is written, and empty when not given. -/
theorem C167_names (wf : ∀ l ∈ ls, l.WF)
    (h : (Ini.parse (file ls) >>= fun d => readOptions io d norb) = .ok (job, exp, sp, o)) :
    ∀ k ∈ nameKeywords, (given ls k.sec k.key = none → k.setting o = k.dflt) ∧
      ∀ v, given ls k.sec k.key = some v → k.setting o = v := by
  replace h := read_meaning wf h
  obtain ⟨-, -, -, h1, h2, -, ha, -, -⟩ := readOptions_ok (d := meaning ls) h
  obtain ⟨-, -, -, -, -, -, -, -, -, -, -, -, a13, a14, -⟩ := readAsci_ok ha
  intro k hk
  simp only [nameKeywords, List.mem_cons, List.not_mem_nil, or_false] at hk
  rcases hk with rfl | rfl | rfl | rfl
  · exact opt_name (q := "CI.RDMFILE") (s := "CI") (k := "RDMFILE") (by decide +kernel) h1
  · exact opt_name (q := "CI.FCIDUMP_OUT") (s := "CI") (k := "FCIDUMP_OUT") (by decide +kernel) h2
  · exact opt_name (q := "ASCI.WFN_FILE") (s := "ASCI") (k := "WFN_FILE") (by decide +kernel) a13
  · exact opt_name (q := "ASCI.WFN_OUT_FILE") (s := "ASCI") (k := "WFN_OUT_FILE") (by decide +kernel) a14

/-- the value of a minus sign and digits -/
theorem stoi_minus {n : Nat} (h : n ≤ 2147483648) : stoi ('-' :: Nat.toDigits 10 n) = some (-(n : Int)) := by
  have hd : ∀ x ∈ showNat n, x.isDigit = true := fun x hx => showNat_digit hx
  have e1 : ('-' :: showNat n).dropWhile isSpaceC = '-' :: showNat n := by
    rw [List.dropWhile_cons_of_neg (by decide)]
  have e2 : (showNat n).takeWhile Char.isDigit = showNat n := by
    rw [List.takeWhile_eq_self_iff]; exact hd
  have hne : (showNat n).isEmpty = false := by
    obtain ⟨c, cs, hc⟩ := List.exists_cons_of_ne_nil (showNat_ne_nil n)
    rw [hc]; rfl
  have hv : Nat.ofDigitChars 10 (showNat n) 0 = n := by
    rw [showNat]
    exact Nat.ofDigitChars_toDigits (by norm_num) (by norm_num)
  show stoi ('-' :: showNat n) = _
  unfold stoi
  rw [e1]
  simp only [List.head?_cons, if_true, Option.some.injEq, decide_true, Bool.true_or, List.tail_cons, e2, hne,
    Bool.false_eq_true, if_false, hv]
  rw [if_pos (by omega)]
  congr 1
  omega

/-- C167 (integers): the growth factor and the constraint level are the number written, 8 and 2 when not given; but a
negative growth factor is read without complaint as a huge one. -/
theorem C167_integers (wf : ∀ l ∈ ls, l.WF)
    (h : (Ini.parse (file ls) >>= fun d => readOptions io d norb) = .ok (job, exp, sp, o)) :
    ((given ls "ASCI" "GROW_FACTOR" = none → o.asci.growFactor = 8) ∧
      ∀ n, given ls "ASCI" "GROW_FACTOR" = some (Nat.toDigits 10 n) → n < 2 ^ 31 → o.asci.growFactor = n) ∧
    ((given ls "ASCI" "CONSTRAINT_LVL" = none → o.contrib.constraintLevel = 2) ∧
      ∀ n, given ls "ASCI" "CONSTRAINT_LVL" = some (Nat.toDigits 10 n) → n < 2 ^ 31 → o.contrib.constraintLevel = n) ∧
    ∀ n, given ls "ASCI" "GROW_FACTOR" = some ('-' :: Nat.toDigits 10 (n + 1)) → n < 2 ^ 31 →
      o.asci.growFactor = 2 ^ 64 - (n + 1) := by
  replace h := read_meaning wf h
  obtain ⟨-, -, -, -, -, -, ha, -, -⟩ := readOptions_ok (d := meaning ls) h
  obtain ⟨-, -, -, -, -, -, a7, -, -, -, -, ⟨l, a12, el⟩, -⟩ := readAsci_ok ha
  have hq : Ini.splitQuery "ASCI.GROW_FACTOR".toList = .ok ("ASCI".toList, "GROW_FACTOR".toList) := by decide +kernel
  have g : ∀ v, given ls "ASCI" "GROW_FACTOR" = some v → ∀ z, stoi v = some z → o.asci.growFactor = intToSize z := by
    intro v hv z hz
    have h1 := optKey_some hq a7 (v := v) hv
    have h2 : getInt (meaning ls) "ASCI.GROW_FACTOR".toList = .ok z := by
      unfold getInt
      rw [getString_look hq (v := v) hv]
      show (match stoi v with | some v => Except.ok v | none => Except.error Ini.Err.invalidArgument) = _
      rw [hz]
    rw [h2] at h1
    exact (Except.ok.inj h1).symm
  obtain ⟨c1, c2⟩ := opt_int (s := "ASCI") (k := "CONSTRAINT_LVL") (by decide +kernel) a12
  refine ⟨⟨optKey_none hq a7, fun n hv hn => ?_⟩, ⟨fun hv => ?_, fun n hv hn => ?_⟩, fun n hv hn => ?_⟩
  · rw [g _ hv n (stoi_showNat (by omega)), intToSize]
    omega
  · rw [el, c1 hv]; rfl
  · have := c2 _ hv
    rw [show stoi (Nat.toDigits 10 n) = some (n : Int) from stoi_showNat (by omega)] at this
    rw [el, ← Option.some.inj this]; rfl
  · rw [g _ hv _ (stoi_minus (by omega)), intToSize]
    omega

/-- C167 (calculation): what is calculated is what the two keywords say, in capitals; anything else is refused. -/
theorem C167_calculation (wf : ∀ l ∈ ls, l.WF)
    (h : (Ini.parse (file ls) >>= fun d => readOptions io d norb) = .ok (job, exp, sp, o)) :
    (job = .ci ↔ given ls "CI" "JOB" = some "CI".toList) ∧
    (job = .mcscf ↔ given ls "CI" "JOB" = none ∨ given ls "CI" "JOB" = some "MCSCF".toList) ∧
    (exp = .asci ↔ given ls "CI" "EXPANSION" = some "ASCI".toList) ∧
    (exp = .cas ↔ given ls "CI" "EXPANSION" = none ∨ given ls "CI" "EXPANSION" = some "CAS".toList) := by
  replace h := read_meaning wf h
  obtain ⟨⟨s, h1, h2⟩, ⟨t, h3, h4⟩, -⟩ := readOptions_ok (d := meaning ls) h
  obtain ⟨c1, c2⟩ := opt_name (s := "CI") (k := "JOB") (by decide +kernel) h1
  obtain ⟨c3, c4⟩ := opt_name (s := "CI") (k := "EXPANSION") (by decide +kernel) h3
  have n1 : ("MCSCF".toList : List Char) ≠ "CI".toList := by decide +kernel
  have n2 : ("CAS".toList : List Char) ≠ "ASCI".toList := by decide +kernel
  have gj : given ls "CI" "JOB" = look (meaning ls) "CI" "JOB" := rfl
  have ge : given ls "CI" "EXPANSION" = look (meaning ls) "CI" "EXPANSION" := rfl
  have hj : (s = "CI".toList ∧ job = .ci) ∨ (s = "MCSCF".toList ∧ job = .mcscf) := by
    unfold jobOf at h2
    split at h2
    · rename_i e; exact Or.inl ⟨e, (Except.ok.inj h2).symm⟩
    · split at h2
      · rename_i e; exact Or.inr ⟨e, (Except.ok.inj h2).symm⟩
      · cases h2
  have he : (t = "CAS".toList ∧ exp = .cas) ∨ (t = "ASCI".toList ∧ exp = .asci) := by
    unfold expansionOf at h4
    split at h4
    · rename_i e; exact Or.inl ⟨e, (Except.ok.inj h4).symm⟩
    · split at h4
      · rename_i e; exact Or.inr ⟨e, (Except.ok.inj h4).symm⟩
      · cases h4
  rw [gj, ge]
  have J : look (meaning ls) "CI" "JOB" = none ∧ s = "MCSCF".toList ∨ look (meaning ls) "CI" "JOB" = some s := by
    cases hl : look (meaning ls) "CI" "JOB" with
    | none => exact Or.inl ⟨rfl, c1 hl⟩
    | some v => exact Or.inr (by rw [c2 v hl])
  have X : look (meaning ls) "CI" "EXPANSION" = none ∧ t = "CAS".toList ∨ look (meaning ls) "CI" "EXPANSION" = some t := by
    cases hl : look (meaning ls) "CI" "EXPANSION" with
    | none => exact Or.inl ⟨rfl, c3 hl⟩
    | some v => exact Or.inr (by rw [c4 v hl])
  generalize look (meaning ls) "CI" "JOB" = a at J
  generalize look (meaning ls) "CI" "EXPANSION" = b at X
  generalize "MCSCF".toList = w1 at *
  generalize "CI".toList = w2 at *
  generalize "CAS".toList = w3 at *
  generalize "ASCI".toList = w4 at *
  refine ⟨?_, ?_, ?_, ?_⟩
  · rcases hj with ⟨rfl, rfl⟩ | ⟨rfl, rfl⟩ <;> rcases J with ⟨rfl, e⟩ | rfl <;> simp_all [eq_comm]
  · rcases hj with ⟨rfl, rfl⟩ | ⟨rfl, rfl⟩ <;> rcases J with ⟨rfl, e⟩ | rfl <;> simp_all [eq_comm]
  · rcases he with ⟨rfl, rfl⟩ | ⟨rfl, rfl⟩ <;> rcases X with ⟨rfl, e⟩ | rfl <;> simp_all [eq_comm]
  · rcases he with ⟨rfl, rfl⟩ | ⟨rfl, rfl⟩ <;> rcases X with ⟨rfl, e⟩ | rfl <;> simp_all [eq_comm]

theorem ofExcept_bind {α β : Type} {x : Except Ini.Err α} {d : α} (h : x = .ok d) (f : α → Out β) :
    (ofExcept x).bind f = f d := by subst h; rfl

theorem driver_of_parse (env : DriverEnv) {input : List Char} {d : Ini.Dict} (h : Ini.parse input = .ok d) :
    driver env input = driverWith env (Ini.getString d "CI.FCIDUMP".toList) (Ini.getSize d "CI.NALPHA".toList)
      (Ini.getSize d "CI.NBETA".toList) (readOptions env.io d) :=
  (driver_with env input).trans (ofExcept_bind h _)

/-- C167 (nothing else): two well-formed input files that say the same for the program's keywords lead to the same run of
the program, whatever else is in them; in particular a misspelt keyword or section is passed over in silence. -/
theorem C167_nothing_else (env : DriverEnv) {ls ls' : List Line} (wf : ∀ l ∈ ls, l.WF) (wf' : ∀ l ∈ ls', l.WF)
    (h : ∀ s k, (s, k) ∈ allKeywords → given ls s k = given ls' s k) :
    driver env (file ls) = driver env (file ls') := by
  exact (driver_of_parse env (Ini.C138_read ls wf)).trans
    ((driver_dict_congr (d := meaning ls) (d' := meaning ls') h env).trans
      (driver_of_parse env (Ini.C138_read ls' wf')).symm)

end Macis
