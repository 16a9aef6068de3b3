import Verif.Props.DriverPrint
import Verif.Lemmas.DriverExampleWfn
import Verif.Lemmas.DriverExampleRdm
/-! Calculations that meet the hypotheses of the C168 theorems. -/
namespace Macis
open Spec Finset

/-- numbers up to one in size are printed as `0.` or `1.` -/
theorem exIO_rounds : NumIO.Rounds exIO 2 := by
  intro x hx
  have hx' := abs_le.1 hx
  by_cases h : x = 0
  · subst h
    exact ⟨⟨0, exIO_zero.roundTrip, by simp⟩, exIO_zero.oneWord, exIO_zero.floatLike⟩
  · have e : exIO.fmt x = exIO.fmt 1 := by simp [exIO, h]
    rw [e]
    exact ⟨⟨1, exIO_one.roundTrip, abs_le.2 ⟨by linarith, by linarith⟩⟩, exIO_one.oneWord, exIO_one.floatLike⟩

/-- there are formats with an arbitrarily small rounding error -/
example (n : Nat) (hn : 0 < n) : ∃ io : NumIO ℝ, NumIO.Rounds io (1 / n) := by
  refine ⟨⟨fun x => List.replicate (⌊(x + 1) * n⌋₊ + 1) '.', fun s => some (((s.length - 1 : Nat) : ℝ) / n - 1)⟩, ?_⟩
  intro x hx
  have hx' := abs_le.1 hx
  have hn' : (0 : ℝ) < n := by exact_mod_cast hn
  refine ⟨⟨_, rfl, ?_⟩, ?_, '.', by simp, Or.inr rfl⟩
  · simp only [List.length_replicate, Nat.add_sub_cancel]
    have h1 := Nat.floor_le (a := (x + 1) * n) (mul_nonneg (by linarith) hn'.le)
    have h2 := Nat.lt_floor_add_one ((x + 1) * n)
    set k : ℝ := (⌊(x + 1) * n⌋₊ : ℝ)
    have h3 : k / n ≤ x + 1 := (div_le_iff₀ hn').2 h1
    have h4 : x + 1 ≤ k / n + 1 / n := by
      rw [← add_div, le_div_iff₀ hn']
      exact h2.le
    exact abs_le.2 ⟨by linarith, by linarith [one_div_pos.2 hn']⟩
  · intro c hc
    rw [List.eq_of_mem_replicate hc]
    decide

/-- `stepEnv` after another file `W` has been written -/
noncomputable def savedEnv (eig : Nat → (Nat → Nat → ℝ) → ℝ × (Nat → ℝ))
    (syev : Nat → (Nat → ℝ) → Nat → (Nat → ℝ) × (Nat → ℝ)) (file : List Char) : DriverEnv :=
  { stepEnv eig syev with text := fun n => if n = "W".toList then file else stepFci }

theorem savedEnv_text {eig : Nat → (Nat → Nat → ℝ) → ℝ × (Nat → ℝ)}
    {syev : Nat → (Nat → ℝ) → Nat → (Nat → ℝ) × (Nat → ℝ)} {file : List Char} :
    (savedEnv eig syev file).text "W".toList = file ∧ (savedEnv eig syev file).text "F".toList = stepFci :=
  ⟨show (if "W".toList = "W".toList then file else stepFci) = file from if_pos rfl,
    show (if "F".toList = "W".toList then file else stepFci) = stepFci from if_neg (by decide +kernel)⟩

/-- an ASCI calculation with one determinant that starts from a file -/
theorem file_asci (env : DriverEnv) {o : DriverSettings} (h8 : o.asci.ntdetsMax = 1) (h9 : o.asci.maxRefineIter = 0)
    (h10 : o.wfnFile ≠ []) (h11 : o.wfnOut = []) {dets : List (BitVec (2 * 32))} {C : List ℝ}
    (hf : readWavefunction 32 env.io (env.text o.wfnFile) = .ok (dets, C)) (hd : 1 ≤ dets.length)
    (hC : dets.length ≤ C.length) (sp : Ini.Space) (c eI : ℝ) (Ta Va : Nat → ℝ) :
    ∃ r, runAsci env o sp c eI Ta Va = .ok r := by
  have hge : ∃ E0, asciGuess env o (viewInts sp.nactive Ta Va) sp.nalpha c eI = .ok (E0, dets, C) := by
    unfold asciGuess
    rw [if_pos h10, hf]
    simp only [Run.toOut, Out.bind]
    cases o.e0 with
    | some e => exact ⟨_, rfl⟩
    | none =>
      unfold guessEnergy
      rw [if_neg (by omega)]
      exact ⟨_, rfl⟩
  obtain ⟨E0, hge⟩ := hge
  unfold runAsci
  dsimp only
  rw [hge]
  simp only [Out.bind]
  have hg : asciGrow (asciEnv env o sp.nactive) o.asci env.fuel ⟨Ta, Va⟩ E0 dets C = .ok ⟨⟨Ta, Va⟩, E0, dets, C, []⟩ := by
    unfold asciGrow
    cases env.fuel <;> exact if_neg (Nat.not_lt.2 (h8 ▸ hd))
  rw [hg]
  simp only [Run.toOut]
  rw [if_neg (show ¬ o.asci.maxRefineIter ≠ 0 by rw [h9]; simp)]
  simp only
  rw [if_neg (show ¬ o.wfnOut ≠ [] by simp [h11])]
  exact ⟨_, rfl⟩

/-- the first run: one determinant, written to the file -/
theorem save_asci (env : DriverEnv) (hio : NumIO.Rounds env.io 2) {o : DriverSettings} (h8 : o.asci.ntdetsMax = 1)
    (h9 : o.asci.maxRefineIter = 0) (h10 : o.wfnFile = []) (h11 : o.wfnOut ≠ []) (sp : Ini.Space)
    (hsp : sp.nactive < 2147483648) (c eI : ℝ) (Ta Va : Nat → ℝ) :
    ∃ r, runAsci env o sp c eI Ta Va = .ok r := by
  obtain ⟨file, -, q, -⟩ := C34_rounded (K := 32) (by norm_num) (by norm_num) hio sp.nactive hsp
    [canonicalHF 32 (sp.nalpha % 2 ^ 32) (sp.nalpha % 2 ^ 32)] [1] rfl (by simp) (by simp) (by simp)
  unfold runAsci asciGuess asciGrow growLoop
  dsimp only
  rw [if_neg (show ¬ o.wfnFile ≠ [] by simp [h10])]
  simp only [Out.bind]
  rw [if_neg (by rw [h8]; simp)]
  simp only [Run.toOut]
  rw [if_neg (show ¬ o.asci.maxRefineIter ≠ 0 by rw [h9]; simp)]
  simp only
  rw [if_pos h11, q]
  exact ⟨_, rfl⟩

theorem runJob_ok {env : DriverEnv} {o : DriverSettings} {sp : Ini.Space} {f : FciData} (hg : o.mp2Guess = false)
    (hr : ∀ c eI Ta Va, ∃ r, runAsci env o sp c eI Ta Va = .ok r) : ∃ out, runJob env .ci .asci sp o f = .ok out := by
  unfold runJob
  rw [hg]
  simp only [Bool.false_eq_true, if_false, Out.bind]
  obtain ⟨r, hr⟩ := hr f.core
    (inactiveEnergy sp.ninactive f.T f.norb (activeHamiltonian f.norb sp.nactive sp.ninactive f.T f.norb f.V f.norb (fun _ => 0)
      f.norb (fun _ => 0) sp.nactive (fun _ => 0) sp.nactive).1 f.norb)
    (activeHamiltonian f.norb sp.nactive sp.ninactive f.T f.norb f.V f.norb (fun _ => 0) f.norb (fun _ => 0)
      sp.nactive (fun _ => 0) sp.nactive).2.1
    (activeHamiltonian f.norb sp.nactive sp.ninactive f.T f.norb f.V f.norb (fun _ => 0) f.norb (fun _ => 0)
      sp.nactive (fun _ => 0) sp.nactive).2.2
  rw [hr]
  exact ⟨_, rfl⟩

/-- Two runs, the second starting from the file that the first writes, meet the hypotheses of `C168_wavefunction_file`,
`C168_restart` and (the second alone) of `C168_file_energy_any`. -/
example {eig : Nat → (Nat → Nat → ℝ) → ℝ × (Nat → ℝ)} (he : LowestPair eig)
    (syev : Nat → (Nat → ℝ) → Nat → (Nat → ℝ) × (Nat → ℝ)) :
    ∃ (env env' : DriverEnv) (input input' : List Char) (es : List (FciEntry ℝ)) (sp : Ini.Space) (o o' : DriverSettings)
      (out out' : DriverOut) (dets : List (BitVec (2 * 32))) (C : List ℝ),
      LowestPair env.eig ∧ SortsOk env ∧ Asks env input es .ci .asci sp o ∧ Asks env' input' es .ci .asci sp o' ∧
      env'.io = env.io ∧ o.mp2Guess = false ∧ o'.mp2Guess = false ∧ o.asci.growWithRot = false ∧ sp.nalpha ≤ sp.nactive ∧
      GuessFile env o sp.nactive sp.nalpha sp.nbeta ∧ 0 ≤ o.ci.matelTol ∧ maxIdx es ≤ 2 ∧ NumIO.Rounds env.io 2 ∧
      sp.nactive.choose sp.nalpha * sp.nactive.choose sp.nbeta < 2147483648 ∧
      o'.asci.ntdetsMax ≤ o.asci.ntdetsMax ∧ o'.asci.maxRefineIter = 0 ∧ o'.e0 = none ∧
      driver env input = .ok out ∧ o'.wfnFile ≠ [] ∧ out.wfnOut = some (env'.text o'.wfnFile) ∧
      driver env' input' = .ok out' ∧
      readWavefunction 32 env'.io (env'.text o'.wfnFile) = .ok (dets, C) ∧ InSector sp.nactive sp.nalpha sp.nbeta dets ∧
      o'.asci.ntdetsMax ≤ dets.length := by
  obtain ⟨d, o, h1, h2, h5, h6, h7, h8, h9, h10, h11, h12, h13⟩ := saveInput_reads
  have ha : Asks (stepEnv eig syev) saveInput stepEntries .ci .asci ⟨1, 1, 0, 2, 0⟩ o :=
    ⟨d, _, h1, h2, stepFci_entries, stepEntries_std, by rw [stepEntries_max]; exact h5⟩
  have hgf : GuessFile (stepEnv eig syev) o 2 1 1 := fun e => absurd h11 e
  have hw : ("W".toList : List Char) ≠ [] := by decide
  obtain ⟨out, hout⟩ : ∃ out, driver (stepEnv eig syev) saveInput = .ok out := by
    obtain ⟨f, hr, -⟩ := driver_eq ha
    rw [hr]
    exact runJob_ok h7 fun c eI Ta Va => save_asci (stepEnv eig syev) exIO_rounds h9 h10 h11 (by rw [h12]; exact hw) _
      (by norm_num) c eI Ta Va
  have hsm : Nat.choose 2 1 * Nat.choose 2 1 < 2147483648 := by decide
  obtain ⟨file, act, C, ψ, full, e1, e2, e3, e4, e5, -⟩ := (C168_wavefunction_file (M := 2) he (stepEnv_sorts eig syev) ha h7 h8
    (by norm_num) hgf h6 (by rw [stepEntries_max]) exIO_rounds hsm hout).2 (by rw [h12]; exact hw)
  obtain ⟨d', o', k1, k2, k5, k6, k7, k8, k9, k10, k11, k12, k13⟩ := restartInput_reads
  have htext : (savedEnv eig syev file).text o'.wfnFile = file := by rw [k11]; exact savedEnv_text.1
  have ha' : Asks (savedEnv eig syev file) restartInput stepEntries .ci .asci ⟨1, 1, 0, 2, 0⟩ o' :=
    ⟨d', _, k1, k2, by rw [savedEnv_text.2]; exact stepFci_entries, stepEntries_std, by rw [stepEntries_max]; exact k5⟩
  have hread : readWavefunction 32 (savedEnv eig syev file).io ((savedEnv eig syev file).text o'.wfnFile) = .ok (act, C) := by
    rw [htext]; exact e2
  obtain ⟨out', hout'⟩ : ∃ out, driver (savedEnv eig syev file) restartInput = .ok out := by
    obtain ⟨f, hr, -⟩ := driver_eq ha'
    rw [hr]
    exact runJob_ok k7 fun c eI Ta Va => file_asci (savedEnv eig syev file) k9 k10 (by rw [k11]; exact hw) k12 hread
      (h9 ▸ e4) e5.ge _ c eI Ta Va
  exact ⟨stepEnv eig syev, savedEnv eig syev file, saveInput, restartInput, stepEntries, ⟨1, 1, 0, 2, 0⟩, o, o', out, out', act, C,
    he, stepEnv_sorts eig syev, ha, ha', rfl, h7, k7, h8, by norm_num, hgf, h6, by rw [stepEntries_max], exIO_rounds, hsm,
    by rw [h9, k9], k10, k13, hout, by rw [k11]; exact hw, by rw [htext]; exact e1, hout', hread, e3, by rw [k9, ← h9]; exact e4⟩

/-- C168: with `E0_WFN = 9` the program prints 9 for every wave function file with a determinant. -/
theorem C168_given_energy_any {eig : Nat → (Nat → Nat → ℝ) → ℝ × (Nat → ℝ)}
    {syev : Nat → (Nat → ℝ) → Nat → (Nat → ℝ) × (Nat → ℝ)} {file : List Char} {dets : List (BitVec (2 * 32))} {C : List ℝ}
    (hf : readWavefunction 32 exIO file = .ok (dets, C)) (hd : 1 ≤ dets.length) (hC : dets.length ≤ C.length) :
    ∃ out, driver (savedEnv eig syev file) givenInput = .ok out ∧ out.eCI = 9 := by
  obtain ⟨d', o', k1, k2, k5, k6, k7, k8, k9, k10, k11, k12, k13⟩ := givenInput_reads
  have hw : ("W".toList : List Char) ≠ [] := by decide
  have htext : (savedEnv eig syev file).text o'.wfnFile = file := by rw [k11]; exact savedEnv_text.1
  have ha' : Asks (savedEnv eig syev file) givenInput stepEntries .ci .asci ⟨1, 1, 0, 2, 0⟩ o' :=
    ⟨d', _, k1, k2, by rw [savedEnv_text.2]; exact stepFci_entries, stepEntries_std, by rw [stepEntries_max]; exact k5⟩
  have hread : readWavefunction 32 (savedEnv eig syev file).io ((savedEnv eig syev file).text o'.wfnFile) = .ok (dets, C) := by
    rw [htext]; exact hf
  obtain ⟨out', hout'⟩ : ∃ out, driver (savedEnv eig syev file) givenInput = .ok out := by
    obtain ⟨f, hr, -⟩ := driver_eq ha'
    rw [hr]
    exact runJob_ok k7 fun c eI Ta Va => file_asci (savedEnv eig syev file) k9 k10 (by rw [k11]; exact hw) k12 hread
      hd hC _ c eI Ta Va
  exact ⟨out', hout', C168_given_energy ha' (by rw [k11]; exact hw) hread (by rw [k9]; exact hd) k10 k13 hout'⟩

/-- A CAS-CI calculation meets the hypotheses of `C168_printed_determinants`. -/
example {eig : Nat → (Nat → Nat → ℝ) → ℝ × (Nat → ℝ)} (he : LowestPair eig)
    (syev : Nat → (Nat → ℝ) → Nat → (Nat → ℝ) × (Nat → ℝ)) :
    ∃ (env : DriverEnv) (input : List Char) (es : List (FciEntry ℝ)) (sp : Ini.Space) (o : DriverSettings) (out : DriverOut),
      LowestPair env.eig ∧ Asks env input es .ci .cas sp o ∧ o.mp2Guess = false ∧ 0 ≤ o.ci.matelTol ∧
      driver env input = .ok out := by
  obtain ⟨o, out, h1, h2, h3, h4, -⟩ := cas_example he syev
  exact ⟨_, _, _, _, o, out, he, h1, h2, by rw [h3]; norm_num, h4⟩

/-- A calculation with the MP2 guess meets the hypotheses of `C168_mp2_guess`. -/
example (eig : Nat → (Nat → Nat → ℝ) → ℝ × (Nat → ℝ)) {syev : Nat → (Nat → ℝ) → Nat → (Nat → ℝ) × (Nat → ℝ)}
    (hs : SyevSpec syev) :
    ∃ (env : DriverEnv) (input : List Char) (es : List (FciEntry ℝ)) (sp : Ini.Space) (o : DriverSettings),
      SyevSpec env.syev ∧ Asks env input es .ci .asci sp o ∧ o.mp2Guess = true ∧ sp.ninactive + sp.nalpha < 2 ^ 64 ∧
      sp.ninactive + sp.nalpha ≤ maxIdx es := by
  obtain ⟨o, out, h1, h2, -⟩ := guess_example eig syev
  exact ⟨_, _, _, _, o, hs, h1, h2, by norm_num, by rw [stepEntries_max]; norm_num⟩

/-- the density matrices of the first determinant -/
noncomputable def firstRdm1 : Nat → ℝ := flat2 2 fun p q => (rdm1 (M := 32) (hopDets.getD 0 0) (hopDets.getD 0 0) p q : ℝ)
noncomputable def firstRdm2 : Nat → ℝ :=
  flat4 2 fun p q r s => 1 / 2 * (rdm2 (M := 32) (hopDets.getD 0 0) (hopDets.getD 0 0) p q r s : ℝ)

/-- A CASSCF calculation that starts from these meets the hypotheses of `C168_erdm`. -/
example {eig : Nat → (Nat → Nat → ℝ) → ℝ × (Nat → ℝ)} (he : LowestPair eig)
    (syev : Nat → (Nat → ℝ) → Nat → (Nat → ℝ) × (Nat → ℝ)) :
    ∃ (env : DriverEnv) (input : List Char) (es : List (FciEntry ℝ)) (sp : Ini.Space) (o : DriverSettings)
      (D1 D2 : Nat → ℝ) (act : List (BitVec (2 * 32))) (ψ : Nat → ℝ) (out : DriverOut),
      Asks env input es .mcscf .cas sp o ∧ o.mp2Guess = false ∧ maxIdx es ≤ 2 ∧ o.rdmFile ≠ [] ∧
      env.rdmFile o.rdmFile = some (writeRdmsBinary (maxIdx es) D1 (maxIdx es) D2 (maxIdx es)) ∧
      InSector sp.nactive sp.nalpha sp.nbeta act ∧ (∑ i ∈ range act.length, ψ i * ψ i) = 1 ∧
      (∀ p q, p < sp.nactive → q < sp.nactive → asMat D1 (maxIdx es) (p + sp.ninactive) (q + sp.ninactive) =
        ∑ i ∈ range act.length, ∑ j ∈ range act.length, ψ i * ψ j * (rdm1 (act.getD i 0) (act.getD j 0) p q : ℝ)) ∧
      (∀ p q r s, p < sp.nactive → q < sp.nactive → r < sp.nactive → s < sp.nactive →
        asTen D2 (maxIdx es) (p + sp.ninactive) (q + sp.ninactive) (r + sp.ninactive) (s + sp.ninactive) =
        1 / 2 * ∑ i ∈ range act.length, ∑ j ∈ range act.length,
          ψ i * ψ j * (rdm2 (act.getD i 0) (act.getD j 0) p q r s : ℝ)) ∧
      driver env input = .ok out := by
  obtain ⟨d, o, h1, h2, -, -, h5, h6, h7, h8, h9, h10⟩ := rdmInput_reads
  set env : DriverEnv := { drvEnv eig syev with rdmFile := fun _ => some (writeRdmsBinary 2 firstRdm1 2 firstRdm2 2) } with henv
  have ha : Asks env rdmInput exEntries .mcscf .cas ⟨1, 1, 0, 2, 0⟩ o :=
    ⟨d, _, h1, h2, exFci_entries, exEntries_std, by rw [exEntries_max]; exact h5⟩
  have hw : o.rdmFile ≠ [] := by rw [h9]; decide
  obtain ⟨hS, -, -, hal, hbe, -⟩ :=
    hilbert_sector (M := 32) (n := 2) (by norm_num) (by norm_num) (by norm_num) hop_hilbert
  have m0 : hopDets.getD 0 0 ∈ hopDets := List.mem_cons_self
  obtain ⟨out, hout⟩ : ∃ out, driver env rdmInput = .ok out := by
    obtain ⟨f, hr, f2, f3, f4, f5, -⟩ := driver_eq ha
    rw [exEntries_max] at f2
    rw [f2] at f4 f5
    rw [hr]
    set H := activeHamiltonian 2 2 0 f.T 2 f.V 2 (fun _ => 0) 2 (fun _ => 0) 2 (fun _ => 0) 2 with hH
    have hT : ∀ p q, p < 2 → q < 2 → asMat H.2.1 2 p q = hopI.T p q := by
      intro p q hp hq
      have : H.2.1 (p + q * 2) = H.1 (p + 0 + (q + 0) * 2) :=
        (fill2 (le_refl 2) (fun _ => 0) (fun x => H.1 (x.1 + 0 + (x.2 + 0) * 2))).1 p q hp hq
      rw [asMat, this, Nat.add_zero, Nat.add_zero, ← exEntries_T hp hq, ← f4 p q hp hq]
      have := inactiveFock_val (ldt := 2) (ldv := 2) (ni := 0) (le_refl 2) f.T f.V (fun _ => 0) hp hq
      refine this.trans ?_
      simp [fi]
    have hV : ∀ p q r s, p < 2 → q < 2 → r < 2 → s < 2 → asTen H.2.2 2 p q r s = 0 := by
      intro p q r s hp hq hr hs
      have : H.2.2 (addr4 2 p q r s) = f.V (p + 0 + (q + 0) * 2 + (r + 0) * (2 * 2) + (s + 0) * (2 * 2 * 2)) :=
        (fill4 (le_refl 2) (fun _ => 0) (fun x => f.V (x.1 + 0 + (x.2.1 + 0) * 2 + (x.2.2.1 + 0) * (2 * 2) +
          (x.2.2.2 + 0) * (2 * 2 * 2)))).1 p q r s hp hq hr hs
      rw [asTen, this, show p + 0 + (q + 0) * 2 + (r + 0) * (2 * 2) + (s + 0) * (2 * 2 * 2) = addr4 2 p q r s by
        unfold addr4; ring]
      exact (f5 p q r s hp hq hr hs).trans exEntries_V
    have hcas := fun A B => hop_cas (Ta := H.2.1) (Va := H.2.2) he (ci := o.ci) (by rw [h6]) (by rw [h6]; norm_num)
      (by rw [h6]; norm_num) (by rw [h6]; norm_num) hT hV A B
    unfold runJob
    rw [h7]
    simp only [Bool.false_eq_true, if_false, Out.bind, f2]
    rw [← hH]
    unfold runMcscf
    obtain ⟨O', T', hread, -⟩ := C37_round_trip 2 2 2 2 2 le_rfl le_rfl firstRdm1 firstRdm2 (fun _ => 0) (fun _ => 0)
    simp only
    rw [if_pos hw, f2, show env.rdmFile o.rdmFile = some (writeRdmsBinary 2 firstRdm1 2 firstRdm2 2) from rfl, hread]
    simp only [Run.toOut, Out.bind]
    unfold mcscf mcInit
    simp only
    rw [← hH]
    by_cases hc : |∑ i ∈ range 2, activeSubmatrix1body 2 0 O' 2 (fun _ => (0 : ℝ)) 2 (i * (2 + 1)) - ((1 : Nat) : ℝ) -
        ((1 : Nat) : ℝ)| > 1 / 1000000
    · rw [if_pos hc]
      obtain ⟨x, hx⟩ := hcas (fillZero (2 * 2) (activeSubmatrix1body 2 0 O' 2 (fun _ => 0) 2))
        (fillZero (2 * 2 * (2 * 2)) (activeSubtensor2body 2 0 T' 2 (fun _ => 0) 2))
      rw [show casRdms env.eig o.ci 2 1 1 H.2.1 H.2.2 (fillZero (2 * 2) (activeSubmatrix1body 2 0 O' 2 (fun _ => 0) 2))
        (fillZero (2 * 2 * (2 * 2)) (activeSubtensor2body 2 0 T' 2 (fun _ => 0) 2)) [] = .ok x from hx]
      simp only [Out.bind]
      generalize hs : (McState.mk _ _ _ _ _ _ _ _ _ _ _ _ _ _ _ _ _ _ : McState (List ℝ)) = s0
      cases o.mc.maxMacroIter with
      | zero => exact ⟨_, rfl⟩
      | succ n =>
        unfold mcLoop
        rw [if_pos]
        · exact ⟨_, rfl⟩
        · subst hs
          refine decide_eq_true ?_
          rw [show 0 * (0 + 2) + 2 * 0 = 0 from rfl, nrmN_zero]
          exact h10
    · rw [if_neg hc]
      simp only [Out.bind]
      generalize hs : (McState.mk _ _ _ _ _ _ _ _ _ _ _ _ _ _ _ _ _ _ : McState (List ℝ)) = s0
      cases o.mc.maxMacroIter with
      | zero => exact ⟨_, rfl⟩
      | succ n =>
        unfold mcLoop
        rw [if_pos]
        · exact ⟨_, rfl⟩
        · subst hs
          refine decide_eq_true ?_
          rw [show 0 * (0 + 2) + 2 * 0 = 0 from rfl, nrmN_zero]
          exact h10
  refine ⟨env, rdmInput, exEntries, ⟨1, 1, 0, 2, 0⟩, o, firstRdm1, firstRdm2, [hopDets.getD 0 0], fun _ => 1, out, ha, h7,
    by rw [exEntries_max], hw, by rw [exEntries_max], ⟨List.nodup_singleton _, ?_⟩, by simp, ?_, ?_, hout⟩
  · intro s hs
    rw [List.mem_singleton.1 hs]
    exact ⟨hS.1 _ m0, hal _ m0, hbe _ m0⟩
  · rw [exEntries_max]
    intro p q hp hq
    have := flat2_val (n := 2) (fun p q => (rdm1 (M := 32) (hopDets.getD 0 0) (hopDets.getD 0 0) p q : ℝ)) (q := q) hp
    change firstRdm1 (p + q * 2) = _ at this
    change firstRdm1 (p + q * 2) = _
    rw [this]
    simp
  · rw [exEntries_max]
    intro p q r s hp hq hr hs
    have e : ∀ p < 2, ∀ q < 2, ∀ r < 2, ∀ s < 2, addr4 2 p q r s % 2 = p ∧ addr4 2 p q r s / 2 % 2 = q ∧
        addr4 2 p q r s / 4 % 2 = r ∧ addr4 2 p q r s / 8 = s := by decide
    obtain ⟨e1, e2, e3, e4⟩ := e p hp q hq r hr s hs
    change firstRdm2 (addr4 2 p q r s) = _
    unfold firstRdm2 flat4
    rw [e1, e2, e3, e4]
    simp

end Macis
