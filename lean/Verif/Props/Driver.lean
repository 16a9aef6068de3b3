import Verif.Lemmas.DriverExample
import Verif.Lemmas.DriverAsci
import Verif.Lemmas.DriverExampleAsci
import Verif.Lemmas.DriverOut
/-! Properties C154-C157: the standalone program, from its input file to the energies it prints. -/
namespace Macis
open Spec Finset

variable {M : Nat}

/-- C154: a CAS-CI calculation of the standalone program.  Whatever the input file and the FCIDUMP file it names
contain, the printed `E(CI)` is, up to the threshold below which Hamiltonian elements are dropped, the core energy
in the file plus the energy expectation value, with the Hamiltonian in the file, of a normalised state on all
determinants that fill the inactive orbitals and put `NALPHA`/`NBETA` electrons into the active ones; and it is not
above the energy of any single one of them. -/
theorem C154_casci_energy {env : DriverEnv} (he : LowestPair env.eig) {input : List Char} {es : List (FciEntry ℝ)}
    {sp : Ini.Space} {o : DriverSettings} (ha : Asks env input es .ci .cas sp o) (hg : o.mp2Guess = false)
    (h0 : 0 ≤ o.ci.matelTol) (hM : maxIdx es ≤ M) {out : DriverOut} (h : driver env input = .ok out) :
    ∃ (full : List (BitVec (2 * M))) (ψ : Nat → ℝ), full.Nodup ∧
      (∀ s, s ∈ full ↔ CasDet sp.ninactive sp.nactive sp.nalpha sp.nbeta s) ∧
      (∑ i ∈ range full.length, ψ i * ψ i) = 1 ∧
      |out.eCI - (fileCore es + energyOf (fileInts es) full ψ)| ≤ o.ci.matelTol * full.length ∧
      ∀ s ∈ full, out.eCI ≤ fileCore es + hamiltonian (fileInts es) s s + o.ci.matelTol := by
  obtain ⟨f, hr, f2, f3, f4, f5, s1, -, s3, -⟩ := driver_runs ha h
  have sym : IntSym f.norb (asMat f.T f.norb) (asTen f.V f.norb) := intSym_congr f4 f5 (fileInts_sym es f.norb)
  unfold runJob at hr
  rw [hg] at hr
  obtain ⟨f', e, hr⟩ := out_bind_ok hr
  obtain rfl : f = f' := Out.ok.inj e
  obtain ⟨r, e, hr⟩ := out_bind_ok hr
  obtain ⟨full, ψ, nd, -, mem, norm, e1, e2, -⟩ := cas_run (M := M) he h0 sym (by omega) s3 (f2 ▸ hM) rfl e
  obtain rfl := Out.ok.inj hr
  have hham : ∀ s t : BitVec (2 * M), hamiltonian (dataInts f) s t = hamiltonian (fileInts es) s t := fun s t =>
    (hamiltonian_congr_below (I := dataInts f) (J := fileInts es) f2.symm (fun p q hp hq => (f4 p q hp hq).symm)
      (fun p q r s hp hq hr hs => (f5 p q r s hp hq hr hs).symm) s t).symm
  have hen : energyOf (dataInts f) full ψ = energyOf (fileInts es) full ψ := by
    unfold energyOf
    simp only [hham]
  refine ⟨full, ψ, nd, mem, norm, ?_, fun s hs => ?_⟩
  · rw [← f3, ← hen]; exact e1
  · rw [← f3, ← hham]; exact e2 s hs

/-- C154: with or without the MP2 natural-orbital guess, the CAS-CI energy printed is variational: it is not below the
core energy plus any lower bound of the Hamiltonian in the file for the given numbers of electrons (such as its
full-CI energy), up to the threshold below which Hamiltonian elements are dropped. -/
theorem C154_casci_variational {env : DriverEnv} (he : LowestPair env.eig) {input : List Char}
    {es : List (FciEntry ℝ)} {sp : Ini.Space} {o : DriverSettings} (ha : Asks env input es .ci .cas sp o)
    (hg : o.mp2Guess = true → SyevSpec env.syev) (h0 : 0 ≤ o.ci.matelTol) (hM : maxIdx es ≤ M) {mu : ℝ}
    (hmu : IsLowerBound M (fileInts es) (sp.ninactive + sp.nalpha) (sp.ninactive + sp.nbeta) mu)
    {out : DriverOut} (h : driver env input = .ok out) :
    fileCore es + mu ≤
      out.eCI + o.ci.matelTol * (sp.nactive.choose sp.nalpha * sp.nactive.choose sp.nbeta : Nat) := by
  obtain ⟨f, hr, f2, f3, f4, f5, s1, -, s3, -⟩ := driver_runs ha h
  have sym : IntSym f.norb (asMat f.T f.norb) (asTen f.V f.norb) := intSym_congr f4 f5 (fileInts_sym es f.norb)
  have hmu' : IsLowerBound M (dataInts f) (sp.ninactive + sp.nalpha) (sp.ninactive + sp.nbeta) mu :=
    isLowerBound_congr (I := fileInts es) f2 (fun p q hp hq => f4 p q (f2 ▸ hp) (f2 ▸ hq))
      (fun p q r s hp hq hr hs => f5 p q r s (f2 ▸ hp) (f2 ▸ hq) (f2 ▸ hr) (f2 ▸ hs)) hmu
  unfold runJob at hr
  obtain ⟨f', e, hr⟩ := out_bind_ok hr
  obtain ⟨g1, g2, g3, -, g5⟩ := guess_step (M := M) hg sym e
  obtain ⟨r, e, hr⟩ := out_bind_ok hr
  obtain ⟨full, ψ, nd, len, mem, norm, e1, -, hα, hβ⟩ :=
    cas_run (M := M) he h0 g3 (by omega) s3 (by omega) rfl e
  obtain rfl := Out.ok.inj hr
  have hb := g5 _ _ mu (by omega) (by omega) (by omega) hmu'
  have := hb full nd (fun s hs => by
    have := (mem s).1 hs
    refine ⟨⟨fun i hi hb => ?_, fun i hi hb => ?_⟩, this.2.2.1, this.2.2.2⟩
    · have := this.1.1 i hi hb
      change i < f'.norb
      omega
    · have := this.1.2 i hi hb
      change i < f'.norb
      omega) ψ norm
  rw [len] at e1
  have e3 := (abs_le.1 e1).1
  change fileCore es + mu ≤ r.eCI + _
  rw [g2, f3] at e3
  linarith

/-- the hypotheses of C154 are met by a calculation that the program completes: one alpha and one beta electron in
two coupled orbitals -/
example : ∃ (env : DriverEnv) (o : DriverSettings) (out : DriverOut), LowestPair env.eig ∧ SyevSpec env.syev ∧
    Asks env casInput exEntries .ci .cas ⟨1, 1, 0, 2, 0⟩ o ∧ o.mp2Guess = false ∧ 0 ≤ o.ci.matelTol ∧
    driver env casInput = .ok out := by
  obtain ⟨eig, he⟩ := exists_lowestPair
  obtain ⟨syev, hs⟩ := exists_syev
  obtain ⟨o, out, h1, h2, h3, h4, -⟩ := cas_example he syev
  exact ⟨_, o, out, he, hs, h1, h2, by rw [h3]; norm_num, h4⟩

/-! ### ASCI -/

/-- C156: an ASCI calculation of the standalone program without orbital rotations.  Whatever the files contain, however
the library sorts, and whatever the search limits are, the printed `E(CI)` is, up to the threshold below which
Hamiltonian elements are dropped, the core energy plus the energy expectation value, with the Hamiltonian in the
file, of a normalised state on at least `NTDETS_MAX` different determinants, all of which fill the inactive orbitals and
put `NALPHA`/`NBETA` electrons into the active ones; and it is not above the energy of any single one of them. -/
theorem C156_asci_energy {env : DriverEnv} (he : LowestPair env.eig) (hs : SortsOk env) {input : List Char}
    {es : List (FciEntry ℝ)} {sp : Ini.Space} {o : DriverSettings} (ha : Asks env input es .ci .asci sp o)
    (hg : o.mp2Guess = false) (hrot : o.asci.growWithRot = false) (hα : sp.nalpha ≤ sp.nactive)
    (hf : GuessFile env o sp.nactive sp.nalpha sp.nbeta) (h0 : 0 ≤ o.ci.matelTol) (hM : maxIdx es ≤ M)
    {out : DriverOut} (h : driver env input = .ok out) :
    ∃ (full : List (BitVec (2 * M))) (ψ : Nat → ℝ), full.Nodup ∧ o.asci.ntdetsMax ≤ full.length ∧
      (∀ s ∈ full, CasDet sp.ninactive sp.nactive sp.nalpha sp.nbeta s) ∧
      (∑ i ∈ range full.length, ψ i * ψ i) = 1 ∧
      |out.eCI - (fileCore es + energyOf (fileInts es) full ψ)| ≤ o.ci.matelTol * full.length ∧
      ∀ s ∈ full, out.eCI ≤ fileCore es + hamiltonian (fileInts es) s s + o.ci.matelTol := by
  obtain ⟨f, hr, f2, f3, f4, f5, s1, -, s3, hab⟩ := driver_runs ha h
  have sym : IntSym f.norb (asMat f.T f.norb) (asTen f.V f.norb) := intSym_congr f4 f5 (fileInts_sym es f.norb)
  unfold runJob at hr
  rw [hg] at hr
  obtain ⟨f', e, hr⟩ := out_bind_ok hr
  obtain rfl : f = f' := Out.ok.inj e
  obtain ⟨r, e, hr⟩ := out_bind_ok hr
  set H := activeHamiltonian f.norb sp.nactive sp.ninactive f.T f.norb f.V f.norb (fun _ => 0) f.norb (fun _ => 0)
    sp.nactive (fun _ => 0) sp.nactive with hH
  have hn : sp.ninactive + sp.nactive ≤ f.norb := by omega
  obtain ⟨asym, -⟩ := active_sym (ldt := f.norb) (ldv := f.norb) hn (le_refl sp.nactive) (le_refl sp.nactive) f.T f.V
    (fun _ => 0) (fun _ => 0) (fun _ => 0) sym
  rw [← hH] at asym
  obtain ⟨h', w, E, -, r1, r2, r3, ⟨ψ, p1, p2, p3⟩, r5, -⟩ :=
    asci_run he hs (fun e => absurd (hrot.symm.trans e) (by decide)) h0 s3 hab hα asym hf e
  change r.eCI = E + (inactiveEnergy sp.ninactive f.T f.norb H.1 f.norb + f.core) at r5
  obtain rfl : h' = ⟨H.2.1, H.2.2⟩ := r1.same hrot
  obtain rfl := Out.ok.inj hr
  obtain ⟨full, nd, len, cd, hd, hE⟩ := active_lift (M' := M) sym hn s3 (f2 ▸ hM) hH r2
  have hham : ∀ s t : BitVec (2 * M), hamiltonian (dataInts f) s t = hamiltonian (fileInts es) s t := fun s t =>
    (hamiltonian_congr_below (I := dataInts f) (J := fileInts es) f2.symm (fun p q hp hq => (f4 p q hp hq).symm)
      (fun p q r s hp hq hr hs => (f5 p q r s hp hq hr hs).symm) s t).symm
  have hen : energyOf (dataInts f) full ψ = energyOf (fileInts es) full ψ := by
    unfold energyOf
    simp only [hham]
  refine ⟨full, ψ, nd, len ▸ r3, cd, len ▸ p1, ?_, fun s hs => ?_⟩
  · have := hE ψ p1
    change energyOf (dataInts f) full ψ = _ at this
    rw [len, ← hen, this, ← f3]
    change |r.eCI - _| ≤ _
    rw [r5]
    dsimp only at p2
    rw [show ∀ a b c d : ℝ, a + (b + c) - (c + (b + d)) = a - d from fun a b c d => by ring]
    exact p2
  · obtain ⟨k, hk, rfl⟩ := List.mem_iff_getElem.1 hs
    have hk' : k < w.length := len ▸ hk
    have a := p3 k hk'
    have b := hd k hk'
    change hamiltonian (dataInts f) _ _ = _ at b
    rw [List.getD_eq_getElem _ _ hk, hham] at b
    change r.eCI ≤ _
    rw [r5, b, ← f3]
    dsimp only at a
    linarith

/-- C156: in every ASCI calculation, with or without the MP2 guess and with or without natural-orbital rotations while
growing, the printed energy is variational: not below the core energy plus any lower bound of the Hamiltonian in the
file for the given numbers of electrons, up to the threshold below which Hamiltonian elements are dropped. -/
theorem C156_asci_variational {env : DriverEnv} (he : LowestPair env.eig) (hs : SortsOk env) {input : List Char}
    {es : List (FciEntry ℝ)} {sp : Ini.Space} {o : DriverSettings} (ha : Asks env input es .ci .asci sp o)
    (hsy : o.mp2Guess = true ∨ o.asci.growWithRot = true → SyevSpec env.syev) (hα : sp.nalpha ≤ sp.nactive)
    (hf : GuessFile env o sp.nactive sp.nalpha sp.nbeta) (h0 : 0 ≤ o.ci.matelTol) (hM : maxIdx es ≤ M) {mu : ℝ}
    (hmu : IsLowerBound M (fileInts es) (sp.ninactive + sp.nalpha) (sp.ninactive + sp.nbeta) mu)
    {out : DriverOut} (h : driver env input = .ok out) :
    fileCore es + mu ≤
      out.eCI + o.ci.matelTol * (sp.nactive.choose sp.nalpha * sp.nactive.choose sp.nbeta : Nat) := by
  obtain ⟨f, hr, f2, f3, f4, f5, s1, -, s3, hab⟩ := driver_runs ha h
  have sym : IntSym f.norb (asMat f.T f.norb) (asTen f.V f.norb) := intSym_congr f4 f5 (fileInts_sym es f.norb)
  have hmu' : IsLowerBound M (dataInts f) (sp.ninactive + sp.nalpha) (sp.ninactive + sp.nbeta) mu :=
    isLowerBound_congr (I := fileInts es) f2 (fun p q hp hq => f4 p q (f2 ▸ hp) (f2 ▸ hq))
      (fun p q r s hp hq hr hs => f5 p q r s (f2 ▸ hp) (f2 ▸ hq) (f2 ▸ hr) (f2 ▸ hs)) hmu
  unfold runJob at hr
  obtain ⟨f', e, hr⟩ := out_bind_ok hr
  obtain ⟨g1, g2, g3, -, g5⟩ := guess_step (M := M) (fun e => hsy (Or.inl e)) sym e
  obtain ⟨r, e, hr⟩ := out_bind_ok hr
  set H := activeHamiltonian f'.norb sp.nactive sp.ninactive f'.T f'.norb f'.V f'.norb (fun _ => 0) f'.norb
    (fun _ => 0) sp.nactive (fun _ => 0) sp.nactive with hH
  have hn : sp.ninactive + sp.nactive ≤ f'.norb := by omega
  obtain ⟨asym, -⟩ := active_sym (ldt := f'.norb) (ldv := f'.norb) hn (le_refl sp.nactive) (le_refl sp.nactive) f'.T f'.V
    (fun _ => 0) (fun _ => 0) (fun _ => 0) g3
  rw [← hH] at asym
  obtain ⟨h', w, E, -, r1, r2, -, ⟨ψ, p1, p2, -⟩, r5, -⟩ :=
    asci_run he hs (fun e => hsy (Or.inr e)) h0 s3 hab hα asym hf e
  obtain rfl := Out.ok.inj hr
  have hb := g5 _ _ mu (by omega) (by omega) (by omega) hmu'
  have hl := r1.lower _ (active_lower (M' := M) g3 hn s3 (by omega) hH hb)
  have := hl w r2.1 r2.2 ψ p1
  have hlen := r2.length_le s3 hα (hab ▸ hα)
  have e3 := (abs_le.1 p2).1
  have e4 : o.ci.matelTol * w.length ≤
      o.ci.matelTol * (sp.nactive.choose sp.nalpha * sp.nactive.choose sp.nbeta : Nat) :=
    mul_le_mul_of_nonneg_left (by exact_mod_cast hlen) h0
  change r.eCI = E + (inactiveEnergy sp.ninactive f'.T f'.norb H.1 f'.norb + f'.core) at r5
  change fileCore es + mu ≤ r.eCI + _
  rw [r5, g2, f3]
  linarith

/-- Example: an ASCI calculation of the hydrogen-like two-orbital problem with three determinants runs to the end,
with any eigenvalue routine that finds lowest eigenpairs. -/
example : ∃ (env : DriverEnv) (o : DriverSettings) (out : DriverOut), LowestPair env.eig ∧ SyevSpec env.syev ∧ SortsOk env ∧
    Asks env asciInput stepEntries .ci .asci ⟨1, 1, 0, 2, 0⟩ o ∧ o.mp2Guess = false ∧ o.asci.growWithRot = false ∧
    o.asci.ntdetsMax = 3 ∧ GuessFile env o 2 1 1 ∧ 0 ≤ o.ci.matelTol ∧ driver env asciInput = .ok out := by
  obtain ⟨eig, he⟩ := exists_lowestPair
  obtain ⟨syev, hs⟩ := exists_syev
  obtain ⟨o, out, h1, h2, h3, h4, h5, h6, h7⟩ := asci_example he syev
  exact ⟨_, o, out, he, hs, stepEnv_sorts eig syev, h1, h2, h3, h4, h5, by rw [h6]; norm_num, h7⟩

/-! ### the integral file -/

theorem runJob_fciOut {env : DriverEnv} {job : Job} {exp : Expansion} {sp : Ini.Space} {o : DriverSettings} {f : FciData}
    {out : DriverOut} (h : runJob env job exp sp o f = .ok out) :
    ∃ f', (if o.mp2Guess then mp2Guess env ((sp.ninactive + sp.nalpha) % 2 ^ 64) f else .ok f) = .ok f' ∧
      out.fciOut = if o.fciOut ≠ [] then some (fcidumpLines env.io f'.norb f'.T f'.norb f'.V f'.norb f'.core) else none := by
  unfold runJob at h
  obtain ⟨f', e, h⟩ := out_bind_ok h
  obtain ⟨r, -, h⟩ := out_bind_ok h
  obtain rfl := Out.ok.inj h
  exact ⟨f', e, rfl⟩

/-- C157: the file written under `FCIDUMP_OUT`.  After every calculation without MP2 guess, CI or MCSCF, the program
writes the file exactly when a name is given, and (if the printed digits identify the numbers) the lines it writes are
an FCIDUMP file with the same number of orbitals, core energy and integrals as the one that was read. -/
theorem C157_output_file {env : DriverEnv} {input : List Char} {es : List (FciEntry ℝ)} {job : Job} {exp : Expansion}
    {sp : Ini.Space} {o : DriverSettings} (ha : Asks env input es job exp sp o) (hg : o.mp2Guess = false)
    {out : DriverOut} (h : driver env input = .ok out) :
    (out.fciOut.isSome = true ↔ o.fciOut ≠ []) ∧
    ∀ lines, out.fciOut = some lines → NumIO.FaithfulAt env.io (fileCore es) →
      (∀ p q, p < maxIdx es → q < maxIdx es → NumIO.FaithfulAt env.io ((fileInts es).T p q)) →
      (∀ p q r s, p < maxIdx es → q < maxIdx es → r < maxIdx es → s < maxIdx es →
        NumIO.FaithfulAt env.io ((fileInts es).V p q r s)) →
      ∃ es', Entries env.io lines es' ∧ (∀ e ∈ es', Standard e) ∧ maxIdx es' = maxIdx es ∧ fileCore es' = fileCore es ∧
        (∀ p q, p < maxIdx es → q < maxIdx es → (fileInts es').T p q = (fileInts es).T p q) ∧
        ∀ p q r s, p < maxIdx es → q < maxIdx es → r < maxIdx es → s < maxIdx es →
          (fileInts es').V p q r s = (fileInts es).V p q r s := by
  obtain ⟨f, hr, f2, f3, f4, f5, -, -, -, -⟩ := driver_runs ha h
  have sym : IntSym f.norb (asMat f.T f.norb) (asTen f.V f.norb) := intSym_congr f4 f5 (fileInts_sym es f.norb)
  obtain ⟨f', e, hout⟩ := runJob_fciOut hr
  rw [hg] at e
  obtain rfl : f = f' := Out.ok.inj e
  rw [hout]
  refine ⟨by split <;> simp_all, fun lines hl hc hT hV => ?_⟩
  split at hl
  · cases hl
    rw [← f2] at hT hV ⊢
    obtain ⟨es', e1, e2, e3, e4, e5, e6, -⟩ := dump_entries (io := env.io) (norb := f.norb) (core := f.core) (T := f.T) (V := f.V)
      (f2 ▸ entries_lt ha.choose_spec.choose_spec.2.2.1) (f3 ▸ hc) (fun p q hp hq => f4 p q hp hq ▸ hT p q hp hq)
      (fun p q r s hp hq hr hs => f5 p q r s hp hq hr hs ▸ hV p q r s hp hq hr hs) sym
    exact ⟨es', e1, e2, e3, e4.trans f3, fun p q hp hq => (e5 p q hp hq).trans (f4 p q hp hq),
      fun p q r s hp hq hr hs => (e6 p q r s hp hq hr hs).trans (f5 p q r s hp hq hr hs)⟩
  · cases hl

/-- C157: after a calculation with MP2 guess the file holds the integrals in the guess orbitals: those of the file that
was read, transformed with an orthogonal matrix. -/
theorem C157_output_file_guess {env : DriverEnv} (hs : SyevSpec env.syev) {input : List Char} {es : List (FciEntry ℝ)}
    {job : Job} {exp : Expansion} {sp : Ini.Space} {o : DriverSettings} (ha : Asks env input es job exp sp o)
    (hg : o.mp2Guess = true) {out : DriverOut} (h : driver env input = .ok out) {lines : List (List Char)}
    (hl : out.fciOut = some lines) :
    ∃ (C T : Nat → Nat → ℝ) (V : Nat → Nat → Nat → Nat → ℝ),
      (∀ p q, p < maxIdx es → q < maxIdx es → ∑ i ∈ range (maxIdx es), C i p * C i q = if p = q then 1 else 0) ∧
      (∀ p q, p < maxIdx es → q < maxIdx es → T p q = tr2 (maxIdx es) C (fileInts es).T p q) ∧
      (∀ p q r s, p < maxIdx es → q < maxIdx es → r < maxIdx es → s < maxIdx es →
        V p q r s = tr4 (maxIdx es) C (fileInts es).V p q r s) ∧
      (NumIO.FaithfulAt env.io (fileCore es) →
        (∀ p q, p < maxIdx es → q < maxIdx es → NumIO.FaithfulAt env.io (T p q)) →
        (∀ p q r s, p < maxIdx es → q < maxIdx es → r < maxIdx es → s < maxIdx es → NumIO.FaithfulAt env.io (V p q r s)) →
        ∃ es', Entries env.io lines es' ∧ (∀ e ∈ es', Standard e) ∧ maxIdx es' = maxIdx es ∧ fileCore es' = fileCore es ∧
          (∀ p q, p < maxIdx es → q < maxIdx es → (fileInts es').T p q = T p q) ∧
          ∀ p q r s, p < maxIdx es → q < maxIdx es → r < maxIdx es → s < maxIdx es →
            (fileInts es').V p q r s = V p q r s) := by
  obtain ⟨f, hr, f2, f3, f4, f5, -, -, -, -⟩ := driver_runs ha h
  have sym : IntSym f.norb (asMat f.T f.norb) (asTen f.V f.norb) := intSym_congr f4 f5 (fileInts_sym es f.norb)
  obtain ⟨f', e, hout⟩ := runJob_fciOut hr
  rw [hout] at hl
  split at hl
  · cases hl
    rw [if_pos hg] at e
    unfold mp2Guess at e
    split at e
    · cases e
    rename_i hno
    have ortho := (natorb_eig (ldt := f.norb) (ldv := f.norb)
      (show (sp.ninactive + sp.nalpha) % 2 ^ 64 + (f.norb - (sp.ninactive + sp.nalpha) % 2 ^ 64) = f.norb by omega)
      (le_refl f.norb) hs f.T f.V fun _ => 0).ortho
    set C := (mp2NaturalOrbitals env.syev f.norb ((sp.ninactive + sp.nalpha) % 2 ^ 64)
      (f.norb - (sp.ninactive + sp.nalpha) % 2 ^ 64) f.T f.norb f.V f.norb (fun _ => 0) f.norb).2
    cases e
    obtain ⟨t1, t2⟩ := transform_val (ldt := f.norb) (ldu := f.norb) (no := f.norb) f.T f.V C f.T f.V
    have sym' := intSym_congr t1 t2 (tr_sym sym (asMat C f.norb))
    refine ⟨asMat C f.norb, asMat (twoIndexTransform f.norb f.norb f.T f.norb C f.norb f.T f.norb) f.norb,
      asTen (fourIndexTransform f.norb f.norb f.V f.norb C f.norb f.V f.norb) f.norb, ?_, ?_, ?_, fun hc hT hV => ?_⟩
    · rw [← f2]; exact fun p q hp hq => ortho p q hp hq
    · rw [← f2]
      intro p q hp hq
      rw [t1 p q hp hq]
      exact Finset.sum_congr rfl fun i hi => Finset.sum_congr rfl fun j hj => by
        rw [f4 i j (mem_range.1 hi) (mem_range.1 hj)]
    · rw [← f2]
      intro p q r s hp hq hr hs
      rw [t2 p q r s hp hq hr hs]
      exact Finset.sum_congr rfl fun i hi => Finset.sum_congr rfl fun j hj => Finset.sum_congr rfl fun k hk =>
        Finset.sum_congr rfl fun l hl => by
          rw [f5 i j k l (mem_range.1 hi) (mem_range.1 hj) (mem_range.1 hk) (mem_range.1 hl)]
    · rw [← f2] at hT hV ⊢
      obtain ⟨es', e1, e2, e3, e4, e5, e6, -⟩ := dump_entries (io := env.io) (norb := f.norb) (core := f.core)
        (f2 ▸ entries_lt ha.choose_spec.choose_spec.2.2.1) (f3 ▸ hc) hT hV sym'
      exact ⟨es', e1, e2, e3, e4.trans f3, e5, e6⟩
  · cases hl

/-- C157: the program repeats itself.  If the file written under `FCIDUMP_OUT` replaces the FCIDUMP file that was read
(no MP2 guess, and the guess wave function, if any, is another file), a second run of the program on the same input
file gives exactly the same results. -/
theorem C157_rerun {env : DriverEnv} {input : List Char} {es : List (FciEntry ℝ)} {job : Job} {exp : Expansion}
    {sp : Ini.Space} {o : DriverSettings} {d : Ini.Dict} {name : List Char} (h1 : Ini.parse input = .ok d)
    (h2 : Ini.getString d "CI.FCIDUMP".toList = .ok name) (h3 : Entries env.io (fileLines (env.text name)) es)
    (h4 : ∀ e ∈ es, Standard e) (h5 : readOptions env.io d (maxIdx es) = .ok (job, exp, sp, o))
    (hg : o.mp2Guess = false) (hw : o.wfnFile ≠ name) {out : DriverOut} (h : driver env input = .ok out)
    {lines : List (List Char)} (hl : out.fciOut = some lines) (hc : NumIO.FaithfulAt env.io (fileCore es))
    (hT : ∀ p q, p < maxIdx es → q < maxIdx es → NumIO.FaithfulAt env.io ((fileInts es).T p q))
    (hV : ∀ p q r s, p < maxIdx es → q < maxIdx es → r < maxIdx es → s < maxIdx es →
      NumIO.FaithfulAt env.io ((fileInts es).V p q r s)) :
    driver { env with text := fun n => if n = name then lines.flatMap fun l => l ++ ['\n'] else env.text n } input =
      .ok out := by
  have ha : Asks env input es job exp sp o := ⟨d, name, h1, h2, h3, h4, h5⟩
  obtain ⟨f, f1, f2, f3, f4, f5⟩ := readIntegrals_entries h3 h4
  have sym : IntSym f.norb (asMat f.T f.norb) (asTen f.V f.norb) := intSym_congr f4 f5 (fileInts_sym es f.norb)
  have key : readIntegrals env.io (lines.flatMap fun l => l ++ ['\n']) = readIntegrals env.io (env.text name) := by
    obtain ⟨es', e1, e2, e3, e4, e5, e6⟩ := (C157_output_file ha hg h).2 lines hl hc hT hV
    obtain ⟨f', hr, f2', f3', f4', f5', -⟩ := driver_runs ha h
    obtain ⟨g, e, hout⟩ := runJob_fciOut hr
    rw [hg] at e
    obtain rfl : f' = g := Out.ok.inj e
    have nonl : ∀ l ∈ lines, ∀ c ∈ l, c ≠ '\n' := by
      rw [hout] at hl
      split at hl
      · cases hl
        rw [← f2'] at hT hV
        obtain ⟨-, -, -, -, -, -, -, q⟩ := dump_entries (io := env.io) (norb := f'.norb) (core := f'.core) (T := f'.T)
          (V := f'.V) (f2' ▸ entries_lt h3) (f3' ▸ hc) (fun p q hp hq => f4' p q hp hq ▸ hT p q hp hq)
          (fun p q r s hp hq hr hs => f5' p q r s hp hq hr hs ▸ hV p q r s hp hq hr hs)
          (intSym_congr f4' f5' (fileInts_sym es f'.norb))
        exact q
      · cases hl
    exact readIntegrals_same h3 h4 (by rw [fileLines_unlines _ nonl]; exact e1) e2 e3 e4 e5 e6
  rw [← h]
  unfold driver
  rw [h1]
  simp only [ofExcept, Out.bind]
  rw [h2]
  simp only [ofExcept, if_true]
  rw [key, f1]
  simp only [Run.toOut]
  rw [f2, h5]
  simp only [ofExcept]
  have hrun : ∀ f, runJob { env with text := fun n => if n = name then lines.flatMap fun l => l ++ ['\n'] else env.text n }
      job exp sp o f = runJob env job exp sp o f := by
    intro f
    unfold runJob runAsci asciGuess
    simp only [if_neg hw]
    rfl
  rw [hrun]

/-- the hypotheses of C157 are met by the calculation of the C154 example, which names an output file; the numbers in
it are 0 and 1 -/
example : ∃ (env : DriverEnv) (o : DriverSettings) (out : DriverOut) (d : Ini.Dict) (lines : List (List Char)),
    Ini.parse casInput = .ok d ∧ Ini.getString d "CI.FCIDUMP".toList = .ok "F".toList ∧
    Entries env.io (fileLines (env.text "F".toList)) exEntries ∧ (∀ e ∈ exEntries, Standard e) ∧
    readOptions env.io d (maxIdx exEntries) = .ok (.ci, .cas, ⟨1, 1, 0, 2, 0⟩, o) ∧ o.mp2Guess = false ∧
    o.wfnFile ≠ "F".toList ∧ driver env casInput = .ok out ∧ out.fciOut = some lines ∧
    NumIO.FaithfulAt env.io (fileCore exEntries) ∧
    (∀ p q, p < maxIdx exEntries → q < maxIdx exEntries → NumIO.FaithfulAt env.io ((fileInts exEntries).T p q)) ∧
    ∀ p q r s, p < maxIdx exEntries → q < maxIdx exEntries → r < maxIdx exEntries → s < maxIdx exEntries →
      NumIO.FaithfulAt env.io ((fileInts exEntries).V p q r s) := by
  obtain ⟨eig, he⟩ := exists_lowestPair
  obtain ⟨syev, hs⟩ := exists_syev
  obtain ⟨o, out, h1, h2, -, h4, h5, h6, d, h7, h8, h9⟩ := cas_example he syev
  obtain ⟨lines, hl⟩ := Option.isSome_iff_exists.1 ((C157_output_file h1 h2 h4).1.2 (by rw [h5]; decide))
  refine ⟨drvEnv eig syev, o, out, d, lines, h7, h8, exFci_entries, exEntries_std, h9, h2, by rw [h6]; decide, h4, hl, ?_, ?_, ?_⟩
  · have : fileCore exEntries = 0 := by simp [fileCore, exEntries]
    rw [this]; exact exIO_zero
  · rw [exEntries_max]
    intro p q hp hq
    rw [exEntries_T hp hq]
    by_cases c : p = q
    · simp only [hopI, if_pos c]; exact exIO_zero
    · simp only [hopI, if_neg c]; exact exIO_one
  · intro p q r s _ _ _ _
    rw [exEntries_V]; exact exIO_zero

/-- the hypotheses of `C157_output_file_guess` and of `C156_asci_variational` are met by a calculation with MP2 guess -/
example : ∃ (env : DriverEnv) (o : DriverSettings) (out : DriverOut) (lines : List (List Char)), LowestPair env.eig ∧
    SyevSpec env.syev ∧ SortsOk env ∧ Asks env guessInput stepEntries .ci .asci ⟨1, 1, 0, 2, 0⟩ o ∧ o.mp2Guess = true ∧
    GuessFile env o 2 1 1 ∧ 0 ≤ o.ci.matelTol ∧ driver env guessInput = .ok out ∧ out.fciOut = some lines := by
  obtain ⟨eig, he⟩ := exists_lowestPair
  obtain ⟨syev, hs⟩ := exists_syev
  obtain ⟨o, out, h1, h2, h3, h4, h5, lines, h6⟩ := guess_example eig syev
  exact ⟨stepEnv eig syev, o, out, lines, he, hs, stepEnv_sorts eig syev, h1, h2, h3, h4, h5, h6⟩

end Macis
