import Verif.Props.Driver
import Verif.Props.DriverMcscf
import Verif.Lemmas.Keywords
import Verif.Props.WfnIO
import Verif.Props.RdmBin
import Verif.Spec.Rounds
/-! Property C168: what the standalone program prints and writes besides the CI energy. -/
namespace Macis
open Spec Finset

variable {M : Nat}

theorem driverWith_ok {env : DriverEnv} {F : Except Ini.Err Ini.Str} {A B : Except Ini.Err Nat}
    {opts : Nat → Except Ini.Err (Job × Expansion × Ini.Space × DriverSettings)} {name : Ini.Str} {na : Nat} {f : FciData}
    {job : Job} {exp : Expansion} {sp : Ini.Space} {o : DriverSettings} (hF : F = .ok name) (hA : A = .ok na)
    (hB : B = .ok na) (hf : readIntegrals env.io (env.text name) = .ok f) (ho : opts f.norb = .ok (job, exp, sp, o)) :
    driverWith env F A B opts = runJob env job exp sp o f := by
  subst hF hA hB
  unfold driverWith
  simp only [ofExcept, Out.bind]
  rw [if_neg (by simp), hf]
  change (ofExcept (opts f.norb)).bind _ = _
  rw [ho]
  rfl

theorem bind_parsed {α : Type} {x : Except Ini.Err α} {d : α} (h : x = .ok d) (g : α → Out DriverOut) (y : Out DriverOut)
    (e : g d = y) : (ofExcept x).bind g = y := by
  subst h
  exact e

theorem readSpace_reads {d : Ini.Dict} {n : Nat} {sp : Ini.Space} (h : Ini.readSpace d n = .ok sp) :
    ∃ na, Ini.getSize d "CI.NALPHA".toList = .ok na ∧ Ini.getSize d "CI.NBETA".toList = .ok na := by
  unfold Ini.readSpace at h
  obtain ⟨na, n1, h⟩ := except_bind_ok h
  obtain ⟨nb, n2, h⟩ := except_bind_ok h
  by_cases hc : na ≠ nb
  · rw [if_pos hc] at h
    cases h
  · obtain rfl := not_not.1 hc
    exact ⟨na, n1, n2⟩

/-- with a readable input the program gets to the calculation -/
theorem driver_eq {env : DriverEnv} {input : List Char} {es : List (FciEntry ℝ)} {job : Job} {exp : Expansion}
    {sp : Ini.Space} {o : DriverSettings} (ha : Asks env input es job exp sp o) :
    ∃ f : FciData, driver env input = runJob env job exp sp o f ∧ f.norb = maxIdx es ∧ f.core = fileCore es ∧
      (∀ p q, p < f.norb → q < f.norb → asMat f.T f.norb p q = (fileInts es).T p q) ∧
      (∀ p q r s, p < f.norb → q < f.norb → r < f.norb → s < f.norb →
        asTen f.V f.norb p q r s = (fileInts es).V p q r s) ∧
      sp.ninactive + sp.nactive + sp.nvirtual = f.norb ∧ sp.ninactive < f.norb ∧ sp.nactive ≤ 32 ∧
      sp.nalpha = sp.nbeta := by
  obtain ⟨d, name, h1, h2, h3, h4, h5⟩ := ha
  obtain ⟨f, f1, f2, f3, f4, f5⟩ := readIntegrals_entries h3 h4
  have hlt := entries_lt h3
  have hs := readOptions_space h5
  have := Ini.C143_space_partial d (maxIdx es) (by omega) sp hs
  refine ⟨f, ?_, f2, f3, f4, f5, by rw [f2]; exact this⟩
  obtain ⟨na, n1, n2⟩ := readSpace_reads hs
  refine (driver_with env input).trans ?_
  exact bind_parsed h1 _ _ (driverWith_ok h2 n1 n2 f1 (f2 ▸ h5))

/-- the Hamiltonian of the integrals read is that of the file -/
theorem file_ham {es : List (FciEntry ℝ)} {f : FciData} (f2 : f.norb = maxIdx es)
    (f4 : ∀ p q, p < f.norb → q < f.norb → asMat f.T f.norb p q = (fileInts es).T p q)
    (f5 : ∀ p q r s, p < f.norb → q < f.norb → r < f.norb → s < f.norb →
      asTen f.V f.norb p q r s = (fileInts es).V p q r s) (s t : BitVec (2 * M)) :
    hamiltonian (⟨f.norb, asMat f.T f.norb, asTen f.V f.norb⟩ : Integrals ℝ) s t = hamiltonian (fileInts es) s t :=
  (hamiltonian_congr_below (I := dataInts f) (J := fileInts es) f2.symm (fun p q hp hq => (f4 p q hp hq).symm)
    (fun p q r s hp hq hr hs => (f5 p q r s hp hq hr hs).symm) s t).symm

/-- a state on active determinants has, with the inactive orbitals filled, the energy with the Hamiltonian of the file -/
theorem file_lift {es : List (FciEntry ℝ)} {f : FciData} (f2 : f.norb = maxIdx es)
    (f4 : ∀ p q, p < f.norb → q < f.norb → asMat f.T f.norb p q = (fileInts es).T p q)
    (f5 : ∀ p q r s, p < f.norb → q < f.norb → r < f.norb → s < f.norb →
      asTen f.V f.norb p q r s = (fileInts es).V p q r s) {ni na nalpha nbeta : Nat} (hn : ni + na ≤ f.norb)
    (h32 : na ≤ 32) (hM : maxIdx es ≤ M) {H : (Nat → ℝ) × (Nat → ℝ) × (Nat → ℝ)}
    (hH : H = activeHamiltonian f.norb na ni f.T f.norb f.V f.norb (fun _ => 0) f.norb (fun _ => 0) na (fun _ => 0) na)
    {act : List (BitVec (2 * 32))} (hact : InSector na nalpha nbeta act) :
    ∃ full : List (BitVec (2 * M)), full.Nodup ∧ List.Forall₂ (WithCoreAt ni) act full ∧
      (∀ s ∈ full, CasDet ni na nalpha nbeta s) ∧
      (∀ c : Nat → ℝ, (∑ i ∈ range act.length, c i * c i) = 1 →
        energyOf (fileInts es) full c =
          inactiveEnergy ni f.T f.norb H.1 f.norb + energyOf (viewInts na H.2.1 H.2.2) act c) ∧
      ∀ i < act.length, ∀ j < act.length, hamiltonian (fileInts es) (full.getD i 0) (full.getD j 0) =
        (if i = j then inactiveEnergy ni f.T f.norb H.1 f.norb else 0) +
          hamiltonian (viewInts na H.2.1 H.2.2) (act.getD i 0) (act.getD j 0) := by
  have sym : IntSym f.norb (asMat f.T f.norb) (asTen f.V f.norb) := intSym_congr f4 f5 (fileInts_sym es f.norb)
  obtain ⟨full, nd, hF, cd, hh⟩ := core_lift (M := 32) (M' := M) (ldt := f.norb) (ldv := f.norb) (ldf := f.norb)
    (ldta := na) (ldva := na) (viewInts na H.2.1 H.2.2) hn h32 (f2 ▸ hM) le_rfl le_rfl le_rfl f.T f.V (fun _ => 0)
    (fun _ => 0) (fun _ => 0) sym.g_pair hH (fun _ _ _ _ => rfl) (fun _ _ _ _ _ _ _ _ => rfl) hact
  refine ⟨full, nd, hF, cd, fun c hc => ?_, fun i hi j hj => (file_ham f2 f4 f5 _ _).symm.trans (hh i hi j hj)⟩
  unfold energyOf
  rw [← hF.length_eq, Finset.sum_congr rfl fun i hi => Finset.sum_congr rfl fun j hj => by
      rw [← file_ham f2 f4 f5, hh i (Finset.mem_range.1 hi) j (Finset.mem_range.1 hj)]]
  simp only [mul_add, Finset.sum_add_distrib, mul_ite, mul_zero]
  congr 1
  rw [Finset.sum_congr rfl fun i hi => Finset.sum_ite_eq (Finset.range act.length) i
    (fun j => c i * c j * inactiveEnergy ni f.T f.norb H.1 f.norb)]
  rw [Finset.sum_congr rfl fun i hi => if_pos hi, ← Finset.sum_mul, hc, one_mul]

/-- C168: the determinants a CAS-CI calculation prints.  There are a list `act` of all determinants with `NALPHA`/`NBETA`
electrons in the active orbitals and a normalised state `ψ` on them with the printed energy (`full` are the same
determinants with the inactive orbitals filled); with `PRINT.DETERMINANTS` exactly those with a coefficient above the
threshold are printed, each with its coefficient, in the order of `act`; without, none. -/
theorem C168_printed_determinants {env : DriverEnv} (he : LowestPair env.eig) {input : List Char}
    {es : List (FciEntry ℝ)} {sp : Ini.Space} {o : DriverSettings} (ha : Asks env input es .ci .cas sp o)
    (hg : o.mp2Guess = false) (h0 : 0 ≤ o.ci.matelTol) (hM : maxIdx es ≤ M) {out : DriverOut}
    (h : driver env input = .ok out) :
    ∃ (act : List (BitVec (2 * 32))) (full : List (BitVec (2 * M))) (ψ : Nat → ℝ), act.Nodup ∧
      (∀ s, s ∈ act ↔ InSpace sp.nactive s ∧ alphaElectrons s = sp.nalpha ∧ betaElectrons s = sp.nbeta) ∧
      List.Forall₂ (WithCoreAt sp.ninactive) act full ∧ full.Nodup ∧
      (∑ i ∈ range act.length, ψ i * ψ i) = 1 ∧
      |out.eCI - (fileCore es + energyOf (fileInts es) full ψ)| ≤ o.ci.matelTol * full.length ∧
      (o.printDets = false → out.dets = []) ∧
      (o.printDets = true → out.dets =
        ((List.range act.length).filter fun i => o.detThresh < |ψ i|).map fun i => (act.getD i 0, ψ i)) ∧
      out.eRDM = none ∧ out.wfnOut = none := by
  obtain ⟨f, hr, f2, f3, f4, f5, s1, -, s3, -⟩ := driver_runs ha h
  have sym : IntSym f.norb (asMat f.T f.norb) (asTen f.V f.norb) := intSym_congr f4 f5 (fileInts_sym es f.norb)
  unfold runJob at hr
  rw [hg] at hr
  obtain ⟨f', e, hr⟩ := out_bind_ok hr
  obtain rfl : f = f' := Out.ok.inj e
  obtain ⟨r, e, hr⟩ := out_bind_ok hr
  set H := activeHamiltonian f.norb sp.nactive sp.ninactive f.T f.norb f.V f.norb (fun _ => 0) f.norb (fun _ => 0)
    sp.nactive (fun _ => 0) sp.nactive with hH
  have hn : sp.ninactive + sp.nactive ≤ f.norb := by omega
  obtain ⟨asym, -⟩ := active_sym (ldt := f.norb) (ldv := f.norb) hn (le_refl sp.nactive) (le_refl sp.nactive) f.T f.V
    (fun _ => 0) (fun _ => 0) (fun _ => 0) sym
  rw [← hH] at asym
  change runCas env o sp f.core (inactiveEnergy sp.ninactive f.T f.norb H.1 f.norb) H.2.1 H.2.2 = .ok r at e
  unfold runCas at e
  dsimp only at e
  obtain ⟨⟨E0, B1, B2, C⟩, hx, e⟩ := out_bind_ok e
  obtain ⟨act, ψ, hall, hs⟩ := casRdms_solved_all s3 asym he h0 (fun _ _ => rfl) (fun _ _ => rfl) (Or.inl rfl) hx
  obtain ⟨full, nd, hF, cd, hE, -⟩ := file_lift (M := M) f2 f4 f5 hn s3 hM hH hs.sector
  dsimp only at e
  rw [hall, Option.getD_some] at e
  obtain rfl := Out.ok.inj e
  obtain rfl := Out.ok.inj hr
  have hC : C = (List.range act.length).map ψ := hs.vec
  refine ⟨act, full, ψ, hs.sector.1, fun s => ⟨fun hm => hs.sector.2 s hm, fun hm => hs.all s hm⟩, hF, nd, hs.norm, ?_,
    fun hp => ?_, fun hp => ?_, rfl, rfl⟩
  · have := hs.energy
    rw [hE ψ hs.norm, ← f3, ← hF.length_eq]
    change |E0 + (inactiveEnergy sp.ninactive f.T f.norb H.1 f.norb + f.core) - _| ≤ _
    rw [show ∀ a b c d : ℝ, a + (b + c) - (c + (b + d)) = a - d from fun a b c d => by ring]
    exact this
  · change (if o.printDets = true then _ else _) = _
    rw [if_neg (by simp [hp])]
  · change (if o.printDets = true then _ else _) = _
    rw [if_pos hp, hC]
    have hz : act.zip ((List.range act.length).map ψ) = (List.range act.length).map fun i => (act.getD i 0, ψ i) := by
      refine List.ext_getElem (by simp) fun k h1 h2 => ?_
      have hk : k < act.length := by simpa using h2
      simp [hk]
    rw [hz, List.filter_map]
    rfl

/-- the energy from density matrices is the energy of the state -/
theorem rdm_energy (I : Integrals ℝ) (act : List (BitVec (2 * M))) (ψ : Nat → ℝ) :
    Spec.energy I.norb I.T I.V
      (fun p q => ∑ i ∈ range act.length, ∑ j ∈ range act.length, ψ i * ψ j * (rdm1 (act.getD i 0) (act.getD j 0) p q : ℝ))
      (fun p q r s => 1 / 2 * ∑ i ∈ range act.length, ∑ j ∈ range act.length,
        ψ i * ψ j * (rdm2 (act.getD i 0) (act.getD j 0) p q r s : ℝ)) = energyOf I act ψ := by
  have e1 : ∀ (m : Nat) (F : Nat → ℝ) (w : Nat → Nat → Nat → ℝ) (n : Nat),
      ∑ p ∈ range n, F p * ∑ i ∈ range m, ∑ j ∈ range m, w i j p =
      ∑ i ∈ range m, ∑ j ∈ range m, ∑ p ∈ range n, F p * w i j p := by
    intro m F w n
    simp only [Finset.mul_sum]
    rw [Finset.sum_comm]
    refine Finset.sum_congr rfl fun i _ => ?_
    rw [Finset.sum_comm]
  have comm : ∀ (m n : Nat) (w : Nat → Nat → Nat → ℝ), ∑ p ∈ range n, ∑ i ∈ range m, ∑ j ∈ range m, w p i j =
      ∑ i ∈ range m, ∑ j ∈ range m, ∑ p ∈ range n, w p i j := by
    intro m n w
    rw [Finset.sum_comm]
    exact Finset.sum_congr rfl fun i _ => Finset.sum_comm
  unfold Spec.energy energyOf
  simp only [hamiltonian_rdm, mul_add, Finset.sum_add_distrib]
  congr 1
  · rw [Finset.sum_congr rfl fun p _ => e1 _ _ _ _, comm]
    refine Finset.sum_congr rfl fun i _ => Finset.sum_congr rfl fun j _ => ?_
    simp only [Finset.mul_sum]
    exact Finset.sum_congr rfl fun p _ => Finset.sum_congr rfl fun q _ => by ring
  · have e2 : ∀ p q r, ∑ s ∈ range I.norb, I.V p q r s * (1 / 2 * ∑ i ∈ range act.length, ∑ j ∈ range act.length,
        ψ i * ψ j * (rdm2 (act.getD i 0) (act.getD j 0) p q r s : ℝ)) =
        ∑ i ∈ range act.length, ∑ j ∈ range act.length, ∑ s ∈ range I.norb, I.V p q r s * (1 / 2) *
          (ψ i * ψ j * (rdm2 (act.getD i 0) (act.getD j 0) p q r s : ℝ)) := by
      intro p q r
      rw [← e1]
      exact Finset.sum_congr rfl fun s _ => by rw [mul_assoc]
    rw [Finset.sum_congr rfl fun p _ => Finset.sum_congr rfl fun q _ => Finset.sum_congr rfl fun r _ => e2 p q r]
    rw [Finset.sum_congr rfl fun p _ => Finset.sum_congr rfl fun q _ => comm _ _ _]
    rw [Finset.sum_congr rfl fun p _ => comm _ _ _, comm]
    refine Finset.sum_congr rfl fun i _ => Finset.sum_congr rfl fun j _ => ?_
    simp only [Finset.mul_sum]
    exact Finset.sum_congr rfl fun p _ => Finset.sum_congr rfl fun q _ => Finset.sum_congr rfl fun r _ =>
      Finset.sum_congr rfl fun s _ => by ring

/-- C168: `E(RDM)`.  When the RDM file named in the input was written for all orbitals and its active block holds the
density matrices of a normalised state on active determinants, then `E(RDM)` is the core energy plus the energy
expectation value, with the Hamiltonian in the file, of that state with the inactive orbitals filled. -/
theorem C168_erdm {env : DriverEnv} {input : List Char} {es : List (FciEntry ℝ)} {exp : Expansion} {sp : Ini.Space}
    {o : DriverSettings} (ha : Asks env input es .mcscf exp sp o) (hg : o.mp2Guess = false) (hM : maxIdx es ≤ M)
    (hr : o.rdmFile ≠ []) {D1 D2 : Nat → ℝ}
    (hf : env.rdmFile o.rdmFile = some (writeRdmsBinary (maxIdx es) D1 (maxIdx es) D2 (maxIdx es)))
    {act : List (BitVec (2 * 32))} (hact : InSector sp.nactive sp.nalpha sp.nbeta act) {ψ : Nat → ℝ}
    (hψ : (∑ i ∈ range act.length, ψ i * ψ i) = 1)
    (h1 : ∀ p q, p < sp.nactive → q < sp.nactive → asMat D1 (maxIdx es) (p + sp.ninactive) (q + sp.ninactive) =
      ∑ i ∈ range act.length, ∑ j ∈ range act.length, ψ i * ψ j * (rdm1 (act.getD i 0) (act.getD j 0) p q : ℝ))
    (h2 : ∀ p q r s, p < sp.nactive → q < sp.nactive → r < sp.nactive → s < sp.nactive →
      asTen D2 (maxIdx es) (p + sp.ninactive) (q + sp.ninactive) (r + sp.ninactive) (s + sp.ninactive) =
      1 / 2 * ∑ i ∈ range act.length, ∑ j ∈ range act.length,
        ψ i * ψ j * (rdm2 (act.getD i 0) (act.getD j 0) p q r s : ℝ))
    {out : DriverOut} (h : driver env input = .ok out) :
    ∃ full : List (BitVec (2 * M)), List.Forall₂ (WithCoreAt sp.ninactive) act full ∧
      out.eRDM = some (fileCore es + energyOf (fileInts es) full ψ) := by
  obtain ⟨f, hrun, f2, f3, f4, f5, s1, -, s3, -⟩ := driver_runs ha h
  unfold runJob at hrun
  rw [hg] at hrun
  obtain ⟨f', e, hrun⟩ := out_bind_ok hrun
  obtain rfl : f = f' := Out.ok.inj e
  obtain ⟨r, e, hrun⟩ := out_bind_ok hrun
  set H := activeHamiltonian f.norb sp.nactive sp.ninactive f.T f.norb f.V f.norb (fun _ => 0) f.norb (fun _ => 0)
    sp.nactive (fun _ => 0) sp.nactive with hH
  have hn : sp.ninactive + sp.nactive ≤ f.norb := by omega
  obtain ⟨full, nd, hF, cd, hE, -⟩ := file_lift (M := M) f2 f4 f5 hn s3 hM hH hact
  refine ⟨full, hF, ?_⟩
  obtain rfl := Out.ok.inj hrun
  change runMcscf env o sp f (inactiveEnergy sp.ninactive f.T f.norb H.1 f.norb) H.2.1 H.2.2 = .ok r at e
  unfold runMcscf at e
  dsimp only at e
  rw [if_pos hr, hf, ← f2] at e
  obtain ⟨O', T', hread, r1, r2, -, -⟩ := C37_round_trip f.norb f.norb f.norb f.norb f.norb le_rfl le_rfl D1 D2
    (fun _ => 0) (fun _ => 0)
  rw [hread] at e
  obtain ⟨⟨x, A1, A2⟩, e1, e⟩ := out_bind_ok e
  obtain ⟨s, -, e⟩ := out_bind_ok e
  obtain rfl := Out.ok.inj e
  obtain ⟨-, -, e1⟩ := out_bind_ok e1
  cases e1
  change some _ = some _
  rw [dot_energy, hE ψ hψ, ← f3]
  congr 1
  have a1 : ∀ p q, p < sp.nactive → q < sp.nactive →
      asMat (activeSubmatrix1body sp.nactive sp.ninactive O' f.norb (fun _ => 0) sp.nactive) sp.nactive p q =
      ∑ i ∈ range act.length, ∑ j ∈ range act.length, ψ i * ψ j * (rdm1 (act.getD i 0) (act.getD j 0) p q : ℝ) := by
    intro p q hp hq
    rw [← h1 p q hp hq, ← f2]
    refine ((fill2 (le_refl sp.nactive) _ _).1 p q hp hq).trans ?_
    exact r1 _ _ (by omega) (by omega)
  have a2 : ∀ p q r s, p < sp.nactive → q < sp.nactive → r < sp.nactive → s < sp.nactive →
      asTen (activeSubtensor2body sp.nactive sp.ninactive T' f.norb (fun _ => 0) sp.nactive) sp.nactive p q r s =
      1 / 2 * ∑ i ∈ range act.length, ∑ j ∈ range act.length,
        ψ i * ψ j * (rdm2 (act.getD i 0) (act.getD j 0) p q r s : ℝ) := by
    intro p q r s hp hq hr hs
    rw [← h2 p q r s hp hq hr hs, ← f2]
    refine ((fill4 (le_refl sp.nactive) _ _).1 p q r s hp hq hr hs).trans ?_
    have := r2 (p + sp.ninactive) (q + sp.ninactive) (r + sp.ninactive) (s + sp.ninactive) (by omega) (by omega)
      (by omega) (by omega)
    refine Eq.trans ?_ this
    dsimp only
    unfold addr4
    congr 1
    ring
  rw [energy_congr_den a1 a2]
  have key : Spec.energy sp.nactive (asMat H.2.1 sp.nactive) (asTen H.2.2 sp.nactive)
      (fun p q => ∑ i ∈ range act.length, ∑ j ∈ range act.length, ψ i * ψ j * (rdm1 (act.getD i 0) (act.getD j 0) p q : ℝ))
      (fun p q r s => 1 / 2 * ∑ i ∈ range act.length, ∑ j ∈ range act.length,
        ψ i * ψ j * (rdm2 (act.getD i 0) (act.getD j 0) p q r s : ℝ)) =
      energyOf (viewInts sp.nactive H.2.1 H.2.2) act ψ := by
    exact (rdm_energy (viewInts sp.nactive H.2.1 H.2.2) act ψ)
  rw [key]
  ring

/-! ### Wave function files -/

/-- the energy calculated for a wave function from a file -/
theorem guessEnergy_val {n na nb : Nat} (h32 : n ≤ 32) {Ta Va : Nat → ℝ} (sym : IntSym n (asMat Ta n) (asTen Va n))
    {dets : List (BitVec (2 * 32))} (hd : InSector n na nb dets) {C : List ℝ} (hC : dets.length ≤ C.length) :
    guessEnergy (viewInts n Ta Va) dets C = .ok (energyOf (viewInts n Ta Va) dets fun i => C.getD i 0) := by
  have me : ∀ i, i < dets.length → ∀ j, j < dets.length →
      (viewInts n Ta Va).matrixElement (dets.getD i 0) (dets.getD j 0) =
        hamiltonian (viewInts n Ta Va) (dets.getD i 0) (dets.getD j 0) := by
    intro i hi j hj
    have a := hd.2 _ (getD_mem' (0 : BitVec (2 * 32)) hi)
    have b := hd.2 _ (getD_mem' (0 : BitVec (2 * 32)) hj)
    exact C152_slater_condon (viewInts n Ta Va) h32 two_ne_zero (viewSym sym).pair a.1 b.1
      ⟨a.2.1.trans b.2.1.symm, a.2.2.trans b.2.2.symm⟩
  unfold guessEnergy
  rw [if_neg (by omega)]
  congr 1
  rw [list_range_sum]
  unfold energyOf
  refine Finset.sum_congr rfl fun i hi => ?_
  rw [list_range_sum, Finset.mul_sum]
  refine Finset.sum_congr rfl fun j hj => ?_
  rw [me i (mem_range.1 hi) j (mem_range.1 hj)]
  ring

/-- a large enough wave function and no refinement: nothing is searched -/
theorem asci_at_once {env : DriverEnv} {o : DriverSettings} {sp : Ini.Space} {c eI : ℝ} {Ta Va : Nat → ℝ} {r : CalcOut}
    {E0 : ℝ} {dets : List (BitVec (2 * 32))} {C : List ℝ}
    (hge : asciGuess env o (viewInts sp.nactive Ta Va) sp.nalpha c eI = .ok (E0, dets, C))
    (hlen : o.asci.ntdetsMax ≤ dets.length) (hre : o.asci.maxRefineIter = 0)
    (h : runAsci env o sp c eI Ta Va = .ok r) : r.eCI = E0 + (eI + c) := by
  unfold runAsci at h
  dsimp only at h
  rw [hge] at h
  obtain ⟨x, e1, h⟩ := out_bind_ok h
  obtain rfl := Out.ok.inj e1
  dsimp only at h
  have hg : asciGrow (asciEnv env o sp.nactive) o.asci env.fuel ⟨Ta, Va⟩ E0 dets C = .ok ⟨⟨Ta, Va⟩, E0, dets, C, []⟩ := by
    unfold asciGrow
    cases env.fuel <;> exact if_neg (Nat.not_lt.2 hlen)
  rw [hg] at h
  obtain ⟨g, e2, h⟩ := out_bind_ok h
  obtain rfl := Out.ok.inj e2
  rw [if_neg (not_not.2 hre)] at h
  obtain ⟨x, e3, h⟩ := out_bind_ok h
  obtain rfl := Out.ok.inj e3
  obtain ⟨w, -, h⟩ := out_bind_ok h
  obtain rfl := Out.ok.inj h
  rfl

/-- C168: when the wave function file has at least `NTDETS_MAX` determinants and there is no refinement, the number given
as `E0_WFN` is printed as the energy, whatever the Hamiltonian and the wave function are. -/
theorem C168_given_energy {env : DriverEnv} {input : List Char} {es : List (FciEntry ℝ)} {sp : Ini.Space}
    {o : DriverSettings} (ha : Asks env input es .ci .asci sp o) (hw : o.wfnFile ≠ [])
    {dets : List (BitVec (2 * 32))} {C : List ℝ} (hf : readWavefunction 32 env.io (env.text o.wfnFile) = .ok (dets, C))
    (hlen : o.asci.ntdetsMax ≤ dets.length) (hre : o.asci.maxRefineIter = 0) {e : ℝ} (he : o.e0 = some e)
    {out : DriverOut} (h : driver env input = .ok out) : out.eCI = e := by
  obtain ⟨f, hr, -⟩ := driver_runs ha h
  unfold runJob at hr
  obtain ⟨f', -, hr⟩ := out_bind_ok hr
  obtain ⟨r, e1, hr⟩ := out_bind_ok hr
  obtain rfl := Out.ok.inj hr
  have := asci_at_once (dets := dets) (C := C) (by
    unfold asciGuess
    rw [if_pos hw, hf, he]
    rfl) hlen hre e1
  refine this.trans ?_
  ring

/-- C168: the same without `E0_WFN`: with `full` the determinants of the wave function file with the inactive orbitals
filled, the printed energy is the core and inactive energies plus the expectation value of the Hamiltonian in the file,
less the inactive energy, of the coefficients in the file as they are: they are not normalised. -/
theorem C168_file_energy_any {env : DriverEnv} {input : List Char} {es : List (FciEntry ℝ)} {sp : Ini.Space}
    {o : DriverSettings} (ha : Asks env input es .ci .asci sp o) (hg : o.mp2Guess = false) (hM : maxIdx es ≤ M)
    (hw : o.wfnFile ≠ []) {dets : List (BitVec (2 * 32))} {C : List ℝ}
    (hf : readWavefunction 32 env.io (env.text o.wfnFile) = .ok (dets, C))
    (hd : InSector sp.nactive sp.nalpha sp.nbeta dets)
    (hlen : o.asci.ntdetsMax ≤ dets.length) (hre : o.asci.maxRefineIter = 0) (he : o.e0 = none)
    {out : DriverOut} (h : driver env input = .ok out) :
    ∃ full : List (BitVec (2 * M)), List.Forall₂ (WithCoreAt sp.ninactive) dets full ∧
      out.eCI = fileCore es + out.eInactive + ∑ i ∈ range full.length, ∑ j ∈ range full.length,
        C.getD i 0 * C.getD j 0 * (hamiltonian (fileInts es) (full.getD i 0) (full.getD j 0) -
          if i = j then out.eInactive else 0) := by
  obtain ⟨f, hr, f2, f3, f4, f5, s1, -, s3, -⟩ := driver_runs ha h
  have sym : IntSym f.norb (asMat f.T f.norb) (asTen f.V f.norb) := intSym_congr f4 f5 (fileInts_sym es f.norb)
  unfold runJob at hr
  rw [hg] at hr
  obtain ⟨f', e, hr⟩ := out_bind_ok hr
  obtain rfl : f = f' := Out.ok.inj e
  obtain ⟨r, e, hr⟩ := out_bind_ok hr
  set H := activeHamiltonian f.norb sp.nactive sp.ninactive f.T f.norb f.V f.norb (fun _ => 0) f.norb (fun _ => 0)
    sp.nactive (fun _ => 0) sp.nactive with hH
  have hn : sp.ninactive + sp.nactive ≤ f.norb := by omega
  obtain ⟨asym, -⟩ := active_sym (ldt := f.norb) (ldv := f.norb) hn (le_refl sp.nactive) (le_refl sp.nactive) f.T f.V
    (fun _ => 0) (fun _ => 0) (fun _ => 0) sym
  rw [← hH] at asym
  obtain ⟨full, nd, hF, cd, -, hh⟩ := file_lift (M := M) f2 f4 f5 hn s3 hM hH hd
  refine ⟨full, hF, ?_⟩
  obtain rfl := Out.ok.inj hr
  change runAsci env o sp f.core (inactiveEnergy sp.ninactive f.T f.norb H.1 f.norb) H.2.1 H.2.2 = .ok r at e
  have e0 := e
  unfold runAsci at e0
  dsimp only at e0
  obtain ⟨⟨E0, d1, C1⟩, hge, -⟩ := out_bind_ok e0
  have hge' := hge
  unfold asciGuess at hge'
  rw [if_pos hw, hf, he] at hge'
  obtain ⟨x, q, hge'⟩ := out_bind_ok hge'
  obtain rfl := Out.ok.inj q
  dsimp only at hge'
  obtain ⟨E1, q, hge'⟩ := out_bind_ok hge'
  cases hge'
  have hCl : dets.length ≤ C.length := by
    by_contra hc
    unfold guessEnergy at q
    rw [if_pos (by omega)] at q
    cases q
  rw [guessEnergy_val s3 asym hd hCl] at q
  obtain rfl := Out.ok.inj q
  have := asci_at_once hge hlen hre e
  change r.eCI = fileCore es + inactiveEnergy sp.ninactive f.T f.norb H.1 f.norb +
    ∑ i ∈ range full.length, ∑ j ∈ range full.length, C.getD i 0 * C.getD j 0 *
      (hamiltonian (fileInts es) (full.getD i 0) (full.getD j 0) -
        if i = j then inactiveEnergy sp.ninactive f.T f.norb H.1 f.norb else 0)
  rw [this, f3, ← hF.length_eq, Finset.sum_congr rfl fun i hi => Finset.sum_congr rfl fun j hj => by
    rw [hh i (mem_range.1 hi) j (mem_range.1 hj), add_sub_cancel_left]]
  unfold energyOf
  ring

/-- C168: in particular, for normalised coefficients the printed energy is exactly the core energy plus the energy
expectation value, with the Hamiltonian in the file, of the state in the wave function file. -/
theorem C168_file_energy {env : DriverEnv} {input : List Char} {es : List (FciEntry ℝ)} {sp : Ini.Space}
    {o : DriverSettings} (ha : Asks env input es .ci .asci sp o) (hg : o.mp2Guess = false) (hM : maxIdx es ≤ M)
    (hw : o.wfnFile ≠ []) {dets : List (BitVec (2 * 32))} {C : List ℝ}
    (hf : readWavefunction 32 env.io (env.text o.wfnFile) = .ok (dets, C))
    (hd : InSector sp.nactive sp.nalpha sp.nbeta dets)
    (hC : (∑ i ∈ range dets.length, C.getD i 0 * C.getD i 0) = 1)
    (hlen : o.asci.ntdetsMax ≤ dets.length) (hre : o.asci.maxRefineIter = 0) (he : o.e0 = none)
    {out : DriverOut} (h : driver env input = .ok out) :
    ∃ full : List (BitVec (2 * M)), List.Forall₂ (WithCoreAt sp.ninactive) dets full ∧
      out.eCI = fileCore es + energyOf (fileInts es) full fun i => C.getD i 0 := by
  obtain ⟨full, hF, e⟩ := C168_file_energy_any ha hg hM hw hf hd hlen hre he h
  refine ⟨full, hF, ?_⟩
  rw [e]
  unfold energyOf
  simp only [mul_sub, Finset.sum_sub_distrib, mul_ite, mul_zero]
  rw [← hF.length_eq, Finset.sum_congr rfl fun i hi => Finset.sum_ite_eq (Finset.range dets.length) i
    (fun j => C.getD i 0 * C.getD j 0 * out.eInactive)]
  rw [Finset.sum_congr rfl fun i hi => if_pos hi, ← Finset.sum_mul, hC]
  ring

/-- C34: coefficients that are printed with a rounding error of at most `δ` are read back with an error of at most `δ`. -/
theorem C34_rounded {K : Nat} (hK : 0 < K) (hK' : 2 * K < 2147483648) {io : NumIO ℝ} {δ : ℝ} (hio : NumIO.Rounds io δ)
    (norb : Nat) (hnorb : norb < 2147483648) (states : List (BitVec (2 * K))) (coeffs : List ℝ)
    (hlen : states.length = coeffs.length) (hne : states ≠ []) (hns : states.length < 2147483648)
    (hone : ∀ c ∈ coeffs, |c| ≤ 1) :
    ∃ file coeffs', writeWavefunction io norb states coeffs = .ok (some file) ∧
      readWavefunction K io file = .ok (states, coeffs') ∧ coeffs'.length = coeffs.length ∧
      ∀ i < coeffs.length, |coeffs'.getD i 0 - coeffs.getD i 0| ≤ δ := by
  obtain ⟨s0, ss, rfl⟩ := List.exists_cons_of_ne_nil hne
  have hl : ∃ file, writeWavefunction io norb (s0 :: ss) coeffs = .ok (some file) ∧
      fileLines file =
        wfnHeader (s0 :: ss).length norb (count (s0 <<< K)) (count (s0 >>> K)) ::
        List.zipWith (fun c d => wfnLine io c d) coeffs (s0 :: ss) := by
    refine ⟨_, by rw [writeWavefunction, if_neg (not_not.mpr hlen)], ?_⟩
    rw [fileLines_unlines]
    intro l hl
    rw [List.mem_cons] at hl
    rcases hl with rfl | hl
    · exact wfnHeader_no_newline _ _ _ _
    · rw [List.mem_iff_getElem] at hl
      obtain ⟨i, hi, rfl⟩ := hl
      rw [List.getElem_zipWith]
      intro x hx
      simp only [wfnLine, padLeft, List.mem_append, List.mem_cons, List.mem_replicate,
        List.not_mem_nil, or_false] at hx
      rcases hx with ((hx | hx) | hx | hx) | hx
      · rw [hx.2]; decide
      · exact not_space_ne_newline ((hio _ (hone _ (List.getElem_mem _))).2.1 x hx)
      · rw [hx]; decide
      · exact not_space_ne_newline (canonical_not_space _ hx)
      · rw [hx]; decide
  have hrows : ∀ (states : List (BitVec (2 * K))) (coeffs : List ℝ), states.length = coeffs.length →
      (∀ c ∈ coeffs, |c| ≤ 1) → ∃ coeffs' : List ℝ, coeffs'.length = coeffs.length ∧
        (∀ i < coeffs.length, |coeffs'.getD i 0 - coeffs.getD i 0| ≤ δ) ∧
        (List.zipWith (fun c d => wfnLine io c d) coeffs states).mapM (readWfnLine K io) = some (states.zip coeffs') := by
    intro states
    induction states with
    | nil => intro coeffs h _; cases coeffs with
      | nil => exact ⟨[], rfl, fun i hi => absurd hi (by simp), rfl⟩
      | cons => simp at h
    | cons s states ih =>
      intro coeffs h h1
      cases coeffs with
      | nil => simp at h
      | cons c coeffs =>
        obtain ⟨cs, a, b, e⟩ := ih coeffs (by simpa using h) fun x hx => h1 x (by simp [hx])
        obtain ⟨⟨y, q1, q2⟩, q3, z, q4, -⟩ := hio c (h1 c (by simp))
        refine ⟨y :: cs, by simp [a], fun i hi => ?_, ?_⟩
        · cases i with
          | zero => simpa using q2
          | succ i => simpa using b i (by simpa using hi)
        · rw [List.zipWith_cons_cons, List.mapM_cons, e]
          have hs : isSpaceC ' ' = true := by decide
          have hw : words (wfnLine io c s) = [io.fmt c, toCanonicalString s] := by
            rw [words_eq_pieces, wfnLine, padLeft, List.append_assoc, List.append_assoc,
              pieces_pad isSpaceC ' ' hs, List.cons_append,
              pieces_word isSpaceC _ q3 (List.ne_nil_of_mem q4) ' ' hs,
              pieces_word isSpaceC _ (fun x hx => canonical_not_space s hx) _ ' ' hs, pieces_nil]
            intro h
            have : (toCanonicalString s).length = K := by simp [toCanonicalString]
            rw [h] at this; simp at this; omega
          have : readWfnLine K io (wfnLine io c s) = some (s, y) := by
            simp only [readWfnLine, hw, List.getD_cons_succ, List.getD_cons_zero,
              C12_string_round_trip, q1]
          rw [this]; rfl
  obtain ⟨file, hw, hl⟩ := hl
  obtain ⟨cs, a, b, e⟩ := hrows _ _ hlen hone
  refine ⟨file, cs, hw, ?_, a, b⟩
  have h1 := count_le (s := s0 <<< K)
  have h2 := count_le (s := s0 >>> K)
  simp only [readWavefunction, hl, List.headD_cons, wfnHeader_words, List.getD_cons_succ,
    List.getD_cons_zero, List.tail_cons, stoi_showNat hns, stoi_showNat hnorb,
    stoi_showNat (show count (s0 <<< K) < 2147483648 by omega),
    stoi_showNat (show count (s0 >>> K) < 2147483648 by omega), e]
  rw [if_neg (by omega), List.map_fst_zip (by omega), List.map_snd_zip (by omega)]

/-- C168: the wave function file.  Without orbital rotations an ASCI calculation that names a `WFN_OUT_FILE` writes one,
and reading it back gives different determinants `act`, at least `NTDETS_MAX` of them, with `NALPHA`/`NBETA` electrons in
the active orbitals, and, up to the rounding of the printed numbers, the coefficients of a normalised state `ψ` on them
whose energy expectation value with the Hamiltonian in the file, the inactive orbitals filled, is the printed energy up
to the threshold below which Hamiltonian elements are dropped. -/
theorem C168_wavefunction_file {env : DriverEnv} (he : LowestPair env.eig) (hs : SortsOk env) {input : List Char}
    {es : List (FciEntry ℝ)} {sp : Ini.Space} {o : DriverSettings} (ha : Asks env input es .ci .asci sp o)
    (hg : o.mp2Guess = false) (hrot : o.asci.growWithRot = false) (hα : sp.nalpha ≤ sp.nactive)
    (hf : GuessFile env o sp.nactive sp.nalpha sp.nbeta) (h0 : 0 ≤ o.ci.matelTol) (hM : maxIdx es ≤ M) {δ : ℝ}
    (hio : NumIO.Rounds env.io δ) (hsmall : sp.nactive.choose sp.nalpha * sp.nactive.choose sp.nbeta < 2147483648)
    {out : DriverOut} (h : driver env input = .ok out) :
    (o.wfnOut = [] → out.wfnOut = none) ∧
    (o.wfnOut ≠ [] → ∃ (file : List Char) (act : List (BitVec (2 * 32))) (C : List ℝ) (ψ : Nat → ℝ)
      (full : List (BitVec (2 * M))),
      out.wfnOut = some file ∧ readWavefunction 32 env.io file = .ok (act, C) ∧
      InSector sp.nactive sp.nalpha sp.nbeta act ∧ o.asci.ntdetsMax ≤ act.length ∧ C.length = act.length ∧
      (∑ i ∈ range act.length, ψ i * ψ i) = 1 ∧ (∀ i < act.length, |C.getD i 0 - ψ i| ≤ δ) ∧
      List.Forall₂ (WithCoreAt sp.ninactive) act full ∧ full.Nodup ∧
      (∀ s ∈ full, CasDet sp.ninactive sp.nactive sp.nalpha sp.nbeta s) ∧
      |out.eCI - (fileCore es + energyOf (fileInts es) full ψ)| ≤ o.ci.matelTol * act.length) := by
  obtain ⟨f, hr, f2, f3, f4, f5, s1, -, s3, hab⟩ := driver_runs ha h
  have sym : IntSym f.norb (asMat f.T f.norb) (asTen f.V f.norb) := intSym_congr f4 f5 (fileInts_sym es f.norb)
  unfold runJob at hr
  rw [hg] at hr
  obtain ⟨f', e, hr⟩ := out_bind_ok hr
  obtain rfl : f = f' := Out.ok.inj e
  obtain ⟨r, e, hr⟩ := out_bind_ok hr
  set H := activeHamiltonian f.norb sp.nactive sp.ninactive f.T f.norb f.V f.norb (fun _ => 0) f.norb (fun _ => 0)
    sp.nactive (fun _ => 0) sp.nactive with hH
  have hn : sp.ninactive + sp.nactive ≤ f.norb := by omega
  obtain ⟨asym, -⟩ := active_sym (ldt := f.norb) (ldv := f.norb) hn (le_refl sp.nactive) (le_refl sp.nactive) f.T f.V
    (fun _ => 0) (fun _ => 0) (fun _ => 0) sym
  rw [← hH] at asym
  obtain ⟨h', w, E, Y, r1, r2, r3, -, r5, r6, r7, r8⟩ :=
    asci_run he hs (fun e => absurd (hrot.symm.trans e) (by decide)) h0 s3 hab hα asym hf e
  change r.eCI = E + (inactiveEnergy sp.ninactive f.T f.norb H.1 f.norb + f.core) at r5
  obtain rfl : h' = ⟨H.2.1, H.2.2⟩ := r1.same hrot
  obtain rfl := Out.ok.inj hr
  refine ⟨r7, fun hz => ?_⟩
  obtain ⟨ψ, rfl, p1, p2, -⟩ := r6 (Or.inl hrot)
  have hne : w ≠ [] := by
    rintro rfl
    simp at p1
  have hlen := r2.length_le s3 hα (hab ▸ hα)
  obtain ⟨file, C, q1, q2, q3, q4⟩ := C34_rounded (K := 32) (by norm_num) (by norm_num) hio sp.nactive
    (lt_of_le_of_lt s3 (by norm_num)) w ((List.range w.length).map ψ) (by simp) hne (lt_of_le_of_lt hlen hsmall) (by
      intro c hc
      obtain ⟨i, hi, rfl⟩ := List.mem_map.1 hc
      have : ψ i * ψ i ≤ 1 := by
        rw [← p1]
        exact Finset.single_le_sum (f := fun i => ψ i * ψ i) (fun i _ => mul_self_nonneg _)
          (mem_range.2 (List.mem_range.1 hi))
      exact abs_le.2 ⟨by nlinarith, by nlinarith⟩)
  simp only [List.length_map, List.length_range] at q3 q4
  obtain ⟨full, nd, hF, cd, hE, -⟩ := file_lift (M := M) f2 f4 f5 hn s3 hM hH r2
  have hout : r.wfnOut = some file := Run.ok.inj ((r8 hz).symm.trans q1)
  refine ⟨file, w, C, ψ, full, hout, q2, r2, r3, q3, p1, fun i hi => ?_, hF, nd, cd, ?_⟩
  · have := q4 i hi
    rwa [List.getD_eq_getElem ((List.range w.length).map ψ) _ (by simpa using hi), List.getElem_map,
      List.getElem_range] at this
  · rw [hE _ p1, ← f3]
    change |r.eCI - _| ≤ _
    rw [r5, show ∀ a b c d : ℝ, a + (b + c) - (c + (b + d)) = a - d from fun a b c d => by ring]
    exact p2

/-- coefficients that are off by at most `δ` -/
theorem quad_rounded {n : Nat} {h : Nat → Nat → ℝ} {x y : Nat → ℝ} {δ : ℝ} (hx : ∀ i < n, |x i| ≤ 1)
    (hy : ∀ i < n, |y i - x i| ≤ δ) :
    |(∑ i ∈ range n, ∑ j ∈ range n, y i * y j * h i j) - ∑ i ∈ range n, ∑ j ∈ range n, x i * x j * h i j| ≤
      δ * (2 + δ) * ∑ i ∈ range n, ∑ j ∈ range n, |h i j| := by
  rw [← Finset.sum_sub_distrib, Finset.mul_sum]
  refine (Finset.abs_sum_le_sum_abs _ _).trans (Finset.sum_le_sum fun i hi => ?_)
  rw [← Finset.sum_sub_distrib, Finset.mul_sum]
  refine (Finset.abs_sum_le_sum_abs _ _).trans (Finset.sum_le_sum fun j hj => ?_)
  rw [← sub_mul, abs_mul]
  refine mul_le_mul_of_nonneg_right ?_ (abs_nonneg _)
  have a := hx i (mem_range.1 hi)
  have b := hx j (mem_range.1 hj)
  have c := hy i (mem_range.1 hi)
  have d := hy j (mem_range.1 hj)
  have h0 : 0 ≤ δ := (abs_nonneg _).trans c
  have e : y i * y j - x i * x j = (y i - x i) * x j + x i * (y j - x j) + (y i - x i) * (y j - x j) := by ring
  rw [e]
  refine (abs_add_le _ _).trans ?_
  refine (add_le_add (abs_add_le _ _) le_rfl).trans ?_
  rw [abs_mul, abs_mul, abs_mul]
  have t1 : |y i - x i| * |x j| ≤ δ * 1 := mul_le_mul c b (abs_nonneg _) h0
  have t2 : |x i| * |y j - x j| ≤ 1 * δ := mul_le_mul a d (abs_nonneg _) zero_le_one
  have t3 : |y i - x i| * |y j - x j| ≤ δ * δ := mul_le_mul c d (abs_nonneg _) h0
  linarith

/-- C168: restarting.  A second run for the same integrals and active space that starts from the wave function file of
the first, with `NTDETS_MAX` not above the number of determinants in it, no refinement and no `E0_WFN`, prints the same
energy up to the threshold below which Hamiltonian elements are dropped and the rounding of the printed coefficients. -/
theorem C168_restart {env env' : DriverEnv} (he : LowestPair env.eig) (hs : SortsOk env) {input input' : List Char}
    {es : List (FciEntry ℝ)} {sp : Ini.Space} {o o' : DriverSettings} (ha : Asks env input es .ci .asci sp o)
    (ha' : Asks env' input' es .ci .asci sp o') (hio' : env'.io = env.io)
    (hg : o.mp2Guess = false) (hg' : o'.mp2Guess = false) (hrot : o.asci.growWithRot = false) (hα : sp.nalpha ≤ sp.nactive)
    (hf : GuessFile env o sp.nactive sp.nalpha sp.nbeta) (h0 : 0 ≤ o.ci.matelTol) (hM : maxIdx es ≤ M) {δ : ℝ}
    (hio : NumIO.Rounds env.io δ) (hsmall : sp.nactive.choose sp.nalpha * sp.nactive.choose sp.nbeta < 2147483648)
    (hmax : o'.asci.ntdetsMax ≤ o.asci.ntdetsMax) (hre : o'.asci.maxRefineIter = 0) (he0 : o'.e0 = none)
    {out out' : DriverOut} (h : driver env input = .ok out) (hw : o'.wfnFile ≠ [])
    (hfile : out.wfnOut = some (env'.text o'.wfnFile)) (h' : driver env' input' = .ok out') :
    ∃ full : List (BitVec (2 * M)), full.Nodup ∧
      (∀ s ∈ full, CasDet sp.ninactive sp.nactive sp.nalpha sp.nbeta s) ∧
      |out'.eCI - out.eCI| ≤ o.ci.matelTol * full.length + δ * (2 + δ) *
        ∑ i ∈ range full.length, ∑ j ∈ range full.length,
          |hamiltonian (fileInts es) (full.getD i 0) (full.getD j 0) - if i = j then out'.eInactive else 0| := by
  obtain ⟨w1, w2⟩ := C168_wavefunction_file (M := M) he hs ha hg hrot hα hf h0 hM hio hsmall h
  have hz : o.wfnOut ≠ [] := fun hz => by rw [w1 hz] at hfile; cases hfile
  obtain ⟨file, act, C, ψ, full, e1, e2, e3, e4, e5, e6, er, e7, nd, cd, e8⟩ := w2 hz
  obtain rfl : env'.text o'.wfnFile = file := Option.some.inj (hfile.symm.trans e1)
  obtain ⟨full', g1, g2⟩ := C168_file_energy_any (M := M) ha' hg' hM hw (by rw [hio']; exact e2) e3
    (hmax.trans e4) hre he0 h'
  obtain rfl : full' = full := by
    have uniq : ∀ {a : BitVec (2 * 32)} {f g : BitVec (2 * M)}, WithCoreAt sp.ninactive a f →
        WithCoreAt sp.ninactive a g → f = g := by
      intro a f g hf hg
      refine BitVec.eq_of_getLsbD_eq fun i hi => ?_
      by_cases c : i < M
      · rw [(hf i c).1, (hg i c).1]
      · have := (hf (i - M) (by omega)).2
        have h2 := (hg (i - M) (by omega)).2
        rw [show i - M + M = i by omega] at this h2
        rw [this, h2]
    clear e8 g2 e3 e2 e4 e5 e6 er nd cd
    induction e7 generalizing full' with
    | nil => cases g1; rfl
    | cons x y ih =>
      cases g1 with
      | cons x' y' => rw [uniq x x', ih _ y']
  refine ⟨full', nd, cd, ?_⟩
  have hl := e7.length_eq
  rw [hl] at e6 er e8
  have hq := quad_rounded (h := fun i j => hamiltonian (fileInts es) (full'.getD i 0) (full'.getD j 0) -
    if i = j then out'.eInactive else 0) (x := ψ) (y := fun i => C.getD i 0) (δ := δ) (n := full'.length) (by
      intro i hi
      have : ψ i * ψ i ≤ 1 := by
        rw [← e6]
        exact Finset.single_le_sum (f := fun i => ψ i * ψ i) (fun i _ => mul_self_nonneg _) (mem_range.2 hi)
      exact abs_le.2 ⟨by nlinarith, by nlinarith⟩) er
  have hx : ∑ i ∈ range full'.length, ∑ j ∈ range full'.length, ψ i * ψ j *
      (hamiltonian (fileInts es) (full'.getD i 0) (full'.getD j 0) - if i = j then out'.eInactive else 0) =
      energyOf (fileInts es) full' ψ - out'.eInactive := by
    unfold energyOf
    simp only [mul_sub, Finset.sum_sub_distrib, mul_ite, mul_zero]
    rw [Finset.sum_congr rfl fun i hi => Finset.sum_ite_eq (Finset.range full'.length) i
      (fun j => ψ i * ψ j * out'.eInactive)]
    rw [Finset.sum_congr rfl fun i hi => if_pos hi, ← Finset.sum_mul, e6, one_mul]
  rw [hx] at hq
  rw [g2]
  rw [abs_le] at hq e8 ⊢
  constructor <;> linarith [hq.1, hq.2, e8.1, e8.2]

/-! ### The MP2 guess -/

/-- C168: with the MP2 guess the program does what it does without on the integrals in other orthonormal orbitals, as
long as there are no more occupied than orbitals; otherwise it runs into undefined behaviour. -/
theorem C168_mp2_guess {env : DriverEnv} (hs : SyevSpec env.syev) {input : List Char} {es : List (FciEntry ℝ)} {job : Job}
    {exp : Expansion} {sp : Ini.Space} {o : DriverSettings} (ha : Asks env input es job exp sp o) (hg : o.mp2Guess = true)
    (hsz : sp.ninactive + sp.nalpha < 2 ^ 64) :
    (maxIdx es < sp.ninactive + sp.nalpha → driver env input = .ub) ∧
    (sp.ninactive + sp.nalpha ≤ maxIdx es → ∃ (C : Nat → Nat → ℝ) (f : FciData), Orthogonal (maxIdx es) C ∧
      f.norb = maxIdx es ∧ f.core = fileCore es ∧
      (∀ p q, p < f.norb → q < f.norb → asMat f.T f.norb p q = tr2 f.norb C (fileInts es).T p q) ∧
      (∀ p q r s, p < f.norb → q < f.norb → r < f.norb → s < f.norb →
        asTen f.V f.norb p q r s = tr4 f.norb C (fileInts es).V p q r s) ∧
      driver env input = runJob env job exp sp { o with mp2Guess := false } f) := by
  obtain ⟨f, hr, f2, f3, f4, f5, -⟩ := driver_eq ha
  rw [hr]
  constructor
  · intro hlt
    unfold runJob
    rw [if_pos hg, Nat.mod_eq_of_lt hsz]
    unfold mp2Guess
    rw [if_pos (f2 ▸ hlt)]
    rfl
  · intro hle
    have hle' : ¬ f.norb < sp.ninactive + sp.nalpha := by omega
    obtain ⟨f', hf'⟩ : ∃ f', mp2Guess env (sp.ninactive + sp.nalpha) f = .ok f' := by
      unfold mp2Guess
      rw [if_neg hle']
      exact ⟨_, rfl⟩
    obtain ⟨C, c1, -, c3, c4, c5, c6⟩ := guess_orbs (o := o) (fun _ => hs) (by rw [if_pos hg]; exact hf')
    refine ⟨C, f', f2 ▸ c1, c3.trans f2, c4.trans f3, ?_, ?_, ?_⟩
    · rw [c3]
      intro p q hp hq
      rw [c5 p q hp hq, tr2_congr_fun f4]
    · rw [c3]
      intro p q r s hp hq hr hs
      rw [c6 p q r s hp hq hr hs, tr4_congr_fun f5]
    · unfold runJob
      rw [if_pos hg, Nat.mod_eq_of_lt hsz, hf', if_neg (by simp)]
      rfl

end Macis
