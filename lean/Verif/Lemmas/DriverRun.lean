import Verif.Spec.DriverEnv
import Verif.Lemmas.Driver
/-! What the standalone program does after reading its files. -/
namespace Macis
open Spec Finset

variable {M : Nat}

theorem out_bind_ok {α β : Type} {x : Out α} {f : α → Out β} {b : β} (h : x.bind f = .ok b) :
    ∃ a, x = .ok a ∧ f a = .ok b := by
  cases x with
  | ok a => exact ⟨a, rfl, h⟩
  | nonfinite => cases h
  | throw => cases h
  | ub => cases h

theorem except_bind_ok {ε α β : Type} {x : Except ε α} {f : α → Except ε β} {b : β} (h : x >>= f = .ok b) :
    ∃ a, x = .ok a ∧ f a = .ok b := by
  cases x with
  | ok a => exact ⟨a, rfl, h⟩
  | error e => cases h

theorem readOptions_space {io : NumIO ℝ} {d : Ini.Dict} {norb : Nat} {job : Job} {exp : Expansion} {sp : Ini.Space}
    {o : DriverSettings} (h : readOptions io d norb = .ok (job, exp, sp, o)) : Ini.readSpace d norb = .ok sp := by
  unfold readOptions at h
  obtain ⟨_, -, h⟩ := except_bind_ok h
  obtain ⟨_, -, h⟩ := except_bind_ok h
  obtain ⟨_, -, h⟩ := except_bind_ok h
  obtain ⟨_, -, h⟩ := except_bind_ok h
  obtain ⟨sp', hs, h⟩ := except_bind_ok h
  obtain ⟨⟨_, _⟩, -, h⟩ := except_bind_ok h
  obtain ⟨⟨_, _⟩, -, h⟩ := except_bind_ok h
  obtain ⟨⟨_, _, _, _, _⟩, -, h⟩ := except_bind_ok h
  obtain ⟨_, -, h⟩ := except_bind_ok h
  obtain ⟨⟨_, _⟩, -, h⟩ := except_bind_ok h
  cases h
  exact hs

/-- what the program does once its files are read -/
theorem driver_runs {env : DriverEnv} {input : List Char} {es : List (FciEntry ℝ)} {job : Job} {exp : Expansion}
    {sp : Ini.Space} {o : DriverSettings} (ha : Asks env input es job exp sp o) {out : DriverOut}
    (h : driver env input = .ok out) :
    ∃ f : FciData, runJob env job exp sp o f = .ok out ∧ f.norb = maxIdx es ∧ f.core = fileCore es ∧
      (∀ p q, p < f.norb → q < f.norb → asMat f.T f.norb p q = (fileInts es).T p q) ∧
      (∀ p q r s, p < f.norb → q < f.norb → r < f.norb → s < f.norb →
        asTen f.V f.norb p q r s = (fileInts es).V p q r s) ∧
      sp.ninactive + sp.nactive + sp.nvirtual = f.norb ∧ sp.ninactive < f.norb ∧ sp.nactive ≤ 32 ∧
      sp.nalpha = sp.nbeta := by
  obtain ⟨d, name, h1, h2, h3, h4, h5⟩ := ha
  obtain ⟨f, f1, f2, f3, f4, f5⟩ := readIntegrals_entries h3 h4
  have hlt := entries_lt h3
  unfold driver at h
  obtain ⟨d', e1, h⟩ := out_bind_ok h
  obtain rfl : d = d' := Except.ok.inj (h1.symm.trans (ofExcept_ok e1))
  obtain ⟨name', e2, h⟩ := out_bind_ok h
  obtain rfl : name = name' := Except.ok.inj (h2.symm.trans (ofExcept_ok e2))
  obtain ⟨na, -, h⟩ := out_bind_ok h
  obtain ⟨nb, -, h⟩ := out_bind_ok h
  split at h
  · exact absurd h (fun h => by cases h)
  obtain ⟨f', e3, h⟩ := out_bind_ok h
  obtain rfl : f = f' := Run.ok.inj (f1.symm.trans (toOut_ok e3))
  obtain ⟨x, e4, h⟩ := out_bind_ok h
  rw [f2] at e4
  obtain rfl : _ = x := Except.ok.inj (h5.symm.trans (ofExcept_ok e4))
  have := Ini.C143_space_partial d (maxIdx es) (by omega) sp (readOptions_space h5)
  exact ⟨f, h, f2, f3, f4, f5, by rw [f2]; exact this⟩

/-- the integrals of a run -/
def dataInts (f : FciData) : Integrals ℝ := ⟨f.norb, asMat f.T f.norb, asTen f.V f.norb⟩

/-- the natural-orbital guess keeps the symmetry of the integrals and every lower bound -/
theorem mp2_step {env : DriverEnv} (hs : SyevSpec env.syev) {f f' : FciData} {nocc : Nat}
    (sym : IntSym f.norb (asMat f.T f.norb) (asTen f.V f.norb)) (h : mp2Guess env nocc f = .ok f') :
    f'.norb = f.norb ∧ f'.core = f.core ∧ IntSym f'.norb (asMat f'.T f'.norb) (asTen f'.V f'.norb) ∧
    ∀ (na nb : Nat) (mu : ℝ), f.norb ≤ M → na ≤ f.norb → nb ≤ f.norb → IsLowerBound M (dataInts f) na nb mu →
      IsLowerBound M (dataInts f') na nb mu := by
  unfold mp2Guess at h
  split at h
  · exact absurd h (fun h => by cases h)
  rename_i hno
  have ortho := (natorb_eig (ldt := f.norb) (ldv := f.norb) (show nocc + (f.norb - nocc) = f.norb by omega)
    (le_refl f.norb) hs f.T f.V fun _ => 0).ortho
  set C := (mp2NaturalOrbitals env.syev f.norb nocc (f.norb - nocc) f.T f.norb f.V f.norb (fun _ => 0) f.norb).2
  cases h
  obtain ⟨t1, t2⟩ := transform_val (ldt := f.norb) (ldu := f.norb) (no := f.norb) f.T f.V C f.T f.V
  refine ⟨rfl, rfl, intSym_congr t1 t2 (tr_sym sym (asMat C f.norb)), fun _ _ _ hM hna hnb hl => ?_⟩
  exact isLowerBound_rotate hM f.T f.V C f.T f.V (fun p q hp hq => ortho p q hp hq) hna hnb hl

theorem guess_step {env : DriverEnv} {o : DriverSettings} (hs : o.mp2Guess = true → SyevSpec env.syev) {f f' : FciData}
    {nocc : Nat} (sym : IntSym f.norb (asMat f.T f.norb) (asTen f.V f.norb))
    (h : (if o.mp2Guess then mp2Guess env nocc f else .ok f) = .ok f') :
    f'.norb = f.norb ∧ f'.core = f.core ∧ IntSym f'.norb (asMat f'.T f'.norb) (asTen f'.V f'.norb) ∧
    (o.mp2Guess = false → f' = f) ∧
    ∀ (na nb : Nat) (mu : ℝ), f.norb ≤ M → na ≤ f.norb → nb ≤ f.norb → IsLowerBound M (dataInts f) na nb mu →
      IsLowerBound M (dataInts f') na nb mu := by
  by_cases c : o.mp2Guess = true
  · rw [if_pos c] at h
    obtain ⟨a, b, d, e⟩ := mp2_step (M := M) (hs c) sym h
    exact ⟨a, b, d, fun h => absurd (c.symm.trans h) (by decide), e⟩
  · rw [if_neg c] at h
    cases h
    exact ⟨rfl, rfl, sym, fun _ => rfl, fun _ _ _ _ _ _ h => h⟩

/-- `generate_hilbert_space` cannot place more electrons than orbitals -/
theorem hilbert_le {M n na nb : Nat} {dets : List (BitVec (2 * M))} (h : generateHilbertSpace M n na nb = some dets) :
    na ≤ n ∧ nb ≤ n := by
  unfold generateHilbertSpace at h
  simp only [bind, Option.bind, generateCombs] at h
  by_cases h1 : na ≤ n <;> by_cases h2 : nb ≤ n <;> simp [h1, h2] at h ⊢

theorem hamiltonian_congr_below {I J : Integrals ℝ} (hno : J.norb = I.norb)
    (hT : ∀ p q, p < I.norb → q < I.norb → J.T p q = I.T p q)
    (hV : ∀ p q r s, p < I.norb → q < I.norb → r < I.norb → s < I.norb → J.V p q r s = I.V p q r s)
    (s t : BitVec (2 * M)) : hamiltonian J s t = hamiltonian I s t := by
  rw [← hamiltonian_cut J, ← hamiltonian_cut I]
  have : J.cut = I.cut := by
    unfold Integrals.cut
    rw [hno]
    congr 1
    · funext p q; split
      · rename_i h; exact hT p q h.1 h.2
      · rfl
    · funext p q r s; split
      · rename_i h; exact hV p q r s h.1.1 h.1.2 h.2.1 h.2.2
      · rfl
  rw [this]

/-- the CAS-CI branch on given integrals -/
theorem cas_run {env : DriverEnv} {o : DriverSettings} {sp : Ini.Space} {f : FciData} (he : LowestPair env.eig)
    (h0 : 0 ≤ o.ci.matelTol) (sym : IntSym f.norb (asMat f.T f.norb) (asTen f.V f.norb))
    (hn : sp.ninactive + sp.nactive ≤ f.norb) (h32 : sp.nactive ≤ 32) (hM : f.norb ≤ M)
    {H : (Nat → ℝ) × (Nat → ℝ) × (Nat → ℝ)}
    (hH : H = activeHamiltonian f.norb sp.nactive sp.ninactive f.T f.norb f.V f.norb (fun _ => 0) f.norb (fun _ => 0)
      sp.nactive (fun _ => 0) sp.nactive) {c : ℝ} {r : CalcOut}
    (h : runCas env o sp c (inactiveEnergy sp.ninactive f.T f.norb H.1 f.norb) H.2.1 H.2.2 = .ok r) :
    ∃ (full : List (BitVec (2 * M))) (ψ : Nat → ℝ), full.Nodup ∧
      full.length = sp.nactive.choose sp.nalpha * sp.nactive.choose sp.nbeta ∧
      (∀ s, s ∈ full ↔ CasDet sp.ninactive sp.nactive sp.nalpha sp.nbeta s) ∧
      (∑ i ∈ range full.length, ψ i * ψ i) = 1 ∧
      |r.eCI - (c + energyOf (dataInts f) full ψ)| ≤ o.ci.matelTol * full.length ∧
      (∀ s ∈ full, r.eCI ≤ c + hamiltonian (dataInts f) s s + o.ci.matelTol) ∧
      sp.nalpha ≤ sp.nactive ∧ sp.nbeta ≤ sp.nactive := by
  unfold runCas at h
  obtain ⟨x, hx, h⟩ := out_bind_ok h
  obtain ⟨-, dets, -, hd, -⟩ := casRdms_ok hx
  obtain ⟨hα, hβ⟩ := hilbert_le hd
  obtain ⟨full, ψ, nd, len, mem, -, norm, e1, e2⟩ :=
    casRdms_energy (M := M) sym hn h32 hM hα hβ he h0 (Or.inl rfl) hH hx
  cases h
  refine ⟨full, ψ, nd, len, mem, norm, ?_, fun s hs => ?_, hα, hβ⟩
  · rw [show x.1 + (inactiveEnergy sp.ninactive f.T f.norb H.1 f.norb + c) - (c + energyOf (dataInts f) full ψ) =
      inactiveEnergy sp.ninactive f.T f.norb H.1 f.norb + x.1 - energyOf (dataInts f) full ψ by ring]
    exact e1
  · have := e2 rfl s hs
    change _ ≤ c + hamiltonian ⟨f.norb, asMat f.T f.norb, asTen f.V f.norb⟩ s s + _
    linarith

end Macis
