import Verif.Lemmas.MpiDriverExample
/-! C166 on a small ASCI calculation of the standalone program that three ranks complete. -/
namespace Macis
open Spec Spec.Mpi Mpi Finset

/-- C166's conditions on three ranks: the files are read, the guess is found, growth and refinement return, so every rank
gets through the program and prints one energy, that of a state on three determinants. -/
example : ∃ eig, EigLocal eig ∧ LowestPair eig ∧ ∀ syev, ∃ o f j,
    Asks (triEnv eig syev) triInput triEntries .ci .asci ⟨3, 3, 0, 4, 0⟩ o ∧
    readJob (triEnv eig syev) triInput = .ok (.ci, .asci, ⟨3, 3, 0, 4, 0⟩, o, f) ∧
    asciJob (triEnv eig syev) ⟨3, 3, 0, 4, 0⟩ o f = .ok j ∧
    ∀ garbage garbage' mem, ∃ (st : Nat → AsciMem 32) (eCI : ℝ),
      AlwaysEnds (jobWorld (rankPar (triEnv eig syev) triRanks o 4) j (3 * 2 ^ 64 + 1) 5 garbage garbage' mem) st ∧
      (∀ r < 3, (st r).err = false ∧ (st r).thrown = false ∧
        ∀ out, rankEnd (triEnv eig syev) ⟨3, 3, 0, 4, 0⟩ o j r (st r).E0 (st r).wfn (st r).X = .ok out → out.eCI = eCI) ∧
      ∃ (full : List (BitVec (2 * 4))) (ψ : Nat → ℝ), full.Nodup ∧ 3 ≤ full.length ∧
        (∀ s ∈ full, CasDet 0 4 3 3 s) ∧ (∑ i ∈ range full.length, ψ i * ψ i) = 1 ∧
        |eCI - (fileCore triEntries + energyOf (fileInts triEntries) full ψ)| ≤ 1 / 2 ^ 52 * full.length := by
  obtain ⟨eig, he, hl⟩ := exists_eigLocal
  refine ⟨eig, he, hl, fun syev => ?_⟩
  obtain ⟨d, o, h1, h2, h3, h4, h5, h6, h7, h8, h9, h10, h11⟩ := triInput_reads
  obtain ⟨f, f1, f2, f3, f4, f5⟩ := readIntegrals_entries triFci_entries triEntries_std
  rw [triEntries_max] at f2
  rw [f2] at f4 f5
  have ha : Asks (triEnv eig syev) triInput triEntries .ci .asci ⟨3, 3, 0, 4, 0⟩ o :=
    ⟨d, _, h1, h2, triFci_entries, triEntries_std, by rw [triEntries_max]; exact h5⟩
  have hr : readJob (triEnv eig syev) triInput = .ok (.ci, .asci, ⟨3, 3, 0, 4, 0⟩, o, f) := by
    unfold readJob
    rw [h1]
    simp only [ofExcept, Out.bind]
    rw [h2]
    simp only [ofExcept]
    rw [h3, h4]
    simp only
    rw [if_neg (by simp)]
    rw [show readIntegrals (triEnv eig syev).io ((triEnv eig syev).text "F".toList) = .ok f from f1]
    simp only [Run.toOut]
    rw [f2, show readOptions (triEnv eig syev).io d 4 = _ from h5]
  obtain ⟨H, hH⟩ : ∃ H, H = activeHamiltonian 4 4 0 f.T 4 f.V 4 (fun _ => 0) 4 (fun _ => 0) 4 (fun _ => 0) 4 := ⟨_, rfl⟩
  have hact := noInactive_active 4 f.T f.V
  rw [← hH] at hact
  have hT : ∀ p q, p < 4 → q < 4 → asMat H.2.1 4 p q = triI.T p q := fun p q hp hq =>
    (hact.1 p q hp hq).trans ((f4 p q hp hq).trans (triEntries_T hp hq))
  have hV : ∀ p q r s, p < 4 → q < 4 → r < 4 → s < 4 → asTen H.2.2 4 p q r s = 0 := fun p q r s hp hq hr hs =>
    (hact.2 p q r s hp hq hr hs).trans ((f5 p q r s hp hq hr hs).trans triEntries_V)
  have hf : canonicalHF 32 (3 % 2 ^ 32) (3 % 2 ^ 32) = triDets.getD 0 0 := by decide +kernel
  have m0 : triDets.getD 0 0 ∈ triDets := List.mem_cons_self
  have ham : ∀ s t : BitVec (2 * 32), hamiltonian (viewInts 4 H.2.1 H.2.2) s t = hamiltonian triI s t :=
    hamiltonian_congr_below (I := triI) (J := viewInts 4 H.2.1 H.2.2) rfl hT hV
  have hE : (viewInts 4 H.2.1 H.2.2).matrixElement (triDets.getD 0 0) (triDets.getD 0 0) = 0 := by
    have := C152_slater_condon (M := 32) (viewInts 4 H.2.1 H.2.2) (by simp [viewInts]) two_ne_zero
      (fun p q r s hp hq hr hs => (hV p q r s hp hq hr hs).trans (hV r s p q hr hs hp hq).symm)
      (tri_sector.1 _ m0).1 (tri_sector.1 _ m0).1 ⟨rfl, rfl⟩
    rw [this, ham, tri_ham, tri_vals.2.1]
    simp
  obtain ⟨j, hj, j1, j2, j3, j4⟩ : ∃ j, asciJob (triEnv eig syev) ⟨3, 3, 0, 4, 0⟩ o f = .ok j ∧ j.h = ⟨H.2.1, H.2.2⟩ ∧
      j.E0 = 0 ∧ j.dets = [triDets.getD 0 0] ∧ j.C = [1] := by
    unfold asciJob
    rw [h7]
    simp only [Bool.false_eq_true, if_false, Out.bind, f2]
    rw [← hH]
    unfold asciGuess
    rw [if_neg (by simp [h10])]
    dsimp only
    rw [hf, hE]
    exact ⟨_, rfl, rfl, rfl, rfl, rfl⟩
  refine ⟨o, f, j, ha, hr, hj, fun garbage garbage' mem => ?_⟩
  obtain ⟨E, w, X, hok⟩ := tri_phases eig hl syev h6 h8 h9 hT hV j1 j2 j3 j4
  obtain ⟨st, eCI, q1, q2, full, ψ, q3, q4, q5, q6, q7, -⟩ := C166_energy_partial (M := 4) (triEnv_sorts eig syev) he hl triRanks_ok
    (show 2 ≤ 3 by decide) ha h7 (by rw [h8]) (show 3 ≤ 4 by decide) (by rw [h9]; exact le_refl 3) (by
      intro s s1 s2 s3
      have := tri_reach_card (s := s) s1 s2 s3
      show o.asci.ncdetsMax * _ ≤ o.contrib.pairSizeMax
      rw [h8, h9]
      dsimp only
      change 100 * {t | SearchReach 4 false s t}.ncard ≤ 500000000
      omega) (fun e => absurd h10 e) (by rw [triEntries_max]) hr hj (by rw [h6]; norm_num) (by rw [h6]; norm_num)
    (by rw [h8]; show 3 ≤ 100; norm_num) (by rw [h8]; exact le_refl 3) (by rw [h8]; norm_num) (by rw [j3]; simp) garbage garbage' mem
    (3 * 2 ^ 64 + 1) 5 (show 3 * 2 ^ (2 * 32) < _ by norm_num) hok
  refine ⟨st, eCI, q1, q2, full, ψ, q3, by rw [h8] at q4; exact q4, q5, q6, by rw [h6] at q7; exact q7⟩

end Macis
