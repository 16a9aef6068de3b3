import Verif.Lemmas.Diag
import Mathlib.Data.Rat.Defs
import Mathlib.Algebra.Field.Rat

/-! Properties C13–C16: Hamiltonian matrix elements (`hamiltonian_generator/*.hpp`). -/
namespace Macis
open Spec

/-! ### C13 -/

/-- C13: in one spin sector the code's matrix element is the second-quantised one, for all integrals
with pair exchange symmetry, any number of orbitals and any field where `2 ≠ 0`. -/
theorem C13_slater_condon {R : Type} [Field R] (M : Nat) (I : Integrals R) (hn : I.norb ≤ M)
    (h2 : (2 : R) ≠ 0) (hV : PairSymmetric I) (bra ket : BitVec (2 * M))
    (hb : InSpace I.norb bra) (hk : InSpace I.norb ket) (hs : SameSector bra ket) :
    I.matrixElement bra ket = hamiltonian I bra ket := by
  rw [inSpace_iff] at hb hk
  obtain ⟨h1, h2'⟩ := hs
  rw [alphaElectrons_eq, alphaElectrons_eq] at h1
  rw [betaElectrons_eq, betaElectrons_eq] at h2'
  have := matrixElement_join I hn h2 hV _ _ _ _ hb.1 hb.2 hk.1 hk.2 h1 h2'
  rwa [joinSpin_lo_hi, joinSpin_lo_hi] at this

/-- Example integrals for the witnesses (pair symmetric and fully symmetric). -/
def exInts : Integrals Rat :=
  ⟨2, fun p q => p + q + 1, fun p q r s => (p + q) * (r + s) + 1⟩

theorem exInts_symm : RealSymmetric exInts := by
  refine ⟨?_, ?_, ?_⟩ <;> intros <;> simp only [exInts] <;> ring

/-- pair symmetry of the integrals is needed: with `V(0,0,1,1) = 1` only, a (fully allowed) diagonal
element differs from the operator's. -/
theorem C13_needs_pair_symmetry :
    ∃ (I : Integrals Rat) (bra ket : BitVec (2 * 2)), I.norb = 2 ∧ InSpace 2 bra ∧ InSpace 2 ket ∧
      SameSector bra ket ∧ I.matrixElement bra ket ≠ hamiltonian I bra ket := by
  refine ⟨⟨2, fun _ _ => 0, fun p q r s => if p = 0 ∧ q = 0 ∧ r = 1 ∧ s = 1 then 1 else 0⟩,
    0b1001#4, 0b1001#4, rfl, ?_, ?_, ⟨rfl, rfl⟩, by decide +kernel⟩ <;>
  exact ⟨fun i h _ => h, fun i h _ => h⟩

example : exInts.matrixElement (M := 2) (0b0110#4) (0b1001#4)
    = hamiltonian (M := 2) exInts (0b0110#4) (0b1001#4) ∧
    exInts.matrixElement (M := 2) (0b0110#4) (0b1001#4) = 2 ∧
    InSpace (M := 2) exInts.norb (0b0110#4) ∧ InSpace (M := 2) exInts.norb (0b1001#4) ∧
    SameSector (M := 2) (0b0110#4) (0b1001#4) := by
  refine ⟨C13_slater_condon 2 exInts (by decide) (by norm_num) exInts_symm.2.1 _ _ ?_ ?_ ⟨rfl, rfl⟩,
    by decide +kernel, ?_, ?_, ⟨rfl, rfl⟩⟩ <;> exact ⟨fun i h _ => h, fun i h _ => h⟩

/-! ### C14 -/

/-- C14: for real symmetric integrals the matrix elements within a sector are symmetric. -/
theorem C14_symmetric {R : Type} [Field R] (M : Nat) (I : Integrals R) (hn : I.norb ≤ M)
    (h2 : (2 : R) ≠ 0) (hI : RealSymmetric I) (bra ket : BitVec (2 * M))
    (hb : InSpace I.norb bra) (hk : InSpace I.norb ket) (hs : SameSector bra ket) :
    I.matrixElement bra ket = I.matrixElement ket bra := by
  rw [C13_slater_condon M I hn h2 hI.2.1 bra ket hb hk hs,
    C13_slater_condon M I hn h2 hI.2.1 ket bra hk hb ⟨hs.1.symm, hs.2.symm⟩,
    hamiltonian_symm I hn hI]

/-- Across sectors the symmetry fails: the element of two one-electron determinants of opposite
spin is the diagonal energy of whichever determinant is passed first. -/
theorem C14_not_symmetric_across_sectors :
    ∃ bra ket : BitVec (2 * 2), InSpace exInts.norb bra ∧ InSpace exInts.norb ket ∧
      exInts.matrixElement bra ket ≠ exInts.matrixElement ket bra := by
  refine ⟨0b0001#4, 0b1000#4, ?_, ?_, by decide +kernel⟩ <;>
  exact ⟨fun i h _ => h, fun i h _ => h⟩

example : SameSector (M := 2) (0b0101#4) (0b1010#4) := ⟨rfl, rfl⟩

/-! ### C15 -/

/-- number of spin orbitals occupied in exactly one of the two determinants -/
def Spec.diffOrbitals {N : Nat} (s t : BitVec N) : Nat :=
  ((List.range N).filter (fun i => s.getLsbD i != t.getLsbD i)).length

theorem count_xor_add {M : Nat} (s t : BitVec (2 * M)) :
    count (loWord s ^^^ loWord t) + count (hiWord s ^^^ hiWord t) = diffOrbitals s t := by
  rw [count_eq_length, count_eq_length]
  unfold occ diffOrbitals
  rw [show List.range (2 * M) = List.range (M + M) by congr 1; omega, List.range_add, List.filter_append, List.length_append]
  congr 1
  · congr 1
    apply List.filter_congr
    intro x hx
    simp at hx
    rw [BitVec.getLsbD_xor, getLsbD_loWord, getLsbD_loWord]; simp [hx]
  · rw [List.filter_map, List.length_map]
    congr 1
    apply List.filter_congr
    intro x hx
    simp at hx
    rw [BitVec.getLsbD_xor, getLsbD_hiWord, getLsbD_hiWord, Function.comp, Nat.add_comm x M]
    simp [hx]

/-- C15: determinants (of any sectors) differing in more than four spin orbitals, i.e. by more than
two moved electrons, give exactly zero. -/
theorem C15_zero_beyond_doubles {R : Type} [Field R] (M : Nat) (I : Integrals R)
    (bra ket : BitVec (2 * M)) (h : 4 < diffOrbitals bra ket) : I.matrixElement bra ket = 0 := by
  rw [← count_xor_add] at h
  simp only [Integrals.matrixElement, Integrals.matrixElementSpin]
  rw [if_pos (by omega)]

/-- C15: in one sector, determinants differing by more than two moved
electrons give zero in the code and in the specification. -/
theorem C15_more_than_two_moved {R : Type} [Field R] (M : Nat) (I : Integrals R) (hn : I.norb ≤ M)
    (h2 : (2 : R) ≠ 0) (hV : PairSymmetric I) (bra ket : BitVec (2 * M))
    (hb : InSpace I.norb bra) (hk : InSpace I.norb ket) (hs : SameSector bra ket)
    (h : 4 < diffOrbitals bra ket) : hamiltonian I bra ket = 0 := by
  rw [← C13_slater_condon M I hn h2 hV bra ket hb hk hs,
    C15_zero_beyond_doubles M I bra ket h]

/-- C53, the part that holds: determinants of different sectors that differ in more than four spin
orbitals.  Missing: those differing in at most four, see `C53_sector_coupling_refuted`. -/
theorem C53_far_sectors_partial {R : Type} [Field R] (M : Nat) (I : Integrals R)
    (bra ket : BitVec (2 * M)) (_ : ¬ SameSector bra ket) (h : 4 < diffOrbitals bra ket) :
    I.matrixElement bra ket = 0 := C15_zero_beyond_doubles M I bra ket h

/-- C53 refuted: an alpha and a beta one-electron determinant "couple" through the code
(the fall-through branch returns the diagonal energy of the bra), while the Hamiltonian does not
couple them. -/
theorem C53_sector_coupling_refuted :
    ∃ bra ket : BitVec (2 * 2), alphaElectrons bra ≠ alphaElectrons ket ∧
      exInts.matrixElement bra ket ≠ 0 ∧ hamiltonian exInts bra ket = 0 :=
  ⟨0b0001#4, 0b0100#4, by decide +kernel, by decide +kernel, by decide +kernel⟩

/-- The general shape of the finding: whenever both spin strings differ in one or three places the
diagonal energy of the bra is returned, and likewise with an odd total of differing places when no
single-spin count is 2 or 4. -/
theorem C53_fallthrough {R : Type} [Field R] (M : Nat) (I : Integrals R) (bra ket : BitVec (2 * M))
    (h4 : diffOrbitals bra ket ≤ 4)
    (ha : count (loWord bra ^^^ loWord ket) % 2 = 1) (hb : count (hiWord bra ^^^ hiWord ket) % 2 = 1) :
    I.matrixElement bra ket = I.matrixElement bra bra := by
  rw [← count_xor_add] at h4
  have z : ∀ x : BitVec M, count (x ^^^ x) = 0 := by
    intro x; rw [BitVec.xor_self]; exact count_eq_zero_iff.2 rfl
  simp only [Integrals.matrixElement, Integrals.matrixElementSpin, z]
  simp only [show ¬ (count (loWord bra ^^^ loWord ket) + count (hiWord bra ^^^ hiWord ket) > 4) by omega,
    show ¬ (count (loWord bra ^^^ loWord ket) = 4) by omega,
    show ¬ (count (hiWord bra ^^^ hiWord ket) = 4) by omega,
    show ¬ (count (loWord bra ^^^ loWord ket) = 2) by omega,
    show ¬ (count (hiWord bra ^^^ hiWord ket) = 2) by omega]
  simp

/-! ### C16 -/

theorem matrixElement_self {R : Type} [Field R] {M : Nat} (I : Integrals R) (s : BitVec (2 * M)) :
    I.matrixElement s s = I.matrixElementDiag (occ (loWord s)) (occ (hiWord s)) := by
  have z : ∀ x : BitVec M, count (x ^^^ x) = 0 := by
    intro x; rw [BitVec.xor_self]; exact count_eq_zero_iff.2 rfl
  simp only [Integrals.matrixElement, Integrals.matrixElementSpin, z, bitsToIndices_eq_occ]
  simp

theorem loWord_flip_alpha {M : Nat} (s : BitVec (2 * M)) {p : Nat} (hp : p < M) :
    loWord (flip s p) = flip (loWord s) p ∧ hiWord (flip s p) = hiWord s := by
  have h := flip_join_alpha (loWord s) (hiWord s) hp
  rw [joinSpin_lo_hi] at h
  rw [h, loWord_joinSpin, hiWord_joinSpin]; exact ⟨rfl, rfl⟩

theorem loWord_flip_beta {M : Nat} (s : BitVec (2 * M)) {p : Nat} (hp : p < M) :
    loWord (flip s (p + M)) = loWord s ∧ hiWord (flip s (p + M)) = flip (hiWord s) p := by
  have h := flip_join_beta (loWord s) (hiWord s) hp
  rw [joinSpin_lo_hi] at h
  rw [h, loWord_joinSpin, hiWord_joinSpin]; exact ⟨rfl, rfl⟩

section C16
variable {R : Type} [Field R] {M : Nat} (I : Integrals R)

/-- diagonal energy is insensitive to exchanging the spins -/
theorem diag_swap (hV : PairSymmetric I) (l m : List Nat) :
    I.matrixElementDiag l m = I.matrixElementDiag m l := by
  have key : ∀ l m : List Nat, (m.map fun q => (l.map fun p => I.V2red p q).sum).sum
      = (l.map fun q => (m.map fun p => I.V2red p q).sum).sum := by
    intro l m
    induction m with
    | nil => simp
    | cons a m ih =>
      simp only [List.map_cons, List.sum_cons, ih]
      rw [map_sum_add]
      congr 2
      apply List.map_congr_left
      intro p _
      exact hV p p a a
  unfold Integrals.matrixElementDiag
  rw [key l m]; ring

theorem diag_move_first {s : BitVec M} {h p : Nat} (hh : s.getLsbD h = true)
    (hp : s.getLsbD p = false) (hpM : p < M) (os : List Nat) (hV : PairSymmetric I) :
    I.matrixElementDiag (occ (flip (flip s h) p)) os
      = I.fastDiagSingle (occ s) os h p (I.matrixElementDiag (occ s) os) := by
  have hc : ∀ x q, I.V2red x q = I.V2red q x := fun x q => hV x x q q
  unfold Integrals.fastDiagSingle Integrals.fastDiagSingleEn Integrals.singleOrbitalEn
    Integrals.matrixElementDiag
  simp only [sum_occ_move hh hp hpM, map_sum_add, map_sum_sub, G2red_self, fun x => hc x h]
  ring

theorem diag_move_two {s : BitVec M} {h1 p1 h2 p2 : Nat} (hh1 : s.getLsbD h1 = true)
    (hp1 : s.getLsbD p1 = false) (hpM1 : p1 < M) (hh2 : s.getLsbD h2 = true)
    (hp2 : s.getLsbD p2 = false) (hpM2 : p2 < M) (hne : h1 ≠ h2) (pne : p1 ≠ p2) (os : List Nat) :
    I.matrixElementDiag (occ (flip (flip (flip (flip s h1) p1) h2) p2)) os
      = I.fastDiagSSDouble (occ s) os h1 h2 p1 p2 (I.matrixElementDiag (occ s) os) := by
  have hN1 := BitVec.lt_of_getLsbD hh1
  have n1 : p1 ≠ h2 := by rintro rfl; simp [hh2] at hp1
  have n2 : h1 ≠ p2 := by rintro rfl; simp [hh1] at hp2
  have a1 : (flip (flip s h1) p1).getLsbD h2 = true := by
    rw [getLsbD_flip hpM1, getLsbD_flip hN1, hh2]; simp [hne, n1]
  have a2 : (flip (flip s h1) p1).getLsbD p2 = false := by
    rw [getLsbD_flip hpM1, getLsbD_flip hN1, hp2]; simp [pne, n2]
  unfold Integrals.fastDiagSSDouble Integrals.fastDiagSSDoubleEn Integrals.singleOrbitalEn
    Integrals.matrixElementDiag
  simp only [sum_occ_move a1 a2 hpM2, sum_occ_move hh1 hp1 hpM1, map_sum_add, map_sum_sub, G2red_self]
  ring

theorem diag_move_both {s t : BitVec M} {h1 p1 h2 p2 : Nat} (hh1 : s.getLsbD h1 = true)
    (hp1 : s.getLsbD p1 = false) (hpM1 : p1 < M) (hh2 : t.getLsbD h2 = true)
    (hp2 : t.getLsbD p2 = false) (hpM2 : p2 < M) (hV : PairSymmetric I) :
    I.matrixElementDiag (occ (flip (flip s h1) p1)) (occ (flip (flip t h2) p2))
      = I.fastDiagOSDouble (occ s) (occ t) h1 h2 p1 p2 (I.matrixElementDiag (occ s) (occ t)) := by
  have hc : ∀ x q, I.V2red x q = I.V2red q x := fun x q => hV x x q q
  unfold Integrals.fastDiagOSDouble Integrals.fastDiagOSDoubleEn Integrals.singleOrbitalEn
    Integrals.matrixElementDiag
  simp only [sum_occ_move hh2 hp2 hpM2, sum_occ_move hh1 hp1 hpM1, map_sum_add, map_sum_sub,
    G2red_self, fun x => hc x h2, fun x => hc x p2]
  ring

/-- C16: the precomputed orbital energies are the single-orbital ones. -/
theorem C16_orbital_energies (norb : Nat) (ss os : List Nat) (i : Nat) (hi : i < norb) :
    (I.singleOrbitalEns norb ss os)[i]? = some (I.singleOrbitalEn i ss os) := by
  simp [Integrals.singleOrbitalEns, Integrals.singleOrbitalEn, hi]

/-- C16, alpha single: the incremental formula gives the diagonal element of the excited
determinant. -/
theorem C16_single_alpha (hV : PairSymmetric I) (s : BitVec (2 * M)) (hol par : Nat)
    (hh : hol < M) (hs : s.getLsbD hol = true) (hp : par < M) (hv : s.getLsbD par = false) :
    I.fastDiagSingle (bitsToIndices (loWord s)) (bitsToIndices (hiWord s)) hol par
        (I.matrixElement s s)
      = I.matrixElement (flip (flip s hol) par) (flip (flip s hol) par) := by
  rw [matrixElement_self, matrixElement_self, (loWord_flip_alpha _ hp).1, (loWord_flip_alpha _ hp).2,
    (loWord_flip_alpha _ hh).1, (loWord_flip_alpha _ hh).2, bitsToIndices_eq_occ,
    bitsToIndices_eq_occ, diag_move_first I (by rw [getLsbD_loWord]; simp [hh, hs])
      (by rw [getLsbD_loWord]; simp [hv]) hp _ hV]

/-- C16, beta single. -/
theorem C16_single_beta (hV : PairSymmetric I) (s : BitVec (2 * M)) (hol par : Nat)
    (hh : hol < M) (hs : s.getLsbD (hol + M) = true) (hp : par < M)
    (hv : s.getLsbD (par + M) = false) :
    I.fastDiagSingle (bitsToIndices (hiWord s)) (bitsToIndices (loWord s)) hol par
        (I.matrixElement s s)
      = I.matrixElement (flip (flip s (hol + M)) (par + M)) (flip (flip s (hol + M)) (par + M)) := by
  rw [matrixElement_self, matrixElement_self, (loWord_flip_beta _ hp).1, (loWord_flip_beta _ hp).2,
    (loWord_flip_beta _ hh).1, (loWord_flip_beta _ hh).2, bitsToIndices_eq_occ,
    bitsToIndices_eq_occ, diag_swap I hV (occ (loWord s)), diag_swap I hV (occ (loWord s)),
    diag_move_first I (by rw [getLsbD_hiWord]; simp [hh, hs])
      (by rw [getLsbD_hiWord]; simp [hv]) hp _ hV]

/-- C16, alpha-alpha double. -/
theorem C16_double_alpha (s : BitVec (2 * M)) (h1 h2 p1 p2 : Nat)
    (hh1 : h1 < M) (hs1 : s.getLsbD h1 = true) (hh2 : h2 < M) (hs2 : s.getLsbD h2 = true)
    (hp1 : p1 < M) (hv1 : s.getLsbD p1 = false) (hp2 : p2 < M) (hv2 : s.getLsbD p2 = false)
    (hne : h1 ≠ h2) (pne : p1 ≠ p2) :
    let t := flip (flip (flip (flip s h1) p1) h2) p2
    I.fastDiagSSDouble (bitsToIndices (loWord s)) (bitsToIndices (hiWord s)) h1 h2 p1 p2
        (I.matrixElement s s) = I.matrixElement t t := by
  intro t
  rw [matrixElement_self, matrixElement_self, (loWord_flip_alpha _ hp2).1, (loWord_flip_alpha _ hp2).2,
    (loWord_flip_alpha _ hh2).1, (loWord_flip_alpha _ hh2).2,
    (loWord_flip_alpha _ hp1).1, (loWord_flip_alpha _ hp1).2,
    (loWord_flip_alpha _ hh1).1, (loWord_flip_alpha _ hh1).2, bitsToIndices_eq_occ,
    bitsToIndices_eq_occ,
    diag_move_two I (by rw [getLsbD_loWord]; simp [hh1, hs1]) (by rw [getLsbD_loWord]; simp [hv1]) hp1
      (by rw [getLsbD_loWord]; simp [hh2, hs2]) (by rw [getLsbD_loWord]; simp [hv2]) hp2 hne pne]

/-- C16, beta-beta double. -/
theorem C16_double_beta (hV : PairSymmetric I) (s : BitVec (2 * M)) (h1 h2 p1 p2 : Nat)
    (hh1 : h1 < M) (hs1 : s.getLsbD (h1 + M) = true) (hh2 : h2 < M) (hs2 : s.getLsbD (h2 + M) = true)
    (hp1 : p1 < M) (hv1 : s.getLsbD (p1 + M) = false) (hp2 : p2 < M)
    (hv2 : s.getLsbD (p2 + M) = false) (hne : h1 ≠ h2) (pne : p1 ≠ p2) :
    let t := flip (flip (flip (flip s (h1 + M)) (p1 + M)) (h2 + M)) (p2 + M)
    I.fastDiagSSDouble (bitsToIndices (hiWord s)) (bitsToIndices (loWord s)) h1 h2 p1 p2
        (I.matrixElement s s) = I.matrixElement t t := by
  intro t
  rw [matrixElement_self, matrixElement_self, (loWord_flip_beta _ hp2).1, (loWord_flip_beta _ hp2).2,
    (loWord_flip_beta _ hh2).1, (loWord_flip_beta _ hh2).2,
    (loWord_flip_beta _ hp1).1, (loWord_flip_beta _ hp1).2,
    (loWord_flip_beta _ hh1).1, (loWord_flip_beta _ hh1).2, bitsToIndices_eq_occ,
    bitsToIndices_eq_occ, diag_swap I hV (occ (loWord s)), diag_swap I hV (occ (loWord s)),
    diag_move_two I (by rw [getLsbD_hiWord]; simp [hh1, hs1]) (by rw [getLsbD_hiWord]; simp [hv1]) hp1
      (by rw [getLsbD_hiWord]; simp [hh2, hs2]) (by rw [getLsbD_hiWord]; simp [hv2]) hp2 hne pne]

/-- C16, opposite-spin double. -/
theorem C16_double_opposite (hV : PairSymmetric I) (s : BitVec (2 * M)) (hu hd pu pd : Nat)
    (hhu : hu < M) (hsu : s.getLsbD hu = true) (hhd : hd < M) (hsd : s.getLsbD (hd + M) = true)
    (hpu : pu < M) (hvu : s.getLsbD pu = false) (hpd : pd < M) (hvd : s.getLsbD (pd + M) = false) :
    let t := flip (flip (flip (flip s hu) pu) (hd + M)) (pd + M)
    I.fastDiagOSDouble (bitsToIndices (loWord s)) (bitsToIndices (hiWord s)) hu hd pu pd
        (I.matrixElement s s) = I.matrixElement t t := by
  intro t
  rw [matrixElement_self, matrixElement_self, (loWord_flip_beta _ hpd).1, (loWord_flip_beta _ hpd).2,
    (loWord_flip_beta _ hhd).1, (loWord_flip_beta _ hhd).2,
    (loWord_flip_alpha _ hpu).1, (loWord_flip_alpha _ hpu).2,
    (loWord_flip_alpha _ hhu).1, (loWord_flip_alpha _ hhu).2, bitsToIndices_eq_occ,
    bitsToIndices_eq_occ,
    diag_move_both I (by rw [getLsbD_loWord]; simp [hhu, hsu]) (by rw [getLsbD_loWord]; simp [hvu]) hpu
      (by rw [getLsbD_hiWord]; simp [hhd, hsd]) (by rw [getLsbD_hiWord]; simp [hvd]) hpd hV]

end C16

/-- concrete instance of the hypotheses of the C16 theorems: one alpha and one beta electron moved -/
example : let s : BitVec (2 * 2) := 0b0101#4
    PairSymmetric exInts ∧ s.getLsbD 0 = true ∧ s.getLsbD 1 = false ∧ s.getLsbD (0 + 2) = true ∧
    s.getLsbD (1 + 2) = false ∧ exInts.fastDiagOSDouble [0] [0] 0 0 1 1 (exInts.matrixElement s s) = 11 :=
  ⟨exInts_symm.2.1, by decide +kernel, by decide +kernel, by decide +kernel, by decide +kernel,
    by decide +kernel⟩

end Macis
