import Verif.Model.RoundDiag
import Verif.Props.RoundHam
/-! Property C171: the incremental diagonal elements in floating point. -/
namespace Macis
open Spec

variable {M : Nat} {rnd : ℝ → ℝ} {u : ℝ}

/-- the terms of a chain of additions, each with its exact value and size -/
theorem Near.chain (hr : RoundsTo rnd u) : ∀ (ts : List (ℝ × ℝ × ℝ)) {k : Nat} {A h H : ℝ},
    (∀ t ∈ ts, Near u k t.2.2 t.1 t.2.1) → Near u k A h H →
    Near u (k + ts.length) (A + (ts.map fun t => t.2.2).sum) (Integrals.chainR rnd h (ts.map fun t => t.1))
      (H + (ts.map fun t => t.2.1).sum)
  | [], k, A, h, H, _, n => by simpa [Integrals.chainR, Integrals.accR] using n
  | t :: ts, k, A, h, H, ht, n => by
    have s := (n.add' hr.nonneg (ht t (by simp))).round hr
    have := Near.chain hr ts (fun y hy => (ht y (by simp [hy])).mono hr.nonneg (Nat.le_succ k) le_rfl) s
    simp only [List.map_cons, List.sum_cons, List.length_cons, Integrals.chainR, Integrals.accR, List.foldl_cons, id]
      at this ⊢
    rw [show k + (ts.length + 1) = k + 1 + ts.length by ring, ← add_assoc, ← add_assoc]
    exact this

variable {I : Integrals ℝ} {B : ℝ}

theorem near_orbital (hr : RoundsTo rnd u) (hB : Bounded I B) {a b : BitVec M} (sa : SupportedOn I.norb a)
    (sb : SupportedOn I.norb b) {orb : Nat} (ho : orb < I.norb) {n : Nat} (hn : electrons a + electrons b = n) :
    Near u (n ^ 2 + n + 4) ((2 * n + 2 : Nat) * B) (I.singleOrbitalEnR rnd orb (occ a) (occ b))
      (I.singleOrbitalEn orb (occ a) (occ b)) := by
  unfold Integrals.singleOrbitalEnR Integrals.singleOrbitalEn
  have n0 := (Near.exact (u := u) (hB.T orb orb ho ho)).mono hr.nonneg (Nat.zero_le 3) le_rfl
  have n1 := n0.foldl hr (fun q => rnd (I.G2redR rnd orb q + I.G2redR rnd q orb)) (fun q => I.G2red orb q + I.G2red q orb)
    (B + B) 3 (occ a) (fun x hx => ((near_G2 hr hB.V ho (mem_occ' sa hx)).add' hr.nonneg
      (near_G2 hr hB.V (mem_occ' sa hx) ho)).round hr) le_rfl
  have n2 := (n1.add' hr.nonneg ((near_G2 hr hB.V ho ho).neg.mono hr.nonneg (by omega) le_rfl)).round hr
  have n3 := n2.foldl hr (fun q => I.V2red orb q) (fun q => I.V2red orb q) B 0 (occ b)
    (fun x hx => Near.exact (hB.V _ _ _ _ ho ho (mem_occ' sb hx) (mem_occ' sb hx))) (Nat.zero_le _)
  simp only [occ_length] at n3
  rw [← sub_eq_add_neg, ← sub_eq_add_neg] at n3
  refine n3.mono hr.nonneg (by nlinarith) ?_
  have h1 : (electrons b : ℝ) * B ≤ 2 * electrons b * B := by
    have := mul_nonneg (Nat.cast_nonneg (α := ℝ) (electrons b)) hB.nonneg
    linarith
  rw [← hn]
  push_cast
  nlinarith [hB.nonneg]

theorem near_self (hr : RoundsTo rnd u) (hB : Bounded I B) (s : BitVec (2 * M)) (sa : SupportedOn I.norb (loWord s))
    (sb : SupportedOn I.norb (hiWord s)) {n : Nat} (hn : electrons (loWord s) + electrons (hiWord s) = n) :
    Near u (n ^ 2 + n + 4) ((n ^ 2 + n : Nat) * B) (I.matrixElementR rnd s s) (I.matrixElement s s) := by
  have h : I.matrixElementR rnd s s = I.matrixElementDiagR rnd (occ (loWord s)) (occ (hiWord s)) := by
    have z : count (0#M) = 0 := by rw [count_eq_zero_iff]
    simp [Integrals.matrixElementR, Integrals.matrixElementSpinR, z, bitsToIndices_eq_occ]
  rw [h, matrixElement_self]
  refine (near_diag hr hB.T hB.V sa sb rfl rfl).mono hr.nonneg (by nlinarith) ?_
  refine mul_le_mul_of_nonneg_right ?_ hB.nonneg
  rw [Nat.cast_le]
  nlinarith

/-- the formula for a single excitation -/
theorem near_single (hr : RoundsTo rnd u) (hB : Bounded I B) {a b : BitVec M} (sa : SupportedOn I.norb a)
    (sb : SupportedOn I.norb b) {n : Nat} (hn : electrons a + electrons b = n) {hol par : Nat} (hh : hol < I.norb)
    (hp : par < I.norb) {h H : ℝ} (hs : Near u (n ^ 2 + n + 4) ((n ^ 2 + n : Nat) * B) h H) :
    |I.fastDiagSingleR rnd (occ a) (occ b) hol par h - I.fastDiagSingle (occ a) (occ b) hol par H|
      ≤ fastDiagErr u n B := by
  have o := fun {x : Nat} (hx : x < I.norb) => near_orbital hr hB sa sb hx hn
  have g := fun {x y : Nat} (hx : x < I.norb) (hy : y < I.norb) =>
    (near_G2 hr hB.V hx hy).mono (k' := n ^ 2 + n + 4) hr.nonneg (by omega) le_rfl
  have c := Near.chain hr [(_, _, _), (_, _, _), (_, _, _), (_, _, _)]
    (by
      simp only [List.forall_mem_cons]
      exact ⟨o hp, (o hh).neg, (g hp hh).neg, (g hh hp).neg, by simp⟩) hs
  have c' := (c.mono (k' := n ^ 2 + n + 20) (A' := (n ^ 2 + 9 * n + 20 : Nat) * B) hr.nonneg (by simp) (by
    simp only [List.map_cons, List.map_nil, List.sum_cons, List.sum_nil]
    push_cast
    nlinarith [hB.nonneg, mul_nonneg (Nat.cast_nonneg (α := ℝ) n) hB.nonneg])).1
  refine le_trans (le_of_eq ?_) c'
  congr 1
  simp only [Integrals.fastDiagSingleR, Integrals.fastDiagSingleEnR, Integrals.fastDiagSingle, Integrals.fastDiagSingleEn,
    List.map_cons, List.map_nil, List.sum_cons, List.sum_nil]
  ring

/-- the formula for a double excitation of one spin -/
theorem near_ss (hr : RoundsTo rnd u) (hB : Bounded I B) {a b : BitVec M} (sa : SupportedOn I.norb a)
    (sb : SupportedOn I.norb b) {n : Nat} (hn : electrons a + electrons b = n) {h1 h2 p1 p2 : Nat} (hh1 : h1 < I.norb)
    (hh2 : h2 < I.norb) (hp1 : p1 < I.norb) (hp2 : p2 < I.norb) {h H : ℝ}
    (hs : Near u (n ^ 2 + n + 4) ((n ^ 2 + n : Nat) * B) h H) :
    |I.fastDiagSSDoubleR rnd (occ a) (occ b) h1 h2 p1 p2 h - I.fastDiagSSDouble (occ a) (occ b) h1 h2 p1 p2 H|
      ≤ fastDiagErr u n B := by
  have o := fun {x : Nat} (hx : x < I.norb) => near_orbital hr hB sa sb hx hn
  have g := fun {x y : Nat} (hx : x < I.norb) (hy : y < I.norb) =>
    (near_G2 hr hB.V hx hy).mono (k' := n ^ 2 + n + 4) hr.nonneg (by omega) le_rfl
  have c := Near.chain hr [(_, _, _), (_, _, _), (_, _, _), (_, _, _), (_, _, _), (_, _, _), (_, _, _), (_, _, _),
      (_, _, _), (_, _, _), (_, _, _), (_, _, _), (_, _, _), (_, _, _), (_, _, _), (_, _, _)]
    (by
      simp only [List.forall_mem_cons]
      exact ⟨o hp1, o hp2, (o hh1).neg, (o hh2).neg, g hh1 hh2, g hh2 hh1, g hp1 hp2, g hp2 hp1,
        (g hp1 hh1).neg, (g hh1 hp1).neg, (g hp2 hh1).neg, (g hh1 hp2).neg, (g hp1 hh2).neg, (g hh2 hp1).neg,
        (g hp2 hh2).neg, (g hh2 hp2).neg, by simp⟩) hs
  have c' := (c.mono (k' := n ^ 2 + n + 20) (A' := (n ^ 2 + 9 * n + 20 : Nat) * B) hr.nonneg (by simp) (by
    simp only [List.map_cons, List.map_nil, List.sum_cons, List.sum_nil]
    push_cast
    nlinarith [hB.nonneg, mul_nonneg (Nat.cast_nonneg (α := ℝ) n) hB.nonneg])).1
  refine le_trans (le_of_eq ?_) c'
  congr 1
  simp only [Integrals.fastDiagSSDoubleR, Integrals.fastDiagSSDoubleEnR, Integrals.fastDiagSSDouble,
    Integrals.fastDiagSSDoubleEn, List.map_cons, List.map_nil, List.sum_cons, List.sum_nil]
  ring

/-- the formula for a double excitation of opposite spins -/
theorem near_os (hr : RoundsTo rnd u) (hB : Bounded I B) {a b : BitVec M} (sa : SupportedOn I.norb a)
    (sb : SupportedOn I.norb b) {n : Nat} (hn : electrons a + electrons b = n) {hu hd pu pd : Nat} (hhu : hu < I.norb)
    (hhd : hd < I.norb) (hpu : pu < I.norb) (hpd : pd < I.norb) {h H : ℝ}
    (hs : Near u (n ^ 2 + n + 4) ((n ^ 2 + n : Nat) * B) h H) :
    |I.fastDiagOSDoubleR rnd (occ a) (occ b) hu hd pu pd h - I.fastDiagOSDouble (occ a) (occ b) hu hd pu pd H|
      ≤ fastDiagErr u n B := by
  have o := fun {x : Nat} (hx : x < I.norb) => near_orbital hr hB sa sb hx hn
  have o' := fun {x : Nat} (hx : x < I.norb) => near_orbital hr hB sb sa hx (n := n) (by omega)
  have g := fun {x y : Nat} (hx : x < I.norb) (hy : y < I.norb) =>
    (near_G2 hr hB.V hx hy).mono (k' := n ^ 2 + n + 4) hr.nonneg (by omega) le_rfl
  have v := fun {x y : Nat} (hx : x < I.norb) (hy : y < I.norb) =>
    (Near.exact (u := u) (show |I.V2red x y| ≤ B from hB.V x x y y hx hx hy hy)).mono (k' := n ^ 2 + n + 4) hr.nonneg
      (by omega) le_rfl
  have c := Near.chain hr [(_, _, _), (_, _, _), (_, _, _), (_, _, _), (_, _, _), (_, _, _), (_, _, _), (_, _, _),
      (_, _, _), (_, _, _), (_, _, _), (_, _, _)]
    (by
      simp only [List.forall_mem_cons]
      exact ⟨o hpu, o' hpd, (o hhu).neg, (o' hhd).neg, v hhu hhd, v hpu hpd, (g hpu hhu).neg, (g hhu hpu).neg,
        (g hpd hhd).neg, (g hhd hpd).neg, (v hpu hhd).neg, (v hhu hpd).neg, by simp⟩) hs
  have c' := (c.mono (k' := n ^ 2 + n + 20) (A' := (n ^ 2 + 9 * n + 20 : Nat) * B) hr.nonneg (by simp) (by
    simp only [List.map_cons, List.map_nil, List.sum_cons, List.sum_nil]
    push_cast
    nlinarith [hB.nonneg, mul_nonneg (Nat.cast_nonneg (α := ℝ) n) hB.nonneg])).1
  refine le_trans (le_of_eq ?_) c'
  congr 1
  simp only [Integrals.fastDiagOSDoubleR, Integrals.fastDiagOSDoubleEnR, Integrals.fastDiagOSDouble,
    Integrals.fastDiagOSDoubleEn, List.map_cons, List.map_nil, List.sum_cons, List.sum_nil]
  ring

theorem inSpace_flip {norb : Nat} {s : BitVec (2 * M)} (hs : InSpace norb s) {i : Nat} (hi : i < norb) (hn : norb ≤ M) :
    InSpace norb (flip s i) ∧ InSpace norb (flip s (i + M)) := by
  refine ⟨⟨?_, ?_⟩, ⟨?_, ?_⟩⟩ <;> intro j hj h <;> rw [getLsbD_flip (by omega)] at h
  · by_cases e : i = j
    · omega
    · exact hs.1 j hj (by simpa [e] using h)
  · exact hs.2 j hj (by simpa [show i ≠ j + M by omega] using h)
  · exact hs.1 j hj (by simpa [show i + M ≠ j by omega] using h)
  · by_cases e : i = j
    · omega
    · exact hs.2 j hj (by simpa [e] using h)

/-- C171: moving an alpha electron: the diagonal element computed in floating point from the one of the original determinant is within
the rounding error of the operator's diagonal element of the new determinant. -/
theorem C171_single_alpha (hr : RoundsTo rnd u) (hn : I.norb ≤ M) (hV : PairSymmetric I) (hB : Bounded I B) (s : BitVec (2 * M))
    (hs : InSpace I.norb s) {n : Nat} (he : alphaElectrons s + betaElectrons s = n) (hol par : Nat)
    (hh : hol < I.norb) (ho : s.getLsbD hol = true) (hp : par < I.norb) (hv : s.getLsbD par = false) :
    let t := flip (flip s hol) par
    |I.fastDiagSingleR rnd (bitsToIndices (loWord s)) (bitsToIndices (hiWord s)) hol par (I.matrixElementR rnd s s) - hamiltonian I t t| ≤ fastDiagErr u n B := by
  intro t
  obtain ⟨sa, sb⟩ := (inSpace_iff _).1 hs
  rw [alphaElectrons_eq, betaElectrons_eq] at he
  have ht : InSpace I.norb t := (inSpace_flip (inSpace_flip hs hh hn).1 hp hn).1
  rw [← C13_slater_condon M I hn two_ne_zero hV t t ht ht ⟨rfl, rfl⟩,
    ← C16_single_alpha I hV s hol par (by omega) ho (by omega) hv, bitsToIndices_eq_occ, bitsToIndices_eq_occ]
  exact near_single hr hB sa sb he hh hp (near_self hr hB s sa sb he)

/-- C171: moving a beta electron. -/
theorem C171_single_beta (hr : RoundsTo rnd u) (hn : I.norb ≤ M) (hV : PairSymmetric I) (hB : Bounded I B) (s : BitVec (2 * M))
    (hs : InSpace I.norb s) {n : Nat} (he : alphaElectrons s + betaElectrons s = n) (hol par : Nat)
    (hh : hol < I.norb) (ho : s.getLsbD (hol + M) = true) (hp : par < I.norb) (hv : s.getLsbD (par + M) = false) :
    let t := flip (flip s (hol + M)) (par + M)
    |I.fastDiagSingleR rnd (bitsToIndices (hiWord s)) (bitsToIndices (loWord s)) hol par (I.matrixElementR rnd s s) - hamiltonian I t t| ≤ fastDiagErr u n B := by
  intro t
  obtain ⟨sa, sb⟩ := (inSpace_iff _).1 hs
  rw [alphaElectrons_eq, betaElectrons_eq] at he
  have ht : InSpace I.norb t := (inSpace_flip (inSpace_flip hs hh hn).2 hp hn).2
  rw [← C13_slater_condon M I hn two_ne_zero hV t t ht ht ⟨rfl, rfl⟩,
    ← C16_single_beta I hV s hol par (by omega) ho (by omega) hv, bitsToIndices_eq_occ, bitsToIndices_eq_occ]
  exact near_single hr hB sb sa (by omega) hh hp (near_self hr hB s sa sb he)

/-- C171: moving two alpha electrons. -/
theorem C171_double_alpha (hr : RoundsTo rnd u) (hn : I.norb ≤ M) (hV : PairSymmetric I) (hB : Bounded I B) (s : BitVec (2 * M))
    (hs : InSpace I.norb s) {n : Nat} (he : alphaElectrons s + betaElectrons s = n) (h1 h2 p1 p2 : Nat)
    (hh1 : h1 < I.norb) (ho1 : s.getLsbD h1 = true) (hh2 : h2 < I.norb) (ho2 : s.getLsbD h2 = true)
    (hp1 : p1 < I.norb) (hv1 : s.getLsbD p1 = false) (hp2 : p2 < I.norb) (hv2 : s.getLsbD p2 = false) (hne : h1 ≠ h2)
    (pne : p1 ≠ p2) :
    let t := flip (flip (flip (flip s h1) p1) h2) p2
    |I.fastDiagSSDoubleR rnd (bitsToIndices (loWord s)) (bitsToIndices (hiWord s)) h1 h2 p1 p2 (I.matrixElementR rnd s s) - hamiltonian I t t| ≤ fastDiagErr u n B := by
  intro t
  obtain ⟨sa, sb⟩ := (inSpace_iff _).1 hs
  rw [alphaElectrons_eq, betaElectrons_eq] at he
  have ht : InSpace I.norb t :=
    (inSpace_flip (inSpace_flip (inSpace_flip (inSpace_flip hs hh1 hn).1 hp1 hn).1 hh2 hn).1 hp2 hn).1
  rw [← C13_slater_condon M I hn two_ne_zero hV t t ht ht ⟨rfl, rfl⟩,
    ← C16_double_alpha I s h1 h2 p1 p2 (by omega) ho1 (by omega) ho2 (by omega) hv1 (by omega) hv2 hne pne,
    bitsToIndices_eq_occ, bitsToIndices_eq_occ]
  exact near_ss hr hB sa sb he hh1 hh2 hp1 hp2 (near_self hr hB s sa sb he)

/-- C171: moving two beta electrons. -/
theorem C171_double_beta (hr : RoundsTo rnd u) (hn : I.norb ≤ M) (hV : PairSymmetric I) (hB : Bounded I B) (s : BitVec (2 * M))
    (hs : InSpace I.norb s) {n : Nat} (he : alphaElectrons s + betaElectrons s = n) (h1 h2 p1 p2 : Nat)
    (hh1 : h1 < I.norb) (ho1 : s.getLsbD (h1 + M) = true) (hh2 : h2 < I.norb) (ho2 : s.getLsbD (h2 + M) = true)
    (hp1 : p1 < I.norb) (hv1 : s.getLsbD (p1 + M) = false) (hp2 : p2 < I.norb) (hv2 : s.getLsbD (p2 + M) = false)
    (hne : h1 ≠ h2) (pne : p1 ≠ p2) :
    let t := flip (flip (flip (flip s (h1 + M)) (p1 + M)) (h2 + M)) (p2 + M)
    |I.fastDiagSSDoubleR rnd (bitsToIndices (hiWord s)) (bitsToIndices (loWord s)) h1 h2 p1 p2 (I.matrixElementR rnd s s) - hamiltonian I t t| ≤ fastDiagErr u n B := by
  intro t
  obtain ⟨sa, sb⟩ := (inSpace_iff _).1 hs
  rw [alphaElectrons_eq, betaElectrons_eq] at he
  have ht : InSpace I.norb t :=
    (inSpace_flip (inSpace_flip (inSpace_flip (inSpace_flip hs hh1 hn).2 hp1 hn).2 hh2 hn).2 hp2 hn).2
  rw [← C13_slater_condon M I hn two_ne_zero hV t t ht ht ⟨rfl, rfl⟩,
    ← C16_double_beta I hV s h1 h2 p1 p2 (by omega) ho1 (by omega) ho2 (by omega) hv1 (by omega) hv2 hne pne,
    bitsToIndices_eq_occ, bitsToIndices_eq_occ]
  exact near_ss hr hB sb sa (by omega) hh1 hh2 hp1 hp2 (near_self hr hB s sa sb he)

/-- C171: moving an alpha and a beta electron. -/
theorem C171_double_opposite (hr : RoundsTo rnd u) (hn : I.norb ≤ M) (hV : PairSymmetric I) (hB : Bounded I B) (s : BitVec (2 * M))
    (hs : InSpace I.norb s) {n : Nat} (he : alphaElectrons s + betaElectrons s = n) (hu hd pu pd : Nat)
    (hhu : hu < I.norb) (hou : s.getLsbD hu = true) (hhd : hd < I.norb) (hod : s.getLsbD (hd + M) = true)
    (hpu : pu < I.norb) (hvu : s.getLsbD pu = false) (hpd : pd < I.norb) (hvd : s.getLsbD (pd + M) = false) :
    let t := flip (flip (flip (flip s hu) pu) (hd + M)) (pd + M)
    |I.fastDiagOSDoubleR rnd (bitsToIndices (loWord s)) (bitsToIndices (hiWord s)) hu hd pu pd (I.matrixElementR rnd s s) - hamiltonian I t t| ≤ fastDiagErr u n B := by
  intro t
  obtain ⟨sa, sb⟩ := (inSpace_iff _).1 hs
  rw [alphaElectrons_eq, betaElectrons_eq] at he
  have ht : InSpace I.norb t :=
    (inSpace_flip (inSpace_flip (inSpace_flip (inSpace_flip hs hhu hn).1 hpu hn).1 hhd hn).2 hpd hn).2
  rw [← C13_slater_condon M I hn two_ne_zero hV t t ht ht ⟨rfl, rfl⟩,
    ← C16_double_opposite I hV s hu hd pu pd (by omega) hou (by omega) hod (by omega) hvu (by omega) hvd,
    bitsToIndices_eq_occ, bitsToIndices_eq_occ]
  exact near_os hr hB sa sb he hhu hhd hpu hpd (near_self hr hB s sa sb he)

/-- example: `double` rounded towards zero, one alpha electron moved -/
example : |roundInts.fastDiagSingleR (chop 52) (bitsToIndices (loWord (0b0101#(2 * 2))))
      (bitsToIndices (hiWord (0b0101#(2 * 2)))) 0 1 (roundInts.matrixElementR (chop 52) (0b0101#(2 * 2)) (0b0101#(2 * 2)))
      - hamiltonian roundInts (0b0110#(2 * 2)) (0b0110#(2 * 2))| ≤ fastDiagErr ((2 : ℝ) ^ (-(52 : ℤ))) 2 1 :=
  C171_single_alpha (chop_rounds 52) (by decide) roundInts_symm.2.1
    ⟨by norm_num, fun _ _ _ _ => by norm_num [roundInts], fun _ _ _ _ _ _ _ _ => by norm_num [roundInts, abs_of_pos]⟩
    (0b0101#(2 * 2)) (by change InSpace 2 _; decide) (by decide) 0 1 (by decide) (by decide) (by decide) (by decide)

end Macis
