import Verif.Props.Rdm
import Verif.Spec.OrbGrad
/-! Property C158: symmetries of the reduced density matrices (`util/rdms.hpp`, `double_loop.hpp: form_rdms`). -/
namespace Macis
open Spec
variable {R : Type} [Field R] [LinearOrder R] {M : Nat}

theorem rdm1_adjoint {n : Nat} (hn : n ≤ M) (b k : BitVec (2 * M)) {p q : Nat} (hp : p < n) (hq : q < n) :
    rdm1 b k p q = rdm1 k b q p := by
  unfold rdm1
  exact Finset.sum_congr rfl fun σ _ =>
    amp1_adjoint (so_lt_range hn (Finset.mem_range.2 hp) σ) (so_lt_range hn (Finset.mem_range.2 hq) σ)

theorem rdm2_adjoint {n : Nat} (hn : n ≤ M) (b k : BitVec (2 * M)) {p q r s : Nat} (hp : p < n) (hq : q < n)
    (hr : r < n) (hs : s < n) : rdm2 b k p q r s = rdm2 k b q p s r := by
  unfold rdm2
  exact Finset.sum_congr rfl fun σ _ => Finset.sum_congr rfl fun τ _ =>
    amp2_adjoint (so_lt_range hn (Finset.mem_range.2 hp) σ) (so_lt_range hn (Finset.mem_range.2 hr) τ)
      (so_lt_range hn (Finset.mem_range.2 hs) τ) (so_lt_range hn (Finset.mem_range.2 hq) σ)

theorem rdm2_pair {n : Nat} (hn : n ≤ M) (b k : BitVec (2 * M)) {p q r s : Nat} (hp : p < n) (hq : q < n)
    (hr : r < n) (hs : s < n) : rdm2 b k p q r s = rdm2 b k r s p q := by
  unfold rdm2
  rw [Finset.sum_comm]
  exact Finset.sum_congr rfl fun σ _ => Finset.sum_congr rfl fun τ _ =>
    amp2_pair (so_lt_range hn (Finset.mem_range.2 hp) τ) (so_lt_range hn (Finset.mem_range.2 hr) σ)
      (so_lt_range hn (Finset.mem_range.2 hs) σ) (so_lt_range hn (Finset.mem_range.2 hq) τ)

/-- the writes of one determinant with itself -/
theorem rdmPair_self (b : BitVec (2 * M)) (val : R) :
    rdmPair b b val true = [] ∨ ∃ oA oB, rdmPair b b val true = rdmContributionsDiag oA oB val true := by
  unfold rdmPair
  have h0 : b ^^^ b = 0 := by simp
  rw [h0]
  have e1 : loWord (0#(2 * M)) = 0#M := by
    apply BitVec.eq_of_getLsbD_eq; intro i hi; rw [getLsbD_loWord]; simp
  have e2 : hiWord (0#(2 * M)) = 0#M := by
    apply BitVec.eq_of_getLsbD_eq; intro i hi; rw [getLsbD_hiWord]; simp
  have c0 : count (0#M) = 0 := count_eq_zero_iff.2 rfl
  have hc : ∀ oA oB, rdmContributions (loWord b) (loWord b) (loWord (0#(2 * M))) (hiWord b) (hiWord b)
      (hiWord (0#(2 * M))) oA oB val true = rdmContributionsDiag oA oB val true := by
    intro oA oB
    rw [e1, e2]
    simp [rdmContributions, c0]
  split_ifs
  · exact Or.inr ⟨_, _, hc _ _⟩
  all_goals exact Or.inl rfl

/-- what the diagonal writes do to the two-body integrals -/
theorem ev_diag_raw (I : Integrals R) (hT : ∀ p q, I.T p q = 0) (oA oB : List Nat) (val : R) :
    evL I (rdmContributionsDiag oA oB val true) =
      (oA.map fun q => (oA.map fun p => I.V p p q q * (val * 2⁻¹) + I.V p q p q * -(val * 2⁻¹)).sum).sum +
      (oB.map fun q => (oB.map fun p => I.V p p q q * (val * 2⁻¹) + I.V p q p q * -(val * 2⁻¹)).sum).sum +
      (oB.map fun q => (oA.map fun p => I.V p p q q * (val * 2⁻¹) + I.V q q p p * (val * 2⁻¹)).sum).sum := by
  unfold rdmContributionsDiag
  dsimp only
  rw [if_pos rfl]
  simp only [evL_append, evL_map, evL_flatMap, evL_cons, evL_nil, evU, hT, zero_mul, add_zero]
  simp

theorem ev_self_herm (n p q r s : Nat) (b : BitVec (2 * M)) (val : R) :
    evL (delta2 n p q r s) (rdmPair b b val true) = evL (delta2 n q p s r) (rdmPair b b val true) := by
  rcases rdmPair_self b val with h | ⟨oA, oB, h⟩
  · rw [h]; rfl
  rw [h, ev_diag_raw _ (fun _ _ => rfl), ev_diag_raw _ (fun _ _ => rfl)]
  have key : ∀ l : List Nat,
      (l.map fun y => (l.map fun x => (delta2 n p q r s : Integrals R).V x x y y * (val * 2⁻¹) +
        (delta2 n p q r s : Integrals R).V x y x y * -(val * 2⁻¹)).sum).sum =
      (l.map fun y => (l.map fun x => (delta2 n q p s r : Integrals R).V x x y y * (val * 2⁻¹) +
        (delta2 n q p s r : Integrals R).V x y x y * -(val * 2⁻¹)).sum).sum := by
    intro l
    simp only [List.sum_map_add]
    congr 1
    · congr 1
      refine List.map_congr_left fun y _ => ?_
      congr 1
      refine List.map_congr_left fun x _ => ?_
      simp only [delta2]
      simp only [show (x = p ∧ x = q ∧ y = r ∧ y = s) ↔ (x = q ∧ x = p ∧ y = s ∧ y = r) from by tauto]
    · rw [sum_sum_comm]
      congr 1
      refine List.map_congr_left fun y _ => ?_
      congr 1
      refine List.map_congr_left fun x _ => ?_
      simp only [delta2]
      simp only [show (y = p ∧ x = q ∧ y = r ∧ x = s) ↔ (x = q ∧ y = p ∧ x = s ∧ y = r) from by tauto]
  rw [key, key]
  congr 1
  congr 1
  refine List.map_congr_left fun y _ => ?_
  congr 1
  refine List.map_congr_left fun x _ => ?_
  simp only [delta2]
  simp only [show (x = p ∧ x = q ∧ y = r ∧ y = s) ↔ (x = q ∧ x = p ∧ y = s ∧ y = r) from by tauto,
    show (y = p ∧ y = q ∧ x = r ∧ x = s) ↔ (y = q ∧ y = p ∧ x = s ∧ x = r) from by tauto]

theorem ev_self_pair (n p q r s : Nat) (b : BitVec (2 * M)) (val : R) :
    evL (delta2 n p q r s) (rdmPair b b val true) = evL (delta2 n r s p q) (rdmPair b b val true) := by
  rcases rdmPair_self b val with h | ⟨oA, oB, h⟩
  · rw [h]; rfl
  rw [h, ev_diag_raw _ (fun _ _ => rfl), ev_diag_raw _ (fun _ _ => rfl)]
  have key : ∀ l : List Nat,
      (l.map fun y => (l.map fun x => (delta2 n p q r s : Integrals R).V x x y y * (val * 2⁻¹) +
        (delta2 n p q r s : Integrals R).V x y x y * -(val * 2⁻¹)).sum).sum =
      (l.map fun y => (l.map fun x => (delta2 n r s p q : Integrals R).V x x y y * (val * 2⁻¹) +
        (delta2 n r s p q : Integrals R).V x y x y * -(val * 2⁻¹)).sum).sum := by
    intro l
    simp only [List.sum_map_add]
    congr 1
    · rw [sum_sum_comm]
      congr 1
      refine List.map_congr_left fun y _ => ?_
      congr 1
      refine List.map_congr_left fun x _ => ?_
      simp only [delta2]
      simp only [show (y = p ∧ y = q ∧ x = r ∧ x = s) ↔ (x = r ∧ x = s ∧ y = p ∧ y = q) from by tauto]
    · congr 1
      refine List.map_congr_left fun y _ => ?_
      congr 1
      refine List.map_congr_left fun x _ => ?_
      simp only [delta2]
      simp only [show (x = p ∧ y = q ∧ x = r ∧ y = s) ↔ (x = r ∧ y = s ∧ x = p ∧ y = q) from by tauto]
  rw [key, key]
  congr 1
  congr 1
  refine List.map_congr_left fun y _ => ?_
  congr 1
  refine List.map_congr_left fun x _ => ?_
  simp only [delta2]
  simp only [show (x = p ∧ x = q ∧ y = r ∧ y = s) ↔ (y = r ∧ y = s ∧ x = p ∧ x = q) from by tauto,
    show (y = p ∧ y = q ∧ x = r ∧ x = s) ↔ (x = r ∧ x = s ∧ y = p ∧ y = q) from by tauto]
  rw [add_comm]

/-- elements of the 2-RDM as sums over pairs of determinants -/
theorem trdm_sum (n p q r s : Nat) (bras kets : List (BitVec (2 * M))) (C : Nat → R) :
    (formRdms bras kets C true zeroRdms).trdm p q r s =
      ∑ i ∈ Finset.range bras.length, ∑ j ∈ Finset.range kets.length,
        evL (delta2 n p q r s) (rdmPair (bras.getD i 0) (kets.getD j 0) (C i * C j) true) := by
  unfold formRdms
  rw [foldl_trdm _ _ n p q r s, evL_flatMap, list_range_sum]
  change (0 : R) + _ = _
  rw [zero_add]
  refine Finset.sum_congr rfl fun i _ => ?_
  rw [evL_flatMap, list_range_sum]

/-- C158: the RDM arrays of every CI vector have the symmetries of the RDMs of a real wave function, exactly, in
spite of the terms that are dropped and of the placement of the exchange terms (C62): the 1-RDM is a symmetric matrix,
and the 2-RDM does not change when each of its two index pairs is reversed or when the pairs are exchanged. -/
theorem C158_rdm_symmetry (norb : Nat) (hn : norb ≤ M) (h2 : (2 : R) ≠ 0) (dets : List (BitVec (2 * M)))
    (C : Nat → R) (hS : OneSector norb dets dets) :
    DenSym norb (formRdms dets dets C true zeroRdms).ordm (formRdms dets dets C true zeroRdms).trdm := by
  refine ⟨fun p q hp hq => ?_, fun p q r s hp hq hr hs => ?_, fun p q r s hp hq hr hs => ?_⟩
  · rw [C19_one_rdm norb hn h2 dets dets C hS p q hp hq, C19_one_rdm norb hn h2 dets dets C hS q p hq hp]
    unfold expect
    rw [Finset.sum_comm]
    refine Finset.sum_congr rfl fun i _ => Finset.sum_congr rfl fun j _ => ?_
    dsimp only
    rw [mul_comm (C j), rdm1_adjoint hn _ _ hp hq]
  · rw [trdm_sum norb, trdm_sum norb, Finset.sum_comm]
    refine Finset.sum_congr rfl fun i hi => Finset.sum_congr rfl fun j hj => ?_
    have hi' := getD_mem' (0 : BitVec (2 * M)) (Finset.mem_range.1 hi)
    have hj' := getD_mem' (0 : BitVec (2 * M)) (Finset.mem_range.1 hj)
    rw [mul_comm (C j)]
    by_cases e : dets.getD j 0 = dets.getD i 0
    · rw [e]; exact ev_self_herm ..
    · rw [ev_rdmPair _ hn h2 _ _ (hS.1 _ hj') (hS.1 _ hi') (hS.2.2 _ hj' _ hi') _ (Or.inr e),
        ev_rdmPair _ hn h2 _ _ (hS.1 _ hi') (hS.1 _ hj') (hS.2.2 _ hi' _ hj') _ (Or.inr (Ne.symm e)),
        hamiltonian_delta2 hp hq hr hs, hamiltonian_delta2 hq hp hs hr, rdm2_adjoint hn _ _ hp hq hr hs]
  · rw [trdm_sum norb, trdm_sum norb]
    refine Finset.sum_congr rfl fun i hi => Finset.sum_congr rfl fun j hj => ?_
    have hi' := getD_mem' (0 : BitVec (2 * M)) (Finset.mem_range.1 hi)
    have hj' := getD_mem' (0 : BitVec (2 * M)) (Finset.mem_range.1 hj)
    by_cases e : dets.getD i 0 = dets.getD j 0
    · rw [e]; exact ev_self_pair ..
    · rw [ev_rdmPair _ hn h2 _ _ (hS.1 _ hi') (hS.1 _ hj') (hS.2.2 _ hi' _ hj') _ (Or.inr e),
        ev_rdmPair _ hn h2 _ _ (hS.1 _ hi') (hS.1 _ hj') (hS.2.2 _ hi' _ hj') _ (Or.inr e),
        hamiltonian_delta2 hp hq hr hs, hamiltonian_delta2 hr hs hp hq, rdm2_pair hn _ _ hp hq hr hs]

/-- the hypotheses of C158 hold for two determinants that differ by a single excitation, and the off-diagonal
elements of their RDMs do not vanish -/
example : OneSector 2 ([0b0101#4, 0b0110#4] : List (BitVec (2 * 2))) [0b0101#4, 0b0110#4] ∧
    (formRdms (M := 2) [0b0101#4, 0b0110#4] [0b0101#4, 0b0110#4] (fun _ => (1 : Rat)) true zeroRdms).ordm 0 1 = 1 := by
  constructor
  · decide +kernel
  · decide +kernel

end Macis
