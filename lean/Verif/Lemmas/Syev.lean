import Verif.Spec.Mp2
import Mathlib.Analysis.Matrix.Spectrum

/-! A symmetric eigensolver as specified by `SyevSpec` exists over the reals (spectral theorem), so
theorems that assume one are not vacuous. -/
namespace Macis
open Spec Finset

theorem exists_symEig (n : Nat) (S : Nat → Nat → ℝ) (hS : ∀ p q, S p q = S q p) :
    ∃ (W : Nat → ℝ) (Z : Nat → Nat → ℝ), SymEig n S W Z := by
  let A : Matrix (Fin n) (Fin n) ℝ := fun p q => S p q
  have hA : A.IsHermitian := by
    ext p q
    rw [Matrix.conjTranspose_apply]
    exact hS q p
  let f : Fin n ≃ Fin n := (Fin.revPerm.trans (finCongr (Fintype.card_fin n).symm)).trans
    (Fintype.equivOfCardEq (Fintype.card_fin _))
  let W : Nat → ℝ := fun k => if h : k < n then hA.eigenvalues (f ⟨k, h⟩) else 0
  let Z : Nat → Nat → ℝ := fun p k =>
    if h : p < n ∧ k < n then hA.eigenvectorBasis (f ⟨k, h.2⟩) ⟨p, h.1⟩ else 0
  refine ⟨W, Z, ?_, ?_, ?_⟩
  · intro j k hjk hk
    have hj : j < n := by omega
    simp only [W, dif_pos hk, dif_pos hj, Matrix.IsHermitian.eigenvalues, f]
    apply hA.eigenvalues₀_antitone
    simp only [Equiv.trans_apply, Equiv.symm_apply_apply]
    simp only [Fin.le_def, Fin.revPerm_apply, finCongr_apply, Fin.val_cast, Fin.val_rev]
    omega
  · intro j k hj hk
    have h := hA.eigenvectorBasis.orthonormal
    have h2 := (orthonormal_iff_ite.mp h) (f ⟨j, hj⟩) (f ⟨k, hk⟩)
    rw [EuclideanSpace.inner_eq_star_dotProduct] at h2
    rw [Finset.sum_range]
    simp only [Z]
    simp [hj, hk]
    simp [dotProduct] at h2
    rw [← h2]
    exact sum_congr rfl fun p _ => mul_comm _ _
  · intro p k hp hk
    have h := hA.mulVec_eigenvectorBasis (f ⟨k, hk⟩)
    have h2 := congrFun h ⟨p, hp⟩
    rw [Finset.sum_range]
    simp only [W, Z]
    simp [hp, hk]
    simp [Matrix.mulVec, dotProduct, A] at h2
    exact h2

theorem exists_syev : ∃ syev, SyevSpec (R := ℝ) syev := by
  have : ∀ (n : Nat) (A : Nat → ℝ) (lda : Nat), ∃ r : (Nat → ℝ) × (Nat → ℝ), n ≤ lda →
      SymEig n (fun p q => if q ≤ p then A (p + q * lda) else A (q + p * lda)) r.2
        (fun p k => r.1 (p + k * lda)) := by
    intro n A lda
    by_cases hn : n ≤ lda
    · obtain ⟨W, Z, h⟩ := exists_symEig n (fun p q => if q ≤ p then A (p + q * lda) else A (q + p * lda))
        (by
          intro p q
          rcases lt_trichotomy p q with h | h | h
          · simp [Nat.not_le.mpr h, h.le]
          · simp [h]
          · simp [Nat.not_le.mpr h, h.le])
      refine ⟨(fun x => Z (x % lda) (x / lda), W), fun _ => ⟨h.asc, ?_, ?_⟩⟩
      · intro j k hj hk
        rw [← h.ortho j k hj hk]
        refine sum_congr rfl fun p hp => ?_
        have : p < lda := lt_of_lt_of_le (mem_range.mp hp) hn
        simp only [Nat.add_mul_mod_self_right, Nat.mod_eq_of_lt this,
          Nat.add_mul_div_right _ _ (show 0 < lda by omega), Nat.div_eq_of_lt this, Nat.zero_add]
      · intro p k hp hk
        have e := h.eig p k hp hk
        have hh : ∀ p, p < n → ∀ k, (p + k * lda) % lda = p ∧ (p + k * lda) / lda = k := by
          intro p hp k
          have : p < lda := lt_of_lt_of_le hp hn
          simp only [Nat.add_mul_mod_self_right, Nat.mod_eq_of_lt this,
            Nat.add_mul_div_right _ _ (show 0 < lda by omega), Nat.div_eq_of_lt this, Nat.zero_add,
            and_self]
        simp only [(hh p hp k).1, (hh p hp k).2]
        rw [← e]
        refine sum_congr rfl fun q hq => ?_
        rw [(hh q (mem_range.mp hq) k).1, (hh q (mem_range.mp hq) k).2]
    · exact ⟨(A, A), fun h => absurd h hn⟩
  exact ⟨fun n A lda => (this n A lda).choose, fun n A lda h => (this n A lda).choose_spec h⟩

end Macis
