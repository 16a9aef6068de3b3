import Verif.Props.Davidson
/-! The Davidson solver whose subspace limit is not capped by the dimension, as the solver on several ranks runs it. -/
namespace Macis
open Spec

/-- a converged run: a normalised vector with small residual, its Rayleigh quotient, not above that of the guess -/
theorem davidsonRun_spec {N : Nat} {A : Matrix (Fin N) (Fin N) ℝ} (hA : A.IsSymm) (D : Fin N → ℝ) (tol : ℝ)
    {eig : Nat → (Nat → Nat → ℝ) → ℝ × (Nat → ℝ)} (he : LowestPair eig) (maxM : Nat) (guess : Fin N → ℝ)
    (hg : (∑ t, guess t * guess t) = 1) (iter : Nat) (lam : ℝ) (x : Fin N → ℝ)
    (h : davidsonRun A.mulVec D tol eig maxM guess = .converged iter lam x) :
    1 ≤ iter ∧ iter ≤ maxM - 1 ∧ (∑ t, x t * x t) = 1 ∧
    Real.sqrt (∑ t, (A.mulVec x t - lam * x t) * (A.mulVec x t - lam * x t)) < tol ∧
    lam = ∑ t, x t * A.mulVec x t ∧
    lam ≤ ∑ t, guess t * A.mulVec guess t ∧
    ∃ (mu : ℝ) (y : Fin N → ℝ), y ≠ 0 ∧ A.mulVec y = mu • y ∧ |mu - lam| < tol := by
  unfold davidsonRun at h
  split_ifs at h with c1 c2
  dsimp only at h
  have hV1 : OrthonormalCols 1 (fun _ => guess : Nat → Fin N → ℝ) := by
    intro p hp q hq
    rw [if_pos (by omega)]
    exact hg
  split at h
  · cases h
  · rename_i w hw
    obtain ⟨g1, g2, -⟩ := gramSchmidt_some hV1 hw
    have hV' := orthonormal_update hV1 g1 g2
    obtain ⟨-, j⟩ := davLoop_spec hA D tol he (maxM - 1) 1 _ (fun _ => A.mulVec guess) hV'
      (by intro j hj; rw [Function.update_of_ne (by omega)])
    obtain ⟨j1, j2, j3, j4, j5, j6⟩ := j iter lam x h
    rw [Function.update_of_ne (by omega)] at j6
    exact ⟨j1, by omega, j3, j4, j5.symm, j6, eigenvalue_near hA j3 j4⟩

end Macis
