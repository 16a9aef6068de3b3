import Verif.Spec.Hamiltonian
import Mathlib.Data.Real.Basic
/-! The CI matrix of a list of determinants with small elements dropped. -/
namespace Macis.Spec

/-- element `(i, j)` of the CI matrix of `dets`; elements with `|h| ≤ thresh` are replaced by 0 -/
noncomputable def ciMatrix {M : Nat} (I : Integrals ℝ) (dets : List (BitVec (2 * M))) (thresh : ℝ)
    (i j : Nat) : ℝ :=
  let h := hamiltonian I (dets.getD i 0) (dets.getD j 0)
  if |h| > thresh then h else 0

end Macis.Spec
