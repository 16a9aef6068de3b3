import Verif.Spec.Hamiltonian
/-
The same determinant stored as a bit string with `M` and with `M'` bits per spin.  Independent of the model.
-/
namespace Macis.Spec

/-- the same occupations of the first `n` orbitals in both spins, and no electron beyond them -/
structure SameOcc {M M' : Nat} (n : Nat) (s : BitVec (2 * M)) (s' : BitVec (2 * M')) : Prop where
  bit : ∀ σ p, p < n → s.getLsbD (so M σ p) = s'.getLsbD (so M' σ p)
  lo : ∀ σ p, n ≤ p → p < M → s.getLsbD (so M σ p) = false
  hi : ∀ σ p, n ≤ p → p < M' → s'.getLsbD (so M' σ p) = false

end Macis.Spec
