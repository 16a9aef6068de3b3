import Verif.Spec.Hamiltonian
import Mathlib.Algebra.Order.Group.Abs
/-
Textbook spin-summed reduced density matrix elements between two determinants.
-/
namespace Macis.Spec

/-- `Σ_σ ⟨bra| a†_pσ a_qσ |ket⟩` -/
def rdm1 {M : Nat} (bra ket : BitVec (2 * M)) (p q : Nat) : Int :=
  ∑ σ : Bool, amp1 bra ket (so M σ p) (so M σ q)

/-- `Σ_στ ⟨bra| a†_pσ a†_rτ a_sτ a_qσ |ket⟩` -/
def rdm2 {M : Nat} (bra ket : BitVec (2 * M)) (p q r s : Nat) : Int :=
  ∑ σ : Bool, ∑ τ : Bool, amp2 bra ket (so M σ p) (so M τ r) (so M τ s) (so M σ q)

/-- the weight with which a pair of determinants enters: pairs with `|w| ≤ 1e-16` are dropped -/
def kept {R : Type} [Field R] [LinearOrder R] (w : R) : R := if |w| > 1 / 10 ^ 16 then w else 0

end Macis.Spec
