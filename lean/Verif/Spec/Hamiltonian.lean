import Verif.Spec.Fock
import Verif.Model.Ham
import Mathlib.Algebra.BigOperators.Group.Finset.Defs
/-
Specification of the electronic Hamiltonian in second quantisation.  Only the record of integrals
(`norb`, `T`, `V`) is shared with the model.

Spin orbital of spatial orbital `p`: index `p` for alpha, `p + M` for beta (the layout of
`std::bitset<2*M>` determinants).
-/
namespace Macis.Spec
open Macis

/-- spin orbital index -/
def so (M : Nat) (σ : Bool) (p : Nat) : Nat := if σ then p + M else p

/-- `⟨bra| a†_P a_Q |ket⟩` -/
def amp1 {N : Nat} (bra ket : BitVec N) (P Q : Nat) : Int :=
  amp bra (cre P (ann Q (some (1, ket))))

/-- `⟨bra| a†_P a†_R a_S a_Q |ket⟩` -/
def amp2 {N : Nat} (bra ket : BitVec N) (P R S Q : Nat) : Int :=
  amp bra (cre P (cre R (ann S (ann Q (some (1, ket))))))

/-- `⟨bra| Σ_σ Σ_pq T(p,q) a†_pσ a_qσ + 1/2 Σ_στ Σ_pqrs V(p,q,r,s) a†_pσ a†_rτ a_sτ a_qσ |ket⟩`,
sums over the `norb` spatial orbitals and both spins. -/
def hamiltonian {R : Type} [Field R] {M : Nat} (I : Integrals R) (bra ket : BitVec (2 * M)) : R :=
  (∑ σ : Bool, ∑ p ∈ Finset.range I.norb, ∑ q ∈ Finset.range I.norb,
      I.T p q * (amp1 bra ket (so M σ p) (so M σ q) : R))
  + 2⁻¹ * ∑ σ : Bool, ∑ τ : Bool, ∑ p ∈ Finset.range I.norb, ∑ q ∈ Finset.range I.norb,
      ∑ r ∈ Finset.range I.norb, ∑ s ∈ Finset.range I.norb,
        I.V p q r s * (amp2 bra ket (so M σ p) (so M τ r) (so M τ s) (so M σ q) : R)

/-- Pair exchange symmetry (pq|rs) = (rs|pq). -/
def PairSymmetric {R : Type} (I : Integrals R) : Prop :=
  ∀ p q r s, I.V p q r s = I.V r s p q

/-- Full symmetry of real integrals: T symmetric, V 8-fold symmetric. -/
def RealSymmetric {R : Type} (I : Integrals R) : Prop :=
  (∀ p q, I.T p q = I.T q p) ∧ (∀ p q r s, I.V p q r s = I.V r s p q) ∧
  (∀ p q r s, I.V p q r s = I.V q p r s)

end Macis.Spec
