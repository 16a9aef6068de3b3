import Mathlib.Algebra.BigOperators.Group.Finset.Basic
import Mathlib.Algebra.Field.Defs
/-! Reference definitions for the active-space energy: density matrices of a wavefunction whose first
`ni` orbitals are doubly occupied, and the energy they give. -/
namespace Macis.Spec
variable {R : Type} [Field R]

/-- one-body density of the doubly occupied orbitals -/
def core1 (ni : Nat) (p q : Nat) : R := if p = q ∧ p < ni then 2 else 0

/-- the active one-body density placed in the full orbital space -/
def act1 (ni na : Nat) (D : Nat → Nat → R) (p q : Nat) : R :=
  if ni ≤ p ∧ p < ni + na ∧ ni ≤ q ∧ q < ni + na then D (p - ni) (q - ni) else 0

/-- the active two-body density placed in the full orbital space -/
def act2 (ni na : Nat) (d : Nat → Nat → Nat → Nat → R) (p q r s : Nat) : R :=
  if (ni ≤ p ∧ p < ni + na) ∧ (ni ≤ q ∧ q < ni + na) ∧ (ni ≤ r ∧ r < ni + na) ∧
    (ni ≤ s ∧ s < ni + na) then d (p - ni) (q - ni) (r - ni) (s - ni) else 0

/-- one-body density matrix in the full orbital space -/
def full1 (ni na : Nat) (D : Nat → Nat → R) (p q : Nat) : R := core1 ni p q + act1 ni na D p q

/-- Two-body density matrix `d_pqrs = 1/2 <p+ r+ s q>` in the full orbital space: doubly occupied
orbitals interact among themselves and with the active ones through Coulomb and exchange only. -/
def full2 (ni na : Nat) (D : Nat → Nat → R) (d : Nat → Nat → Nat → Nat → R) (p q r s : Nat) : R :=
  1 / 2 * (core1 ni p q * core1 ni r s) - 1 / 4 * (core1 ni p s * core1 ni r q) +
  1 / 2 * (core1 ni p q * act1 ni na D r s + act1 ni na D p q * core1 ni r s) -
  1 / 4 * (core1 ni p s * act1 ni na D r q + act1 ni na D p s * core1 ni r q) +
  act2 ni na d p q r s

/-- Energy of one- and two-body densities over `n` orbitals: `sum h_pq D_pq + sum (pq|rs) d_pqrs`. -/
def energy (n : Nat) (h : Nat → Nat → R) (g : Nat → Nat → Nat → Nat → R) (D : Nat → Nat → R)
    (d : Nat → Nat → Nat → Nat → R) : R :=
  (∑ p ∈ Finset.range n, ∑ q ∈ Finset.range n, h p q * D p q) +
  ∑ p ∈ Finset.range n, ∑ q ∈ Finset.range n, ∑ r ∈ Finset.range n, ∑ s ∈ Finset.range n,
    g p q r s * d p q r s

/-- Generalized Fock matrix `F_po = sum_q D_pq h_oq + 2 sum_qrs d_pqrs (oq|rs)`. -/
def genFock (n : Nat) (h : Nat → Nat → R) (g : Nat → Nat → Nat → Nat → R) (D : Nat → Nat → R)
    (d : Nat → Nat → Nat → Nat → R) (p o : Nat) : R :=
  (∑ q ∈ Finset.range n, D p q * h o q) +
  2 * ∑ q ∈ Finset.range n, ∑ r ∈ Finset.range n, ∑ s ∈ Finset.range n, d p q r s * g o q r s

end Macis.Spec
