import Mathlib.Algebra.BigOperators.Group.Finset.Basic
import Mathlib.Algebra.Ring.Defs
/-! Reference definitions for infinitesimal orbital rotations acting on integrals. -/
namespace Macis.Spec
variable {R : Type} [CommRing R]

/-- first-order change of a matrix under the rotation generated by `K` -/
def rot1 (n : Nat) (K : Nat → Nat → R) (h : Nat → Nat → R) (p q : Nat) : R :=
  ∑ o ∈ Finset.range n, (K p o * h o q + K q o * h p o)

/-- first-order change of a four-index tensor under the rotation generated by `K` -/
def rot2 (n : Nat) (K : Nat → Nat → R) (g : Nat → Nat → Nat → Nat → R) (p q r s : Nat) : R :=
  ∑ o ∈ Finset.range n, (K p o * g o q r s + K q o * g p o r s + K r o * g p q o s + K s o * g p q r o)

/-- commutator of two generators -/
def commutator (n : Nat) (K L : Nat → Nat → R) (p q : Nat) : R :=
  ∑ o ∈ Finset.range n, (K p o * L o q - L p o * K o q)

/-- integrals of a real Hamiltonian -/
structure IntSym (n : Nat) (h : Nat → Nat → R) (g : Nat → Nat → Nat → Nat → R) : Prop where
  h_symm : ∀ p q, p < n → q < n → h p q = h q p
  g_left : ∀ p q r s, p < n → q < n → r < n → s < n → g p q r s = g q p r s
  g_right : ∀ p q r s, p < n → q < n → r < n → s < n → g p q r s = g p q s r
  g_pair : ∀ p q r s, p < n → q < n → r < n → s < n → g p q r s = g r s p q

/-- densities of a real wavefunction -/
structure DenSym (n : Nat) (D : Nat → Nat → R) (d : Nat → Nat → Nat → Nat → R) : Prop where
  D_symm : ∀ p q, p < n → q < n → D p q = D q p
  d_herm : ∀ p q r s, p < n → q < n → r < n → s < n → d p q r s = d q p s r
  d_pair : ∀ p q r s, p < n → q < n → r < n → s < n → d p q r s = d r s p q

/-- `sum_ij a_ip a_jq h_ij` -/
def tr2 (n : Nat) (a : Nat → Nat → R) (h : Nat → Nat → R) (p q : Nat) : R :=
  ∑ i ∈ Finset.range n, ∑ j ∈ Finset.range n, a i p * a j q * h i j

/-- `sum_ijkl a_ip a_jq a_kr a_ls g_ijkl` -/
def tr4 (n : Nat) (a : Nat → Nat → R) (g : Nat → Nat → Nat → Nat → R) (p q r s : Nat) : R :=
  ∑ i ∈ Finset.range n, ∑ j ∈ Finset.range n, ∑ k ∈ Finset.range n, ∑ l ∈ Finset.range n,
    a i p * a j q * a k r * a l s * g i j k l

/-- columns and rows of `u` are orthonormal -/
def Orthogonal (n : Nat) (u : Nat → Nat → R) : Prop :=
  (∀ p q, p < n → q < n → ∑ i ∈ Finset.range n, u i p * u i q = if p = q then 1 else 0) ∧
  (∀ p q, p < n → q < n → ∑ i ∈ Finset.range n, u p i * u q i = if p = q then 1 else 0)

end Macis.Spec
