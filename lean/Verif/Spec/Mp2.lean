import Mathlib.Algebra.BigOperators.Intervals
import Mathlib.Algebra.Order.Ring.Defs
import Mathlib.Algebra.Field.Defs
/-! Closed-shell second-order perturbation theory in terms of the integrals, with no reference to how
arrays are laid out. -/
namespace Macis.Spec
open Finset
variable {R : Type} [Field R]

/-- Orbital energy of orbital `p` when the first `nocc` orbitals are doubly occupied. -/
def orbEnergy (nocc : Nat) (h : Nat → Nat → R) (g : Nat → Nat → Nat → Nat → R) (p : Nat) : R :=
  h p p + ∑ i ∈ range nocc, (2 * g p p i i - g p i i p)

/-- First-order amplitude of the double excitation `i j → a b` (absolute orbital indices). -/
def mp2Amp (e : Nat → R) (g : Nat → Nat → Nat → Nat → R) (i j a b : Nat) : R :=
  g i a j b / (e i + e j - e a - e b)

/-- Second-order energy `Σ t_ij^ab (2 (ia|jb) - (ja|ib))`. -/
def mp2Energy (no nv : Nat) (e : Nat → R) (g : Nat → Nat → Nat → Nat → R) : R :=
  ∑ i ∈ range no, ∑ j ∈ range no, ∑ a ∈ Ico no (no + nv), ∑ b ∈ Ico no (no + nv),
    mp2Amp e g i j a b * (2 * g i a j b - g j a i b)

/-- Unrelaxed one-particle density of the first-order wavefunction. -/
def mp2Density (no nv : Nat) (t : Nat → Nat → Nat → Nat → R) (p q : Nat) : R :=
  if p < no ∧ q < no then
    (if p = q then 2 else 0) - 2 * ∑ k ∈ range no, ∑ a ∈ Ico no (no + nv), ∑ b ∈ Ico no (no + nv),
      t p k a b * (2 * t q k a b - t q k b a)
  else if no ≤ p ∧ no ≤ q then
    2 * ∑ i ∈ range no, ∑ j ∈ range no, ∑ c ∈ Ico no (no + nv),
      t i j c p * (2 * t i j c q - t i j q c)
  else 0

/-- `W`, `Z` solve the symmetric eigenproblem of `S`: ascending eigenvalues, orthonormal vectors (the
columns of `Z`). -/
structure SymEig [LE R] (n : Nat) (S : Nat → Nat → R) (W : Nat → R) (Z : Nat → Nat → R) : Prop where
  asc : ∀ j k, j ≤ k → k < n → W j ≤ W k
  ortho : ∀ j k, j < n → k < n → (∑ p ∈ range n, Z p j * Z p k) = if j = k then 1 else 0
  eig : ∀ p k, p < n → k < n → (∑ q ∈ range n, S p q * Z q k) = W k * Z p k

/-- `lapack::syev(Vec, Lower, n, A, lda, W)` in exact arithmetic: only the lower triangle of `A` is
read; `A` is overwritten with the eigenvectors. -/
def SyevSpec [LE R] (syev : Nat → (Nat → R) → Nat → (Nat → R) × (Nat → R)) : Prop :=
  ∀ n A lda, n ≤ lda →
    SymEig n (fun p q => if q ≤ p then A (p + q * lda) else A (q + p * lda)) (syev n A lda).2
      (fun p k => (syev n A lda).1 (p + k * lda))

end Macis.Spec
