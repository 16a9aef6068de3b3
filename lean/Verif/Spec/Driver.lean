import Mathlib.Data.Real.Basic
import Verif.Spec.Fcidump
import Verif.Spec.Hamiltonian
import Verif.Spec.Sector
/-
What an FCIDUMP file and a choice of active space stand for.  Independent of the driver model.
-/
namespace Macis.Spec

/-- the core energy in a file: the value of its first `0 0 0 0` line, or zero -/
noncomputable def fileCore (es : List (FciEntry ℝ)) : ℝ :=
  ((es.find? fun e => e.p = 0 ∧ e.q = 0 ∧ e.r = 0 ∧ e.s = 0).map FciEntry.val).getD 0

/-- the integrals in a file, orbitals counted from 0: for each the value of the last line that gives it, up to
the symmetry of the integrals, or zero -/
noncomputable def fileInts (es : List (FciEntry ℝ)) : Integrals ℝ :=
  ⟨maxIdx es, fun p q => ((lastSuch (givesOne p q) es).map FciEntry.val).getD 0,
    fun p q r s => ((lastSuch (givesTwo p q r s) es).map FciEntry.val).getD 0⟩

/-- a determinant of a CAS expansion: orbitals `0 ... ni-1` doubly occupied, `na` alpha and `nb` beta electrons in
the `nact` orbitals above, nothing beyond -/
def CasDet {M : Nat} (ni nact na nb : Nat) (s : BitVec (2 * M)) : Prop :=
  InSpace (ni + nact) s ∧ (∀ j < ni, s.getLsbD j = true ∧ s.getLsbD (j + M) = true) ∧
  alphaElectrons s = ni + na ∧ betaElectrons s = ni + nb

/-- the energy expectation value of `sum_i c_i |dets_i>` -/
noncomputable def energyOf {M : Nat} (I : Integrals ℝ) (dets : List (BitVec (2 * M))) (c : Nat → ℝ) : ℝ :=
  ∑ i ∈ Finset.range dets.length, ∑ j ∈ Finset.range dets.length,
    c i * c j * hamiltonian I (dets.getD i 0) (dets.getD j 0)

/-- `mu` bounds the energies of all normalised states with `na` alpha and `nb` beta electrons from below (for
instance: the full-CI ground state energy) -/
def IsLowerBound (M : Nat) (I : Integrals ℝ) (na nb : Nat) (mu : ℝ) : Prop :=
  ∀ (dets : List (BitVec (2 * M))), dets.Nodup →
    (∀ s ∈ dets, InSpace I.norb s ∧ alphaElectrons s = na ∧ betaElectrons s = nb) →
    ∀ c : Nat → ℝ, (∑ i ∈ Finset.range dets.length, c i * c i) = 1 → mu ≤ energyOf I dets c

/-- `dets` are different determinants of `n` orbitals with the given numbers of electrons -/
def InSector {M : Nat} (n na nb : Nat) (dets : List (BitVec (2 * M))) : Prop :=
  dets.Nodup ∧ ∀ s ∈ dets, InSpace n s ∧ alphaElectrons s = na ∧ betaElectrons s = nb

end Macis.Spec
