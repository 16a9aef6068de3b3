import Mathlib.Data.Finset.Card
/-
Specification of excitations, independent of the model: which determinants are reached from `s`
by moving exactly `k` electrons.
-/
namespace Macis.Spec

/-- `t` arises from `s` by removing `k` electrons from occupied allowed orbitals and putting them
into `k` empty allowed orbitals. -/
def ExcitedWithin {N : Nat} (k : Nat) (allowed : Nat → Prop) (s t : BitVec N) : Prop :=
  ∃ R A : Finset Nat, R.card = k ∧ A.card = k ∧
    (∀ i ∈ R, allowed i ∧ s.getLsbD i = true) ∧
    (∀ a ∈ A, a < N ∧ allowed a ∧ s.getLsbD a = false) ∧
    ∀ j, t.getLsbD j = true ↔ (s.getLsbD j = true ∧ j ∉ R) ∨ j ∈ A

/-- `s` occupies only orbitals below `norb`. -/
def SupportedOn {N : Nat} (norb : Nat) (s : BitVec N) : Prop :=
  ∀ i, s.getLsbD i = true → i < norb

/-- Number of electrons of a spin string. -/
def electrons {N : Nat} (s : BitVec N) : Nat := ((List.range N).filter (fun i => s.getLsbD i)).length

end Macis.Spec
