/-
Spin sectors of determinants stored as `2*M` bits: alpha orbital `p` is bit `p`, beta orbital `p`
is bit `p + M`.  Independent of the model.
-/
namespace Macis.Spec

/-- number of alpha electrons -/
def alphaElectrons {M : Nat} (s : BitVec (2 * M)) : Nat :=
  ((List.range M).filter (fun i => s.getLsbD i)).length

/-- number of beta electrons -/
def betaElectrons {M : Nat} (s : BitVec (2 * M)) : Nat :=
  ((List.range M).filter (fun i => s.getLsbD (i + M))).length

/-- all electrons sit in the `norb` spatial orbitals -/
def InSpace {M : Nat} (norb : Nat) (s : BitVec (2 * M)) : Prop :=
  (∀ i, i < M → s.getLsbD i = true → i < norb) ∧ (∀ i, i < M → s.getLsbD (i + M) = true → i < norb)

/-- same number of alpha and of beta electrons -/
def SameSector {M : Nat} (s t : BitVec (2 * M)) : Prop :=
  alphaElectrons s = alphaElectrons t ∧ betaElectrons s = betaElectrons t

instance {M : Nat} (norb : Nat) (s : BitVec (2 * M)) : Decidable (InSpace norb s) := by
  unfold InSpace; infer_instance

instance {M : Nat} (s t : BitVec (2 * M)) : Decidable (SameSector s t) := by
  unfold SameSector; infer_instance

end Macis.Spec
