/-
Specification of ASCI constraints, independent of the model.
-/
namespace Macis.Spec

/-- `t` contains the orbitals `C` and has no other electron at or above `cmin` -/
def Satisfies {N : Nat} (C : BitVec N) (cmin : Nat) (t : BitVec N) : Prop :=
  (∀ i, C.getLsbD i = true → t.getLsbD i = true) ∧
  (∀ i, cmin ≤ i → t.getLsbD i = true → C.getLsbD i = true)

/-- A constraint `(C, B, cmin)` inside the orbital mask `O`: `C` lies in `O`, `cmin` is its lowest
orbital and `B` is the mask of the orbitals below `cmin`. -/
structure IsConstraint {N : Nat} (O C B : BitVec N) (cmin : Nat) : Prop where
  inMask : ∀ i, C.getLsbD i = true → O.getLsbD i = true
  lowest : C.getLsbD cmin = true
  least : ∀ i, C.getLsbD i = true → cmin ≤ i
  below : ∀ i, B.getLsbD i = true ↔ i < cmin

/-- exactly one position of the list has the property -/
def ExactlyOne {α : Type} (p : α → Prop) (l : List α) : Prop :=
  ∃ pre c post, l = pre ++ c :: post ∧ p c ∧ ∀ d ∈ pre ++ post, ¬ p d

/-- total work of the items given to rank `r` -/
def loadOf (owners work : List Nat) (r : Nat) : Nat :=
  ((owners.zip work).map fun x => if x.1 = r then x.2 else 0).sum

end Macis.Spec
