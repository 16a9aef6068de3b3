/-
Specification of fermionic creation and annihilation operators on occupation bit strings
(textbook definition, ordering by orbital index), independent of the model.
A vector is `none` (the zero vector) or `some (c, s)` (the number `c` times determinant `s`).
-/
namespace Macis.Spec

/-- Number of electrons in orbitals below `p`. -/
def below {N : Nat} (s : BitVec N) (p : Nat) : Nat :=
  ((List.range p).filter (fun i => s.getLsbD i)).length

/-- Annihilation operator `a_p`. -/
def ann {N : Nat} (p : Nat) : Option (Int × BitVec N) → Option (Int × BitVec N)
  | none => none
  | some (c, s) =>
    if s.getLsbD p then some ((-1) ^ below s p * c, s &&& ~~~(BitVec.twoPow N p)) else none

/-- Creation operator `a†_p`. -/
def cre {N : Nat} (p : Nat) : Option (Int × BitVec N) → Option (Int × BitVec N)
  | none => none
  | some (c, s) =>
    if s.getLsbD p then none else some ((-1) ^ below s p * c, s ||| BitVec.twoPow N p)

/-- The coefficient of `bra` in a vector, `⟨bra|v⟩`. -/
def amp {N : Nat} (bra : BitVec N) : Option (Int × BitVec N) → Int
  | none => 0
  | some (c, s) => if s = bra then c else 0

end Macis.Spec
