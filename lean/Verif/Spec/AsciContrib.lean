import Verif.Spec.Hamiltonian
import Verif.Props.SpinGen
/-
Specification of the ASCI search scores.
-/
namespace Macis.Spec
open Macis

/-- `t` is reached from `s` by moving one electron, or (unless only singles are asked for) two electrons,
without changing spins, inside the `norb` orbitals. -/
def SearchReach {M : Nat} (norb : Nat) (justSingles : Bool) (s t : BitVec (2 * M)) : Prop :=
  (ExcitedSpin 1 0 (· < norb) s t ∨ ExcitedSpin 0 1 (· < norb) s t) ∨
  justSingles = false ∧ (ExcitedSpin 2 0 (· < norb) s t ∨ ExcitedSpin 0 2 (· < norb) s t ∨
    ExcitedSpin 1 1 (· < norb) s t)

/-- First-order perturbative amplitude `c ⟨t|H|s⟩ / (E0 - ⟨t|H|t⟩)` of the contribution of `s` to `t`
(`x / 0 = 0`; in the program the score is then infinite or not a number). -/
def pertScore {R : Type} [Field R] {M : Nat} (I : Integrals R) (E0 c : R) (s t : BitVec (2 * M)) : R :=
  c * (hamiltonian I t s / (E0 - hamiltonian I t t))

open scoped Classical in
/-- Score of `t` in the search from the states and coefficients `cs`: the sum of the amplitudes over
the states that reach `t` with a matrix element not below the tolerance. -/
noncomputable def searchScore {R : Type} [Field R] [LinearOrder R] {M : Nat} (I : Integrals R) (norb : Nat)
    (justSingles : Bool) (tol E0 : R) (cs : List (BitVec (2 * M) × R)) (t : BitVec (2 * M)) : R :=
  (cs.map fun x => if SearchReach norb justSingles x.1 t ∧ tol ≤ |hamiltonian I t x.1| then
    pertScore I E0 x.2 x.1 t else 0).sum

/-- `s` and `t` have the same alpha electrons -/
def SameAlpha {M : Nat} (s t : BitVec (2 * M)) : Prop := ∀ i < M, t.getLsbD i = s.getLsbD i

open scoped Classical in
/-- Score of `t` in the search on several ranks: always singles and doubles; where only beta electrons move
the matrix element is compared with the tolerance, where an alpha electron moves the product of coefficient
and matrix element is. -/
noncomputable def rankedSearchScore {R : Type} [Field R] [LinearOrder R] {M : Nat} (I : Integrals R) (norb : Nat)
    (tol E0 : R) (cs : List (BitVec (2 * M) × R)) (t : BitVec (2 * M)) : R :=
  (cs.map fun x => if SearchReach norb false x.1 t ∧
      (if SameAlpha x.1 t then tol ≤ |hamiltonian I t x.1| else tol ≤ |x.2 * hamiltonian I t x.1|) then
    pertScore I E0 x.2 x.1 t else 0).sum

end Macis.Spec
