import Verif.Model.AsciDrive
import Verif.Spec.AsciSort
/-
Contracts of the calls the ASCI drivers make.
-/
namespace Macis.Spec
open Macis
variable {N : Nat} {R H : Type} [AddCommGroup R] [LinearOrder R]

/-- the index sort orders by decreasing absolute coefficient -/
def SortsCoeffs (srt : List R → List Nat → List Nat) : Prop :=
  ∀ C : List R, SortsBy (fun i j => decide (|C.getD j 0| < |C.getD i 0|)) (srt C)

/-- What C28 proves of the search: new determinants followed by the core, without repetition, at
most the number asked for. -/
def SearchContract (search : H → Nat → List (BitVec N) → R → List R → Option (List (BitVec N))) : Prop :=
  ∀ h nmax cdets E C, cdets.Nodup → cdets.length ≤ C.length → cdets.length ≤ nmax → nmax < 2 ^ 64 →
    ∃ K, search h nmax cdets E C = some (K ++ cdets) ∧ (K ++ cdets).Nodup ∧ (K ++ cdets).length ≤ nmax

/-- the diagonalisation returns one coefficient per determinant -/
def DiagContract (diag : H → List (BitVec N) → Option (R × List R)) : Prop :=
  ∀ h w E X, diag h w = some (E, X) → X.length = w.length

/-- `x` is a normal return or an exception, nothing else -/
def Orderly {α : Type} (x : Run α) : Prop := (∃ a, x = .ok a) ∨ x = .throw

end Macis.Spec
