import Verif.Model.MpiDriver
import Verif.Spec.MpiIter
import Verif.Spec.AsciContrib
import Verif.Spec.Sector
/-! What is required of the libraries for the standalone program on several ranks. -/
namespace Macis.Spec
open Macis Macis.Mpi
variable {M : Nat}

/-- there is room for the determinants reached from any core -/
def RoomFor (a : AsciPar M) (na nb : Nat) : Prop :=
  ∀ s : BitVec (2 * M), InSpace a.norb s → alphaElectrons s = na → betaElectrons s = nb →
    a.asci.ncdetsMax * {t | SearchReach a.norb false s t}.ncard ≤ a.contrib.pairSizeMax

/-- the library's reorderings used on several ranks only do what they are specified to do -/
structure RanksOk (re : RankEnv) : Prop where
  partS : ∀ r i, Rearranges (re.partS r i)
  nthS : ∀ r, NthElement (id : ℝ → ℝ) (re.nthS r)
  partC : ∀ l, (re.partC l).Perm l
  sortC : ∀ l, (re.sortC l).Perm l

end Macis.Spec
