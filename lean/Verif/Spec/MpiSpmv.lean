import Verif.Spec.DistMatrix
import Verif.Model.MpiSpmv
/-! What a sequence of distributed products computes. -/
namespace Macis.Spec
open Macis
variable {R : Type}

/-- The global vector of which rank `q` holds the elements with the indices `ext[q]`. -/
def globalVec [Zero R] (ext : List (Nat × Nat)) (V : Nat → Nat → R) (j : Nat) : R :=
  match ext.findIdx? (fun e => decide (e.1 ≤ j) && decide (j < e.2)) with
  | some q => V q (j - (ext.getD q (0, 0)).1)
  | none => 0

/-- One step: every rank does its local work on its vectors `(V, AV)`, then `AV` becomes the rank's rows of
`alpha * A * V + beta * AV`; what lies behind these rows is left alone. -/
def spmvCallSpec [Semiring R] (A : Nat → DistCsr R) (N : Nat) (ext : List (Nat × Nat)) (c : Mpi.SpmvCall R)
    (v : Nat → (Nat → R) × (Nat → R)) : Nat → (Nat → R) × (Nat → R) := fun r =>
  let u := fun q => c.prepare q (v q)
  let rows := ext.getD r (0, 0)
  ((u r).1, fun i =>
    if i < rows.2 - rows.1 then
      c.alpha * (∑ j ∈ Finset.range N, distEntry (A r) rows.1 rows.2 i j * globalVec ext (fun q => (u q).1) j)
        + c.beta * (u r).2 i
    else (u r).2 i)

end Macis.Spec
