/-
Row distributions, independently of the model.
-/
namespace Macis.Spec

/-- `ext` lists, rank by rank, contiguous row intervals that cover `0 .. M-1`. -/
structure RowPartition (M P : Nat) (ext : List (Nat × Nat)) : Prop where
  length_eq : ext.length = P
  starts : ∀ t, ext[0]? = some t → t.1 = 0
  ends : ∀ t, ext[P - 1]? = some t → t.2 = M
  ordered : ∀ t ∈ ext, t.1 ≤ t.2
  contiguous : ∀ r s t, ext[r]? = some s → ext[r + 1]? = some t → s.2 = t.1

/-- rank `r` owns `row` -/
def Owns (ext : List (Nat × Nat)) (r row : Nat) : Prop :=
  ∃ t, ext[r]? = some t ∧ t.1 ≤ row ∧ row < t.2

end Macis.Spec
