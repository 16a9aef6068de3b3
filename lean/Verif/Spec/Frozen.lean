/-
A doubly occupied core below an active space, in terms of determinants stored as `2*M` bits (alpha
orbital `p` is bit `p`, beta orbital `p` is bit `p + M`).  Independent of the model.
-/
namespace Macis.Spec

/-- `full` is the active-space determinant `act` moved up by `ni` orbitals, with the first `ni`
orbitals doubly occupied -/
def WithCore {M : Nat} (ni : Nat) (act full : BitVec (2 * M)) : Prop :=
  ∀ j, j < M →
    (full.getLsbD j = if j < ni then true else act.getLsbD (j - ni)) ∧
    (full.getLsbD (j + M) = if j < ni then true else act.getLsbD (j - ni + M))

/-- the same when the active-space determinant is stored with `M` bits per spin and the full one with `M'` -/
def WithCoreAt {M M' : Nat} (ni : Nat) (act : BitVec (2 * M)) (full : BitVec (2 * M')) : Prop :=
  ∀ j, j < M' →
    (full.getLsbD j = if j < ni then true else decide (j - ni < M) && act.getLsbD (j - ni)) ∧
    (full.getLsbD (j + M') = if j < ni then true else decide (j - ni < M) && act.getLsbD (j - ni + M))

end Macis.Spec
