import Verif.Model.AsciDrive
import Verif.Model.Transform
/-
Model of include/macis/util/diis.hpp.  The stored pairs are a list; logging is not modelled; numbers are
elements of a commutative ring, and vectors are functions on indices with an explicit length where the
code needs it.
-/
namespace Macis

/-- `DIIS::add_vector` (diis.hpp:34-47).  In the branch that drops the oldest pair, `begin() + 1` of an
empty vector and an index outside the vector are undefined behaviour. -/
def diisAdd {α : Type} (nmax : Nat) (l : List α) (x : α) : Run (List α) :=
  if l.length < nmax then .ok (l ++ [x])
  else if l.length = 0 then .ub
  else
    let l := l.drop 1 ++ l.drop (l.length - 1)
    if nmax - 1 < l.length then .ok (l.set (nmax - 1) x) else .ub

/-- A history of calls of `add_vector` on a new object. -/
def diisRun {α : Type} (nmax : Nat) (hist : List α) : Run (List α) :=
  hist.foldl (fun r x => r.bind fun l => diisAdd nmax l x) (.ok [])

variable {R : Type} [CommRing R]

/-- `blas::dot(n, x, 1, y, 1)` -/
def dotN (n : Nat) (x y : Nat → R) : R := ∑ k ∈ Finset.range n, x k * y k

/-- The DIIS matrix (diis.hpp:50-72): `(ndiis + 1)^2` array for error vectors of length `len`, the
`i`-th stored error vector being `e i`. -/
def diisMatrix (nd len : Nat) (e : Nat → Nat → R) : Nat → R :=
  let B : Nat → R := fun _ => 0
  let B := storeAll B ((List.range nd).flatMap fun i => ((List.range nd).filter (i ≤ ·)).flatMap fun j =>
    (i + j * (nd + 1), dotN len (e i) (e j)) ::
      (if i ≠ j then [(j + i * (nd + 1), dotN len (e i) (e j))] else []))
  storeAll B ((List.range nd).flatMap fun i => [(i + nd * (nd + 1), 1), (nd + i * (nd + 1), 1)])

/-- The right-hand side (diis.hpp:75-76). -/
def diisRhs (nd : Nat) : Nat → R := fun i => if i = nd then 1 else 0

/-- `DIIS::extrapolate` (diis.hpp:49-93) for the solution `c` that `lapack::gelss` left in `C`: element
`k` of the returned vector, the stored vectors being `v 0, ..., v (nd-1)`.  With no stored pairs
`diis_pairs_[0]` is undefined behaviour. -/
def diisExtrapolate (nd : Nat) (v : Nat → Nat → R) (c : Nat → R) : Run (Nat → R) :=
  if nd = 0 then .ub else .ok fun k => ∑ i ∈ Finset.range nd, c i * v i k

end Macis
