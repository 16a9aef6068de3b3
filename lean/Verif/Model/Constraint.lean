import Verif.Model.SD
/-
Model of `include/macis/asci/mask_constraints.hpp` (constraints, constrained excitations, work
counting and distribution) and of `generate_pairs` (asci/determinant_contributions.hpp:162-170).

Alpha strings are `wfn_t<N>` with `N` the full width; the model is generic in `N`.
-/
namespace Macis

/-- `wfn_constraint<N>` (mask_constraints.hpp:17-22). -/
structure WfnConstraint (N : Nat) where
  C : BitVec N
  B : BitVec N
  Cmin : Nat
deriving DecidableEq

/-- `make_triplet` (mask_constraints.hpp:24-36); `none` is the exception of `to_ullong` on a value
that does not fit 64 bits.  `make_quad` (38-50) is the same with a fourth index. -/
def makeTriplet (N i j k : Nat) : Option (WfnConstraint N) :=
  let b := (BitVec.ofNat N 1) <<< k
  if b.toNat < 2 ^ 64 then
    some ⟨flip (flip (flip 0#N i) j) k, BitVec.ofNat N ((b.toNat + 2 ^ 64 - 1) % 2 ^ 64), k⟩
  else none

/-- `satisfies_constraint` (mask_constraints.hpp:52-55). -/
def satisfiesConstraint {N : Nat} (det C : BitVec N) (Cmin : Nat) : Bool :=
  count (det &&& C) == count C && count ((det ^^^ C) >>> Cmin) == 0

/-- `generate_constraint_single_excitations` (mask_constraints.hpp:57-78).  `C.count() - 1` is
computed in `size_t`. -/
def constraintSingleEx {N : Nat} (det C O B : BitVec N) : BitVec N × BitVec N :=
  if count (det &&& C) < (count C + 2 ^ 64 - 1) % 2 ^ 64 then (0#N, 0#N)
  else
    let o := det ^^^ C
    let v := ~~~det &&& O &&& B
    let (o, v) := if count (o &&& C) = 1 then (o ^^^ (o &&& C), o &&& C) else (o, v)
    if count (o &&& ~~~B) > 1 then (0#N, 0#N)
    else
      let o := if count (o &&& ~~~B) = 1 then o &&& ~~~B else o
      (o, v)

/-- `generate_pairs` (determinant_contributions.hpp:162-170), on an empty output vector: all
`i < j` in loop order.  (`nind * (nind - 1) / 2` is exactly the number of pairs.) -/
def generatePairs (N : Nat) : List Nat → List (BitVec N)
  | [] => []
  | i :: is => (is.map fun j => flip (flip 0#N i) j) ++ generatePairs N is

/-- `generate_constraint_double_excitations` (mask_constraints.hpp:80-130): occupied pairs and
virtual pairs. -/
def constraintDoubleEx {N : Nat} (det C O B : BitVec N) : List (BitVec N) × List (BitVec N) :=
  if det &&& C = 0#N then ([], [])
  else
    let o := det ^^^ C
    let v := ~~~det &&& O &&& B
    if count (o &&& C) ≥ 3 then ([], [])
    else
      let (o, v) := if count (o &&& C) = 2 then (o ^^^ (o &&& C), o &&& C) else (o, v)
      let virtInd := bitsToIndices v
      let oAndT := o &&& C
      let (o, V) :=
        if count oAndT = 1 then (o ^^^ oAndT, virtInd.map fun a => flip oAndT a)
        else (o, generatePairs N virtInd)
      let oNotB := o &&& ~~~B
      if count oNotB > 2 then ([], V)
      else if count oNotB = 1 then ((bitsToIndices (o &&& B)).map fun i => flip oNotB i, V)
      else
        let o := if count oNotB = 2 then oNotB else o
        (generatePairs N (bitsToIndices o), V)

/-- `generate_constraint_singles` (mask_constraints.hpp:132-149): `old` is the previous content of
the output vector. -/
def generateConstraintSingles {N : Nat} (det T O B : BitVec N) (old : List (BitVec N)) :
    List (BitVec N) :=
  let ov := constraintSingleEx det T O B
  if count ov.1 = 0 ∨ count ov.2 = 0 then old
  else (bitsToIndices ov.1).flatMap fun i => (bitsToIndices ov.2).map fun a => flip (flip det i) a

/-- `count_constraint_singles` (mask_constraints.hpp:151-156). -/
def countConstraintSingles {N : Nat} (det T O B : BitVec N) : Nat :=
  let ov := constraintSingleEx det T O B
  count ov.1 * count ov.2

/-- `generate_constraint_doubles` (mask_constraints.hpp:158-170): `old` is the previous content of
the output vector. -/
def generateConstraintDoubles {N : Nat} (det T O B : BitVec N) (_old : List (BitVec N)) :
    List (BitVec N) :=
  let (Oc, V) := constraintDoubleEx det T O B
  Oc.flatMap fun ij => V.map fun ab => (det ^^^ ij) ||| ab

/-- `count_constraint_doubles` (mask_constraints.hpp:178-222).  Simplification: `unsigned` does not
overflow for the widths in use; `0 * (0u - 1) / 2 = 0` as in `Nat`. -/
def countConstraintDoubles {N : Nat} (det C O B : BitVec N) : Nat :=
  if det &&& C = 0#N then 0
  else
    let o := det ^^^ C
    let v := ~~~det &&& O &&& B
    if count (o &&& C) ≥ 3 then 0
    else
      let (o, v) := if count (o &&& C) = 2 then (o ^^^ (o &&& C), o &&& C) else (o, v)
      let nv := count v
      let oAndT := o &&& C
      let (o, nv) := if count oAndT = 1 then (o ^^^ oAndT, nv) else (o, nv * (nv - 1) / 2)
      let oNotB := o &&& ~~~B
      if count oNotB > 2 then 0
      else if count oNotB = 1 then count (o &&& B) * nv
      else
        let o := if count oNotB = 2 then oNotB else o
        count o * (count o - 1) / 2 * nv

/-- `constraint_histogram` (mask_constraints.hpp:224-241). -/
def constraintHistogram {N : Nat} (det : BitVec N) (nos nod : Nat) (T O B : BitVec N) : Nat :=
  let ns := countConstraintSingles det T O B
  let nd := countConstraintDoubles det T O B
  let Tmin := ffs T - 1
  ns + nd + ns * nos + if satisfiesConstraint det T Tmin then nos + nod + 1 else 0

/-- Total work of a constraint (mask_constraints.hpp:510-513, 550-553). -/
def constraintWork {N : Nat} (norb nos nod : Nat) (uniqAlpha : List (BitVec N)) (c : WfnConstraint N) : Nat :=
  (uniqAlpha.map fun a => constraintHistogram a nos nod c.C (fullMask N norb) c.B).sum

/-- The index triples `t_i > t_j > t_k` in loop order (mask_constraints.hpp:503-505). -/
def tripletIndices (norb : Nat) : List (Nat × Nat × Nat) :=
  (List.range norb).flatMap fun i => (List.range i).flatMap fun j => (List.range j).map fun k => (i, j, k)

/-- The triplet loop of `dist_constraint_general` (mask_constraints.hpp:503-516): constraints with
their work, empty ones dropped.  `none`: `make_triplet` throws. -/
def tripletConstraints {N : Nat} (norb : Nat) (work : WfnConstraint N → Nat) :
    Option (List (WfnConstraint N × Nat)) := do
  let trips ← (tripletIndices norb).mapM fun x => makeTriplet N x.1 x.2.1 x.2.2
  return (trips.map fun c => (c, work c)).filter fun c => c.2 ≠ 0

/-- One refined constraint (mask_constraints.hpp:543-546). -/
def refineConstraint {N : Nat} (c : WfnConstraint N) (q : Nat) : WfnConstraint N :=
  ⟨flip c.C q, c.B >>> (c.Cmin - q), q⟩

/-- One level of breaking constraints apart (mask_constraints.hpp:520-558).  `std::partition` may
reorder: `part` is its (arbitrary) reordering of the input. -/
def refineLevel {N : Nat} (work : WfnConstraint N → Nat) (avg : Nat)
    (part : List (WfnConstraint N × Nat) → List (WfnConstraint N × Nat))
    (cs : List (WfnConstraint N × Nat)) : List (WfnConstraint N × Nat) :=
  let keep := (part cs).filter fun c => c.2 ≤ avg
  let next := (part cs).filter fun c => ¬ c.2 ≤ avg
  keep ++ next.flatMap fun c =>
    (((List.range c.1.Cmin).map fun q => refineConstraint c.1 q).map fun d => (d, work d)).filter
      fun d => d.2 ≠ 0

/-- The level loop (mask_constraints.hpp:520-558) with its early `break`. -/
def refineLevels {N : Nat} (work : WfnConstraint N → Nat) (avg : Nat)
    (part : List (WfnConstraint N × Nat) → List (WfnConstraint N × Nat)) :
    Nat → List (WfnConstraint N × Nat) → List (WfnConstraint N × Nat)
  | 0, cs => cs
  | n + 1, cs =>
    if ((part cs).filter fun c => ¬ c.2 ≤ avg).isEmpty then part cs
    else refineLevels work avg part n (refineLevel work avg part cs)

/-- `std::min_element` over the workloads: index of the first minimum. -/
def minRank (loads : List Nat) : Nat :=
  (List.range loads.length).foldl (fun m r => if loads.getD r 0 < loads.getD m 0 then r else m) 0

/-- The assignment loop (mask_constraints.hpp:583-593): owner of each constraint, and final loads. -/
def assignRanks {α : Type} : List Nat → List (α × Nat) → List (α × Nat) × List Nat
  | loads, [] => ([], loads)
  | loads, (c, nw) :: cs =>
    let r := minRank loads
    let (rest, fin) := assignRanks (loads.set r (loads.getD r 0 + nw)) cs
    ((c, r) :: rest, fin)

/-- `dist_constraint_general` (mask_constraints.hpp:486-602) as seen by rank `rank`.  `avg` is the
threshold `(0.6 * total_work) / world_size` (floating point, any value), `part` and `sort` the
(arbitrary) reorderings made by `std::partition` and `std::sort`. -/
def distConstraintGeneral {N : Nat} (nlevels norb nos nod : Nat) (uniqAlpha : List (BitVec N))
    (worldSize rank avg : Nat)
    (part sort : List (WfnConstraint N × Nat) → List (WfnConstraint N × Nat)) :
    Option (List (WfnConstraint N)) := do
  let work := constraintWork norb nos nod uniqAlpha
  let init ← tripletConstraints norb work
  let cs := refineLevels work avg part nlevels init
  let (owners, _) := assignRanks (List.replicate worldSize 0) (sort cs)
  return (owners.filter fun x => x.2 = rank).map (·.1)

end Macis
