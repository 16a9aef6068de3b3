import Mathlib.Data.Real.Sqrt
import Mathlib.Algebra.BigOperators.Fin
import Verif.Model.Dist
/-
Model of `include/macis/solvers/davidson.hpp` and of the guess logic of
`include/macis/solvers/selected_ci_diag.hpp`.

Simplifications: exact real arithmetic; a division by zero (which gives infinities or NaNs in the
code) ends the model run with `breakdown`.  The column buffers `V`, `AV` are functions from the column
index.  `eig k M` stands for LAPACK's `syev` on the `k × k` matrix `M` (lower triangle): the lowest
eigenvalue and its eigenvector.  Logging is dropped.
-/
namespace Macis

/-- How `davidson` ends. -/
inductive DavResult (V : Type) where
  /-- normal return: `iter`, `LAM[0]` and the content of `X` -/
  | converged (iter : Nat) (lam : ℝ) (x : V)
  /-- `"Davidson Did Not Converge!"` -/
  | notConverged
  /-- division by zero: the vectors hold infinities / NaNs from here on -/
  | breakdown
  /-- write past the end of a buffer -/
  | ub

def DavResult.map {V W : Type} (f : V → W) : DavResult V → DavResult W
  | .converged i l x => .converged i l (f x)
  | .notConverged => .notConverged
  | .breakdown => .breakdown
  | .ub => .ub

section serial
variable {ι : Type} [Fintype ι]

/-- `blas::dot` -/
def vdot (x y : ι → ℝ) : ℝ := ∑ i, x i * y i

/-- `blas::nrm2` -/
noncomputable def nrm2 (x : ι → ℝ) : ℝ := Real.sqrt (vdot x x)

/-- `X = V * c` for the first `k` columns (davidson.hpp:181-183) -/
def combine (k : Nat) (V : Nat → ι → ℝ) (c : Nat → ℝ) : ι → ℝ :=
  fun t => ∑ j ∈ Finset.range k, V j t * c j

/-- one projection pass of `gram_schmidt` (davidson.hpp:114-117, repeated in 119-122): `inner = V**T w`,
`w = w - V * inner` -/
def projectOut (k : Nat) (V : Nat → ι → ℝ) (w : ι → ℝ) : ι → ℝ :=
  let inner := fun j => vdot (V j) w
  fun t => w t - combine k V inner t

open Classical in
/-- `gram_schmidt` (davidson.hpp:111-126). -/
noncomputable def gramSchmidt (k : Nat) (V : Nat → ι → ℝ) (w : ι → ℝ) : Option (ι → ℝ) :=
  let w := projectOut k V w
  let w := projectOut k V w
  let nrm := nrm2 w
  if nrm = 0 then none else some fun t => 1 / nrm * w t

open Classical in
/-- The iterations of `davidson` (davidson.hpp:161-219), `n` of them left, the current one being
`i`.  `A` is the operator, `D` its diagonal. -/
noncomputable def davLoop (A : (ι → ℝ) → (ι → ℝ)) (D : ι → ℝ) (tol : ℝ)
    (eig : Nat → (Nat → Nat → ℝ) → ℝ × (Nat → ℝ)) :
    Nat → Nat → (Nat → ι → ℝ) → (Nat → ι → ℝ) → DavResult (ι → ℝ)
  | 0, _, _, _ => .notConverged
  | n + 1, i, V, AV =>
    let k := i + 1
    let AV := Function.update AV i (A (V i))
    let (lam, c) := eig k (fun p q => vdot (V p) (AV q))
    let x := combine k V c
    let r := fun t => combine k AV c t - lam * x t
    if nrm2 r < tol then .converged i lam x
    else if n = 0 then .notConverged
    else if ∃ t, D t - lam = 0 then .breakdown
    else match gramSchmidt k V (fun t => -r t / (D t - lam)) with
      | none => .breakdown
      | some w => davLoop A D tol eig n (i + 1) (Function.update V k w) AV

/-- `davidson` for given subspace limit (davidson.hpp:128-225 after line 140): `max_m = 0` writes
column 1 of a one-column buffer. -/
noncomputable def davidsonRun (A : (ι → ℝ) → (ι → ℝ)) (D : ι → ℝ) (tol : ℝ)
    (eig : Nat → (Nat → Nat → ℝ) → ℝ × (Nat → ℝ)) (maxM : Nat) (guess : ι → ℝ) : DavResult (ι → ℝ) :=
  if maxM = 0 then .ub
  else if maxM = 1 then .notConverged
  else
    let V := fun _ => guess
    let AV := fun _ => A guess
    match gramSchmidt 1 V (AV 0) with
    | none => .breakdown
    | some w => davLoop A D tol eig (maxM - 1) 1 (Function.update V 1 w) AV

/-- `davidson` (davidson.hpp:128-225): the subspace limit is capped by the dimension (line 140). -/
noncomputable def davidson {N : Nat} (A : (Fin N → ℝ) → (Fin N → ℝ)) (D : Fin N → ℝ) (tol : ℝ)
    (eig : Nat → (Nat → Nat → ℝ) → ℝ × (Nat → ℝ)) (maxM : Nat) (guess : Fin N → ℝ) : DavResult (Fin N → ℝ) :=
  davidsonRun A D tol eig (min maxM N) guess

end serial

section parallel
/-- the pieces of a vector held by the ranks: `nl r` entries on rank `r` -/
abbrev DistVec {W : Nat} (nl : Fin W → Nat) := (r : Fin W) → Fin (nl r) → ℝ
variable {W : Nat} {nl : Fin W → Nat}

/-- local `blas::dot` followed by `allreduce(MPI_SUM)` (davidson.hpp:252-253, 360-361) -/
def pdot (x y : DistVec nl) : ℝ := ∑ r, ∑ t, x r t * y r t

/-- `V * c` on every rank (davidson.hpp:346-349) -/
def pcombine (k : Nat) (V : Nat → DistVec nl) (c : Nat → ℝ) : DistVec nl :=
  fun r t => ∑ j ∈ Finset.range k, V j r t * c j

/-- one pass of `p_gram_schmidt` (davidson.hpp:232-241, repeated in 244-249): local inner products, reduction, local
projection -/
def pprojectOut (k : Nat) (V : Nat → DistVec nl) (w : DistVec nl) : DistVec nl :=
  let inner := fun j => pdot (V j) w
  fun r t => w r t - pcombine k V inner r t

open Classical in
/-- `p_gram_schmidt` (davidson.hpp:228-256). -/
noncomputable def pgramSchmidt (k : Nat) (V : Nat → DistVec nl) (w : DistVec nl) : Option (DistVec nl) :=
  let w := pprojectOut k V w
  let w := pprojectOut k V w
  let nrm := Real.sqrt (pdot w w)
  if nrm = 0 then none else some fun r t => 1 / nrm * w r t

open Classical in
/-- The iterations of `p_davidson` (davidson.hpp:325-388).  The reduced projected matrix is
diagonalised on rank 0 and broadcast (`p_rayleigh_ritz`, davidson.hpp:258-280), so all ranks hold the
same `lam`, `c`. -/
noncomputable def pdavLoop (A : DistVec nl → DistVec nl) (D : DistVec nl) (tol : ℝ)
    (eig : Nat → (Nat → Nat → ℝ) → ℝ × (Nat → ℝ)) :
    Nat → Nat → (Nat → DistVec nl) → (Nat → DistVec nl) → DavResult (DistVec nl)
  | 0, _, _, _ => .notConverged
  | n + 1, i, V, AV =>
    let k := i + 1
    let AV := Function.update AV i (A (V i))
    let (lam, c) := eig k (fun p q => pdot (V p) (AV q))
    let x := pcombine k V c
    let r : DistVec nl := fun r t => pcombine k AV c r t - lam * x r t
    if Real.sqrt (pdot r r) < tol then .converged i lam x
    else if n = 0 then .notConverged
    else if ∃ r t, D r t - lam = 0 then .breakdown
    else match pgramSchmidt k V (fun q t => -r q t / (D q t - lam)) with
      | none => .breakdown
      | some w => pdavLoop A D tol eig n (i + 1) (Function.update V k w) AV

/-- `p_davidson` (davidson.hpp:282-394); no cap by the dimension. -/
noncomputable def pdavidson (A : DistVec nl → DistVec nl) (D : DistVec nl) (tol : ℝ)
    (eig : Nat → (Nat → Nat → ℝ) → ℝ × (Nat → ℝ)) (maxM : Nat) (guess : DistVec nl) : DavResult (DistVec nl) :=
  if maxM = 0 then .ub
  else if maxM = 1 then .notConverged
  else
    let V := fun _ => guess
    let AV := fun _ => A guess
    match pgramSchmidt 1 V (AV 0) with
    | none => .breakdown
    | some w => pdavLoop A D tol eig (maxM - 1) 1 (Function.update V 1 w) AV

end parallel

section guess
variable {K : Type} [LinearOrder K]

/-- `std::distance(begin, std::min_element(begin, end))`: the loop keeps the first smallest. -/
def minIdx (D : List K) : Nat :=
  match D with
  | [] => 0
  | d :: ds => (ds.foldl (fun (st : Nat × K × Nat) x =>
      if x < st.2.1 then (st.2.2, x, st.2.2 + 1) else (st.1, st.2.1, st.2.2 + 1)) (0, d, 1)).1

/-- `diagonal_guess` (davidson.hpp:61-68): only one element of `X` is written; `none`: write past
the end. -/
def diagonalGuess [One K] (D : List K) (X : List K) : Option (List K) :=
  if minIdx D < X.length then some (X.set (minIdx D) 1) else none

/-- `p_diagonal_guess` (davidson.hpp:71-108) on rank `rank`: `ext` are the row bounds of the ranks,
`D` the gathered diagonal.  `none`: division by zero or a write outside `X`. -/
def pDiagonalGuess [Zero K] [One K] (ext : List (Nat × Nat)) (D : List K) (rank : Nat) : Option (List K) :=
  let cnt := fun r => (ext.getD r (0, 0)).2 - (ext.getD r (0, 0)).1
  let X := List.replicate (cnt rank) (0 : K)
  if cnt 0 = 0 then none
  else
    let owner := minIdx D / cnt 0
    if rank = owner then
      let pos := minIdx D - (ext.getD rank (0, 0)).1
      if (ext.getD rank (0, 0)).1 ≤ minIdx D ∧ pos < X.length then some (X.set pos 1) else none
    else some X

/-- The decision between the passed vector and a generated guess
(selected_ci_diag.hpp:40-51 and 93-104): `true` = use the passed vector; `none`: `*max_element` of an
empty range.  In the parallel version every rank decides on its own piece. -/
def usesPassedVector {K : Type} [Field K] [LinearOrder K] (C : List K) : Option Bool :=
  match C with
  | [] => none
  | c :: cs =>
    let maxC := cs.foldl (fun m x => if |m| < |x| then x else m) c
    some (decide (1 / (C.length : K) < |maxC|))

end guess
end Macis
