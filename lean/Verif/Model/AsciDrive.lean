import Verif.Model.AsciSort
import Verif.Model.Sparse
/-
Model of the ASCI drivers: `asci_iter` (include/macis/asci/iteration.hpp), `asci_grow`
(include/macis/asci/grow.hpp) and `asci_refine` (include/macis/asci/refine.hpp).

Simplifications: energies and coefficients are elements of an ordered additive group `R`; logging and
timing are dropped; the Hamiltonian generator is an abstract state `H`; the determinant search, the
diagonalisation and the natural-orbital rotation are functions of that state (their own models are
`asciSelectSerial`/`asciSelectDist`, the Davidson model and the transformation model).
-/
namespace Macis

/-- The ways a call can end. -/
inductive Run (α : Type) where
  /-- returns normally -/
  | ok (a : α)
  /-- a C++ exception leaves the call -/
  | throw
  /-- undefined behaviour (out-of-range access) -/
  | ub
  /-- still running after the given number of rounds -/
  | timeout
deriving DecidableEq

/-- sequencing: later code runs only after a normal return -/
def Run.bind {α β : Type} (x : Run α) (f : α → Run β) : Run β :=
  match x with
  | .ok a => f a
  | .throw => .throw
  | .ub => .ub
  | .timeout => .timeout

/-- The fields of `ASCISettings` the drivers read (determinant_search.hpp:34-51). -/
structure AsciSettings (R : Type) where
  ntdetsMax : Nat
  ntdetsMin : Nat
  ncdetsMax : Nat
  growFactor : Nat
  maxRefineIter : Nat
  refineEnergyTol : R
  growWithRot : Bool
  rotSizeStart : Nat

/-- What the drivers call. -/
structure AsciEnv (N : Nat) (R H : Type) where
  /-- `std::sort` of the index array by decreasing absolute coefficient -/
  srtIdx : List R → List Nat → List Nat
  /-- `asci_search(ndets_max, cdets, E0, C)`; `none`: out-of-range access -/
  search : H → Nat → List (BitVec N) → R → List R → Option (List (BitVec N))
  /-- `selected_ci_diag`: energy and CI vector; `none`: exception -/
  diag : H → List (BitVec N) → Option (R × List R)
  /-- natural-orbital rotation of the integrals (grow.hpp:71-122) -/
  rotate : H → List (BitVec N) → List R → H

variable {N : Nat} {R H : Type} [AddCommGroup R] [LinearOrder R]

/-- `asci_search` on one rank: the contributions (`asci_contributions_standard`, here the parameter
`contribs`) followed by the selection (determinant_search.hpp:394-663). -/
def serialSearch (srt part : List (Contrib N R) → List (Contrib N R))
    (nth : Nat → List (Contrib N R) → List (Contrib N R))
    (contribs : H → List (BitVec N) → R → List R → List (Contrib N R)) :
    H → Nat → List (BitVec N) → R → List R → Option (List (BitVec N)) :=
  fun h ndetsMax cdets E0 C => asciSelectSerial srt part nth ndetsMax cdets C (contribs h cdets E0 C)

/-- `asci_iter` (iteration.hpp:16-68).  `wfn.begin() + nkeep` is the end of the search range. -/
def asciIter (env : AsciEnv N R H) (s : AsciSettings R) (ndetsMax : Nat) (h : H) (E0 : R)
    (wfn : List (BitVec N)) (X : List R) : Run (R × List (BitVec N) × List R) :=
  let sorted := if wfn.length > 1 then reorderCi (env.srtIdx X) wfn X 0 0 else some (wfn, X)
  match sorted with
  | none => .ub
  | some (wfn, X) =>
    let nkeep := min s.ncdetsMax wfn.length
    match env.search h ndetsMax (wfn.take nkeep) E0 X with
    | none => .ub
    | some wfn =>
      match env.diag h wfn with
      | none => .throw
      | some (E, X) => .ok (E, wfn, X)

/-- `ndets_new` (grow.hpp:51-54); the product is a `size_t`. -/
def ndetsNew (s : AsciSettings R) (size : Nat) : Nat :=
  min (max s.ntdetsMin (size * s.growFactor % 2 ^ 64)) s.ntdetsMax

/-- State of the growth loop: Hamiltonian, `E0`, `wfn`, `X`; `reqs` records the sizes requested. -/
structure GrowState (N : Nat) (R H : Type) where
  h : H
  E0 : R
  wfn : List (BitVec N)
  X : List R
  reqs : List Nat
deriving DecidableEq

/-- Body of the growth loop (grow.hpp:51-164). -/
def growBody (env : AsciEnv N R H) (s : AsciSettings R) (st : GrowState N R H) : Run (GrowState N R H) :=
  let n := ndetsNew s st.wfn.length
  (asciIter env s n st.h st.E0 st.wfn st.X).bind fun r =>
    let (E, wfn, X) := r
    if n > wfn.length then .throw
    else if s.growWithRot ∧ wfn.length ≥ s.rotSizeStart then
      let h := env.rotate st.h wfn X
      -- the energy returned by the second diagonalisation is discarded (grow.hpp:127-130)
      match env.diag h wfn with
      | none => .throw
      | some (_, X) => .ok ⟨h, E, wfn, X, st.reqs ++ [n]⟩
    else .ok ⟨st.h, E, wfn, X, st.reqs ++ [n]⟩

/-- The growth loop (grow.hpp:50-165) for at most `fuel` rounds. -/
def growLoop (env : AsciEnv N R H) (s : AsciSettings R) : Nat → GrowState N R H → Run (GrowState N R H)
  | fuel, st =>
    if st.wfn.length < s.ntdetsMax then
      match fuel with
      | 0 => .timeout
      | fuel + 1 => (growBody env s st).bind (growLoop env s fuel)
    else .ok st

/-- `asci_grow` (grow.hpp:16-171). -/
def asciGrow (env : AsciEnv N R H) (s : AsciSettings R) (fuel : Nat) (h : H) (E0 : R)
    (wfn : List (BitVec N)) (X : List R) : Run (GrowState N R H) :=
  growLoop env s fuel ⟨h, E0, wfn, X, []⟩

/-- The refinement loop (refine.hpp:43-63) with `n` iterations left; `Es` are the energies so far,
the latest (`E0`) first.  Falling out of the loop is the exception of line 66. -/
def refineLoop (env : AsciEnv N R H) (s : AsciSettings R) (h : H) (ndets : Nat) :
    Nat → R → List R → List (BitVec N) → List R → Run (List R × List (BitVec N) × List R)
  | 0, _, _, _, _ => .throw
  | n + 1, E0, past, wfn, X =>
    (asciIter env s ndets h E0 wfn X).bind fun r =>
      let (E, wfn, X) := r
      if wfn.length ≠ ndets then .throw
      else if |E - E0| < s.refineEnergyTol then .ok (E :: E0 :: past, wfn, X)
      else refineLoop env s h ndets n E (E0 :: past) wfn X

/-- `asci_refine` (refine.hpp:14-66): all energies (last first), wave function and CI vector. -/
def asciRefine (env : AsciEnv N R H) (s : AsciSettings R) (h : H) (E0 : R) (wfn : List (BitVec N))
    (X : List R) : Run (List R × List (BitVec N) × List R) :=
  refineLoop env s h wfn.length s.maxRefineIter E0 [] wfn X

/-- Gathering of the distributed CI vector (iteration.hpp:42-62, grow.hpp:132-154) on `W` ranks:
every rank resizes `X` to `n`, all-gathers `n / W` entries of each rank, then the last rank copies
its remaining `n % W` entries behind them and broadcasts them.  `old` is the previous content of
`X`, `locals` the `X_local` of the ranks; `none`: a read past the end of some `X_local`. -/
def gatherX {α : Type} (zero : α) (n : Nat) (locals : List (List α)) (old : List α) : Option (List α) :=
  let W := locals.length
  let lc := n / W
  let X := (old ++ List.replicate (n - old.length) zero).take n
  if locals.any fun l => decide (l.length < lc) then none
  else
    let X := (List.range W).foldl (fun X r => writeAt X (r * lc) ((locals.getD r []).take lc)) X
    if n % W ≠ 0 then
      let nrem := n % W
      let last := locals.getD (W - 1) []
      if last.length < lc + nrem then none
      else some (writeAt X (W * lc) ((last.drop lc).take nrem))
    else some X

end Macis
