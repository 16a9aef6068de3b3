import Verif.Model.Ham
import Mathlib.Algebra.Order.Group.Abs
/-
Reduced density matrices: include/macis/util/rdms.hpp and
include/macis/hamiltonian_generator/double_loop.hpp (`form_rdms`).

Simplifications: exact arithmetic in an ordered field; the RDM arrays are only ever written with
`+=`/`-=`, so each function returns its writes in program order and `form_rdms` applies them.
`hasT = false` is a null `trdm` span.
-/
namespace Macis
variable {R : Type}

/-- One write: `ordm(p,q) += v` or `trdm(p,q,r,s) += v`. -/
inductive Upd (R : Type) where
  | o (p q : Nat) (v : R)
  | t (p q r s : Nat) (v : R)
deriving DecidableEq, Repr

/-- The two output arrays. -/
structure Rdms (R : Type) where
  ordm : Nat → Nat → R
  trdm : Nat → Nat → Nat → Nat → R

/-- Execute one write. -/
def Rdms.apply [Add R] (st : Rdms R) : Upd R → Rdms R
  | .o p q v => { st with ordm := fun a b => if a = p ∧ b = q then st.ordm a b + v else st.ordm a b }
  | .t p q r s v => { st with trdm := fun a b c d =>
      if a = p ∧ b = q ∧ c = r ∧ d = s then st.trdm a b c d + v else st.trdm a b c d }

variable [Field R]

/-- `rdm_contributions_4` (util/rdms.hpp:15-25). -/
def rdmContributions4 {M : Nat} (bra ket ex : BitVec M) (val : R) : List (Upd R) :=
  let (o1, v1, o2, v2, sign) := doublesSignIndices bra ket ex
  let val := val * ((sign : R) * 2⁻¹)
  [.t v1 o1 v2 o2 val, .t v2 o1 v1 o2 (-val), .t v1 o2 v2 o1 (-val), .t v2 o2 v1 o1 val]

/-- `rdm_contributions_22` (util/rdms.hpp:27-41). -/
def rdmContributions22 {M : Nat} (braA ketA exA braB ketB exB : BitVec M) (val : R) : List (Upd R) :=
  let (o1, v1, signA) := singleExcitationSignIndices braA ketA exA
  let (o2, v2, signB) := singleExcitationSignIndices braB ketB exB
  let sign := signA * signB
  let val := val * ((sign : R) * 2⁻¹)
  [.t v1 o1 v2 o2 val, .t v2 o2 v1 o1 val]

/-- `rdm_contributions_2` (util/rdms.hpp:43-66). -/
def rdmContributions2 {M : Nat} (bra ket ex : BitVec M) (braOccA braOccB : List Nat) (val : R)
    (hasT : Bool) : List (Upd R) :=
  let (o1, v1, sign) := singleExcitationSignIndices bra ket ex
  let hv := val * ((sign : R) * 2⁻¹)
  [.o v1 o1 ((sign : R) * val)] ++
  if hasT then
    (braOccA.flatMap fun p =>
      [.t v1 o1 p p hv, .t p p v1 o1 hv, .t v1 p p o1 (-hv), .t p o1 v1 p (-hv)]) ++
    (braOccB.flatMap fun p => [.t v1 o1 p p hv, .t p p v1 o1 hv])
  else []

/-- `rdm_contributions_diag` (util/rdms.hpp:68-97). -/
def rdmContributionsDiag (occA occB : List Nat) (val : R) (hasT : Bool) : List (Upd R) :=
  let hv := val * 2⁻¹
  (occA.map fun p => .o p p val) ++ (occB.map fun p => .o p p val) ++
  if hasT then
    (occA.flatMap fun q => occA.flatMap fun p => [.t p p q q hv, .t p q p q (-hv)]) ++
    (occB.flatMap fun q => occB.flatMap fun p => [.t p p q q hv, .t p q p q (-hv)]) ++
    (occB.flatMap fun q => occA.flatMap fun p => [.t p p q q hv, .t q q p p hv])
  else []

/-- `rdm_contributions` (util/rdms.hpp:99-132). -/
def rdmContributions {M : Nat} (braA ketA exA braB ketB exB : BitVec M) (braOccA braOccB : List Nat)
    (val : R) (hasT : Bool) : List (Upd R) :=
  let ca := count exA
  let cb := count exB
  if ca + cb > 4 then []
  else if ca = 4 ∧ hasT then rdmContributions4 braA ketA exA val
  else if cb = 4 ∧ hasT then rdmContributions4 braB ketB exB val
  else if ca = 2 ∧ cb = 2 ∧ hasT then rdmContributions22 braA ketA exA braB ketB exB val
  else if ca = 2 then rdmContributions2 braA ketA exA braOccA braOccB val hasT
  else if cb = 2 then rdmContributions2 braB ketB exB braOccB braOccA val hasT
  else rdmContributionsDiag braOccA braOccB val hasT

variable [LinearOrder R]

/-- Body of the `ket` loop of `form_rdms` for one pair (double_loop.hpp:137-160). -/
def rdmPair {M : Nat} (bra ket : BitVec (2 * M)) (val : R) (hasT : Bool) : List (Upd R) :=
  if count bra ≠ 0 then
    if count ket ≠ 0 then
      if count (bra ^^^ ket) ≤ 4 then
        if |val| > 1 / 10 ^ 16 then
          rdmContributions (loWord bra) (loWord ket) (loWord (bra ^^^ ket)) (hiWord bra) (hiWord ket)
            (hiWord (bra ^^^ ket)) (bitsToIndices (loWord bra)) (bitsToIndices (hiWord bra)) val hasT
        else []
      else []
    else []
  else []

/-- `DoubleLoopHamiltonianGenerator::form_rdms` (double_loop.hpp:117-165). -/
def formRdms {M : Nat} (bras kets : List (BitVec (2 * M))) (C : Nat → R) (hasT : Bool) (st : Rdms R) :
    Rdms R :=
  ((List.range bras.length).flatMap fun i => (List.range kets.length).flatMap fun j =>
    rdmPair (bras.getD i 0) (kets.getD j 0) (C i * C j) hasT).foldl Rdms.apply st

end Macis
