import Verif.Model.HamCsr
import Verif.Model.SpBlas
import Verif.Model.SpUtil
import Verif.Model.SD
import Verif.Model.Rdm
import Verif.Model.Davidson
/-
Model of `include/macis/util/cas.hpp` (`compute_casci_rdms`) and of the serial driver
`selected_ci_diag` / `serial_selected_ci_diag` of `include/macis/solvers/selected_ci_diag.hpp`,
composed from the models of their parts.  Exact real arithmetic; logging is dropped.
-/
namespace Macis

/-- `std::vector::resize(n, 0)`. -/
def vresize (C : List ℝ) (n : Nat) : List ℝ := C.take n ++ List.replicate (n - C.length) 0

/-- A vector of `N` entries as an array. -/
noncomputable def finArr {N : Nat} (x : Fin N → ℝ) : Nat → ℝ := fun k => if h : k < N then x ⟨k, h⟩ else 0

/-- `SparseMatrixOperator::operator_action` with `alpha = 1`, `beta = 0` on one vector
(davidson.hpp:37-58, called at 153 and 166). -/
noncomputable def sparseOp (H : Csr ℝ) (x : Fin H.m → ℝ) : Fin H.m → ℝ :=
  fun i => gespmbv 1 1 H (finArr x) H.m 0 (fun _ => 0) H.m i

/-- The guess `serial_selected_ci_diag` starts from (selected_ci_diag.hpp:87-104): the resized passed
vector, with one entry overwritten by 1 if no entry exceeds `1/n`.  `none`: `*max_element` of an empty
range or a write outside the vector. -/
noncomputable def serialGuess (H : Csr ℝ) (C : List ℝ) : Option (List ℝ) :=
  let C := vresize C H.m
  match usesPassedVector C with
  | none => none
  | some true => some C
  | some false => diagonalGuess H.diagonal C

/-- `serial_selected_ci_diag` (selected_ci_diag.hpp:75-122). -/
noncomputable def serialSelectedCiDiag (eig : Nat → (Nat → Nat → ℝ) → ℝ × (Nat → ℝ)) (H : Csr ℝ)
    (maxM : Nat) (resTol : ℝ) (C : List ℝ) : DavResult (Fin H.m → ℝ) :=
  match serialGuess H C with
  | none => .ub
  | some g => davidson (sparseOp H) (fun i => H.diagonal.getD i 0) resTol eig maxM
      (fun i => g.getD i 0)

/-- `selected_ci_diag` without MPI (selected_ci_diag.hpp:124-207). -/
noncomputable def selectedCiDiag {M : Nat} (eig : Nat → (Nat → Nat → ℝ) → ℝ × (Nat → ℝ))
    (I : Integrals ℝ) (dets : List (BitVec (2 * M))) (hElTol : ℝ) (maxM : Nat) (resTol : ℝ)
    (C : List ℝ) : DavResult (Nat → ℝ) :=
  (serialSelectedCiDiag eig (I.csrHamiltonian dets hElTol) maxM resTol C).map finArr

/-- What `compute_casci_rdms` returns: the energy, the CI vector and the arrays `ORDM`, `TRDM`. -/
structure CasciResult where
  E0 : ℝ
  C : Nat → ℝ
  rdms : Rdms ℝ

/-- `compute_casci_rdms` without MPI (cas.hpp:32-64); `st` are the arrays `ORDM`, `TRDM` before the
call, `none` any abnormal end. -/
noncomputable def computeCasciRdms (M : Nat) (eig : Nat → (Nat → Nat → ℝ) → ℝ × (Nat → ℝ))
    (I : Integrals ℝ) (nalpha nbeta : Nat) (hElTol : ℝ) (maxM : Nat) (resTol : ℝ) (C : List ℝ)
    (st : Rdms ℝ) : Option CasciResult :=
  match generateHilbertSpace M I.norb nalpha nbeta with
  | none => none
  | some dets =>
    match selectedCiDiag eig I dets hElTol maxM resTol C with
    | .converged _ E x => some { E0 := E, C := x, rdms := formRdms dets dets x true st }
    | _ => none

/-- `form_rdms` reading the coefficients from a vector of `C.length` entries
(double_loop.hpp:117-165): `none` is a read outside it (line 149, reached for every pair of nonempty
determinants at Hamming distance at most 4). -/
noncomputable def formRdmsBuf {M : Nat} (dets : List (BitVec (2 * M))) (C : List ℝ) (st : Rdms ℝ) :
    Option (Rdms ℝ) :=
  if (List.range dets.length).all fun i => (List.range dets.length).all fun j =>
      !(decide (count (dets.getD i 0) ≠ 0) && decide (count (dets.getD j 0) ≠ 0) &&
        decide (count (dets.getD i 0 ^^^ dets.getD j 0) ≤ 4)) ||
      (decide (i < C.length) && decide (j < C.length))
  then some (formRdms dets dets (fun i => C.getD i 0) true st)
  else none

end Macis
