import Verif.Model.Ham
import Verif.Model.Dist
import Mathlib.Algebra.Order.Group.Unbundled.Abs
/-
Model of the CSR Hamiltonian builders: include/macis/hamiltonian_generator/double_loop.hpp,
include/macis/csr_hamiltonian.hpp, and the row distribution of
src/sparsexx/include/sparsexx/matrix_types/dist_sparse_matrix.hpp.

A wavefunction range `[begin, end)` is a list of determinants.
-/
namespace Macis

variable {R : Type} [Field R] [LinearOrder R]

/-- State of the double loop: `rowptr` filled so far, `colind`, `nzval` (double_loop.hpp:38-43). -/
structure BlockState (R : Type) where
  rowptr : List Nat
  colind : List Nat
  nzval : List R
  nrow : Nat

/-- Body of the ket loop (double_loop.hpp:61-86). -/
def ketStep {M : Nat} (I : Integrals R) (thresh : R) (bra : BitVec (2 * M))
    (st : BlockState R) (jk : Nat × BitVec (2 * M)) : BlockState R :=
  let (j, ket) := jk
  if count ket ≠ 0 then
    let ex := bra ^^^ ket
    if count ex ≤ 4 then
      let h := I.matrixElementSpin (loWord bra) (loWord ket) (loWord ex) (hiWord bra) (hiWord ket)
        (hiWord ex) (bitsToIndices (loWord bra)) (bitsToIndices (hiWord bra))
      if |h| > thresh then
        { st with nrow := st.nrow + 1, colind := st.colind ++ [j], nzval := st.nzval ++ [h] }
      else st
    else st
  else st

/-- `l` with the position of each element. -/
def enumerate {α : Type} (l : List α) : List (Nat × α) := (List.range l.length).zip l

/-- Body of the bra loop (double_loop.hpp:46-93). -/
def braStep {M : Nat} (I : Integrals R) (thresh : R) (kets : List (BitVec (2 * M)))
    (st : BlockState R) (bra : BitVec (2 * M)) : BlockState R :=
  let st := { st with nrow := 0 }
  let st := if count bra ≠ 0 then (enumerate kets).foldl (ketStep I thresh bra) st else st
  { st with rowptr := st.rowptr ++ [st.rowptr.getLastD 0 + st.nrow] }

/-- `make_csr_hamiltonian_block_` (double_loop.hpp:31-98). -/
def Integrals.csrBlockImpl {M : Nat} (I : Integrals R) (bras kets : List (BitVec (2 * M)))
    (thresh : R) : Csr R :=
  let st := bras.foldl (braStep I thresh kets) { rowptr := [0], colind := [], nzval := [], nrow := 0 }
  Csr.ofArrays bras.length kets.length st.rowptr st.colind st.nzval

/-- `make_csr_hamiltonian_block` (csr_hamiltonian.hpp:22-36). -/
def Integrals.csrBlock {M : Nat} (I : Integrals R) (bras kets : List (BitVec (2 * M)))
    (thresh : R) : Csr R :=
  if bras.length ≠ 0 ∧ kets.length ≠ 0 then I.csrBlockImpl bras kets thresh
  else Csr.alloc bras.length kets.length 0 0

/-- `make_csr_hamiltonian` (csr_hamiltonian.hpp:38-44). -/
def Integrals.csrHamiltonian {M : Nat} (I : Integrals R) (dets : List (BitVec (2 * M)))
    (thresh : R) : Csr R :=
  I.csrBlock dets dets thresh

/-- `make_dist_csr_hamiltonian` as executed by rank `rank` of `P` (csr_hamiltonian.hpp:47-81). -/
def Integrals.distHamiltonian {M : Nat} (I : Integrals R) (dets : List (BitVec (2 * M)))
    (thresh : R) (P rank : Nat) : DistCsr R :=
  let H : DistCsr R := DistCsr.create P rank dets.length dets.length
  let (st, en) := H.rowBounds rank
  let mine := (dets.drop st).take (en - st)
  let off := (enumerate dets).map fun (i, d) => if st ≤ i ∧ i < en then 0#(2 * M) else d
  { H with
    diag := some (I.csrBlock mine mine thresh)
    offdiag := if P > 1 then some (I.csrBlock mine off thresh) else none }

end Macis
