import Verif.Model.HamCsr
import Verif.Model.SpBlas
/-
The CSR Hamiltonian with an index type of `w` bits: `make_csr_hamiltonian_block_<index_t>`
(include/macis/hamiltonian_generator/double_loop.hpp:30-111; `index_t` is `int32_t` by default in
include/macis/solvers/selected_ci_diag.hpp:124 and include/macis/asci/{iteration.hpp:16,grow.hpp:16,refine.hpp:14}),
and its product with a vector (src/sparsexx/include/sparsexx/spblas/spmbv.hpp:38-73).  `Model/HamCsr` has the same
builder with unbounded indices.

Simplification: sizes (`size_t`, `int64_t` of `csr_matrix::size_type`, csr_matrix.hpp:32) are unbounded; only the index
type is finite.  Conversion to a narrower signed type keeps the value modulo `2^w` (C++20; what compilers do before).
-/
namespace Macis
variable {R : Type}

/-- Conversion of an integer to a signed type of `w` bits. -/
def toIndex (w : Nat) (x : Int) : Int := x.bmod (2 ^ w)

/-- `csr_matrix` as stored, with signed indices (src/sparsexx/include/sparsexx/matrix_types/csr_matrix.hpp:44-52). -/
structure CsrW (R : Type) where
  m : Nat
  n : Nat
  indexing : Int
  rowptr : List Int
  colind : List Int
  nzval : List R

/-- State of the double loop (double_loop.hpp:38-43). -/
structure BlockStateW (R : Type) where
  rowptr : List Int
  colind : List Int
  nzval : List R
  nrow : Nat

variable [Field R] [LinearOrder R]

/-- Body of the ket loop (double_loop.hpp:61-86): `colind.emplace_back(j)` converts `j`. -/
def ketStepW {M : Nat} (w : Nat) (I : Integrals R) (thresh : R) (bra : BitVec (2 * M))
    (st : BlockStateW R) (jk : Nat × BitVec (2 * M)) : BlockStateW R :=
  let (j, ket) := jk
  if count ket ≠ 0 then
    let ex := bra ^^^ ket
    if count ex ≤ 4 then
      let h := I.matrixElementSpin (loWord bra) (loWord ket) (loWord ex) (hiWord bra) (hiWord ket)
        (hiWord ex) (bitsToIndices (loWord bra)) (bitsToIndices (hiWord bra))
      if |h| > thresh then
        { st with nrow := st.nrow + 1, colind := st.colind ++ [toIndex w j], nzval := st.nzval ++ [h] }
      else st
    else st
  else st

/-- Body of the bra loop (double_loop.hpp:46-93): `rowptr[i + 1] = rowptr[i] + nrow` converts the sum. -/
def braStepW {M : Nat} (w : Nat) (I : Integrals R) (thresh : R) (kets : List (BitVec (2 * M)))
    (st : BlockStateW R) (bra : BitVec (2 * M)) : BlockStateW R :=
  let st := { st with nrow := 0 }
  let st := if count bra ≠ 0 then (enumerate kets).foldl (ketStepW w I thresh bra) st else st
  { st with rowptr := st.rowptr ++ [toIndex w (st.rowptr.getLastD 0 + st.nrow)] }

/-- `make_csr_hamiltonian_block_` (double_loop.hpp:31-98), constructor csr_matrix.hpp:74-82. -/
def Integrals.csrBlockImplW {M : Nat} (w : Nat) (I : Integrals R) (bras kets : List (BitVec (2 * M)))
    (thresh : R) : CsrW R :=
  let st := bras.foldl (braStepW w I thresh kets) { rowptr := [0], colind := [], nzval := [], nrow := 0 }
  { m := bras.length, n := kets.length, indexing := st.rowptr.getD 0 0, rowptr := st.rowptr, colind := st.colind,
    nzval := st.nzval }

/-- `make_csr_hamiltonian_block` (csr_hamiltonian.hpp:22-36); `csr_matrix(nbra, nket, 0, 0)` has zero row pointers. -/
def Integrals.csrBlockW {M : Nat} (w : Nat) (I : Integrals R) (bras kets : List (BitVec (2 * M)))
    (thresh : R) : CsrW R :=
  if bras.length ≠ 0 ∧ kets.length ≠ 0 then I.csrBlockImplW w bras kets thresh
  else ⟨bras.length, kets.length, 0, List.replicate (bras.length + 1) 0, [], []⟩

omit [Field R] [LinearOrder R] in
/-- The inner product loop of one row (spmbv.hpp:58-69), `none` for an access outside the arrays: `j_ext` is
the signed difference of the row pointers, a loop up to a negative number does nothing. -/
def CsrW.rowDot [Semiring R] (A : CsrW R) (x : Nat → R) (i : Nat) : Option R :=
  let st := A.rowptr.getD i 0 - A.indexing
  let en := A.rowptr.getD (i + 1) 0 - A.indexing
  (List.range (en - st).toNat).foldlM (fun av (j : Nat) =>
    let k := st + j
    if 0 ≤ k ∧ k < A.nzval.length then
      let c := A.colind.getD k.toNat 0 - A.indexing
      if 0 ≤ c ∧ c < A.n then some (av + A.nzval.getD k.toNat 0 * x c.toNat) else none
    else none) 0

omit [Field R] [LinearOrder R] in
/-- CSR `gespmbv` (spmbv.hpp:38-73) in program order. -/
def CsrW.gespmbv [Semiring R] (K : Nat) (alpha : R) (A : CsrW R) (V : Nat → R) (LDV : Nat) (beta : R)
    (AV : Nat → R) (LDAV : Nat) : Option (Nat → R) :=
  (iterSpace K A.m).foldlM (fun AV (k, i) =>
    (A.rowDot (fun c => V (k * LDV + c)) i).map fun av =>
      store AV (i + k * LDAV) (alpha * av + beta * AV (i + k * LDAV))) AV

end Macis
