import Verif.Model.HamCsr
import Mathlib.Data.Real.Basic
/-
`HamiltonianGenerator` in floating point: the functions of Model/Ham.lean with every addition, subtraction and
multiplication of doubles followed by a rounding `rnd`.  The order of the operations is that of the source
(include/macis/hamiltonian_generator/impl.hpp, matrix_elements.hpp); the compiler is taken not to reorder them (the build
does not ask for -ffast-math).  Numbers are real numbers; infinities and NaN are left out, as is the sign of zero.
-/
namespace Macis
namespace Integrals
variable (rnd : ℝ → ℝ) (I : Integrals ℝ)

/-- `G_pqrs_` (impl.hpp:36-44). -/
def GR (i j k l : Nat) : ℝ := rnd (I.V i j k l - I.V i l k j)

/-- `G_red_(k,i,j)` (impl.hpp:52-57). -/
def GredR (k i j : Nat) : ℝ := I.GR rnd k k i j

/-- `G2_red_(i,j)` (impl.hpp:65-69). -/
noncomputable def G2redR (i j : Nat) : ℝ := rnd (1 / 2 * I.GR rnd i i j j)

/-- a loop `for(x : l) h += f(x)` -/
def accR {α : Type} (f : α → ℝ) (h : ℝ) (l : List α) : ℝ := l.foldl (fun h x => rnd (h + f x)) h

/-- `matrix_element_4` (matrix_elements.hpp:65-71). -/
def matrixElement4R {M : Nat} (bra ket ex : BitVec M) : ℝ :=
  let (o1, v1, o2, v2, sign) := doublesSignIndices bra ket ex
  rnd ((sign : ℝ) * I.GR rnd v1 o1 v2 o2)

/-- `matrix_element_22` (matrix_elements.hpp:73-84); the product of the signs is exact. -/
def matrixElement22R {M : Nat} (braA ketA exA braB ketB exB : BitVec M) : ℝ :=
  let (o1, v1, signA) := singleExcitationSignIndices braA ketA exA
  let (o2, v2, signB) := singleExcitationSignIndices braB ketB exB
  rnd (((signA * signB : Int) : ℝ) * I.V v1 o1 v2 o2)

/-- `matrix_element_2` (matrix_elements.hpp:86-106). -/
def matrixElement2R {M : Nat} (bra ket ex : BitVec M) (braOccA braOccB : List Nat) : ℝ :=
  let (o1, v1, sign) := singleExcitationSignIndices bra ket ex
  let h := I.T v1 o1
  let h := accR rnd (fun p => I.GredR rnd p v1 o1) h braOccA
  let h := accR rnd (fun p => I.Vred p v1 o1) h braOccB
  rnd ((sign : ℝ) * h)

/-- `matrix_element_diag` (matrix_elements.hpp:108-135). -/
noncomputable def matrixElementDiagR (occA occB : List Nat) : ℝ :=
  let h := accR rnd (fun p => I.T p p) 0 occA
  let h := accR rnd (fun p => I.T p p) h occB
  let h := occA.foldl (fun h q => accR rnd (fun p => I.G2redR rnd p q) h occA) h
  let h := occB.foldl (fun h q => accR rnd (fun p => I.G2redR rnd p q) h occB) h
  occB.foldl (fun h q => accR rnd (fun p => I.V2red p q) h occA) h

/-- The spin-resolved `matrix_element` (matrix_elements.hpp:32-63). -/
noncomputable def matrixElementSpinR {M : Nat} (braA ketA exA braB ketB exB : BitVec M)
    (braOccA braOccB : List Nat) : ℝ :=
  let ca := count exA
  let cb := count exB
  if ca + cb > 4 then 0
  else if ca = 4 then I.matrixElement4R rnd braA ketA exA
  else if cb = 4 then I.matrixElement4R rnd braB ketB exB
  else if ca = 2 ∧ cb = 2 then I.matrixElement22R rnd braA ketA exA braB ketB exB
  else if ca = 2 then I.matrixElement2R rnd braA ketA exA braOccA braOccB
  else if cb = 2 then I.matrixElement2R rnd braB ketB exB braOccB braOccA
  else I.matrixElementDiagR rnd braOccA braOccB

/-- `matrix_element(bra, ket)` (matrix_elements.hpp:14-30). -/
noncomputable def matrixElementR {M : Nat} (bra ket : BitVec (2 * M)) : ℝ :=
  let braA := loWord bra
  let ketA := loWord ket
  let braB := hiWord bra
  let ketB := hiWord ket
  I.matrixElementSpinR rnd braA ketA (braA ^^^ ketA) braB ketB (braB ^^^ ketB)
    (bitsToIndices braA) (bitsToIndices braB)

end Integrals

/-- Body of the ket loop (double_loop.hpp:61-86). -/
noncomputable def ketStepR {M : Nat} (rnd : ℝ → ℝ) (I : Integrals ℝ) (thresh : ℝ) (bra : BitVec (2 * M))
    (st : BlockState ℝ) (jk : Nat × BitVec (2 * M)) : BlockState ℝ :=
  let (j, ket) := jk
  if count ket ≠ 0 then
    let ex := bra ^^^ ket
    if count ex ≤ 4 then
      let h := I.matrixElementSpinR rnd (loWord bra) (loWord ket) (loWord ex) (hiWord bra) (hiWord ket)
        (hiWord ex) (bitsToIndices (loWord bra)) (bitsToIndices (hiWord bra))
      if |h| > thresh then
        { st with nrow := st.nrow + 1, colind := st.colind ++ [j], nzval := st.nzval ++ [h] }
      else st
    else st
  else st

/-- Body of the bra loop (double_loop.hpp:46-93). -/
noncomputable def braStepR {M : Nat} (rnd : ℝ → ℝ) (I : Integrals ℝ) (thresh : ℝ) (kets : List (BitVec (2 * M)))
    (st : BlockState ℝ) (bra : BitVec (2 * M)) : BlockState ℝ :=
  let st := { st with nrow := 0 }
  let st := if count bra ≠ 0 then (enumerate kets).foldl (ketStepR rnd I thresh bra) st else st
  { st with rowptr := st.rowptr ++ [st.rowptr.getLastD 0 + st.nrow] }

/-- `make_csr_hamiltonian_block_` (double_loop.hpp:31-98). -/
noncomputable def Integrals.csrBlockImplR {M : Nat} (rnd : ℝ → ℝ) (I : Integrals ℝ) (bras kets : List (BitVec (2 * M)))
    (thresh : ℝ) : Csr ℝ :=
  let st := bras.foldl (braStepR rnd I thresh kets) { rowptr := [0], colind := [], nzval := [], nrow := 0 }
  Csr.ofArrays bras.length kets.length st.rowptr st.colind st.nzval

/-- `make_csr_hamiltonian_block` (csr_hamiltonian.hpp:22-36). -/
noncomputable def Integrals.csrBlockR {M : Nat} (rnd : ℝ → ℝ) (I : Integrals ℝ) (bras kets : List (BitVec (2 * M)))
    (thresh : ℝ) : Csr ℝ :=
  if bras.length ≠ 0 ∧ kets.length ≠ 0 then I.csrBlockImplR rnd bras kets thresh
  else Csr.alloc bras.length kets.length 0 0

/-- `make_csr_hamiltonian` (csr_hamiltonian.hpp:38-44). -/
noncomputable def Integrals.csrHamiltonianR {M : Nat} (rnd : ℝ → ℝ) (I : Integrals ℝ) (dets : List (BitVec (2 * M)))
    (thresh : ℝ) : Csr ℝ :=
  I.csrBlockR rnd dets dets thresh

end Macis
