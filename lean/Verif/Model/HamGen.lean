import Verif.Model.Transform
import Verif.Model.SD
import Mathlib.Data.List.ProdSigma
import Mathlib.Data.Real.Basic
/-
Model of the stored arrays of `HamiltonianGenerator`: its construction, `generate_integral_intermediates`
(include/macis/hamiltonian_generator/impl.hpp:15-70) and `rotate_hamiltonian_ordm`
(include/macis/hamiltonian_generator/rdms.hpp:20-99).  Arrays are functions from addresses to values and numbers are
exact; `lapack::gesvd` is a parameter.
-/
namespace Macis

/-- `for(x : l) A[addr(x)] = val(x, A[addr(x)])`: the loops that fill an array element by element
(impl.hpp:37-42, 52-57, 65-69). -/
def forEach {R α : Type} (l : List α) (addr : α → Nat) (val : α → R → R) (A : Nat → R) : Nat → R :=
  l.foldl (fun A x => Function.update A (addr x) (val x (A (addr x)))) A

/-- The stored state of a `HamiltonianGenerator` (hamiltonian_generator.hpp:40-65).  `T` and `V` are the caller's arrays,
which the generator only holds views of; the others are its own. -/
structure HamGen (R : Type) where
  /-- `norb_` -/
  norb : Nat
  /-- memory behind `T_pq_` -/
  T : Nat → R
  /-- memory behind `V_pqrs_` -/
  V : Nat → R
  /-- `G_pqrs_data_` -/
  G : Nat → R
  /-- `G_red_data_` -/
  Gred : Nat → R
  /-- `V_red_data_` -/
  Vred : Nat → R
  /-- `G2_red_data_` -/
  G2red : Nat → R
  /-- `V2_red_data_` -/
  V2red : Nat → R

namespace HamGen
variable {R : Type} [Field R]

/-- `generate_integral_intermediates` (impl.hpp:27-70); the dimension check of lines 28-30 concerns views that are not
`norb^4`, which this state cannot hold.  `resize` keeps what an array held before. -/
def generate (h : HamGen R) : HamGen R :=
  let no := h.norb
  let V := h.V
  let G := V
  let G := forEach (List.range no ×ˢ List.range no ×ˢ List.range no ×ˢ List.range no)
    (fun (i, j, k, l) => addr4 no i j k l) (fun (i, j, k, l) g => g - V (addr4 no i l k j)) G
  let Gred := forEach (List.range no ×ˢ List.range no ×ˢ List.range no)
    (fun (j, i, k) => k + i * no + j * no * no) (fun (j, i, k) _ => G (addr4 no k k i j)) h.Gred
  let Vred := forEach (List.range no ×ˢ List.range no ×ˢ List.range no)
    (fun (j, i, k) => k + i * no + j * no * no) (fun (j, i, k) _ => V (addr4 no k k i j)) h.Vred
  let G2red := forEach (List.range no ×ˢ List.range no)
    (fun (j, i) => i + j * no) (fun (j, i) _ => 2⁻¹ * G (addr4 no i i j j)) h.G2red
  let V2red := forEach (List.range no ×ˢ List.range no)
    (fun (j, i) => i + j * no) (fun (j, i) _ => V (addr4 no i i j j)) h.V2red
  ⟨no, h.T, V, G, Gred, Vred, G2red, V2red⟩

/-- The constructor (impl.hpp:15-25) on the caller's arrays `T` and `V`. -/
def construct (no : Nat) (T V : Nat → R) : HamGen R :=
  generate ⟨no, T, V, fun _ => 0, fun _ => 0, fun _ => 0, fun _ => 0, fun _ => 0⟩

/-- `rotate_hamiltonian_ordm` (rdms.hpp:20-99).  `gesvd n A lda` is `lapack::gesvd(OverwriteVec, NoVec, n, n, A, lda, S,
...)`: the array `A` after the call and the singular values. -/
def rotate (gesvd : Nat → (Nat → R) → Nat → (Nat → R) × (Nat → R)) (ordm : Nat → R) (h : HamGen R) : HamGen R :=
  let no := h.norb
  let no2 := no * no
  let no3 := no2 * no
  let nat := (gesvd no ordm no).1
  let tmp : Nat → R := fun _ => 0
  let tmp2 : Nat → R := fun _ => 0
  -- T <- N**H * T * N
  let tmp := gemm false no no no h.T no nat no tmp 0 no
  let T := gemm true no no no nat no tmp no h.T 0 no
  -- 1st quarter; its `no^4` results overwrite all of `tmp`
  let tmp := gemm true no no3 no nat no h.V no tmp 0 no
  -- 2nd quarter
  let tmp2 := (List.range no2).foldl (fun W kl =>
    gemm false no no no (fun a => tmp (kl * no2 + a)) no nat no W (kl * no2) no) tmp2
  -- 3rd quarter
  let tmp := (List.range no).foldl (fun W l =>
    gemm false no2 no no (fun a => tmp2 (l * no3 + a)) no2 nat no W (l * no3) no2) tmp
  -- 4th quarter
  let V := gemm false no3 no no tmp no3 nat no h.V 0 no3
  generate { h with T := T, V := V }

/-- the same generator after several rotations -/
def rotateAll (gesvd : Nat → (Nat → R) → Nat → (Nat → R) × (Nat → R)) (ordms : List (Nat → R)) (h : HamGen R) :
    HamGen R := ordms.foldl (fun h d => h.rotate gesvd d) h

/-! Matrix elements as they are read from the stored arrays. -/

/-- `matrix_element_4` (matrix_elements.hpp:65-71). -/
def matrixElement4 {M : Nat} (h : HamGen R) (bra ket ex : BitVec M) : R :=
  let (o1, v1, o2, v2, sign) := doublesSignIndices bra ket ex
  (sign : R) * h.G (addr4 h.norb v1 o1 v2 o2)

/-- `matrix_element_22` (matrix_elements.hpp:73-84). -/
def matrixElement22 {M : Nat} (h : HamGen R) (braA ketA exA braB ketB exB : BitVec M) : R :=
  let (o1, v1, signA) := singleExcitationSignIndices braA ketA exA
  let (o2, v2, signB) := singleExcitationSignIndices braB ketB exB
  ((signA * signB : Int) : R) * h.V (addr4 h.norb v1 o1 v2 o2)

/-- `matrix_element_2` (matrix_elements.hpp:86-106), with its pointers `&G_red_(0, v1, o1)` and `&V_red_(0, v1, o1)`; the
sums of numbers are exact. -/
def matrixElement2 {M : Nat} (h : HamGen R) (bra ket ex : BitVec M) (braOccA braOccB : List Nat) : R :=
  let (o1, v1, sign) := singleExcitationSignIndices bra ket ex
  let ov := 0 + v1 * h.norb + o1 * h.norb * h.norb
  (sign : R) * (h.T (v1 + o1 * h.norb) + (braOccA.map fun p => h.Gred (ov + p)).sum
    + (braOccB.map fun p => h.Vred (ov + p)).sum)

/-- `matrix_element_diag` (matrix_elements.hpp:108-135). -/
def matrixElementDiag (h : HamGen R) (occA occB : List Nat) : R :=
  (occA.map fun p => h.T (p + p * h.norb)).sum + (occB.map fun p => h.T (p + p * h.norb)).sum
  + (occA.map fun q => (occA.map fun p => h.G2red (p + q * h.norb)).sum).sum
  + (occB.map fun q => (occB.map fun p => h.G2red (p + q * h.norb)).sum).sum
  + (occB.map fun q => (occA.map fun p => h.V2red (p + q * h.norb)).sum).sum

/-- `matrix_element(bra, ket)` and the spin-resolved one it calls (matrix_elements.hpp:14-63). -/
def matrixElement {M : Nat} (h : HamGen R) (bra ket : BitVec (2 * M)) : R :=
  let braA := loWord bra
  let ketA := loWord ket
  let braB := hiWord bra
  let ketB := hiWord ket
  let exA := braA ^^^ ketA
  let exB := braB ^^^ ketB
  let braOccA := bitsToIndices braA
  let braOccB := bitsToIndices braB
  let ca := count exA
  let cb := count exB
  if ca + cb > 4 then 0
  else if ca = 4 then h.matrixElement4 braA ketA exA
  else if cb = 4 then h.matrixElement4 braB ketB exB
  else if ca = 2 ∧ cb = 2 then h.matrixElement22 braA ketA exA braB ketB exB
  else if ca = 2 then h.matrixElement2 braA ketA exA braOccA braOccB
  else if cb = 2 then h.matrixElement2 braB ketB exB braOccB braOccA
  else h.matrixElementDiag braOccA braOccB

end HamGen
end Macis
