import Verif.Model.Fcidump
import Mathlib.Algebra.BigOperators.Group.Finset.Basic
import Mathlib.Algebra.Ring.Defs
/-
Model of src/macis/transform.cxx.  Arrays behind pointers are functions from addresses to values
(pointer arithmetic is a shift of the address); numbers are elements of a commutative ring.
-/
namespace Macis

/-- The index pairs `(i, j)` with `i < m`, `j < n`. -/
def pairsMN (m n : Nat) : List (Nat × Nat) :=
  (List.range m).flatMap fun i => (List.range n).map fun j => (i, j)

/-- `blas::gemm(ColMajor, transA, NoTrans, m, n, k, 1.0, A, lda, B, ldb, 0.0, C + base, ldc)`:
`C(i,j) = sum_l op(A)(i,l) B(l,j)`. -/
def gemm {R : Type} [CommRing R] (transA : Bool) (m n k : Nat) (A : Nat → R) (lda : Nat) (B : Nat → R)
    (ldb : Nat) (C : Nat → R) (base ldc : Nat) : Nat → R :=
  storeAll C ((pairsMN m n).map fun x => (base + (x.1 + x.2 * ldc),
    ∑ l ∈ Finset.range k, (if transA then A (l + x.1 * lda) else A (x.1 + l * lda)) *
      B (l + x.2 * ldb)))

/-- `two_index_transform` (transform.cxx:22-48). -/
def twoIndexTransform {R : Type} [CommRing R] (no nn : Nat) (X : Nat → R) (ldx : Nat) (C : Nat → R)
    (ldc : Nat) (Y : Nat → R) (ldy : Nat) : Nat → R :=
  let tmp : Nat → R := fun _ => 0
  let tmp := gemm false no nn no X ldx C ldc tmp 0 no
  gemm true nn nn no C ldc tmp no Y 0 ldy

/-- `four_index_transform` (transform.cxx:50-118). -/
def fourIndexTransform {R : Type} [CommRing R] (no nn : Nat) (X : Nat → R) (ldx : Nat) (C : Nat → R)
    (ldc : Nat) (Y : Nat → R) (_ldy : Nat) : Nat → R :=
  let nn2 := nn * nn
  let nn3 := nn2 * nn
  let no2 := no * no
  let no3 := no2 * no
  let tmp1 : Nat → R := fun _ => 0
  let tmp2 : Nat → R := fun _ => 0
  let tmp1 := gemm true nn no3 no C ldc X ldx tmp1 0 nn
  let tmp2 := (List.range no2).foldl (fun tmp2 kl =>
    gemm false nn nn no (fun a => tmp1 (kl * no * nn + a)) nn C ldc tmp2 (kl * nn2) nn) tmp2
  let tmp1 := (List.range no).foldl (fun tmp1 l =>
    gemm false nn2 nn no (fun a => tmp2 (l * nn2 * no + a)) nn2 C ldc tmp1 (l * nn3) nn2) tmp1
  gemm false nn3 nn no tmp1 nn3 C ldc Y 0 nn3

end Macis
