import Verif.Model.Transform
import Verif.Spec.Rounding
/-
Model of src/macis/transform.cxx in floating point arithmetic.  The products are taken by BLAS, which is free to
add up the terms of an element in any order, in any grouping, with or without fused multiply-add, and to do so
differently in every call and for every element.  Left out: overflow and underflow, and algorithms for products of
matrices that do not compute an element as a sum of products (Strassen).
-/
namespace Macis

/-- `Dot rnd a b L x`: `x` is what some order of operations makes of the sum of `a l * b l` over `L`.  A product may be
rounded (`mul`) or enter the next addition unrounded (`fma`); additions are rounded.  (Adding zero to a number of the format
does not change it and needs no rule.)  A simplification: BLAS is not in the repository; this covers what its
implementations do with the elements that transform.cxx:28-35, 69-113 ask for. -/
inductive Dot (rnd : ℝ → ℝ) (a b : Nat → ℝ) : List Nat → ℝ → Prop
  | nil : Dot rnd a b [] 0
  | mul (l : Nat) : Dot rnd a b [l] (rnd (a l * b l))
  | fma (l : Nat) : Dot rnd a b [l] (a l * b l)
  | add {L L' : List Nat} {x y : ℝ} : L ≠ [] → L' ≠ [] → Dot rnd a b L x → Dot rnd a b L' y →
      Dot rnd a b (L ++ L') (rnd (x + y))
  | perm {L L' : List Nat} {x : ℝ} : L.Perm L' → Dot rnd a b L x → Dot rnd a b L' x

/-- How BLAS computes element `(i, j)` in call number `c`: from the row, the column and their length. -/
abbrev Kernel := Nat → Nat → Nat → (Nat → ℝ) → (Nat → ℝ) → Nat → ℝ

/-- every element is computed by adding up its products in some order (the calls at transform.cxx:28-35, 69-113) -/
def Kernel.Sums (dot : Kernel) (rnd : ℝ → ℝ) : Prop :=
  ∀ c i j a b k, Dot rnd a b (List.range k) (dot c i j a b k)

/-- `blas::gemm(ColMajor, transA, NoTrans, m, n, k, 1.0, A, lda, B, ldb, 0.0, C + base, ldc)`, call number `c`
(transform.cxx:28-30, 33-35, 69-71, 79-81, 90-92, 98-100): `gemm` of Model/Transform.lean with rounding. -/
def gemmF (dot : Kernel) (c : Nat) (transA : Bool) (m n k : Nat) (A : Nat → ℝ) (lda : Nat) (B : Nat → ℝ)
    (ldb : Nat) (C : Nat → ℝ) (base ldc : Nat) : Nat → ℝ :=
  storeAll C ((pairsMN m n).map fun x => (base + (x.1 + x.2 * ldc),
    dot c x.1 x.2 (fun l => if transA then A (l + x.1 * lda) else A (x.1 + l * lda))
      (fun l => B (l + x.2 * ldb)) k))

/-- `two_index_transform` (transform.cxx:22-48). -/
def twoIndexF (dot : Kernel) (no nn : Nat) (X : Nat → ℝ) (ldx : Nat) (C : Nat → ℝ)
    (ldc : Nat) (Y : Nat → ℝ) (ldy : Nat) : Nat → ℝ :=
  let tmp : Nat → ℝ := fun _ => 0
  let tmp := gemmF dot 0 false no nn no X ldx C ldc tmp 0 no
  gemmF dot 1 true nn nn no C ldc tmp no Y 0 ldy

/-- `four_index_transform` (transform.cxx:50-118). -/
def fourIndexF (dot : Kernel) (no nn : Nat) (X : Nat → ℝ) (ldx : Nat) (C : Nat → ℝ)
    (ldc : Nat) (Y : Nat → ℝ) (_ldy : Nat) : Nat → ℝ :=
  let nn2 := nn * nn
  let nn3 := nn2 * nn
  let no2 := no * no
  let no3 := no2 * no
  let tmp1 : Nat → ℝ := fun _ => 0
  let tmp2 : Nat → ℝ := fun _ => 0
  let tmp1 := gemmF dot 0 true nn no3 no C ldc X ldx tmp1 0 nn
  let tmp2 := (List.range no2).foldl (fun tmp2 kl =>
    gemmF dot (1 + kl) false nn nn no (fun a => tmp1 (kl * no * nn + a)) nn C ldc tmp2 (kl * nn2) nn) tmp2
  let tmp1 := (List.range no).foldl (fun tmp1 l =>
    gemmF dot (1 + no2 + l) false nn2 nn no (fun a => tmp2 (l * nn2 * no + a)) nn2 C ldc tmp1 (l * nn3) nn2) tmp1
  gemmF dot (1 + no2 + no) false nn3 nn no tmp1 nn3 C ldc Y 0 nn3

/-- the kernel that adds up rounded products from left to right (a simplification of what BLAS does at
transform.cxx:28-35; used in examples) -/
noncomputable def seqDot (rnd : ℝ → ℝ) (a b : Nat → ℝ) : Nat → ℝ
  | 0 => 0
  | 1 => rnd (a 0 * b 0)
  | k + 2 => rnd (seqDot rnd a b (k + 1) + rnd (a (k + 1) * b (k + 1)))

end Macis
