import Verif.Spec.Sparse
import Verif.Spec.Fcidump
import Mathlib.Algebra.BigOperators.Group.List.Basic
/-! What a sparse-matrix file means: specification used by C49, C94-C98. -/
namespace Macis.Spec
open Macis
variable {R : Type}

/-- Printing a number with 17 significant digits and parsing it gives it back; the printed form is one
non-empty word. -/
structure NumIO.Readable (io : NumIO R) : Prop where
  roundTrip : ∀ x, io.parse (io.fmt x) = some x
  oneWord : ∀ x, ∀ c ∈ io.fmt x, isSpaceC c = false
  nonempty : ∀ x, io.fmt x ≠ []

/-- a non-empty word without white space -/
def Word (w : List Char) : Prop := w ≠ [] ∧ ∀ c ∈ w, isSpaceC c = false

instance (w : List Char) : Decidable (Word w) := inferInstanceAs (Decidable (_ ∧ _))

/-- The line consists of the given words, separated and surrounded by blanks. -/
inductive ShowsWords : List Char → List (List Char) → Prop
  | nil {b} : Blank0 b → ShowsWords b []
  | last {b0 w b} : Blank0 b0 → Word w → Blank0 b → ShowsWords (b0 ++ (w ++ b)) [w]
  | cons {b0 w b rest ws} : Blank0 b0 → Word w → Blank b → ShowsWords rest ws →
      ShowsWords (b0 ++ (w ++ (b ++ rest))) (w :: ws)

/-- The line shows row `i`, column `j` and the value `v`, or just `i` and `j` (a pattern entry, worth
one). -/
def MmShows [One R] (io : NumIO R) (line : List Char) (i j : Nat) (v : R) : Prop :=
  (∃ x, io.parse x = some v ∧ ShowsWords line [showNat i, showNat j, x]) ∨
  (v = 1 ∧ ShowsWords line [showNat i, showNat j])

/-- A matrix-market file: the banner, comments, the dimensions, one line per entry. -/
structure MmFile [One R] (io : NumIO R) (file : List Char) (sym : Bool) (m n : Nat)
    (es : List (Nat × Nat × R)) : Prop where
  lines : ∃ (banner : List Char) (comments : List (List Char)) (dims : List Char)
      (body : List (List Char)) (o f d s : List Char) (nnz : Nat),
    file = (banner :: comments ++ dims :: body).flatMap (fun l => l ++ ['\n']) ∧
    (∀ l ∈ banner :: comments ++ dims :: body, ∀ c ∈ l, c ≠ '\n') ∧
    ShowsWords banner ["%%MatrixMarket".toList, o, f, d, s] ∧
    (sym = true ↔ s = "symmetric".toList) ∧
    (∀ l ∈ comments, l.head? = some '%') ∧ dims.head? ≠ some '%' ∧
    ShowsWords dims [showNat m, showNat n, showNat nnz] ∧ nnz < 9223372036854775808 ∧
    List.Forall₂ (fun l e => MmShows io l e.1 e.2.1 e.2.2) body es

/-- Sum of the values listed for row number `r` and column number `c`. -/
def listed [AddCommMonoid R] (es : List (Nat × Nat × R)) (r c : Nat) : R :=
  (es.map fun e => if e.1 = r ∧ e.2.1 = c then e.2.2 else 0).sum

/-- The value a file with entries `es` gives to the matrix at row number `r` and column number `c` (in
the file's own numbering): in a symmetric file an off-diagonal entry stands for its mirror image too. -/
def mmValue [AddCommMonoid R] (sym : Bool) (es : List (Nat × Nat × R)) (r c : Nat) : R :=
  listed es r c + if sym = true ∧ r ≠ c then listed es c r else 0

end Macis.Spec
