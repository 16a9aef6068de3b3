import Verif.Model.Fcidump
import Verif.Spec.Text
/-! What an FCIDUMP file means: specification used by C35, C36, C76. -/
namespace Macis.Spec

/-- At least one space. -/
def Blank (s : List Char) : Prop := s ≠ [] ∧ ∀ c ∈ s, c = ' '

/-- Any number of spaces. -/
def Blank0 (s : List Char) : Prop := ∀ c ∈ s, c = ' '

/-- `line` shows the indices `p q r s` and the number `x`, separated and surrounded by spaces, in one
of the two customary orders. -/
def Shows {R : Type} (io : NumIO R) (line : List Char) (p q r s : Nat) (v : R) : Prop :=
  ∃ x b0 b1 b2 b3 b4 b5, io.parse x = some v ∧ (∀ c ∈ x, c ≠ ' ') ∧ x ≠ [] ∧
    (∃ c ∈ x, c.isAlpha = true ∨ c = '.') ∧
    Blank0 b0 ∧ Blank b1 ∧ Blank b2 ∧ Blank b3 ∧ Blank b4 ∧ Blank0 b5 ∧
    (line = b0 ++ showNat p ++ b1 ++ showNat q ++ b2 ++ showNat r ++ b3 ++ showNat s ++ b4 ++ x ++ b5 ∨
     line = b0 ++ x ++ b1 ++ showNat p ++ b2 ++ showNat q ++ b3 ++ showNat r ++ b4 ++ showNat s ++ b5)

/-- The entries of a file: every line shows one entry, or does not have exactly five words (and is
then no entry). -/
inductive Entries {R : Type} (io : NumIO R) : List (List Char) → List (FciEntry R) → Prop where
  | nil : Entries io [] []
  | entry {l ls e es} : Shows io l e.p e.q e.r e.s e.val → e.p < 2147483648 → e.q < 2147483648 →
      e.r < 2147483648 → e.s < 2147483648 → Entries io ls es → Entries io (l :: ls) (e :: es)
  | other {l ls es} : (splitTokens l).length ≠ 5 → Entries io ls es → Entries io (l :: ls) es

/-- the last element satisfying `P`, if any -/
def lastSuch {α : Type} (P : α → Bool) (l : List α) : Option α := l.reverse.find? P

/-- Does the entry give the one-electron integral `h_pq` (orbitals counted from 0)? -/
def givesOne {R : Type} (p q : Nat) (e : FciEntry R) : Bool :=
  e.r == 0 && e.s == 0 &&
    ((e.p == p + 1 && e.q == q + 1) || (e.p == q + 1 && e.q == p + 1))

/-- Does the entry give the two-electron integral `(pq|rs)`, up to the eight permutations? -/
def givesTwo {R : Type} (p q r s : Nat) (e : FciEntry R) : Bool :=
  let e' := (e.p, e.q, e.r, e.s)
  let (p, q, r, s) := (p + 1, q + 1, r + 1, s + 1)
  e' == (p, q, r, s) || e' == (p, q, s, r) || e' == (q, p, r, s) || e' == (q, p, s, r) ||
  e' == (r, s, p, q) || e' == (s, r, p, q) || e' == (r, s, q, p) || e' == (s, r, q, p)

/-- Lines of the three standard shapes: `p q r s`, `p q 0 0`, `0 0 0 0`. -/
def Standard {R : Type} (e : FciEntry R) : Prop :=
  (0 < e.p ∧ 0 < e.q ∧ 0 < e.r ∧ 0 < e.s) ∨ (0 < e.p ∧ 0 < e.q ∧ e.r = 0 ∧ e.s = 0) ∨
  (e.p = 0 ∧ e.q = 0 ∧ e.r = 0 ∧ e.s = 0)

/-- The largest orbital index of a list of entries. -/
def maxIdx {R : Type} (es : List (FciEntry R)) : Nat :=
  (es.flatMap fun e => [e.p, e.q, e.r, e.s]).foldl max 0

end Macis.Spec

namespace Macis.Spec

/-- The `n` by `n` block at leading dimension `ld` is symmetric. -/
def Sym2 {R : Type} (n ld : Nat) (T : Nat → R) : Prop :=
  ∀ p q, p < n → q < n → T (p + q * ld) = T (q + p * ld)

/-- Eight-fold permutation symmetry of the `n^4` block, in chemists' notation:
`(pq|rs) = (qp|rs) = (pq|sr) = (rs|pq)`. -/
def Sym8 {R : Type} (n ld : Nat) (V : Nat → R) : Prop :=
  ∀ p q r s, p < n → q < n → r < n → s < n →
    V (addr4 ld p q r s) = V (addr4 ld q p r s) ∧ V (addr4 ld p q r s) = V (addr4 ld p q s r) ∧
    V (addr4 ld p q r s) = V (addr4 ld r s p q)

end Macis.Spec
