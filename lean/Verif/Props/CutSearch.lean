import Verif.Lemmas.CutSearch
/-! Property C152 for the determinant search. -/
namespace Macis
open Spec

variable {M : Nat}

/-- C152.  The determinant search on `n` orbitals reads no integral with an index `n` or above: with integrals that agree
below, the search from any core of determinants of these orbitals, with any coefficients, settings, reference energy and
sorting routines, returns the same determinants in the same order (or fails alike). -/
theorem C152_search {R : Type} [Field R] [LinearOrder R] {n : Nat} (hn : n ≤ M) {I J : Integrals R}
    (hT : ∀ p q, p < n → q < n → J.T p q = I.T p q)
    (hV : ∀ p q r s, p < n → q < n → r < n → s < n → J.V p q r s = I.V p q r s) (st : ContribSettings R) (E0 : R)
    (srt part : List (Contrib (2 * M) R) → List (Contrib (2 * M) R))
    (nth : Nat → List (Contrib (2 * M) R) → List (Contrib (2 * M) R)) (ndetsMax : Nat) {cdets : List (BitVec (2 * M))}
    (hc : ∀ s ∈ cdets, InSpace n s) (C : List R) :
    asciSearchSerial J st n E0 srt part nth ndetsMax cdets C = asciSearchSerial I st n E0 srt part nth ndetsMax cdets C :=
  asciSearchSerial_congr ⟨hT, hV⟩ hn st E0 srt part nth ndetsMax hc C

/-- integrals that differ only outside the orbitals searched, and a core in them -/
example : ∃ (I J : Integrals ℚ) (cdets : List (BitVec (2 * 3))), (∀ p q, p < 2 → q < 2 → J.T p q = I.T p q) ∧
    (∀ p q r s, p < 2 → q < 2 → r < 2 → s < 2 → J.V p q r s = I.V p q r s) ∧ J.T 2 2 ≠ I.T 2 2 ∧
    (∀ s ∈ cdets, InSpace 2 s) ∧ cdets ≠ [] :=
  ⟨⟨2, fun p q => if p = q then p else 1, fun _ _ _ _ => 1⟩, ⟨2, fun p q => if p = q then (if p = 2 then 7 else p) else 1, fun _ _ _ _ => 1⟩,
    [0b001001#6], by intro p q hp hq; by_cases h : p = q <;> simp [h]; omega, fun _ _ _ _ _ _ _ _ => rfl, by norm_num,
    by decide +kernel, by decide⟩

end Macis
