import Verif.Model.Transform
import Verif.Lemmas.Fcidump
import Mathlib.Algebra.BigOperators.Ring.Finset
import Mathlib.Algebra.BigOperators.Intervals

/-! Lemmas on the integral transformations. -/
namespace Macis
open Spec

theorem mem_pairsMN {m n : Nat} {x : Nat × Nat} : x ∈ pairsMN m n ↔ x.1 < m ∧ x.2 < n := by
  obtain ⟨a, b⟩ := x
  simp only [pairsMN, List.mem_flatMap, List.mem_map, List.mem_range, Prod.mk.injEq]
  constructor
  · rintro ⟨i, hi, j, hj, rfl, rfl⟩; exact ⟨hi, hj⟩
  · rintro ⟨h1, h2⟩; exact ⟨a, h1, b, h2, rfl, rfl⟩

/-- what a `gemm` call leaves in memory -/
theorem gemm_spec {R : Type} [CommRing R] (tA : Bool) (m n k : Nat) (A : Nat → R) (lda : Nat)
    (B : Nat → R) (ldb : Nat) (C : Nat → R) (base ldc : Nat) (h : m ≤ ldc) :
    (∀ i j, i < m → j < n → gemm tA m n k A lda B ldb C base ldc (base + (i + j * ldc)) =
      ∑ l ∈ Finset.range k, (if tA then A (l + i * lda) else A (i + l * lda)) * B (l + j * ldb)) ∧
    (∀ a, (∀ i j, i < m → j < n → a ≠ base + (i + j * ldc)) →
      gemm tA m n k A lda B ldb C base ldc a = C a) := by
  constructor
  · intro i j hi hj
    rw [gemm]
    apply storeAll_const
    · intro w hw hwa
      obtain ⟨⟨a, b⟩, hx, rfl⟩ := List.mem_map.mp hw
      obtain ⟨h1, h2⟩ := mem_pairsMN.mp hx
      obtain ⟨rfl, rfl⟩ := addr2_inj h h1 hi (Nat.add_left_cancel hwa)
      rfl
    · exact ⟨_, List.mem_map.mpr ⟨(i, j), mem_pairsMN.mpr ⟨hi, hj⟩, rfl⟩, rfl⟩
  · intro a ha
    rw [gemm]
    apply storeAll_none
    intro w hw hwa
    obtain ⟨⟨i, j⟩, hx, rfl⟩ := List.mem_map.mp hw
    obtain ⟨h1, h2⟩ := mem_pairsMN.mp hx
    exact ha i j h1 h2 hwa.symm

/-- a loop of `gemm` calls into consecutive blocks of size `m * n` -/
theorem gemm_blocks {R : Type} [CommRing R] (nb m n k : Nat) (A : Nat → Nat → R) (lda : Nat)
    (B : Nat → R) (ldb : Nat) (C : Nat → R) :
    ∀ b i j, b < nb → i < m → j < n →
      (List.range nb).foldl (fun C b => gemm false m n k (A b) lda B ldb C (b * (m * n)) m) C
        (b * (m * n) + (i + j * m)) =
      ∑ l ∈ Finset.range k, A b (i + l * lda) * B (l + j * ldb) := by
  induction nb with
  | zero => intro b i j hb; omega
  | succ nb ih =>
    intro b i j hb hi hj
    rw [List.range_succ, List.foldl_append, List.foldl_cons, List.foldl_nil]
    have sp := gemm_spec false m n k (A nb) lda B ldb
      ((List.range nb).foldl (fun C b => gemm false m n k (A b) lda B ldb C (b * (m * n)) m) C)
      (nb * (m * n)) m (le_refl m)
    by_cases hbn : b = nb
    · subst hbn
      have := sp.1 i j hi hj
      simpa using this
    · rw [sp.2, ih b i j (by omega) hi hj]
      intro i' j' hi' hj' h
      have h1 : i + j * m < m * n := by
        have := Nat.mul_le_mul_right m (show j + 1 ≤ n from hj)
        rw [Nat.add_mul, Nat.mul_comm n m] at this; omega
      have h2 : (b + 1) * (m * n) ≤ nb * (m * n) := Nat.mul_le_mul_right _ (by omega)
      rw [Nat.add_mul] at h2; omega

end Macis
