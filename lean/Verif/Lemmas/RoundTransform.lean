import Verif.Model.RoundTransform
import Verif.Lemmas.Transform
import Verif.Lemmas.Rounding
/-! Lemmas on the integral transformations in floating point arithmetic. -/
namespace Macis
open Spec

variable {rnd : ℝ → ℝ} {u : ℝ}

theorem Near.mulBy {k : Nat} {A h H : ℝ} (n : Near u k A h H) (c : ℝ) :
    Near u k (|c| * A) (c * h) (c * H) := by
  refine ⟨?_, ?_⟩
  · rw [← mul_sub, abs_mul]
    calc |c| * |h - H| ≤ |c| * (((1 + u) ^ k - 1) * A) := mul_le_mul_of_nonneg_left n.1 (abs_nonneg _)
      _ = ((1 + u) ^ k - 1) * (|c| * A) := by ring
  · rw [abs_mul]
    exact mul_le_mul_of_nonneg_left n.2 (abs_nonneg _)

/-- sums of inexact products -/
theorem Dot.near (hr : RoundsTo rnd u) {a b A F : Nat → ℝ} {c : Nat} {L : List Nat} {x : ℝ} (h : Dot rnd a b L x) :
    (∀ l ∈ L, Near u c (A l) (a l * b l) (F l)) → Near u (c + L.length) (L.map A).sum x (L.map F).sum := by
  have hu := hr.nonneg
  induction h with
  | nil =>
    intro _
    refine ⟨?_, ?_⟩ <;> simp
  | mul l =>
    intro hp
    simpa using (hp l (by simp)).round hr
  | fma l =>
    intro hp
    simpa using (hp l (by simp)).mono hu (Nat.le_succ c) le_rfl
  | @add L L' x y h1 h2 _ _ i1 i2 =>
    intro hp
    have l1 := List.length_pos_iff.2 h1
    have l2 := List.length_pos_iff.2 h2
    have n1 := i1 fun l hl => hp l (by simp [hl])
    have n2 := i2 fun l hl => hp l (by simp [hl])
    have m : c + max L.length L'.length + 1 ≤ c + (L ++ L').length := by
      rw [List.length_append]; omega
    rw [List.map_append, List.sum_append, List.map_append, List.sum_append]
    exact (((n1.mono hu (show _ ≤ c + max L.length L'.length by omega) le_rfl).add' hu
      (n2.mono hu (by omega) le_rfl)).round hr).mono hu m le_rfl
  | perm p _ ih =>
    intro hp
    have := ih fun l hl => hp l (p.mem_iff.1 hl)
    rwa [p.length_eq, (p.map A).sum_eq, (p.map F).sum_eq] at this

theorem sum_map_rangeR (f : Nat → ℝ) (k : Nat) : ((List.range k).map f).sum = ∑ l ∈ Finset.range k, f l := by
  rw [← List.sum_toFinset _ List.nodup_range]
  congr 1
  ext; simp

/-- an element of a product of inexact matrices: one factor is exact, the other (`h`, near `H`) is not -/
theorem Kernel.Sums.near {dot : Kernel} (hd : dot.Sums rnd) (hr : RoundsTo rnd u) (e i j k c : Nat) {a b A F : Nat → ℝ}
    (hp : ∀ l, l < k → Near u c (A l) (a l * b l) (F l)) :
    Near u (c + k) (∑ l ∈ Finset.range k, A l) (dot e i j a b k) (∑ l ∈ Finset.range k, F l) := by
  have := (hd e i j a b k).near hr (A := A) (F := F) (c := c) fun l hl => hp l (List.mem_range.1 hl)
  rwa [List.length_range, sum_map_rangeR, sum_map_rangeR] at this

/-- what a `gemm` call leaves in memory -/
theorem gemmF_spec (dot : Kernel) (c : Nat) (tA : Bool) (m n k : Nat) (A : Nat → ℝ) (lda : Nat)
    (B : Nat → ℝ) (ldb : Nat) (C : Nat → ℝ) (base ldc : Nat) (h : m ≤ ldc) :
    (∀ i j, i < m → j < n → gemmF dot c tA m n k A lda B ldb C base ldc (base + (i + j * ldc)) =
      dot c i j (fun l => if tA then A (l + i * lda) else A (i + l * lda)) (fun l => B (l + j * ldb)) k) ∧
    (∀ a, (∀ i j, i < m → j < n → a ≠ base + (i + j * ldc)) →
      gemmF dot c tA m n k A lda B ldb C base ldc a = C a) := by
  constructor
  · intro i j hi hj
    rw [gemmF]
    apply storeAll_const
    · intro w hw hwa
      obtain ⟨⟨a, b⟩, hx, rfl⟩ := List.mem_map.mp hw
      obtain ⟨h1, h2⟩ := mem_pairsMN.mp hx
      obtain ⟨rfl, rfl⟩ := addr2_inj h h1 hi (Nat.add_left_cancel hwa)
      rfl
    · exact ⟨_, List.mem_map.mpr ⟨(i, j), mem_pairsMN.mpr ⟨hi, hj⟩, rfl⟩, rfl⟩
  · intro a ha
    rw [gemmF]
    apply storeAll_none
    intro w hw hwa
    obtain ⟨⟨i, j⟩, hx, rfl⟩ := List.mem_map.mp hw
    obtain ⟨h1, h2⟩ := mem_pairsMN.mp hx
    exact ha i j h1 h2 hwa.symm

/-- a loop of `gemm` calls into consecutive blocks of size `m * n` -/
theorem gemmF_blocks (dot : Kernel) (c nb m n k : Nat) (A : Nat → Nat → ℝ) (lda : Nat)
    (B : Nat → ℝ) (ldb : Nat) (C : Nat → ℝ) :
    ∀ b i j, b < nb → i < m → j < n →
      (List.range nb).foldl (fun C b => gemmF dot (c + b) false m n k (A b) lda B ldb C (b * (m * n)) m) C
        (b * (m * n) + (i + j * m)) =
      dot (c + b) i j (fun l => A b (i + l * lda)) (fun l => B (l + j * ldb)) k := by
  induction nb with
  | zero => intro b i j hb; omega
  | succ nb ih =>
    intro b i j hb hi hj
    rw [List.range_succ, List.foldl_append, List.foldl_cons, List.foldl_nil]
    have sp := gemmF_spec dot (c + nb) false m n k (A nb) lda B ldb
      ((List.range nb).foldl (fun C b => gemmF dot (c + b) false m n k (A b) lda B ldb C (b * (m * n)) m) C)
      (nb * (m * n)) m (le_refl m)
    by_cases hbn : b = nb
    · subst hbn
      have := sp.1 i j hi hj
      simpa using this
    · rw [sp.2, ih b i j (by omega) hi hj]
      intro i' j' hi' hj' h
      have h1 : i + j * m < m * n := by
        have := Nat.mul_le_mul_right m (show j + 1 ≤ n from hj)
        rw [Nat.add_mul, Nat.mul_comm n m] at this; omega
      have h2 : (b + 1) * (m * n) ≤ nb * (m * n) := Nat.mul_le_mul_right _ (by omega)
      rw [Nat.add_mul] at h2; omega

/-- sums with a single term that is not zero -/
theorem Dot.single {a b : Nat → ℝ} {v : ℝ} {l0 : Nat} (r0 : rnd 0 = 0) (rv : rnd v = v) (h0 : a l0 * b l0 = v) {L : List Nat}
    {x : ℝ} (h : Dot rnd a b L x) : (∀ l ∈ L, l ≠ l0 → a l * b l = 0) → L.Nodup → x = if l0 ∈ L then v else 0 := by
  induction h with
  | nil => simp
  | mul l =>
    intro hz _
    by_cases e : l = l0
    · subst e; simp [h0, rv]
    · rw [hz l (by simp) e, r0, if_neg (by simpa using fun h => e h.symm)]
  | fma l =>
    intro hz _
    by_cases e : l = l0
    · subst e; simp [h0]
    · rw [hz l (by simp) e, if_neg (by simpa using fun h => e h.symm)]
  | @add L L' x y _ _ _ _ i1 i2 =>
    intro hz hn
    obtain ⟨n1, n2, d⟩ := List.nodup_append.1 hn
    rw [i1 (fun l hl => hz l (by simp [hl])) n1, i2 (fun l hl => hz l (by simp [hl])) n2]
    by_cases m1 : l0 ∈ L <;> by_cases m2 : l0 ∈ L'
    · exact absurd rfl (d _ m1 _ m2)
    all_goals simp [m1, m2, r0, rv]
  | perm p _ ih =>
    intro hz hn
    rw [ih (fun l hl => hz l (p.mem_iff.1 hl)) (p.nodup_iff.2 hn)]
    simp only [p.mem_iff]

/-- the left-to-right kernel is a kernel -/
theorem seqDot_dot (rnd : ℝ → ℝ) (a b : Nat → ℝ) (k : Nat) : Dot rnd a b (List.range k) (seqDot rnd a b k) := by
  induction k using Nat.twoStepInduction with
  | zero => exact .nil
  | one => exact .mul 0
  | more k _ ih =>
    rw [List.range_succ, seqDot]
    exact .add (by simp) (by simp) ih (.mul _)

end Macis
