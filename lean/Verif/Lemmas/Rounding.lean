import Verif.Spec.Rounding
import Mathlib.Tactic.Linarith
import Mathlib.Tactic.Positivity
import Mathlib.Tactic.Ring
import Mathlib.Data.Real.Basic
/-! Sums in floating point arithmetic. -/
namespace Macis
open Spec

/-- `h` is what `k` roundings make of `H`, a sum of terms with absolute values adding up to `A` -/
def Near (u : ℝ) (k : Nat) (A h H : ℝ) : Prop := |h - H| ≤ ((1 + u) ^ k - 1) * A ∧ |H| ≤ A

variable {rnd : ℝ → ℝ} {u : ℝ}

theorem grow_nonneg (hu : 0 ≤ u) (k : Nat) : 0 ≤ (1 + u) ^ k - 1 := by
  have := one_le_pow₀ (n := k) (show (1 : ℝ) ≤ 1 + u by linarith)
  linarith

theorem Near.exact {A H : ℝ} (h : |H| ≤ A) : Near u 0 A H H := by
  refine ⟨?_, h⟩
  simp

theorem Near.mono (hu : 0 ≤ u) {k k' : Nat} {A A' h H : ℝ} (n : Near u k A h H) (hk : k ≤ k') (hA : A ≤ A') :
    Near u k' A' h H := by
  have h0 : 0 ≤ A := (abs_nonneg _).trans n.2
  have := pow_le_pow_right₀ (show (1 : ℝ) ≤ 1 + u by linarith) hk
  refine ⟨n.1.trans ?_, n.2.trans hA⟩
  exact mul_le_mul (by linarith) hA h0 (grow_nonneg hu k')

theorem Near.round (hr : RoundsTo rnd u) {k : Nat} {A h H : ℝ} (n : Near u k A h H) : Near u (k + 1) A (rnd h) H := by
  refine ⟨?_, n.2⟩
  have h0 := hr.nonneg
  have e := hr.err h
  have e1 : |h| ≤ |h - H| + |H| := by
    have := abs_add_le (h - H) H
    rwa [sub_add_cancel] at this
  have e2 : |rnd h - H| ≤ |rnd h - h| + |h - H| := by
    have := abs_add_le (rnd h - h) (h - H)
    rwa [sub_add_sub_cancel] at this
  have e3 : u * |h| ≤ u * (((1 + u) ^ k - 1) * A + A) :=
    mul_le_mul_of_nonneg_left (e1.trans (add_le_add n.1 n.2)) h0
  calc |rnd h - H| ≤ u * (((1 + u) ^ k - 1) * A + A) + ((1 + u) ^ k - 1) * A := by linarith [n.1]
    _ = ((1 + u) ^ (k + 1) - 1) * A := by ring

theorem Near.add' (hu : 0 ≤ u) {k : Nat} {A a h H x X : ℝ} (n : Near u k A h H) (m : Near u k a x X) :
    Near u k (A + a) (h + x) (H + X) := by
  refine ⟨?_, (abs_add_le _ _).trans (add_le_add n.2 m.2)⟩
  have := abs_add_le (h - H) (x - X)
  rw [show h + x - (H + X) = h - H + (x - X) by ring]
  linarith [n.1, m.1]

theorem Near.neg {k : Nat} {A h H : ℝ} (n : Near u k A h H) : Near u k A (-h) (-H) := by
  refine ⟨?_, by rw [abs_neg]; exact n.2⟩
  rw [show -h - -H = -(h - H) by ring, abs_neg]
  exact n.1

theorem Near.smul {k : Nat} {A h H : ℝ} (n : Near u k A h H) {c : ℝ} (hc : |c| ≤ 1) (hu : 0 ≤ u) :
    Near u k (|c| * A) (c * h) (c * H) := by
  refine ⟨?_, ?_⟩
  · rw [← mul_sub, abs_mul]
    calc |c| * |h - H| ≤ |c| * (((1 + u) ^ k - 1) * A) := mul_le_mul_of_nonneg_left n.1 (abs_nonneg _)
      _ = ((1 + u) ^ k - 1) * (|c| * A) := by ring
  · rw [abs_mul]
    exact mul_le_mul_of_nonneg_left n.2 (abs_nonneg _)

/-- a loop that adds up numbers -/
theorem Near.foldl {α : Type} (hr : RoundsTo rnd u) (f F : α → ℝ) (B : ℝ) (c : Nat) (l : List α)
    (hf : ∀ x ∈ l, Near u c B (f x) (F x)) : ∀ {k : Nat} {A h H : ℝ}, c ≤ k → Near u k A h H →
    Near u (k + l.length) (A + l.length * B) (l.foldl (fun h x => rnd (h + f x)) h) (H + (l.map F).sum) := by
  induction l with
  | nil => intro k A h H hk n; simpa using n
  | cons x l ih =>
    intro k A h H hk n
    have s := ((n.add' hr.nonneg ((hf x (by simp)).mono hr.nonneg hk le_rfl)).round hr)
    have := ih (fun y hy => hf y (by simp [hy])) (by omega) s
    rw [List.foldl_cons, List.map_cons, List.sum_cons]
    simp only [List.length_cons, Nat.cast_add, Nat.cast_one]
    rw [show k + (l.length + 1) = k + 1 + l.length by ring, ← add_assoc,
      show A + ((l.length : ℝ) + 1) * B = A + B + l.length * B by ring]
    exact this

/-- adding zeros does nothing -/
theorem foldl_skip {α : Type} (hi : Idempotent rnd) (f : α → ℝ) (P : α → Bool) (l : List α)
    (hz : ∀ x ∈ l, P x = false → f x = 0) : ∀ {h : ℝ}, rnd h = h →
    l.foldl (fun h x => rnd (h + f x)) h = (l.filter P).foldl (fun h x => rnd (h + f x)) h ∧
      rnd (l.foldl (fun h x => rnd (h + f x)) h) = l.foldl (fun h x => rnd (h + f x)) h := by
  induction l with
  | nil => intro h hh; exact ⟨rfl, hh⟩
  | cons x l ih =>
    intro h hh
    have ih' := fun {h : ℝ} (hh : rnd h = h) => ih (fun y hy => hz y (by simp [hy])) hh
    cases hp : P x with
    | true =>
      rw [List.filter_cons_of_pos hp, List.foldl_cons, List.foldl_cons]
      exact ih' (hi _)
    | false =>
      rw [List.filter_cons_of_neg (by simp [hp]), List.foldl_cons, hz x (by simp) hp, add_zero, hh]
      exact ih' hh

end Macis
