import Verif.Spec.Rounding
import Mathlib.Data.Int.Log
import Mathlib.Data.Sign.Basic
import Mathlib.Algebra.Order.Archimedean.Real.Basic
import Mathlib.Algebra.Order.Field.Power
import Mathlib.Tactic.Linarith
import Mathlib.Tactic.Positivity
import Mathlib.Tactic.NormNum
/-! An example of a rounding: truncation to a fixed number of binary digits. -/
namespace Macis
open Spec

/-- truncation to `p` binary digits after the leading one (for `p = 52` this is `double` rounded towards zero) -/
noncomputable def chop (p : Nat) (x : ℝ) : ℝ :=
  SignType.sign x * (⌊|x| / (2 : ℝ) ^ (Int.log 2 |x| - p)⌋₊ * (2 : ℝ) ^ (Int.log 2 |x| - p))

theorem chop_zero (p : Nat) : chop p 0 = 0 := by simp [chop]

theorem chop_abs (p : Nat) {x : ℝ} (hx : x ≠ 0) :
    |chop p x| = ⌊|x| / (2 : ℝ) ^ (Int.log 2 |x| - p)⌋₊ * (2 : ℝ) ^ (Int.log 2 |x| - p) ∧
      (2 : ℝ) ^ Int.log 2 |x| ≤ |chop p x| ∧ |chop p x| ≤ |x| ∧
      |x| - |chop p x| ≤ (2 : ℝ) ^ (Int.log 2 |x| - p) := by
  have hp : 0 < |x| := abs_pos.2 hx
  have hw : (0 : ℝ) < (2 : ℝ) ^ (Int.log 2 |x| - p) := by positivity
  have e : |chop p x| = ⌊|x| / (2 : ℝ) ^ (Int.log 2 |x| - p)⌋₊ * (2 : ℝ) ^ (Int.log 2 |x| - p) := by
    unfold chop
    rw [abs_mul, abs_of_nonneg (a := _ * _) (by positivity)]
    rcases lt_or_gt_of_ne hx with h | h
    · simp [sign_neg h]
    · simp [sign_pos h]
  have lo := Int.zpow_log_le_self (b := 2) (by norm_num) hp
  push_cast at lo
  refine ⟨e, ?_, ?_, ?_⟩
  · rw [e]
    have : (2 : ℝ) ^ Int.log 2 |x| = ((2 ^ p : Nat) : ℝ) * (2 : ℝ) ^ (Int.log 2 |x| - p) := by
      push_cast
      rw [← zpow_natCast, ← zpow_add₀ (by norm_num)]
      congr 1
      ring
    rw [this]
    refine mul_le_mul_of_nonneg_right ?_ hw.le
    rw [Nat.cast_le]
    apply Nat.le_floor
    rw [le_div_iff₀ hw, ← this]
    exact lo
  · rw [e, ← le_div_iff₀ hw]
    exact Nat.floor_le (by positivity)
  · rw [e]
    have := Nat.lt_floor_add_one (|x| / (2 : ℝ) ^ (Int.log 2 |x| - p))
    rw [div_lt_iff₀ hw] at this
    linarith

theorem chop_eq (p : Nat) (x : ℝ) : chop p x = SignType.sign x * |chop p x| := by
  by_cases hx : x = 0
  · simp [hx, chop_zero]
  · rw [(chop_abs p hx).1]; rfl

theorem chop_rounds (p : Nat) : RoundsTo (chop p) ((2 : ℝ) ^ (-(p : ℤ))) := by
  refine ⟨by positivity, fun x => ?_⟩
  by_cases hx : x = 0
  · simp [hx, chop_zero]
  obtain ⟨-, -, h3, h4⟩ := chop_abs p hx
  have lo := Int.zpow_log_le_self (b := 2) (by norm_num) (abs_pos.2 hx)
  push_cast at lo
  have e : |chop p x - x| = |x| - |chop p x| := by
    have hs : x = SignType.sign x * |x| := (sign_mul_abs x).symm
    have : chop p x - x = SignType.sign x * (|chop p x| - |x|) := by
      rw [mul_sub, ← chop_eq, ← hs]
    rw [this, abs_mul, abs_sub_comm, abs_of_nonneg (a := |x| - _) (by linarith)]
    rcases lt_or_gt_of_ne hx with h | h
    · simp [sign_neg h]
    · simp [sign_pos h]
  rw [e]
  refine h4.trans ?_
  rw [sub_eq_add_neg, zpow_add₀ (by norm_num), mul_comm]
  exact mul_le_mul_of_nonneg_left lo (by positivity)

theorem chop_idem (p : Nat) : Idempotent (chop p) := by
  intro x
  by_cases hx : x = 0
  · simp [hx, chop_zero]
  obtain ⟨h1, h2, h3, -⟩ := chop_abs p hx
  have hpos : 0 < |chop p x| := lt_of_lt_of_le (by positivity) h2
  have hl : Int.log 2 |chop p x| = Int.log 2 |x| := by
    apply le_antisymm (Int.log_mono_right hpos h3)
    rw [← Int.zpow_le_iff_le_log (by norm_num) hpos]
    exact_mod_cast h2
  have hsg : SignType.sign (chop p x) = SignType.sign x := by
    rw [chop_eq p x]
    rcases lt_or_gt_of_ne hx with h | h
    · rw [sign_neg h]
      simp [hpos]
    · rw [sign_pos h]
      simp [hpos]
  have hw : (0 : ℝ) < (2 : ℝ) ^ (Int.log 2 |x| - p) := by positivity
  conv_lhs => rw [chop, hsg, hl, h1, mul_div_cancel_right₀ _ hw.ne', Nat.floor_natCast]
  rfl

theorem chop_neg_one (p : Nat) : chop p (-1) = -1 := by
  unfold chop
  rw [abs_neg, abs_one, Int.log_one_right, zero_sub, zpow_neg, zpow_natCast, one_div, inv_inv,
    show ((2 : ℝ) ^ p) = ((2 ^ p : Nat) : ℝ) by push_cast; rfl, Nat.floor_natCast, mul_inv_cancel₀ (by positivity),
    sign_neg (by norm_num)]
  simp

/-- rounding does change numbers -/
theorem chop_third : chop 52 (1 / 3) ≠ 1 / 3 := by
  intro h
  have hl : Int.log 2 |(1 / 3 : ℝ)| = -2 := by
    apply le_antisymm
    · have := (Int.lt_zpow_iff_log_lt (R := ℝ) (b := 2) (by norm_num) (x := -1) (r := |1 / 3|) (by norm_num)).1
        (by norm_num [abs_of_pos])
      omega
    · rw [← Int.zpow_le_iff_le_log (by norm_num) (by norm_num)]
      norm_num [abs_of_pos]
  have e := (chop_abs 52 (x := 1 / 3) (by norm_num)).1
  rw [h, hl] at e
  generalize ⌊|(1 / 3 : ℝ)| / (2 : ℝ) ^ ((-2 : ℤ) - (52 : Nat))⌋₊ = k at e
  rw [abs_of_pos (by norm_num), show ((-2 : ℤ) - (52 : Nat)) = -(54 : ℤ) by norm_num, zpow_neg,
    show ((2 : ℝ) ^ (54 : ℤ)) = ((2 ^ 54 : Nat) : ℝ) by norm_num] at e
  have : ((2 ^ 54 : Nat) : ℝ) = ((3 * k : Nat) : ℝ) := by
    field_simp at e
    rw [e]
    push_cast
    ring
  rw [Nat.cast_inj] at this
  omega

end Macis
