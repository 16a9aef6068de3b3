import Mathlib.Analysis.Calculus.MeanValue
import Mathlib.Analysis.Calculus.IteratedDeriv.Lemmas
import Mathlib.Analysis.Calculus.Deriv.Pow
import Mathlib.Tactic.IntervalCases
import Mathlib.Tactic.Linarith
import Mathlib.Tactic.FieldSimp
/-! Error of the five-point difference formula. -/
namespace Macis

/-- a function vanishing at 0 whose derivative is at most `c t^n` -/
theorem le_of_deriv_pow {g g' : ℝ → ℝ} {c h : ℝ} {n : Nat} (h0 : g 0 = 0)
    (hd : ∀ t, 0 ≤ t → t ≤ h → HasDerivAt g (g' t) t) (hb : ∀ t, 0 ≤ t → t ≤ h → |g' t| ≤ c * t ^ n) :
    ∀ t, 0 ≤ t → t ≤ h → |g t| ≤ c / (n + 1) * t ^ (n + 1) := by
  intro t ht hth
  have hc : ((n : ℝ) + 1) ≠ 0 := by positivity
  have key := image_norm_le_of_norm_deriv_right_le_deriv_boundary (f := g) (f' := g') (a := 0) (b := h)
    (B := fun t => c / (n + 1) * t ^ (n + 1)) (B' := fun t => c * t ^ n)
    (fun x hx => (hd x hx.1 hx.2).continuousAt.continuousWithinAt)
    (fun x hx => (hd x hx.1 hx.2.le).hasDerivWithinAt)
    (by simp [h0])
    (fun x => by
      have := ((hasDerivAt_pow (n + 1) x).const_mul (c / (n + 1)))
      refine this.congr_deriv ?_
      push_cast
      field_simp)
    (fun x hx => hb x hx.1 hx.2.le)
  exact key ⟨ht, hth⟩

theorem hasDerivAt_iter {f : ℝ → ℝ} {n : Nat} (hf : ContDiff ℝ n f) {k : Nat} (hk : k < n) (t : ℝ) :
    HasDerivAt (iteratedDeriv k f) (iteratedDeriv (k + 1) f t) t := by
  rw [iteratedDeriv_succ]
  exact (hf.differentiable_iteratedDeriv k (by exact_mod_cast hk) t).hasDerivAt

/-- the five-point formula for the first derivative -/
noncomputable def fivePoint (f : ℝ → ℝ) (h : ℝ) : ℝ :=
  (f (-(2 * h)) - f (2 * h) + 8 * (f h - f (-h))) / (12 * h)

theorem fivePoint_error {f : ℝ → ℝ} (hf : ContDiff ℝ 5 f) {h B : ℝ} (hh : 0 < h)
    (hB : ∀ t, |t| ≤ 2 * h → |iteratedDeriv 5 f t| ≤ B) :
    |fivePoint f h - deriv f 0| ≤ B * h ^ 4 / 18 := by
  set D : Nat → ℝ → ℝ := fun k => iteratedDeriv k f with hD
  have hd : ∀ k < 5, ∀ t, HasDerivAt (D k) (D (k + 1) t) t := fun k hk t => hasDerivAt_iter (n := 5) hf hk t
  -- compositions with multiples
  have hc : ∀ (m : ℝ) k, k < 5 → ∀ t, HasDerivAt (fun t => D k (m * t)) (m * D (k + 1) (m * t)) t := by
    intro m k hk t
    have h1 : HasDerivAt (fun t : ℝ => m * t) m t := by
      simpa using (hasDerivAt_id t).const_mul m
    have h2 := HasDerivAt.comp t (hd k hk (m * t)) h1
    refine h2.congr_deriv ?_
    ring
  let g : Nat → ℝ → ℝ := fun k t => 8 * (D k (1 * t) - (-1) ^ k * D k (-1 * t)) -
    2 ^ k * (D k (2 * t) - (-1) ^ k * D k (-2 * t)) - (if k = 0 then 12 * t * D 1 0 else if k = 1 then 12 * D 1 0 else 0)
  have hg : ∀ k < 5, ∀ t, HasDerivAt (g k) (g (k + 1) t) t := by
    intro k hk t
    have e1 := ((hc 1 k hk t).sub ((hc (-1) k hk t).const_mul ((-1) ^ k))).const_mul 8
    have e2 := ((hc 2 k hk t).sub ((hc (-2) k hk t).const_mul ((-1) ^ k))).const_mul (2 ^ k)
    have e3 : HasDerivAt (fun t : ℝ => if k = 0 then 12 * t * D 1 0 else if k = 1 then 12 * D 1 0 else 0)
        (if k = 0 then 12 * D 1 0 else 0) t := by
      by_cases h0 : k = 0
      · simp only [h0, if_true]
        have := ((hasDerivAt_id t).const_mul 12).mul_const (D 1 0)
        simpa using this
      · simp only [h0, if_false]
        exact hasDerivAt_const _ _
    refine ((e1.sub e2).sub e3).congr_deriv ?_
    by_cases h0 : k = 0
    · subst h0
      simp only [g, pow_zero, pow_one, if_true, Nat.zero_add, one_ne_zero, if_false]
      ring
    · have h1 : k + 1 ≠ 0 := by omega
      have h2 : k + 1 ≠ 1 := by omega
      simp only [g, h0, if_false, h1, h2]
      ring
  have hz : ∀ k < 5, g k 0 = 0 := by
    intro k hk
    interval_cases k <;> simp [g] <;> ring
  have b5 : ∀ t, 0 ≤ t → t ≤ h → |g 5 t| ≤ 80 * B * t ^ 0 := by
    intro t h0 h1
    have t1 := hB (1 * t) (by rw [abs_le]; constructor <;> linarith)
    have t2 := hB (-1 * t) (by rw [abs_le]; constructor <;> linarith)
    have t3 := hB (2 * t) (by rw [abs_le]; constructor <;> linarith)
    have t4 := hB (-2 * t) (by rw [abs_le]; constructor <;> linarith)
    simp only [g, hD]
    rw [abs_le] at t1 t2 t3 t4 ⊢
    norm_num at t1 t2 t3 t4 ⊢
    constructor <;> linarith [t1.1, t1.2, t2.1, t2.2, t3.1, t3.2, t4.1, t4.2]
  have b4 := le_of_deriv_pow (hz 4 (by omega)) (fun t _ _ => hg 4 (by omega) t) b5
  have b3 := le_of_deriv_pow (hz 3 (by omega)) (fun t _ _ => hg 3 (by omega) t) b4
  have b2 := le_of_deriv_pow (hz 2 (by omega)) (fun t _ _ => hg 2 (by omega) t) b3
  have b1 := le_of_deriv_pow (hz 1 (by omega)) (fun t _ _ => hg 1 (by omega) t) b2
  have b0 := le_of_deriv_pow (hz 0 (by omega)) (fun t _ _ => hg 0 (by omega) t) b1 h hh.le (le_refl h)
  have e : fivePoint f h - deriv f 0 = g 0 h / (12 * h) := by
    simp only [g, hD, iteratedDeriv_zero, iteratedDeriv_one, fivePoint]
    norm_num
    field_simp
    ring
  rw [e, abs_div, abs_of_pos (show (0 : ℝ) < 12 * h by linarith), div_le_iff₀ (by linarith)]
  refine b0.trans (le_of_eq ?_)
  push_cast
  ring

/-- solutions of a linear system with constant coefficients are smooth -/
theorem contDiff_of_linear {ι : Type} (s : Finset ι) (M : ι → ι → ℝ) (u : ℝ → ι → ℝ)
    (hu : ∀ p ∈ s, ∀ t, HasDerivAt (fun t => u t p) (∑ o ∈ s, M p o * u t o) t) (n : Nat) :
    ∀ p ∈ s, ContDiff ℝ n (fun t => u t p) := by
  induction n with
  | zero =>
    intro p hp
    exact contDiff_zero.2 (continuous_iff_continuousAt.2 fun t => (hu p hp t).continuousAt)
  | succ n ih =>
    intro p hp
    have : deriv (fun t => u t p) = fun t => ∑ o ∈ s, M p o * u t o := by
      funext t; exact (hu p hp t).deriv
    push_cast
    rw [contDiff_succ_iff_deriv]
    refine ⟨fun t => (hu p hp t).differentiableAt, by simp, ?_⟩
    rw [this]
    exact ContDiff.sum fun o ho => contDiff_const.mul (ih o ho)

end Macis
