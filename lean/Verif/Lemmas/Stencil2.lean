import Verif.Lemmas.Stencil
import Mathlib.Analysis.Calculus.FDeriv.Symmetric
import Mathlib.Analysis.Calculus.ContDiff.Operations
/-! The product of two five-point formulas, and mixed derivatives. -/
namespace Macis
open scoped ContDiff

/-- partial derivatives of smooth functions are smooth -/
theorem smooth_dx {F : ℝ → ℝ → ℝ} (hF : ContDiff ℝ ∞ fun v : ℝ × ℝ => F v.1 v.2) :
    ContDiff ℝ ∞ fun v : ℝ × ℝ => deriv (fun x => F x v.2) v.1 := by
  have e : (fun v : ℝ × ℝ => deriv (fun x => F x v.2) v.1) =
      fun v => fderiv ℝ (fun v : ℝ × ℝ => F v.1 v.2) v (1, 0) := by
    funext v
    have h1 : HasDerivAt (fun x : ℝ => ((x, v.2) : ℝ × ℝ)) (1, 0) v.1 :=
      (hasDerivAt_id v.1).prodMk (hasDerivAt_const v.1 v.2)
    have h2 : HasFDerivAt (fun v : ℝ × ℝ => F v.1 v.2) (fderiv ℝ (fun v : ℝ × ℝ => F v.1 v.2) v) (v.1, v.2) :=
      (hF.differentiable (by simp) v).hasFDerivAt
    exact (h2.comp_hasDerivAt v.1 h1).deriv
  rw [e]
  exact (hF.fderiv_right (m := ∞) (by simp)).clm_apply contDiff_const

theorem smooth_dx_iter {F : ℝ → ℝ → ℝ} (hF : ContDiff ℝ ∞ fun v : ℝ × ℝ => F v.1 v.2) (n : Nat) :
    ContDiff ℝ ∞ fun v : ℝ × ℝ => iteratedDeriv n (fun x => F x v.2) v.1 := by
  induction n with
  | zero => simpa using hF
  | succ n ih =>
    simp only [iteratedDeriv_succ]
    exact smooth_dx (F := fun x y => iteratedDeriv n (fun x => F x y) x) ih

theorem smooth_left {F : ℝ → ℝ → ℝ} (hF : ContDiff ℝ ∞ fun v : ℝ × ℝ => F v.1 v.2) (y : ℝ) :
    ContDiff ℝ ∞ fun x => F x y :=
  hF.comp (contDiff_id.prodMk contDiff_const)

theorem smooth_right {F : ℝ → ℝ → ℝ} (hF : ContDiff ℝ ∞ fun v : ℝ × ℝ => F v.1 v.2) (x : ℝ) :
    ContDiff ℝ ∞ fun y => F x y :=
  hF.comp (contDiff_const.prodMk contDiff_id)

theorem fivePoint_le {g : ℝ → ℝ} (hg : Differentiable ℝ g) {h B : ℝ} (hh : 0 < h)
    (hB : ∀ t, |t| ≤ 2 * h → |deriv g t| ≤ B) : |fivePoint g h| ≤ 5 / 3 * B := by
  have mv : ∀ s, 0 < s → s ≤ 2 * h → |g s - g (-s)| ≤ B * (2 * s) := by
    intro s hs hsh
    have := Convex.norm_image_sub_le_of_norm_deriv_le (f := g) (s := Set.Icc (-s) s) (C := B)
      (x := -s) (y := s)
      (fun x _ => hg x) (fun x hx => hB x (abs_le.2 ⟨by linarith [hx.1], by linarith [hx.2]⟩))
      (convex_Icc _ _) ⟨le_refl _, by linarith⟩ ⟨by linarith, le_refl _⟩
    rw [Real.norm_eq_abs, Real.norm_eq_abs] at this
    rwa [show s - -s = 2 * s by ring, abs_of_pos (by linarith : (0 : ℝ) < 2 * s)] at this
  have m1 := mv h hh (by linarith)
  have m2 := mv (2 * h) (by linarith) (le_refl _)
  rw [fivePoint, abs_div, abs_of_pos (by linarith : (0 : ℝ) < 12 * h), div_le_iff₀ (by linarith)]
  rw [abs_le] at m1 m2 ⊢
  constructor <;> nlinarith [m1.1, m1.2, m2.1, m2.2]

theorem fivePoint2_error {F : ℝ → ℝ → ℝ} (hF : ContDiff ℝ ∞ fun v : ℝ × ℝ => F v.1 v.2) {h B1 B2 : ℝ}
    (hh : 0 < h)
    (hB1 : ∀ x y, |x| ≤ 2 * h → |y| ≤ 2 * h → |deriv (fun y => iteratedDeriv 5 (fun x => F x y) x) y| ≤ B1)
    (hB2 : ∀ y, |y| ≤ 2 * h → |iteratedDeriv 5 (fun y => deriv (fun x => F x y) 0) y| ≤ B2) :
    |fivePoint (fun x => fivePoint (F x) h) h - deriv (fun y => deriv (fun x => F x y) 0) 0| ≤
      (5 / 3 * B1 + B2) * h ^ 4 / 18 := by
  have sm : ∀ y, ContDiff ℝ 5 fun x => F x y := fun y => contDiff_infty.1 (smooth_left hF y) 5
  -- the inner formula commutes with derivatives in x
  have hit : ∀ n ≤ 5, iteratedDeriv n (fun x => fivePoint (F x) h) =
      fun x => fivePoint (fun y => iteratedDeriv n (fun x => F x y) x) h := by
    intro n hn
    induction n with
    | zero => simp
    | succ n ih =>
      rw [iteratedDeriv_succ, ih (by omega)]
      funext x
      have d : ∀ y, HasDerivAt (fun x => iteratedDeriv n (fun x => F x y) x)
          (iteratedDeriv (n + 1) (fun x => F x y) x) x :=
        fun y => hasDerivAt_iter (n := 5) (sm y) (by omega) x
      exact ((((d _).sub (d _)).add (((d _).sub (d _)).const_mul 8)).div_const _).deriv
  have c5 : ContDiff ℝ 5 fun x => fivePoint (F x) h :=
    (((sm _).sub (sm _)).add (contDiff_const.mul ((sm _).sub (sm _)))).div_const _
  have b1 : ∀ t, |t| ≤ 2 * h → |iteratedDeriv 5 (fun x => fivePoint (F x) h) t| ≤ 5 / 3 * B1 := by
    intro t ht
    rw [hit 5 (le_refl 5)]
    exact fivePoint_le (fun y => ((smooth_right (F := fun x y => iteratedDeriv 5 (fun x => F x y) x) (smooth_dx_iter hF 5) t).differentiable (by simp)) y) hh
      fun y hy => hB1 t y ht hy
  have e1 := fivePoint_error c5 hh b1
  have hd0 : deriv (fun x => fivePoint (F x) h) 0 = fivePoint (fun y => deriv (fun x => F x y) 0) h := by
    have := congrFun (hit 1 (by omega)) 0
    simpa only [iteratedDeriv_one] using this
  rw [hd0] at e1
  have c0 : ContDiff ℝ 5 fun y => deriv (fun x => F x y) 0 :=
    contDiff_infty.1 (smooth_right (F := fun x y => deriv (fun x => F x y) x) (smooth_dx hF) 0) 5
  have e2 := fivePoint_error c0 hh hB2
  rw [abs_le] at e1 e2 ⊢
  constructor <;> linarith [e1.1, e1.2, e2.1, e2.2]

section lines
variable {E : Type} [NormedAddCommGroup E] [NormedSpace ℝ E] {G : E → ℝ}

theorem line_deriv (v : E) (t : ℝ) : HasDerivAt (fun t : ℝ => t • v) v t := by
  simpa using (hasDerivAt_id t).smul_const v

theorem deriv_line (hG : ContDiff ℝ ∞ G) (v : E) :
    deriv (fun t : ℝ => G (t • v)) = fun t => fderiv ℝ G (t • v) v := by
  funext t
  exact ((hG.differentiable (by simp) _).hasFDerivAt.comp_hasDerivAt t (line_deriv v t)).deriv

theorem deriv_line2 (hG : ContDiff ℝ ∞ G) (v w : E) :
    HasDerivAt (fun t : ℝ => fderiv ℝ G (t • w) v) (fderiv ℝ (fderiv ℝ G) 0 w v) 0 := by
  have sG : ContDiff ℝ ∞ (fderiv ℝ G) := hG.fderiv_right (by simp)
  have h0 : HasFDerivAt (fderiv ℝ G) (fderiv ℝ (fderiv ℝ G) 0) ((0 : ℝ) • w) := by
    rw [zero_smul]; exact (sG.differentiable (by simp) 0).hasFDerivAt
  have h1 := h0.comp_hasDerivAt 0 (line_deriv w 0)
  have h2 := h1.clm_apply (hasDerivAt_const (0 : ℝ) v)
  refine h2.congr_deriv ?_
  simp only [map_zero, add_zero]

theorem snd_symm (hG : ContDiff ℝ ∞ G) (v w : E) :
    fderiv ℝ (fderiv ℝ G) 0 v w = fderiv ℝ (fderiv ℝ G) 0 w v :=
  ((contDiff_infty.1 hG 2).contDiffAt (x := 0)).isSymmSndFDerivAt (by simp) v w

theorem polar (hG : ContDiff ℝ ∞ G) (v w : E) (q : E → ℝ)
    (hq : ∀ u, HasDerivAt (deriv fun t : ℝ => G (t • u)) (q u) 0) :
    fderiv ℝ (fderiv ℝ G) 0 w v = (q (v + w) - q v - q w) / 2 := by
  have qv : ∀ u, q u = fderiv ℝ (fderiv ℝ G) 0 u u := by
    intro u
    have := deriv_line2 hG u u
    rw [← deriv_line hG u] at this
    exact (hq u).unique this
  rw [qv, qv, qv]
  simp only [map_add, ContinuousLinearMap.add_apply]
  rw [snd_symm hG v w]
  ring

end lines

/-- the mixed second derivative from second derivatives along lines -/
theorem mixed_polar {F : ℝ → ℝ → ℝ} (hF : ContDiff ℝ ∞ fun v : ℝ × ℝ => F v.1 v.2) (q : ℝ → ℝ → ℝ)
    (hq : ∀ x y, HasDerivAt (deriv fun t => F (t * x) (t * y)) (q x y) 0) :
    deriv (fun y => deriv (fun x => F x y) 0) 0 = (q 1 1 - q 1 0 - q 0 1) / 2 := by
  have hp := polar hF ((1, 0) : ℝ × ℝ) (0, 1) (fun v => q v.1 v.2) (fun u => hq u.1 u.2)
  simp only [Prod.mk_add_mk, zero_add, add_zero] at hp
  rw [← hp]
  have e : (fun y => deriv (fun x => F x y) 0) =
      fun t : ℝ => fderiv ℝ (fun v : ℝ × ℝ => F v.1 v.2) (t • ((0, 1) : ℝ × ℝ)) (1, 0) := by
    funext y
    have h1 : HasDerivAt (fun x : ℝ => ((x, y) : ℝ × ℝ)) (1, 0) 0 :=
      (hasDerivAt_id (0 : ℝ)).prodMk (hasDerivAt_const (0 : ℝ) y)
    have h2 := ((hF.differentiable (by simp) (0, y)).hasFDerivAt).comp_hasDerivAt 0 h1
    refine h2.deriv.trans ?_
    rw [Prod.smul_mk, smul_zero, smul_eq_mul, mul_one]
  rw [e]
  exact (deriv_line2 hF _ _).deriv

end Macis
