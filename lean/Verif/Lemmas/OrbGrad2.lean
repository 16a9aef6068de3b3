import Verif.Lemmas.OrbGrad
import Verif.Model.OrbGrad
import Verif.Props.OrbRot
import Verif.Props.Fock
import Verif.Props.Transform
import Mathlib.Analysis.SpecialFunctions.Exponential
import Mathlib.Analysis.Calculus.Deriv.Mul
import Mathlib.Analysis.Calculus.Deriv.Comp
import Mathlib.Topology.Algebra.Module.FiniteDimension
import Mathlib.Analysis.Calculus.Deriv.Add
/-! Rotated integrals and their derivatives; sums over packed rotations. -/
namespace Macis
open Spec Finset
variable {R : Type} [Field R]

/-- a sum over the packed vector is a sum over pairs of orbitals of different kinds -/
theorem packed_sum (ni na nv : Nat) (a : Nat → R) (φ : Nat → Nat → R)
    (h : ∀ p q, p < ni + na + nv → orbKind ni na q < orbKind ni na p → a (rotPos ni na nv p q) = φ p q) :
    ∑ m ∈ range (nRot ni na nv), a m =
      ∑ p ∈ range (ni + na + nv), ∑ q ∈ range (ni + na + nv),
        if orbKind ni na q < orbKind ni na p then φ p q else 0 := by
  rw [← Finset.sum_product' (f := fun p q => if orbKind ni na q < orbKind ni na p then φ p q else 0),
    ← Finset.sum_filter]
  obtain ⟨h1, h2, h3⟩ := C40_positions ni na nv
  symm
  apply Finset.sum_bij (fun x _ => rotPos ni na nv x.1 x.2)
  · intro x hx
    simp only [mem_filter, mem_product, mem_range] at hx ⊢
    exact h1 _ _ hx.1.1 hx.2
  · intro x hx y hy e
    simp only [mem_filter, mem_product, mem_range] at hx hy
    obtain ⟨e1, e2⟩ := h2 _ _ _ _ hx.1.1 hx.2 hy.1.1 hy.2 e
    exact Prod.ext e1 e2
  · intro m hm
    rw [mem_range] at hm
    obtain ⟨p, q, hp, hk, e⟩ := h3 m hm
    have hq : q < ni + na + nv := by
      rcases kind_cases hp hk with ⟨a, i, ha, hi, rfl, rfl⟩ | ⟨a, x, ha, hx, rfl, rfl⟩ |
        ⟨x, i, hx, hi, rfl, rfl⟩ <;> omega
    exact ⟨(p, q), by simp only [mem_filter, mem_product, mem_range]; exact ⟨⟨hp, hq⟩, hk⟩, e.symm⟩
  · intro x hx
    simp only [mem_filter, mem_product, mem_range] at hx
    exact (h _ _ hx.1.1 hx.2).symm

/-- contraction with an antisymmetric matrix that couples only orbitals of different kinds -/
theorem antisym_dot {n : Nat} (kind : Nat → Nat) (K F : Nat → Nat → R)
    (anti : ∀ p q, p < n → q < n → K p q = -K q p)
    (same : ∀ p q, p < n → q < n → kind p = kind q → K p q = 0) :
    ∑ p ∈ range n, ∑ o ∈ range n, K p o * F p o =
      ∑ p ∈ range n, ∑ o ∈ range n, if kind o < kind p then K p o * (F p o - F o p) else 0 := by
  have a : ∑ p ∈ range n, ∑ o ∈ range n, K p o * F p o =
      (∑ p ∈ range n, ∑ o ∈ range n, if kind o < kind p then K p o * F p o else 0) +
      ∑ p ∈ range n, ∑ o ∈ range n, if kind p < kind o then K p o * F p o else 0 := by
    simp only [← Finset.sum_add_distrib]
    apply Finset.sum_congr rfl; intro p hp
    apply Finset.sum_congr rfl; intro o ho
    rw [mem_range] at hp ho
    rcases Nat.lt_trichotomy (kind o) (kind p) with h | h | h
    · rw [if_pos h, if_neg (by omega), add_zero]
    · rw [same p o hp ho h.symm, if_neg (by omega), if_neg (by omega)]; ring
    · rw [if_neg (by omega), if_pos h, zero_add]
  have b : (∑ p ∈ range n, ∑ o ∈ range n, if kind p < kind o then K p o * F p o else 0) =
      ∑ p ∈ range n, ∑ o ∈ range n, if kind o < kind p then -(K p o * F o p) else 0 := by
    rw [Finset.sum_comm]
    apply Finset.sum_congr rfl; intro p hp
    apply Finset.sum_congr rfl; intro o ho
    rw [mem_range] at hp ho
    split
    · rw [anti o p ho hp]; ring
    · rfl
  rw [a, b, ← Finset.sum_add_distrib]
  apply Finset.sum_congr rfl; intro p _
  rw [← Finset.sum_add_distrib]
  apply Finset.sum_congr rfl; intro o _
  split
  · ring
  · ring

/-- the unpacked generator -/
theorem unpacked (ni na nv : Nat) (Klin : Nat → R) :
    let K := asMat (linearOrbRotToMatrix ni na nv Klin (fun _ => 0) (ni + na + nv)) (ni + na + nv)
    (∀ p q, p < ni + na + nv → q < ni + na + nv → K p q = -K q p) ∧
    (∀ p q, p < ni + na + nv → q < ni + na + nv → orbKind ni na p = orbKind ni na q → K p q = 0) ∧
    (∀ p q, p < ni + na + nv → orbKind ni na q < orbKind ni na p →
      K p q = Klin (rotPos ni na nv p q)) := by
  intro K
  obtain ⟨h1, h2⟩ := C40_unpack ni na nv (ni + na + nv) (le_refl _) Klin (fun _ => 0)
  refine ⟨?_, ?_, fun p q hp hk => (h1 p q hp hk).1⟩
  · exact C40_antisymmetric ni na nv (ni + na + nv) (le_refl _) Klin (fun _ => 0)
      (fun _ _ _ _ => by simp)
  · intro p q hp hq e
    apply h2
    intro p' q' hp' hk
    have hq' : q' < ni + na + nv := by
      rcases kind_cases hp' hk with ⟨a, i, ha, hi, rfl, rfl⟩ | ⟨a, x, ha, hx, rfl, rfl⟩ |
        ⟨x, i, hx, hi, rfl, rfl⟩ <;> omega
    constructor
    · intro e'
      obtain ⟨rfl, rfl⟩ := addr2_inj (le_refl _) hp hp' e'
      omega
    · intro e'
      obtain ⟨rfl, rfl⟩ := addr2_inj (le_refl _) hp hq' e'
      omega

/-- a packed gradient times packed parameters -/
theorem grad_dot (ni na nv ldf : Nat) (F G Klin : Nat → R) :
    ∑ m ∈ range (nRot ni na nv), fockToLinearOrbGrad ni na nv F ldf G m * Klin m =
      2 * ∑ p ∈ range (ni + na + nv), ∑ o ∈ range (ni + na + nv),
        asMat (linearOrbRotToMatrix ni na nv Klin (fun _ => 0) (ni + na + nv)) (ni + na + nv) p o *
          asMat F ldf p o := by
  obtain ⟨u1, u2, u3⟩ := unpacked ni na nv Klin
  rw [antisym_dot (orbKind ni na) _ _ u1 (fun p q hp hq e => u2 p q hp hq e),
    packed_sum ni na nv (fun m => fockToLinearOrbGrad ni na nv F ldf G m * Klin m)
      (fun p q => 2 * (F (p + q * ldf) - F (q + p * ldf)) * Klin (rotPos ni na nv p q))
      (fun p q hp hk => by rw [(fockToLinear_val ni na nv ldf F G).1 p q hp hk]), mul_sum]
  apply Finset.sum_congr rfl; intro p hp
  rw [mul_sum]
  apply Finset.sum_congr rfl; intro o ho
  rw [mem_range] at hp ho
  split
  · rw [u3 p o hp (by assumption)]; simp only [asMat]; ring
  · ring

/-! ### transformed integrals -/

theorem tr_sym {n : Nat} {h : Nat → Nat → R} {g : Nat → Nat → Nat → Nat → R} (hi : IntSym n h g)
    (a : Nat → Nat → R) : IntSym n (tr2 n a h) (tr4 n a g) := by
  refine ⟨?_, ?_, ?_, ?_⟩
  · intro p q _ _
    rw [tr2, tr2, Finset.sum_comm]
    apply Finset.sum_congr rfl; intro i hi'
    apply Finset.sum_congr rfl; intro j hj
    rw [hi.h_symm j i (mem_range.mp hj) (mem_range.mp hi')]; ring
  · intro p q r s _ _ _ _
    rw [tr4, tr4, Finset.sum_comm]
    apply sum4_congr; intro i j k l h1 h2 h3 h4
    rw [hi.g_left j i k l h2 h1 h3 h4]; ring
  · intro p q r s _ _ _ _
    rw [tr4, tr4]
    apply Finset.sum_congr rfl; intro i h1
    apply Finset.sum_congr rfl; intro j h2
    rw [Finset.sum_comm]
    apply Finset.sum_congr rfl; intro k h3
    apply Finset.sum_congr rfl; intro l h4
    rw [mem_range] at h1 h2 h3 h4
    rw [hi.g_right i j l k h1 h2 h4 h3]; ring
  · intro p q r s _ _ _ _
    rw [tr4, tr4, sum4_pair]
    apply sum4_congr; intro i j k l h1 h2 h3 h4
    rw [hi.g_pair k l i j h3 h4 h1 h2]; ring

/-- exchange of a sum with the four sums of a transformation -/
theorem pull4 {n : Nat} (K : Nat → R) (f : Nat → Nat → Nat → Nat → Nat → R) :
    (∑ o ∈ range n, K o * ∑ i ∈ range n, ∑ j ∈ range n, ∑ k ∈ range n, ∑ l ∈ range n, f o i j k l) =
    ∑ i ∈ range n, ∑ j ∈ range n, ∑ k ∈ range n, ∑ l ∈ range n, ∑ o ∈ range n, K o * f o i j k l := by
  simp only [mul_sum]
  rw [Finset.sum_comm]
  apply Finset.sum_congr rfl; intro i _
  rw [Finset.sum_comm]
  apply Finset.sum_congr rfl; intro j _
  rw [Finset.sum_comm]
  apply Finset.sum_congr rfl; intro k _
  rw [Finset.sum_comm]

theorem tr2_deriv {n : Nat} (a : ℝ → Nat → Nat → ℝ) (K h : Nat → Nat → ℝ) (t : ℝ)
    (ha : ∀ i p, i < n → p < n → HasDerivAt (fun t => a t i p) (∑ o ∈ range n, K p o * a t i o) t)
    {p q : Nat} (hp : p < n) (hq : q < n) :
    HasDerivAt (fun t => tr2 n (a t) h p q) (rot1 n K (tr2 n (a t) h) p q) t := by
  have e : rot1 n K (tr2 n (a t) h) p q = ∑ i ∈ range n, ∑ j ∈ range n,
      (((∑ o ∈ range n, K p o * a t i o) * a t j q + a t i p * ∑ o ∈ range n, K q o * a t j o) * h i j) := by
    simp only [rot1, tr2, Finset.sum_add_distrib, mul_sum, Finset.sum_mul, add_mul]
    congr 1
    · rw [Finset.sum_comm]
      apply Finset.sum_congr rfl; intro i _
      rw [Finset.sum_comm]
      apply Finset.sum_congr rfl; intro j _
      apply Finset.sum_congr rfl; intro o _
      ring
    · rw [Finset.sum_comm]
      apply Finset.sum_congr rfl; intro i _
      rw [Finset.sum_comm]
      apply Finset.sum_congr rfl; intro j _
      apply Finset.sum_congr rfl; intro o _
      ring
  rw [e]
  apply HasDerivAt.fun_sum; intro i hi
  apply HasDerivAt.fun_sum; intro j hj
  rw [mem_range] at hi hj
  exact ((ha i p hi hp).mul (ha j q hj hq)).mul_const _

theorem tr4_deriv {n : Nat} (a : ℝ → Nat → Nat → ℝ) (K : Nat → Nat → ℝ)
    (g : Nat → Nat → Nat → Nat → ℝ) (t : ℝ)
    (ha : ∀ i p, i < n → p < n → HasDerivAt (fun t => a t i p) (∑ o ∈ range n, K p o * a t i o) t)
    {p q r s : Nat} (hp : p < n) (hq : q < n) (hr : r < n) (hs : s < n) :
    HasDerivAt (fun t => tr4 n (a t) g p q r s) (rot2 n K (tr4 n (a t) g) p q r s) t := by
  have e : rot2 n K (tr4 n (a t) g) p q r s =
      ∑ i ∈ range n, ∑ j ∈ range n, ∑ k ∈ range n, ∑ l ∈ range n,
      (((((∑ o ∈ range n, K p o * a t i o) * a t j q + a t i p * ∑ o ∈ range n, K q o * a t j o) * a t k r +
        a t i p * a t j q * ∑ o ∈ range n, K r o * a t k o) * a t l s +
        a t i p * a t j q * a t k r * ∑ o ∈ range n, K s o * a t l o) * g i j k l) := by
    simp only [rot2, Finset.sum_add_distrib]
    simp only [tr4, pull4, ← Finset.sum_add_distrib]
    apply Finset.sum_congr rfl; intro i _
    apply Finset.sum_congr rfl; intro j _
    apply Finset.sum_congr rfl; intro k _
    apply Finset.sum_congr rfl; intro l _
    simp only [Finset.sum_mul, mul_sum, add_mul, ← Finset.sum_add_distrib]
    apply Finset.sum_congr rfl; intro o _
    ring
  rw [e]
  apply HasDerivAt.fun_sum; intro i hi
  apply HasDerivAt.fun_sum; intro j hj
  apply HasDerivAt.fun_sum; intro k hk
  apply HasDerivAt.fun_sum; intro l hl
  rw [mem_range] at hi hj hk hl
  exact ((((ha i p hi hp).mul (ha j q hj hq)).mul (ha k r hk hr)).mul (ha l s hl hs)).mul_const _

theorem energy_deriv {n : Nat} (h : ℝ → Nat → Nat → ℝ) (g : ℝ → Nat → Nat → Nat → Nat → ℝ)
    (h' : Nat → Nat → ℝ) (g' : Nat → Nat → Nat → Nat → ℝ) (D : Nat → Nat → ℝ)
    (d : Nat → Nat → Nat → Nat → ℝ) (t : ℝ)
    (dh : ∀ p q, p < n → q < n → HasDerivAt (fun t => h t p q) (h' p q) t)
    (dg : ∀ p q r s, p < n → q < n → r < n → s < n →
      HasDerivAt (fun t => g t p q r s) (g' p q r s) t) :
    HasDerivAt (fun t => energy n (h t) (g t) D d) (energy n h' g' D d) t := by
  simp only [energy]
  apply HasDerivAt.fun_add
  · apply HasDerivAt.fun_sum; intro p hp
    apply HasDerivAt.fun_sum; intro q hq
    exact (dh p q (mem_range.mp hp) (mem_range.mp hq)).mul_const _
  · apply HasDerivAt.fun_sum; intro p hp
    apply HasDerivAt.fun_sum; intro q hq
    apply HasDerivAt.fun_sum; intro r hr
    apply HasDerivAt.fun_sum; intro s hs
    exact (dg p q r s (mem_range.mp hp) (mem_range.mp hq) (mem_range.mp hr) (mem_range.mp hs)).mul_const _

/-- the rotation matrix moves with velocity `-U K` -/
theorem rotation_deriv (no ldk ldu : Nat) (hld : no ≤ ldu) (K U0 : Nat → ℝ)
    (anti : ∀ p q, p < no → q < no → asMat K ldk p q = -asMat K ldk q p) (t : ℝ) (i p : Nat)
    (hi : i < no) (hp : p < no) :
    HasDerivAt (fun t => asMat (computeOrbitalRotation no t K ldk U0 ldu) ldu i p)
      (∑ o ∈ range no, asMat K ldk p o * asMat (computeOrbitalRotation no t K ldk U0 ldu) ldu i o) t := by
  have val : ∀ (t : ℝ) (i p : Nat) (hi : i < no) (hp : p < no),
      asMat (computeOrbitalRotation no t K ldk U0 ldu) ldu i p =
        NormedSpace.exp (t • (-matOf no K ldk)) ⟨i, hi⟩ ⟨p, hp⟩ := by
    intro t i p hi hp
    rw [asMat, computeOrbitalRotation, (fill2 hld U0 _).1 i p hi hp, dif_pos ⟨hi, hp⟩]
    simp
  have e : (∑ o ∈ range no, asMat K ldk p o *
      asMat (computeOrbitalRotation no t K ldk U0 ldu) ldu i o) =
      (NormedSpace.exp (t • (-matOf no K ldk)) * (-matOf no K ldk)) ⟨i, hi⟩ ⟨p, hp⟩ := by
    rw [Matrix.mul_apply, Finset.sum_range]
    apply Finset.sum_congr rfl; intro o _
    rw [val t i o hi o.isLt, anti p o hp o.isLt]
    simp only [matOf, Matrix.neg_apply, Matrix.of_apply, asMat]
    ring
  rw [e]
  have f : (fun t => asMat (computeOrbitalRotation no t K ldk U0 ldu) ldu i p) =
      fun t : ℝ => NormedSpace.exp (t • (-matOf no K ldk)) ⟨i, hi⟩ ⟨p, hp⟩ := by
    funext t; exact val t i p hi hp
  rw [f]
  open scoped Matrix.Norms.Operator in
  have := hasDerivAt_exp_smul_const (𝕂 := ℝ) (-matOf no K ldk) t
  open scoped Matrix.Norms.Operator in
  exact (LinearMap.toContinuousLinearMap (Matrix.entryLinearMap ℝ ℝ ⟨i, hi⟩ ⟨p, hp⟩ :
    Matrix (Fin no) (Fin no) ℝ →ₗ[ℝ] ℝ)).hasFDerivAt.comp_hasDerivAt t this

/-- what the transformation routines store, in terms of `tr2`, `tr4` -/
theorem transform_val {no ldt ldu : Nat} (T V U Z W : Nat → R) :
    (∀ p q, p < no → q < no → asMat (twoIndexTransform no no T ldt U ldu Z no) no p q =
      tr2 no (asMat U ldu) (asMat T ldt) p q) ∧
    (∀ p q r s, p < no → q < no → r < no → s < no →
      asTen (fourIndexTransform no no V no U ldu W no) no p q r s =
        tr4 no (asMat U ldu) (asTen V no) p q r s) := by
  constructor
  · intro p q hp hq
    rw [asMat, (C38_two_index no no ldt ldu no (le_refl no) T U Z).1 p q hp hq]; rfl
  · intro p q r s hp hq hr hs
    rw [asTen, (C38_four_index no no ldu V U W).1 p q r s hp hq hr hs]; rfl

end Macis
