import Verif.Model.Davidson
import Verif.Spec.Davidson
import Mathlib.LinearAlgebra.Matrix.Symmetric
import Mathlib.Analysis.Matrix.Spectrum
import Mathlib.Tactic.Ring
import Mathlib.Tactic.FieldSimp
import Mathlib.Tactic.Linarith
/-! Lemmas on the Davidson model. -/
namespace Macis
open Spec Finset
variable {ι : Type} [Fintype ι]

theorem vdot_comm (x y : ι → ℝ) : vdot x y = vdot y x := by
  unfold vdot; exact Finset.sum_congr rfl fun _ _ => mul_comm _ _

theorem vdot_self_nonneg (x : ι → ℝ) : 0 ≤ vdot x x :=
  Finset.sum_nonneg fun _ _ => mul_self_nonneg _

theorem vdot_sub_right (x y z : ι → ℝ) : vdot x (fun t => y t - z t) = vdot x y - vdot x z := by
  unfold vdot
  rw [← Finset.sum_sub_distrib]
  exact Finset.sum_congr rfl fun _ _ => mul_sub _ _ _

theorem vdot_smul_right (x y : ι → ℝ) (a : ℝ) : vdot x (fun t => a * y t) = a * vdot x y := by
  unfold vdot
  rw [Finset.mul_sum]
  exact Finset.sum_congr rfl fun _ _ => by ring

theorem vdot_combine_right (x : ι → ℝ) (k : Nat) (V : Nat → ι → ℝ) (c : Nat → ℝ) :
    vdot x (combine k V c) = ∑ j ∈ range k, vdot x (V j) * c j := by
  unfold vdot combine
  simp_rw [Finset.mul_sum, Finset.sum_mul]
  rw [Finset.sum_comm]
  exact Finset.sum_congr rfl fun _ _ => Finset.sum_congr rfl fun _ _ => by ring

theorem vdot_combine_left (x : ι → ℝ) (k : Nat) (V : Nat → ι → ℝ) (c : Nat → ℝ) :
    vdot (combine k V c) x = ∑ j ∈ range k, c j * vdot (V j) x := by
  rw [vdot_comm, vdot_combine_right]
  exact Finset.sum_congr rfl fun j _ => by rw [vdot_comm x, mul_comm]

theorem projectOut_orth {k : Nat} {V : Nat → ι → ℝ} (hV : OrthonormalCols k V) (w : ι → ℝ) {p : Nat}
    (hp : p < k) : vdot (V p) (projectOut k V w) = 0 := by
  unfold projectOut
  rw [vdot_sub_right, vdot_combine_right]
  rw [Finset.sum_congr rfl (g := fun j => if j = p then vdot (V j) w else 0)]
  · rw [Finset.sum_ite_eq' , if_pos (Finset.mem_range.2 hp), sub_self]
  · intro j hj
    have := hV p hp j (Finset.mem_range.1 hj)
    change vdot (V p) (V j) = _ at this
    rw [this]
    by_cases h : p = j
    · subst h; simp
    · rw [if_neg h, if_neg (Ne.symm h), zero_mul]

theorem projectOut_of_orth {k : Nat} {V : Nat → ι → ℝ} (w : ι → ℝ) (h : ∀ p < k, vdot (V p) w = 0) :
    projectOut k V w = w := by
  unfold projectOut combine
  funext t
  rw [Finset.sum_congr rfl (g := fun _ => 0)]
  · simp
  · intro j hj
    dsimp only
    rw [h j (Finset.mem_range.1 hj), mul_zero]

theorem gramSchmidt_some {k : Nat} {V : Nat → ι → ℝ} (hV : OrthonormalCols k V) {w w' : ι → ℝ}
    (h : gramSchmidt k V w = some w') :
    (∀ p < k, vdot (V p) w' = 0) ∧ vdot w' w' = 1 ∧
    ∃ a : ℝ, a ≠ 0 ∧ w' = fun t => a * (w t - combine k V (fun j => vdot (V j) w) t) := by
  unfold gramSchmidt at h
  dsimp only at h
  rw [projectOut_of_orth (projectOut k V w) (fun p hp => projectOut_orth hV w hp)] at h
  split_ifs at h with h0
  cases h
  have hn : nrm2 (projectOut k V w) * nrm2 (projectOut k V w) = vdot (projectOut k V w) (projectOut k V w) :=
    Real.mul_self_sqrt (vdot_self_nonneg _)
  refine ⟨?_, ?_, 1 / nrm2 (projectOut k V w), by simpa using h0, rfl⟩
  · intro p hp
    rw [vdot_smul_right, projectOut_orth hV w hp, mul_zero]
  · rw [vdot_smul_right, vdot_comm, vdot_smul_right, ← hn]
    field_simp

theorem gramSchmidt_none {k : Nat} {V : Nat → ι → ℝ} (hV : OrthonormalCols k V) {w : ι → ℝ} :
    gramSchmidt k V w = none ↔ ∀ t, w t = combine k V (fun j => vdot (V j) w) t := by
  unfold gramSchmidt
  dsimp only
  rw [projectOut_of_orth (projectOut k V w) (fun p hp => projectOut_orth hV w hp)]
  have key : nrm2 (projectOut k V w) = 0 ↔ ∀ t, w t = combine k V (fun j => vdot (V j) w) t := by
    unfold nrm2
    rw [Real.sqrt_eq_zero (vdot_self_nonneg _)]
    unfold vdot
    rw [Finset.sum_eq_zero_iff_of_nonneg (fun _ _ => mul_self_nonneg _)]
    simp only [Finset.mem_univ, true_implies, mul_self_eq_zero]
    unfold projectOut
    simp only [sub_eq_zero]
    rfl
  constructor
  · intro h
    split_ifs at h with h0
    exact key.1 h0
  · intro h
    rw [if_pos (key.2 h)]

theorem orthonormal_update {k : Nat} {V : Nat → ι → ℝ} (hV : OrthonormalCols k V) {w : ι → ℝ}
    (h1 : ∀ p < k, vdot (V p) w = 0) (h2 : vdot w w = 1) :
    OrthonormalCols (k + 1) (Function.update V k w) := by
  intro p hp q hq
  change vdot _ _ = _
  have hu : ∀ j, j < k → Function.update V k w j = V j := fun j hj => Function.update_of_ne hj.ne _ _
  rcases Nat.lt_succ_iff_lt_or_eq.1 hp with hp | rfl
  · rcases Nat.lt_succ_iff_lt_or_eq.1 hq with hq | rfl
    · rw [hu p hp, hu q hq]; exact hV p hp q hq
    · rw [hu p hp, Function.update_self, h1 p hp, if_neg hp.ne]
  · rcases Nat.lt_succ_iff_lt_or_eq.1 hq with hq | rfl
    · rw [hu q hq, Function.update_self, vdot_comm, h1 q hq, if_neg hq.ne']
    · rw [Function.update_self, if_pos rfl, h2]

variable [DecidableEq ι]

theorem mulVec_combine (A : Matrix ι ι ℝ) (k : Nat) (V : Nat → ι → ℝ) (c : Nat → ℝ) :
    A.mulVec (combine k V c) = combine k (fun j => A.mulVec (V j)) c := by
  funext t
  unfold combine Matrix.mulVec dotProduct
  simp_rw [Finset.mul_sum, Finset.sum_mul]
  rw [Finset.sum_comm]
  exact Finset.sum_congr rfl fun _ _ => Finset.sum_congr rfl fun _ _ => by ring

theorem vdot_mulVec_symm {A : Matrix ι ι ℝ} (hA : A.IsSymm) (x y : ι → ℝ) :
    vdot x (A.mulVec y) = vdot y (A.mulVec x) := by
  have h1 : vdot x (A.mulVec y) = x ⬝ᵥ A.mulVec y := rfl
  have h2 : vdot y (A.mulVec x) = y ⬝ᵥ A.mulVec x := rfl
  rw [h1, h2, Matrix.dotProduct_mulVec, ← Matrix.mulVec_transpose, hA.eq, dotProduct_comm]

/-- What a converged iteration delivers. -/
theorem ritz_facts {A : Matrix ι ι ℝ} (hA : A.IsSymm) {eig : Nat → (Nat → Nat → ℝ) → ℝ × (Nat → ℝ)}
    (he : LowestPair eig) {k : Nat} (hk : 0 < k) {V AV : Nat → ι → ℝ} (hV : OrthonormalCols k V)
    (hAV : ∀ j < k, AV j = A.mulVec (V j)) :
    let r := eig k (fun p q => vdot (V p) (AV q))
    let x := combine k V r.2
    vdot x x = 1 ∧ combine k AV r.2 = A.mulVec x ∧ vdot x (A.mulVec x) = r.1 ∧
    ∀ d : Nat → ℝ, r.1 * vdot (combine k V d) (combine k V d)
      ≤ vdot (combine k V d) (A.mulVec (combine k V d)) := by
  intro r x
  have hdd : ∀ d : Nat → ℝ, vdot (combine k V d) (combine k V d) = ∑ p ∈ range k, d p * d p := by
    intro d
    rw [vdot_combine_left]
    apply Finset.sum_congr rfl
    intro p hp
    rw [vdot_combine_right]
    rw [Finset.sum_congr rfl (g := fun j => if p = j then d j else 0)]
    · rw [Finset.sum_ite_eq, if_pos hp]
    · intro j hj
      have := hV p (Finset.mem_range.1 hp) j (Finset.mem_range.1 hj)
      change vdot (V p) (V j) = _ at this
      rw [this]
      split <;> simp
  have hcomb : ∀ d : Nat → ℝ, combine k AV d = A.mulVec (combine k V d) := by
    intro d
    rw [mulVec_combine]
    funext t
    unfold combine
    exact Finset.sum_congr rfl fun j hj => by rw [hAV j (Finset.mem_range.1 hj)]
  have hS : ∀ p < k, ∀ q < k, (if q ≤ p then vdot (V p) (AV q) else vdot (V q) (AV p)) = vdot (V p) (AV q) := by
    intro p hp q hq
    split
    · rfl
    · rw [hAV p hp, hAV q hq, vdot_mulVec_symm hA]
  have hquad : ∀ d : Nat → ℝ, vdot (combine k V d) (A.mulVec (combine k V d))
      = ∑ p ∈ range k, ∑ q ∈ range k, d p * ((if q ≤ p then vdot (V p) (AV q) else vdot (V q) (AV p)) * d q) := by
    intro d
    rw [vdot_combine_left]
    apply Finset.sum_congr rfl
    intro p hp
    rw [← hcomb d, vdot_combine_right, Finset.mul_sum]
    apply Finset.sum_congr rfl
    intro q hq
    rw [hS p (Finset.mem_range.1 hp) q (Finset.mem_range.1 hq)]
  obtain ⟨e1, e2, e3⟩ := he k (fun p q => vdot (V p) (AV q)) hk
  refine ⟨by rw [hdd]; exact e1, hcomb _, ?_, ?_⟩
  · rw [hquad]
    simp_rw [← Finset.mul_sum]
    rw [Finset.sum_congr rfl (g := fun p => r.1 * (r.2 p * r.2 p))]
    · rw [← Finset.mul_sum, e1, mul_one]
    · intro p hp
      have := e2 p (Finset.mem_range.1 hp)
      dsimp only at this
      rw [this]
      ring
  · intro d
    rw [hdd, hquad]
    exact e3 d

theorem vdot_pismul_left (a : ℝ) (x y : ι → ℝ) : vdot (a • x) y = a * vdot x y := by
  unfold vdot
  rw [Finset.mul_sum]
  exact Finset.sum_congr rfl fun _ _ => by simp [mul_assoc]

/-- spectral theorem in plain coordinates -/
theorem spectral {A : Matrix ι ι ℝ} (hA : A.IsSymm) : ∃ (mu : ι → ℝ) (b : ι → ι → ℝ),
    (∀ i, A.mulVec (b i) = mu i • b i) ∧ (∀ i, vdot (b i) (b i) = 1) ∧
    ∀ u v, vdot u v = ∑ i, vdot (b i) u * vdot (b i) v := by
  have hH : A.IsHermitian := by
    rw [Matrix.IsHermitian, Matrix.conjTranspose_eq_transpose_of_trivial]; exact hA
  have hinner : ∀ u v : ι → ℝ, inner ℝ (WithLp.toLp 2 u : EuclideanSpace ℝ ι) (WithLp.toLp 2 v) = vdot u v := by
    intro u v
    rw [EuclideanSpace.inner_eq_star_dotProduct]
    simp only [star_trivial]
    unfold vdot dotProduct
    exact Finset.sum_congr rfl fun _ _ => mul_comm _ _
  have hb : ∀ i (u : ι → ℝ), inner ℝ (hH.eigenvectorBasis i) (WithLp.toLp 2 u)
      = vdot (WithLp.ofLp (hH.eigenvectorBasis i)) u := fun i u => hinner _ u
  refine ⟨hH.eigenvalues, fun i => WithLp.ofLp (hH.eigenvectorBasis i),
    fun i => hH.mulVec_eigenvectorBasis i, ?_, ?_⟩
  · intro i
    rw [← hb i, WithLp.toLp_ofLp, real_inner_self_eq_norm_sq, hH.eigenvectorBasis.orthonormal.1 i]
    norm_num
  · intro u v
    rw [← hinner u v, ← hH.eigenvectorBasis.sum_inner_mul_inner]
    apply Finset.sum_congr rfl
    intro i _
    rw [real_inner_comm, hb, hb]

end Macis
