import Verif.Model.Bfgs
import Verif.Spec.Bfgs
import Mathlib.LinearAlgebra.Matrix.Symmetric
import Mathlib.Tactic.Linarith
import Mathlib.Tactic.Ring
import Mathlib.Tactic.FieldSimp
import Mathlib.Tactic.Positivity
import Mathlib.Tactic.NormNum
import Mathlib.Tactic.FinCases
import Mathlib.Algebra.Order.BigOperators.Group.Finset

/-! Property C108: the quasi-Newton operator. -/
namespace Macis
namespace Bfgs
open Spec Matrix

variable {K : Type} [Field K] [LinearOrder K] {n : Nat}

/-- All updates of a history, oldest first; `none` as soon as one of them divides by zero. -/
def Hess.updates (B : Hess n K) (h : List ((Fin n → K) × (Fin n → K))) : Option (Hess n K) :=
  h.foldlM (fun B sy => B.update sy.1 sy.2) B

theorem down_acc (l : List (Pair n K)) (x : Fin n → K) (as : List K) :
    l.foldr (fun pr (acc : (Fin n → K) × List K) =>
      let alpha := (pr.s ⬝ᵥ acc.1) * pr.rho
      (acc.1 + (-alpha) • pr.y, alpha :: acc.2)) (x, as) =
    ((l.foldr (fun pr (acc : (Fin n → K) × List K) =>
      let alpha := (pr.s ⬝ᵥ acc.1) * pr.rho
      (acc.1 + (-alpha) • pr.y, alpha :: acc.2)) (x, [])).1,
     (l.foldr (fun pr (acc : (Fin n → K) × List K) =>
      let alpha := (pr.s ⬝ᵥ acc.1) * pr.rho
      (acc.1 + (-alpha) • pr.y, alpha :: acc.2)) (x, [])).2 ++ as) := by
  induction l with
  | nil => simp
  | cons a l ih => simp only [List.foldr_cons]; rw [ih]; simp

theorem down_length (l : List (Pair n K)) (x : Fin n → K) :
    (l.foldr (fun pr (acc : (Fin n → K) × List K) =>
      let alpha := (pr.s ⬝ᵥ acc.1) * pr.rho
      (acc.1 + (-alpha) • pr.y, alpha :: acc.2)) (x, [])).2.length = l.length := by
  induction l with
  | nil => rfl
  | cons a l ih => simp only [List.foldr_cons, List.length_cons]; rw [ih]

theorem apply_append (l : List (Pair n K)) (pr : Pair n K) (h0 : H0 n K) (x : Fin n → K) :
    Hess.apply ⟨l ++ [pr], h0⟩ x =
      Hess.apply ⟨l, h0⟩ (x + (-((pr.s ⬝ᵥ x) * pr.rho)) • pr.y) +
        ((pr.s ⬝ᵥ x) * pr.rho -
          (pr.y ⬝ᵥ Hess.apply ⟨l, h0⟩ (x + (-((pr.s ⬝ᵥ x) * pr.rho)) • pr.y)) * pr.rho) • pr.s := by
  unfold Hess.apply
  simp only [List.foldr_append, List.foldr_cons, List.foldr_nil]
  rw [down_acc l _ [(pr.s ⬝ᵥ x) * pr.rho]]
  simp only
  rw [List.zip_append (down_length _ _).symm, List.foldl_append]
  simp

/-- history without the cached reciprocals -/
def Hess.pairs (B : Hess n K) : List ((Fin n → K) × (Fin n → K)) := B.hist.map fun p => (p.s, p.y)

theorem apply_matrix (l : List (Pair n K)) (h0 : H0 n K) (M : Matrix (Fin n) (Fin n) K)
    (hl : ∀ p ∈ l, p.rho = 1 / (p.y ⬝ᵥ p.s))
    (hM : ∀ x, h0.apply x = M *ᵥ x) (x : Fin n → K) :
    Hess.apply ⟨l, h0⟩ x = bfgsMatrix M (l.map fun p => (p.s, p.y)) *ᵥ x := by
  induction l using List.reverseRecOn generalizing x with
  | nil => simp [Hess.apply, bfgsMatrix, hM]
  | append_singleton l pr ih =>
    have ih := ih fun p hp => hl p (by simp [hp])
    have hr := hl pr (by simp)
    rw [apply_append, ih, List.map_append]
    simp only [bfgsMatrix, List.foldl_append, List.map_cons, List.map_nil, List.foldl_cons, List.foldl_nil]
    rw [bfgsUpdate, Matrix.add_mulVec, ← Matrix.mulVec_mulVec, ← Matrix.mulVec_mulVec,
      Matrix.sub_mulVec 1 _ x, Matrix.one_mulVec, Matrix.smul_mulVec, vecMulVec_mulVec,
      Matrix.sub_mulVec, Matrix.one_mulVec, Matrix.smul_mulVec, vecMulVec_mulVec, Matrix.smul_mulVec,
      vecMulVec_mulVec, ← hr]
    have e : x + -((pr.s ⬝ᵥ x) * pr.rho) • pr.y = x - pr.rho • MulOpposite.op (pr.s ⬝ᵥ x) • pr.y := by
      ext i; simp; ring
    rw [e]
    ext i
    simp
    ring

theorem updates_hist {B0 B : Hess n K} {h : List ((Fin n → K) × (Fin n → K))} (hu : B0.updates h = some B) :
    B.hist = B0.hist ++ h.map (fun sy => ⟨sy.1, sy.2, 1 / (sy.2 ⬝ᵥ sy.1)⟩) ∧
      ∀ sy ∈ h, sy.2 ⬝ᵥ sy.1 ≠ 0 := by
  induction h generalizing B0 with
  | nil => simp [Hess.updates] at hu; simp [hu]
  | cons a h ih =>
    simp only [Hess.updates, List.foldlM_cons, Hess.update] at hu
    split at hu
    · simp at hu
    · rename_i hne
      simp only [Option.bind_eq_bind, Option.bind_some] at hu
      obtain ⟨h1, h2⟩ := ih hu
      refine ⟨by simp [h1], ?_⟩
      intro sy hsy
      rcases List.mem_cons.1 hsy with rfl | hsy
      · exact hne
      · exact h2 sy hsy

theorem updates_apply {B0 B : Hess n K} {h : List ((Fin n → K) × (Fin n → K))} (hu : B0.updates h = some B)
    (h0 : B0.hist = []) (M : Matrix (Fin n) (Fin n) K) (hM : ∀ x, B.h0.apply x = M *ᵥ x) (x : Fin n → K) :
    B.apply x = bfgsMatrix M h *ᵥ x := by
  obtain ⟨h1, -⟩ := updates_hist hu
  rw [h0, List.nil_append] at h1
  have := apply_matrix B.hist B.h0 M (by
    rw [h1]; intro p hp; rw [List.mem_map] at hp; obtain ⟨sy, -, rfl⟩ := hp; rfl) hM x
  rw [this, h1, List.map_map]
  congr 2
  conv_rhs => rw [← List.map_id h]
  rfl

theorem updates_append (B : Hess n K) (h : List ((Fin n → K) × (Fin n → K))) (s y : Fin n → K) :
    B.updates (h ++ [(s, y)]) = (B.updates h).bind fun B => B.update s y := by
  simp [Hess.updates]

theorem updates_none_iff (B : Hess n K) (h : List ((Fin n → K) × (Fin n → K))) :
    B.updates h = none ↔ ∃ sy ∈ h, sy.2 ⬝ᵥ sy.1 = 0 := by
  induction h generalizing B with
  | nil => simp [Hess.updates]
  | cons a h ih =>
    simp only [Hess.updates, List.foldlM_cons, Hess.update]
    split
    · rename_i h0; simp [h0]
    · rename_i h0
      simp only [Option.bind_eq_bind, Option.bind_some, List.mem_cons, exists_eq_or_imp, h0, false_or]
      exact ih _

/-- the `h0` component of kinds that never change -/
theorem updates_h0_fixed {B0 B : Hess n K} {h : List ((Fin n → K) × (Fin n → K))} (hu : B0.updates h = some B)
    (hk : (∀ g, B0.h0 ≠ .updatedScaled g) ∧ B0.h0 ≠ .staticScaled none) : B.h0 = B0.h0 := by
  induction h generalizing B0 with
  | nil => simp [Hess.updates] at hu; rw [hu]
  | cons a h ih =>
    simp only [Hess.updates, List.foldlM_cons, Hess.update] at hu
    split at hu
    · simp at hu
    · simp only [Option.bind_eq_bind, Option.bind_some] at hu
      cases hb : B0.h0 with
      | identity => rw [hb] at hu; exact ih hu ⟨by simp, by simp⟩
      | runtime op => rw [hb] at hu; exact ih hu ⟨by simp, by simp⟩
      | diag inv => rw [hb] at hu; exact ih hu ⟨by simp, by simp⟩
      | updatedScaled g => exact absurd hb (hk.1 g)
      | staticScaled g =>
        cases g with
        | none => exact absurd hb hk.2
        | some g => rw [hb] at hu; exact ih hu ⟨by simp, by simp⟩

/-! ### C108 -/

/-- C108: an object of the default kind applies the BFGS inverse Hessian started from the unit matrix, for
every history of updates; updating fails exactly when some `y·s` is zero. -/
theorem C108_identity (h : List ((Fin n → K) × (Fin n → K))) :
    ((identityHess : Hess n K).updates h = none ↔ ∃ sy ∈ h, sy.2 ⬝ᵥ sy.1 = 0) ∧
    ∀ B, (identityHess : Hess n K).updates h = some B → ∀ x, B.apply x = bfgsMatrix 1 h *ᵥ x := by
  refine ⟨updates_none_iff _ _, fun B hu x => updates_apply hu rfl 1 ?_ x⟩
  rw [updates_h0_fixed hu ⟨by simp [identityHess], by simp [identityHess]⟩]
  intro x; simp [identityHess, H0.apply]

/-- C108: the object with the running scale uses `(y·s)/(y·y)` of the newest pair as initial matrix. -/
theorem C108_updated_scaled (h : List ((Fin n → K) × (Fin n → K))) (s y : Fin n → K) (B : Hess n K)
    (hu : (updatedScaledHess : Hess n K).updates (h ++ [(s, y)]) = some B) (x : Fin n → K) :
    B.apply x = bfgsMatrix (((y ⬝ᵥ s) / (y ⬝ᵥ y)) • (1 : Matrix (Fin n) (Fin n) K)) (h ++ [(s, y)]) *ᵥ x := by
  refine updates_apply hu rfl _ ?_ x
  have key : ∀ (h : List ((Fin n → K) × (Fin n → K))) (B0 B : Hess n K) (g : K),
      B0.h0 = .updatedScaled g → B0.updates h = some B → ∃ g, B.h0 = .updatedScaled g := by
    intro h
    induction h with
    | nil => intro B0 B g hg hu; simp [Hess.updates] at hu; exact ⟨g, hu ▸ hg⟩
    | cons a h ih =>
      intro B0 B g hg hu
      simp only [Hess.updates, List.foldlM_cons, Hess.update] at hu
      split at hu
      · simp at hu
      · simp only [Option.bind_eq_bind, Option.bind_some, hg] at hu
        exact ih _ _ _ rfl hu
  rw [updates_append] at hu
  cases hm : (updatedScaledHess : Hess n K).updates h with
  | none => rw [hm] at hu; simp at hu
  | some B1 =>
    rw [hm] at hu
    obtain ⟨g, hg⟩ := key h _ B1 1 rfl hm
    simp only [Option.bind_some, Hess.update] at hu
    split at hu
    · cases hu
    · simp only [Option.some.injEq] at hu
      subst hu
      intro x
      simp only [hg, H0.apply, Matrix.smul_mulVec, Matrix.one_mulVec]
      congr 1
      rw [mul_one_div, one_div_div]

/-- C108: the object with the static scale uses `(y·s)/(y·y)` of the oldest pair. -/
theorem C108_static_scaled (h : List ((Fin n → K) × (Fin n → K))) (s y : Fin n → K) (B : Hess n K)
    (hu : (staticScaledHess : Hess n K).updates ((s, y) :: h) = some B) (x : Fin n → K) :
    B.apply x = bfgsMatrix (((y ⬝ᵥ s) / (y ⬝ᵥ y)) • (1 : Matrix (Fin n) (Fin n) K)) ((s, y) :: h) *ᵥ x := by
  refine updates_apply hu rfl _ ?_ x
  have hne := (updates_hist hu).2 (s, y) (by simp)
  have e : (staticScaledHess : Hess n K).update s y =
      some ⟨[⟨s, y, 1 / (y ⬝ᵥ s)⟩], .staticScaled (some ((y ⬝ᵥ y) * (1 / (y ⬝ᵥ s))))⟩ := by
    rw [Hess.update, if_neg hne]; rfl
  have hu' : Hess.updates ⟨[⟨s, y, 1 / (y ⬝ᵥ s)⟩], .staticScaled (some ((y ⬝ᵥ y) * (1 / (y ⬝ᵥ s))))⟩ h = some B := by
    rw [Hess.updates, List.foldlM_cons, e] at hu
    exact hu
  · have := updates_h0_fixed hu' ⟨by simp, by simp⟩
    rw [this]
    intro x
    simp only [H0.apply, Matrix.smul_mulVec, Matrix.one_mulVec]
    congr 1
    rw [mul_one_div, one_div_div]

/-- C108: the object started from a diagonal `D` uses `1/D`; it is refused when `D` has a zero. -/
theorem C108_diagonal (D : Fin n → K) (h : List ((Fin n → K) × (Fin n → K))) :
    (diagHess D = none ↔ ∃ i, D i = 0) ∧
    ∀ B0 B, diagHess D = some B0 → B0.updates h = some B → ∀ x,
      B.apply x = bfgsMatrix (Matrix.diagonal fun i => 1 / D i) h *ᵥ x := by
  refine ⟨by simp [diagHess], fun B0 B h0 hu x => ?_⟩
  unfold diagHess at h0
  split at h0
  · simp only [Option.some.injEq] at h0
    subst h0
    refine updates_apply hu rfl _ ?_ x
    rw [updates_h0_fixed hu ⟨by simp, by simp⟩]
    intro x
    ext i
    simp [H0.apply, Matrix.mulVec_diagonal]
    ring
  · cases h0

/-- C108: the object started from a user operator that is linear with matrix `M` uses `M`. -/
theorem C108_runtime (op : (Fin n → K) → (Fin n → K)) (M : Matrix (Fin n) (Fin n) K) (hop : ∀ x, op x = M *ᵥ x)
    (h : List ((Fin n → K) × (Fin n → K))) (B : Hess n K) (hu : (runtimeHess op).updates h = some B)
    (x : Fin n → K) : B.apply x = bfgsMatrix M h *ᵥ x := by
  refine updates_apply hu rfl M ?_ x
  rw [updates_h0_fixed hu ⟨by simp [runtimeHess], by simp [runtimeHess]⟩]
  exact hop

/-! ### C109: what the update formula guarantees -/

theorem bfgsMatrix_append (M : Matrix (Fin n) (Fin n) K) (h : List ((Fin n → K) × (Fin n → K))) (s y : Fin n → K) :
    bfgsMatrix M (h ++ [(s, y)]) = bfgsUpdate (bfgsMatrix M h) s y := by
  simp [bfgsMatrix]

theorem bfgsUpdate_mulVec (H : Matrix (Fin n) (Fin n) K) (s y x : Fin n → K) :
    bfgsUpdate H s y *ᵥ x =
      H *ᵥ (x - (1 / (y ⬝ᵥ s) * (s ⬝ᵥ x)) • y) -
        (1 / (y ⬝ᵥ s) * (y ⬝ᵥ H *ᵥ (x - (1 / (y ⬝ᵥ s) * (s ⬝ᵥ x)) • y))) • s +
        (1 / (y ⬝ᵥ s) * (s ⬝ᵥ x)) • s := by
  rw [bfgsUpdate, Matrix.add_mulVec, ← Matrix.mulVec_mulVec, ← Matrix.mulVec_mulVec,
      Matrix.sub_mulVec 1 _ x, Matrix.one_mulVec, Matrix.smul_mulVec, vecMulVec_mulVec,
      Matrix.sub_mulVec, Matrix.one_mulVec, Matrix.smul_mulVec, vecMulVec_mulVec, Matrix.smul_mulVec,
      vecMulVec_mulVec]
  have e : x - (1 / (y ⬝ᵥ s)) • MulOpposite.op (s ⬝ᵥ x) • y = x - (1 / (y ⬝ᵥ s) * (s ⬝ᵥ x)) • y := by
    ext i; simp; ring
  rw [e]
  ext i
  simp
  ring

theorem bfgsUpdate_symm {H : Matrix (Fin n) (Fin n) K} (hH : H.IsSymm) (s y : Fin n → K) :
    (bfgsUpdate H s y).IsSymm := by
  rw [Matrix.IsSymm, bfgsUpdate, Matrix.transpose_add, Matrix.transpose_mul, Matrix.transpose_mul, hH,
    Matrix.transpose_sub, Matrix.transpose_sub, Matrix.transpose_smul, Matrix.transpose_smul,
    Matrix.transpose_smul, transpose_vecMulVec, transpose_vecMulVec, transpose_vecMulVec, Matrix.transpose_one,
    Matrix.mul_assoc]

theorem bfgsUpdate_secant (H : Matrix (Fin n) (Fin n) K) (s y : Fin n → K) (h : y ⬝ᵥ s ≠ 0) :
    bfgsUpdate H s y *ᵥ y = s := by
  rw [bfgsUpdate_mulVec, dotProduct_comm s y]
  have e : 1 / (y ⬝ᵥ s) * (y ⬝ᵥ s) = 1 := by field_simp
  rw [e]
  simp

theorem bfgsMatrix_symm {M : Matrix (Fin n) (Fin n) K} (hM : M.IsSymm) (h : List ((Fin n → K) × (Fin n → K))) :
    (bfgsMatrix M h).IsSymm := by
  induction h using List.reverseRecOn with
  | nil => exact hM
  | append_singleton h a ih => rw [bfgsMatrix_append]; exact bfgsUpdate_symm ih _ _

variable [IsStrictOrderedRing K]

theorem dot_self_pos {x : Fin n → K} (hx : x ≠ 0) : 0 < x ⬝ᵥ x := by
  obtain ⟨i, hi⟩ := Function.ne_iff.1 hx
  refine Finset.sum_pos' (fun j _ => mul_self_nonneg _) ⟨i, Finset.mem_univ _, ?_⟩
  exact mul_self_pos.2 hi

theorem bfgsUpdate_pos {H : Matrix (Fin n) (Fin n) K} (hs : H.IsSymm) (hH : ∀ x, x ≠ 0 → 0 < x ⬝ᵥ H *ᵥ x)
    (s y : Fin n → K) (hys : 0 < y ⬝ᵥ s) (x : Fin n → K) (hx : x ≠ 0) :
    0 < x ⬝ᵥ bfgsUpdate H s y *ᵥ x := by
  rw [bfgsUpdate_mulVec]
  set z := x - (1 / (y ⬝ᵥ s) * (s ⬝ᵥ x)) • y with hz
  have e : x ⬝ᵥ (H *ᵥ z - (1 / (y ⬝ᵥ s) * (y ⬝ᵥ H *ᵥ z)) • s + (1 / (y ⬝ᵥ s) * (s ⬝ᵥ x)) • s) =
      z ⬝ᵥ H *ᵥ z + 1 / (y ⬝ᵥ s) * (s ⬝ᵥ x) ^ 2 := by
    have e1 : z ⬝ᵥ H *ᵥ z = x ⬝ᵥ H *ᵥ z - (1 / (y ⬝ᵥ s) * (s ⬝ᵥ x)) * (y ⬝ᵥ H *ᵥ z) := by
      conv_lhs => rw [hz]
      rw [sub_dotProduct, smul_dotProduct, smul_eq_mul]
    rw [e1, dotProduct_add, dotProduct_sub, dotProduct_smul, dotProduct_smul, dotProduct_comm x s]
    simp only [smul_eq_mul]
    ring
  rw [e]
  by_cases h0 : z = 0
  · have hne : s ⬝ᵥ x ≠ 0 := by
      intro h
      rw [h] at hz
      simp at hz
      exact hx (hz ▸ h0)
    have : 0 < (s ⬝ᵥ x) ^ 2 := by positivity
    rw [h0]
    simp only [Matrix.mulVec_zero, dotProduct_zero, zero_add]
    positivity
  · have := hH z h0
    have : 0 ≤ 1 / (y ⬝ᵥ s) * (s ⬝ᵥ x) ^ 2 := by positivity
    linarith

theorem bfgsMatrix_pos {M : Matrix (Fin n) (Fin n) K} (hs : M.IsSymm) (hM : ∀ x, x ≠ 0 → 0 < x ⬝ᵥ M *ᵥ x)
    (h : List ((Fin n → K) × (Fin n → K))) (hp : ∀ sy ∈ h, 0 < sy.2 ⬝ᵥ sy.1) (x : Fin n → K) (hx : x ≠ 0) :
    0 < x ⬝ᵥ bfgsMatrix M h *ᵥ x := by
  induction h using List.reverseRecOn generalizing x with
  | nil => exact hM x hx
  | append_singleton h a ih =>
    rw [bfgsMatrix_append]
    exact bfgsUpdate_pos (bfgsMatrix_symm hs h) (ih fun p hp' => hp p (by simp [hp'])) _ _
      (hp a (by simp)) x hx

/-- The ways of creating an operator with a symmetric positive definite initial matrix. -/
inductive PosStart : Hess n K → Prop
  | identity : PosStart identityHess
  | updated : PosStart updatedScaledHess
  | static : PosStart staticScaledHess
  | diag (D : Fin n → K) (hD : ∀ i, 0 < D i) (B : Hess n K) (hB : diagHess D = some B) : PosStart B
  | runtime (op : (Fin n → K) → (Fin n → K)) (M : Matrix (Fin n) (Fin n) K) (hop : ∀ x, op x = M *ᵥ x)
      (hs : M.IsSymm) (hM : ∀ x, x ≠ 0 → 0 < x ⬝ᵥ M *ᵥ x) : PosStart (runtimeHess op)

theorem smul_one_pos {c : K} (hc : 0 < c) (x : Fin n → K) (hx : x ≠ 0) :
    0 < x ⬝ᵥ (c • (1 : Matrix (Fin n) (Fin n) K)) *ᵥ x := by
  rw [Matrix.smul_mulVec, Matrix.one_mulVec, dotProduct_smul, smul_eq_mul]
  exact mul_pos hc (dot_self_pos hx)

theorem scale_pos {s y : Fin n → K} (h : 0 < y ⬝ᵥ s) : 0 < (y ⬝ᵥ s) / (y ⬝ᵥ y) := by
  refine div_pos h (dot_self_pos ?_)
  rintro rfl
  simp at h

theorem posStart_matrix {B0 B : Hess n K} (h0 : PosStart B0) (h : List ((Fin n → K) × (Fin n → K)))
    (hp : ∀ sy ∈ h, 0 < sy.2 ⬝ᵥ sy.1) (hu : B0.updates h = some B) :
    ∃ M : Matrix (Fin n) (Fin n) K, M.IsSymm ∧ (∀ x, x ≠ 0 → 0 < x ⬝ᵥ M *ᵥ x) ∧
      ∀ x, B.apply x = bfgsMatrix M h *ᵥ x := by
  cases h0 with
  | identity =>
    refine ⟨1, Matrix.isSymm_one, fun x hx => ?_, (C108_identity h).2 B hu⟩
    rw [Matrix.one_mulVec]; exact dot_self_pos hx
  | updated =>
    rcases List.eq_nil_or_concat h with rfl | ⟨h, ⟨s, y⟩, hc⟩
    · simp [Hess.updates] at hu
      subst hu
      refine ⟨1, Matrix.isSymm_one, fun x hx => ?_, fun x => ?_⟩
      · rw [Matrix.one_mulVec]; exact dot_self_pos hx
      · simp [Hess.apply, updatedScaledHess, H0.apply, bfgsMatrix]
    · rw [List.concat_eq_append] at hc
      subst hc
      refine ⟨_, ?_, ?_, C108_updated_scaled h s y B hu⟩
      · exact Matrix.IsSymm.smul Matrix.isSymm_one _
      · exact smul_one_pos (scale_pos (hp (s, y) (by simp)))
  | static =>
    rcases h with _ | ⟨⟨s, y⟩, h⟩
    · simp [Hess.updates] at hu
      subst hu
      refine ⟨1, Matrix.isSymm_one, fun x hx => ?_, fun x => ?_⟩
      · rw [Matrix.one_mulVec]; exact dot_self_pos hx
      · simp [Hess.apply, staticScaledHess, H0.apply, bfgsMatrix]
    · refine ⟨_, ?_, ?_, C108_static_scaled h s y B hu⟩
      · exact Matrix.IsSymm.smul Matrix.isSymm_one _
      · exact smul_one_pos (scale_pos (hp (s, y) (by simp)))
  | diag D hD B0 hB =>
    refine ⟨_, ?_, ?_, (C108_diagonal D h).2 _ B hB hu⟩
    · exact Matrix.isSymm_diagonal _
    · intro x hx
      obtain ⟨i, hi⟩ := Function.ne_iff.1 hx
      refine Finset.sum_pos' (fun j _ => ?_) ⟨i, Finset.mem_univ _, ?_⟩
      · rw [Matrix.mulVec_diagonal]
        have := hD j
        have : 0 ≤ 1 / D j * (x j * x j) := mul_nonneg (by positivity) (mul_self_nonneg _)
        linarith
      · rw [Matrix.mulVec_diagonal]
        have := hD i
        have : 0 < 1 / D i * (x i * x i) := mul_pos (by positivity) (mul_self_pos.2 hi)
        linarith
  | runtime op M hop hs hM =>
    exact ⟨M, hs, hM, C108_runtime op M hop h B hu⟩

/-- C109: after any history of pairs with `y·s > 0` on an operator with positive definite start, the
operator exists, is symmetric and positive definite (so minus its action on the gradient is a descent
direction), and maps the newest gradient difference to the newest step. -/
theorem C109_quasi_newton {B0 : Hess n K} (h0 : PosStart B0) (h : List ((Fin n → K) × (Fin n → K)))
    (hp : ∀ sy ∈ h, 0 < sy.2 ⬝ᵥ sy.1) :
    ∃ B, B0.updates h = some B ∧ (∀ x z, x ⬝ᵥ B.apply z = z ⬝ᵥ B.apply x) ∧
      (∀ g, g ≠ 0 → g ⬝ᵥ -(B.apply g) < 0) ∧ ∀ h' s y, h = h' ++ [(s, y)] → B.apply y = s := by
  cases hu : B0.updates h with
  | none =>
    obtain ⟨sy, h1, h2⟩ := (updates_none_iff _ _).1 hu
    exact absurd h2 (hp sy h1).ne'
  | some B =>
    obtain ⟨M, hs, hM, hB⟩ := posStart_matrix h0 h hp hu
    refine ⟨B, rfl, fun x z => ?_, fun g hg => ?_, ?_⟩
    · rw [hB, hB, Matrix.dotProduct_mulVec, dotProduct_comm, ← Matrix.mulVec_transpose, bfgsMatrix_symm hs h]
    · have := bfgsMatrix_pos hs hM h hp g hg
      rw [hB, dotProduct_neg]; linarith
    · rintro h' s y rfl
      rw [hB, bfgsMatrix_append]
      exact bfgsUpdate_secant _ _ _ (hp (s, y) (by simp)).ne'

/-- two pairs with positive curvature on three coordinates -/
def exHist : List ((Fin 3 → Rat) × (Fin 3 → Rat)) := [(![1, 0, 2], ![2, 1, 1]), (![0, 1, 1], ![-1, 3, 1])]

example : ∀ sy ∈ exHist, 0 < sy.2 ⬝ᵥ sy.1 := by decide +kernel

example : ((staticScaledHess : Hess 3 Rat).updates exHist).map (fun B => B.apply ![-1, 3, 1]) =
    some ![0, 1, 1] := by decide +kernel

/-- C109 needs positive curvature, which the backtracking line search does not enforce: one pair with
`y·s < 0` gives an operator whose "descent" direction goes uphill. -/
theorem C109_needs_curvature :
    ((identityHess : Hess 2 Rat).updates [(![1, 0], ![-1, 0])]).map
      (fun B => (![1, 0] : Fin 2 → Rat) ⬝ᵥ -(B.apply ![1, 0])) = some 1 := by decide +kernel

end Bfgs
end Macis
