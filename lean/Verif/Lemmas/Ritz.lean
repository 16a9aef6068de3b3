import Verif.Spec.Lobpcg
import Mathlib.LinearAlgebra.Matrix.NonsingularInverse
import Mathlib.LinearAlgebra.FiniteDimensional.Lemmas
import Mathlib.LinearAlgebra.Dimension.Constructions
import Mathlib.Data.Real.Basic
import Mathlib.Tactic.Ring
import Mathlib.Tactic.Linarith
import Mathlib.Tactic.LinearCombination
/-! Interlacing: the ascending eigenvalues of a matrix bound the Ritz values of any subspace. -/
namespace Macis
open Spec Finset

/-- the rows of the eigenvector matrix are orthonormal too -/
theorem symEig_rows {n : Nat} {G : Nat → Nat → ℝ} {W : Nat → ℝ} {Z : Nat → Nat → ℝ} (h : SymEig n G W Z)
    {p q : Nat} (hp : p < n) (hq : q < n) :
    (∑ k ∈ range n, Z p k * Z q k) = if p = q then 1 else 0 := by
  let M : Matrix (Fin n) (Fin n) ℝ := Matrix.of fun i j => Z i j
  have h1 : M.transpose * M = 1 := by
    ext i j
    rw [Matrix.mul_apply, Matrix.one_apply]
    have := h.ortho i j i.2 j.2
    rw [sum_range] at this
    simp only [Matrix.transpose_apply, M, Matrix.of_apply]
    rw [this]
    exact if_congr (by rw [Fin.ext_iff]) rfl rfl
  have h2 : M * M.transpose = 1 := mul_eq_one_comm.1 h1
  have := congrFun (congrFun h2 ⟨p, hp⟩) ⟨q, hq⟩
  rw [Matrix.mul_apply, Matrix.one_apply] at this
  rw [sum_range]
  simp only [Matrix.transpose_apply, M, Matrix.of_apply] at this
  rw [this]
  exact if_congr (by rw [Fin.ext_iff]) rfl rfl

/-- the form of a vector in terms of its components along the eigenvectors -/
theorem symEig_form {n : Nat} {G : Nat → Nat → ℝ} {W : Nat → ℝ} {Z : Nat → Nat → ℝ} (h : SymEig n G W Z)
    (d : Nat → ℝ) :
    (∑ p ∈ range n, d p * d p) = ∑ j ∈ range n, (∑ p ∈ range n, Z p j * d p) ^ 2 ∧
    (∑ p ∈ range n, ∑ q ∈ range n, d p * G p q * d q) =
      ∑ j ∈ range n, W j * (∑ p ∈ range n, Z p j * d p) ^ 2 := by
  set e : Nat → ℝ := fun j => ∑ p ∈ range n, Z p j * d p with he
  have hd : ∀ p < n, d p = ∑ j ∈ range n, Z p j * e j := by
    intro p hp
    simp only [he]
    simp_rw [mul_sum]
    rw [sum_comm]
    rw [sum_eq_single p]
    · have : ∀ j ∈ range n, Z p j * (Z p j * d p) = Z p j * Z p j * d p := fun j _ => by ring
      rw [sum_congr rfl this, ← sum_mul, symEig_rows h hp hp, if_pos rfl, one_mul]
    · intro q hq hqp
      have : ∀ j ∈ range n, Z p j * (Z q j * d q) = Z p j * Z q j * d q := fun j _ => by ring
      rw [sum_congr rfl this, ← sum_mul, symEig_rows h hp (mem_range.1 hq), if_neg hqp.symm, zero_mul]
    · intro hh; exact absurd (mem_range.2 hp) hh
  have hGd : ∀ p < n, ∑ q ∈ range n, G p q * d q = ∑ j ∈ range n, W j * Z p j * e j := by
    intro p hp
    rw [sum_congr rfl fun q hq => by rw [hd q (mem_range.1 hq), mul_sum]]
    rw [sum_comm]
    refine sum_congr rfl fun j hj => ?_
    rw [← h.eig p j hp (mem_range.1 hj), sum_mul]
    exact sum_congr rfl fun q _ => by ring
  constructor
  · rw [sum_congr rfl fun p hp => by
      rw [show d p * d p = ∑ j ∈ range n, Z p j * d p * e j by
        conv_lhs => rw [hd p (mem_range.1 hp)]
        rw [← hd p (mem_range.1 hp), sum_congr rfl fun j _ =>
          show Z p j * d p * e j = d p * (Z p j * e j) by ring, ← mul_sum, ← hd p (mem_range.1 hp)]]]
    rw [sum_comm]
    refine sum_congr rfl fun j _ => ?_
    rw [← sum_mul, sq]
  · rw [sum_congr rfl fun p hp => by
      rw [show ∑ q ∈ range n, d p * G p q * d q = ∑ j ∈ range n, W j * (Z p j * d p) * e j by
        rw [sum_congr rfl fun q _ => show d p * G p q * d q = d p * (G p q * d q) by ring, ← mul_sum,
          hGd p (mem_range.1 hp), mul_sum]
        exact sum_congr rfl fun j _ => by ring]]
    rw [sum_comm]
    refine sum_congr rfl fun j _ => ?_
    rw [← sum_mul, ← mul_sum, sq]
    ring

/-- Cauchy interlacing in the form needed here: the `k`-th eigenvalue is at most the largest of the
`k + 1` Ritz values of any orthonormal vectors. -/
theorem ritz_le {n k : Nat} {G : Nat → Nat → ℝ} {W : Nat → ℝ} {Z : Nat → Nat → ℝ} (h : SymEig n G W Z)
    (hk : k < n) {D : Nat → Nat → ℝ} {th : Nat → ℝ}
    (hD : ∀ i ≤ k, ∀ j ≤ k, (∑ p ∈ range n, D p i * D p j) = if i = j then 1 else 0)
    (hDG : ∀ i ≤ k, ∀ j ≤ k, (∑ p ∈ range n, ∑ q ∈ range n, D p i * G p q * D q j) =
      if i = j then th i else 0)
    (hth : ∀ i ≤ k, th i ≤ th k) : W k ≤ th k := by
  classical
  -- a nonzero combination of the vectors orthogonal to the first k eigenvectors
  let f : (Fin (k + 1) → ℝ) →ₗ[ℝ] (Fin k → ℝ) :=
    { toFun := fun a j => ∑ p ∈ range n, Z p j * ∑ i : Fin (k + 1), D p i * a i
      map_add' := by
        intro a b
        funext j
        simp only [Pi.add_apply]
        rw [← sum_add_distrib]
        refine sum_congr rfl fun p _ => ?_
        rw [← mul_add, ← sum_add_distrib]
        congr 1
        exact sum_congr rfl fun i _ => by ring
      map_smul' := by
        intro c a
        funext j
        simp only [Pi.smul_apply, smul_eq_mul, RingHom.id_apply]
        rw [mul_sum]
        refine sum_congr rfl fun p _ => ?_
        rw [mul_left_comm]
        congr 1
        rw [mul_sum]
        exact sum_congr rfl fun i _ => by ring }
  have hker : LinearMap.ker f ≠ ⊥ := by
    apply LinearMap.ker_ne_bot_of_finrank_lt
    simp
  obtain ⟨a, ha, ha0⟩ := Submodule.exists_mem_ne_zero_of_ne_bot hker
  have hfa : ∀ j < k, ∑ p ∈ range n, Z p j * ∑ i : Fin (k + 1), D p i * a i = 0 := fun j hj =>
    congrFun (LinearMap.mem_ker.1 ha) ⟨j, hj⟩
  set d : Nat → ℝ := fun p => ∑ i : Fin (k + 1), D p i * a i with hd
  obtain ⟨f1, f2⟩ := symEig_form h d
  have s1 : ∑ p ∈ range n, d p * d p = ∑ i : Fin (k + 1), a i * a i := by
    simp only [hd]
    rw [sum_congr rfl fun p _ => sum_mul_sum _ _ _ _]
    rw [sum_comm]
    refine sum_congr rfl fun i _ => ?_
    rw [sum_comm, sum_eq_single i]
    · rw [sum_congr rfl fun p _ => show D p i * a i * (D p i * a i) = D p i * D p i * (a i * a i) by ring,
        ← sum_mul, hD i (by omega) i (by omega), if_pos rfl, one_mul]
    · intro j _ hji
      rw [sum_congr rfl fun p _ => show D p i * a i * (D p j * a j) = D p i * D p j * (a i * a j) by ring,
        ← sum_mul, hD i (by omega) j (by omega), if_neg (fun e => hji (Fin.ext e.symm)), zero_mul]
    · simp
  have s2 : ∑ p ∈ range n, ∑ q ∈ range n, d p * G p q * d q = ∑ i : Fin (k + 1), th i * (a i * a i) := by
    have e1 : ∀ p q, d p * G p q * d q = ∑ i : Fin (k + 1), ∑ j : Fin (k + 1),
        D p i * G p q * D q j * (a i * a j) := by
      intro p q
      simp only [hd]
      rw [sum_mul, sum_mul_sum]
      exact sum_congr rfl fun i _ => sum_congr rfl fun j _ => by ring
    simp_rw [e1]
    rw [sum_congr rfl fun p _ => sum_comm, sum_comm]
    refine sum_congr rfl fun i _ => ?_
    rw [sum_congr rfl fun p _ => sum_comm, sum_comm, sum_eq_single i]
    · simp_rw [← sum_mul]
      rw [hDG i (by omega) i (by omega), if_pos rfl]
    · intro j _ hji
      simp_rw [← sum_mul]
      rw [hDG i (by omega) j (by omega), if_neg (fun e => hji (Fin.ext e.symm)), zero_mul]
    · simp
  have hpos : 0 < ∑ i : Fin (k + 1), a i * a i := by
    obtain ⟨i, hi⟩ := Function.ne_iff.1 ha0
    exact sum_pos' (fun _ _ => mul_self_nonneg _) ⟨i, mem_univ i, by
      have : a i ≠ 0 := hi
      exact mul_self_pos.2 this⟩
  have u1 : ∑ i : Fin (k + 1), th i * (a i * a i) ≤ th k * ∑ i : Fin (k + 1), a i * a i := by
    rw [mul_sum]
    exact sum_le_sum fun i _ => mul_le_mul_of_nonneg_right (hth i (by omega)) (mul_self_nonneg _)
  have u2 : W k * (∑ i : Fin (k + 1), a i * a i) ≤ ∑ i : Fin (k + 1), th i * (a i * a i) := by
    rw [← s1, ← s2, f1, f2, mul_sum]
    refine sum_le_sum fun j hj => ?_
    rcases Nat.lt_or_ge j k with hjk | hjk
    · rw [hfa j hjk]; simp
    · exact mul_le_mul_of_nonneg_right (h.asc k j hjk (mem_range.1 hj)) (sq_nonneg _)
  exact le_of_mul_le_mul_right (u2.trans u1) hpos

end Macis
