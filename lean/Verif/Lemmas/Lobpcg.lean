import Verif.Model.Lobpcg
import Verif.Spec.Lobpcg
import Verif.Lemmas.Davidson
import Verif.Lemmas.Syev
import Mathlib.LinearAlgebra.Matrix.Block
import Mathlib.LinearAlgebra.Matrix.NonsingularInverse
import Mathlib.LinearAlgebra.Dimension.Constructions
import Mathlib.LinearAlgebra.FiniteDimensional.Basic
import Mathlib.Analysis.InnerProductSpace.GramSchmidtOrtho
import Mathlib.Analysis.InnerProductSpace.PiL2
/-! Lemmas on the LOBPCG model. -/
namespace Macis
open Spec Finset
variable {ι : Type} [Fintype ι]

/-! ### trsm and CholQR -/

/-- column `j` of the solution in terms of the columns before it -/
theorem trsm_spec (L : Nat → Nat → ℝ) (V : Nat → ι → ℝ) (K : Nat) :
    (∀ j < K, ∀ t, trsmCols K L V j t =
      (V j t - ∑ k ∈ range j, trsmCols K L V k t * L j k) / L j j) ∧
    ∀ j, K ≤ j → trsmCols K L V j = V j := by
  induction K with
  | zero => exact ⟨fun j hj => absurd hj (by omega), fun j _ => rfl⟩
  | succ K ih =>
    have hstep : trsmCols (K + 1) L V = Function.update (trsmCols K L V) K
        (fun t => (trsmCols K L V K t - ∑ k ∈ range K, trsmCols K L V k t * L K k) / L K K) := by
      unfold trsmCols
      rw [List.range_succ, List.foldl_append]
      rfl
    have hlt : ∀ j < K, trsmCols (K + 1) L V j = trsmCols K L V j := by
      intro j hj
      rw [hstep, Function.update_of_ne hj.ne]
    refine ⟨fun j hj t => ?_, fun j hj => ?_⟩
    · rcases Nat.lt_succ_iff_lt_or_eq.1 hj with h | rfl
      · rw [hlt j h, ih.1 j h t]
        congr 2
        refine sum_congr rfl fun k hk => ?_
        rw [hlt k (by have := mem_range.1 hk; omega)]
      · rw [sum_congr rfl fun k hk => by rw [hlt k (mem_range.1 hk)]]
        conv_lhs => rw [hstep, Function.update_self]
        rw [ih.2 j (le_refl j)]
    · rw [hstep, Function.update_of_ne (by omega)]
      exact ih.2 j (by omega)

theorem trsm_factor {L : Nat → Nat → ℝ} {K : Nat} (hL : ∀ i < K, 0 < L i i) (V : Nat → ι → ℝ) {j : Nat}
    (hj : j < K) (t : ι) : V j t = ∑ k ∈ range (j + 1), trsmCols K L V k t * L j k := by
  rw [sum_range_succ, (trsm_spec L V K).1 j hj t, div_mul_cancel₀ _ (hL j hj).ne']
  ring

theorem vdot_sum_left {s : Finset Nat} (f : Nat → ι → ℝ) (c : Nat → ℝ) (y : ι → ℝ) :
    vdot (fun t => ∑ k ∈ s, f k t * c k) y = ∑ k ∈ s, c k * vdot (f k) y := by
  unfold vdot
  simp_rw [Finset.sum_mul, Finset.mul_sum]
  rw [Finset.sum_comm]
  exact sum_congr rfl fun _ _ => sum_congr rfl fun _ _ => by ring

/-- what is orthogonal to the columns stays orthogonal -/
theorem trsm_orth {L : Nat → Nat → ℝ} {K : Nat} (V : Nat → ι → ℝ) {y : ι → ℝ}
    (h : ∀ j < K, vdot y (V j) = 0) : ∀ j < K, vdot y (trsmCols K L V j) = 0 := by
  intro j
  induction j using Nat.strong_induction_on with
  | _ j ih =>
    intro hj
    have e : trsmCols K L V j = fun t => (1 / L j j) * (V j t - ∑ k ∈ range j, trsmCols K L V k t * L j k) := by
      funext t
      rw [(trsm_spec L V K).1 j hj t]; ring
    rw [e, vdot_smul_right, vdot_sub_right, h j hj, vdot_comm, vdot_sum_left]
    rw [sum_eq_zero]
    · ring
    · intro k hk
      have hk := mem_range.1 hk
      rw [vdot_comm, ih k hk (by omega), mul_zero]

/-- CholQR step: the result is orthonormal -/
theorem trsm_orthonormal {L : Nat → Nat → ℝ} {K : Nat} (hL : ∀ i < K, 0 < L i i) (V : Nat → ι → ℝ)
    (hG : ∀ i < K, ∀ j ≤ i, (∑ k ∈ range (j + 1), L i k * L j k) = vdot (V i) (V j)) :
    OrthonormalCols K (trsmCols K L V) := by
  set X := trsmCols K L V with hX
  have hV : ∀ j < K, V j = fun t => ∑ k ∈ range (j + 1), X k t * L j k :=
    fun j hj => funext fun t => trsm_factor hL V hj t
  -- strong induction on the larger index, then on the smaller
  have key : ∀ i, i < K → ∀ j, j ≤ i → vdot (X i) (X j) = if i = j then 1 else 0 := by
    intro i
    induction i using Nat.strong_induction_on with
    | _ i ihi =>
      intro hi
      have hlow : ∀ j, j < i → vdot (X i) (X j) = 0 := by
        intro j
        induction j using Nat.strong_induction_on with
        | _ j ihj =>
          intro hj
          have g := hG i hi j hj.le
          rw [hV i hi, hV j (by omega), vdot_sum_left] at g
          have g2 : ∀ k ∈ range (i + 1), L i k * vdot (X k) (fun t => ∑ l ∈ range (j + 1), X l t * L j l) =
              if k ≤ j then L i k * L j k else if k = i then L i i * (L j j * vdot (X i) (X j)) else 0 := by
            intro k hk
            have hk := mem_range.1 hk
            rw [vdot_comm, vdot_sum_left]
            by_cases hkj : k ≤ j
            · rw [if_pos hkj]
              congr 1
              rw [sum_eq_single k]
              · rcases Nat.lt_or_ge k i with h | h
                · rw [ihi k h (by omega) k (le_refl k), if_pos rfl, mul_one]
                · omega
              · intro l hl hlk
                have hl := mem_range.1 hl
                rcases Nat.lt_or_ge l k with h | h
                · rw [vdot_comm, ihi k (by omega) (by omega) l h.le, if_neg (by omega), mul_zero]
                · rw [ihi l (by omega) (by omega) k h, if_neg hlk, mul_zero]
              · intro h; exact absurd (mem_range.2 (by omega)) h
            · rw [if_neg hkj]
              by_cases hki : k = i
              · subst hki
                rw [if_pos rfl, sum_range_succ, sum_eq_zero, zero_add, vdot_comm (X j)]
                intro l hl
                have hl := mem_range.1 hl
                rw [vdot_comm, ihj l hl (by omega), mul_zero]
              · rw [if_neg hki, sum_eq_zero, mul_zero]
                intro l hl
                have hl := mem_range.1 hl
                rw [vdot_comm, ihi k (by omega) (by omega) l (by omega), if_neg (by omega), mul_zero]
          rw [sum_congr rfl g2] at g
          have hs : ∑ k ∈ range (i + 1), (if k ≤ j then L i k * L j k else
              if k = i then L i i * (L j j * vdot (X i) (X j)) else 0) =
              ∑ k ∈ range (j + 1), L i k * L j k + L i i * (L j j * vdot (X i) (X j)) := by
            rw [sum_range_succ, if_neg (by omega), if_pos rfl]
            congr 1
            have : range i = range (j + 1) ∪ Ico (j + 1) i := by
              ext x; simp only [mem_range, mem_union, mem_Ico]; omega
            rw [this, sum_union (by
              rw [disjoint_left]; intro x; simp only [mem_range, mem_Ico]; omega)]
            rw [sum_congr rfl (g := fun k => L i k * L j k), add_eq_left]
            · apply sum_eq_zero
              intro x hx
              have := mem_Ico.1 hx
              rw [if_neg (by omega), if_neg (by omega)]
            · intro x hx
              have := mem_range.1 hx
              rw [if_pos (by omega)]
          rw [hs] at g
          have g := (add_eq_left.1 g.symm)
          have h1 := (hL i hi).ne'
          have h2 := (hL j (by omega)).ne'
          rcases mul_eq_zero.1 g with h | h
          · exact absurd h h1
          · exact (mul_eq_zero.1 h).resolve_left h2
      have hdiag : vdot (X i) (X i) = 1 := by
        have g := hG i hi i (le_refl i)
        rw [hV i hi, vdot_sum_left] at g
        have g2 : ∀ k ∈ range (i + 1), L i k * vdot (X k) (fun t => ∑ l ∈ range (i + 1), X l t * L i l) =
            if k = i then L i i * (L i i * vdot (X i) (X i)) else L i k * L i k := by
          intro k hk
          have hk := mem_range.1 hk
          rw [vdot_comm, vdot_sum_left]
          by_cases hki : k = i
          · subst hki
            rw [if_pos rfl, sum_range_succ, sum_eq_zero, zero_add]
            intro l hl
            rw [vdot_comm, hlow l (mem_range.1 hl), mul_zero]
          · rw [if_neg hki]
            congr 1
            rw [sum_eq_single k]
            · rw [ihi k (by omega) (by omega) k (le_refl k), if_pos rfl, mul_one]
            · intro l hl hlk
              have hl := mem_range.1 hl
              rcases Nat.lt_or_ge l i with hli | hli
              · rcases Nat.lt_or_ge l k with h | h
                · rw [vdot_comm, ihi k (by omega) (by omega) l h.le, if_neg (by omega), mul_zero]
                · rw [ihi l (by omega) (by omega) k h, if_neg hlk, mul_zero]
              · have : l = i := by omega
                subst this
                rw [hlow k (by omega), mul_zero]
            · intro h; exact absurd (mem_range.2 (by omega)) h
        rw [sum_congr rfl g2, sum_range_succ, sum_range_succ, if_pos rfl] at g
        obtain g3 : ∑ x ∈ range i, (if x = i then L i i * (L i i * vdot (X i) (X i)) else L i x * L i x) =
            ∑ x ∈ range i, L i x * L i x := by
          refine sum_congr rfl fun k hk => ?_
          rw [if_neg (mem_range.1 hk).ne]
        rw [g3] at g
        have h1 := (hL i hi).ne'
        have h2 : L i i * L i i * (vdot (X i) (X i) - 1) = 0 := by linear_combination -g
        rcases mul_eq_zero.1 h2 with h | h
        · exact absurd h (mul_ne_zero h1 h1)
        · linarith
      intro j hj
      rcases Nat.lt_or_eq_of_le hj with h | rfl
      · rw [if_neg h.ne', hlow j h]
      · rw [if_pos rfl, hdiag]
  intro p hp q hq
  change vdot (X p) (X q) = _
  rcases Nat.le_total q p with h | h
  · rw [key p hp q h]
  · rw [vdot_comm, key q hq p h]
    by_cases e : p = q
    · rw [if_pos e.symm, if_pos e]
    · rw [if_neg (fun x => e x.symm), if_neg e]

theorem combine_norm (K : Nat) (V : Nat → ι → ℝ) (v : Nat → ℝ) :
    ∑ i ∈ range K, ∑ j ∈ range K, v i * v j * vdot (V i) (V j) = vdot (combine K V v) (combine K V v) := by
  rw [vdot_combine_left]
  refine sum_congr rfl fun i _ => ?_
  rw [vdot_combine_right, mul_sum]
  exact sum_congr rfl fun j _ => by ring

theorem vdot_self_zero {x : ι → ℝ} (h : vdot x x ≤ 0) : x = 0 := by
  have h0 : vdot x x = 0 := le_antisymm h (vdot_self_nonneg x)
  unfold vdot at h0
  rw [sum_eq_zero_iff_of_nonneg (fun _ _ => mul_self_nonneg _)] at h0
  funext t
  exact mul_self_eq_zero.1 (h0 t (mem_univ t))

/-- columns that admit a nontrivial vanishing combination -/
def Dependent (K : Nat) (V : Nat → ι → ℝ) : Prop :=
  ∃ v : Nat → ℝ, (∃ i < K, v i ≠ 0) ∧ combine K V v = 0

theorem not_dependent_of_orthonormal {K : Nat} {V : Nat → ι → ℝ} (h : OrthonormalCols K V) :
    ¬ Dependent K V := by
  rintro ⟨v, ⟨i, hi, hv⟩, h0⟩
  have e := vdot_combine_right (V i) K V v
  rw [h0, sum_eq_single i] at e
  · have : vdot (V i) (V i) = 1 := by rw [vdot, h i hi i hi, if_pos rfl]
    rw [this, one_mul] at e
    apply hv
    rw [← e]; simp [vdot]
  · intro j hj hji
    have : vdot (V i) (V j) = 0 := by rw [vdot, h i hi j (mem_range.1 hj), if_neg hji.symm]
    rw [this, zero_mul]
  · intro h; exact absurd (mem_range.2 hi) h

/-- one Cholesky step -/
theorem potrf_cases {lp : LobLapack} (hp : PotrfSpec lp.potrf) (K : Nat) (V : Nat → ι → ℝ) :
    (Dependent K V ∧ lp.potrf K (fun i j => vdot (V i) (V j)) = none) ∨
    (¬ Dependent K V ∧ ∃ L, lp.potrf K (fun i j => vdot (V i) (V j)) = some L ∧
      OrthonormalCols K (trsmCols K L V)) := by
  have h := hp K (fun i j => vdot (V i) (V j)) (fun i j => vdot_comm _ _)
  cases e : lp.potrf K (fun i j => vdot (V i) (V j)) with
  | none =>
    rw [e] at h
    obtain ⟨v, hv, hle⟩ := h
    rw [combine_norm] at hle
    exact Or.inl ⟨⟨v, hv, vdot_self_zero hle⟩, rfl⟩
  | some L =>
    rw [e] at h
    have ho := trsm_orthonormal h.1 V h.2
    refine Or.inr ⟨?_, L, rfl, ho⟩
    rintro ⟨v, ⟨i, hi, hv⟩, h0⟩
    -- the last nonzero coefficient gives a contradiction
    have hex : ∃ m, m < K ∧ v m ≠ 0 ∧ ∀ j, m < j → j < K → v j = 0 := by
      classical
      let s := (range K).filter fun j => v j ≠ 0
      have hs : s.Nonempty := ⟨i, by simp [s, hi, hv]⟩
      refine ⟨s.max' hs, ?_, ?_, ?_⟩
      · exact mem_range.1 (mem_filter.1 (s.max'_mem hs)).1
      · exact (mem_filter.1 (s.max'_mem hs)).2
      · intro j hj hjK
        by_contra hne
        have : j ∈ s := by simp [s, hjK, hne]
        exact absurd (s.le_max' j this) (by omega)
    obtain ⟨m, hm, hvm, hz⟩ := hex
    have e1 : vdot (trsmCols K L V m) (combine K V v) = 0 := by rw [h0]; simp [vdot]
    rw [vdot_combine_right, sum_eq_single m] at e1
    · have e2 : vdot (trsmCols K L V m) (V m) = L m m := by
        have : V m = fun t => ∑ k ∈ range (m + 1), trsmCols K L V k t * L m k :=
          funext fun t => trsm_factor h.1 V hm t
        rw [vdot_comm]
        conv_lhs => rw [this]
        rw [vdot_sum_left, sum_eq_single m]
        · rw [show vdot (trsmCols K L V m) (trsmCols K L V m) = 1 by
            rw [vdot, ho m hm m hm, if_pos rfl], mul_one]
        · intro k hk hkm
          have hk := mem_range.1 hk
          rw [show vdot (trsmCols K L V k) (trsmCols K L V m) = 0 by
            rw [vdot, ho k (by omega) m hm, if_neg hkm], mul_zero]
        · intro hh; exact absurd (mem_range.2 (by omega)) hh
      rw [e2] at e1
      rcases mul_eq_zero.1 e1 with h' | h'
      · exact absurd h' (h.1 m hm).ne'
      · exact hvm h'
    · intro j hj hjm
      have hj := mem_range.1 hj
      rcases Nat.lt_or_ge m j with h1 | h1
      · rw [hz j h1 hj, mul_zero]
      · have hlt : j < m := by omega
        rw [show vdot (trsmCols K L V m) (V j) = 0 by
          have : V j = fun t => ∑ k ∈ range (j + 1), trsmCols K L V k t * L j k :=
            funext fun t => trsm_factor h.1 V hj t
          rw [vdot_comm]
          conv_lhs => rw [this]
          rw [vdot_sum_left]
          apply sum_eq_zero
          intro k hk
          have hk := mem_range.1 hk
          rw [show vdot (trsmCols K L V k) (trsmCols K L V m) = 0 by
            rw [vdot, ho k (by omega) m hm, if_neg (by omega)], mul_zero], zero_mul]
    · intro hh; exact absurd (mem_range.2 hm) hh

/-- `cholqr` with its two repetitions: fails exactly on dependent columns, otherwise orthonormalises
them, staying orthogonal to whatever they were orthogonal to -/
theorem cholqr_spec {lp : LobLapack} (hp : PotrfSpec lp.potrf) (K : Nat) (V : Nat → ι → ℝ) :
    (Dependent K V ∧ cholqr lp K 2 V = none) ∨
    (¬ Dependent K V ∧ ∃ W, cholqr lp K 2 V = some W ∧ OrthonormalCols K W ∧
      ∀ y : ι → ℝ, (∀ j < K, vdot y (V j) = 0) → ∀ j < K, vdot y (W j) = 0) := by
  rcases potrf_cases hp K V with ⟨hd, e⟩ | ⟨hd, L, e, ho⟩
  · exact Or.inl ⟨hd, by rw [cholqr, e]⟩
  · refine Or.inr ⟨hd, ?_⟩
    rcases potrf_cases hp K (trsmCols K L V) with ⟨hd2, -⟩ | ⟨-, L2, e2, ho2⟩
    · exact absurd hd2 (not_dependent_of_orthonormal ho)
    · refine ⟨trsmCols K L2 (trsmCols K L V), ?_, ho2, fun y hy => trsm_orth _ (trsm_orth _ hy)⟩
      rw [cholqr, e]
      dsimp only
      rw [cholqr, e2]
      rfl

end Macis
