import Verif.Lemmas.Lobpcg
import Mathlib.Analysis.InnerProductSpace.GramSchmidtOrtho
import Mathlib.Analysis.InnerProductSpace.PiL2
/-! Routines meeting the LAPACK specifications assumed for LOBPCG exist over the reals. -/
namespace Macis
open Spec Finset

/-- back substitution with a lower triangular matrix -/
theorem back_subst {L : Nat → Nat → ℝ} {n : Nat} (hL : ∀ i < n, 0 < L i i) (l : Nat → ℝ) :
    ∃ y : Nat → ℝ, ∀ m < n, ∑ i ∈ Ico m n, y i * L i m = l m := by
  let L' : Nat → Nat → ℝ := fun j k => L (n - 1 - k) (n - 1 - j)
  let V' : Nat → Unit → ℝ := fun j _ => l (n - 1 - j)
  have hL' : ∀ i < n, 0 < L' i i := fun i hi => hL _ (by omega)
  refine ⟨fun i => trsmCols n L' V' (n - 1 - i) (), fun m hm => ?_⟩
  have h := trsm_factor hL' V' (show n - 1 - m < n by omega) ()
  simp only [V', L'] at h
  rw [show n - 1 - (n - 1 - m) = m by omega] at h
  rw [h]
  refine sum_bij' (fun i _ => n - 1 - i) (fun k _ => n - 1 - k) ?_ ?_ ?_ ?_ ?_
  · intro i hi; rw [mem_Ico] at hi; rw [mem_range]; omega
  · intro k hk; rw [mem_range] at hk; rw [mem_Ico]; omega
  · intro i hi; rw [mem_Ico] at hi; omega
  · intro k hk; rw [mem_range] at hk; omega
  · intro i hi
    rw [mem_Ico] at hi
    rw [show n - 1 - (n - 1 - i) = i by omega]

/-- a symmetric matrix either has a Cholesky factor or a direction that is not positive -/
theorem cholesky_exists (G : Nat → Nat → ℝ) (hG : ∀ i j, G i j = G j i) (n : Nat) :
    (∃ L : Nat → Nat → ℝ, (∀ i < n, 0 < L i i) ∧
      ∀ i < n, ∀ j ≤ i, (∑ k ∈ range (j + 1), L i k * L j k) = G i j) ∨
    ∃ v : Nat → ℝ, (∃ i < n, v i ≠ 0) ∧ ∑ i ∈ range n, ∑ j ∈ range n, v i * v j * G i j ≤ 0 := by
  induction n with
  | zero => exact Or.inl ⟨fun _ _ => 0, fun i hi => absurd hi (by omega), fun i hi => absurd hi (by omega)⟩
  | succ n ih =>
    rcases ih with ⟨L, hL, hf⟩ | ⟨v, ⟨i, hi, hv⟩, hle⟩
    · -- the new row
      let V' : Nat → Unit → ℝ := fun j _ => G n j
      let l : Nat → ℝ := fun k => trsmCols n L V' k ()
      have hl : ∀ j < n, ∑ k ∈ range (j + 1), l k * L j k = G n j := fun j hj =>
        (trsm_factor hL V' hj ()).symm
      by_cases hd : 0 < G n n - ∑ k ∈ range n, l k * l k
      · left
        refine ⟨fun i k => if i = n then (if k = n then Real.sqrt (G n n - ∑ k ∈ range n, l k * l k) else l k)
          else L i k, ?_, ?_⟩
        · intro i hi
          by_cases e : i = n
          · subst e; simp only [if_true]; exact Real.sqrt_pos.2 hd
          · simp only [if_neg e]; exact hL i (by omega)
        · intro i hi j hj
          by_cases e : i = n
          · subst e
            by_cases e2 : j = i
            · subst e2
              rw [sum_range_succ]
              simp only [if_true]
              rw [Real.mul_self_sqrt hd.le]
              rw [sum_congr rfl (g := fun k => l k * l k)]
              · ring
              · intro k hk
                rw [if_neg (mem_range.1 hk).ne]
            · simp only [if_true, if_neg e2]
              rw [← hl j (by omega)]
              refine sum_congr rfl fun k hk => ?_
              have := mem_range.1 hk
              rw [if_neg (show k ≠ i by omega)]
          · have : j ≠ n := by omega
            simp only [if_neg e, if_neg this]
            exact hf i (by omega) j hj
      · right
        obtain ⟨y, hy⟩ := back_subst hL l
        let L0 : Nat → Nat → ℝ := fun i k => if k ≤ i then L i k else 0
        have hu : ∀ m < n, ∑ i ∈ range n, y i * L0 i m = l m := by
          intro m hm
          rw [← hy m hm]
          have : Ico m n = (range n).filter fun i => m ≤ i := by
            ext x; simp only [mem_Ico, mem_filter, mem_range]; omega
          rw [this, sum_filter]
          refine sum_congr rfl fun i _ => ?_
          simp only [L0]
          split_ifs
          · rfl
          · rw [mul_zero]
        have hL0 : ∀ (f : Nat → ℝ) (j : Nat), j < n → ∑ k ∈ range n, f k * L0 j k = ∑ k ∈ range (j + 1), f k * L j k := by
          intro f j hj
          have : range (j + 1) = (range n).filter fun k => k ≤ j := by
            ext x; simp only [mem_filter, mem_range]; omega
          rw [this, sum_filter]
          refine sum_congr rfl fun i _ => ?_
          simp only [L0]
          split_ifs
          · rfl
          · rw [mul_zero]
        have hGn : ∀ j < n, G n j = ∑ k ∈ range n, l k * L0 j k := fun j hj => by
          rw [hL0 l j hj, hl j hj]
        have hG1 : ∀ i < n, ∀ j ≤ i, G i j = ∑ k ∈ range n, L0 i k * L0 j k := by
          intro i hi j hj
          rw [hL0 (fun k => L0 i k) j (by omega), ← hf i hi j hj]
          refine sum_congr rfl fun k hk => ?_
          have := mem_range.1 hk
          simp only [L0]
          rw [if_pos (by omega)]
        have hGij : ∀ i < n, ∀ j < n, G i j = ∑ k ∈ range n, L0 i k * L0 j k := by
          intro i hi j hj
          rcases Nat.le_total j i with h | h
          · exact hG1 i hi j h
          · rw [hG i j, hG1 j hj i h]
            exact sum_congr rfl fun k _ => mul_comm _ _
        refine ⟨fun i => if i = n then 1 else -y i, ⟨n, by omega, by simp⟩, ?_⟩
        have e1 : ∑ i ∈ range n, ∑ j ∈ range n, y i * y j * G i j = ∑ k ∈ range n, l k * l k := by
          have : ∀ i ∈ range n, ∀ j ∈ range n, y i * y j * G i j =
              ∑ k ∈ range n, (y i * L0 i k) * (y j * L0 j k) := by
            intro i hi j hj
            rw [hGij i (mem_range.1 hi) j (mem_range.1 hj), mul_sum]
            exact sum_congr rfl fun k _ => by ring
          rw [sum_congr rfl fun i hi => sum_congr rfl fun j hj => this i hi j hj]
          rw [sum_congr rfl fun i _ => sum_comm, sum_comm]
          refine sum_congr rfl fun k hk => ?_
          rw [← sum_mul_sum, hu k (mem_range.1 hk)]
        have e2 : ∑ i ∈ range n, y i * G n i = ∑ k ∈ range n, l k * l k := by
          rw [sum_congr rfl fun i hi => by rw [hGn i (mem_range.1 hi), mul_sum]]
          rw [sum_comm]
          refine sum_congr rfl fun k hk => ?_
          rw [← hu k (mem_range.1 hk), sum_mul, sum_congr rfl fun i _ =>
            show y i * ((∑ i ∈ range n, y i * L0 i k) * L0 i k) =
              (y i * L0 i k) * (∑ i ∈ range n, y i * L0 i k) by ring]
        rw [sum_range_succ]
        have r1 : ∀ i ∈ range n, ∑ j ∈ range (n + 1), (if i = n then (1 : ℝ) else -y i) * (if j = n then 1 else -y j) * G i j =
            ∑ j ∈ range n, y i * y j * G i j - y i * G n i := by
          intro i hi
          have hi := mem_range.1 hi
          rw [sum_range_succ, if_pos rfl, if_neg hi.ne, hG i n]
          rw [sum_congr rfl (g := fun j => y i * y j * G i j)]
          · ring
          · intro j hj
            rw [if_neg (mem_range.1 hj).ne]; ring
        have r2 : ∑ j ∈ range (n + 1), (if n = n then (1 : ℝ) else -y n) * (if j = n then 1 else -y j) * G n j =
            G n n - ∑ j ∈ range n, y j * G n j := by
          rw [sum_range_succ]
          simp only [if_true]
          rw [sum_congr rfl (g := fun j => -(y j * G n j))]
          · rw [sum_neg_distrib]; ring
          · intro j hj
            rw [if_neg (mem_range.1 hj).ne]; ring
        rw [sum_congr rfl r1, r2, sum_sub_distrib, e1, e2]
        have := not_lt.1 hd
        linarith
    · right
      refine ⟨fun j => if j = n then 0 else v j, ⟨i, by omega, by simp only [if_neg (show i ≠ n by omega)]; exact hv⟩, ?_⟩
      refine le_trans (le_of_eq ?_) hle
      rw [sum_range_succ]
      simp only [if_true, zero_mul, sum_const_zero, add_zero]
      refine sum_congr rfl fun i hi => ?_
      rw [sum_range_succ]
      simp only [if_true, mul_zero, zero_mul, add_zero]
      refine sum_congr rfl fun j hj => ?_
      rw [if_neg (mem_range.1 hi).ne, if_neg (mem_range.1 hj).ne]

open Classical in
theorem exists_potrf : ∃ potrf, PotrfSpec potrf := by
  refine ⟨fun n G => if h : ∃ L : Nat → Nat → ℝ, (∀ i < n, 0 < L i i) ∧
      ∀ i < n, ∀ j ≤ i, (∑ k ∈ range (j + 1), L i k * L j k) = G i j then some h.choose else none, ?_⟩
  intro n G hG
  by_cases h : ∃ L : Nat → Nat → ℝ, (∀ i < n, 0 < L i i) ∧
      ∀ i < n, ∀ j ≤ i, (∑ k ∈ range (j + 1), L i k * L j k) = G i j
  · simp only [dif_pos h]
    exact h.choose_spec
  · simp only [dif_neg h]
    exact (cholesky_exists G hG n).resolve_left h

theorem exists_syevMat : ∃ syev, SyevMatSpec syev := by
  have : ∀ (n : Nat) (A : Nat → Nat → ℝ), ∃ r : (Nat → ℝ) × (Nat → Nat → ℝ),
      SymEig n (fun p q => if q ≤ p then A p q else A q p) r.1 r.2 := by
    intro n A
    obtain ⟨W, Z, h⟩ := exists_symEig n (fun p q => if q ≤ p then A p q else A q p) (by
      intro p q
      rcases lt_trichotomy p q with h | h | h
      · simp [Nat.not_le.mpr h, h.le]
      · simp [h]
      · simp [Nat.not_le.mpr h, h.le])
    exact ⟨(W, Z), h⟩
  exact ⟨fun n A => (this n A).choose, fun n A => (this n A).choose_spec⟩

theorem exists_lq : ∃ lq, LqSpec lq := by
  have : ∀ (m n : Nat) (B : Nat → Nat → ℝ), ∃ Q : Nat → Nat → ℝ, m ≤ n →
      (∀ j < n, ∀ k < n, (∑ p ∈ range n, Q j p * Q k p) = if j = k then 1 else 0) ∧
      ∀ i < m, ∀ j < n, i < j → (∑ p ∈ range n, B i p * Q j p) = 0 := by
    intro m n B
    let f : Fin n → EuclideanSpace ℝ (Fin n) := fun i => WithLp.toLp 2 fun p => B i p
    let b := InnerProductSpace.gramSchmidtOrthonormalBasis (𝕜 := ℝ)
      (show Module.finrank ℝ (EuclideanSpace ℝ (Fin n)) = Fintype.card (Fin n) by simp) f
    refine ⟨fun j p => if h : j < n ∧ p < n then b ⟨j, h.1⟩ ⟨p, h.2⟩ else 0, fun hmn => ⟨?_, ?_⟩⟩
    · intro j hj k hk
      have h2 := (orthonormal_iff_ite.mp b.orthonormal) ⟨j, hj⟩ ⟨k, hk⟩
      rw [EuclideanSpace.inner_eq_star_dotProduct] at h2
      rw [sum_range]
      simp [hj, hk]
      simp [dotProduct] at h2
      rw [← h2]
      exact sum_congr rfl fun p _ => mul_comm _ _
    · intro i hi j hj hij
      have h2 : inner ℝ (b ⟨j, hj⟩) (f ⟨i, by omega⟩) = 0 :=
        InnerProductSpace.gramSchmidtOrthonormalBasis_inv_triangular _ f (by simpa [Fin.lt_def] using hij)
      rw [EuclideanSpace.inner_eq_star_dotProduct] at h2
      rw [sum_range]
      simp [hj]
      simp [dotProduct, f] at h2
      exact h2
  exact ⟨fun m n B => (this m n B).choose, fun m n B h => (this m n B).choose_spec h⟩

theorem exists_lobLapack : ∃ lp : LobLapack, PotrfSpec lp.potrf ∧ SyevMatSpec lp.syev ∧ LqSpec lp.lq := by
  obtain ⟨a, ha⟩ := exists_potrf
  obtain ⟨b, hb⟩ := exists_syevMat
  obtain ⟨c, hc⟩ := exists_lq
  exact ⟨⟨a, b, c⟩, ha, hb, hc⟩

end Macis
