import Verif.Spec.Fock1
import Mathlib.Algebra.BigOperators.Ring.Finset
import Mathlib.Algebra.BigOperators.Intervals
import Mathlib.Tactic.Ring
import Mathlib.Tactic.LinearCombination
import Mathlib.Tactic.FieldSimp

/-! Algebra of the full-space densities built from active-space ones. -/
namespace Macis
open Spec Finset
variable {R : Type} [Field R]

/-- a row of the core density -/
theorem core1_row {ni n : Nat} (hn : ni ≤ n) (p : Nat) (f : Nat → R) :
    ∑ q ∈ range n, core1 ni p q * f q = if p < ni then 2 * f p else 0 := by
  by_cases hp : p < ni
  · rw [if_pos hp, Finset.sum_eq_single p]
    · simp [core1, hp]
    · intro q _ hq
      rw [core1, if_neg (by tauto), zero_mul]
    · intro h; rw [mem_range] at h; omega
  · rw [if_neg hp]
    apply Finset.sum_eq_zero
    intro q _
    rw [core1, if_neg (by tauto), zero_mul]

theorem core1_symm (ni p q : Nat) : (core1 ni p q : R) = core1 ni q p := by
  rw [core1, core1]
  by_cases h : p = q
  · subst h; rfl
  · rw [if_neg (by tauto), if_neg (by rintro ⟨h', _⟩; exact h h'.symm)]

theorem core1_sum {ni n : Nat} (hn : ni ≤ n) (f : Nat → Nat → R) :
    ∑ p ∈ range n, ∑ q ∈ range n, core1 ni p q * f p q = 2 * ∑ i ∈ range ni, f i i := by
  have : ∀ p ∈ range n, ∑ q ∈ range n, core1 ni p q * f p q = if p < ni then 2 * f p p else 0 :=
    fun p _ => core1_row hn p (f p)
  rw [Finset.sum_congr rfl this, ← Finset.sum_filter, mul_sum]
  apply Finset.sum_congr _ (fun _ _ => rfl)
  ext p
  simp only [mem_filter, mem_range]; omega

/-- restriction of a sum to the active orbitals -/
theorem sum_active {ni na n : Nat} (hn : ni + na ≤ n) (f : Nat → R) :
    (∑ q ∈ range n, if ni ≤ q ∧ q < ni + na then f q else 0) =
      ∑ w ∈ range na, f (ni + w) := by
  rw [← Finset.sum_filter]
  symm
  apply Finset.sum_bij (fun w _ => ni + w)
  · intro w hw; simp only [mem_filter, mem_range] at *; omega
  · intro a _ b _ h; omega
  · intro q hq
    simp only [mem_filter, mem_range] at hq
    exact ⟨q - ni, by rw [mem_range]; omega, by omega⟩
  · intro w _; rfl

theorem act1_row {ni na n : Nat} (hn : ni + na ≤ n) (D : Nat → Nat → R) (p : Nat) (f : Nat → R) :
    ∑ q ∈ range n, act1 ni na D p q * f q =
      if ni ≤ p ∧ p < ni + na then ∑ w ∈ range na, D (p - ni) w * f (ni + w) else 0 := by
  by_cases hp : ni ≤ p ∧ p < ni + na
  · rw [if_pos hp, ← (show _ = ∑ w ∈ range na, D (p - ni) w * f (ni + w) from by
      have := sum_active hn (fun q => D (p - ni) (q - ni) * f q)
      simpa using this)]
    apply Finset.sum_congr rfl
    intro q _
    rw [act1]
    by_cases hq : ni ≤ q ∧ q < ni + na
    · rw [if_pos hq, if_pos (by tauto)]
    · rw [if_neg hq, if_neg (by tauto), zero_mul]
  · rw [if_neg hp]
    apply Finset.sum_eq_zero
    intro q _
    rw [act1, if_neg (by tauto), zero_mul]

theorem act1_sum {ni na n : Nat} (hn : ni + na ≤ n) (D : Nat → Nat → R) (f : Nat → Nat → R) :
    ∑ p ∈ range n, ∑ q ∈ range n, act1 ni na D p q * f p q =
      ∑ v ∈ range na, ∑ w ∈ range na, D v w * f (ni + v) (ni + w) := by
  have : ∀ p ∈ range n, ∑ q ∈ range n, act1 ni na D p q * f p q =
      if ni ≤ p ∧ p < ni + na then ∑ w ∈ range na, D (p - ni) w * f p (ni + w) else 0 :=
    fun p _ => act1_row hn D p (f p)
  rw [Finset.sum_congr rfl this,
    sum_active hn (fun p => ∑ w ∈ range na, D (p - ni) w * f p (ni + w))]
  apply Finset.sum_congr rfl
  intro v _
  simp

theorem act1_symm {ni na : Nat} {D : Nat → Nat → R} (hD : ∀ v w, v < na → w < na → D v w = D w v)
    (p q : Nat) : act1 ni na D p q = act1 ni na D q p := by
  rw [act1, act1]
  by_cases h : ni ≤ p ∧ p < ni + na ∧ ni ≤ q ∧ q < ni + na
  · rw [if_pos h, if_pos (by tauto), hD _ _ (by omega) (by omega)]
  · rw [if_neg h, if_neg (by tauto)]

/-- a row of the active two-body density -/
theorem act2_row {ni na n : Nat} (hn : ni + na ≤ n) (d : Nat → Nat → Nat → Nat → R) (p : Nat)
    (f : Nat → Nat → Nat → R) :
    ∑ q ∈ range n, ∑ r ∈ range n, ∑ s ∈ range n, act2 ni na d p q r s * f q r s =
      if ni ≤ p ∧ p < ni + na then ∑ w ∈ range na, ∑ x ∈ range na, ∑ y ∈ range na,
        d (p - ni) w x y * f (ni + w) (ni + x) (ni + y) else 0 := by
  by_cases hp : ni ≤ p ∧ p < ni + na
  · rw [if_pos hp]
    have e : ∀ q r s, act2 ni na d p q r s * f q r s =
        if ni ≤ q ∧ q < ni + na then (if ni ≤ r ∧ r < ni + na then
          (if ni ≤ s ∧ s < ni + na then d (p - ni) (q - ni) (r - ni) (s - ni) * f q r s else 0)
          else 0) else 0 := by
      intro q r s
      rw [act2]
      by_cases hq : ni ≤ q ∧ q < ni + na
      · by_cases hr : ni ≤ r ∧ r < ni + na
        · by_cases hs : ni ≤ s ∧ s < ni + na
          · rw [if_pos hq, if_pos hr, if_pos hs, if_pos (by tauto)]
          · rw [if_pos hq, if_pos hr, if_neg hs, if_neg (by tauto), zero_mul]
        · rw [if_pos hq, if_neg hr, if_neg (by tauto), zero_mul]
      · rw [if_neg hq, if_neg (by tauto), zero_mul]
    have e1 : ∀ q r, ∑ s ∈ range n, act2 ni na d p q r s * f q r s =
        if ni ≤ q ∧ q < ni + na then (if ni ≤ r ∧ r < ni + na then
          ∑ y ∈ range na, d (p - ni) (q - ni) (r - ni) y * f q r (ni + y) else 0) else 0 := by
      intro q r
      simp only [e]
      by_cases hq : ni ≤ q ∧ q < ni + na
      · by_cases hr : ni ≤ r ∧ r < ni + na
        · simp only [if_pos hq, if_pos hr]
          have := sum_active hn (fun s => d (p - ni) (q - ni) (r - ni) (s - ni) * f q r s)
          simpa using this
        · simp only [if_neg hr]; simp
      · simp only [if_neg hq]; simp
    have e2 : ∀ q, ∑ r ∈ range n, ∑ s ∈ range n, act2 ni na d p q r s * f q r s =
        if ni ≤ q ∧ q < ni + na then ∑ x ∈ range na, ∑ y ∈ range na,
          d (p - ni) (q - ni) x y * f q (ni + x) (ni + y) else 0 := by
      intro q
      simp only [e1]
      by_cases hq : ni ≤ q ∧ q < ni + na
      · simp only [if_pos hq]
        have := sum_active hn (fun r => ∑ y ∈ range na,
          d (p - ni) (q - ni) (r - ni) y * f q r (ni + y))
        simpa using this
      · simp only [if_neg hq]; simp
    simp only [e2]
    have := sum_active hn (fun q => ∑ x ∈ range na, ∑ y ∈ range na,
      d (p - ni) (q - ni) x y * f q (ni + x) (ni + y))
    simpa using this
  · rw [if_neg hp]
    apply Finset.sum_eq_zero; intro q _
    apply Finset.sum_eq_zero; intro r _
    apply Finset.sum_eq_zero; intro s _
    rw [act2, if_neg (by tauto), zero_mul]

/-- the seven contributions to a row of the full two-body density -/
theorem full2_row (ni na n : Nat) (D : Nat → Nat → R) (d : Nat → Nat → Nat → Nat → R) (p : Nat)
    (f : Nat → Nat → Nat → R) :
    ∑ q ∈ range n, ∑ r ∈ range n, ∑ s ∈ range n, full2 ni na D d p q r s * f q r s =
      1 / 2 * (∑ q ∈ range n, core1 ni p q * ∑ r ∈ range n, ∑ s ∈ range n, core1 ni r s * f q r s) -
      1 / 4 * (∑ s ∈ range n, core1 ni p s * ∑ r ∈ range n, ∑ q ∈ range n, core1 ni r q * f q r s) +
      1 / 2 * (∑ q ∈ range n, core1 ni p q *
        ∑ r ∈ range n, ∑ s ∈ range n, act1 ni na D r s * f q r s) +
      1 / 2 * (∑ q ∈ range n, act1 ni na D p q *
        ∑ r ∈ range n, ∑ s ∈ range n, core1 ni r s * f q r s) -
      1 / 4 * (∑ s ∈ range n, core1 ni p s *
        ∑ r ∈ range n, ∑ q ∈ range n, act1 ni na D r q * f q r s) -
      1 / 4 * (∑ s ∈ range n, act1 ni na D p s *
        ∑ r ∈ range n, ∑ q ∈ range n, core1 ni r q * f q r s) +
      ∑ q ∈ range n, ∑ r ∈ range n, ∑ s ∈ range n, act2 ni na d p q r s * f q r s := by
  have A : ∀ (a : Nat → R) (b : Nat → Nat → R),
      ∑ q ∈ range n, a q * ∑ r ∈ range n, ∑ s ∈ range n, b r s * f q r s =
        ∑ q ∈ range n, ∑ r ∈ range n, ∑ s ∈ range n, a q * b r s * f q r s := by
    intro a b
    apply Finset.sum_congr rfl; intro q _
    rw [mul_sum]
    apply Finset.sum_congr rfl; intro r _
    rw [mul_sum]
    apply Finset.sum_congr rfl; intro s _
    ring
  have B : ∀ (a : Nat → R) (b : Nat → Nat → R),
      ∑ s ∈ range n, a s * ∑ r ∈ range n, ∑ q ∈ range n, b r q * f q r s =
        ∑ q ∈ range n, ∑ r ∈ range n, ∑ s ∈ range n, a s * b r q * f q r s := by
    intro a b
    calc _ = ∑ s ∈ range n, ∑ r ∈ range n, ∑ q ∈ range n, a s * b r q * f q r s := by
          apply Finset.sum_congr rfl; intro s _
          rw [mul_sum]
          apply Finset.sum_congr rfl; intro r _
          rw [mul_sum]
          apply Finset.sum_congr rfl; intro q _
          ring
      _ = ∑ s ∈ range n, ∑ q ∈ range n, ∑ r ∈ range n, a s * b r q * f q r s := by
          apply Finset.sum_congr rfl; intro s _
          rw [Finset.sum_comm]
      _ = ∑ q ∈ range n, ∑ s ∈ range n, ∑ r ∈ range n, a s * b r q * f q r s := by
          rw [Finset.sum_comm]
      _ = _ := by
          apply Finset.sum_congr rfl; intro q _
          rw [Finset.sum_comm]
  rw [A, A, A, B, B, B]
  simp only [mul_sum, ← Finset.sum_add_distrib, ← Finset.sum_sub_distrib]
  apply Finset.sum_congr rfl; intro q _
  apply Finset.sum_congr rfl; intro r _
  apply Finset.sum_congr rfl; intro s _
  rw [full2]; ring

/-- inactive Fock matrix -/
def fi (ni : Nat) (h : Nat → Nat → R) (g : Nat → Nat → Nat → Nat → R) (p q : Nat) : R :=
  h p q + ∑ i ∈ range ni, (2 * g p q i i - g p i i q)

/-- active Fock matrix -/
def fa (ni na : Nat) (g : Nat → Nat → Nat → Nat → R) (D : Nat → Nat → R) (p q : Nat) : R :=
  ∑ v ∈ range na, ∑ w ∈ range na,
    D v w * (g p q (ni + v) (ni + w) - 1 / 2 * g p (ni + w) (ni + v) q)

variable {ni na n : Nat} {h : Nat → Nat → R} {g : Nat → Nat → Nat → Nat → R}
  {D : Nat → Nat → R} {d : Nat → Nat → Nat → Nat → R}

/-- inactive rows of the generalized Fock matrix -/
theorem genFock_inactive (h2 : (2 : R) ≠ 0) (hn : ni + na ≤ n) {i : Nat} (hi : i < ni) (o : Nat) :
    genFock n h g (full1 ni na D) (full2 ni na D d) i o = 2 * (fi ni h g o i + fa ni na g D o i) := by
  have hni : ni ≤ n := by omega
  have na1 : ¬ (ni ≤ i ∧ i < ni + na) := by omega
  rw [genFock, full2_row ni na n D d i (fun q r s => g o q r s)]
  have e1 : ∑ q ∈ range n, full1 ni na D i q * h o q = 2 * h o i := by
    simp only [full1, add_mul, Finset.sum_add_distrib]
    rw [core1_row hni i, act1_row hn D i, if_pos hi, if_neg na1, add_zero]
  rw [e1, core1_row hni i, core1_row hni i, core1_row hni i, core1_row hni i, act1_row hn D i,
    act1_row hn D i, act2_row hn d i, if_pos hi, if_pos hi, if_pos hi, if_pos hi, if_neg na1,
    if_neg na1, if_neg na1, core1_sum hni, core1_sum hni, act1_sum hn, act1_sum hn, fi, fa]
  have e2 : (∑ v ∈ range na, ∑ w ∈ range na,
      D v w * (g o i (ni + v) (ni + w) - 1 / 2 * g o (ni + w) (ni + v) i)) =
      (∑ v ∈ range na, ∑ w ∈ range na, D v w * g o i (ni + v) (ni + w)) -
      1 / 2 * ∑ v ∈ range na, ∑ w ∈ range na, D v w * g o (ni + w) (ni + v) i := by
    simp only [mul_sum, ← Finset.sum_sub_distrib]
    apply Finset.sum_congr rfl; intro v _
    apply Finset.sum_congr rfl; intro w _
    ring
  have e3 : (∑ j ∈ range ni, (2 * g o i j j - g o j j i)) =
      2 * (∑ j ∈ range ni, g o i j j) - ∑ j ∈ range ni, g o j j i := by
    rw [mul_sum, ← Finset.sum_sub_distrib]
  rw [e2, e3]
  have h4 : (4 : R) ≠ 0 := by
    have : (4 : R) = 2 * 2 := by ring
    rw [this]; exact mul_ne_zero h2 h2
  field_simp
  ring

/-- active rows of the generalized Fock matrix -/
theorem genFock_active (h2 : (2 : R) ≠ 0) (hn : ni + na ≤ n) {v : Nat} (hv : v < na) (o : Nat) :
    genFock n h g (full1 ni na D) (full2 ni na D d) (ni + v) o =
      (∑ w ∈ range na, D v w * fi ni h g o (ni + w)) +
      2 * ∑ w ∈ range na, ∑ x ∈ range na, ∑ y ∈ range na,
        d v w x y * g o (ni + w) (ni + x) (ni + y) := by
  have hni : ni ≤ n := by omega
  have nc : ¬ (ni + v < ni) := by omega
  have pa : ni ≤ ni + v ∧ ni + v < ni + na := by omega
  rw [genFock, full2_row ni na n D d (ni + v) (fun q r s => g o q r s)]
  have e1 : ∑ q ∈ range n, full1 ni na D (ni + v) q * h o q =
      ∑ w ∈ range na, D v w * h o (ni + w) := by
    simp only [full1, add_mul, Finset.sum_add_distrib]
    rw [core1_row hni, act1_row hn, if_neg nc, if_pos pa, zero_add, Nat.add_sub_cancel_left]
  rw [e1, core1_row hni, core1_row hni, core1_row hni, core1_row hni, act1_row hn,
    act1_row hn, act2_row hn d, if_neg nc, if_neg nc, if_neg nc, if_neg nc, if_pos pa,
    if_pos pa, if_pos pa, Nat.add_sub_cancel_left]
  simp only [core1_sum hni, fi]
  have e2 : (∑ w ∈ range na, D v w *
      (h o (ni + w) + ∑ i ∈ range ni, (2 * g o (ni + w) i i - g o i i (ni + w)))) =
      (∑ w ∈ range na, D v w * h o (ni + w)) +
      ((∑ w ∈ range na, D v w * (2 * ∑ i ∈ range ni, g o (ni + w) i i)) -
       1 / 2 * ∑ w ∈ range na, D v w * (2 * ∑ i ∈ range ni, g o i i (ni + w))) := by
    simp only [mul_sum (range na), ← Finset.sum_sub_distrib, ← Finset.sum_add_distrib]
    apply Finset.sum_congr rfl; intro w _
    rw [Finset.sum_sub_distrib, ← mul_sum]
    field_simp
  rw [e2]
  have h4 : (4 : R) ≠ 0 := by
    have : (4 : R) = 2 * 2 := by ring
    rw [this]; exact mul_ne_zero h2 h2
  field_simp
  ring

/-- virtual rows vanish -/
theorem genFock_virtual (hn : ni + na ≤ n) {a : Nat} (ha : ni + na ≤ a) (o : Nat) :
    genFock n h g (full1 ni na D) (full2 ni na D d) a o = 0 := by
  have hni : ni ≤ n := by omega
  have nc : ¬ (a < ni) := by omega
  have pa : ¬ (ni ≤ a ∧ a < ni + na) := by omega
  rw [genFock, full2_row ni na n D d a (fun q r s => g o q r s)]
  have e1 : ∑ q ∈ range n, full1 ni na D a q * h o q = 0 := by
    simp only [full1, add_mul, Finset.sum_add_distrib]
    rw [core1_row hni, act1_row hn, if_neg nc, if_neg pa, zero_add]
  rw [e1, core1_row hni, core1_row hni, core1_row hni, core1_row hni, act1_row hn,
    act1_row hn, act2_row hn d, if_neg nc, if_neg nc, if_neg nc, if_neg nc, if_neg pa,
    if_neg pa, if_neg pa]
  ring

/-- the energy is half the one-body energy plus half the trace of the generalized Fock matrix -/
theorem energy_eq_trace (h2 : (2 : R) ≠ 0) (D' : Nat → Nat → R) (d' : Nat → Nat → Nat → Nat → R) :
    energy n h g D' d' = 1 / 2 * ((∑ p ∈ range n, ∑ q ∈ range n, h p q * D' p q) +
      ∑ p ∈ range n, genFock n h g D' d' p p) := by
  have e1 : ∑ p ∈ range n, genFock n h g D' d' p p =
      (∑ p ∈ range n, ∑ q ∈ range n, h p q * D' p q) +
      2 * ∑ p ∈ range n, ∑ q ∈ range n, ∑ r ∈ range n, ∑ s ∈ range n,
        g p q r s * d' p q r s := by
    simp only [genFock, Finset.sum_add_distrib, ← mul_sum, mul_comm (D' _ _), mul_comm (d' _ _ _ _)]
  rw [e1, energy]
  field_simp
  ring

theorem sum_split (hn : ni + na ≤ n) (f : Nat → R) (hv : ∀ a, ni + na ≤ a → a < n → f a = 0) :
    ∑ p ∈ range n, f p = (∑ i ∈ range ni, f i) + ∑ v ∈ range na, f (ni + v) := by
  have e : n = ni + na + (n - (ni + na)) := by omega
  rw [e, Finset.sum_range_add, Finset.sum_range_add, Finset.sum_eq_zero (s := range (n - (ni + na))),
    add_zero]
  intro x hx
  rw [mem_range] at hx
  exact hv _ (by omega) (by omega)

/-- one-body energy of the full density -/
theorem one_body_full (hn : ni + na ≤ n) : (∑ p ∈ range n, ∑ q ∈ range n, h p q * full1 ni na D p q) =
    2 * (∑ i ∈ range ni, h i i) + ∑ v ∈ range na, ∑ w ∈ range na, D v w * h (ni + v) (ni + w) := by
  have : ∀ p q, h p q * full1 ni na D p q = core1 ni p q * h p q + act1 ni na D p q * h p q := by
    intro p q; rw [full1]; ring
  simp only [this, Finset.sum_add_distrib]
  rw [core1_sum (by omega), act1_sum hn]

/-- trace of the generalized Fock matrix -/
theorem genFock_trace (h2 : (2 : R) ≠ 0) (hn : ni + na ≤ n) :
    ∑ p ∈ range n, genFock n h g (full1 ni na D) (full2 ni na D d) p p =
      (∑ i ∈ range ni, 2 * (fi ni h g i i + fa ni na g D i i)) +
      ((∑ v ∈ range na, ∑ w ∈ range na, D v w * fi ni h g (ni + v) (ni + w)) +
      2 * ∑ v ∈ range na, ∑ w ∈ range na, ∑ x ∈ range na, ∑ y ∈ range na,
        d v w x y * g (ni + v) (ni + w) (ni + x) (ni + y)) := by
  rw [sum_split hn _ (fun a ha _ => genFock_virtual hn ha a)]
  congr 1
  · apply Finset.sum_congr rfl
    intro i hi
    exact genFock_inactive h2 hn (mem_range.mp hi) i
  · rw [mul_sum, ← Finset.sum_add_distrib]
    apply Finset.sum_congr rfl
    intro v hv
    exact genFock_active h2 hn (mem_range.mp hv) (ni + v)

/-- the interaction of active and inactive orbitals, seen from both sides -/
theorem sum_fa (h2 : (2 : R) ≠ 0)
    (hg : ∀ p q r s, p < ni + na → q < ni + na → r < ni + na → s < ni + na → g p q r s = g r s p q) :
    2 * ∑ i ∈ range ni, fa ni na g D i i =
      ∑ v ∈ range na, ∑ w ∈ range na, D v w * (fi ni h g (ni + v) (ni + w) - h (ni + v) (ni + w)) := by
  have e : ∀ i ∈ range ni, fa ni na g D i i = ∑ v ∈ range na, ∑ w ∈ range na,
      1 / 2 * (D v w * (2 * g (ni + v) (ni + w) i i - g (ni + v) i i (ni + w))) := by
    intro i hi
    rw [mem_range] at hi
    apply Finset.sum_congr rfl; intro v hv
    rw [mem_range] at hv
    apply Finset.sum_congr rfl; intro w hw
    rw [mem_range] at hw
    rw [hg i i (ni + v) (ni + w) (by omega) (by omega) (by omega) (by omega),
      hg i (ni + w) (ni + v) i (by omega) (by omega) (by omega) (by omega)]
    field_simp
  rw [Finset.sum_congr rfl e, mul_sum]
  simp only [mul_sum (range na)]
  rw [Finset.sum_comm]
  apply Finset.sum_congr rfl; intro v _
  rw [Finset.sum_comm]
  apply Finset.sum_congr rfl; intro w _
  rw [fi, add_sub_cancel_left, mul_sum]
  apply Finset.sum_congr rfl; intro i _
  field_simp

/-- the energy of the full densities is the inactive energy plus the active-space energy -/
theorem energy_split (h2 : (2 : R) ≠ 0) (hn : ni + na ≤ n)
    (hg : ∀ p q r s, p < ni + na → q < ni + na → r < ni + na → s < ni + na → g p q r s = g r s p q) :
    energy n h g (full1 ni na D) (full2 ni na D d) =
      (∑ i ∈ range ni, (h i i + fi ni h g i i)) +
      energy na (fun v w => fi ni h g (ni + v) (ni + w))
        (fun v w x y => g (ni + v) (ni + w) (ni + x) (ni + y)) D d := by
  have s := sum_fa (D := D) (h := h) h2 hg
  simp only [mul_sub, Finset.sum_sub_distrib] at s
  rw [energy_eq_trace h2, one_body_full hn, genFock_trace h2 hn, energy]
  simp only [mul_comm (D _ _), mul_comm (d _ _ _ _)] at s ⊢
  simp only [mul_add, Finset.sum_add_distrib, ← mul_sum] at s ⊢
  field_simp
  linear_combination s

end Macis
