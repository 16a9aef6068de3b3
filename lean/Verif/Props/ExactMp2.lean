import Verif.Props.Mp2
/-! C118: what the MP2 natural orbitals are for every content of the caller's array. -/
namespace Macis
open Spec Finset
variable {R : Type} [Field R] [LinearOrder R] [IsStrictOrderedRing R]

/-- C118.  Whatever the caller's array holds: the returned orbitals are orthonormal and diagonalise the MP2 density plus
the stale virtual-occupied block (mirrored); their occupations are in descending order and add up to the number of
electrons.  They diagonalise the density itself exactly when that block is zero. -/
theorem C118_any_contents {norb no nv ldt ldv ldc : Nat} (hn : no + nv = norb)
    (hd : norb ≤ ldc) {syev : Nat → (Nat → R) → Nat → (Nat → R) × (Nat → R)} (hs : SyevSpec syev)
    (T V C : Nat → R)
    (hV : ∀ p q r s, p < norb → q < norb → r < norb → s < norb →
      asTen V ldv p q r s = asTen V ldv r s p q) :
    let g := asTen V ldv
    let D := mp2Density no nv (mp2Amp (orbEnergy no (asMat T ldt) g) g)
    let stale := fun p q => if no ≤ p ∧ q < no then C (p + q * ldc)
      else if no ≤ q ∧ p < no then C (q + p * ldc) else 0
    let r := mp2NaturalOrbitals syev norb no nv T ldt V ldv C ldc
    let occ := r.1
    let Z := fun p k => r.2 (p + k * ldc)
    (∀ j k, j ≤ k → k < norb → occ k ≤ occ j) ∧
    (∀ j k, j < norb → k < norb → (∑ p ∈ range norb, Z p j * Z p k) = if j = k then 1 else 0) ∧
    (∀ p k, p < norb → k < norb → (∑ q ∈ range norb, (D p q + stale p q) * Z q k) = occ k * Z p k) ∧
    ∑ k ∈ range norb, occ k = 2 * no ∧
    ((∀ p k, p < norb → k < norb → (∑ q ∈ range norb, D p q * Z q k) = occ k * Z p k) ↔
      ∀ p q, no ≤ p → p < norb → q < no → C (p + q * ldc) = 0) := by
  intro g D stale r occ Z
  have h := natorb_eig (ldt := ldt) (ldv := ldv) hn hd hs T V C
  have ht : ∀ i j a b, i < no → j < no → a ∈ Ico no (no + nv) → b ∈ Ico no (no + nv) →
      mp2Amp (orbEnergy no (asMat T ldt) g) g i j a b =
        mp2Amp (orbEnergy no (asMat T ldt) g) g j i b a := by
    intro i j a b hi hj ha hb
    rw [mem_Ico] at ha hb
    exact mp2Amp_pair (hV i a j b (by omega) (by omega) (by omega) (by omega))
  have hS : ∀ p q, p < norb → q < norb →
      (if q ≤ p then mp2OneRdm norb no nv T ldt V ldv C ldc (p + q * ldc)
        else mp2OneRdm norb no nv T ldt V ldv C ldc (q + p * ldc)) = D p q + stale p q := by
    have base : ∀ p q, p < norb → q < norb → q ≤ p →
        mp2OneRdm norb no nv T ldt V ldv C ldc (p + q * ldc) = D p q + stale p q := by
      intro p q hp hq hqp
      have hden := C116_density (ldt := ldt) (ldv := ldv) (le_of_eq hn) (hn ▸ hd) T V C
      by_cases hb : p < no ↔ q < no
      · have : stale p q = 0 := by
          simp only [stale]
          rw [if_neg (by omega), if_neg (by omega)]
        rw [this, add_zero]
        exact hden.1 p q (by omega) (by omega) hb
      · have hp' : no ≤ p := by
          by_contra hc; exact hb ⟨fun _ => by omega, fun _ => by omega⟩
        have hq' : q < no := by
          by_contra hc; exact hb ⟨fun _ => by omega, fun _ => by omega⟩
        rw [hden.2 (p + q * ldc) ?_]
        · simp only [D, mp2Density, stale]
          rw [if_neg (by omega), if_neg (by omega), if_pos ⟨hp', hq'⟩, zero_add]
        · intro p' q' hp1 hq1 hiff he
          obtain ⟨rfl, rfl⟩ := addr2_inj hd hp (by omega) he
          omega
    intro p q hp hq
    by_cases hqp : q ≤ p
    · rw [if_pos hqp]; exact base p q hp hq hqp
    · rw [if_neg hqp, base q p hq hp (by omega)]
      congr 1
      · exact dens_symm ht (by omega) (by omega)
      · simp only [stale]
        split_ifs <;> first | rfl | omega
  have heig : ∀ p k, p < norb → k < norb → (∑ q ∈ range norb, (D p q + stale p q) * Z q k) = occ k * Z p k := by
    intro p k hp hk
    have := h.eig p k hp hk
    have e : (∑ q ∈ range norb, (D p q + stale p q) * Z q k) = - ∑ q ∈ range norb,
        -(if q ≤ p then mp2OneRdm norb no nv T ldt V ldv C ldc (p + q * ldc)
        else mp2OneRdm norb no nv T ldt V ldv C ldc (q + p * ldc)) * Z q k := by
      rw [← sum_neg_distrib]
      refine sum_congr rfl fun q hq => ?_
      rw [hS p q hp (mem_range.mp hq)]
      ring
    rw [e]
    erw [this]
    ring
  refine ⟨?_, h.ortho, heig, ?_, ?_, ?_⟩
  · intro j k hjk hk
    have := h.asc j k hjk hk
    exact neg_le_neg_iff.mp this
  · have := symEig_trace h
    rw [sum_neg_distrib, sum_neg_distrib, neg_inj] at this
    refine this.trans ?_
    rw [← dens_trace (nv := nv) (mp2Amp (orbEnergy no (asMat T ldt) g) g), hn]
    refine sum_congr rfl fun p hp => ?_
    refine (hS p p (mem_range.mp hp) (mem_range.mp hp)).trans ?_
    have : stale p p = 0 := by
      simp only [stale]
      rw [if_neg (by omega), if_neg (by omega)]
    rw [this, add_zero]
  · intro hall p q hp hpn hq
    have hz : ∀ k, k < norb → ∑ q ∈ range norb, stale p q * Z q k = 0 := by
      intro k hk
      have a := heig p k hpn hk
      have b := hall p k hpn hk
      simp only [add_mul, sum_add_distrib] at a
      rw [b] at a
      linarith
    have hsum : stale p q = ∑ k ∈ range norb, (∑ q' ∈ range norb, stale p q' * Z q' k) * Z q k := by
      have e : ∀ k, (∑ q' ∈ range norb, stale p q' * Z q' k) * Z q k
          = ∑ q' ∈ range norb, stale p q' * (Z q' k * Z q k) := by
        intro k; rw [sum_mul]; exact sum_congr rfl fun _ _ => by ring
      simp only [e]
      rw [sum_comm, sum_eq_single q]
      · rw [← mul_sum, ortho_rows h.ortho (by omega) (by omega), if_pos rfl, mul_one]
      · intro q' hq' hne
        rw [← mul_sum, ortho_rows h.ortho (mem_range.mp hq') (by omega), if_neg hne, mul_zero]
      · intro hh; exact absurd (mem_range.2 (by omega)) hh
    have h0 : stale p q = 0 := by
      rw [hsum]
      exact sum_eq_zero fun k hk => by rw [hz k (mem_range.mp hk), zero_mul]
    simpa only [stale, if_pos (show no ≤ p ∧ q < no from ⟨hp, hq⟩)] using h0
  · intro hC p k hp hk
    rw [← heig p k hp hk]
    refine sum_congr rfl fun q hq => ?_
    rw [mem_range] at hq
    have : stale p q = 0 := by
      simp only [stale]
      split_ifs with h1 h2
      · exact hC p q h1.1 hp h1.2
      · exact hC q p h2.1 hq h2.2
      · rfl
    rw [this, add_zero]

end Macis
