import Verif.Props.OrbHess
import Verif.Model.Mcscf
/-! Facts about one macro-iteration of the MCSCF driver. -/
namespace Macis
open Spec Finset

section
variable {R : Type} [Field R]

/-- `generalized_fock_matrix` for any arrays that hold the inactive and active Fock matrices and `Q` -/
theorem fock_of_vals (h2 : (2 : R) ≠ 0) {no ni na ldd1 : Nat} (hn : ni + na ≤ no)
    {h : Nat → Nat → R} {g : Nat → Nat → Nat → Nat → R} {d : Nat → Nat → Nat → Nat → R}
    (Fi Fa D1 Q F0 : Nat → R)
    (vi : ∀ p q, p < no → q < no → asMat Fi no p q = fi ni h g p q)
    (va : ∀ p q, p < no → q < no → asMat Fa no p q = fa ni na g (asMat D1 ldd1) p q)
    (vq : ∀ v o, v < na → o < no → asMat Q na v o = 2 * ∑ w ∈ range na, ∑ x ∈ range na, ∑ y ∈ range na,
      d v w x y * g o (ni + w) (ni + x) (ni + y))
    (v0 : ∀ p o, ni + na ≤ p → p < no → o < no → F0 (p + o * no) = 0)
    (hD : ∀ v w, v < na → w < na → asMat D1 ldd1 v w = asMat D1 ldd1 w v) {p o : Nat} (hp : p < no)
    (ho : o < no) :
    asMat (generalizedFockMatrix no ni na Fi no Fa no D1 ldd1 Q na F0 no) no p o =
      genFock no h g (full1 ni na (asMat D1 ldd1)) (full2 ni na (asMat D1 ldd1) d) p o := by
  have sp := genFockMatrix_val (no := no) (ni := ni) (na := na) (ldfi := no) (ldfa := no)
    (ldd := ldd1) (ldq := na) (ldf := no) hn Fi Fa D1 Q F0
  by_cases h' : p < ni + na
  · by_cases hpi : p < ni
    · rw [genFock_inactive h2 hn hpi]
      refine (sp.1 p o hpi ho).trans ?_
      rw [vi o p ho hp, va o p ho hp]
    · obtain ⟨v, rfl⟩ : ∃ v, p = ni + v := ⟨p - ni, by omega⟩
      have hv : v < na := by omega
      rw [genFock_active h2 hn hv]
      refine (sp.2.1 v o hv ho).trans ?_
      congr 1
      · apply Finset.sum_congr rfl
        intro w hw
        rw [Finset.mem_range] at hw
        rw [vi o (ni + w) ho (by omega), hD w v hw hv, mul_comm]
      · rw [vq v o hv ho]
  · rw [genFock_virtual hn (by omega)]
    refine (sp.2.2 _ ?_).trans (v0 p o (by omega) hp ho)
    intro p' o' hp' ho' e
    obtain ⟨rfl, _⟩ := addr2_inj (le_refl no) hp (by omega) e
    exact h' hp'

/-- the active Hamiltonian of symmetric integrals is symmetric -/
theorem active_sym {no ni na ldt ldv ldta ldva : Nat} (hn : ni + na ≤ no) (hta : na ≤ ldta)
    (hva : na ≤ ldva) (T V Fi Ta Va : Nat → R) (hs : IntSym no (asMat T ldt) (asTen V ldv)) :
    let H := activeHamiltonian no na ni T ldt V ldv Fi no Ta ldta Va ldva
    IntSym na (asMat H.2.1 ldta) (asTen H.2.2 ldva) ∧
    ∀ p q, p < no → q < no → asMat H.1 no p q = fi ni (asMat T ldt) (asTen V ldv) p q := by
  intro H
  have v1 : ∀ p q, p < no → q < no → asMat H.1 no p q = fi ni (asMat T ldt) (asTen V ldv) p q :=
    fun p q hp hq => inactiveFock_val (ldt := ldt) (ldv := ldv) (ni := ni) (le_refl no) T V Fi hp hq
  have v2 : ∀ v w, v < na → w < na → asMat H.2.1 ldta v w =
      fi ni (asMat T ldt) (asTen V ldv) (ni + v) (ni + w) := by
    intro v w hv hw
    have : H.2.1 (v + w * ldta) = H.1 (v + ni + (w + ni) * no) :=
      (fill2 hta Ta (fun x => H.1 (x.1 + ni + (x.2 + ni) * no))).1 v w hv hw
    rw [← v1 (ni + v) (ni + w) (by omega) (by omega), asMat, this, asMat, Nat.add_comm v, Nat.add_comm w]
  have v3 : ∀ v w x y, v < na → w < na → x < na → y < na → asTen H.2.2 ldva v w x y =
      asTen V ldv (ni + v) (ni + w) (ni + x) (ni + y) := by
    intro v w x y hv hw hx hy
    have : H.2.2 (addr4 ldva v w x y) = V (v + ni + (w + ni) * ldv + (x + ni) * (ldv * ldv) +
        (y + ni) * (ldv * ldv * ldv)) :=
      (fill4 hva Va (fun x => V (x.1 + ni + (x.2.1 + ni) * ldv + (x.2.2.1 + ni) * (ldv * ldv) +
        (x.2.2.2 + ni) * (ldv * ldv * ldv)))).1 v w x y hv hw hx hy
    rw [asTen, this, asTen, addr4]
    congr 1; ring
  refine ⟨intSym_congr v2 v3 ⟨?_, ?_, ?_, ?_⟩, v1⟩
  · intro p q hp hq
    exact fi_symm hs (by omega) (by omega) (by omega)
  · intro p q r s hp hq hr hs'
    exact hs.g_left _ _ _ _ (by omega) (by omega) (by omega) (by omega)
  · intro p q r s hp hq hr hs'
    exact hs.g_right _ _ _ _ (by omega) (by omega) (by omega) (by omega)
  · intro p q r s hp hq hr hs'
    exact hs.g_pair _ _ _ _ (by omega) (by omega) (by omega) (by omega)

/-- products of orthogonal matrices are orthogonal -/
theorem orthogonal_mul {n : Nat} {a b : Nat → Nat → R} (ha : Orthogonal n a) (hb : Orthogonal n b) :
    Orthogonal n (fun i j => ∑ k ∈ range n, a i k * b k j) := by
  have key : ∀ (x y : Nat → Nat → R), (∀ k l, k < n → l < n →
      ∑ i ∈ range n, x i k * x i l = if k = l then 1 else 0) →
      (∀ p q, p < n → q < n → ∑ i ∈ range n, y i p * y i q = if p = q then 1 else 0) →
      ∀ p q, p < n → q < n →
      ∑ i ∈ range n, (∑ k ∈ range n, x i k * y k p) * (∑ l ∈ range n, x i l * y l q) =
        if p = q then 1 else 0 := by
    intro x y hx hy p q hp hq
    have e : ∑ i ∈ range n, (∑ k ∈ range n, x i k * y k p) * (∑ l ∈ range n, x i l * y l q) =
        ∑ k ∈ range n, ∑ l ∈ range n, y k p * y l q * ∑ i ∈ range n, x i k * x i l := by
      simp only [Finset.sum_mul_sum]
      rw [Finset.sum_comm]
      apply Finset.sum_congr rfl; intro k _
      rw [Finset.sum_comm]
      apply Finset.sum_congr rfl; intro l _
      rw [mul_sum]
      apply Finset.sum_congr rfl; intro i _
      ring
    rw [e, ← hy p q hp hq]
    apply Finset.sum_congr rfl; intro k hk
    rw [Finset.sum_eq_single k]
    · rw [hx k k (mem_range.mp hk) (mem_range.mp hk), if_pos rfl, mul_one]
    · intro l hl hne
      rw [hx k l (mem_range.mp hk) (mem_range.mp hl), if_neg (Ne.symm hne), mul_zero]
    · intro h; exact absurd hk h
  refine ⟨key a b ha.1 hb.1, ?_⟩
  intro p q hp hq
  have := key (fun i k => b k i) (fun k p => a p k) (fun k l hk hl => hb.2 k l hk hl)
    (fun p q hp hq => ha.2 p q hp hq) p q hp hq
  rw [← this]
  apply Finset.sum_congr rfl; intro i _
  congr 1 <;> (apply Finset.sum_congr rfl; intro k _; ring)

theorem orthogonal_congr {n : Nat} {a b : Nat → Nat → R} (e : ∀ i j, i < n → j < n → a i j = b i j)
    (hb : Orthogonal n b) : Orthogonal n a := by
  constructor
  · intro p q hp hq
    rw [← hb.1 p q hp hq]
    apply Finset.sum_congr rfl; intro i hi
    rw [e i p (mem_range.mp hi) hp, e i q (mem_range.mp hi) hq]
  · intro p q hp hq
    rw [← hb.2 p q hp hq]
    apply Finset.sum_congr rfl; intro i hi
    rw [e p i hp (mem_range.mp hi), e q i hq (mem_range.mp hi)]

theorem orthogonal_one (n : Nat) : Orthogonal n (fun i j => if i = j then (1 : R) else 0) := by
  constructor <;>
  · intro p q hp hq
    rw [Finset.sum_eq_single p]
    · simp [eq_comm]
    · intro i _ hne; simp [hne, Ne.symm hne]
    · intro h; exact absurd (mem_range.mpr hp) h

end

/-- the dot products with contiguous RDM arrays are the active energy -/
theorem dot_energy (na : Nat) (A1 A2 Ta Va : Nat → ℝ) :
    dotN (na * na) A1 Ta + dotN (na * na * (na * na)) A2 Va =
      energy na (asMat Ta na) (asTen Va na) (asMat A1 na) (asTen A2 na) := by
  have two : ∀ (m k : Nat) (f : Nat → ℝ), ∑ x ∈ range (m * k), f x =
      ∑ j ∈ range k, ∑ i ∈ range m, f (i + j * m) := by
    intro m k f
    induction k with
    | zero => simp
    | succ k ih =>
      rw [Nat.mul_succ, Finset.sum_range_add, ih, Finset.sum_range_succ]
      congr 1
      apply Finset.sum_congr rfl; intro i _
      congr 1; ring
  rw [energy]
  congr 1
  · rw [dotN, two, Finset.sum_comm]
    apply Finset.sum_congr rfl; intro p _
    apply Finset.sum_congr rfl; intro q _
    rw [asMat, asMat, mul_comm]
  · rw [dotN, two (na * na) (na * na)]
    have : ∀ f : Nat → Nat → Nat → Nat → ℝ,
        ∑ p ∈ range na, ∑ q ∈ range na, ∑ r ∈ range na, ∑ s ∈ range na, f p q r s =
        ∑ s ∈ range na, ∑ r ∈ range na, ∑ q ∈ range na, ∑ p ∈ range na, f p q r s := by
      intro f
      rw [sum4_pair, sum4_herm (fun p q r s => f r s p q)]
    rw [this, two na na]
    apply Finset.sum_congr rfl; intro s _
    apply Finset.sum_congr rfl; intro r _
    rw [two na na]
    apply Finset.sum_congr rfl; intro q _
    apply Finset.sum_congr rfl; intro p _
    rw [asTen, asTen, mul_comm]
    have : p + q * na + (r + s * na) * (na * na) = addr4 na p q r s := by rw [addr4]; ring
    rw [this]

end Macis
