import Verif.Spec.OrbGrad
import Verif.Spec.Fock1
import Verif.Lemmas.Fock1
import Mathlib.Tactic.Ring
import Mathlib.Tactic.Abel
import Mathlib.Algebra.BigOperators.Ring.Finset
import Mathlib.Algebra.BigOperators.Intervals
/-! Algebra of infinitesimal orbital rotations. -/
namespace Macis
open Spec Finset
variable {R : Type} [Field R]

variable {n : Nat}

theorem sum4_pair (f : Nat → Nat → Nat → Nat → R) :
    ∑ p ∈ range n, ∑ q ∈ range n, ∑ r ∈ range n, ∑ s ∈ range n, f p q r s =
    ∑ p ∈ range n, ∑ q ∈ range n, ∑ r ∈ range n, ∑ s ∈ range n, f r s p q := by
  have : ∀ f : Nat → Nat → Nat → Nat → R,
      ∑ p ∈ range n, ∑ q ∈ range n, ∑ r ∈ range n, ∑ s ∈ range n, f p q r s =
      ∑ x ∈ range n ×ˢ range n, ∑ y ∈ range n ×ˢ range n, f x.1 x.2 y.1 y.2 := by
    intro f
    rw [Finset.sum_product]
    apply Finset.sum_congr rfl; intro p _
    apply Finset.sum_congr rfl; intro q _
    rw [Finset.sum_product]
  rw [this f, this (fun p q r s => f r s p q), Finset.sum_comm]

theorem sum4_herm (f : Nat → Nat → Nat → Nat → R) :
    ∑ p ∈ range n, ∑ q ∈ range n, ∑ r ∈ range n, ∑ s ∈ range n, f p q r s =
    ∑ p ∈ range n, ∑ q ∈ range n, ∑ r ∈ range n, ∑ s ∈ range n, f q p s r := by
  rw [Finset.sum_comm]
  apply Finset.sum_congr rfl; intro p _
  apply Finset.sum_congr rfl; intro q _
  rw [Finset.sum_comm]

theorem sum4_congr {f f' : Nat → Nat → Nat → Nat → R}
    (h : ∀ p q r s, p < n → q < n → r < n → s < n → f p q r s = f' p q r s) :
    ∑ p ∈ range n, ∑ q ∈ range n, ∑ r ∈ range n, ∑ s ∈ range n, f p q r s =
    ∑ p ∈ range n, ∑ q ∈ range n, ∑ r ∈ range n, ∑ s ∈ range n, f' p q r s := by
  apply Finset.sum_congr rfl; intro p hp
  apply Finset.sum_congr rfl; intro q hq
  apply Finset.sum_congr rfl; intro r hr
  apply Finset.sum_congr rfl; intro s hs
  exact h p q r s (mem_range.mp hp) (mem_range.mp hq) (mem_range.mp hr) (mem_range.mp hs)

/-- The energy change under the rotation generated by `K` is `2 sum_po K_po F_po`. -/
theorem energy_rot {h : Nat → Nat → R} {g : Nat → Nat → Nat → Nat → R} {D : Nat → Nat → R}
    {d : Nat → Nat → Nat → Nat → R} (hi : IntSym n h g) (hd : DenSym n D d) (K : Nat → Nat → R) :
    energy n (rot1 n K h) (rot2 n K g) D d =
      2 * ∑ p ∈ range n, ∑ o ∈ range n, K p o * genFock n h g D d p o := by
  -- one-body part
  have e1 : ∑ p ∈ range n, ∑ q ∈ range n, rot1 n K h p q * D p q =
      2 * ∑ p ∈ range n, ∑ q ∈ range n, ∑ o ∈ range n, K p o * h o q * D p q := by
    have a : ∑ p ∈ range n, ∑ q ∈ range n, rot1 n K h p q * D p q =
        (∑ p ∈ range n, ∑ q ∈ range n, ∑ o ∈ range n, K p o * h o q * D p q) +
        ∑ p ∈ range n, ∑ q ∈ range n, ∑ o ∈ range n, K q o * h p o * D p q := by
      simp only [rot1, Finset.sum_mul, ← Finset.sum_add_distrib, add_mul]
    have b : ∑ p ∈ range n, ∑ q ∈ range n, ∑ o ∈ range n, K q o * h p o * D p q =
        ∑ p ∈ range n, ∑ q ∈ range n, ∑ o ∈ range n, K p o * h o q * D p q := by
      rw [Finset.sum_comm]
      apply Finset.sum_congr rfl; intro p hp
      apply Finset.sum_congr rfl; intro q hq
      apply Finset.sum_congr rfl; intro o ho
      rw [mem_range] at hp hq ho
      rw [hi.h_symm q o hq ho, hd.D_symm q p hq hp]
    rw [a, b]; ring
  -- two-body part
  let X : Nat → Nat → Nat → Nat → R := fun p q r s => ∑ o ∈ range n, K p o * g o q r s * d p q r s
  have t1 : ∀ p q r s, rot2 n K g p q r s * d p q r s =
      X p q r s + (∑ o ∈ range n, K q o * g p o r s * d p q r s) +
      (∑ o ∈ range n, K r o * g p q o s * d p q r s) +
      ∑ o ∈ range n, K s o * g p q r o * d p q r s := by
    intro p q r s
    simp only [rot2, X, Finset.sum_mul, ← Finset.sum_add_distrib, add_mul]
  have e2 : ∑ p ∈ range n, ∑ q ∈ range n, ∑ r ∈ range n, ∑ s ∈ range n,
      rot2 n K g p q r s * d p q r s =
      4 * ∑ p ∈ range n, ∑ q ∈ range n, ∑ r ∈ range n, ∑ s ∈ range n, X p q r s := by
    simp only [t1, Finset.sum_add_distrib]
    have b2 : ∑ p ∈ range n, ∑ q ∈ range n, ∑ r ∈ range n, ∑ s ∈ range n,
        (∑ o ∈ range n, K q o * g p o r s * d p q r s) =
        ∑ p ∈ range n, ∑ q ∈ range n, ∑ r ∈ range n, ∑ s ∈ range n, X p q r s := by
      rw [sum4_herm (fun p q r s => ∑ o ∈ range n, K q o * g p o r s * d p q r s)]
      apply sum4_congr; intro p q r s hp hq hr hs
      apply Finset.sum_congr rfl; intro o ho
      rw [mem_range] at ho
      rw [hi.g_left q o s r hq ho hs hr, hi.g_right o q s r ho hq hs hr, hd.d_herm q p s r hq hp hs hr]
    have b3 : ∑ p ∈ range n, ∑ q ∈ range n, ∑ r ∈ range n, ∑ s ∈ range n,
        (∑ o ∈ range n, K r o * g p q o s * d p q r s) =
        ∑ p ∈ range n, ∑ q ∈ range n, ∑ r ∈ range n, ∑ s ∈ range n, X p q r s := by
      rw [sum4_pair (fun p q r s => ∑ o ∈ range n, K r o * g p q o s * d p q r s)]
      apply sum4_congr; intro p q r s hp hq hr hs
      apply Finset.sum_congr rfl; intro o ho
      rw [mem_range] at ho
      rw [hi.g_pair r s o q hr hs ho hq, hd.d_pair r s p q hr hs hp hq]
    have b4 : ∑ p ∈ range n, ∑ q ∈ range n, ∑ r ∈ range n, ∑ s ∈ range n,
        (∑ o ∈ range n, K s o * g p q r o * d p q r s) =
        ∑ p ∈ range n, ∑ q ∈ range n, ∑ r ∈ range n, ∑ s ∈ range n, X p q r s := by
      rw [sum4_pair (fun p q r s => ∑ o ∈ range n, K s o * g p q r o * d p q r s),
        sum4_herm (fun p q r s => ∑ o ∈ range n, K q o * g r s p o * d r s p q)]
      apply sum4_congr; intro p q r s hp hq hr hs
      apply Finset.sum_congr rfl; intro o ho
      rw [mem_range] at ho
      rw [hi.g_pair s r q o hs hr hq ho, hi.g_left q o s r hq ho hs hr, hi.g_right o q s r ho hq hs hr,
        hd.d_pair s r q p hs hr hq hp, hd.d_herm q p s r hq hp hs hr]
    rw [b2, b3, b4]; ring
  have e3 : ∑ p ∈ range n, ∑ o ∈ range n, K p o * genFock n h g D d p o =
      (∑ p ∈ range n, ∑ q ∈ range n, ∑ o ∈ range n, K p o * h o q * D p q) +
      2 * ∑ p ∈ range n, ∑ q ∈ range n, ∑ r ∈ range n, ∑ s ∈ range n, X p q r s := by
    rw [mul_sum, ← Finset.sum_add_distrib]
    apply Finset.sum_congr rfl; intro p _
    simp only [genFock, mul_add, Finset.sum_add_distrib, X]
    congr 1
    · simp only [mul_sum]
      rw [Finset.sum_comm]
      apply Finset.sum_congr rfl; intro q _
      apply Finset.sum_congr rfl; intro o _
      ring
    · simp only [mul_sum]
      rw [Finset.sum_comm]
      apply Finset.sum_congr rfl; intro q _
      rw [Finset.sum_comm]
      apply Finset.sum_congr rfl; intro r _
      rw [Finset.sum_comm]
      apply Finset.sum_congr rfl; intro s _
      apply Finset.sum_congr rfl; intro o _
      ring
  rw [energy, e1, e2, e3]; ring

/-- rotated integrals keep the symmetry -/
theorem rot_sym {h : Nat → Nat → R} {g : Nat → Nat → Nat → Nat → R} (hi : IntSym n h g)
    (K : Nat → Nat → R) : IntSym n (rot1 n K h) (rot2 n K g) := by
  refine ⟨?_, ?_, ?_, ?_⟩
  · intro p q hp hq
    apply Finset.sum_congr rfl; intro o ho
    rw [mem_range] at ho
    rw [hi.h_symm o q ho hq, hi.h_symm p o hp ho]; ring
  · intro p q r s hp hq hr hs
    apply Finset.sum_congr rfl; intro o ho
    rw [mem_range] at ho
    rw [hi.g_left o q r s ho hq hr hs, hi.g_left p o r s hp ho hr hs, hi.g_left p q o s hp hq ho hs,
      hi.g_left p q r o hp hq hr ho]; ring
  · intro p q r s hp hq hr hs
    apply Finset.sum_congr rfl; intro o ho
    rw [mem_range] at ho
    rw [hi.g_right o q r s ho hq hr hs, hi.g_right p o r s hp ho hr hs, hi.g_right p q o s hp hq ho hs,
      hi.g_right p q r o hp hq hr ho]; ring
  · intro p q r s hp hq hr hs
    apply Finset.sum_congr rfl; intro o ho
    rw [mem_range] at ho
    rw [hi.g_pair o q r s ho hq hr hs, hi.g_pair p o r s hp ho hr hs, hi.g_pair p q o s hp hq ho hs,
      hi.g_pair p q r o hp hq hr ho]; ring

/-- a double action on one slot -/
theorem slot_comm (K L : Nat → Nat → R) (f : Nat → R) (p : Nat) :
    (∑ o ∈ range n, K p o * ∑ o' ∈ range n, L o o' * f o') -
    (∑ o ∈ range n, L p o * ∑ o' ∈ range n, K o o' * f o') = ∑ o ∈ range n, commutator n K L p o * f o := by
  simp only [commutator, Finset.sum_mul, mul_sum, sub_mul, Finset.sum_sub_distrib]
  congr 1
  · rw [Finset.sum_comm]
    apply Finset.sum_congr rfl; intro o _
    apply Finset.sum_congr rfl; intro o' _
    ring
  · rw [Finset.sum_comm]
    apply Finset.sum_congr rfl; intro o _
    apply Finset.sum_congr rfl; intro o' _
    ring

/-- actions on different slots commute -/
theorem slot_cross (a b : Nat → R) (f : Nat → Nat → R) :
    (∑ o ∈ range n, a o * ∑ o' ∈ range n, b o' * f o o') =
    ∑ o' ∈ range n, b o' * ∑ o ∈ range n, a o * f o o' := by
  simp only [mul_sum]
  rw [Finset.sum_comm]
  apply Finset.sum_congr rfl; intro o _
  apply Finset.sum_congr rfl; intro o' _
  ring

/-- two rotations of a matrix -/
theorem rot1_comm (K L : Nat → Nat → R) (h : Nat → Nat → R) (p q : Nat) :
    rot1 n K (rot1 n L h) p q = rot1 n L (rot1 n K h) p q + rot1 n (commutator n K L) h p q := by
  have c1 := slot_comm (n := n) K L (fun o => h o q) p
  have c2 := slot_comm (n := n) K L (fun o => h p o) q
  have x1 := slot_cross (n := n) (fun o => K p o) (fun o => L q o) (fun o o' => h o o')
  have x2 := slot_cross (n := n) (fun o => L p o) (fun o => K q o) (fun o o' => h o o')
  simp only [rot1, Finset.sum_add_distrib, mul_add] at *
  rw [← c1, ← c2, x1, x2]; ring

/-- two rotations of a four-index tensor -/
theorem rot2_comm (K L : Nat → Nat → R) (g : Nat → Nat → Nat → Nat → R) (p q r s : Nat) :
    rot2 n K (rot2 n L g) p q r s = rot2 n L (rot2 n K g) p q r s + rot2 n (commutator n K L) g p q r s := by
  have c1 := slot_comm (n := n) K L (fun o => g o q r s) p
  have c2 := slot_comm (n := n) K L (fun o => g p o r s) q
  have c3 := slot_comm (n := n) K L (fun o => g p q o s) r
  have c4 := slot_comm (n := n) K L (fun o => g p q r o) s
  have x12 := slot_cross (n := n) (fun o => K p o) (fun o => L q o) (fun o o' => g o o' r s)
  have y12 := slot_cross (n := n) (fun o => L p o) (fun o => K q o) (fun o o' => g o o' r s)
  have x13 := slot_cross (n := n) (fun o => K p o) (fun o => L r o) (fun o o' => g o q o' s)
  have y13 := slot_cross (n := n) (fun o => L p o) (fun o => K r o) (fun o o' => g o q o' s)
  have x14 := slot_cross (n := n) (fun o => K p o) (fun o => L s o) (fun o o' => g o q r o')
  have y14 := slot_cross (n := n) (fun o => L p o) (fun o => K s o) (fun o o' => g o q r o')
  have x23 := slot_cross (n := n) (fun o => K q o) (fun o => L r o) (fun o o' => g p o o' s)
  have y23 := slot_cross (n := n) (fun o => L q o) (fun o => K r o) (fun o o' => g p o o' s)
  have x24 := slot_cross (n := n) (fun o => K q o) (fun o => L s o) (fun o o' => g p o r o')
  have y24 := slot_cross (n := n) (fun o => L q o) (fun o => K s o) (fun o o' => g p o r o')
  have x34 := slot_cross (n := n) (fun o => K r o) (fun o => L s o) (fun o o' => g p q o o')
  have y34 := slot_cross (n := n) (fun o => L r o) (fun o => K s o) (fun o o' => g p q o o')
  simp only [rot2, Finset.sum_add_distrib, mul_add] at *
  rw [← c1, ← c2, ← c3, ← c4, x12, y12, x13, y13, x14, y14, x23, y23, x24, y24, x34, y34]
  ring

theorem energy_add (h h' : Nat → Nat → R) (g g' : Nat → Nat → Nat → Nat → R) (D : Nat → Nat → R)
    (d : Nat → Nat → Nat → Nat → R) :
    energy n (fun p q => h p q + h' p q) (fun p q r s => g p q r s + g' p q r s) D d =
      energy n h g D d + energy n h' g' D d := by
  simp only [energy, add_mul, Finset.sum_add_distrib]; ring

theorem energy_congr {h h' : Nat → Nat → R} {g g' : Nat → Nat → Nat → Nat → R} {D : Nat → Nat → R}
    {d : Nat → Nat → Nat → Nat → R} (eh : ∀ p q, p < n → q < n → h p q = h' p q)
    (eg : ∀ p q r s, p < n → q < n → r < n → s < n → g p q r s = g' p q r s) :
    energy n h g D d = energy n h' g' D d := by
  rw [energy, energy]
  congr 1
  · apply Finset.sum_congr rfl; intro p hp
    apply Finset.sum_congr rfl; intro q hq
    rw [eh p q (mem_range.mp hp) (mem_range.mp hq)]
  · apply sum4_congr
    intro p q r s hp hq hr hs
    rw [eg p q r s hp hq hr hs]

/-- second-order energies in the two orders differ by the first-order energy of the commutator -/
theorem energy_rot_rot {h : Nat → Nat → R} {g : Nat → Nat → Nat → Nat → R} {D : Nat → Nat → R}
    {d : Nat → Nat → Nat → Nat → R} (K L : Nat → Nat → R) :
    energy n (rot1 n K (rot1 n L h)) (rot2 n K (rot2 n L g)) D d =
      energy n (rot1 n L (rot1 n K h)) (rot2 n L (rot2 n K g)) D d +
      energy n (rot1 n (commutator n K L) h) (rot2 n (commutator n K L) g) D d := by
  rw [← energy_add]
  exact energy_congr (fun p q _ _ => rot1_comm K L h p q) (fun p q r s _ _ _ _ => rot2_comm K L g p q r s)

/-- symmetry of the completed densities -/
theorem full_sym {ni na : Nat} {D : Nat → Nat → R} {d : Nat → Nat → Nat → Nat → R} (m : Nat)
    (hd : DenSym na D d) : DenSym m (full1 ni na D) (full2 ni na D d) := by
  have a1 := act1_symm (ni := ni) hd.D_symm
  refine ⟨?_, ?_, ?_⟩
  · intro p q _ _
    rw [full1, full1, core1_symm, a1 p q]
  · intro p q r s _ _ _ _
    have : act2 ni na d p q r s = act2 ni na d q p s r := by
      rw [act2, act2]
      by_cases h : (ni ≤ p ∧ p < ni + na) ∧ (ni ≤ q ∧ q < ni + na) ∧ (ni ≤ r ∧ r < ni + na) ∧
        (ni ≤ s ∧ s < ni + na)
      · rw [if_pos h, if_pos (by tauto), hd.d_herm _ _ _ _ (by omega) (by omega) (by omega) (by omega)]
      · rw [if_neg h, if_neg (by tauto)]
    rw [full2, full2, this, core1_symm ni p q, core1_symm ni r s, core1_symm ni p s, core1_symm ni r q,
      a1 r s, a1 p q, a1 r q, a1 p s]
    ring
  · intro p q r s _ _ _ _
    have : act2 ni na d p q r s = act2 ni na d r s p q := by
      rw [act2, act2]
      by_cases h : (ni ≤ p ∧ p < ni + na) ∧ (ni ≤ q ∧ q < ni + na) ∧ (ni ≤ r ∧ r < ni + na) ∧
        (ni ≤ s ∧ s < ni + na)
      · rw [if_pos h, if_pos (by tauto), hd.d_pair _ _ _ _ (by omega) (by omega) (by omega) (by omega)]
      · rw [if_neg h, if_neg (by tauto)]
    rw [full2, full2, this]
    ring

end Macis
