import Verif.Model.Mp2
import Verif.Spec.Mp2
import Verif.Props.Fock
import Mathlib.Tactic.Linarith
import Mathlib.Tactic.FieldSimp
import Mathlib.Algebra.Order.Field.Basic
import Mathlib.Algebra.Order.BigOperators.Ring.Finset
import Mathlib.LinearAlgebra.Matrix.NonsingularInverse

/-! Lemmas for the MP2 properties. -/
namespace Macis
open Spec Finset

variable {R : Type} [Field R]

theorem storeRange {R : Type} (n : Nat) (m : Nat → R) (f : Nat → R) :
    (∀ p < n, storeAll m ((List.range n).map fun p => (p, f p)) p = f p) ∧
    (∀ p, n ≤ p → storeAll m ((List.range n).map fun p => (p, f p)) p = m p) := by
  constructor
  · intro p hp
    apply storeAll_const
    · intro w hw hwa
      obtain ⟨a, -, rfl⟩ := List.mem_map.mp hw
      simp only at hwa
      rw [hwa]
    · exact ⟨_, List.mem_map.mpr ⟨p, List.mem_range.mpr hp, rfl⟩, rfl⟩
  · intro p hp
    apply storeAll_none
    intro w hw hwa
    obtain ⟨a, ha, rfl⟩ := List.mem_map.mp hw
    simp only [List.mem_range] at ha hwa
    omega

theorem eps_val {no ni ldt ldv : Nat} (T V eps : Nat → R) {p : Nat} (hp : p < no) :
    canonicalOrbitalEnergies no ni T ldt V ldv eps p =
      orbEnergy ni (asMat T ldt) (asTen V ldv) p := by
  rw [canonicalOrbitalEnergies, (storeRange no eps _).1 p hp, orbEnergy, asMat]
  congr 1
  · congr 1; ring
  · apply Finset.sum_congr rfl
    intro i _
    simp only [asTen, addr4]
    congr 2 <;> [congr 1; skip] <;> ring_nf

theorem mem_quadsOV {no nv : Nat} {x : Nat × Nat × Nat × Nat} :
    x ∈ quadsOV no nv ↔ x.1 < no ∧ x.2.1 < no ∧ x.2.2.1 < nv ∧ x.2.2.2 < nv := by
  obtain ⟨i, j, a, b⟩ := x
  simp only [quadsOV, List.mem_flatMap, List.mem_map, List.mem_range, Prod.mk.injEq]
  constructor
  · rintro ⟨i, hi, j, hj, a, ha, b, hb, rfl, rfl, rfl, rfl⟩; exact ⟨hi, hj, ha, hb⟩
  · rintro ⟨h1, h2, h3, h4⟩; exact ⟨i, h1, j, h2, a, h3, b, h4, rfl, rfl, rfl, rfl⟩

/-- address of an amplitude -/
def t2addr (no nv i j a b : Nat) : Nat := i + j * no + a * (no * no) + b * (no * no * nv)

theorem t2addr_inj {no nv i j a b i' j' a' b' : Nat} (hi : i < no) (hj : j < no) (ha : a < nv)
    (hi' : i' < no) (hj' : j' < no) (ha' : a' < nv)
    (h : t2addr no nv i j a b = t2addr no nv i' j' a' b') :
    i = i' ∧ j = j' ∧ a = a' ∧ b = b' := by
  have e : ∀ i j a b, t2addr no nv i j a b = (i + j * no) + (a + b * nv) * (no * no) := by
    intro i j a b; unfold t2addr; ring
  rw [e, e] at h
  have b1 : ∀ i j, i < no → j < no → i + j * no < no * no := by
    intro i j h1 h2
    calc i + j * no < no + j * no := by omega
      _ = (j + 1) * no := by ring
      _ ≤ no * no := Nat.mul_le_mul_right _ h2
  obtain ⟨h1, h2⟩ := addr2_inj (le_refl (no * no)) (b1 i j hi hj) (b1 i' j' hi' hj') h
  obtain ⟨rfl, rfl⟩ := addr2_inj (le_refl no) hi hi' h1
  obtain ⟨rfl, rfl⟩ := addr2_inj (le_refl nv) ha ha' h2
  exact ⟨rfl, rfl, rfl, rfl⟩

theorem t2_val {no nv ldv : Nat} (V eps T2 : Nat → R) {i j a b : Nat} (hi : i < no) (hj : j < no)
    (ha : a < nv) (hb : b < nv) :
    mp2T2 no nv V ldv eps T2 (t2addr no nv i j a b) =
      mp2Amp eps (asTen V ldv) i j (no + a) (no + b) := by
  rw [mp2T2]
  apply storeAll_const
  · intro w hw hwa
    obtain ⟨⟨i', j', a', b'⟩, hx, rfl⟩ := List.mem_map.mp hw
    obtain ⟨h1, h2, h3, h4⟩ := mem_quadsOV.mp hx
    simp only at h1 h2 h3 h4 hwa
    obtain ⟨rfl, rfl, rfl, rfl⟩ := t2addr_inj h1 h2 h3 hi hj ha (show t2addr no nv _ _ _ _ = _ from hwa)
    simp only [mp2Amp, asTen, addr4]
    rw [Nat.add_comm no, Nat.add_comm no]
    congr 2
    ring
  · exact ⟨_, List.mem_map.mpr ⟨(i, j, a, b), mem_quadsOV.mpr ⟨hi, hj, ha, hb⟩, rfl⟩, rfl⟩

theorem t2_other {no nv ldv : Nat} (V eps T2 : Nat → R) {x : Nat}
    (hx : no * no * nv * nv ≤ x) : mp2T2 no nv V ldv eps T2 x = T2 x := by
  rw [mp2T2]
  apply storeAll_none
  intro w hw hwa
  obtain ⟨⟨i, j, a, b⟩, hx', rfl⟩ := List.mem_map.mp hw
  obtain ⟨h1, h2, h3, h4⟩ := mem_quadsOV.mp hx'
  simp only at h1 h2 h3 h4 hwa
  have e1 : i + j * no + 1 ≤ no * no := by
    calc i + j * no + 1 ≤ no + j * no := by omega
      _ = (j + 1) * no := by ring
      _ ≤ no * no := Nat.mul_le_mul_right _ h2
  have e2 : a + b * nv + 1 ≤ nv * nv := by
    calc a + b * nv + 1 ≤ nv + b * nv := by omega
      _ = (b + 1) * nv := by ring
      _ ≤ nv * nv := Nat.mul_le_mul_right _ h4
  have e3 : (a + b * nv + 1) * (no * no) ≤ nv * nv * (no * no) := Nat.mul_le_mul_right _ e2
  have e4 : nv * nv * (no * no) = no * no * nv * nv := by ring
  have e5 : (a + b * nv + 1) * (no * no) = a * (no * no) + b * (no * no * nv) + no * no := by ring
  omega

theorem ampl_val {norb no nv ldt ldv : Nat} (hn : no + nv ≤ norb) (T V : Nat → R) {i j a b : Nat}
    (hi : i < no) (hj : j < no) (ha : a < nv) (hb : b < nv) :
    mp2Amplitudes norb no nv T ldt V ldv (i + j * no + a * (no * no) + b * (no * no * nv)) =
      mp2Amp (orbEnergy no (asMat T ldt) (asTen V ldv)) (asTen V ldv) i j (no + a) (no + b) := by
  rw [mp2Amplitudes]
  have := t2_val (ldv := ldv) V (canonicalOrbitalEnergies norb no T ldt V ldv (fun _ => 0)) (fun _ => 0)
    hi hj ha hb
  rw [t2addr] at this
  simp only at this ⊢
  rw [this]
  simp only [mp2Amp]
  rw [eps_val _ _ _ (show i < norb by omega), eps_val _ _ _ (show j < norb by omega),
    eps_val _ _ _ (show no + a < norb by omega), eps_val _ _ _ (show no + b < norb by omega)]

/-- sums over virtual orbitals -/
theorem sumV (no nv : Nat) (f : Nat → R) :
    ∑ a ∈ Ico no (no + nv), f a = ∑ a ∈ range nv, f (no + a) := by
  rw [sum_Ico_eq_sum_range]; simp

end Macis
