import Mathlib.Data.Real.Basic
import Mathlib.Algebra.BigOperators.Group.Finset.Basic
/-! Sizes of the sums in the Fock matrices: the same sums with every term replaced by its absolute value.  They set the
scale of the rounding errors. -/
namespace Macis.Spec
open Finset

/-- size of the inactive Fock matrix `h_pq + sum_i (2 (pq|ii) - (pi|iq))` -/
noncomputable def fiSize (ni : Nat) (h : Nat → Nat → ℝ) (g : Nat → Nat → Nat → Nat → ℝ) (p q : Nat) : ℝ :=
  |h p q| + ∑ i ∈ range ni, (2 * |g p q i i| + |g p i i q|)

/-- size of the core energy `sum_i (h_ii + Fi_ii)` -/
noncomputable def coreSize (ni : Nat) (h : Nat → Nat → ℝ) (g : Nat → Nat → Nat → Nat → ℝ) : ℝ :=
  ∑ i ∈ range ni, (|h i i| + fiSize ni h g i i)

/-- size of the active Fock matrix `sum_vw D_vw ((pq|vw) - 1/2 (pw|vq))` -/
noncomputable def faSize (ni na : Nat) (g : Nat → Nat → Nat → Nat → ℝ) (D : Nat → Nat → ℝ) (p q : Nat) : ℝ :=
  ∑ v ∈ range na, ∑ w ∈ range na, |D v w| * (|g p q (ni + v) (ni + w)| + 1 / 2 * |g p (ni + w) (ni + v) q|)

/-- size of `2 sum_wxy d_vwxy (ow|xy)` -/
noncomputable def qSize (ni na : Nat) (g d : Nat → Nat → Nat → Nat → ℝ) (v o : Nat) : ℝ :=
  2 * ∑ w ∈ range na, ∑ x ∈ range na, ∑ y ∈ range na, |d v w x y| * |g o (ni + w) (ni + x) (ni + y)|

/-- size of the generalized Fock matrix -/
noncomputable def genFockSize (ni na : Nat) (h : Nat → Nat → ℝ) (g : Nat → Nat → Nat → Nat → ℝ) (D : Nat → Nat → ℝ)
    (d : Nat → Nat → Nat → Nat → ℝ) (p o : Nat) : ℝ :=
  if p < ni then 2 * (fiSize ni h g o p + faSize ni na g D o p)
  else (∑ w ∈ range na, |D w (p - ni)| * fiSize ni h g o (ni + w)) + qSize ni na g d (p - ni) o

/-- size of the energy computed from the generalized Fock matrix -/
noncomputable def fockEnergySize (ni na : Nat) (h : Nat → Nat → ℝ) (g : Nat → Nat → Nat → Nat → ℝ) (D : Nat → Nat → ℝ)
    (d : Nat → Nat → Nat → Nat → ℝ) : ℝ :=
  1 / 2 * ((∑ i ∈ range ni, 2 * |h i i|) + (∑ x ∈ range na, ∑ y ∈ range na, |D x y| * |h (ni + x) (ni + y)|) +
    ∑ p ∈ range (na + ni), genFockSize ni na h g D d p p)

/-- size of the energy of core and active space, `sum_xy D_xy Fi_xy + sum_xyzw d_xyzw (xy|zw)` and the energy of the core -/
noncomputable def splitEnergySize (ni na : Nat) (h : Nat → Nat → ℝ) (g : Nat → Nat → Nat → Nat → ℝ) (D : Nat → Nat → ℝ)
    (d : Nat → Nat → Nat → Nat → ℝ) (Ecore : ℝ) : ℝ :=
  (∑ x ∈ range na, ∑ y ∈ range na, |D x y| * fiSize ni h g (ni + x) (ni + y)) +
  (∑ x ∈ range na, ∑ y ∈ range na, ∑ z ∈ range na, ∑ w ∈ range na, |d x y z w| * |g (ni + x) (ni + y) (ni + z) (ni + w)|) +
  (coreSize ni h g + |Ecore|)

/-- size of the element `2 (F_pq - F_qp)` of the orbital gradient; the rows of the virtual orbitals are zero -/
noncomputable def gradSize (ni na : Nat) (h : Nat → Nat → ℝ) (g : Nat → Nat → Nat → Nat → ℝ) (D : Nat → Nat → ℝ)
    (d : Nat → Nat → Nat → Nat → ℝ) (p q : Nat) : ℝ :=
  2 * ((if p < ni + na then genFockSize ni na h g D d p q else 0) +
    (if q < ni + na then genFockSize ni na h g D d q p else 0))

end Macis.Spec
