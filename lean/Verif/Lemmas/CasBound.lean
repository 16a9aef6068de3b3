import Verif.Lemmas.CoreWidth
import Verif.Props.Rotate
/-! Lower bounds of the full Hamiltonian bound the CAS energies. -/
namespace Macis
open Spec Finset

variable {M M' : Nat}

/-- `mu` bounds the energy expectation values of `I` over the determinants of a list from below -/
def LowerBound (I : Integrals ℝ) (fci : List (BitVec (2 * M'))) (mu : ℝ) : Prop :=
  ∀ y : Nat → ℝ, mu * ∑ k ∈ range fci.length, y k * y k ≤
    ∑ k ∈ range fci.length, ∑ l ∈ range fci.length, y k * y l * hamiltonian I (fci.getD k 0) (fci.getD l 0)

/-- a bound over all determinants of a sector bounds the expectation value in any normalised combination of some -/
theorem LowerBound.apply {I : Integrals ℝ} {fci full : List (BitVec (2 * M'))} {mu : ℝ} (h : LowerBound I fci mu)
    (hnd : fci.Nodup) (ndf : full.Nodup) (sub : ∀ s ∈ full, s ∈ fci) {C : Nat → ℝ}
    (h1 : ∑ i ∈ range full.length, C i * C i = 1) :
    mu ≤ ∑ i ∈ range full.length, ∑ j ∈ range full.length, C i * C j *
      hamiltonian I (full.getD i 0) (full.getD j 0) := by
  have hin : ∀ i < full.length, ∃ k < fci.length, fci.getD k 0 = full.getD i 0 := by
    intro i hi
    have hm := sub full[i] (List.getElem_mem hi)
    obtain ⟨k, hk, e⟩ := List.mem_iff_getElem.1 hm
    exact ⟨k, hk, by rw [List.getD_eq_getElem _ _ hk, List.getD_eq_getElem _ _ hi, e]⟩
  have hgi : ∀ k < fci.length, ∀ l < fci.length, fci.getD k 0 = fci.getD l 0 → k = l := by
    intro k hk l hl e
    rw [List.getD_eq_getElem _ _ hk, List.getD_eq_getElem _ _ hl] at e
    exact hnd.getElem_inj_iff.1 e
  have pb := fun F : BitVec (2 * M') → ℝ => pullback_sum (n := full.length) (N := fci.length)
    (f := fun i => full.getD i 0) (g := fun k => fci.getD k 0) C hgi hin F
  have key := h fun k => ∑ i ∈ range full.length, if full.getD i 0 = fci.getD k 0 then C i else 0
  have e1 : ∑ k ∈ range fci.length,
      (∑ i ∈ range full.length, if full.getD i 0 = fci.getD k 0 then C i else 0) *
      (∑ i ∈ range full.length, if full.getD i 0 = fci.getD k 0 then C i else 0) = 1 := by
    rw [pb fun d => ∑ i ∈ range full.length, if full.getD i 0 = d then C i else 0, ← h1]
    refine Finset.sum_congr rfl fun i hi => ?_
    rw [Finset.sum_eq_single i, if_pos rfl]
    · intro j hj hne
      rw [if_neg]
      intro e
      rw [List.getD_eq_getElem _ _ (Finset.mem_range.1 hj), List.getD_eq_getElem _ _ (Finset.mem_range.1 hi)] at e
      exact hne (ndf.getElem_inj_iff.1 e)
    · intro hn; exact absurd hi hn
  have e2 : ∑ k ∈ range fci.length, ∑ l ∈ range fci.length,
      (∑ i ∈ range full.length, if full.getD i 0 = fci.getD k 0 then C i else 0) *
      (∑ i ∈ range full.length, if full.getD i 0 = fci.getD l 0 then C i else 0) *
        hamiltonian I (fci.getD k 0) (fci.getD l 0) =
      ∑ i ∈ range full.length, ∑ j ∈ range full.length, C i * C j *
        hamiltonian I (full.getD i 0) (full.getD j 0) := by
    rw [Finset.sum_congr rfl fun k _ => by
      rw [Finset.sum_congr rfl fun l _ => mul_assoc _ _ _, ← Finset.mul_sum,
        pb fun d => hamiltonian I (fci.getD k 0) d]]
    rw [pb fun d => ∑ j ∈ range full.length, C j * hamiltonian I d (full.getD j 0)]
    refine Finset.sum_congr rfl fun i _ => ?_
    rw [Finset.mul_sum]
    exact Finset.sum_congr rfl fun j _ => (mul_assoc _ _ _).symm
  rw [e1, e2, mul_one] at key
  exact key

/-- rotating the orbitals keeps lower bounds -/
theorem LowerBound.rotate {no ldt ldc ldy : Nat} (hn : no ≤ M') (hy : no ≤ ldy) (T V C Y Z : Nat → ℝ)
    (hC : ∀ p q, p < no → q < no → ∑ i ∈ range no, C (i + p * ldc) * C (i + q * ldc) = if p = q then 1 else 0)
    {na nb : Nat} {fci : List (BitVec (2 * M'))} (nd : fci.Nodup)
    (mem : ∀ s, s ∈ fci ↔ InSpace no s ∧ alphaElectrons s = na ∧ betaElectrons s = nb) {mu : ℝ}
    (h : LowerBound ⟨no, asMat T ldt, asTen V no⟩ fci mu) :
    LowerBound ⟨no, asMat (twoIndexTransform no no T ldt C ldc Y ldy) ldy,
      asTen (fourIndexTransform no no V no C ldc Z no) no⟩ fci mu := by
  intro x
  obtain ⟨y, e1, e2⟩ := C151_expectation hn hy T V C Y Z hC nd mem (ldt := ldt) x
  rw [← e1, ← e2]
  exact h y

end Macis
