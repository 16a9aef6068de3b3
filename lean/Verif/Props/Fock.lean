import Verif.Model.Fock
import Verif.Lemmas.Fock1
import Verif.Lemmas.Transform
import Verif.Props.RdmBin
import Mathlib.Algebra.Field.Rat

/-! Property C39: reduction to the active space. -/
namespace Macis
open Spec Finset

variable {R : Type} [Field R]

/-- The matrix stored at `A` with leading dimension `ld`. -/
def asMat (A : Nat → R) (ld : Nat) : Nat → Nat → R := fun p q => A (p + q * ld)

/-- The four-index tensor stored at `A` with leading dimension `ld`. -/
def asTen (A : Nat → R) (ld : Nat) : Nat → Nat → Nat → Nat → R := fun p q r s => A (addr4 ld p q r s)

/-- filling an `m x n` block at a row offset -/
theorem fillMN {R : Type} {m n ld off : Nat} (hld : off + m ≤ ld) (C : Nat → R) (f : Nat × Nat → R) :
    (∀ i j, i < m → j < n →
      storeAll C ((pairsMN m n).map fun x => (x.1 + off + x.2 * ld, f x)) (i + off + j * ld) =
        f (i, j)) ∧
    (∀ a, (∀ i j, i < m → j < n → a ≠ i + off + j * ld) →
      storeAll C ((pairsMN m n).map fun x => (x.1 + off + x.2 * ld, f x)) a = C a) := by
  constructor
  · intro i j hi hj
    apply storeAll_const
    · intro w hw hwa
      obtain ⟨⟨a, b⟩, hx, rfl⟩ := List.mem_map.mp hw
      obtain ⟨h1, h2⟩ := mem_pairsMN.mp hx
      simp only at h1 h2
      obtain ⟨e, rfl⟩ := addr2_inj (le_refl ld) (show a + off < ld by omega)
        (show i + off < ld by omega) hwa
      have : a = i := by omega
      subst this
      rfl
    · exact ⟨_, List.mem_map.mpr ⟨(i, j), mem_pairsMN.mpr ⟨hi, hj⟩, rfl⟩, rfl⟩
  · intro a ha
    apply storeAll_none
    intro w hw hwa
    obtain ⟨⟨i, j⟩, hx, rfl⟩ := List.mem_map.mp hw
    obtain ⟨h1, h2⟩ := mem_pairsMN.mp hx
    exact ha i j h1 h2 hwa.symm

theorem inactiveFock_val {no ni ldt ldv ldf : Nat} (hf : no ≤ ldf) (T V F : Nat → R) {p q : Nat}
    (hp : p < no) (hq : q < no) :
    inactiveFockMatrix no ni T ldt V ldv F ldf (p + q * ldf) =
      fi ni (asMat T ldt) (asTen V ldv) p q := by
  rw [inactiveFockMatrix, (fill2 hf F _).1 p q hp hq, fi, asMat]
  congr 1
  apply Finset.sum_congr rfl
  intro i _
  simp only [asTen, addr4]
  congr 2 <;> [congr 1; skip] <;> ring_nf

theorem activeFock_val {no ni na ldv ldd ldf : Nat} (hf : no ≤ ldf) (V D F : Nat → R) {p q : Nat}
    (hp : p < no) (hq : q < no) :
    activeFockMatrix no ni na V ldv D ldd F ldf (p + q * ldf) =
      fa ni na (asTen V ldv) (asMat D ldd) p q := by
  rw [activeFockMatrix, (fill2 hf F _).1 p q hp hq, fa]
  apply Finset.sum_congr rfl
  intro v _
  apply Finset.sum_congr rfl
  intro w _
  have e1 : p + q * ldv + (v + ni) * (ldv * ldv) + (w + ni) * (ldv * ldv * ldv) =
      addr4 ldv p q (ni + v) (ni + w) := by rw [addr4]; ring
  have e2 : p + q * (ldv * ldv * ldv) + (w + ni) * ldv + (v + ni) * (ldv * ldv) =
      addr4 ldv p (ni + w) (ni + v) q := by rw [addr4]; ring
  simp only [asMat, asTen, e1, e2]

theorem auxQ_val {na no ni ldv ldd ldq : Nat} (hq : na ≤ ldq) (V D2 Q : Nat → R) {v o : Nat}
    (hv : v < na) (ho : o < no) :
    auxQMatrix na no ni V ldv D2 ldd Q ldq (v + o * ldq) =
      2 * ∑ w ∈ range na, ∑ x ∈ range na, ∑ y ∈ range na,
        asTen D2 ldd v w x y * asTen V ldv o (ni + w) (ni + x) (ni + y) := by
  have := (fillMN (m := na) (n := no) (off := 0) (ld := ldq) (by omega) Q (fun x =>
    2 * ∑ w ∈ Finset.range na, ∑ y ∈ Finset.range na, ∑ z ∈ Finset.range na,
      D2 (x.1 + w * ldd + y * (ldd * ldd) + z * (ldd * ldd * ldd)) *
        V (x.2 + (w + ni) * ldv + (y + ni) * (ldv * ldv) + (z + ni) * (ldv * ldv * ldv)))).1
    v o hv ho
  simp only [Nat.add_zero] at this
  rw [auxQMatrix]
  refine this.trans ?_
  congr 1
  apply Finset.sum_congr rfl; intro w _
  apply Finset.sum_congr rfl; intro x _
  apply Finset.sum_congr rfl; intro y _
  simp only [asTen, addr4]
  congr 2 <;> ring

/-- What `generalized_fock_matrix` stores: rows of inactive and active orbitals only. -/
theorem genFockMatrix_val {no ni na ldfi ldfa ldd ldq ldf : Nat} (hf : ni + na ≤ ldf)
    (Fi Fa D Q F : Nat → R) :
    (∀ i o, i < ni → o < no → generalizedFockMatrix no ni na Fi ldfi Fa ldfa D ldd Q ldq F ldf
      (i + o * ldf) = 2 * (asMat Fi ldfi o i + asMat Fa ldfa o i)) ∧
    (∀ v o, v < na → o < no → generalizedFockMatrix no ni na Fi ldfi Fa ldfa D ldd Q ldq F ldf
      (ni + v + o * ldf) = (∑ w ∈ range na, asMat Fi ldfi o (ni + w) * asMat D ldd w v) +
        asMat Q ldq v o) ∧
    (∀ a, (∀ p o, p < ni + na → o < no → a ≠ p + o * ldf) →
      generalizedFockMatrix no ni na Fi ldfi Fa ldfa D ldd Q ldq F ldf a = F a) := by
  refine ⟨?_, ?_, ?_⟩
  · intro i o hi ho
    rw [generalizedFockMatrix]
    rw [(fillMN (off := ni) (by omega) _ _).2]
    · have := (fillMN (m := ni) (n := no) (off := 0) (ld := ldf) (by omega) F (fun x =>
        2 * (Fi (x.2 + x.1 * ldfi) + Fa (x.2 + x.1 * ldfa)))).1 i o hi ho
      simpa only [Nat.add_zero, asMat] using this
    · intro v o' hv ho' h
      obtain ⟨e, _⟩ := addr2_inj (le_refl ldf) (show i < ldf by omega)
        (show v + ni < ldf by omega) h
      omega
  · intro v o hv ho
    rw [generalizedFockMatrix, Nat.add_comm ni v, (fillMN (off := ni) (by omega) _ _).1 v o hv ho]
    have h1 := (gemm_spec false no na na (fun a => Fi (ni * ldfi + a)) ldfi D ldd (fun _ => 0) 0 no
      (le_refl no)).1 o v ho hv
    rw [Nat.zero_add] at h1
    rw [h1]
    simp only [asMat, Bool.false_eq_true, if_false]
    congr 1
    apply Finset.sum_congr rfl; intro w _
    congr 2; ring
  · intro a ha
    rw [generalizedFockMatrix, (fillMN (off := ni) (by omega) _ _).2]
    · have := (fillMN (m := ni) (n := no) (off := 0) (ld := ldf) (by omega) F (fun x =>
        2 * (Fi (x.2 + x.1 * ldfi) + Fa (x.2 + x.1 * ldfa)))).2 a (by
          intro i o hi ho
          exact ha i o (by omega) ho)
      simpa only [Nat.add_zero] using this
    · intro v o hv ho
      exact ha (v + ni) o (by omega) ho

/-- C39: the generalized Fock matrix `F_po = sum_q D_pq h_oq + 2 sum_qrs d_pqrs (oq|rs)` of the
completed density is stored for inactive and active `p` and every `o < norb`; no other element of the
array is changed (the rows of the virtual orbitals, where this matrix is zero, are left as they were). -/
theorem C39_generalized_fock (h2 : (2 : R) ≠ 0) {no ni na ldt ldv ldd1 ldd2 ldf : Nat}
    (hn : ni + na ≤ no) (hf : no ≤ ldf) (T V D1 D2 F : Nat → R)
    (hD : ∀ v w, v < na → w < na → asMat D1 ldd1 v w = asMat D1 ldd1 w v) :
    (∀ p o, p < ni + na → o < no →
      generalizedFockCompMat2 no ni na T ldt V ldv D1 ldd1 D2 ldd2 F ldf (p + o * ldf) =
        genFock no (asMat T ldt) (asTen V ldv) (full1 ni na (asMat D1 ldd1))
          (full2 ni na (asMat D1 ldd1) (asTen D2 ldd2)) p o) ∧
    (∀ p o, ni + na ≤ p →
      genFock no (asMat T ldt) (asTen V ldv) (full1 ni na (asMat D1 ldd1))
        (full2 ni na (asMat D1 ldd1) (asTen D2 ldd2)) p o = 0) ∧
    (∀ a, (∀ p o, p < ni + na → o < no → a ≠ p + o * ldf) →
      generalizedFockCompMat2 no ni na T ldt V ldv D1 ldd1 D2 ldd2 F ldf a = F a) := by
  have sp := genFockMatrix_val (no := no) (ni := ni) (na := na) (ldfi := no) (ldfa := no)
    (ldd := ldd1) (ldq := na) (ldf := ldf) (by omega)
    (inactiveFockMatrix no ni T ldt V ldv (fun _ => 0) no)
    (activeFockMatrix no ni na V ldv D1 ldd1 (fun _ => 0) no) D1
    (auxQMatrix na no ni V ldv D2 ldd2 (fun _ => 0) na) F
  refine ⟨?_, fun p o hp => genFock_virtual hn hp o, sp.2.2⟩
  intro p o hp ho
  by_cases hpi : p < ni
  · rw [genFock_inactive h2 hn hpi]
    refine (sp.1 p o hpi ho).trans ?_
    rw [asMat, asMat, inactiveFock_val (le_refl no) T V _ ho (by omega),
      activeFock_val (le_refl no) V D1 _ ho (by omega)]
  · obtain ⟨v, rfl⟩ : ∃ v, p = ni + v := ⟨p - ni, by omega⟩
    have hv : v < na := by omega
    rw [genFock_active h2 hn hv]
    refine (sp.2.1 v o hv ho).trans ?_
    congr 1
    · apply Finset.sum_congr rfl
      intro w hw
      rw [Finset.mem_range] at hw
      rw [asMat, inactiveFock_val (le_refl no) T V _ ho (by omega), hD w v hw hv, mul_comm]
    · rw [asMat, auxQ_val (le_refl na) V D2 _ hv ho]

/-- C39: inactive energy plus active-space energy is the energy of the full orbital space.  Arrays
`Fi`, `T_active`, `V_active` as `active_hamiltonian` leaves them. -/
theorem C39_energy_split (h2 : (2 : R) ≠ 0) {no ni na ldt ldv ldf ldta ldva ldd1 ldd2 : Nat}
    (hn : ni + na ≤ no) (hf : no ≤ ldf) (hta : na ≤ ldta) (hva : na ≤ ldva)
    (T V Fi Ta Va D1 D2 : Nat → R)
    (hV : ∀ p q r s, p < no → q < no → r < no → s < no →
      asTen V ldv p q r s = asTen V ldv r s p q) :
    let H := activeHamiltonian no na ni T ldt V ldv Fi ldf Ta ldta Va ldva
    inactiveEnergy ni T ldt H.1 ldf +
      energy na (asMat H.2.1 ldta) (asTen H.2.2 ldva) (asMat D1 ldd1) (asTen D2 ldd2) =
    energy no (asMat T ldt) (asTen V ldv) (full1 ni na (asMat D1 ldd1))
      (full2 ni na (asMat D1 ldd1) (asTen D2 ldd2)) := by
  intro H
  rw [energy_split h2 hn (fun p q r s a b c d => hV p q r s (by omega) (by omega) (by omega)
    (by omega))]
  congr 1
  · apply Finset.sum_congr rfl
    intro i hi
    rw [Finset.mem_range] at hi
    have e : ∀ ld, i * (ld + 1) = i + i * ld := by intro ld; ring
    have e2 : H.1 (i + i * ldf) = _ := inactiveFock_val (ldt := ldt) (ldv := ldv) (ni := ni) hf T V Fi
      (show i < no by omega) (show i < no by omega)
    rw [e, e, e2]
    rfl
  · rw [energy, energy]
    congr 1
    · apply Finset.sum_congr rfl; intro v hv
      apply Finset.sum_congr rfl; intro w hw
      rw [Finset.mem_range] at hv hw
      congr 1
      have : H.2.1 (v + w * ldta) = H.1 (v + ni + (w + ni) * ldf) :=
        (fill2 hta Ta (fun x => H.1 (x.1 + ni + (x.2 + ni) * ldf))).1 v w hv hw
      have e2 : H.1 (v + ni + (w + ni) * ldf) = _ := inactiveFock_val (ldt := ldt) (ldv := ldv)
        (ni := ni) hf T V Fi (show v + ni < no by omega) (show w + ni < no by omega)
      rw [asMat, this, e2, Nat.add_comm v, Nat.add_comm w]
    · apply Finset.sum_congr rfl; intro v hv
      apply Finset.sum_congr rfl; intro w hw
      apply Finset.sum_congr rfl; intro x hx
      apply Finset.sum_congr rfl; intro y hy
      rw [Finset.mem_range] at hv hw hx hy
      congr 1
      have : H.2.2 (addr4 ldva v w x y) = V (v + ni + (w + ni) * ldv + (x + ni) * (ldv * ldv) +
          (y + ni) * (ldv * ldv * ldv)) :=
        (fill4 hva Va (fun x => V (x.1 + ni + (x.2.1 + ni) * ldv + (x.2.2.1 + ni) * (ldv * ldv) +
          (x.2.2.2 + ni) * (ldv * ldv * ldv)))).1 v w x y hv hw hx hy
      rw [asTen, this, asTen, addr4]
      congr 1; ring

/-- C39: `energy_from_generalized_fock` after `generalized_fock_matrix_comp_mat2` computes the energy
of the full orbital space. -/
theorem C39_energy_from_fock (h2 : (2 : R) ≠ 0) {no ni na ldt ldv ldd1 ldd2 ldf : Nat}
    (hn : ni + na ≤ no) (hf : no ≤ ldf) (T V D1 D2 F : Nat → R)
    (hD : ∀ v w, v < na → w < na → asMat D1 ldd1 v w = asMat D1 ldd1 w v) :
    energyFromGeneralizedFock ni na T ldt D1 ldd1
      (generalizedFockCompMat2 no ni na T ldt V ldv D1 ldd1 D2 ldd2 F ldf) ldf =
    energy no (asMat T ldt) (asTen V ldv) (full1 ni na (asMat D1 ldd1))
      (full2 ni na (asMat D1 ldd1) (asTen D2 ldd2)) := by
  obtain ⟨h1, h0, _⟩ := C39_generalized_fock h2 (ldt := ldt) (ldv := ldv) (ldd2 := ldd2) hn hf T V D1
    D2 F hD
  rw [energyFromGeneralizedFock, energy_eq_trace h2, one_body_full hn]
  congr 1
  congr 1
  · congr 1
    · rw [mul_sum]
      apply Finset.sum_congr rfl; intro i _
      rw [asMat]; congr 2; ring
    · apply Finset.sum_congr rfl; intro v _
      apply Finset.sum_congr rfl; intro w _
      rw [asMat, asMat, Nat.add_comm v ni, Nat.add_comm w ni]
  · have : no = (na + ni) + (no - (na + ni)) := by omega
    rw [show (∑ p ∈ range no, genFock no (asMat T ldt) (asTen V ldv) (full1 ni na (asMat D1 ldd1))
        (full2 ni na (asMat D1 ldd1) (asTen D2 ldd2)) p p) =
        ∑ p ∈ range (na + ni), genFock no (asMat T ldt) (asTen V ldv) (full1 ni na (asMat D1 ldd1))
        (full2 ni na (asMat D1 ldd1) (asTen D2 ldd2)) p p from by
      conv_lhs => rw [show range no = range ((na + ni) + (no - (na + ni))) by rw [← this]]
      rw [Finset.sum_range_add, Finset.sum_eq_zero (s := range (no - (na + ni))), add_zero]
      intro x _
      exact h0 _ _ (by omega)]
    apply Finset.sum_congr rfl
    intro p hp
    rw [Finset.mem_range] at hp
    rw [← h1 p p (by omega) (by omega)]
    congr 1; ring

/-- integrals of a concrete case with padded storage: one inactive, one active, one virtual orbital -/
def exV : Nat → Rat := fun a => (((a % 4 + a / 4 % 4 + 1) * (a / 16 % 4 + a / 64 % 4 + 1) : Nat) : Rat)

/-- the hypotheses of the theorems above hold in this case -/
example :
    (∀ p q r s, p < 3 → q < 3 → r < 3 → s < 3 → asTen exV 4 p q r s = asTen exV 4 r s p q) ∧
    (∀ v w, v < 1 → w < 1 → asMat (fun a => (a : Rat) + 1) 2 v w =
      asMat (fun a => (a : Rat) + 1) 2 w v) := by
  constructor
  · have : ∀ p < 3, ∀ q < 3, ∀ r < 3, ∀ s < 3, asTen exV 4 p q r s = asTen exV 4 r s p q := by
      decide +kernel
    exact fun p q r s a b c d => this p a q b r c s d
  · intro v w hv hw
    have : v = w := by omega
    rw [this]

end Macis
