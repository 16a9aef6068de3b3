import Verif.Lemmas.Frozen
import Verif.Props.Fock
import Verif.Props.Casci
import Mathlib.Algebra.BigOperators.Ring.List
/-! C131: freezing a doubly occupied core. -/
namespace Macis
open Spec Finset

variable {M : Nat} {R : Type} [Field R]

theorem withCore_lo {ni na : Nat} {d D : BitVec (2 * M)} (h : WithCore ni d D) (hs : InSpace na d)
    (hM : ni + na ≤ M) : Emb ni (loWord d) (loWord D) := by
  intro j
  have hs := ((inSpace_iff d).1 hs).1
  by_cases hj : j < M
  · rw [getLsbD_loWord, getLsbD_loWord]
    simp only [hj, show j - ni < M by omega, decide_true, Bool.true_and]
    rw [(h j hj).1]
    by_cases hn : j < ni <;> simp [hn]
  · rw [BitVec.getLsbD_of_ge _ _ (by omega)]
    have : (loWord d).getLsbD (j - ni) = false := by
      cases hb : (loWord d).getLsbD (j - ni)
      · rfl
      · have := hs _ hb; omega
    simp [this]
    omega

theorem withCore_hi {ni na : Nat} {d D : BitVec (2 * M)} (h : WithCore ni d D) (hs : InSpace na d)
    (hM : ni + na ≤ M) : Emb ni (hiWord d) (hiWord D) := by
  intro j
  have hs := ((inSpace_iff d).1 hs).2
  by_cases hj : j < M
  · rw [getLsbD_hiWord, getLsbD_hiWord]
    simp only [hj, show j - ni < M by omega, decide_true, Bool.true_and]
    rw [(h j hj).2]
    by_cases hn : j < ni <;> simp [hn]
  · rw [BitVec.getLsbD_of_ge _ _ (by omega)]
    have : (hiWord d).getLsbD (j - ni) = false := by
      cases hb : (hiWord d).getLsbD (j - ni)
      · rfl
      · have := hs _ hb; omega
    simp [this]
    omega

theorem emb_electrons {ni na : Nat} {a A : BitVec M} (h : Emb ni a A) (hs : SupportedOn na a)
    (hM : ni + na ≤ M) : electrons A = ni + electrons a := by
  have := h.occSum (R := ℚ) hs hM (fun _ => 1)
  simp only [List.map_const', List.sum_replicate, nsmul_eq_mul, mul_one, Finset.sum_const,
    Finset.card_range] at this
  exact_mod_cast this

theorem withCore_sector {ni na no : Nat} {d D d' D' : BitVec (2 * M)} (h : WithCore ni d D)
    (h' : WithCore ni d' D') (hs : InSpace na d) (hs' : InSpace na d') (hM : ni + na ≤ M)
    (hn : ni + na ≤ no) (he : SameSector d d') : InSpace no D ∧ SameSector D D' := by
  have s1 := (inSpace_iff d).1 hs
  have s2 := (inSpace_iff d').1 hs'
  have sup : ∀ {x X : BitVec M}, Emb ni x X → SupportedOn na x → SupportedOn no X := by
    intro x X hx hs j hj
    rw [hx, Bool.or_eq_true, decide_eq_true_eq] at hj
    rcases hj with hj | hj
    · omega
    · have := hs _ hj; omega
  refine ⟨(inSpace_iff D).2 ⟨sup (withCore_lo h hs hM) s1.1, sup (withCore_hi h hs hM) s1.2⟩, ?_, ?_⟩
  · rw [alphaElectrons_eq, alphaElectrons_eq, emb_electrons (withCore_lo h hs hM) s1.1 hM,
      emb_electrons (withCore_lo h' hs' hM) s2.1 hM, ← alphaElectrons_eq, ← alphaElectrons_eq, he.1]
  · rw [betaElectrons_eq, betaElectrons_eq, emb_electrons (withCore_hi h hs hM) s1.2 hM,
      emb_electrons (withCore_hi h' hs' hM) s2.2 hM, ← betaElectrons_eq, ← betaElectrons_eq, he.2]

/-- matrix elements with and without core, for any pair of integral records -/
theorem core_me (h2 : (2 : R) ≠ 0) {ni na : Nat} {I J : Integrals R} (hM : ni + na ≤ M)
    (hI : PairSymBelow (ni + na) I) (hJ : ActiveInts ni na I J)
    {bra ket braF ketF : BitVec (2 * M)} (hb : InSpace na bra) (hk : InSpace na ket)
    (hs : SameSector bra ket) (hbF : WithCore ni bra braF) (hkF : WithCore ni ket ketF) :
    I.matrixElement braF ketF = (if bra = ket then coreEnergy ni I else 0) + J.matrixElement bra ket := by
  have key := matrixElementSpin_core (M := M) h2 hI hJ
    (withCore_lo hbF hb hM) (withCore_lo hkF hk hM) (withCore_hi hbF hb hM) (withCore_hi hkF hk hM) ((inSpace_iff bra).1 hb).1
    ((inSpace_iff ket).1 hk).1 ((inSpace_iff bra).1 hb).2 ((inSpace_iff ket).1 hk).2 hM
    (by rw [← alphaElectrons_eq, ← alphaElectrons_eq]; exact hs.1)
    (by rw [← betaElectrons_eq, ← betaElectrons_eq]; exact hs.2)
  unfold Integrals.matrixElement
  simp only [bitsToIndices_eq_occ]
  rw [key]
  congr 1
  have : (loWord bra = loWord ket ∧ hiWord bra = hiWord ket) ↔ bra = ket := by
    constructor
    · rintro ⟨e1, e2⟩
      rw [← joinSpin_lo_hi bra, ← joinSpin_lo_hi ket, e1, e2]
    · rintro rfl
      exact ⟨rfl, rfl⟩
  simp only [this]

theorem activeInts_of_arrays {no ni na ldt ldv ldf ldta ldva : Nat}
    (hn : ni + na ≤ no) (hf : no ≤ ldf) (hta : na ≤ ldta) (hva : na ≤ ldva)
    (T V Fi Ta Va : Nat → R) :
    let H := activeHamiltonian no na ni T ldt V ldv Fi ldf Ta ldta Va ldva
    ActiveInts ni na (⟨no, asMat T ldt, asTen V ldv⟩ : Integrals R)
      ⟨na, asMat H.2.1 ldta, asTen H.2.2 ldva⟩ ∧
    inactiveEnergy ni T ldt H.1 ldf = coreEnergy ni (⟨no, asMat T ldt, asTen V ldv⟩ : Integrals R) := by
  intro H
  have hfi : ∀ p q, p < no → q < no → H.1 (p + q * ldf) = fi ni (asMat T ldt) (asTen V ldv) p q :=
    fun p q hp hq => inactiveFock_val hf T V Fi hp hq
  refine ⟨⟨fun v w hv hw => ?_, fun v w x y hv hw hx hy => ?_⟩, ?_⟩
  · have : H.2.1 (v + w * ldta) = H.1 (v + ni + (w + ni) * ldf) :=
      (fill2 hta Ta (fun x => H.1 (x.1 + ni + (x.2 + ni) * ldf))).1 v w hv hw
    change H.2.1 (v + w * ldta) = _
    rw [this, hfi _ _ (by omega) (by omega)]
    rfl
  · have : H.2.2 (addr4 ldva v w x y) = V (v + ni + (w + ni) * ldv + (x + ni) * (ldv * ldv) +
        (y + ni) * (ldv * ldv * ldv)) :=
      (fill4 hva Va (fun x => V (x.1 + ni + (x.2.1 + ni) * ldv + (x.2.2.1 + ni) * (ldv * ldv) +
        (x.2.2.2 + ni) * (ldv * ldv * ldv)))).1 v w x y hv hw hx hy
    change H.2.2 (addr4 ldva v w x y) = V (addr4 ldv _ _ _ _)
    rw [this, addr4]
    congr 1
    ring
  · unfold inactiveEnergy coreEnergy
    rw [← Finset.sum_add_distrib]
    refine Finset.sum_congr rfl fun i hi => ?_
    rw [Finset.mem_range] at hi
    have e : ∀ ld, i * (ld + 1) = i + i * ld := by intro ld; ring
    rw [e, e, hfi _ _ (by omega) (by omega), fi]
    simp only [asMat]
    ring

/-- C131.  A matrix element between determinants with a doubly occupied core, over the integrals of all
orbitals, is the one between the active parts over the integrals `active_hamiltonian` computes, plus the
inactive energy on the diagonal. -/
theorem C131_matrix_element (h2 : (2 : R) ≠ 0) {no ni na ldt ldv ldf ldta ldva : Nat}
    (hn : ni + na ≤ no) (hM : ni + na ≤ M) (hf : no ≤ ldf) (hta : na ≤ ldta) (hva : na ≤ ldva)
    (T V Fi Ta Va : Nat → R)
    (hV : ∀ p q r s, p < no → q < no → r < no → s < no →
      asTen V ldv p q r s = asTen V ldv r s p q)
    {bra ket braF ketF : BitVec (2 * M)} (hb : InSpace na bra) (hk : InSpace na ket)
    (hs : SameSector bra ket) (hbF : WithCore ni bra braF) (hkF : WithCore ni ket ketF) :
    let H := activeHamiltonian no na ni T ldt V ldv Fi ldf Ta ldta Va ldva
    (⟨no, asMat T ldt, asTen V ldv⟩ : Integrals R).matrixElement braF ketF =
      (if bra = ket then inactiveEnergy ni T ldt H.1 ldf else 0) +
      (⟨na, asMat H.2.1 ldta, asTen H.2.2 ldva⟩ : Integrals R).matrixElement bra ket := by
  intro H
  obtain ⟨hJ, hE⟩ := activeInts_of_arrays hn hf hta hva T V Fi Ta Va (ldt := ldt) (ldv := ldv)
  rw [core_me h2 hM
    (fun p q r s hp hq hr hs => hV p q r s (by omega) (by omega) (by omega) (by omega)) hJ hb hk hs hbF
    hkF, hE]

/-- the integrals with everything beyond the orbitals replaced by 0 -/
def Integrals.cut (I : Integrals R) : Integrals R where
  norb := I.norb
  T p q := if p < I.norb ∧ q < I.norb then I.T p q else 0
  V p q r s := if (p < I.norb ∧ q < I.norb) ∧ r < I.norb ∧ s < I.norb then I.V p q r s else 0

theorem hamiltonian_congr {I J : Integrals R} (hn : J.norb = I.norb)
    (hT : ∀ p q, p < I.norb → q < I.norb → J.T p q = I.T p q)
    (hV : ∀ p q r s, p < I.norb → q < I.norb → r < I.norb → s < I.norb → J.V p q r s = I.V p q r s)
    (bra ket : BitVec (2 * M)) : hamiltonian J bra ket = hamiltonian I bra ket := by
  unfold hamiltonian
  rw [hn]
  refine congrArg₂ (· + ·) ?_ (congrArg (2⁻¹ * ·) ?_)
  · refine Finset.sum_congr rfl fun σ _ => Finset.sum_congr rfl fun p hp => Finset.sum_congr rfl fun q hq => ?_
    rw [hT p q (Finset.mem_range.1 hp) (Finset.mem_range.1 hq)]
  · refine Finset.sum_congr rfl fun σ _ => Finset.sum_congr rfl fun τ _ => Finset.sum_congr rfl fun p hp =>
      Finset.sum_congr rfl fun q hq => Finset.sum_congr rfl fun r hr => Finset.sum_congr rfl fun s hs => ?_
    rw [hV p q r s (Finset.mem_range.1 hp) (Finset.mem_range.1 hq) (Finset.mem_range.1 hr) (Finset.mem_range.1 hs)]

theorem hamiltonian_cut (I : Integrals R) (bra ket : BitVec (2 * M)) :
    hamiltonian I.cut bra ket = hamiltonian I bra ket :=
  hamiltonian_congr (I := I) (J := I.cut) rfl (fun p q hp hq => if_pos ⟨hp, hq⟩)
    (fun p q r s hp hq hr hs => by
      simp only [Integrals.cut]
      rw [if_pos ⟨⟨hp, hq⟩, hr, hs⟩]) bra ket

theorem cut_pairSym {I : Integrals R} (h : PairSymBelow I.norb I) : PairSymmetric I.cut := by
  intro p q r s
  simp only [Integrals.cut]
  by_cases c : (p < I.norb ∧ q < I.norb) ∧ r < I.norb ∧ s < I.norb
  · rw [if_pos c, if_pos ⟨c.2, c.1⟩]
    exact h p q r s c.1.1 c.1.2 c.2.1 c.2.2
  · rw [if_neg c, if_neg fun c' => c ⟨c'.2, c'.1⟩]

/-- the second-quantised Hamiltonian with and without core -/
theorem core_hamiltonian (h2 : (2 : R) ≠ 0) {ni na : Nat} {I J : Integrals R} (hM : I.norb ≤ M)
    (hn : ni + na ≤ I.norb) (hj : J.norb = na) (hI : PairSymBelow I.norb I) (hJ : ActiveInts ni na I J)
    {bra ket braF ketF : BitVec (2 * M)} (hb : InSpace na bra) (hk : InSpace na ket)
    (hs : SameSector bra ket) (hbF : WithCore ni bra braF) (hkF : WithCore ni ket ketF) :
    hamiltonian I braF ketF = (if bra = ket then coreEnergy ni I else 0) + hamiltonian J bra ket := by
  obtain ⟨s1, s2⟩ := withCore_sector hbF hkF hb hk (by omega) hn hs
  obtain ⟨s3, -⟩ := withCore_sector hkF hbF hk hb (by omega) hn ⟨hs.1.symm, hs.2.symm⟩
  have hJp : PairSymBelow J.norb J := by
    intro p q r s hp hq hr hs
    rw [hJ.V p q r s (by omega) (by omega) (by omega) (by omega),
      hJ.V r s p q (by omega) (by omega) (by omega) (by omega)]
    exact hI _ _ _ _ (by omega) (by omega) (by omega) (by omega)
  have cT : ∀ (X : Integrals R) p q, p < X.norb → q < X.norb → X.cut.T p q = X.T p q :=
    fun X p q hp hq => if_pos ⟨hp, hq⟩
  have cV : ∀ (X : Integrals R) p q r s, p < X.norb → q < X.norb → r < X.norb → s < X.norb →
      X.cut.V p q r s = X.V p q r s := fun X p q r s hp hq hr hs => if_pos ⟨⟨hp, hq⟩, hr, hs⟩
  have hJc : ActiveInts ni na I.cut J.cut := by
    refine ⟨fun p q hp hq => ?_, fun p q r s hp hq hr hs => ?_⟩
    · rw [cT J p q (by omega) (by omega), cT I _ _ (by omega) (by omega), hJ.T p q hp hq]
      congr 1
      refine Finset.sum_congr rfl fun i hi => ?_
      rw [Finset.mem_range] at hi
      rw [cV I _ _ _ _ (by omega) (by omega) (by omega) (by omega),
        cV I _ _ _ _ (by omega) (by omega) (by omega) (by omega)]
    · rw [cV J _ _ _ _ (by omega) (by omega) (by omega) (by omega),
        cV I _ _ _ _ (by omega) (by omega) (by omega) (by omega), hJ.V p q r s hp hq hr hs]
  have hE : coreEnergy ni I.cut = coreEnergy ni I := by
    unfold coreEnergy
    congr 1
    · refine Finset.sum_congr rfl fun i hi => ?_
      rw [Finset.mem_range] at hi
      rw [cT I _ _ (by omega) (by omega)]
    · refine Finset.sum_congr rfl fun i hi => Finset.sum_congr rfl fun j hj => ?_
      rw [Finset.mem_range] at hi hj
      rw [cV I _ _ _ _ (by omega) (by omega) (by omega) (by omega),
        cV I _ _ _ _ (by omega) (by omega) (by omega) (by omega)]
  have key := core_me h2 (by omega) (fun p q r s _ _ _ _ => cut_pairSym hI p q r s) hJc hb hk hs hbF hkF
  rw [C13_slater_condon M I.cut hM h2 (cut_pairSym hI) braF ketF s1 s3 s2,
    C13_slater_condon M J.cut (by change J.norb ≤ M; omega) h2 (cut_pairSym hJp) bra ket
      (by change InSpace J.norb bra; rw [hj]; exact hb) (by change InSpace J.norb ket; rw [hj]; exact hk) hs,
    hamiltonian_cut, hamiltonian_cut, hE] at key
  exact key

/-- C131.  The same for the second-quantised Hamiltonian itself. -/
theorem C131_hamiltonian (h2 : (2 : R) ≠ 0) {no ni na ldt ldv ldf ldta ldva : Nat}
    (hn : ni + na ≤ no) (hM : no ≤ M) (hf : no ≤ ldf) (hta : na ≤ ldta) (hva : na ≤ ldva)
    (T V Fi Ta Va : Nat → R)
    (hV : ∀ p q r s, p < no → q < no → r < no → s < no →
      asTen V ldv p q r s = asTen V ldv r s p q)
    {bra ket braF ketF : BitVec (2 * M)} (hb : InSpace na bra) (hk : InSpace na ket)
    (hs : SameSector bra ket) (hbF : WithCore ni bra braF) (hkF : WithCore ni ket ketF) :
    let H := activeHamiltonian no na ni T ldt V ldv Fi ldf Ta ldta Va ldva
    hamiltonian (⟨no, asMat T ldt, asTen V ldv⟩ : Integrals R) braF ketF =
      (if bra = ket then inactiveEnergy ni T ldt H.1 ldf else 0) +
      hamiltonian (⟨na, asMat H.2.1 ldta, asTen H.2.2 ldva⟩ : Integrals R) bra ket := by
  intro H
  obtain ⟨hJ, hE⟩ := activeInts_of_arrays hn hf hta hva T V Fi Ta Va (ldt := ldt) (ldv := ldv)
  rw [core_hamiltonian h2 (I := ⟨no, asMat T ldt, asTen V ldv⟩)
    (J := ⟨na, asMat H.2.1 ldta, asTen H.2.2 ldva⟩) hM hn rfl hV hJ hb hk hs hbF hkF, hE]

/-- C131.  Hence the energy expectation value of a CI vector with frozen core is the inactive energy
times its norm plus the active-space expectation value. -/
theorem C131_expectation (h2 : (2 : R) ≠ 0) {no ni na ldt ldv ldf ldta ldva : Nat}
    (hn : ni + na ≤ no) (hM : ni + na ≤ M) (hf : no ≤ ldf) (hta : na ≤ ldta) (hva : na ≤ ldva)
    (T V Fi Ta Va : Nat → R)
    (hV : ∀ p q r s, p < no → q < no → r < no → s < no →
      asTen V ldv p q r s = asTen V ldv r s p q)
    {n : Nat} {act full : Fin n → BitVec (2 * M)} (hi : Function.Injective act)
    (hb : ∀ k, InSpace na (act k)) (hs : ∀ k l, SameSector (act k) (act l))
    (hF : ∀ k, WithCore ni (act k) (full k)) (C : Fin n → R) :
    let H := activeHamiltonian no na ni T ldt V ldv Fi ldf Ta ldta Va ldva
    ∑ k, ∑ l, C k * C l * (⟨no, asMat T ldt, asTen V ldv⟩ : Integrals R).matrixElement (full k) (full l) =
      inactiveEnergy ni T ldt H.1 ldf * ∑ k, C k * C k +
      ∑ k, ∑ l, C k * C l *
        (⟨na, asMat H.2.1 ldta, asTen H.2.2 ldva⟩ : Integrals R).matrixElement (act k) (act l) := by
  intro H
  rw [Finset.mul_sum, ← Finset.sum_add_distrib]
  refine Finset.sum_congr rfl fun k _ => ?_
  have : ∀ l, C k * C l * (⟨no, asMat T ldt, asTen V ldv⟩ : Integrals R).matrixElement (full k) (full l) =
      C k * C l * (if k = l then inactiveEnergy ni T ldt H.1 ldf else 0) + C k * C l *
        (⟨na, asMat H.2.1 ldta, asTen H.2.2 ldva⟩ : Integrals R).matrixElement (act k) (act l) := by
    intro l
    rw [C131_matrix_element h2 hn hM hf hta hva T V Fi Ta Va hV (hb k) (hb l) (hs k l) (hF k) (hF l),
      mul_add]
    simp only [hi.eq_iff]
    rfl
  rw [Finset.sum_congr rfl fun l _ => this l, Finset.sum_add_distrib]
  congr 1
  simp only [mul_ite, mul_zero, Finset.sum_ite_eq, Finset.mem_univ, if_true]
  ring

/-- every active-space determinant has exactly one determinant with core -/
theorem C131_core_exists (ni na : Nat) (hM : ni + na ≤ M) (act : BitVec (2 * M)) :
    ∃! full : BitVec (2 * M), WithCore ni act full := by
  have bit : ∀ (a : BitVec M) (j : Nat), j < M →
      (a <<< ni ||| fullMask M ni).getLsbD j = if j < ni then true else a.getLsbD (j - ni) := by
    intro a j hj
    rw [BitVec.getLsbD_or, BitVec.getLsbD_shiftLeft, getLsbD_fullMask (by omega)]
    by_cases h : j < ni
    · simp [h]
    · simp [h, hj]
  refine ⟨joinSpin (loWord act <<< ni ||| fullMask M ni) (hiWord act <<< ni ||| fullMask M ni), ?_, ?_⟩
  · intro j hj
    rw [join_alpha_bit _ _ hj, join_beta_bit, bit _ _ hj, bit _ _ hj, getLsbD_loWord, getLsbD_hiWord]
    simp [show j - ni < M by omega]
  · intro y hy
    refine BitVec.eq_of_getLsbD_eq fun i hi => ?_
    by_cases h : i < M
    · rw [(hy i h).1, join_alpha_bit _ _ h, bit _ _ h, getLsbD_loWord]
      simp [show i - ni < M by omega]
    · obtain ⟨k, rfl⟩ : ∃ k, i = k + M := ⟨i - M, by omega⟩
      rw [(hy k (by omega)).2, join_beta_bit, bit _ _ (by omega), getLsbD_hiWord]
      simp [show k - ni < M by omega]

/-- core of one orbital, two active orbitals, `M = 3`: the hypotheses hold for the determinants
`|20⟩`, `|02⟩` of the active space. -/
example : InSpace (M := 3) 2 0b001001#6 ∧ InSpace (M := 3) 2 0b010010#6 ∧
    SameSector (M := 3) 0b001001#6 0b010010#6 ∧ WithCore (M := 3) 1 0b001001#6 0b011011#6 ∧
    WithCore (M := 3) 1 0b010010#6 0b101101#6 ∧
    (⟨3, fun p q => if p = q then (p + 1 : Rat) else 0, fun p q r s => (p + q + r + s + 1 : Rat)⟩ :
      Integrals Rat).matrixElement (M := 3) 0b011011#6 0b101101#6 = 7 := by
  refine ⟨by decide, by decide, by decide, ?_, ?_, by decide +kernel⟩
  · unfold WithCore; decide
  · unfold WithCore; decide

/-! ### C132 -/

theorem quad_thresh {n : Nat} {x : Nat → ℝ} {h : Nat → Nat → ℝ} {thresh : ℝ} (h0 : 0 ≤ thresh)
    (hx : ∑ i ∈ Finset.range n, x i * x i = 1) :
    |(∑ i ∈ Finset.range n, ∑ j ∈ Finset.range n, x i * x j * (if |h i j| > thresh then h i j else 0)) -
      ∑ i ∈ Finset.range n, ∑ j ∈ Finset.range n, x i * x j * h i j| ≤ thresh * n := by
  have hcs : ∑ i ∈ Finset.range n, ∑ j ∈ Finset.range n, |x i * x j| ≤ n := by
    have e : ∑ i ∈ Finset.range n, ∑ j ∈ Finset.range n, |x i * x j| =
        (∑ i ∈ Finset.range n, |x i|) ^ 2 := by
      rw [sq, Finset.sum_mul_sum]
      exact Finset.sum_congr rfl fun i _ => Finset.sum_congr rfl fun j _ => abs_mul _ _
    have := sq_sum_le_card_mul_sum_sq (s := Finset.range n) (f := fun i => |x i|)
    rw [Finset.card_range] at this
    rw [e]
    refine this.trans ?_
    rw [Finset.sum_congr rfl fun i _ => by rw [sq_abs, sq], hx, mul_one]
  have hpt : ∀ i j, |x i * x j * (if |h i j| > thresh then h i j else 0) - x i * x j * h i j| ≤
      thresh * |x i * x j| := by
    intro i j
    by_cases c1 : |h i j| > thresh
    · rw [if_pos c1, sub_self, abs_zero]
      exact mul_nonneg h0 (abs_nonneg _)
    · rw [if_neg c1, mul_zero, zero_sub, abs_neg, abs_mul, mul_comm]
      exact mul_le_mul_of_nonneg_right (not_lt.mp c1) (abs_nonneg _)
  rw [← Finset.sum_sub_distrib]
  refine (Finset.abs_sum_le_sum_abs _ _).trans ?_
  refine (Finset.sum_le_sum fun i _ => ?_ : _ ≤ ∑ i ∈ Finset.range n, ∑ j ∈ Finset.range n,
    thresh * |x i * x j|).trans ?_
  · rw [← Finset.sum_sub_distrib]
    exact (Finset.abs_sum_le_sum_abs _ _).trans (Finset.sum_le_sum fun j _ => hpt i j)
  · simp only [← Finset.mul_sum]
    exact mul_le_mul_of_nonneg_left hcs h0

/-- C132.  Total energy of a CAS-CI calculation: `active_hamiltonian`, then serial
`compute_casci_rdms` in the active space.  The inactive energy plus the returned energy is, up to the
matrix-element threshold, the expectation value of the Hamiltonian over all orbitals in the returned
(normalised) vector, whose `i`-th determinant is the `i`-th active one over the doubly occupied core. -/
theorem C132_total_energy {no ni ldt ldv ldf ldta ldva : Nat} (J : Integrals ℝ)
    (hn : ni + J.norb ≤ no) (hM : no ≤ M) (hf : no ≤ ldf) (hta : J.norb ≤ ldta) (hva : J.norb ≤ ldva)
    (T V Fi Ta Va : Nat → ℝ)
    (hV : ∀ p q r s, p < no → q < no → r < no → s < no →
      asTen V ldv p q r s = asTen V ldv r s p q)
    {H : (Nat → ℝ) × (Nat → ℝ) × (Nat → ℝ)}
    (hH : H = activeHamiltonian no J.norb ni T ldt V ldv Fi ldf Ta ldta Va ldva)
    (hJT : ∀ p q, p < J.norb → q < J.norb → J.T p q = asMat H.2.1 ldta p q)
    (hJV : ∀ p q r s, p < J.norb → q < J.norb → r < J.norb → s < J.norb →
      J.V p q r s = asTen H.2.2 ldva p q r s)
    (hJ : RealSymmetric J) {nalpha nbeta : Nat} (hna : nalpha ≤ J.norb) (hnb : nbeta ≤ J.norb)
    {thresh : ℝ} (h0 : 0 ≤ thresh)
    {eig : Nat → (Nat → Nat → ℝ) → ℝ × (Nat → ℝ)} (he : LowestPair eig) (maxM : Nat) (tol : ℝ)
    (C : List ℝ)
    (hC : (∀ c ∈ C, c = 0) ∨
      (C.length = J.norb.choose nalpha * J.norb.choose nbeta ∧ (C.map fun c => c * c).sum = 1))
    {r : CasciResult}
    (h : computeCasciRdms M eig J nalpha nbeta thresh maxM tol C zeroRdms = some r) :
    ∃ act full : List (BitVec (2 * M)), act.Nodup ∧
      (∀ s, s ∈ act ↔ InSpace J.norb s ∧ alphaElectrons s = nalpha ∧ betaElectrons s = nbeta) ∧
      List.Forall₂ (WithCore ni) act full ∧
      let n := full.length
      let I : Integrals ℝ := ⟨no, asMat T ldt, asTen V ldv⟩
      (∑ i ∈ Finset.range n, r.C i * r.C i) = 1 ∧
      |(inactiveEnergy ni T ldt H.1 ldf + r.E0) - ∑ i ∈ Finset.range n, ∑ j ∈ Finset.range n,
        r.C i * r.C j * hamiltonian I (full.getD i 0) (full.getD j 0)| ≤ thresh * n := by
  obtain ⟨act, nd, mem, h1, h2, -⟩ := C120_casci J (by omega) hJ hna hnb h0 he maxM tol C hC h
  have hcore : ∀ d : BitVec (2 * M), WithCore ni d (Classical.choose (C131_core_exists ni J.norb (by omega) d)) :=
    fun d => (Classical.choose_spec (C131_core_exists ni J.norb (by omega) d)).1
  set fl : BitVec (2 * M) → BitVec (2 * M) := fun d => Classical.choose (C131_core_exists ni J.norb (by omega) d)
    with hfl
  refine ⟨act, act.map fl, nd, mem, ?_, ?_⟩
  · rw [List.forall₂_map_right_iff]
    exact List.forall₂_same.2 fun d _ => hcore d
  rw [List.length_map]
  refine ⟨h1, ?_⟩
  obtain ⟨hA, hE⟩ := activeInts_of_arrays hn hf hta hva T V Fi Ta Va (ldt := ldt) (ldv := ldv)
  rw [← hH] at hA hE
  have hA' : ActiveInts ni J.norb (⟨no, asMat T ldt, asTen V ldv⟩ : Integrals ℝ) J :=
    ⟨fun p q hp hq => by rw [hJT p q hp hq]; exact hA.T p q hp hq,
     fun p q r s hp hq hr hs => by rw [hJV p q r s hp hq hr hs]; exact hA.V p q r s hp hq hr hs⟩
  have hfull : ∀ i ∈ Finset.range act.length, ∀ j ∈ Finset.range act.length,
      r.C i * r.C j * hamiltonian (⟨no, asMat T ldt, asTen V ldv⟩ : Integrals ℝ) ((act.map fl).getD i 0)
        ((act.map fl).getD j 0) =
      (if i = j then r.C i * r.C i * inactiveEnergy ni T ldt H.1 ldf else 0) +
        r.C i * r.C j * hamiltonian J (act.getD i 0) (act.getD j 0) := by
    intro i hi j hj
    rw [Finset.mem_range] at hi hj
    have ei : (act.map fl).getD i 0 = fl (act.getD i 0) := by
      rw [List.getD_eq_getElem _ _ (by rw [List.length_map]; exact hi), List.getElem_map,
        List.getD_eq_getElem _ _ hi]
    have ej : (act.map fl).getD j 0 = fl (act.getD j 0) := by
      rw [List.getD_eq_getElem _ _ (by rw [List.length_map]; exact hj), List.getElem_map,
        List.getD_eq_getElem _ _ hj]
    have mi := (mem (act.getD i 0)).1 (by rw [List.getD_eq_getElem _ _ hi]; exact List.getElem_mem hi)
    have mj := (mem (act.getD j 0)).1 (by rw [List.getD_eq_getElem _ _ hj]; exact List.getElem_mem hj)
    rw [ei, ej, core_hamiltonian two_ne_zero (I := ⟨no, asMat T ldt, asTen V ldv⟩) hM hn rfl hV hA' mi.1 mj.1
      ⟨by rw [mi.2.1, mj.2.1], by rw [mi.2.2, mj.2.2]⟩ (hcore _) (hcore _), mul_add, hE]
    congr 1
    have : act.getD i 0 = act.getD j 0 ↔ i = j := by
      rw [List.getD_eq_getElem _ _ hi, List.getD_eq_getElem _ _ hj]
      exact nd.getElem_inj_iff
    by_cases c : i = j
    · rw [if_pos c, if_pos (this.2 c), c]
    · rw [if_neg c, if_neg fun e => c (this.1 e), mul_zero]
  rw [Finset.sum_congr rfl fun i hi => Finset.sum_congr rfl fun j hj => hfull i hi j hj]
  have hsum : ∑ i ∈ Finset.range act.length, ∑ j ∈ Finset.range act.length,
      ((if i = j then r.C i * r.C i * inactiveEnergy ni T ldt H.1 ldf else 0) +
        r.C i * r.C j * hamiltonian J (act.getD i 0) (act.getD j 0)) =
      inactiveEnergy ni T ldt H.1 ldf + ∑ i ∈ Finset.range act.length, ∑ j ∈ Finset.range act.length,
        r.C i * r.C j * hamiltonian J (act.getD i 0) (act.getD j 0) := by
    simp only [Finset.sum_add_distrib]
    congr 1
    rw [Finset.sum_congr rfl fun i hi => Finset.sum_ite_eq (Finset.range act.length) i
      (fun _ => r.C i * r.C i * inactiveEnergy ni T ldt H.1 ldf)]
    rw [Finset.sum_congr rfl fun i hi => if_pos hi, ← Finset.sum_mul, h1, one_mul]
  rw [hsum, h2]
  have := quad_thresh (h := fun i j => hamiltonian J (act.getD i 0) (act.getD j 0)) h0 h1
  simp only [ciMatrix]
  rw [add_sub_add_left_eq_sub]
  exact this

theorem pullback_sum {A : Type} [DecidableEq A] {n N : Nat} {f g : Nat → A} (C : Nat → ℝ)
    (hg : ∀ k < N, ∀ l < N, g k = g l → k = l) (hf : ∀ i < n, ∃ k < N, g k = f i) (F : A → ℝ) :
    ∑ k ∈ range N, (∑ i ∈ range n, if f i = g k then C i else 0) * F (g k) =
      ∑ i ∈ range n, C i * F (f i) := by
  simp only [Finset.sum_mul]
  rw [Finset.sum_comm]
  refine Finset.sum_congr rfl fun i hi => ?_
  obtain ⟨k, hk, e⟩ := hf i (Finset.mem_range.1 hi)
  rw [Finset.sum_eq_single k]
  · rw [if_pos e.symm, e]
  · intro l hl hne
    rw [if_neg, zero_mul]
    intro e'
    exact hne (hg l (Finset.mem_range.1 hl) k hk (by rw [e, e']))
  · intro h
    exact absurd (Finset.mem_range.2 hk) h

/-- C132.  The total energy is variational: whatever `mu` bounds the energy expectation values over
all determinants of the full orbital space from below (such as the full-CI ground state energy), the
inactive energy plus the returned energy is at least `mu`, up to the matrix-element threshold. -/
theorem C132_variational {no ni ldt ldv ldf ldta ldva : Nat} (J : Integrals ℝ)
    (hn : ni + J.norb ≤ no) (hM : no ≤ M) (hf : no ≤ ldf) (hta : J.norb ≤ ldta) (hva : J.norb ≤ ldva)
    (T V Fi Ta Va : Nat → ℝ)
    (hV : ∀ p q r s, p < no → q < no → r < no → s < no →
      asTen V ldv p q r s = asTen V ldv r s p q)
    {H : (Nat → ℝ) × (Nat → ℝ) × (Nat → ℝ)}
    (hH : H = activeHamiltonian no J.norb ni T ldt V ldv Fi ldf Ta ldta Va ldva)
    (hJT : ∀ p q, p < J.norb → q < J.norb → J.T p q = asMat H.2.1 ldta p q)
    (hJV : ∀ p q r s, p < J.norb → q < J.norb → r < J.norb → s < J.norb →
      J.V p q r s = asTen H.2.2 ldva p q r s)
    (hJ : RealSymmetric J) {nalpha nbeta : Nat} (hna : nalpha ≤ J.norb) (hnb : nbeta ≤ J.norb)
    {thresh : ℝ} (h0 : 0 ≤ thresh)
    {eig : Nat → (Nat → Nat → ℝ) → ℝ × (Nat → ℝ)} (he : LowestPair eig) (maxM : Nat) (tol : ℝ)
    (C : List ℝ)
    (hC : (∀ c ∈ C, c = 0) ∨
      (C.length = J.norb.choose nalpha * J.norb.choose nbeta ∧ (C.map fun c => c * c).sum = 1))
    {r : CasciResult}
    (h : computeCasciRdms M eig J nalpha nbeta thresh maxM tol C zeroRdms = some r)
    (fci : List (BitVec (2 * M))) (hnd : fci.Nodup)
    (hfci : ∀ s, s ∈ fci ↔
      InSpace no s ∧ alphaElectrons s = ni + nalpha ∧ betaElectrons s = ni + nbeta) (mu : ℝ)
    (hmu : ∀ y : Nat → ℝ, mu * ∑ k ∈ range fci.length, y k * y k ≤
      ∑ k ∈ range fci.length, ∑ l ∈ range fci.length, y k * y l *
        hamiltonian (⟨no, asMat T ldt, asTen V ldv⟩ : Integrals ℝ) (fci.getD k 0) (fci.getD l 0)) :
    mu ≤ inactiveEnergy ni T ldt H.1 ldf + r.E0 +
      thresh * (J.norb.choose nalpha * J.norb.choose nbeta : Nat) := by
  obtain ⟨act, full, nd, mem, hF, h1, hE⟩ := C132_total_energy J hn hM hf hta hva T V Fi Ta Va hV hH hJT hJV hJ
    hna hnb h0 he maxM tol C hC h
  have hlen : full.length = J.norb.choose nalpha * J.norb.choose nbeta := by
    rw [← hF.length_eq]
    obtain ⟨l, hl, nd', len, mem'⟩ := C10_hilbert_space_exact M J.norb nalpha nbeta (by omega) hna hnb
    rw [← len]
    refine (List.perm_of_nodup_nodup_toFinset_eq nd nd' ?_).length_eq
    ext s
    rw [List.mem_toFinset, List.mem_toFinset, mem, mem', inSpace_iff, alphaElectrons_eq, betaElectrons_eq]
    tauto
  have hget := List.forall₂_iff_get.1 hF
  have hcore : ∀ i < full.length, ∃ d ∈ act, WithCore ni d (full.getD i 0) ∧
      ∀ j < full.length, full.getD i 0 = full.getD j 0 → i = j := by
    intro i hi
    have hia : i < act.length := by rw [hget.1]; exact hi
    refine ⟨act[i], List.getElem_mem hia, ?_, fun j hj e => ?_⟩
    · rw [List.getD_eq_getElem _ _ hi]
      exact hget.2 i hia hi
    · have hja : j < act.length := by rw [hget.1]; exact hj
      have mi := (mem _).1 (List.getElem_mem hia)
      have mj := (mem _).1 (List.getElem_mem hja)
      rw [List.getD_eq_getElem _ _ hi, List.getD_eq_getElem _ _ hj] at e
      have w1 : WithCore ni act[i] full[i] := hget.2 i hia hi
      have w2 : WithCore ni act[j] full[j] := hget.2 j hja hj
      rw [← e] at w2
      have inj : ∀ {x y X : BitVec M}, Emb ni x X → Emb ni y X → x = y := by
        intro x y X hx hy
        refine BitVec.eq_of_getLsbD_eq fun k _ => ?_
        rw [← hx.hi k, ← hy.hi k]
      have : act[i] = act[j] := by
        rw [← joinSpin_lo_hi act[i], ← joinSpin_lo_hi act[j],
          inj (withCore_lo w1 mi.1 (by omega)) (withCore_lo w2 mj.1 (by omega)),
          inj (withCore_hi w1 mi.1 (by omega)) (withCore_hi w2 mj.1 (by omega))]
      exact nd.getElem_inj_iff.1 this
  have hin : ∀ i < full.length, ∃ k < fci.length, fci.getD k 0 = full.getD i 0 := by
    intro i hi
    obtain ⟨d, hd, hw, -⟩ := hcore i hi
    have md := (mem d).1 hd
    have hm : full.getD i 0 ∈ fci := by
      rw [hfci]
      have := withCore_sector hw hw md.1 md.1 (by omega) hn ⟨rfl, rfl⟩
      have s1 := (inSpace_iff d).1 md.1
      refine ⟨this.1, ?_, ?_⟩
      · rw [alphaElectrons_eq, emb_electrons (withCore_lo hw md.1 (by omega)) s1.1 (by omega),
          ← alphaElectrons_eq, md.2.1]
      · rw [betaElectrons_eq, emb_electrons (withCore_hi hw md.1 (by omega)) s1.2 (by omega),
          ← betaElectrons_eq, md.2.2]
    obtain ⟨k, hk, e⟩ := List.mem_iff_getElem.1 hm
    exact ⟨k, hk, by rw [List.getD_eq_getElem _ _ hk, e]⟩
  have hgi : ∀ k < fci.length, ∀ l < fci.length, fci.getD k 0 = fci.getD l 0 → k = l := by
    intro k hk l hl e
    rw [List.getD_eq_getElem _ _ hk, List.getD_eq_getElem _ _ hl] at e
    exact hnd.getElem_inj_iff.1 e
  have pb := fun F : BitVec (2 * M) → ℝ => pullback_sum (n := full.length) (N := fci.length)
    (f := fun i => full.getD i 0) (g := fun k => fci.getD k 0) r.C hgi hin F
  have key := hmu fun k => ∑ i ∈ range full.length, if full.getD i 0 = fci.getD k 0 then r.C i else 0
  have e1 : ∑ k ∈ range fci.length,
      (∑ i ∈ range full.length, if full.getD i 0 = fci.getD k 0 then r.C i else 0) *
      (∑ i ∈ range full.length, if full.getD i 0 = fci.getD k 0 then r.C i else 0) = 1 := by
    rw [pb fun d => ∑ i ∈ range full.length, if full.getD i 0 = d then r.C i else 0, ← h1]
    refine Finset.sum_congr rfl fun i hi => ?_
    rw [Finset.sum_eq_single i, if_pos rfl]
    · intro j hj hne
      rw [if_neg]
      intro e
      obtain ⟨-, -, -, hu⟩ := hcore j (Finset.mem_range.1 hj)
      exact hne (hu i (Finset.mem_range.1 hi) e)
    · intro hn; exact absurd hi hn
  have e2 : ∑ k ∈ range fci.length, ∑ l ∈ range fci.length,
      (∑ i ∈ range full.length, if full.getD i 0 = fci.getD k 0 then r.C i else 0) *
      (∑ i ∈ range full.length, if full.getD i 0 = fci.getD l 0 then r.C i else 0) *
        hamiltonian (⟨no, asMat T ldt, asTen V ldv⟩ : Integrals ℝ) (fci.getD k 0) (fci.getD l 0) =
      ∑ i ∈ range full.length, ∑ j ∈ range full.length, r.C i * r.C j *
        hamiltonian (⟨no, asMat T ldt, asTen V ldv⟩ : Integrals ℝ) (full.getD i 0) (full.getD j 0) := by
    rw [Finset.sum_congr rfl fun k _ => by
      rw [Finset.sum_congr rfl fun l _ => mul_assoc _ _ _, ← Finset.mul_sum,
        pb fun d => hamiltonian (⟨no, asMat T ldt, asTen V ldv⟩ : Integrals ℝ) (fci.getD k 0) d]]
    rw [pb fun d => ∑ j ∈ range full.length, r.C j *
      hamiltonian (⟨no, asMat T ldt, asTen V ldv⟩ : Integrals ℝ) d (full.getD j 0)]
    refine Finset.sum_congr rfl fun i _ => ?_
    rw [Finset.mul_sum]
    exact Finset.sum_congr rfl fun j _ => (mul_assoc _ _ _).symm
  rw [e1, e2, mul_one] at key
  have hE' := (abs_le.1 hE).1
  rw [hlen] at hE' key
  rw [← hlen] at *
  linarith

/-- `compute_casci_rdms` for one electron in these orbitals meets the hypotheses of C120 with room for a core orbital and
returns. -/
theorem casci_example3 : RealSymmetric casI ∧ ∃ eig, LowestPair eig ∧
    ∃ r, computeCasciRdms 3 eig casI 1 0 0 2 1 [] zeroRdms = some r := by
  have hI : RealSymmetric casI := by
    refine ⟨fun p q => ?_, fun _ _ _ _ => rfl, fun _ _ _ _ => rfl⟩
    simp only [casI]
    congr 1
    exact propext and_comm
  refine ⟨hI, ?_⟩
  obtain ⟨eig, he⟩ := exists_lowestPair
  refine ⟨eig, he, ?_⟩
  have hd : generateHilbertSpace 3 casI.norb 1 0 = some [1#6, 2#6] := by
    change generateHilbertSpace 3 2 1 0 = _
    decide +kernel
  have hn : casI.norb ≤ 3 := by decide
  obtain ⟨hS, -⟩ := hilbert_sector hn (by decide) (by decide) hd
  set dets : List (BitVec (2 * 3)) := [1#6, 2#6] with hdets
  have h0 : (0 : ℝ) ≤ 0 := le_refl 0
  have hm : (casI.csrHamiltonian dets 0).m = 2 := csrBlock_m casI h0 dets dets
  have hW : CsrWF (casI.csrHamiltonian dets 0) := csrBlock_wf casI h0 dets dets
  have hent : ∀ i j, i < 2 → j < 2 → csrEntry (casI.csrHamiltonian dets 0) i j = ciMatrix casI dets 0 i j :=
    fun i j hi hj => ciMatrix_entry casI hn hI h0 hS hi hj
  obtain ⟨iter, E, x, hx⟩ := serialDiag_two_levels (H := casI.csrHamiltonian dets 0) hW
    (by rw [hm]; exact csrBlock_n casI h0 dets dets) hm
    (sorted_rowCols_nodup hW (csrBlock_sorted casI h0 dets dets))
    (fun i j hi hj => by
      rw [hm] at hi hj
      rw [hent i j hi hj, hent j i hj hi]; exact ciMatrix_symm casI hn hI 0 dets i j)
    (by
      rw [hent 0 1 (by omega) (by omega), ciMatrix]
      have : hamiltonian casI (dets.getD 0 0) (dets.getD 1 0) = 1 := by
        rw [hamiltonian_rdm]
        have e : ∀ p < 2, ∀ q < 2, rdm1 (M := 3) (1#6) (2#6) p q = if p = 0 ∧ q = 1 then 1 else 0 := by
          decide +kernel
        have e2 : ∀ p ∈ range 2, ∀ q ∈ range 2, casI.T p q * ((rdm1 (M := 3) (dets.getD 0 0) (dets.getD 1 0) p q : Int) : ℝ) =
            if p = 0 ∧ q = 1 then 1 else 0 := by
          intro p hp q hq
          have := e p (mem_range.1 hp) q (mem_range.1 hq)
          simp only [hdets, List.getD_cons_zero, List.getD_cons_succ]
          rw [this]
          by_cases c : p = 0 ∧ q = 1
          · rw [if_pos c]; simp [casI, c.1, c.2]
          · rw [if_neg c, if_neg c]; simp
        have e3 : ∀ f : Nat → Nat → ℝ, (∀ p ∈ range 2, ∀ q ∈ range 2, f p q = if p = 0 ∧ q = 1 then 1 else 0) →
            ∑ p ∈ range 2, ∑ q ∈ range 2, f p q = 1 := by
          intro f hf
          rw [sum_congr rfl fun p hp => sum_congr rfl fun q hq => hf p hp q hq]
          simp [sum_range_succ]
        have := e3 _ e2
        have hV : ∀ p q r s, casI.V p q r s = 0 := fun _ _ _ _ => rfl
        simp only [hV, zero_mul, sum_const_zero, mul_zero, add_zero]
        exact this
      rw [this]
      norm_num)
    he (le_refl 2) (tol := 1) one_pos
  unfold computeCasciRdms
  rw [hd]
  dsimp only
  rw [selectedCiDiag, hx]
  exact ⟨_, rfl⟩


/-- arrays over three orbitals: a core orbital of energy -5 below the two coupled levels -/
noncomputable def coreT (k : Nat) : ℝ :=
  if k = 0 then -5 else if k = 5 ∨ k = 7 ∨ k = 8 then 1 else 0

/-- C132 applies to an actual run with one core orbital -/
example : ∃ (eig : Nat → (Nat → Nat → ℝ) → ℝ × (Nat → ℝ)) (r : CasciResult),
    LowestPair eig ∧ computeCasciRdms 3 eig casI 1 0 0 2 1 [] zeroRdms = some r ∧
    ∃ act full : List (BitVec (2 * 3)), List.Forall₂ (WithCore 1) act full ∧
      (-10 + r.E0) = ∑ i ∈ Finset.range full.length, ∑ j ∈ Finset.range full.length,
        r.C i * r.C j * hamiltonian (⟨3, asMat coreT 3, asTen (fun _ => 0) 3⟩ : Integrals ℝ)
          (full.getD i 0) (full.getD j 0) := by
  obtain ⟨hI, eig, he, r, hr⟩ := casci_example3
  refine ⟨eig, r, he, hr, ?_⟩
  have hx := activeInts_of_arrays (R := ℝ) (no := 3) (ni := 1) (na := 2) (ldt := 3) (ldv := 3) (ldf := 3)
    (ldta := 2) (ldva := 2) (by decide) (by decide) (by decide) (by decide) coreT (fun _ => 0) (fun _ => 0)
    (fun _ => 0) (fun _ => 0)
  dsimp only at hx
  obtain ⟨H, hH⟩ : ∃ H, H = activeHamiltonian 3 2 1 coreT 3 (fun _ => 0) 3 (fun _ => 0) 3 (fun _ => 0) 2
    (fun _ => 0) 2 := ⟨_, rfl⟩
  rw [← hH] at hx
  obtain ⟨hx1, hx2⟩ := hx
  have hT : ∀ p q, p < 2 → q < 2 → casI.T p q = asMat H.2.1 2 p q := by
    intro p q hp hq
    refine Eq.trans ?_ (hx1.T p q hp hq).symm
    have hp : p = 0 ∨ p = 1 := by omega
    have hq : q = 0 ∨ q = 1 := by omega
    rcases hp with rfl | rfl <;> rcases hq with rfl | rfl <;>
      simp [casI, asMat, asTen, coreT]
  have hV : ∀ p q r s, p < 2 → q < 2 → r < 2 → s < 2 → casI.V p q r s = asTen H.2.2 2 p q r s := by
    intro p q r s hp hq hr hs
    exact Eq.trans rfl (hx1.V p q r s hp hq hr hs).symm
  obtain ⟨act, full, -, -, hF, -, hE⟩ := C132_total_energy (M := 3) (no := 3) (ni := 1) (ldt := 3) (ldv := 3)
    (ldf := 3) (ldta := 2) (ldva := 2) casI (by decide) (by decide) (by decide) (by decide) (by decide)
    coreT (fun _ => 0) (fun _ => 0) (fun _ => 0) (fun _ => 0) (fun _ _ _ _ _ _ _ _ => rfl) hH
    hT hV hI (by decide) (by decide) (le_refl 0) he 2 1 [] (Or.inl (by simp)) hr
  refine ⟨act, full, hF, ?_⟩
  rw [zero_mul] at hE
  have hin : inactiveEnergy 1 coreT 3 H.1 3 = -10 := by
    rw [hx2, coreEnergy]
    simp [asMat, asTen, coreT]
    norm_num
  rw [hin] at hE
  exact sub_eq_zero.1 (abs_nonpos_iff.1 hE)

end Macis
