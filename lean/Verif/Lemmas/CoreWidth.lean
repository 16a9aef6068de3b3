import Verif.Props.CutInts
/-! Total energies when the active-space determinants are stored with fewer bits than there are orbitals. -/
namespace Macis
open Spec Finset

variable {M M' : Nat}

/-- T symmetric and V with all symmetries on the first `n` orbitals -/
structure SymBelow (n : Nat) (I : Integrals ℝ) : Prop where
  T : ∀ p q, p < n → q < n → I.T p q = I.T q p
  pair : ∀ p q r s, p < n → q < n → r < n → s < n → I.V p q r s = I.V r s p q
  swap : ∀ p q r s, p < n → q < n → r < n → s < n → I.V p q r s = I.V q p r s

theorem cut_real {I : Integrals ℝ} (h : SymBelow I.norb I) : RealSymmetric I.cut := by
  refine ⟨fun p q => ?_, cut_pairSym h.pair, fun p q r s => ?_⟩
  · simp only [Integrals.cut]
    by_cases c : p < I.norb ∧ q < I.norb
    · rw [if_pos c, if_pos c.symm, h.T p q c.1 c.2]
    · rw [if_neg c, if_neg fun c' => c c'.symm]
  · simp only [Integrals.cut]
    by_cases c : (p < I.norb ∧ q < I.norb) ∧ r < I.norb ∧ s < I.norb
    · rw [if_pos c, if_pos ⟨c.1.symm, c.2⟩, h.swap p q r s c.1.1 c.1.2 c.2.1 c.2.2]
    · rw [if_neg c, if_neg fun c' => c ⟨c'.1.symm, c'.2⟩]

/-- a determinant over a core, in two steps: change the width, then add the core -/
theorem withCoreAt_of {ni na : Nat} (hM' : ni + na ≤ M') {act : BitVec (2 * M)} {mid full : BitVec (2 * M')}
    (hna : na ≤ M) (hs : SameOcc na act mid) (hc : WithCore ni mid full) : WithCoreAt ni act full := by
  have key : ∀ σ j, j < M' → ¬ j < ni →
      mid.getLsbD (so M' σ (j - ni)) = (decide (j - ni < M) && act.getLsbD (so M σ (j - ni))) := by
    intro σ j hj hn
    by_cases c : j - ni < na
    · rw [← hs.bit σ _ c]; simp [show j - ni < M by omega]
    · rw [hs.hi σ _ (by omega) (by omega)]
      by_cases d : j - ni < M
      · rw [hs.lo σ _ (by omega) d]; simp
      · simp [d]
  intro j hj
  rw [(hc j hj).1, (hc j hj).2]
  by_cases c : j < ni
  · simp [c]
  · rw [if_neg c, if_neg c, if_neg c, if_neg c]
    exact ⟨key false j hj c, key true j hj c⟩

/-- everything about the result of `compute_casci_rdms` that the total energy needs -/
theorem casci_total {no ni ldt ldv ldf ldta ldva : Nat} (J : Integrals ℝ)
    (hn : ni + J.norb ≤ no) (hM : J.norb ≤ M) (hM' : no ≤ M') (hf : no ≤ ldf) (hta : J.norb ≤ ldta) (hva : J.norb ≤ ldva)
    (T V Fi Ta Va : Nat → ℝ)
    (hV : ∀ p q r s, p < no → q < no → r < no → s < no → asTen V ldv p q r s = asTen V ldv r s p q)
    {H : (Nat → ℝ) × (Nat → ℝ) × (Nat → ℝ)}
    (hH : H = activeHamiltonian no J.norb ni T ldt V ldv Fi ldf Ta ldta Va ldva)
    (hJT : ∀ p q, p < J.norb → q < J.norb → J.T p q = asMat H.2.1 ldta p q)
    (hJV : ∀ p q r s, p < J.norb → q < J.norb → r < J.norb → s < J.norb → J.V p q r s = asTen H.2.2 ldva p q r s)
    (hJ : SymBelow J.norb J) {nalpha nbeta : Nat} (hna : nalpha ≤ J.norb) (hnb : nbeta ≤ J.norb)
    {thresh : ℝ} (h0 : 0 ≤ thresh)
    {eig : Nat → (Nat → Nat → ℝ) → ℝ × (Nat → ℝ)} (he : LowestPair eig) (maxM : Nat) (tol : ℝ)
    (C : List ℝ)
    (hC : (∀ c ∈ C, c = 0) ∨
      (C.length = J.norb.choose nalpha * J.norb.choose nbeta ∧ (C.map fun c => c * c).sum = 1))
    {r : CasciResult}
    (h : computeCasciRdms M eig J nalpha nbeta thresh maxM tol C zeroRdms = some r) :
    ∃ (act : List (BitVec (2 * M))) (full : List (BitVec (2 * M'))), act.Nodup ∧ full.Nodup ∧
      (∀ s, s ∈ act ↔ InSpace J.norb s ∧ alphaElectrons s = nalpha ∧ betaElectrons s = nbeta) ∧
      act.length = J.norb.choose nalpha * J.norb.choose nbeta ∧
      List.Forall₂ (WithCoreAt ni) act full ∧
      (∀ s ∈ full, InSpace no s ∧ alphaElectrons s = ni + nalpha ∧ betaElectrons s = ni + nbeta) ∧
      let n := full.length
      let I : Integrals ℝ := ⟨no, asMat T ldt, asTen V ldv⟩
      (∑ i ∈ Finset.range n, r.C i * r.C i) = 1 ∧
      |(inactiveEnergy ni T ldt H.1 ldf + r.E0) - ∑ i ∈ Finset.range n, ∑ j ∈ Finset.range n,
        r.C i * r.C j * hamiltonian I (full.getD i 0) (full.getD j 0)| ≤ thresh * n ∧
      ((∀ c ∈ C, c = 0) → ∀ i < n, inactiveEnergy ni T ldt H.1 ldf + r.E0 ≤
        hamiltonian I (full.getD i 0) (full.getD i 0) + thresh) := by
  have hcut : computeCasciRdms M eig J.cut nalpha nbeta thresh maxM tol C zeroRdms = some r := by
    rw [← h]
    refine (C152_casci (M := M) (J := J) (I := J.cut) hM rfl (fun p q hp hq => (if_pos ⟨hp, hq⟩).symm)
      (fun p q r s hp hq hr hs => ?_) eig hna hnb thresh maxM tol C zeroRdms).symm
    exact (if_pos ⟨⟨hp, hq⟩, hr, hs⟩).symm
  obtain ⟨act, nd, mem, h1, h2, -, h3, -⟩ := C120_casci J.cut hM (cut_real hJ) hna hnb h0 he maxM tol C hC hcut
  have ex : ∀ d : BitVec (2 * M), ∃ m f : BitVec (2 * M'), d ∈ act → SameOcc J.norb d m ∧ WithCore ni m f := by
    intro d
    by_cases hd : d ∈ act
    · obtain ⟨m, hm⟩ := exists_sameOcc (M' := M') hM (by omega) ((mem d).1 hd).1
      obtain ⟨f, hf, -⟩ := C131_core_exists (M := M') ni J.norb (by omega) m
      exact ⟨m, f, fun _ => ⟨hm, hf⟩⟩
    · exact ⟨0, 0, fun h => absurd h hd⟩
  choose mi fl hex using ex
  have len : act.length = J.norb.choose nalpha * J.norb.choose nbeta := by
    obtain ⟨l, hl, nd', len, mem'⟩ := C10_hilbert_space_exact M J.norb nalpha nbeta (by omega) hna hnb
    rw [← len]
    refine (List.perm_of_nodup_nodup_toFinset_eq nd nd' ?_).length_eq
    ext s
    rw [List.mem_toFinset, List.mem_toFinset, mem, mem', inSpace_iff, alphaElectrons_eq, betaElectrons_eq]
    change _ ∧ _ ↔ _
    tauto
  have hin : ∀ d ∈ act, InSpace J.norb (mi d) := fun d hd => (sameOcc_inSpace (hex d hd).1).2
  have flinj : ∀ d ∈ act, ∀ d' ∈ act, fl d = fl d' → d = d' := by
    intro d hd d' hd' e
    have inj : ∀ {x y X : BitVec M'}, Emb ni x X → Emb ni y X → x = y := by
      intro x y X hx hy
      refine BitVec.eq_of_getLsbD_eq fun k _ => ?_
      rw [← hx.hi k, ← hy.hi k]
    have w1 := (hex d hd).2
    have w2 := (hex d' hd').2
    rw [← e] at w2
    have : mi d = mi d' := by
      rw [← joinSpin_lo_hi (mi d), ← joinSpin_lo_hi (mi d'),
        inj (withCore_lo w1 (hin d hd) (by omega)) (withCore_lo w2 (hin d' hd') (by omega)),
        inj (withCore_hi w1 (hin d hd) (by omega)) (withCore_hi w2 (hin d' hd') (by omega))]
    exact ((hex d hd).1.eq_iff (hex d' hd').1 hM (by omega)).2 this
  have ndf : (act.map fl).Nodup := List.Nodup.map_on flinj nd
  refine ⟨act, act.map fl, nd, ndf, mem, len, ?_, ?_, ?_⟩
  · rw [List.forall₂_map_right_iff]
    exact List.forall₂_same.2 fun d hd => withCoreAt_of (by omega) hM (hex d hd).1 (hex d hd).2
  · intro s hs
    obtain ⟨d, hd, rfl⟩ := List.mem_map.1 hs
    have hw := (hex d hd).2
    have md := (mem d).1 hd
    have s1 := (inSpace_iff (mi d)).1 (hin d hd)
    have el := (hex d hd).1.electrons hM (by omega)
    refine ⟨(withCore_sector hw hw (hin d hd) (hin d hd) (by omega) hn ⟨rfl, rfl⟩).1, ?_, ?_⟩
    · rw [alphaElectrons_eq, emb_electrons (withCore_lo hw (hin d hd) (by omega)) s1.1 (by omega),
        ← alphaElectrons_eq, ← el.1, md.2.1]
    · rw [betaElectrons_eq, emb_electrons (withCore_hi hw (hin d hd) (by omega)) s1.2 (by omega),
        ← betaElectrons_eq, ← el.2, md.2.2]
  rw [List.length_map]
  obtain ⟨hA, hE⟩ := activeInts_of_arrays hn hf hta hva T V Fi Ta Va (ldt := ldt) (ldv := ldv)
  rw [← hH] at hA hE
  have hA' : ActiveInts ni J.norb (⟨no, asMat T ldt, asTen V ldv⟩ : Integrals ℝ) J :=
    ⟨fun p q hp hq => by rw [hJT p q hp hq]; exact hA.T p q hp hq,
     fun p q r s hp hq hr hs => by rw [hJV p q r s hp hq hr hs]; exact hA.V p q r s hp hq hr hs⟩
  have hham : ∀ i < act.length, ∀ j < act.length,
      hamiltonian (⟨no, asMat T ldt, asTen V ldv⟩ : Integrals ℝ) ((act.map fl).getD i 0) ((act.map fl).getD j 0) =
      (if i = j then inactiveEnergy ni T ldt H.1 ldf else 0) + hamiltonian J.cut (act.getD i 0) (act.getD j 0) := by
    intro i hi j hj
    have ei : (act.map fl).getD i 0 = fl act[i] := by
      rw [List.getD_eq_getElem _ _ (by rw [List.length_map]; exact hi), List.getElem_map]
    have ej : (act.map fl).getD j 0 = fl act[j] := by
      rw [List.getD_eq_getElem _ _ (by rw [List.length_map]; exact hj), List.getElem_map]
    have mi' := List.getElem_mem hi
    have mj' := List.getElem_mem hj
    have q1 := (mem _).1 mi'
    have q2 := (mem _).1 mj'
    have l1 := (hex _ mi').1.electrons hM (by omega)
    have l2 := (hex _ mj').1.electrons hM (by omega)
    rw [ei, ej, core_hamiltonian two_ne_zero (I := ⟨no, asMat T ldt, asTen V ldv⟩) hM' hn rfl hV hA'
      (hin _ mi') (hin _ mj') ⟨by rw [← l1.1, ← l2.1, q1.2.1, q2.2.1], by rw [← l1.2, ← l2.2, q1.2.2, q2.2.2]⟩
      (hex _ mi').2 (hex _ mj').2, hE, hamiltonian_cut, List.getD_eq_getElem _ _ hi, List.getD_eq_getElem _ _ hj,
      hamiltonian_widen J hM (by omega) (hex _ mi').1 (hex _ mj').1]
    congr 1
    have : mi act[i] = mi act[j] ↔ i = j := by
      rw [← (hex _ mi').1.eq_iff (hex _ mj').1 hM (by omega)]
      exact nd.getElem_inj_iff
    by_cases c : i = j
    · rw [if_pos c, if_pos (this.2 c)]
    · rw [if_neg c, if_neg fun e => c (this.1 e)]
  refine ⟨h1, ?_, ?_⟩
  · rw [Finset.sum_congr rfl fun i hi => Finset.sum_congr rfl fun j hj => by
      rw [hham i (Finset.mem_range.1 hi) j (Finset.mem_range.1 hj)]]
    have hsum : ∑ i ∈ Finset.range act.length, ∑ j ∈ Finset.range act.length, r.C i * r.C j *
        ((if i = j then inactiveEnergy ni T ldt H.1 ldf else 0) + hamiltonian J.cut (act.getD i 0) (act.getD j 0)) =
        inactiveEnergy ni T ldt H.1 ldf + ∑ i ∈ Finset.range act.length, ∑ j ∈ Finset.range act.length,
          r.C i * r.C j * hamiltonian J.cut (act.getD i 0) (act.getD j 0) := by
      simp only [mul_add, Finset.sum_add_distrib, mul_ite, mul_zero]
      congr 1
      rw [Finset.sum_congr rfl fun i hi => Finset.sum_ite_eq (Finset.range act.length) i
        (fun j => r.C i * r.C j * inactiveEnergy ni T ldt H.1 ldf)]
      rw [Finset.sum_congr rfl fun i hi => if_pos hi, ← Finset.sum_mul, h1, one_mul]
    rw [hsum, h2]
    have := quad_thresh (h := fun i j => hamiltonian J.cut (act.getD i 0) (act.getD j 0)) h0 h1
    simp only [ciMatrix]
    rw [add_sub_add_left_eq_sub]
    exact this
  · intro hz i hi
    have := h3 hz i hi
    rw [hham i hi i hi, if_pos rfl]
    unfold ciMatrix at this
    dsimp only at this
    split at this
    · linarith
    · rename_i c
      have := (abs_le.1 (not_lt.1 c)).1
      linarith

end Macis
