import Verif.Lemmas.Driver
/-! Determinants of the active orbitals and the determinants with the inactive orbitals filled. -/
namespace Macis
open Spec Finset

variable {M M' : Nat}

theorem Spec.InSector.one {n na nb : Nat} {dets : List (BitVec (2 * M))} (h : InSector n na nb dets) :
    OneSector n dets dets :=
  ⟨fun s hs => (h.2 s hs).1, fun s hs => (h.2 s hs).1, fun s hs t ht =>
    ⟨(h.2 s hs).2.1.trans (h.2 t ht).2.1.symm, (h.2 s hs).2.2.trans (h.2 t ht).2.2.symm⟩⟩

theorem Spec.InSector.length_le {n na nb : Nat} {dets : List (BitVec (2 * M))} (h : InSector n na nb dets) (hn : n ≤ M)
    (hna : na ≤ n) (hnb : nb ≤ n) : dets.length ≤ n.choose na * n.choose nb := by
  obtain ⟨fci, hf, -, -, -⟩ := C10_hilbert_space_exact M n na nb hn hna hnb
  obtain ⟨-, nd, len, -, -, hall⟩ := hilbert_sector hn hna hnb hf
  rw [← len, ← List.toFinset_card_of_nodup h.1, ← List.toFinset_card_of_nodup nd]
  refine Finset.card_le_card fun s hs => ?_
  rw [List.mem_toFinset] at hs ⊢
  obtain ⟨a, b, c⟩ := h.2 s hs
  exact hall s a b c

theorem core_lift {no ni ldt ldv ldf ldta ldva : Nat} (J : Integrals ℝ)
    (hn : ni + J.norb ≤ no) (hM : J.norb ≤ M) (hM' : no ≤ M') (hf : no ≤ ldf) (hta : J.norb ≤ ldta) (hva : J.norb ≤ ldva)
    (T V Fi Ta Va : Nat → ℝ)
    (hV : ∀ p q r s, p < no → q < no → r < no → s < no → asTen V ldv p q r s = asTen V ldv r s p q)
    {H : (Nat → ℝ) × (Nat → ℝ) × (Nat → ℝ)}
    (hH : H = activeHamiltonian no J.norb ni T ldt V ldv Fi ldf Ta ldta Va ldva)
    (hJT : ∀ p q, p < J.norb → q < J.norb → J.T p q = asMat H.2.1 ldta p q)
    (hJV : ∀ p q r s, p < J.norb → q < J.norb → r < J.norb → s < J.norb → J.V p q r s = asTen H.2.2 ldva p q r s)
    {nalpha nbeta : Nat} {act : List (BitVec (2 * M))} (hact : InSector J.norb nalpha nbeta act) :
    ∃ full : List (BitVec (2 * M')), full.Nodup ∧ List.Forall₂ (WithCoreAt ni) act full ∧
      (∀ s ∈ full, CasDet ni J.norb nalpha nbeta s) ∧
      ∀ i < act.length, ∀ j < act.length,
        hamiltonian (⟨no, asMat T ldt, asTen V ldv⟩ : Integrals ℝ) (full.getD i 0) (full.getD j 0) =
        (if i = j then inactiveEnergy ni T ldt H.1 ldf else 0) + hamiltonian J (act.getD i 0) (act.getD j 0) := by
  obtain ⟨nd, mem⟩ := hact
  have ex : ∀ d : BitVec (2 * M), ∃ m f : BitVec (2 * M'), d ∈ act → SameOcc J.norb d m ∧ WithCore ni m f := by
    intro d
    by_cases hd : d ∈ act
    · obtain ⟨m, hm⟩ := exists_sameOcc (M' := M') hM (by omega) (mem d hd).1
      obtain ⟨f, hf, -⟩ := C131_core_exists (M := M') ni J.norb (by omega) m
      exact ⟨m, f, fun _ => ⟨hm, hf⟩⟩
    · exact ⟨0, 0, fun h => absurd h hd⟩
  choose mi fl hex using ex
  have hin : ∀ d ∈ act, InSpace J.norb (mi d) := fun d hd => (sameOcc_inSpace (hex d hd).1).2
  have flinj : ∀ d ∈ act, ∀ d' ∈ act, fl d = fl d' → d = d' := by
    intro d hd d' hd' e
    have inj : ∀ {x y X : BitVec M'}, Emb ni x X → Emb ni y X → x = y := by
      intro x y X hx hy
      refine BitVec.eq_of_getLsbD_eq fun k _ => ?_
      rw [← hx.hi k, ← hy.hi k]
    have w1 := (hex d hd).2
    have w2 := (hex d' hd').2
    rw [← e] at w2
    have : mi d = mi d' := by
      rw [← joinSpin_lo_hi (mi d), ← joinSpin_lo_hi (mi d'),
        inj (withCore_lo w1 (hin d hd) (by omega)) (withCore_lo w2 (hin d' hd') (by omega)),
        inj (withCore_hi w1 (hin d hd) (by omega)) (withCore_hi w2 (hin d' hd') (by omega))]
    exact ((hex d hd).1.eq_iff (hex d' hd').1 hM (by omega)).2 this
  have ndf : (act.map fl).Nodup := List.Nodup.map_on flinj nd
  refine ⟨act.map fl, ndf, ?_, ?_, ?_⟩
  · rw [List.forall₂_map_right_iff]
    exact List.forall₂_same.2 fun d hd => withCoreAt_of (by omega) hM (hex d hd).1 (hex d hd).2
  · intro s hs
    obtain ⟨d, hd, rfl⟩ := List.mem_map.1 hs
    have hw := (hex d hd).2
    have md := mem d hd
    have s1 := (inSpace_iff (mi d)).1 (hin d hd)
    have el := (hex d hd).1.electrons hM (by omega)
    have hwa := withCoreAt_of (by omega : ni + J.norb ≤ M') hM (hex d hd).1 hw
    refine ⟨⟨fun i hi hb => ?_, fun i hi hb => ?_⟩, fun j hj => ?_, ?_, ?_⟩
    · rw [(hwa i hi).1] at hb
      by_cases c : i < ni
      · omega
      · rw [if_neg c, Bool.and_eq_true, decide_eq_true_eq] at hb
        have := md.1.1 (i - ni) hb.1 hb.2
        omega
    · rw [(hwa i hi).2] at hb
      by_cases c : i < ni
      · omega
      · rw [if_neg c, Bool.and_eq_true, decide_eq_true_eq] at hb
        have := md.1.2 (i - ni) hb.1 hb.2
        omega
    · have := hwa j (by omega)
      rw [if_pos hj, if_pos hj] at this
      exact this
    · rw [alphaElectrons_eq, emb_electrons (withCore_lo hw (hin d hd) (by omega)) s1.1 (by omega),
        ← alphaElectrons_eq, ← el.1, md.2.1]
    · rw [betaElectrons_eq, emb_electrons (withCore_hi hw (hin d hd) (by omega)) s1.2 (by omega),
        ← betaElectrons_eq, ← el.2, md.2.2]
  obtain ⟨hA, hE⟩ := activeInts_of_arrays hn hf hta hva T V Fi Ta Va (ldt := ldt) (ldv := ldv)
  rw [← hH] at hA hE
  have hA' : ActiveInts ni J.norb (⟨no, asMat T ldt, asTen V ldv⟩ : Integrals ℝ) J :=
    ⟨fun p q hp hq => by rw [hJT p q hp hq]; exact hA.T p q hp hq,
     fun p q r s hp hq hr hs => by rw [hJV p q r s hp hq hr hs]; exact hA.V p q r s hp hq hr hs⟩
  intro i hi j hj
  have ei : (act.map fl).getD i 0 = fl act[i] := by
    rw [List.getD_eq_getElem _ _ (by rw [List.length_map]; exact hi), List.getElem_map]
  have ej : (act.map fl).getD j 0 = fl act[j] := by
    rw [List.getD_eq_getElem _ _ (by rw [List.length_map]; exact hj), List.getElem_map]
  have mi' := List.getElem_mem hi
  have mj' := List.getElem_mem hj
  have q1 := mem _ mi'
  have q2 := mem _ mj'
  have l1 := (hex _ mi').1.electrons hM (by omega)
  have l2 := (hex _ mj').1.electrons hM (by omega)
  rw [ei, ej, core_hamiltonian two_ne_zero (I := ⟨no, asMat T ldt, asTen V ldv⟩) hM' hn rfl hV hA'
    (hin _ mi') (hin _ mj') ⟨by rw [← l1.1, ← l2.1, q1.2.1, q2.2.1], by rw [← l1.2, ← l2.2, q1.2.2, q2.2.2]⟩
    (hex _ mi').2 (hex _ mj').2, hE, List.getD_eq_getElem _ _ hi, List.getD_eq_getElem _ _ hj,
    hamiltonian_widen J hM (by omega) (hex _ mi').1 (hex _ mj').1]
  congr 1
  have : mi act[i] = mi act[j] ↔ i = j := by
    rw [← (hex _ mi').1.eq_iff (hex _ mj').1 hM (by omega)]
    exact nd.getElem_inj_iff
  by_cases c : i = j
  · rw [if_pos c, if_pos (this.2 c)]
  · rw [if_neg c, if_neg fun e => c (this.1 e)]

/-- the same for the active Hamiltonian the driver makes: energies of states and lower bounds -/
theorem active_lift {no ni na nalpha nbeta : Nat} {T V Fi0 Ta0 Va0 : Nat → ℝ}
    (sym : IntSym no (asMat T no) (asTen V no)) (hn : ni + na ≤ no) (h32 : na ≤ M) (hM : no ≤ M')
    {H : (Nat → ℝ) × (Nat → ℝ) × (Nat → ℝ)} (hH : H = activeHamiltonian no na ni T no V no Fi0 no Ta0 na Va0 na)
    {act : List (BitVec (2 * M))} (hact : InSector na nalpha nbeta act) :
    ∃ full : List (BitVec (2 * M')), full.Nodup ∧ full.length = act.length ∧
      (∀ s ∈ full, CasDet ni na nalpha nbeta s) ∧
      (∀ i < act.length, hamiltonian (⟨no, asMat T no, asTen V no⟩ : Integrals ℝ) (full.getD i 0) (full.getD i 0) =
        inactiveEnergy ni T no H.1 no + hamiltonian (viewInts na H.2.1 H.2.2) (act.getD i 0) (act.getD i 0)) ∧
      ∀ c : Nat → ℝ, (∑ i ∈ range act.length, c i * c i) = 1 →
        energyOf ⟨no, asMat T no, asTen V no⟩ full c =
          inactiveEnergy ni T no H.1 no + energyOf (viewInts na H.2.1 H.2.2) act c := by
  obtain ⟨full, nd, hF, cd, hh⟩ := core_lift (M := M) (M' := M') (ldt := no) (ldv := no) (ldf := no) (ldta := na)
    (ldva := na) (viewInts na H.2.1 H.2.2) hn h32 hM le_rfl le_rfl le_rfl T V Fi0 Ta0 Va0 sym.g_pair hH
    (fun _ _ _ _ => rfl) (fun _ _ _ _ _ _ _ _ => rfl) hact
  refine ⟨full, nd, hF.length_eq.symm, cd, fun i hi => by rw [hh i hi i hi, if_pos rfl], fun c hc => ?_⟩
  unfold energyOf
  rw [← hF.length_eq, Finset.sum_congr rfl fun i hi => Finset.sum_congr rfl fun j hj => by
      rw [hh i (Finset.mem_range.1 hi) j (Finset.mem_range.1 hj)]]
  simp only [mul_add, Finset.sum_add_distrib, mul_ite, mul_zero]
  congr 1
  rw [Finset.sum_congr rfl fun i hi => Finset.sum_ite_eq (Finset.range act.length) i
    (fun j => c i * c j * inactiveEnergy ni T no H.1 no)]
  rw [Finset.sum_congr rfl fun i hi => if_pos hi, ← Finset.sum_mul, hc, one_mul]

/-- a lower bound of the full Hamiltonian is one of the active Hamiltonian, without the inactive energy -/
theorem active_lower {no ni na nalpha nbeta : Nat} {T V Fi0 Ta0 Va0 : Nat → ℝ}
    (sym : IntSym no (asMat T no) (asTen V no)) (hn : ni + na ≤ no) (h32 : na ≤ M) (hM : no ≤ M')
    {H : (Nat → ℝ) × (Nat → ℝ) × (Nat → ℝ)} (hH : H = activeHamiltonian no na ni T no V no Fi0 no Ta0 na Va0 na)
    {mu : ℝ} (h : IsLowerBound M' ⟨no, asMat T no, asTen V no⟩ (ni + nalpha) (ni + nbeta) mu) :
    IsLowerBound M (viewInts na H.2.1 H.2.2) nalpha nbeta (mu - inactiveEnergy ni T no H.1 no) := by
  intro act nd mem c hc
  obtain ⟨full, ndf, len, cd, -, hE⟩ := active_lift (M' := M') sym hn h32 hM hH ⟨nd, mem⟩
  have := h full ndf (fun s hs => by
    have := cd s hs
    refine ⟨⟨fun i hi hb => ?_, fun i hi hb => ?_⟩, this.2.2.1, this.2.2.2⟩
    · have := this.1.1 i hi hb
      change i < no
      omega
    · have := this.1.2 i hi hb
      change i < no
      omega) c (by rw [len]; exact hc)
  rw [hE c hc] at this
  linarith

end Macis
