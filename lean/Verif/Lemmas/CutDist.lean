import Verif.Lemmas.CutSearch
import Verif.Lemmas.AsciDist
/-! The scores of the search on several ranks depend only on the integrals of the orbitals. -/
namespace Macis
open Spec

variable {M : Nat} {R : Type} [Field R] [LinearOrder R] [IsStrictOrderedRing R] {n : Nat} {I J : Integrals R}

theorem betaOf_congr (h : AgreeBelow n I J) (hn : n ≤ M) {p : BitVec (2 * M) × R} (hp : InSpace n p.1) :
    betaOf J n p = betaOf I n p := by
  obtain ⟨hA, hB⟩ := (inSpace_iff p.1).1 hp
  unfold betaOf
  rw [singleOrbitalEns_congr h (fun q => occ_supp hA) (fun q => occ_supp hB),
    singleOrbitalEns_congr h (fun q => occ_supp hB) (fun q => occ_supp hA), matrixElement_congr h hp hp ⟨rfl, rfl⟩ hn]

variable {x : BitVec M} {C B osDet : BitVec (2 * M)} {cmin : Nat}

theorem conSinglesContrib_congr (h : AgreeBelow n I J) (hn : n ≤ M) (h64 : 2 * M < 2 ^ 64)
    (wf : WFCon (fullMask (2 * M) n) C B cmin) (hx : SupportedOn n x) {oS oO : List Nat} (h1 : ∀ p ∈ oS, p < n)
    (h2 : ∀ p ∈ oO, p < n) (c : R) (eps : List R) (tol d E0 : R) :
    J.constraintSinglesContrib c (wide x) C (fullMask (2 * M) n) B osDet oS oO eps tol d E0 =
      I.constraintSinglesContrib c (wide x) C (fullMask (2 * M) n) B osDet oS oO eps tol d E0 := by
  unfold Integrals.constraintSinglesContrib
  dsimp only
  split
  · rfl
  refine flatMap_congr_cut fun i hi => filterMap_congr_mem fun a ha => ?_
  rw [(flsIndices_perm_indices _).mem_iff, mem_indices] at hi ha
  obtain ⟨hi, -, han⟩ := conSingle_pair hn h64 wf hi ha
  rw [singleH_congr h (hx i hi) han h1 h2, fastDiagSingleEn_congr h (hx i hi) han]

theorem conOSDoublesContrib_congr (h : AgreeBelow n I J) (hn : n ≤ M) (h64 : 2 * M < 2 ^ 64)
    (wf : WFCon (fullMask (2 * M) n) C B cmin) (hx : SupportedOn n x) {oO vO : List Nat} (h1 : ∀ p ∈ oO, p < n)
    (h2 : ∀ p ∈ vO, p < n) (c : R) (eS eO : List R) (tol d E0 : R) :
    J.constraintOSDoublesContrib c (wide x) C (fullMask (2 * M) n) B osDet oO vO eS eO tol d E0 =
      I.constraintOSDoublesContrib c (wide x) C (fullMask (2 * M) n) B osDet oO vO eS eO tol d E0 := by
  unfold Integrals.constraintOSDoublesContrib
  dsimp only
  split
  · rfl
  refine flatMap_congr_cut fun i hi => flatMap_congr_cut fun a ha => flatMap_congr_cut fun j hj =>
    filterMap_congr_mem fun b hb => ?_
  rw [(flsIndices_perm_indices _).mem_iff, mem_indices] at hi ha
  obtain ⟨hi, -, han⟩ := conSingle_pair hn h64 wf hi ha
  rw [h.V _ _ _ _ han (hx i hi) (h2 b hb) (h1 j hj), fastDiagOSDoubleEn_congr h (hx i hi) (h1 j hj) han (h2 b hb)]

theorem conSSDoublesContrib_congr (h : AgreeBelow n I J) (hn : n ≤ M) (wf : WFCon (fullMask (2 * M) n) C B cmin)
    (h3 : 3 ≤ count C) (hx : SupportedOn n x) (c : R) (eps : List R) (tol d E0 : R) :
    J.constraintSSDoublesContrib c (wide x) C (fullMask (2 * M) n) B osDet eps tol d E0 =
      I.constraintSSDoublesContrib c (wide x) C (fullMask (2 * M) n) B osDet eps tol d E0 := by
  unfold Integrals.constraintSSDoublesContrib
  dsimp only
  split
  · rfl
  refine flatMap_congr_cut fun ij hij => filterMap_congr_mem fun ab hab => ?_
  obtain ⟨⟨c1, -, c3⟩, d1, -, d3⟩ := (constraintDoubleEx_spec wf h3 ij ab).1 ⟨hij, hab⟩
  obtain ⟨i, j, hij, es, e1, e2⟩ := pair_of_card c1
  obtain ⟨a, b, hab, fs, f1, f2⟩ := pair_of_card d1
  rw [e1, e2, f1, f2]
  have hocc : ∀ k ∈ bitSet ij, k < n := by
    intro k hk
    have := (Finset.mem_sdiff.1 (c3 hk)).1
    rw [wide_set, mem_bitSet] at this
    exact hx k this
  have hvir : ∀ k ∈ bitSet ab, k < n := by
    intro k hk
    have h2 := d3 hk
    have hO : ∀ k, k ∈ bitSet (fullMask (2 * M) n) → k < n := by
      intro k hk
      rw [mem_bitSet, getLsbD_fullMask (by omega)] at hk
      simpa using hk
    simp only [conM, conV, Finset.mem_union, Finset.mem_sdiff, Finset.mem_inter] at h2
    rcases h2 with h | h
    · exact hO _ (wf.inO h.1)
    · exact hO _ h.1.1
  have hi := hocc i (by rw [es]; simp)
  have hj := hocc j (by rw [es]; simp)
  have ha := hvir a (by rw [fs]; simp)
  have hb := hvir b (by rw [fs]; simp)
  rw [h.G hb hj ha hi, fastDiagSSDoubleEn_congr h hi hj ha hb]

theorem constraintAlphaContribs_congr (h : AgreeBelow n I J) (hn : n ≤ M) (h64 : 2 * M < 2 ^ 64) (tol E0 : R)
    {con : WfnConstraint (2 * M)} (wf : WFCon (fullMask (2 * M) n) con.C con.B con.Cmin) (h3 : 3 ≤ count con.C)
    (hx : SupportedOn n x) {bcd : List (BetaData M R)}
    (hb : ∀ b ∈ bcd, (∀ p ∈ b.occB, p < n) ∧ ∀ p ∈ b.virB, p < n) :
    constraintAlphaContribs J n tol E0 con (wide x) bcd = constraintAlphaContribs I n tol E0 con (wide x) bcd := by
  have ho : ∀ p ∈ bitsToIndices (wide x), p < n := by
    intro p hp
    rw [bitsToIndices_eq_occ, occ_wide] at hp
    exact occ_supp hx hp
  unfold constraintAlphaContribs
  dsimp only
  rw [flatMap_congr_cut (f := fun b : BetaData M R => J.constraintSinglesContrib b.coeff (wide x) con.C (fullMask (2 * M) n) con.B
      b.beta (bitsToIndices (wide x)) b.occB b.ensA tol b.hDiag E0)
      fun b hm => conSinglesContrib_congr h hn h64 wf hx ho (hb b hm).1 _ _ _ _ _,
    flatMap_congr_cut (f := fun b : BetaData M R => J.constraintSSDoublesContrib b.coeff (wide x) con.C (fullMask (2 * M) n) con.B
      b.beta b.ensA tol b.hDiag E0) fun b hm => conSSDoublesContrib_congr h hn wf h3 hx _ _ _ _ _,
    flatMap_congr_cut (f := fun b : BetaData M R => J.constraintOSDoublesContrib b.coeff (wide x) con.C (fullMask (2 * M) n) con.B
      b.beta b.occB b.virB b.ensA b.ensB tol b.hDiag E0)
      fun b hm => conOSDoublesContrib_congr h hn h64 wf hx (hb b hm).1 (hb b hm).2 _ _ _ _ _ _]
  congr 1
  split
  · refine flatMap_congr_cut fun b hm => ?_
    rw [singlesContrib_congr h (hb b hm).1 (hb b hm).2 ho, ssDoublesContrib_congr h (hb b hm).1 (hb b hm).2]
  · rfl

/-- the contributions of a rank depend only on the integrals of the orbitals -/
theorem asciContributionsConstraint_congr (h : AgreeBelow n I J) (hn : n ≤ M) (h66 : n ≤ 66) (h64 : 2 * M < 2 ^ 64)
    (st : ContribSettings R) (E0 : R) (srt part : List (Contrib (2 * M) R) → List (Contrib (2 * M) R))
    (W rank avg : Nat) (hW : 0 < W)
    {partC sortC : List (WfnConstraint (2 * M) × Nat) → List (WfnConstraint (2 * M) × Nat)}
    (hpC : ∀ l, (partC l).Perm l) (hsC : ∀ l, (sortC l).Perm l) (hr : rank < W) {cdets : List (BitVec (2 * M))}
    (hc : ∀ s ∈ cdets, InSpace n s) (C : List R) :
    asciContributionsConstraint J st n E0 srt part W rank avg partC sortC cdets C =
      asciContributionsConstraint I st n E0 srt part W rank avg partC sortC cdets C := by
  have hsup : ∀ s ∈ cdets, SupportedOn n (loWord s) ∧ SupportedOn n (hiWord s) := fun s h => (inSpace_iff s).1 (hc s h)
  have hua : ∀ a ∈ uniqAlphas cdets, SupportedOn n a := by
    intro a ha
    obtain ⟨s, h1, rfl⟩ := (mem_uniqAlphas _ _).1 ha
    exact supported_wide (hsup s h1).1
  have hcd : ∀ p ∈ cdets.zip C, p.1 ∈ cdets := fun p hp => (List.of_mem_zip hp).1
  have hdata : ∀ K : Integrals R, (uniqAlphas cdets).mapM (fun wa => do
        let bcd ← betaList K n (cdets.zip C) wa
        return (wa, bcd)) = some ((uniqAlphas cdets).map fun a =>
          (a, ((cdets.zip C).filter fun p => loWord p.1 = loWord a).map (betaOf K n))) := by
    intro K
    apply mapM_some
    intro a ha
    obtain ⟨s, h1, rfl⟩ := (mem_uniqAlphas _ _).1 ha
    rw [betaList_eq K hn (cdets.zip C) (fun p hp => hsup _ (hcd p hp)) _ (hsup s h1).1, wide_lo]
    rfl
  have hdd : ((uniqAlphas cdets).map fun a => (a, ((cdets.zip C).filter fun p => loWord p.1 = loWord a).map (betaOf J n))) =
      (uniqAlphas cdets).map fun a => (a, ((cdets.zip C).filter fun p => loWord p.1 = loWord a).map (betaOf I n)) := by
    refine List.map_congr_left fun a _ => ?_
    congr 1
    exact List.map_congr_left fun p hp => betaOf_congr h hn (hc _ (hcd p (List.mem_of_mem_filter hp)))
  unfold asciContributionsConstraint
  split
  · rfl
  dsimp only
  rw [hdata J, hdata I, hdd]
  simp only [Option.bind_eq_bind, Option.bind_some]
  cases ha0 : (uniqAlphas cdets).head? with
  | none => rfl
  | some a0 =>
    simp only [Option.bind_some]
    obtain ⟨handed, hd1, hd2, -⟩ := distribution_countP (nlevels := st.constraintLevel) (norb := n)
      (nos := count a0 * (n - count a0))
      (nod := count a0 * (n - count a0) * (count a0 * (n - count a0) + 1 - n) / 4)
      (worldSize := W) (avg := avg) (by omega : n ≤ 2 * M) h64 h66 hW (uniqAlphas cdets) partC sortC hpC hsC hua
    rw [hd1 rank]
    simp only [Option.bind_some]
    refine foldlM_congr_mem (fun acc con hcon => ?_) _
    obtain ⟨w1, w2⟩ := hd2 con (List.mem_flatMap.2 ⟨rank, List.mem_range.2 hr, hcon⟩)
    unfold constraintStep
    dsimp only
    congr 1
    refine foldlM_congr_mem (fun acc y hy => ?_) _
    obtain ⟨a, ha, rfl⟩ := List.mem_map.1 hy
    obtain ⟨s, h1, rfl⟩ := (mem_uniqAlphas _ _).1 ha
    dsimp only
    rw [constraintAlphaContribs_congr h hn h64 st.hElTol E0 w1 w2 (hsup s h1).1]
    intro b hb
    obtain ⟨p, hp, rfl⟩ := List.mem_map.1 hb
    exact ⟨fun q => occ_supp (hsup _ (hcd p (List.mem_of_mem_filter hp))).2, fun q => vir_lt⟩

end Macis
