import Verif.Props.AsciContrib
import Verif.Lemmas.AsciDist

/-! Properties C103, C105: the ASCI search distributed over ranks
(`asci/determinant_search.hpp`, `asci/mask_constraints.hpp`). -/
namespace Macis
open Spec

section
variable {R : Type} [Field R] [LinearOrder R] [IsStrictOrderedRing R] {M norb : Nat} {I : Integrals R}

theorem sameAlpha_iff (s t : BitVec (2 * M)) : SameAlpha s t ↔ loWord t = loWord s := by
  constructor
  · intro h
    apply BitVec.eq_of_getLsbD_eq
    intro i hi
    rw [getLsbD_loWord, getLsbD_loWord, h i hi]
  · intro h i hi
    have := congrArg (fun w => w.getLsbD i) h
    simp only [getLsbD_loWord] at this
    simpa [hi] using this

theorem length_sortAccumulate {N : Nat} {R : Type} [AddCommGroup R] {srt : List (Contrib N R) → List (Contrib N R)}
    (hs : SortsBy (fun x y => bitsetLess x.state y.state) srt) (l : List (Contrib N R)) :
    (sortAccumulate srt l).length ≤ l.length := by
  obtain ⟨a1, a2, -⟩ := sortAccumulate_spec hs l
  have h1 := nodup_of_lt a1
  have h2 : (sortAccumulate srt l).map (·.state) ⊆ l.map (·.state) := by
    intro s hs'
    obtain ⟨p, hp, rfl⟩ := List.mem_map.1 hs'
    obtain ⟨q, hq, e⟩ := (a2 p.state).1 ⟨p, hp, rfl⟩
    exact List.mem_map.2 ⟨q, hq, e⟩
  simpa using (h1.subperm h2).length_le

theorem totalScore_flatMap {N : Nat} {R α : Type} [AddCommGroup R] (l : List α) (f : α → List (Contrib N R)) (t : BitVec N) :
    totalScore (l.flatMap f) t = (l.map fun x => totalScore (f x) t).sum := by
  induction l with
  | nil => rfl
  | cons a l ih => rw [List.flatMap_cons, totalScore_append, ih, List.map_cons, List.sum_cons]

theorem sum_swap {α β R : Type} [AddCommMonoid R] (f : α → β → R) (l : List α) (l' : List β) :
    (l.map fun a => (l'.map fun b => f a b).sum).sum = (l'.map fun b => (l.map fun a => f a b).sum).sum := by
  induction l with
  | nil => simp
  | cons a l ih =>
    rw [List.map_cons, List.sum_cons, ih, ← List.sum_map_add]
    simp

theorem totalScore_map {N : Nat} {R : Type} [AddCommGroup R] (l : List (BitVec N)) (hnd : l.Nodup)
    (f : BitVec N → Contrib N R) (hf : ∀ t, (f t).state = t) (t : BitVec N) :
    totalScore (l.map f) t = if t ∈ l then (f t).rv else 0 := by
  split
  · next h =>
    have h1 : ((l.map f).map (·.state)).Nodup := by
      rw [List.map_map, show ((fun p : Contrib N R => p.state) ∘ f) = id from funext hf, List.map_id]; exact hnd
    have := totalScore_nodup h1 (List.mem_map.2 ⟨t, h, rfl⟩)
    rwa [hf] at this
  · next h =>
    apply totalScore_notMem
    intro p hp e
    obtain ⟨u, hu, rfl⟩ := List.mem_map.1 hp
    rw [hf] at e
    exact h (e ▸ hu)

theorem sum_ite_countP {β R : Type} [Semiring R] (q : β → Bool) (v : R) (cs : List β) :
    (cs.map fun c => if q c = true then v else 0).sum = (cs.countP q : R) * v := by
  induction cs with
  | nil => simp
  | cons c cs ih =>
    rw [List.map_cons, List.sum_cons, ih, List.countP_cons]
    split <;> simp [add_mul, add_comm]

/-- C103: the search on `worldSize` ranks.  Whenever every rank has room for the pairs, every rank finishes;
no determinant occurs twice, on one rank or on two; and the total score of every determinant is the exact
score of the whole core. -/
theorem C103_distributed_scores (hI : RealSymmetric I) (st : ContribSettings R) (hN : I.norb = norb) (hn : norb ≤ M)
    (h66 : norb ≤ 66) (h64 : 2 * M < 2 ^ 64)
    {srt part : List (Contrib (2 * M) R) → List (Contrib (2 * M) R)}
    (hs : SortsBy (fun x y => bitsetLess x.state y.state) srt) (E0 : R)
    (worldSize avg : Nat) (hW : 0 < worldSize)
    {partC sortC : List (WfnConstraint (2 * M) × Nat) → List (WfnConstraint (2 * M) × Nat)}
    (hpC : ∀ l, (partC l).Perm l) (hsC : ∀ l, (sortC l).Perm l)
    (cdets : List (BitVec (2 * M))) (C : List R) (hC : cdets.length ≤ C.length) (hne : cdets ≠ [])
    (hc : ∀ s ∈ cdets, InSpace norb s ∧ 3 + st.constraintLevel ≤ alphaElectrons s)
    (hmem : (cdets.map fun s => {t | SearchReach norb false s t}.ncard).sum ≤ st.pairSizeMax) :
    ∃ pairs : Nat → List (Contrib (2 * M) R),
      (∀ rank < worldSize, asciContributionsConstraint I st norb E0 srt part worldSize rank avg partC sortC cdets C
        = some (pairs rank)) ∧
      (((List.range worldSize).flatMap pairs).map (·.state)).Nodup ∧
      ∀ t, totalScore ((List.range worldSize).flatMap pairs) t
        = rankedSearchScore I norb st.hElTol E0 (cdets.zip C) t := by
  set cs := cdets.zip C with hcs
  have hcd : ∀ p ∈ cs, p.1 ∈ cdets := fun p hp => (List.of_mem_zip hp).1
  have hsup : ∀ s ∈ cdets, SupportedOn norb (loWord s) ∧ SupportedOn norb (hiWord s) := fun s h =>
    (inSpace_iff s).1 (hc s h).1
  have hua : ∀ a ∈ uniqAlphas cdets, SupportedOn norb a := by
    intro a ha
    obtain ⟨s, h1, rfl⟩ := (mem_uniqAlphas _ _).1 ha
    exact supported_wide (hsup s h1).1
  obtain ⟨a0, ha0⟩ : ∃ a, (uniqAlphas cdets).head? = some a := by
    cases h : uniqAlphas cdets with
    | nil =>
      obtain ⟨s, hs'⟩ := List.exists_mem_of_ne_nil _ hne
      have := (mem_uniqAlphas cdets _).2 ⟨s, hs', rfl⟩
      rw [h] at this
      simp at this
    | cons a l => exact ⟨a, rfl⟩
  obtain ⟨handed, hd1, hd2, hd3⟩ := distribution_countP (nlevels := st.constraintLevel) (norb := norb)
    (nos := count a0 * (norb - count a0))
    (nod := count a0 * (norb - count a0) * (count a0 * (norb - count a0) + 1 - norb) / 4)
    (worldSize := worldSize) (avg := avg) (by omega : norb ≤ 2 * M) h64 h66 hW (uniqAlphas cdets) partC sortC hpC hsC hua
  set all := (List.range worldSize).flatMap handed with hall
  set data := (uniqAlphas cdets).map fun a =>
    (a, (cs.filter fun p => loWord p.1 = loWord a).map (betaOf I norb)) with hdata
  -- every visited determinant satisfies exactly one constraint
  have hone : ∀ s ∈ cdets, ∀ t, SearchReach norb false s t → all.countP (satB (wide (loWord t))) = 1 := by
    intro s hs' t hst
    obtain ⟨t1, t2⟩ := searchReach_sector (hc s hs').1 hst
    rw [inSpace_iff] at t1
    refine hd3 _ (supported_wide t1.1) ?_ ?_
    · have := (hc s hs').2
      rw [← t2.1, alphaElectrons_eq, electrons_eq_count] at this
      rwa [← card_bitSet, wide_set, card_bitSet]
    · refine ⟨wide (loWord s), (mem_uniqAlphas _ _).2 ⟨s, hs', rfl⟩, ?_⟩
      have lift : ∀ k, ExcitedWithin k (· < norb) (loWord s) (loWord t) →
          ExcitedWithin k (· < norb) (wide (loWord s)) (wide (loWord t)) := by
        rintro k ⟨R', A, h1, h2, h3, h4, h5⟩
        refine ⟨R', A, h1, h2, ?_, ?_, ?_⟩
        · intro i hi; rw [wide_bit]; exact h3 i hi
        · intro i hi; rw [wide_bit]; exact ⟨by have := (h4 i hi).1; omega, (h4 i hi).2⟩
        · intro j; rw [wide_bit, wide_bit]; exact h5 j
      rcases hst with (h | h) | ⟨-, h | h | h⟩
      · exact ⟨1, by omega, lift 1 h.1⟩
      · exact ⟨0, by omega, lift 0 h.1⟩
      · exact ⟨2, by omega, lift 2 h.1⟩
      · exact ⟨0, by omega, lift 0 h.1⟩
      · exact ⟨1, by omega, lift 1 h.1⟩
  have hvis : ∀ s ∈ cdets, ∀ t, t ∈ visited norb false (loWord s) (hiWord s) ↔ SearchReach norb false s t :=
    fun s hs' t => visited_mem hn false s (hsup s hs').1 (hsup s hs').2 t
  have hnew : ∀ con ∈ all, (conNew I norb st.hElTol E0 data con).Perm
      (cs.flatMap fun p => (conKept I norb st.hElTol p con).map (mkC I E0 p.2 p.1)) := by
    intro con hcon
    refine (conNew_perm I hn st.hElTol E0 cs cdets hcd con).trans ?_
    apply List.Perm.flatMap_left
    intro p hp
    exact conDet_perm' I hI hN hn h64 con (hd2 con hcon).1 (hd2 con hcon).2 p (hsup _ (hcd p hp)) E0 _
  have hlen : ∀ rank < worldSize,
      ((handed rank).map fun con => (conNew I norb st.hElTol E0 data con).length).sum ≤ st.pairSizeMax := by
    intro rank hr
    have hsub : ∀ con ∈ handed rank, con ∈ all := fun con h =>
      List.mem_flatMap.2 ⟨rank, List.mem_range.2 hr, h⟩
    have hle : ∀ q : WfnConstraint (2 * M) → Bool, (handed rank).countP q ≤ all.countP q := by
      intro q
      rw [hall, List.countP_flatMap]
      exact List.single_le_sum (by simp) _ (List.mem_map.2 ⟨rank, List.mem_range.2 hr, rfl⟩)
    have e1 : ((handed rank).map fun con => (conNew I norb st.hElTol E0 data con).length).sum
        = ((handed rank).map fun con => (cs.map fun p => (conKept I norb st.hElTol p con).length).sum).sum := by
      congr 1
      apply List.map_congr_left
      intro con hcon
      rw [(hnew con (hsub con hcon)).length_eq, List.length_flatMap]
      simp
    rw [e1, sum_swap]
    refine le_trans ?_ hmem
    have e2 : (cdets.map fun s => {t | SearchReach norb false s t}.ncard)
        = cs.map fun p => {t | SearchReach norb false p.1 t}.ncard := by
      rw [show (fun p : BitVec (2 * M) × R => {t | SearchReach norb false p.1 t}.ncard)
        = (fun s => {t | SearchReach norb false s t}.ncard) ∘ Prod.fst from rfl, ← List.map_map,
        List.map_fst_zip (by omega)]
    rw [e2]
    apply List.sum_le_sum
    intro p hp
    have hps := hcd p hp
    have e3 : {t | SearchReach norb false p.1 t}.ncard = (visited norb false (loWord p.1) (hiWord p.1)).length := by
      rw [← List.toFinset_card_of_nodup (visited_nodup hn false p.1 (hsup _ hps).1 (hsup _ hps).2), ← Set.ncard_coe_finset]
      congr 1
      ext t
      rw [Finset.mem_coe, List.mem_toFinset, Set.mem_setOf_eq]
      exact (hvis _ hps t).symm
    rw [e3]
    refine (sum_filter_le (fun t con => satB (wide (loWord t)) con)
      ((visited norb false (loWord p.1) (hiWord p.1)).filter (keepD I st.hElTol p.2 p.1)) (handed rank) ?_).trans
      (List.length_filter_le _ _)
    intro t ht
    have := hone p.1 hps t ((hvis _ hps t).1 (List.mem_of_mem_filter ht))
    exact (hle _).trans this.le
  refine ⟨fun rank => (handed rank).flatMap fun con => sortAccumulate srt (conNew I norb st.hElTol E0 data con), ?_, ?_, ?_⟩
  · intro rank hr
    have hb : (uniqAlphas cdets).mapM (fun wa => do
        let bcd ← betaList I norb cs wa
        return (wa, bcd)) = some data := by
      apply mapM_some
      intro a ha
      obtain ⟨s, h1, rfl⟩ := (mem_uniqAlphas _ _).1 ha
      rw [betaList_eq I hn cs (fun p hp => hsup _ (hcd p hp)) _ (hsup s h1).1, wide_lo]
      rfl
    unfold asciContributionsConstraint
    rw [if_neg (by omega)]
    dsimp only
    rw [hb]
    simp only [Option.bind_eq_bind, Option.bind_some]
    rw [ha0]
    simp only [Option.bind_some]
    rw [hd1 rank]
    simp only [Option.bind_some]
    rw [constraintFold_eq I st E0 (length_sortAccumulate hs) part data (handed rank) [] (by simpa using hlen rank hr)]
    rfl
  · rw [← List.flatMap_assoc, ← hall, List.map_flatMap, List.nodup_flatMap]
    constructor
    · intro con _
      exact nodup_of_lt (sortAccumulate_spec hs _).1
    · have hT := pairwise_of_countP (fun t => ∃ s ∈ cdets, SearchReach norb false s t)
        (fun t con => satB (wide (loWord t)) con) all (fun t ⟨s, h1, h2⟩ => (hone s h1 t h2).le)
      have key : ∀ con ∈ all, ∀ t ∈ (sortAccumulate srt (conNew I norb st.hElTol E0 data con)).map (·.state),
          (∃ s ∈ cdets, SearchReach norb false s t) ∧ satB (wide (loWord t)) con = true := by
        intro con hcon t ht
        obtain ⟨q, hq, rfl⟩ := List.mem_map.1 ht
        obtain ⟨r, hr, e⟩ := ((sortAccumulate_spec hs _).2.1 q.state).1 ⟨q, hq, rfl⟩
        rw [(hnew con hcon).mem_iff] at hr
        obtain ⟨p, hp, hr⟩ := List.mem_flatMap.1 hr
        obtain ⟨u, hu, rfl⟩ := List.mem_map.1 hr
        rw [← e]
        obtain ⟨hu1, hu2⟩ := List.mem_filter.1 hu
        exact ⟨⟨p.1, hcd p hp, (hvis _ (hcd p hp) u).1 (List.mem_of_mem_filter hu1)⟩, hu2⟩
      refine hT.imp_of_mem ?_
      intro c1 c2 h1 h2 hd t ht1 ht2
      obtain ⟨a1, a2⟩ := key c1 h1 t ht1
      obtain ⟨-, b2⟩ := key c2 h2 t ht2
      exact hd t a1 ⟨a2, b2⟩
  · intro t
    rw [← List.flatMap_assoc, ← hall, totalScore_flatMap]
    have e1 : (all.map fun con => totalScore (sortAccumulate srt (conNew I norb st.hElTol E0 data con)) t)
        = all.map fun con => (cs.map fun p =>
          if satB (wide (loWord t)) con = true then
            (if t ∈ (visited norb false (loWord p.1) (hiWord p.1)).filter (keepD I st.hElTol p.2 p.1) then
              (mkC I E0 p.2 p.1 t).rv else 0) else 0).sum := by
      apply List.map_congr_left
      intro con hcon
      rw [totalScore_sortAccumulate hs, totalScore_perm (hnew con hcon), totalScore_flatMap]
      congr 1
      apply List.map_congr_left
      intro p hp
      unfold conKept
      rw [totalScore_map _ (((visited_nodup hn false p.1 (hsup _ (hcd p hp)).1 (hsup _ (hcd p hp)).2).filter _).filter _)
        _ (fun _ => rfl)]
      simp only [List.mem_filter]
      by_cases h1 : satB (wide (loWord t)) con = true <;> simp [h1]
    rw [e1, sum_swap]
    unfold rankedSearchScore
    congr 1
    apply List.map_congr_left
    intro p hp
    rw [sum_ite_countP]
    have hps := hcd p hp
    by_cases hr : SearchReach norb false p.1 t
    · rw [hone _ hps t hr, Nat.cast_one, one_mul]
      obtain ⟨t1, t2⟩ := searchReach_sector (hc _ hps).1 hr
      have h2 : (2 : R) ≠ 0 := by norm_num
      subst hN
      have e2 := C13_slater_condon M I hn h2 hI.2.1 t p.1 t1 (hc _ hps).1 t2
      have e3 := C13_slater_condon M I hn h2 hI.2.1 t t t1 t1 ⟨rfl, rfl⟩
      simp only [List.mem_filter, hvis _ hps t, hr, true_and]
      apply if_congr _ _ rfl
      · unfold keepD keepC keepA
        rw [sameAlpha_iff, e2]
        split <;> simp
      · unfold mkC pertScore
        rw [e2, e3]
    · rw [if_neg (fun h => hr ((hvis _ hps t).1 (List.mem_of_mem_filter h))), if_neg (fun h => hr h.1), mul_zero]

/-- C103: with screening off the scores do not depend on the number of ranks. -/
theorem C103_same_as_one_rank (tol E0 : R) (htol : tol ≤ 0) (cs : List (BitVec (2 * M) × R)) (t : BitVec (2 * M)) :
    rankedSearchScore I norb tol E0 cs t = searchScore I norb false tol E0 cs t := by
  unfold rankedSearchScore searchScore
  classical
  congr 1
  apply List.map_congr_left
  intro p _
  have h : ∀ v : R, tol ≤ |v| := fun v => htol.trans (abs_nonneg v)
  have e : (SearchReach norb false p.1 t ∧ (if SameAlpha p.1 t then tol ≤ |hamiltonian I t p.1|
      else tol ≤ |p.2 * hamiltonian I t p.1|)) ↔ (SearchReach norb false p.1 t ∧ tol ≤ |hamiltonian I t p.1|) := by
    refine and_congr_right fun _ => ?_
    split <;> exact ⟨fun _ => h _, fun _ => h _⟩
  by_cases hr : SearchReach norb false p.1 t ∧ tol ≤ |hamiltonian I t p.1|
  · rw [if_pos hr, if_pos (e.2 hr)]
  · rw [if_neg hr, if_neg (fun k => hr (e.1 k))]

/-- C103: the whole search on several ranks.  If every rank has room for its pairs and some threshold
separates exactly `ndets_max - ncdets` determinants from the rest, all ranks return a best choice of that many
determinants outside the core with non-zero score, followed by the core, for all random draws and
however the library sorts and partitions. -/
theorem C103_search (hI : RealSymmetric I) (st : ContribSettings R) (hN : I.norb = norb) (hn : norb ≤ M)
    (h66 : norb ≤ 66) (hM : 2 * M < 2 ^ 64)
    {srt part : List (Contrib (2 * M) R) → List (Contrib (2 * M) R)}
    (hs : SortsBy (fun x y => bitsetLess x.state y.state) srt) (hp : Rearranges part) (E0 : R)
    (worldSize avg : Nat) (hW : 0 < worldSize)
    {partC sortC : List (WfnConstraint (2 * M) × Nat) → List (WfnConstraint (2 * M) × Nat)}
    (hpC : ∀ l, (partC l).Perm l) (hsC : ∀ l, (sortC l).Perm l)
    (draw : Nat → Nat) {partS nthS : Nat → List R → List R}
    (hpS : ∀ i, Rearranges (partS i)) (hnS : NthElement (id : R → R) nthS)
    (ndetsMax : Nat) (cdets : List (BitVec (2 * M))) (C : List R) (hC : cdets.length ≤ C.length) (hne : cdets ≠ [])
    (hc : ∀ s ∈ cdets, InSpace norb s ∧ 3 + st.constraintLevel ≤ alphaElectrons s) (hcd : cdets.Nodup)
    (hm : cdets.length < ndetsMax) (h64 : ndetsMax < 2 ^ 64)
    (hmem : (cdets.map fun s => {t | SearchReach norb false s t}.ncard).sum ≤ st.pairSizeMax)
    (hcut : ∃ v, {t | (rankedSearchScore I norb st.hElTol E0 (cdets.zip C) t ≠ 0 ∧ t ∉ cdets) ∧
      v ≤ |rankedSearchScore I norb st.hElTol E0 (cdets.zip C) t|}.ncard = ndetsMax - cdets.length) :
    ∃ K, asciSearchDist I st norb E0 srt part worldSize avg partC sortC draw partS nthS ndetsMax cdets C
        = some (K ++ cdets) ∧
      BestOf (fun t => rankedSearchScore I norb st.hElTol E0 (cdets.zip C) t ≠ 0 ∧ t ∉ cdets)
        (fun t => |rankedSearchScore I norb st.hElTol E0 (cdets.zip C) t|) (ndetsMax - cdets.length) K ∧
      (K ++ cdets).Nodup ∧ (K ++ cdets).length = ndetsMax := by
  obtain ⟨pairs, h1, h2, h3⟩ := C103_distributed_scores hI st hN hn h66 hM (part := part) hs E0 worldSize avg hW
    hpC hsC cdets C hC hne hc hmem
  set sc := rankedSearchScore I norb st.hElTol E0 (cdets.zip C) with hsc
  set pl := (List.range worldSize).map pairs with hpl
  have hfl : pl.flatten = (List.range worldSize).flatMap pairs := rfl
  rw [← hfl] at h2 h3
  have hrv : ∀ p ∈ pl.flatten, p.rv = sc p.state := fun p hp => by rw [← h3, totalScore_nodup h2 hp]
  -- thresholds count the same in the list and in the set
  have hcount : ∀ v, ((globalCand pl cdets).filter fun p => v ≤ |p.rv|).length
      = {t | (sc t ≠ 0 ∧ t ∉ cdets) ∧ v ≤ |sc t|}.ncard := by
    intro v
    have hnd : (((globalCand pl cdets).filter fun p => v ≤ |p.rv|).map (·.state)).Nodup := by
      refine List.Nodup.sublist (List.Sublist.map _ ?_) h2
      exact List.filter_sublist.trans List.filter_sublist
    rw [← List.length_map (f := fun p : Contrib (2 * M) R => p.state), ← List.toFinset_card_of_nodup hnd,
      ← Set.ncard_coe_finset]
    congr 1
    ext t
    simp only [Finset.mem_coe, List.mem_toFinset, List.mem_map, List.mem_filter, globalCand, decide_eq_true_eq,
      Set.mem_setOf_eq]
    constructor
    · rintro ⟨p, ⟨⟨a1, a2, a3⟩, a4⟩, rfl⟩
      rw [← hrv p a1]
      exact ⟨⟨a2, a3⟩, a4⟩
    · rintro ⟨⟨a1, a2⟩, a3⟩
      have : ∃ p ∈ pl.flatten, p.state = t := by
        by_contra h
        apply a1
        rw [← h3]
        exact totalScore_notMem fun p hp e => h ⟨p, hp, e⟩
      obtain ⟨p, hp, rfl⟩ := this
      rw [← hrv p hp] at a1 a3
      exact ⟨p, ⟨⟨hp, a1, a2⟩, a3⟩, rfl⟩
  obtain ⟨v, hv⟩ := hcut
  rw [← hcount v] at hv
  have henough : ndetsMax - cdets.length ≤ (globalCand pl cdets).length := by
    rw [← hv]; exact List.length_filter_le _ _
  obtain ⟨K, k1, k2, k3, k4⟩ := C29_distributed draw hs hp hpS hnS ndetsMax cdets C pl hC hm h64 hcd h2 henough (by
    rintro w ⟨-, w2, w3⟩
    simp only [List.filter_map, List.length_map, Function.comp_def] at w2 w3
    refine le_antisymm ?_ w3
    have hvw : v ≤ w := by
      by_contra hlt
      rw [not_le] at hlt
      have : ((globalCand pl cdets).filter fun p => v ≤ |p.rv|).length
          ≤ ((globalCand pl cdets).filter fun p => w < |p.rv|).length := by
        rw [← List.countP_eq_length_filter, ← List.countP_eq_length_filter]
        apply List.countP_mono_left
        intro p _ hp
        simp only [decide_eq_true_eq] at hp ⊢
        exact hlt.trans_le hp
      omega
    rw [← hv, ← List.countP_eq_length_filter, ← List.countP_eq_length_filter]
    apply List.countP_mono_left
    intro p _ hp
    simp only [decide_eq_true_eq] at hp ⊢
    exact hvw.trans hp)
  refine ⟨K, ?_, ?_, k3, k4⟩
  · unfold asciSearchDist
    rw [mapM_some (g := pairs) fun r hr => h1 r (List.mem_range.1 hr)]
    exact k1
  · unfold Candidate at k2
    simp only [h3] at k2
    exact k2

/-- C105 (part): when no screening happens and doubles are included, the scores of the search on one rank and
on any number of ranks are the same (given room for the pairs and enough alpha electrons). -/
theorem C105_same_scores_partial (hI : RealSymmetric I) (st : ContribSettings R) (hN : I.norb = norb) (hn : norb ≤ M)
    (h66 : norb ≤ 66) (h64 : 2 * M < 2 ^ 64)
    {srt part : List (Contrib (2 * M) R) → List (Contrib (2 * M) R)}
    (hs : SortsBy (fun x y => bitsetLess x.state y.state) srt) (hp : Rearranges part) (E0 : R)
    (worldSize avg : Nat) (hW : 0 < worldSize)
    {partC sortC : List (WfnConstraint (2 * M) × Nat) → List (WfnConstraint (2 * M) × Nat)}
    (hpC : ∀ l, (partC l).Perm l) (hsC : ∀ l, (sortC l).Perm l)
    (cdets : List (BitVec (2 * M))) (C : List R) (hC : cdets.length = C.length) (hne : cdets ≠ [])
    (hc : ∀ s ∈ cdets, InSpace norb s ∧ 3 + st.constraintLevel ≤ alphaElectrons s)
    (hjs : st.justSingles = false) (htol : st.hElTol ≤ 0)
    (hmem : (cdets.map fun s => {t | SearchReach norb false s t}.ncard).sum ≤ st.pairSizeMax) :
    ∃ (one : List (Contrib (2 * M) R)) (pairs : Nat → List (Contrib (2 * M) R)),
      asciContributionsStandard I st norb E0 srt part cdets C = some one ∧
      (∀ rank < worldSize, asciContributionsConstraint I st norb E0 srt part worldSize rank avg partC sortC cdets C
        = some (pairs rank)) ∧
      ∀ t, totalScore ((List.range worldSize).flatMap pairs) t = totalScore one t := by
  obtain ⟨pairs, h1, -, h3⟩ := C103_distributed_scores hI st hN hn h66 h64 (part := part) hs E0 worldSize avg hW
    hpC hsC cdets C hC.le hne hc hmem
  obtain ⟨one, k1, k2⟩ := C102_scores hI st hN hn hs hp E0 cdets C hC (fun s h => (hc s h).1) (by rw [hjs]; exact hmem)
  refine ⟨one, pairs, k1, h1, fun t => ?_⟩
  rw [h3, k2, hjs, C103_same_as_one_rank _ _ htol]

end

/-- Four orbitals, `h = 1` everywhere, `(ab|cd) = 1` for `a = b`, `c = d` and for `a ≠ b`, `c ≠ d`, else 0. -/
def distInts : Integrals Rat where
  norb := 4
  T := fun _ _ => 1
  V := fun a b c d => if a = b ∧ c = d ∨ a ≠ b ∧ c ≠ d then 1 else 0

theorem distInts_symm : RealSymmetric distInts := by
  refine ⟨fun _ _ => rfl, ?_, ?_⟩ <;> intro a b c d <;> simp [distInts, eq_comm, and_comm]

/-- states and scores of a search result -/
def shown (l : Option (List (Contrib 8 Rat))) : Option (List (BitVec 8 × Rat)) := l.map (·.map fun p => (p.state, p.rv))

/-- The hypotheses of the theorems above hold for three alpha electrons and one beta electron in four orbitals;
two ranks share the 15 determinants one rank finds. -/
example : RealSymmetric distInts ∧ (∀ s ∈ [0b00010111#8], InSpace (M := 4) 4 s ∧ 3 + 0 ≤ alphaElectrons (M := 4) s) ∧
    shown (asciContributionsConstraint (M := 4) distInts ⟨0, 0, 1000, false, 0⟩ 4 (-10) exSort id 2 0 0 id id
      [0b00010111#8] [1]) = some [(39, -1/17), (71, -1/17), (135, -1/17), (29, -1/17), (45, 1/17), (77, 1/17), (141, 1/17)] ∧
    shown (asciContributionsConstraint (M := 4) distInts ⟨0, 0, 1000, false, 0⟩ 4 (-10) exSort id 2 1 0 id id
      [0b00010111#8] [1]) = some [(27, 1/17), (43, -1/17), (75, -1/17), (139, -1/17), (30, 1/17), (46, -1/17),
        (78, -1/17), (142, -1/17)] ∧
    (asciContributionsStandard (M := 4) distInts ⟨0, 0, 1000, false, 0⟩ 4 (-10) exSort id [0b00010111#8] [1]).map
      (·.length) = some 15 :=
  ⟨distInts_symm, by rintro s hs; rw [List.mem_singleton.1 hs]; exact ⟨by decide +kernel, by decide +kernel⟩,
    by decide +kernel, by decide +kernel, by decide +kernel⟩

/-- C105, refuted in general: with a tolerance of 1/2 and a coefficient of 1/10 the determinant `00011110`
(matrix element 1) has score 1/170 on one rank and is missing on two ranks. -/
theorem C105_screening_refuted :
    (asciContributionsStandard (M := 4) distInts ⟨1/2, 0, 1000, false, 0⟩ 4 (-10) exSort id [0b00010111#8] [1/10]).map
      (fun l => totalScore l 0b00011110#8) = some (1/170) ∧
    ∀ rank < 2, (asciContributionsConstraint (M := 4) distInts ⟨1/2, 0, 1000, false, 0⟩ 4 (-10) exSort id 2 rank 0 id id
      [0b00010111#8] [1/10]).map (fun l => totalScore l 0b00011110#8) = some 0 := by
  decide +kernel

/-- C105, refuted in general: with `just_singles` one rank finds the 6 single excitations, two ranks find 15
determinants. -/
theorem C105_just_singles_refuted :
    (asciContributionsStandard (M := 4) distInts ⟨0, 0, 1000, true, 0⟩ 4 (-10) exSort id [0b00010111#8] [1]).map
      (·.length) = some 6 ∧
    (asciContributionsConstraint (M := 4) distInts ⟨0, 0, 1000, true, 0⟩ 4 (-10) exSort id 2 0 0 id id
      [0b00010111#8] [1]).map (·.length) = some 7 ∧
    (asciContributionsConstraint (M := 4) distInts ⟨0, 0, 1000, true, 0⟩ 4 (-10) exSort id 2 1 0 id id
      [0b00010111#8] [1]).map (·.length) = some 8 := by
  decide +kernel

/-- C105, refuted in general: with a small `pair_size_max` one rank drops small scores, while on two ranks
the search reads past the end of its list. -/
theorem C105_pruning_refuted :
    asciContributionsStandard (M := 4) distInts ⟨0, 100, 1, false, 0⟩ 4 (-10) exSort id [0b00000111#8] [1] = some [] ∧
    ∃ rank < 2, asciContributionsConstraint (M := 4) distInts ⟨0, 100, 1, false, 0⟩ 4 (-10) exSort id 2 rank 0 id id
      [0b00000111#8] [1] = none := by
  decide +kernel

end Macis
