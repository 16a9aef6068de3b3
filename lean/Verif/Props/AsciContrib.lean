import Verif.Spec.AsciContrib
import Verif.Lemmas.AsciContrib
import Verif.Props.AsciSelect
import Mathlib.Data.Set.Card

/-! Properties C102-C105: the scores the ASCI search ranks determinants by
(`asci/determinant_contributions.hpp`, `asci/mask_constraints.hpp`, `asci/determinant_search.hpp`). -/
namespace Macis
open Spec

section words
variable {N : Nat} {x y : BitVec N}

/-- two strings with as many electrons in the same orbitals are excitations of each other -/
theorem excited_of_electrons {norb : Nat} (hx : SupportedOn norb x) (hy : SupportedOn norb y)
    (h : count x = count y) : ∃ k, ExcitedWithin k (· < norb) x y := by
  rw [← card_bitSet, ← card_bitSet] at h
  refine ⟨(bitSet x \ bitSet y).card, bitSet x \ bitSet y, bitSet y \ bitSet x, rfl, ?_, ?_, ?_, ?_⟩
  · exact (Finset.card_sdiff_comm h).symm
  · intro i hi
    rw [Finset.mem_sdiff, mem_bitSet] at hi
    exact ⟨hx i hi.1, hi.1⟩
  · intro i hi
    rw [Finset.mem_sdiff, mem_bitSet, mem_bitSet] at hi
    exact ⟨BitVec.lt_of_getLsbD hi.1, hy i hi.1, by simpa using hi.2⟩
  · intro j
    rw [Finset.mem_sdiff, Finset.mem_sdiff, mem_bitSet, mem_bitSet]
    cases x.getLsbD j <;> cases y.getLsbD j <;> simp

end words

section
variable {R : Type} [Field R] [LinearOrder R] [IsStrictOrderedRing R] {M norb : Nat} {I : Integrals R}

theorem searchReach_sector {js : Bool} {s t : BitVec (2 * M)} (hs : InSpace norb s)
    (h : SearchReach norb js s t) : InSpace norb t ∧ SameSector t s := by
  rw [inSpace_iff] at hs
  have key : ∀ ka kb, ExcitedSpin ka kb (· < norb) s t → InSpace norb t ∧ SameSector t s := by
    intro ka kb h
    rw [inSpace_iff]
    refine ⟨⟨excited_supported hs.1 h.1, excited_supported hs.2 h.2⟩, ?_, ?_⟩
    · rw [alphaElectrons_eq, alphaElectrons_eq]; exact excited_electrons h.1
    · rw [betaElectrons_eq, betaElectrons_eq]; exact excited_electrons h.2
  rcases h with (h | h) | ⟨-, h | h | h⟩ <;> exact key _ _ h

theorem searchReach_of_close {s t : BitVec (2 * M)} (hs : InSpace norb s) (ht : InSpace norb t)
    (hst : SameSector t s) (hne : t ≠ s) (hd : diffOrbitals t s ≤ 4) : SearchReach norb false s t := by
  rw [inSpace_iff] at hs ht
  obtain ⟨h1, h2⟩ := hst
  rw [alphaElectrons_eq, alphaElectrons_eq] at h1
  rw [betaElectrons_eq, betaElectrons_eq] at h2
  rw [electrons_eq_count, electrons_eq_count] at h1 h2
  obtain ⟨ka, hka⟩ := excited_of_electrons hs.1 ht.1 h1.symm
  obtain ⟨kb, hkb⟩ := excited_of_electrons hs.2 ht.2 h2.symm
  rw [← count_xor_add, excited_count_xor hka, excited_count_xor hkb] at hd
  have h0 : ¬ (ka = 0 ∧ kb = 0) := by
    rintro ⟨rfl, rfl⟩
    apply hne
    rw [← joinSpin_lo_hi t, ← joinSpin_lo_hi s, excited_zero.1 hka, excited_zero.1 hkb]
  have : (ka = 1 ∧ kb = 0) ∨ (ka = 0 ∧ kb = 1) ∨ (ka = 2 ∧ kb = 0) ∨ (ka = 0 ∧ kb = 2) ∨ (ka = 1 ∧ kb = 1) := by
    omega
  unfold SearchReach
  rcases this with ⟨rfl, rfl⟩ | ⟨rfl, rfl⟩ | ⟨rfl, rfl⟩ | ⟨rfl, rfl⟩ | ⟨rfl, rfl⟩
  · exact Or.inl (Or.inl ⟨hka, hkb⟩)
  · exact Or.inl (Or.inr ⟨hka, hkb⟩)
  · exact Or.inr ⟨rfl, Or.inl ⟨hka, hkb⟩⟩
  · exact Or.inr ⟨rfl, Or.inr (Or.inl ⟨hka, hkb⟩)⟩
  · exact Or.inr ⟨rfl, Or.inr (Or.inr ⟨hka, hkb⟩)⟩

theorem totalScore_append {N : Nat} {R : Type} [AddCommGroup R] (l l' : List (Contrib N R)) (s : BitVec N) :
    totalScore (l ++ l') s = totalScore l s + totalScore l' s := by
  simp [totalScore]

theorem totalScore_perm {N : Nat} {R : Type} [AddCommGroup R] {l l' : List (Contrib N R)} (h : l.Perm l')
    (s : BitVec N) : totalScore l s = totalScore l' s :=
  ((h.filter _).map _).sum_eq

theorem totalScore_notMem {N : Nat} {R : Type} [AddCommGroup R] {l : List (Contrib N R)} {s : BitVec N}
    (h : ∀ p ∈ l, p.state ≠ s) : totalScore l s = 0 := by
  unfold totalScore
  rw [List.filter_eq_nil_iff.2 (by simpa using h)]; rfl

theorem totalScore_nodup {N : Nat} {R : Type} [AddCommGroup R] {l : List (Contrib N R)}
    (h : (l.map (·.state)).Nodup) {p : Contrib N R} (hp : p ∈ l) : totalScore l p.state = p.rv := by
  induction l with
  | nil => simp at hp
  | cons q l ih =>
    rw [List.map_cons, List.nodup_cons] at h
    rw [← List.singleton_append, totalScore_append]
    rcases List.mem_cons.1 hp with rfl | hp
    · rw [totalScore_notMem (l := l) (fun q hq e => h.1 (List.mem_map.2 ⟨q, hq, e⟩))]
      simp [totalScore]
    · rw [ih h.2 hp, totalScore_notMem (l := [q]), zero_add]
      intro r hr e
      rw [List.mem_singleton.1 hr] at e
      exact h.1 (List.mem_map.2 ⟨p, hp, e.symm⟩)

/-- accumulating keeps every total -/
theorem totalScore_sortAccumulate {N : Nat} {R : Type} [AddCommGroup R]
    {srt : List (Contrib N R) → List (Contrib N R)}
    (hs : SortsBy (fun x y => bitsetLess x.state y.state) srt) (l : List (Contrib N R)) (s : BitVec N) :
    totalScore (sortAccumulate srt l) s = totalScore l s := by
  obtain ⟨a1, a2, a3⟩ := sortAccumulate_spec hs l
  by_cases h : ∃ p ∈ sortAccumulate srt l, p.state = s
  · obtain ⟨p, hp, rfl⟩ := h
    rw [totalScore_nodup (nodup_of_lt a1) hp, a3 p hp]
  · rw [totalScore_notMem (l := sortAccumulate srt l) (fun p hp e => h ⟨p, hp, e⟩),
      totalScore_notMem (l := l) (fun p hp e => h ((a2 s).2 ⟨p, hp, e⟩))]

/-- one determinant: each reached determinant once, with its amplitude -/
theorem detContribs_spec (hI : RealSymmetric I) (st : ContribSettings R) (hN : I.norb = norb) (hn : norb ≤ M)
    (E0 c : R) (s : BitVec (2 * M)) (hs : InSpace norb s) :
    ∃ l, detContribs I st norb E0 c s = some l ∧ (l.map (·.state)).Nodup ∧
      (∀ p, p ∈ l ↔ SearchReach norb st.justSingles s p.state ∧ st.hElTol ≤ |hamiltonian I p.state s| ∧
        p.rv = pertScore I E0 c s p.state) ∧
      (∀ t, totalScore l t = searchScore I norb st.justSingles st.hElTol E0 [(s, c)] t) ∧
      l.length ≤ {t | SearchReach norb st.justSingles s t}.ncard := by
  have hs' := (inSpace_iff s).1 hs
  have h := detContribs_eq I hI st hN hn hs'.1 hs'.2 E0 c
  rw [joinSpin_lo_hi] at h
  have hm := visited_mem hn st.justSingles s hs'.1 hs'.2
  have hnd := visited_nodup hn st.justSingles s hs'.1 hs'.2
  have h2 : (2 : R) ≠ 0 := by norm_num
  have hH : ∀ t, SearchReach norb st.justSingles s t →
      I.matrixElement t s = hamiltonian I t s ∧ I.matrixElement t t = hamiltonian I t t := by
    intro t ht
    obtain ⟨a, b⟩ := searchReach_sector hs ht
    subst hN
    exact ⟨C13_slater_condon M I hn h2 hI.2.1 t s a hs b, C13_slater_condon M I hn h2 hI.2.1 t t a a ⟨rfl, rfl⟩⟩
  have hmem : ∀ p, p ∈ ((visited norb st.justSingles (loWord s) (hiWord s)).filter (keepC I st.hElTol s)).map
      (mkC I E0 c s) ↔ SearchReach norb st.justSingles s p.state ∧ st.hElTol ≤ |hamiltonian I p.state s| ∧
        p.rv = pertScore I E0 c s p.state := by
    rintro ⟨t, v⟩
    simp only [List.mem_map, List.mem_filter, keepC, mkC, Contrib.mk.injEq]
    constructor
    · rintro ⟨t', ⟨h1, h2⟩, rfl, rfl⟩
      have h1' : SearchReach norb st.justSingles s t' := (hm t').1 h1
      obtain ⟨e1, e2⟩ := hH t' h1'
      rw [e1] at h2 ⊢
      rw [e2]
      exact ⟨h1', by simpa using h2, rfl⟩
    · rintro ⟨h1, h2, h3⟩
      obtain ⟨e1, e2⟩ := hH t h1
      refine ⟨t, ⟨(hm t).2 h1, ?_⟩, rfl, ?_⟩
      · rw [e1]; simpa using h2
      · rw [h3, e1, e2]; rfl
  have hnd' : ((((visited norb st.justSingles (loWord s) (hiWord s)).filter (keepC I st.hElTol s)).map
      (mkC I E0 c s)).map (·.state)).Nodup := by
    rw [List.map_map]
    have : ((fun p : Contrib (2 * M) R => p.state) ∘ mkC I E0 c s) = id := rfl
    rw [this, List.map_id]
    exact hnd.filter _
  refine ⟨_, h, hnd', hmem, ?_, ?_⟩
  · intro t
    unfold searchScore
    rw [List.map_cons, List.map_nil, List.sum_cons, List.sum_nil, add_zero]
    split
    · next hc => exact totalScore_nodup hnd' ((hmem ⟨t, pertScore I E0 c s t⟩).2 ⟨hc.1, hc.2, rfl⟩)
    · next hc =>
      apply totalScore_notMem
      rintro p hp rfl
      obtain ⟨a, b, -⟩ := (hmem p).1 hp
      exact hc ⟨a, b⟩
  · rw [List.length_map]
    refine (List.length_filter_le _ _).trans ?_
    rw [← List.toFinset_card_of_nodup hnd, ← Set.ncard_coe_finset]
    apply le_of_eq
    congr 1
    ext t
    rw [Finset.mem_coe, List.mem_toFinset, Set.mem_setOf_eq]
    exact hm t

theorem searchScore_append (js : Bool) (tol E0 : R) (l l' : List (BitVec (2 * M) × R)) (t : BitVec (2 * M)) :
    searchScore I norb js tol E0 (l ++ l') t
      = searchScore I norb js tol E0 l t + searchScore I norb js tol E0 l' t := by
  simp [searchScore]

theorem pruneStandard_spec {srt part : List (Contrib (2 * M) R) → List (Contrib (2 * M) R)}
    (hs : SortsBy (fun x y => bitsetLess x.state y.state) srt) (hp : Rearranges part)
    (st : ContribSettings R) (l : List (Contrib (2 * M) R)) :
    ∃ dropped : List (Contrib (2 * M) R), (∀ p ∈ dropped, |p.rv| ≤ st.rvPruneTol) ∧
      (∀ p ∈ pruneStandard st srt part l, ∃ q ∈ l, q.state = p.state) ∧
      (∀ t, totalScore (pruneStandard st srt part l) t + totalScore dropped t = totalScore l t) ∧
      (l.length ≤ st.pairSizeMax → dropped = [] ∧ pruneStandard st srt part l = l) := by
  unfold pruneStandard
  split
  · next hgt =>
    refine ⟨l.filter fun x => !decide (st.rvPruneTol < |x.rv|), ?_, ?_, ?_, fun h => absurd hgt (by omega)⟩
    · intro p hp
      simpa using (List.mem_filter.1 hp).2
    · intro p hpm
      have : ∀ p ∈ (part l).filter (fun x => st.rvPruneTol < |x.rv|), ∃ q ∈ l, q.state = p.state := fun p h =>
        ⟨p, (hp l).mem_iff.1 (List.mem_filter.1 h).1, rfl⟩
      dsimp only at hpm
      split at hpm
      · obtain ⟨q, hq, e⟩ := (((sortAccumulate_spec hs _).2.1 p.state).1 ⟨p, hpm, rfl⟩)
        obtain ⟨r, hr, e'⟩ := this q hq
        exact ⟨r, hr, e'.trans e⟩
      · exact this p hpm
    · intro t
      have e1 : ∀ k : List (Contrib (2 * M) R), totalScore (if k.length > st.pairSizeMax then sortAccumulate srt k else k) t
          = totalScore k t := by
        intro k; split
        · exact totalScore_sortAccumulate hs k t
        · rfl
      dsimp only
      rw [e1, totalScore_perm ((hp l).filter _), ← totalScore_append]
      refine totalScore_perm ?_ t
      exact List.filter_append_perm (fun x : Contrib (2 * M) R => decide (st.rvPruneTol < |x.rv|)) l
  · exact ⟨[], by simp, fun p hp => ⟨p, hp, rfl⟩, fun t => by simp [totalScore], fun _ => ⟨rfl, rfl⟩⟩

/-- invariant of the loop over core determinants -/
theorem contributions_loop (hI : RealSymmetric I) (st : ContribSettings R) (hN : I.norb = norb) (hn : norb ≤ M)
    {srt part : List (Contrib (2 * M) R) → List (Contrib (2 * M) R)}
    (hs : SortsBy (fun x y => bitsetLess x.state y.state) srt) (hp : Rearranges part) (E0 : R)
    (cs : List (BitVec (2 * M) × R)) (hc : ∀ x ∈ cs, InSpace norb x.1) (acc : List (Contrib (2 * M) R)) :
    ∃ pairs dropped : List (Contrib (2 * M) R),
      cs.foldlM (fun pairs x => do
        let new ← detContribs I st norb E0 x.2 x.1
        return pruneStandard st srt part (pairs ++ new)) acc = some pairs ∧
      (∀ p ∈ dropped, |p.rv| ≤ st.rvPruneTol) ∧
      (∀ p ∈ pairs, (∃ q ∈ acc, q.state = p.state) ∨ ∃ x ∈ cs, SearchReach norb st.justSingles x.1 p.state ∧
        st.hElTol ≤ |hamiltonian I p.state x.1|) ∧
      (∀ t, totalScore pairs t + totalScore dropped t
        = totalScore acc t + searchScore I norb st.justSingles st.hElTol E0 cs t) ∧
      (acc.length + (cs.map fun x => {t | SearchReach norb st.justSingles x.1 t}.ncard).sum ≤ st.pairSizeMax →
        dropped = []) := by
  induction cs generalizing acc with
  | nil => exact ⟨acc, [], rfl, by simp, fun p hp => Or.inl ⟨p, hp, rfl⟩, fun t => by simp [totalScore, searchScore], fun _ => rfl⟩
  | cons x cs ih =>
    obtain ⟨l, e1, -, e3, e4, e5⟩ := detContribs_spec hI st hN hn E0 x.2 x.1 (hc x List.mem_cons_self)
    obtain ⟨d1, b1, b2, b3, b4⟩ := pruneStandard_spec hs hp st (acc ++ l)
    obtain ⟨pairs, d2, c1, c2, c3, c4, c5⟩ := ih (fun y hy => hc y (List.mem_cons_of_mem _ hy))
      (pruneStandard st srt part (acc ++ l))
    refine ⟨pairs, d1 ++ d2, ?_, ?_, ?_, ?_, ?_⟩
    · rw [List.foldlM_cons, e1]; exact c1
    · intro p hp
      rcases List.mem_append.1 hp with h | h
      exacts [b1 p h, c2 p h]
    · intro p hp
      rcases c3 p hp with ⟨q, hq, e⟩ | ⟨y, hy, h⟩
      · obtain ⟨r, hr, e'⟩ := b2 q hq
        rcases List.mem_append.1 hr with h | h
        · exact Or.inl ⟨r, h, e'.trans e⟩
        · obtain ⟨h1, h2, -⟩ := (e3 r).1 h
          rw [e'.trans e] at h1 h2
          exact Or.inr ⟨x, List.mem_cons_self, h1, h2⟩
      · exact Or.inr ⟨y, List.mem_cons_of_mem _ hy, h⟩
    · intro t
      have h1 := c4 t
      have h2 := b3 t
      rw [totalScore_append] at h2
      have h3 := e4 t
      rw [totalScore_append, ← List.singleton_append (l := cs), searchScore_append]
      linear_combination h1 + h2 + h3
    · intro hle
      rw [List.map_cons, List.sum_cons] at hle
      obtain ⟨rfl, e⟩ := b4 (by rw [List.length_append]; omega)
      rw [c5 (by rw [e, List.length_append]; omega)]
      rfl

/-- C104: for every memory limit and pruning threshold, and however the library sorts and partitions, the
search list contains only determinants that some core determinant reaches with a matrix element above the
tolerance, and what pruning removed are partial scores of at most the threshold: adding them back gives
every determinant its exact score. -/
theorem C104_pruning (hI : RealSymmetric I) (st : ContribSettings R) (hN : I.norb = norb) (hn : norb ≤ M)
    {srt part : List (Contrib (2 * M) R) → List (Contrib (2 * M) R)}
    (hs : SortsBy (fun x y => bitsetLess x.state y.state) srt) (hp : Rearranges part) (E0 : R)
    (cdets : List (BitVec (2 * M))) (C : List R) (hC : cdets.length ≤ C.length)
    (hc : ∀ s ∈ cdets, InSpace norb s) :
    ∃ pairs dropped : List (Contrib (2 * M) R),
      asciContributionsStandard I st norb E0 srt part cdets C = some pairs ∧
      (∀ p ∈ pairs, ∃ s ∈ cdets, SearchReach norb st.justSingles s p.state ∧
        st.hElTol ≤ |hamiltonian I p.state s|) ∧
      (∀ p ∈ dropped, |p.rv| ≤ st.rvPruneTol) ∧
      ∀ t, totalScore pairs t + totalScore dropped t
        = searchScore I norb st.justSingles st.hElTol E0 (cdets.zip C) t := by
  obtain ⟨pairs, d, h1, h2, h3, h4, -⟩ := contributions_loop hI st hN hn hs hp E0 (cdets.zip C)
    (fun x hx => hc _ (List.of_mem_zip hx).1) []
  refine ⟨pairs, d, ?_, ?_, h2, ?_⟩
  · unfold asciContributionsStandard; rw [if_neg (by omega)]; exact h1
  · intro p hpm
    rcases h3 p hpm with ⟨q, hq, -⟩ | ⟨x, hx, h⟩
    · simp at hq
    · exact ⟨x.1, (List.of_mem_zip hx).1, h⟩
  · intro t; rw [h4 t]; simp [totalScore]

/-- C102: when the pair list fits in memory (`pair_size_max`), the total score of every determinant is the
exact sum of first-order amplitudes of the core determinants that reach it. -/
theorem C102_scores (hI : RealSymmetric I) (st : ContribSettings R) (hN : I.norb = norb) (hn : norb ≤ M)
    {srt part : List (Contrib (2 * M) R) → List (Contrib (2 * M) R)}
    (hs : SortsBy (fun x y => bitsetLess x.state y.state) srt) (hp : Rearranges part) (E0 : R)
    (cdets : List (BitVec (2 * M))) (C : List R) (hC : cdets.length = C.length)
    (hc : ∀ s ∈ cdets, InSpace norb s)
    (hmem : (cdets.map fun s => {t | SearchReach norb st.justSingles s t}.ncard).sum ≤ st.pairSizeMax) :
    ∃ pairs, asciContributionsStandard I st norb E0 srt part cdets C = some pairs ∧
      ∀ t, totalScore pairs t = searchScore I norb st.justSingles st.hElTol E0 (cdets.zip C) t := by
  obtain ⟨pairs, d, h1, h2, h3, h4, h5⟩ := contributions_loop hI st hN hn hs hp E0 (cdets.zip C)
    (fun x hx => hc _ (List.of_mem_zip hx).1) []
  have hd := h5 (by
    rw [show (fun x : BitVec (2 * M) × R => {t | SearchReach norb st.justSingles x.1 t}.ncard)
      = (fun s => {t | SearchReach norb st.justSingles s t}.ncard) ∘ Prod.fst from rfl, ← List.map_map,
      List.map_fst_zip (by omega)]
    simpa using hmem)
  refine ⟨pairs, ?_, ?_⟩
  · unfold asciContributionsStandard; rw [if_neg (by omega)]; exact h1
  · intro t
    have := h4 t
    rw [hd] at this
    simpa [totalScore] using this

/-- C102: with screening off and doubles on, the score of a determinant outside the core is
`Σ_I c_I ⟨t|H|I⟩ / (E0 - ⟨t|H|t⟩)`, the sum running over the whole core. -/
theorem C102_perturbative_score (hI : RealSymmetric I) (hN : I.norb = norb) (hn : norb ≤ M) (tol E0 : R)
    (htol : tol ≤ 0) (cs : List (BitVec (2 * M) × R)) (t : BitVec (2 * M)) (ht : InSpace norb t)
    (hc : ∀ x ∈ cs, InSpace norb x.1 ∧ SameSector t x.1 ∧ t ≠ x.1) :
    searchScore I norb false tol E0 cs t
      = (cs.map fun x => x.2 * hamiltonian I t x.1).sum / (E0 - hamiltonian I t t) := by
  induction cs with
  | nil => simp [searchScore]
  | cons x cs ih =>
    have e : searchScore I norb false tol E0 [x] t = x.2 * hamiltonian I t x.1 / (E0 - hamiltonian I t t) := by
      obtain ⟨h1, h2, h3⟩ := hc x List.mem_cons_self
      unfold searchScore
      rw [List.map_cons, List.map_nil, List.sum_cons, List.sum_nil, add_zero]
      by_cases hr : SearchReach norb false x.1 t
      · rw [if_pos ⟨hr, htol.trans (abs_nonneg _)⟩, pertScore, mul_div_assoc]
      · rw [if_neg (fun h => hr h.1)]
        have h4 : 4 < diffOrbitals t x.1 := by
          by_contra hle
          exact hr (searchReach_of_close h1 ht h2 h3 (by omega))
        subst hN
        rw [C15_more_than_two_moved M I hn (by norm_num) hI.2.1 t x.1 ht h1 h2 h4]
        simp
    rw [← List.singleton_append, searchScore_append, e, ih (fun y hy => hc y (List.mem_cons_of_mem _ hy))]
    simp [add_div]

/-- C102: the whole search on one rank.  If the pair list fits in memory, the result is a best choice of
`ndets_max - ncdets` determinants outside the core with non-zero exact score, ranked by absolute score,
followed by the core. -/
theorem C102_search (hI : RealSymmetric I) (st : ContribSettings R) (hN : I.norb = norb) (hn : norb ≤ M)
    {srt part : List (Contrib (2 * M) R) → List (Contrib (2 * M) R)}
    {nth : Nat → List (Contrib (2 * M) R) → List (Contrib (2 * M) R)}
    (hs : SortsBy (fun x y => bitsetLess x.state y.state) srt) (hp : Rearranges part)
    (hnth : NthElement (fun p : Contrib (2 * M) R => |p.rv|) nth) (E0 : R)
    (ndetsMax : Nat) (cdets : List (BitVec (2 * M))) (C : List R) (hC : cdets.length = C.length)
    (hc : ∀ s ∈ cdets, InSpace norb s) (hm : cdets.length ≤ ndetsMax) (h64 : ndetsMax < 2 ^ 64)
    (hcd : cdets.Nodup)
    (hmem : (cdets.map fun s => {t | SearchReach norb st.justSingles s t}.ncard).sum ≤ st.pairSizeMax) :
    ∃ K, asciSearchSerial I st norb E0 srt part nth ndetsMax cdets C = some (K ++ cdets) ∧
      BestOf (fun t => searchScore I norb st.justSingles st.hElTol E0 (cdets.zip C) t ≠ 0 ∧ t ∉ cdets)
        (fun t => |searchScore I norb st.justSingles st.hElTol E0 (cdets.zip C) t|)
        (ndetsMax - cdets.length) K ∧
      (K ++ cdets).Nodup ∧ (K ++ cdets).length ≤ ndetsMax := by
  obtain ⟨pairs, h1, h2⟩ := C102_scores hI st hN hn hs hp E0 cdets C hC hc hmem
  obtain ⟨K, k1, k2, k3, k4⟩ := C28_search hs hp hnth ndetsMax cdets C pairs hC.le hm h64 hcd
  refine ⟨K, ?_, ?_, k3, k4⟩
  · unfold asciSearchSerial
    rw [h1]; exact k1
  · unfold Candidate at k2
    simp only [h2] at k2
    exact k2

/-- Example: two orbitals, one alpha and one beta electron. -/
example : asciSearchSerial (M := 2) exInts ⟨0, 0, 100, false, 0⟩ 2 (-10) exSort id
    (fun _ => List.insertionSort fun x y => |y.rv| ≤ |x.rv|) 3 [0b0101#4] [1] = some [0b0110#4, 0b1001#4, 0b0101#4] := by
  decide +kernel

example : RealSymmetric exInts ∧ InSpace (M := 2) exInts.norb (0b0101#4) ∧
    asciContributionsStandard (M := 2) exInts ⟨0, 0, 100, false, 0⟩ 2 (-10) exSort id [0b0101#4, 0b0110#4] [1, 1/2]
      = some [⟨0b0110#4, -1/5⟩, ⟨0b1001#4, -1/5⟩, ⟨0b1010#4, -2/21⟩, ⟨0b0101#4, -3/26⟩, ⟨0b1010#4, -5/42⟩,
          ⟨0b1001#4, -1/15⟩] :=
  ⟨exInts_symm, by decide +kernel, by decide +kernel⟩

/-- The same with room for one pair: scores up to 1/10 are dropped (`-2/21` and `-1/15` are missing from
the totals of the last two determinants), the rest is accumulated. -/
example : asciContributionsStandard (M := 2) exInts ⟨0, 1/10, 1, false, 0⟩ 2 (-10) exSort id
    [0b0101#4, 0b0110#4] [1, 1/2]
    = some [⟨0b0101#4, -3/26⟩, ⟨0b0110#4, -1/5⟩, ⟨0b1001#4, -1/5⟩, ⟨0b1010#4, -5/42⟩] := by
  decide +kernel

/-- the memory hypothesis of `C102_scores` can be met: any determinant reaches finitely many others -/
example (s : BitVec (2 * M)) (js : Bool) : ∃ n, {t | SearchReach norb js s t}.ncard ≤ n := ⟨_, le_rfl⟩

end
end Macis
