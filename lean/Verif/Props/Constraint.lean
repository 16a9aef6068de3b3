import Verif.Lemmas.ConstraintOwn
import Verif.Lemmas.Ham
/-! Properties C21-C25, C64, C65: ASCI constraints (`asci/mask_constraints.hpp`). -/
namespace Macis
open Spec
variable {N : Nat}

/-- C21: constrained singles into a fresh container are exactly the single excitations inside the
mask that satisfy the constraint, each once. -/
theorem C21_singles_exact (hN : N < 2 ^ 64) {det O C B : BitVec N} {cmin : Nat}
    (hc : IsConstraint O C B cmin) (hd : ∀ i, det.getLsbD i = true → O.getLsbD i = true) :
    (∀ t, t ∈ generateConstraintSingles det C O B [] ↔
      ExcitedWithin 1 (fun i => O.getLsbD i = true) det t ∧ Satisfies C cmin t) ∧
    (generateConstraintSingles det C O B []).Nodup :=
  ⟨mem_constraintSingles hN (isConstraint_wf hc) (fun i hi => mem_bitSet.2 (hd i (mem_bitSet.1 hi))),
    nodup_constraintSingles hN (isConstraint_wf hc)⟩

/-- C21: constrained doubles, whatever the container held before. -/
theorem C21_doubles_exact {det O C B : BitVec N} {cmin : Nat}
    (hc : IsConstraint O C B cmin) (h3 : 3 ≤ electrons C)
    (hd : ∀ i, det.getLsbD i = true → O.getLsbD i = true) (old : List (BitVec N)) :
    (∀ t, t ∈ generateConstraintDoubles det C O B old ↔
      ExcitedWithin 2 (fun i => O.getLsbD i = true) det t ∧ Satisfies C cmin t) ∧
    (generateConstraintDoubles det C O B old).Nodup := by
  rw [electrons_eq_count] at h3
  exact ⟨mem_constraintDoubles (isConstraint_wf hc) h3 (fun i hi => mem_bitSet.2 (hd i (mem_bitSet.1 hi))) old,
    nodup_constraintDoubles (isConstraint_wf hc) h3 old⟩

/-- C21: the test `satisfies_constraint` decides the specification. -/
theorem C21_satisfies_test {O C B t : BitVec N} {cmin : Nat} (hc : IsConstraint O C B cmin) :
    satisfiesConstraint t C cmin = true ↔ Satisfies C cmin t :=
  satisfiesConstraint_iff (isConstraint_wf hc).min

/-- C21: the constraints the program builds meet the hypotheses: triplets ... -/
theorem C21_triplet_is_constraint {norb i j k : Nat} (hn : norb ≤ N) (hi : i < norb) (hj : j < i) (hk : k < j)
    (h64 : k < 64) : ∃ c, makeTriplet N i j k = some c ∧ c.Cmin = k ∧
      IsConstraint (fullMask N norb) c.C c.B c.Cmin ∧ electrons c.C = 3 ∧
      (∀ x, c.C.getLsbD x = true ↔ x = i ∨ x = j ∨ x = k) := by
  have hx : (i, j, k) ∈ tripletIndices norb := mem_tripletIndices.2 ⟨hi, hj, hk⟩
  obtain ⟨h1, h2, h3⟩ := tripCon_props (N := N) hn hx
  refine ⟨_, makeTriplet_eq hi hj hk hn h64, rfl, wf_isConstraint (swf_wfcon hn h1 h2), ?_, ?_⟩
  · rw [electrons_eq_count]; exact h3
  · intro x
    obtain ⟨a1, -, -⟩ := refine_swf hn (topCon_swf hn) (q := i) hi
    obtain ⟨b1, -, -⟩ := refine_swf hn a1 (q := j) hj
    rw [← mem_bitSet, refine_C b1.min hk (by omega), refine_C a1.min hj (by omega),
      refine_C (topCon_swf hn).min hi (by omega)]
    have : bitSet (topCon N norb).C = ∅ := bitSet_zero
    rw [this]
    simp only [Finset.mem_insert, Finset.notMem_empty, or_false]
    tauto

/-- ... and their refinements. -/
theorem C21_refinement_is_constraint {norb q : Nat} (hn : norb ≤ N) {c : WfnConstraint N}
    (hc : IsConstraint (fullMask N norb) c.C c.B c.Cmin) (hq : q < c.Cmin) :
    IsConstraint (fullMask N norb) (refineConstraint c q).C (refineConstraint c q).B (refineConstraint c q).Cmin ∧
      electrons (refineConstraint c q).C = electrons c.C + 1 := by
  have w := isConstraint_wf hc
  have hm : ∀ i, i ∈ bitSet (fullMask N norb) → i < norb := by
    intro i hi; rw [mem_bitSet, getLsbD_fullMask hn] at hi; simpa using hi
  have hs : SWF norb c := ⟨fun i hi => hm i (w.inO hi), w.min, w.below, (hm _ (w.inO w.low)).le⟩
  obtain ⟨h1, h2, h3⟩ := refine_swf hn hs hq
  refine ⟨wf_isConstraint (swf_wfcon hn h1 h2), ?_⟩
  rw [electrons_eq_count, electrons_eq_count]; exact h3

/-- A determinant with constraint and a non-empty list of constrained singles and doubles. -/
example : ∃ c, makeTriplet 16 5 3 2 = some c ∧ IsConstraint (fullMask 16 8) c.C c.B c.Cmin ∧
    (generateConstraintSingles (0b11011#16) c.C (fullMask 16 8) c.B []).length = 0 ∧
    (generateConstraintSingles (0b101011#16) c.C (fullMask 16 8) c.B []).length = 2 ∧
    (generateConstraintDoubles (0b101011#16) c.C (fullMask 16 8) c.B []).length = 0 ∧
    (generateConstraintDoubles (0b11001011#16) c.C (fullMask 16 8) c.B []).length = 1 := by
  obtain ⟨c, h1, -, h2, -⟩ := C21_triplet_is_constraint (N := 16) (norb := 8) (i := 5) (j := 3) (k := 2)
    (by omega) (by omega) (by omega) (by omega) (by omega)
  refine ⟨c, h1, h2, ?_⟩
  have : makeTriplet 16 5 3 2 = some ⟨0b101100#16, 0b11#16, 2⟩ := by decide +kernel
  rw [this] at h1
  cases h1
  decide +kernel

/-- C64 (double excitations): the result does not depend on what the container held. -/
theorem C64_doubles_ignore_old_partial (det C O B : BitVec N) (old old' : List (BitVec N)) :
    generateConstraintDoubles det C O B old = generateConstraintDoubles det C O B old' := rfl

/-- C64 (single excitations): the same whenever some single excitation exists. -/
theorem C64_singles_ignore_old_partial (det C O B : BitVec N) (old old' : List (BitVec N))
    (h : generateConstraintSingles det C O B [] ≠ []) :
    generateConstraintSingles det C O B old = generateConstraintSingles det C O B old' := by
  unfold generateConstraintSingles at h ⊢
  dsimp only at h ⊢
  generalize (constraintSingleEx det C O B).1 = o at h ⊢
  generalize (constraintSingleEx det C O B).2 = v at h ⊢
  by_cases hc : count o = 0 ∨ count v = 0
  · rw [if_pos hc] at h; exact absurd rfl h
  · rw [if_neg hc, if_neg hc]

/-- C64 is violated: with no admissible single excitation `generate_constraint_singles` returns
before clearing the container, so determinants of an earlier call survive. -/
theorem C64_singles_keep_stale_refuted :
    ∃ det C O B : BitVec 8, ∃ cmin, IsConstraint O C B cmin ∧
      (∀ i, det.getLsbD i = true → O.getLsbD i = true) ∧
      generateConstraintSingles det C O B [] = [] ∧
      generateConstraintSingles det C O B [0b111#8] = [0b111#8] := by
  refine ⟨0b0111#8, 0b11100#8, 0b11111#8, 0b11#8, 2, ⟨?_, ?_, ?_, ?_⟩, ?_, ?_, ?_⟩
  · intro i hi
    have := BitVec.lt_of_getLsbD hi
    revert hi; revert i; decide +kernel
  · decide +kernel
  · intro i hi
    have := BitVec.lt_of_getLsbD hi
    revert hi; revert i; decide +kernel
  · intro i
    by_cases h : i < 8
    · revert i; decide +kernel
    · constructor
      · intro hi; exact absurd (BitVec.lt_of_getLsbD hi) h
      · intro hi; omega
  · intro i hi
    have := BitVec.lt_of_getLsbD hi
    revert hi; revert i; decide +kernel
  · decide +kernel
  · decide +kernel

/-- C22: the counted singles and doubles are the numbers generated. -/
theorem C22_counts (det C O B : BitVec N) (old : List (BitVec N)) :
    countConstraintSingles det C O B = (generateConstraintSingles det C O B []).length ∧
    countConstraintDoubles det C O B = (generateConstraintDoubles det C O B old).length :=
  ⟨(singles_length det C O B).symm, (doubles_length det C O B old).symm⟩

/-- C22: the predicted work is non-zero exactly when the determinant itself, a single or a double
excitation of it satisfies the constraint: dropping constraints without work drops nothing. -/
theorem C22_work_zero_iff (hN : N < 2 ^ 64) {det O C B : BitVec N} {cmin : Nat}
    (hc : IsConstraint O C B cmin) (h3 : 3 ≤ electrons C)
    (hd : ∀ i, det.getLsbD i = true → O.getLsbD i = true) (nos nod : Nat) :
    constraintHistogram det nos nod C O B ≠ 0 ↔
      ∃ k ≤ 2, ∃ t, ExcitedWithin k (fun i => O.getLsbD i = true) det t ∧ Satisfies C cmin t := by
  rw [electrons_eq_count] at h3
  exact histogram_ne_zero hN (isConstraint_wf hc) h3 (fun i hi => mem_bitSet.2 (hd i (mem_bitSet.1 hi))) nos nod

example : constraintHistogram (0b101011#16) 4 5 (0b101100#16) (fullMask 16 8) (0b11#16) = 10 := by
  decide +kernel

/-- C23: every determinant with at least three electrons in the space satisfies exactly one of the
triplet constraints (for up to 66 orbitals none of them throws). -/
theorem C23_triplets_partition {norb : Nat} (hn : norb ≤ N) (h66 : norb ≤ 66) (t : BitVec N)
    (ht : SupportedOn norb t) (h3 : 3 ≤ electrons t) :
    ∃ cs, (tripletIndices norb).mapM (fun x => makeTriplet N x.1 x.2.1 x.2.2) = some cs ∧
      ExactlyOne (fun c => Satisfies c.C c.Cmin t) cs := by
  refine ⟨(tripletIndices norb).map (tripCon N norb), ?_, ?_⟩
  · have h := tripletConstraints_eq (N := N) hn h66 (fun _ => 1)
    have key : ∀ l : List (Nat × Nat × Nat), (∀ x ∈ l, x ∈ tripletIndices norb) →
        l.mapM (fun x => makeTriplet N x.1 x.2.1 x.2.2) = some (l.map (tripCon N norb)) := by
      intro l
      induction l with
      | nil => intro _; rfl
      | cons x l ih =>
        intro hl
        have hx := mem_tripletIndices.1 (hl x List.mem_cons_self)
        rw [List.mapM_cons, ih (fun y hy => hl y (List.mem_cons_of_mem _ hy)),
          makeTriplet_eq hx.1 hx.2.1 hx.2.2 hn (by omega)]
        rfl
    exact key _ (fun _ h => h)
  · refine exactlyOne_of_countP (q := satB t) ?_ (countP_triplets hn t (fun i hi => ht i (mem_bitSet.1 hi))
      (by rw [electrons_eq_count] at h3; exact h3))
    intro c hc
    rw [List.mem_map] at hc
    obtain ⟨x, hx, rfl⟩ := hc
    exact satisfiesConstraint_iff (tripCon_props hn hx).1.min

example : (∃ t : BitVec 16, SupportedOn 8 t ∧ 3 ≤ electrons t) := by
  refine ⟨0b10110#16, ?_, by decide +kernel⟩
  intro i hi
  have := BitVec.lt_of_getLsbD hi
  revert hi; revert i; decide +kernel

/-- C24: splitting a constraint: a determinant of the constraint that has an electron besides those
of the constraint satisfies exactly one refinement; other determinants satisfy none. -/
theorem C24_split_partitions {norb : Nat} (hn : norb ≤ N) {c : WfnConstraint N}
    (hc : IsConstraint (fullMask N norb) c.C c.B c.Cmin) (t : BitVec N) :
    ((Satisfies c.C c.Cmin t ∧ electrons c.C < electrons t) →
      ExactlyOne (fun d : WfnConstraint N => Satisfies d.C d.Cmin t) ((List.range c.Cmin).map (refineConstraint c))) ∧
    (¬ (Satisfies c.C c.Cmin t ∧ electrons c.C < electrons t) →
      ∀ d ∈ (List.range c.Cmin).map (refineConstraint c), ¬ Satisfies d.C d.Cmin t) := by
  have w := isConstraint_wf hc
  have hm : ∀ i, i ∈ bitSet (fullMask N norb) → i < norb := by
    intro i hi; rw [mem_bitSet, getLsbD_fullMask hn] at hi; simpa using hi
  have hlt := hm _ (w.inO w.low)
  have hcount := countP_refine (c := c) w.min (by omega) t
  have hsat : satB t c = true ↔ Satisfies c.C c.Cmin t := satisfiesConstraint_iff w.min
  have hq : ∀ d ∈ (List.range c.Cmin).map (refineConstraint c), satB t d = true ↔ Satisfies d.C d.Cmin t := by
    intro d hd
    rw [List.mem_map] at hd
    obtain ⟨q, hq, rfl⟩ := hd
    rw [List.mem_range] at hq
    exact satisfiesConstraint_iff (refine_semi w.min hq (by omega))
  rw [electrons_eq_count, electrons_eq_count, ← hsat]
  constructor
  · intro h
    rw [if_pos h] at hcount
    exact exactlyOne_of_countP hq hcount
  · intro h
    rw [if_neg h, List.countP_eq_zero] at hcount
    intro d hd hs
    exact hcount d hd ((hq d hd).2 hs)

/-- C24 (whole distribution): every string reached from one of the searched strings by at most a
double excitation, with at least `3 + nlevels` electrons, satisfies exactly one of the constraints
handed out to all ranks together, whatever the number of ranks, the splitting threshold and the
orders produced by partitioning and sorting. -/
theorem C24_distribution_covers {nlevels norb nos nod worldSize avg : Nat} (hn : norb ≤ N) (hN : N < 2 ^ 64)
    (h66 : norb ≤ 66) (hW : 0 < worldSize) (uniqAlpha : List (BitVec N))
    (part sort : List (WfnConstraint N × Nat) → List (WfnConstraint N × Nat))
    (hpart : ∀ l, (part l).Perm l) (hsort : ∀ l, (sort l).Perm l)
    (hua : ∀ a ∈ uniqAlpha, SupportedOn norb a) (t : BitVec N) (ht : SupportedOn norb t)
    (he : 3 + nlevels ≤ electrons t)
    (hr : ∃ a ∈ uniqAlpha, ∃ k ≤ 2, ExcitedWithin k (fun i => i < norb) a t) :
    ∃ handed : Nat → List (WfnConstraint N),
      (∀ rank, distConstraintGeneral nlevels norb nos nod uniqAlpha worldSize rank avg part sort
        = some (handed rank)) ∧
      ExactlyOne (fun c => Satisfies c.C c.Cmin t) ((List.range worldSize).flatMap handed) := by
  rw [electrons_eq_count] at he
  obtain ⟨a, ha, k, hk, hex⟩ := hr
  have hwk : ∀ c : WfnConstraint N, SWF norb c → c.Cmin ∈ bitSet c.C → 3 ≤ count c.C → satB t c = true →
      constraintWork norb nos nod uniqAlpha c ≠ 0 := fun c h1 h2 h3 h4 =>
    work_ne_zero hn hN ha (fun i hi => hua a ha i (mem_bitSet.1 hi)) hk hex c h1 h2 h3 h4
  let work := constraintWork norb nos nod uniqAlpha
  let init := (((tripletIndices norb).map (tripCon N norb)).map fun c => (c, work c)).filter fun c => c.2 ≠ 0
  let cs := refineLevels work avg part nlevels init
  let owners := (assignRanks (List.replicate worldSize 0) (sort cs)).1
  have hinit : LevelInv norb 3 init := by
    intro x hx
    obtain ⟨x1, h, rfl⟩ := List.mem_map.1 (List.mem_of_mem_filter hx)
    obtain ⟨y, hy, rfl⟩ := List.mem_map.1 h
    obtain ⟨b1, b2, b3⟩ := tripCon_props hn hy
    exact ⟨b1, b2, b3.ge, b3.le⟩
  refine ⟨fun rank => (owners.filter fun x => x.2 = rank).map (·.1), ?_, ?_⟩
  · intro rank
    unfold distConstraintGeneral
    dsimp only
    rw [tripletConstraints_eq hn h66]
    rfl
  · have hown : ∀ x ∈ owners, x.2 < worldSize := by
      intro x hx
      have := assign_owner_lt (sort cs) (List.replicate worldSize 0) (by simpa using hW) x hx
      simpa using this
    have hperm := perm_owners owners worldSize hown
    have hitems : owners.map (·.1) = (sort cs).map (·.1) := assign_items _ _
    rw [hitems] at hperm
    have hall : ∀ (n m : Nat) (l : List (WfnConstraint N × Nat)), LevelInv norb m l →
        ∀ x ∈ refineLevels work avg part n l, SemiWF x.1 := by
      intro n
      induction n with
      | zero => intro m l hl x hx; exact (hl x hx).1.min
      | succ n ih =>
        intro m l hl x hx
        unfold refineLevels at hx
        split at hx
        · exact (hl x ((hpart l).mem_iff.1 hx)).1.min
        · exact ih _ _ (refineLevel_inv hn work avg part hpart hl) x hx
    refine exactlyOne_of_countP (q := satB t) ?_ ?_
    · intro c hc
      have hc' := hperm.mem_iff.1 hc
      rw [List.mem_map] at hc'
      obtain ⟨x, hx, rfl⟩ := hc'
      exact satisfiesConstraint_iff (hall _ _ _ hinit x ((hsort cs).mem_iff.1 hx))
    · rw [hperm.countP_eq, List.countP_map]
      change (sort cs).countP (fun x => satB t x.1) = 1
      rw [(hsort cs).countP_eq]
      change (refineLevels work avg part nlevels init).countP (fun x => satB t x.1) = 1
      rw [countP_refineLevels hn work avg part hpart t hwk nlevels 3 init hinit he]
      change ((((tripletIndices norb).map (tripCon N norb)).map fun c => (c, work c)).filter fun c => c.2 ≠ 0).countP
        (fun x => satB t x.1) = 1
      rw [countP_filter_work _ work (satB t), countP_triplets hn t (fun i hi => ht i (mem_bitSet.1 hi)) (by omega)]
      intro c hc hs
      rw [List.mem_map] at hc
      obtain ⟨y, hy, rfl⟩ := hc
      obtain ⟨b1, b2, b3⟩ := tripCon_props hn hy
      exact hwk _ b1 b2 b3.ge hs

/-- The hypotheses of the coverage theorem hold for a real case (5 electrons in 8 orbitals, two
levels of splitting, 3 ranks). -/
example : ∃ (ua : List (BitVec 16)) (t : BitVec 16), (∀ a ∈ ua, SupportedOn 8 a) ∧ SupportedOn 8 t ∧
    3 + 2 ≤ electrons t ∧ ∃ a ∈ ua, ∃ k ≤ 2, ExcitedWithin k (fun i => i < 8) a t := by
  have hs : ∀ a ∈ ([0b11111#16, 0b101111#16] : List (BitVec 16)), SupportedOn 8 a := by
    intro a ha i hi
    have := BitVec.lt_of_getLsbD hi
    simp only [List.mem_cons, List.not_mem_nil, or_false] at ha
    rcases ha with rfl | rfl <;> (revert hi; revert i; decide +kernel)
  refine ⟨[0b11111#16, 0b101111#16], 0b101111#16, hs, hs _ (by simp), by decide +kernel, 0b101111#16,
    by simp, 0, by omega, excited_zero.2 rfl⟩

/-- C65: the determinants with at least `3 + nlevels` electrons of the first spin are covered (what
is missing: fewer electrons, more than 66 orbitals). -/
theorem C65_coverage_partial {nlevels norb nos nod worldSize avg : Nat} (hn : norb ≤ N) (hN : N < 2 ^ 64)
    (h66 : norb ≤ 66) (hW : 0 < worldSize) (uniqAlpha : List (BitVec N))
    (part sort : List (WfnConstraint N × Nat) → List (WfnConstraint N × Nat))
    (hpart : ∀ l, (part l).Perm l) (hsort : ∀ l, (sort l).Perm l)
    (hua : ∀ a ∈ uniqAlpha, SupportedOn norb a) (t : BitVec N) (ht : SupportedOn norb t)
    (he : 3 + nlevels ≤ electrons t)
    (hr : ∃ a ∈ uniqAlpha, ∃ k ≤ 2, ExcitedWithin k (fun i => i < norb) a t) :
    ∃ rank < worldSize, ∃ cs, distConstraintGeneral nlevels norb nos nod uniqAlpha worldSize rank avg part sort
        = some cs ∧ ∃ c ∈ cs, Satisfies c.C c.Cmin t := by
  obtain ⟨handed, h1, pre, c, post, h2, h3, -⟩ := C24_distribution_covers (nlevels := nlevels) (nos := nos)
    (nod := nod) (avg := avg) hn hN h66 hW uniqAlpha part sort hpart hsort hua t ht he hr
  have hc : c ∈ (List.range worldSize).flatMap handed := by rw [h2]; simp
  rw [List.mem_flatMap] at hc
  obtain ⟨r, hr, hc⟩ := hc
  exact ⟨r, List.mem_range.1 hr, handed r, h1 r, c, hc, h3⟩

/-- C65 is violated for two electrons: no triplet constraint admits any determinant, so the
distributed search generates nothing at all. -/
theorem C65_two_electrons_refuted :
    distConstraintGeneral (N := 8) 0 4 0 0 [0b0011#8] 1 0 0 id id = some [] ∧
    (∀ i j k c, makeTriplet 8 i j k = some c → k < j → j < i → i < 4 →
      ¬ Satisfies c.C c.Cmin (0b0011#8)) := by
  refine ⟨by decide +kernel, ?_⟩
  intro i j k c0 hm hk hj hi
  have key : ∀ i < 4, ∀ j < 4, ∀ k < 4, k < j → j < i → ∀ c, makeTriplet 8 i j k = some c →
      satisfiesConstraint (0b0011#8) c.C c.Cmin = false := by
    intro i hi j hj k hk h1 h2 c hc
    interval_cases i <;> interval_cases j <;> (try omega) <;> interval_cases k <;> (try omega) <;>
      (cases hc; decide +kernel)
  obtain ⟨c, h1, h2, h3, -⟩ := C21_triplet_is_constraint (N := 8) (norb := 4) (by omega) hi hj hk (by omega)
  have := key i hi j (by omega) k (by omega) hk hj c h1
  rw [h1] at hm
  cases hm
  intro hs
  rw [← C21_satisfies_test h3] at hs
  rw [this] at hs; cases hs

/-- C65 is violated for three electrons as soon as the only triplet is split: the determinant
satisfies the triplet but none of its refinements (default `constraint_level` is 2). -/
theorem C65_three_electrons_split_refuted :
    distConstraintGeneral (N := 8) 0 4 0 0 [0b0111#8] 1 0 0 id id ≠ some [] ∧
    (∃ cs, distConstraintGeneral (N := 8) 1 4 0 0 [0b0111#8] 1 0 0 id id = some cs ∧
      ∀ c ∈ cs, satisfiesConstraint (0b0111#8) c.C c.Cmin = false) := by
  refine ⟨by decide +kernel, _, rfl, ?_⟩
  decide +kernel

/-- C65 is violated beyond 66 orbitals: building the triplet constraint throws. -/
theorem C65_many_orbitals_refuted : makeTriplet 128 66 65 64 = none := by decide +kernel

/-- C25: the constraints handed out to all ranks together are the constraints of the list, each to
exactly one existing rank. -/
theorem C25_one_owner {α : Type} (W : Nat) (hW : 0 < W) (items : List (α × Nat)) :
    let owners := (assignRanks (List.replicate W 0) items).1
    owners.map (·.1) = items.map (·.1) ∧ (∀ x ∈ owners, x.2 < W) ∧
    ((List.range W).flatMap fun r => (owners.filter fun x => x.2 = r).map (·.1)).Perm (items.map (·.1)) := by
  intro owners
  have h1 : owners.map (·.1) = items.map (·.1) := assign_items _ _
  have h2 : ∀ x ∈ owners, x.2 < W := by
    intro x hx
    have := assign_owner_lt items (List.replicate W 0) (by simpa using hW) x hx
    simpa using this
  refine ⟨h1, h2, ?_⟩
  rw [← h1]; exact perm_owners owners W h2

/-- C25: each constraint goes to a rank whose load, counted from the previous assignments, is minimal. -/
theorem C25_greedy {α : Type} (W : Nat) (hW : 0 < W) (items : List (α × Nat)) (i r : Nat)
    (h : ((assignRanks (List.replicate W 0) items).1.map (·.2))[i]? = some r) (s : Nat) (hs : s < W) :
    loadOf (((assignRanks (List.replicate W 0) items).1.map (·.2)).take i) ((items.map (·.2)).take i) r
    ≤ loadOf (((assignRanks (List.replicate W 0) items).1.map (·.2)).take i) ((items.map (·.2)).take i) s := by
  have := assign_greedy items (List.replicate W 0) (by simpa using hW) i r h s (by simpa using hs)
  have e : ∀ x, (List.replicate W 0).getD x 0 = 0 := by
    intro x; rw [List.getD_eq_getElem?_getD, List.getElem?_replicate]; split <;> rfl
  simpa only [e, Nat.zero_add] using this

/-- C25: the final loads of any two ranks differ by at most the largest single work item. -/
theorem C25_balanced {α : Type} (W : Nat) (hW : 0 < W) (items : List (α × Nat)) (w : Nat)
    (hw : ∀ x ∈ items, x.2 ≤ w) (r s : Nat) (hr : r < W) (hs : s < W) :
    loadOf ((assignRanks (List.replicate W 0) items).1.map (·.2)) (items.map (·.2)) r
    ≤ loadOf ((assignRanks (List.replicate W 0) items).1.map (·.2)) (items.map (·.2)) s + w := by
  have e : ∀ x, (List.replicate W 0).getD x 0 = 0 := by
    intro x; rw [List.getD_eq_getElem?_getD, List.getElem?_replicate]; split <;> rfl
  have h0 : 0 < (List.replicate W 0).length := by simpa using hW
  have hf := (assign_final items (List.replicate W 0) h0).2
  have hb := assign_balance w items hw (List.replicate W 0) h0 (by intro _ _ _ _; rw [e, e]; omega) r
    (by simpa using hr) s (by simpa using hs)
  rw [hf r (by simpa using hr), hf s (by simpa using hs), e, e, Nat.zero_add, Nat.zero_add] at hb
  exact hb

example : (assignRanks (List.replicate 2 0) [("a", 5), ("b", 4), ("c", 3), ("d", 1)]) =
    ([("a", 0), ("b", 1), ("c", 1), ("d", 0)], [6, 7]) := by decide +kernel

end Macis
