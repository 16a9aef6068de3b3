import Verif.Lemmas.Constraint
import Verif.Lemmas.Combs
import Mathlib.Data.Finset.Max
/-
Coverage of the search space by constraints, and their distribution.
-/
namespace Macis
open Spec
variable {N : Nat}

/-- no orbital of `C` lies below `cmin` -/
def SemiWF (c : WfnConstraint N) : Prop := ∀ i ∈ bitSet c.C, c.Cmin ≤ i

theorem satisfiesConstraint_iff {t C : BitVec N} {cmin : Nat} (h : ∀ i ∈ bitSet C, cmin ≤ i) :
    satisfiesConstraint t C cmin = true ↔ Satisfies C cmin t := by
  rw [satisfies_iff_sets]
  unfold satisfiesConstraint
  rw [Bool.and_eq_true, beq_iff_eq, beq_iff_eq]
  have h1 : count (t &&& C) = count C ↔ bitSet C ⊆ bitSet t := by
    have := count_and_add t C
    constructor
    · intro e
      have : conM t C = ∅ := by rw [← Finset.card_eq_zero]; omega
      exact Finset.sdiff_eq_empty_iff_subset.1 this
    · intro e
      have h0 : conM t C = ∅ := Finset.sdiff_eq_empty_iff_subset.2 e
      rw [h0, Finset.card_empty] at this
      omega
  have h2 : count ((t ^^^ C) >>> cmin) = 0 ↔ ∀ i, cmin ≤ i → (i ∈ bitSet t ↔ i ∈ bitSet C) := by
    rw [count_eq_zero_iff]
    constructor
    · intro e i hi
      have := congrArg (fun x => BitVec.getLsbD x (i - cmin)) e
      simp only [BitVec.getLsbD_ushiftRight, BitVec.getLsbD_xor, BitVec.getLsbD_zero] at this
      rw [show cmin + (i - cmin) = i by omega] at this
      rw [mem_bitSet, mem_bitSet]
      cases hh : t.getLsbD i <;> cases hc : C.getLsbD i <;> simp_all
    · intro e
      apply BitVec.eq_of_getLsbD_eq
      intro i _
      have := e (cmin + i) (by omega)
      rw [mem_bitSet, mem_bitSet] at this
      rw [BitVec.getLsbD_ushiftRight, BitVec.getLsbD_xor, BitVec.getLsbD_zero]
      cases hh : t.getLsbD (cmin + i) <;> cases hc : C.getLsbD (cmin + i) <;> simp_all
  rw [h1, h2]
  constructor
  · rintro ⟨a, b⟩; exact ⟨a, fun i hi hc => (b i hc).1 hi⟩
  · rintro ⟨a, b⟩; exact ⟨a, fun i hc => ⟨fun hi => b i hi hc, fun hi => a hi⟩⟩

/-- the code's test as a predicate on constraints -/
def satB (t : BitVec N) (c : WfnConstraint N) : Bool := satisfiesConstraint t c.C c.Cmin

theorem satB_iff {t : BitVec N} {c : WfnConstraint N} (h : SemiWF c) :
    satB t c = true ↔ bitSet c.C ⊆ bitSet t ∧ ∀ i ∈ bitSet t, c.Cmin ≤ i → i ∈ bitSet c.C := by
  rw [satB, satisfiesConstraint_iff h, satisfies_iff_sets]

theorem refine_C {c : WfnConstraint N} (h : SemiWF c) {q : Nat} (hq : q < c.Cmin) (hqN : q < N) :
    bitSet (refineConstraint c q).C = insert q (bitSet c.C) :=
  bitSet_flip_not_mem hqN (fun hm => by have := h q hm; omega)

theorem refine_semi {c : WfnConstraint N} (h : SemiWF c) {q : Nat} (hq : q < c.Cmin) (hqN : q < N) :
    SemiWF (refineConstraint c q) := by
  intro i hi
  rw [refine_C h hq hqN, Finset.mem_insert] at hi
  change q ≤ i
  rcases hi with rfl | hi
  · exact le_refl _
  · have := h i hi; omega

theorem countP_eq_one_of_unique {l : List Nat} (hn : l.Nodup) {p : Nat → Bool} {x : Nat} (hx : x ∈ l)
    (h : ∀ y ∈ l, p y = true ↔ y = x) : l.countP p = 1 := by
  rw [List.countP_congr (p := p) (q := fun y => y == x) (fun y hy => by rw [h y hy, beq_iff_eq])]
  exact List.count_eq_one_of_mem hn hx

/-- splitting a constraint covers each of its determinants with a further electron exactly once -/
theorem countP_refine {c : WfnConstraint N} (h : SemiWF c) (hN : c.Cmin ≤ N) (t : BitVec N) :
    ((List.range c.Cmin).map fun q => refineConstraint c q).countP (satB t)
      = if satB t c = true ∧ count c.C < count t then 1 else 0 := by
  rw [List.countP_map]
  have hq : ∀ q ∈ List.range c.Cmin, ((satB t ∘ fun q => refineConstraint c q) q = true ↔
      (satB t c = true ∧ q ∈ bitSet t ∧ ∀ i ∈ bitSet t, i < c.Cmin → i ≤ q)) := by
    intro q hq
    rw [List.mem_range] at hq
    rw [Function.comp, satB_iff (refine_semi h hq (by omega)), satB_iff h, refine_C h hq (by omega)]
    change (_ ∧ ∀ i ∈ bitSet t, q ≤ i → _) ↔ _
    constructor
    · rintro ⟨h1, h2⟩
      refine ⟨⟨fun i hi => h1 (Finset.mem_insert_of_mem hi), ?_⟩, h1 (Finset.mem_insert_self _ _), ?_⟩
      · intro i hi hc
        have := h2 i hi (by omega)
        rw [Finset.mem_insert] at this
        rcases this with rfl | hh
        · omega
        · exact hh
      · intro i hi hlt
        by_contra hgt
        have := h2 i hi (by omega)
        rw [Finset.mem_insert] at this
        rcases this with rfl | hh
        · omega
        · have := h i hh; omega
    · rintro ⟨⟨h1, h2⟩, h3, h4⟩
      refine ⟨?_, ?_⟩
      · intro i hi
        rw [Finset.mem_insert] at hi
        rcases hi with rfl | hi
        · exact h3
        · exact h1 hi
      · intro i hi hqi
        rw [Finset.mem_insert]
        by_cases hc : c.Cmin ≤ i
        · exact Or.inr (h2 i hi hc)
        · have := h4 i hi (by omega)
          left; omega
  by_cases hs : satB t c = true ∧ count c.C < count t
  · rw [if_pos hs]
    obtain ⟨hs1, hs2⟩ := hs
    obtain ⟨h1, h2⟩ := (satB_iff h).1 hs1
    -- an electron below cmin
    have hex : ((bitSet t).filter (· < c.Cmin)).Nonempty := by
      rw [← card_bitSet, ← card_bitSet] at hs2
      obtain ⟨x, hx, hx'⟩ := Finset.exists_mem_notMem_of_card_lt_card hs2
      refine ⟨x, Finset.mem_filter.2 ⟨hx, ?_⟩⟩
      by_contra hc
      exact hx' (h2 x hx (by omega))
    obtain ⟨q, hqm, hqmax⟩ := Finset.exists_max_image _ id hex
    rw [Finset.mem_filter] at hqm
    apply countP_eq_one_of_unique List.nodup_range (x := q) (List.mem_range.2 hqm.2)
    intro y hy
    rw [hq y hy]
    rw [List.mem_range] at hy
    constructor
    · rintro ⟨-, hy1, hy2⟩
      have a1 := hy2 q hqm.1 hqm.2
      have a2 := hqmax y (Finset.mem_filter.2 ⟨hy1, hy⟩)
      simp only [id] at a2
      omega
    · rintro rfl
      exact ⟨hs1, hqm.1, fun i hi hlt => hqmax i (Finset.mem_filter.2 ⟨hi, hlt⟩)⟩
  · rw [if_neg hs, List.countP_eq_zero]
    intro q hqr hc
    apply hs
    obtain ⟨h1, h2, -⟩ := (hq q hqr).1 hc
    refine ⟨h1, ?_⟩
    have hsub := ((satB_iff h).1 h1).1
    rw [← card_bitSet, ← card_bitSet]
    apply Finset.card_lt_card
    refine ⟨hsub, fun hh => ?_⟩
    have := h q (hh h2)
    rw [List.mem_range] at hqr
    omega

/-! ### triplets -/

/-- the unconstrained constraint -/
def topCon (N norb : Nat) : WfnConstraint N := ⟨0#N, fullMask N norb, norb⟩

theorem ofNat_mask_bits {N k i : Nat} (hk : k ≤ N) : (BitVec.ofNat N (2 ^ k - 1)).getLsbD i = decide (i < k) := by
  rw [BitVec.getLsbD_ofNat, Nat.testBit_two_pow_sub_one]
  by_cases h : i < k
  · simp [h]; omega
  · simp [h]

theorem makeTriplet_eq {N norb i j k : Nat} (hi : i < norb) (hj : j < i) (hk : k < j) (hn : norb ≤ N)
    (h64 : k < 64) : makeTriplet N i j k
      = some (refineConstraint (refineConstraint (refineConstraint (topCon N norb) i) j) k) := by
  have hb : ((BitVec.ofNat N 1) <<< k).toNat = 2 ^ k := by
    rw [one_shl_eq_twoPow, BitVec.toNat_twoPow, Nat.mod_eq_of_lt (Nat.pow_lt_pow_right (by norm_num) (by omega))]
  unfold makeTriplet
  dsimp only
  rw [hb, if_pos (Nat.pow_lt_pow_right (by norm_num) h64)]
  have hm : (2 ^ k + 2 ^ 64 - 1) % 2 ^ 64 = 2 ^ k - 1 := by
    have h1 : 1 ≤ 2 ^ k := Nat.one_le_two_pow
    have h2 : (2 : Nat) ^ k < 2 ^ 64 := Nat.pow_lt_pow_right (by norm_num) h64
    rw [show 2 ^ k + 2 ^ 64 - 1 = (2 ^ k - 1) + 2 ^ 64 by omega, Nat.add_mod_right, Nat.mod_eq_of_lt (by omega)]
  rw [hm]
  have hB : BitVec.ofNat N (2 ^ k - 1) = fullMask N norb >>> (norb - i) >>> (i - j) >>> (j - k) := by
    apply BitVec.eq_of_getLsbD_eq
    intro x hx
    rw [ofNat_mask_bits (by omega), BitVec.getLsbD_ushiftRight, BitVec.getLsbD_ushiftRight,
      BitVec.getLsbD_ushiftRight, getLsbD_fullMask hn]
    apply decide_eq_decide.2
    omega
  rw [hB]
  rfl

/-- constraints as the code builds them -/
structure SWF (norb : Nat) (c : WfnConstraint N) : Prop where
  inO : ∀ i ∈ bitSet c.C, i < norb
  min : SemiWF c
  below : ∀ i, i ∈ bitSet c.B ↔ i < c.Cmin
  le : c.Cmin ≤ norb

theorem topCon_swf {norb : Nat} (hn : norb ≤ N) : SWF norb (topCon N norb) := by
  refine ⟨?_, ?_, ?_, le_refl _⟩
  · intro i hi; simp [topCon, bitSet_zero] at hi
  · intro i hi; simp [topCon, bitSet_zero] at hi
  · intro i
    rw [mem_bitSet]
    simp only [topCon]
    rw [getLsbD_fullMask hn, decide_eq_true_eq]

theorem refine_swf {norb : Nat} (hn : norb ≤ N) {c : WfnConstraint N} (h : SWF norb c) {q : Nat} (hq : q < c.Cmin) :
    SWF norb (refineConstraint c q) ∧ q ∈ bitSet (refineConstraint c q).C ∧
      count (refineConstraint c q).C = count c.C + 1 := by
  have hle := h.le
  have hC := refine_C h.min hq (by omega)
  refine ⟨⟨?_, refine_semi h.min hq (by omega), ?_, ?_⟩, ?_, ?_⟩
  · intro i hi
    rw [hC, Finset.mem_insert] at hi
    rcases hi with rfl | hi
    · omega
    · exact h.inO i hi
  · intro i
    have := h.below (c.Cmin - q + i)
    rw [mem_bitSet] at this ⊢
    change (c.B >>> (c.Cmin - q)).getLsbD i = true ↔ i < q
    rw [BitVec.getLsbD_ushiftRight, this]
    omega
  · change q ≤ norb; omega
  · rw [hC]; exact Finset.mem_insert_self _ _
  · rw [← card_bitSet, hC, Finset.card_insert_of_notMem, card_bitSet]
    intro hm
    have := h.min q hm; omega

theorem swf_wfcon {norb : Nat} (hn : norb ≤ N) {c : WfnConstraint N} (h : SWF norb c) (hlow : c.Cmin ∈ bitSet c.C) :
    WFCon (fullMask N norb) c.C c.B c.Cmin :=
  ⟨fun i hi => by rw [mem_bitSet, getLsbD_fullMask hn]; simpa using h.inO i hi, hlow, h.min, h.below⟩

theorem countP_flatMap_ind {α : Type} (l : List α) (g : α → WfnConstraint N) (f : α → List (WfnConstraint N))
    (p : WfnConstraint N → Bool) (h : ∀ x ∈ l, (f x).countP p = if p (g x) = true then 1 else 0) :
    (l.flatMap f).countP p = (l.map g).countP p := by
  induction l with
  | nil => rfl
  | cons a l ih =>
    rw [List.flatMap_cons, List.countP_append, List.map_cons, List.countP_cons,
      ih (fun x hx => h x (List.mem_cons_of_mem _ hx)), h a List.mem_cons_self]
    omega

/-- the constraint of an index triple -/
def tripCon (N norb : Nat) (x : Nat × Nat × Nat) : WfnConstraint N :=
  refineConstraint (refineConstraint (refineConstraint (topCon N norb) x.1) x.2.1) x.2.2

theorem mem_tripletIndices {norb : Nat} {x : Nat × Nat × Nat} :
    x ∈ tripletIndices norb ↔ x.1 < norb ∧ x.2.1 < x.1 ∧ x.2.2 < x.2.1 := by
  obtain ⟨i, j, k⟩ := x
  simp only [tripletIndices, List.mem_flatMap, List.mem_range, List.mem_map, Prod.mk.injEq]
  constructor
  · rintro ⟨a, ha, b, hb, c, hc, rfl, rfl, rfl⟩; exact ⟨ha, hb, hc⟩
  · rintro ⟨h1, h2, h3⟩; exact ⟨i, h1, j, h2, k, h3, rfl, rfl, rfl⟩

theorem tripCon_props {norb : Nat} (hn : norb ≤ N) {x : Nat × Nat × Nat} (hx : x ∈ tripletIndices norb) :
    SWF norb (tripCon N norb x) ∧ (tripCon N norb x).Cmin ∈ bitSet (tripCon N norb x).C ∧
      count (tripCon N norb x).C = 3 := by
  rw [mem_tripletIndices] at hx
  obtain ⟨a1, a2, a3⟩ := refine_swf hn (topCon_swf hn) (q := x.1) hx.1
  obtain ⟨b1, b2, b3⟩ := refine_swf hn a1 (q := x.2.1) hx.2.1
  obtain ⟨c1, c2, c3⟩ := refine_swf hn b1 (q := x.2.2) hx.2.2
  have h0 : count (topCon N norb).C = 0 := count_eq_zero_iff.2 rfl
  exact ⟨c1, c2, by unfold tripCon; rw [c3, b3, a3, h0]⟩

theorem tripletConstraints_eq {norb : Nat} (hn : norb ≤ N) (h66 : norb ≤ 66) (work : WfnConstraint N → Nat) :
    tripletConstraints norb work = some ((((tripletIndices norb).map (tripCon N norb)).map
      fun c => (c, work c)).filter fun c => c.2 ≠ 0) := by
  have : (tripletIndices norb).mapM (fun x => makeTriplet N x.1 x.2.1 x.2.2)
      = some ((tripletIndices norb).map (tripCon N norb)) := by
    have key : ∀ l : List (Nat × Nat × Nat), (∀ x ∈ l, x ∈ tripletIndices norb) →
        l.mapM (fun x => makeTriplet N x.1 x.2.1 x.2.2) = some (l.map (tripCon N norb)) := by
      intro l
      induction l with
      | nil => intro _; rfl
      | cons a l ih =>
        intro h
        have ha := mem_tripletIndices.1 (h a List.mem_cons_self)
        rw [List.mapM_cons, ih (fun x hx => h x (List.mem_cons_of_mem _ hx)),
          makeTriplet_eq ha.1 ha.2.1 ha.2.2 hn (by omega)]
        rfl
    exact key _ (fun _ h => h)
  unfold tripletConstraints
  rw [this]
  rfl

theorem countP_triplets {norb : Nat} (hn : norb ≤ N) (t : BitVec N) (ht : ∀ i ∈ bitSet t, i < norb)
    (h3 : 3 ≤ count t) : ((tripletIndices norb).map (tripCon N norb)).countP (satB t) = 1 := by
  have h0 : count (topCon N norb).C = 0 := count_eq_zero_iff.2 rfl
  have e : (tripletIndices norb).map (tripCon N norb) = (List.range norb).flatMap fun i =>
      (List.range i).flatMap fun j => (List.range j).map fun k =>
        refineConstraint (refineConstraint (refineConstraint (topCon N norb) i) j) k := by
    unfold tripletIndices
    rw [List.map_flatMap]
    congr 1
    funext i
    rw [List.map_flatMap]
    congr 1
    funext j
    rw [List.map_map]
    rfl
  rw [e, countP_flatMap_ind _ (fun i => refineConstraint (topCon N norb) i)]
  · rw [show List.range norb = List.range (topCon N norb).Cmin from rfl,
      countP_refine (topCon_swf hn).min hn, if_pos]
    refine ⟨(satB_iff (topCon_swf hn).min).2 ⟨?_, ?_⟩, by omega⟩
    · simp [topCon, bitSet_zero]
    · intro i hi hc
      have := ht i hi
      change norb ≤ i at hc
      omega
  · intro i hi
    rw [List.mem_range] at hi
    obtain ⟨a1, a2, a3⟩ := refine_swf hn (topCon_swf hn) (q := i) hi
    rw [countP_flatMap_ind _ (fun j => refineConstraint (refineConstraint (topCon N norb) i) j)]
    · have := countP_refine a1.min (a1.le.trans hn) t
      have e1 : (refineConstraint (topCon N norb) i).Cmin = i := rfl
      rw [e1] at this
      rw [this, a3, h0]
      congr 1
      simp only [eq_iff_iff, and_iff_left_iff_imp]
      intro _; omega
    · intro j hj
      rw [List.mem_range] at hj
      obtain ⟨b1, b2, b3⟩ := refine_swf hn a1 (q := j) hj
      have := countP_refine b1.min (b1.le.trans hn) t
      have e1 : (refineConstraint (refineConstraint (topCon N norb) i) j).Cmin = j := rfl
      rw [e1] at this
      rw [this, b3, a3, h0]
      congr 1
      simp only [eq_iff_iff, and_iff_left_iff_imp]
      intro _; omega

/-! ### levels -/

theorem countP_filter_work (l : List (WfnConstraint N)) (work : WfnConstraint N → Nat) (p : WfnConstraint N → Bool)
    (hw : ∀ c ∈ l, p c = true → work c ≠ 0) :
    ((l.map fun c => (c, work c)).filter fun c => c.2 ≠ 0).countP (fun x => p x.1) = l.countP p := by
  induction l with
  | nil => rfl
  | cons a l ih =>
    have ih' := ih (fun c hc => hw c (List.mem_cons_of_mem _ hc))
    rw [List.map_cons, List.filter_cons, List.countP_cons]
    by_cases h : work a = 0
    · have hp : p a = false := by
        by_contra hc
        exact hw a List.mem_cons_self (by simpa using hc) h
      simp only [h, ne_eq, not_true, decide_false, Bool.false_eq_true, if_false, hp, add_zero]
      exact ih'
    · simp only [h, ne_eq, not_false_iff, decide_true, if_true, List.countP_cons]
      rw [← ih']

/-- what the level loop maintains -/
def LevelInv (norb m : Nat) (cs : List (WfnConstraint N × Nat)) : Prop :=
  ∀ x ∈ cs, SWF norb x.1 ∧ x.1.Cmin ∈ bitSet x.1.C ∧ 3 ≤ count x.1.C ∧ count x.1.C ≤ m

theorem refineLevel_inv {norb m : Nat} (hn : norb ≤ N) (work : WfnConstraint N → Nat) (avg : Nat)
    (part : List (WfnConstraint N × Nat) → List (WfnConstraint N × Nat)) (hpart : ∀ l, (part l).Perm l)
    {cs : List (WfnConstraint N × Nat)} (h : LevelInv norb m cs) :
    LevelInv norb (m + 1) (refineLevel work avg part cs) := by
  intro x hx
  unfold refineLevel at hx
  dsimp only at hx
  rw [List.mem_append] at hx
  rcases hx with hx | hx
  · obtain ⟨h1, h2, h3, h4⟩ := h x ((hpart cs).mem_iff.1 (List.mem_of_mem_filter hx))
    exact ⟨h1, h2, h3, by omega⟩
  · rw [List.mem_flatMap] at hx
    obtain ⟨c, hc, hx⟩ := hx
    have hx := List.mem_of_mem_filter hx
    rw [List.map_map, List.mem_map] at hx
    obtain ⟨q, hq, rfl⟩ := hx
    obtain ⟨h1, h2, h3, h4⟩ := h c ((hpart cs).mem_iff.1 (List.mem_of_mem_filter hc))
    obtain ⟨a1, a2, a3⟩ := refine_swf hn h1 (List.mem_range.1 hq)
    exact ⟨a1, a2, by change 3 ≤ count (refineConstraint c.1 q).C; omega,
      by change count (refineConstraint c.1 q).C ≤ _; omega⟩

theorem countP_flatMap_ind' {α : Type} (l : List α) (f : α → List α)
    (p : α → Bool) (h : ∀ x ∈ l, (f x).countP p = if p x = true then 1 else 0) :
    (l.flatMap f).countP p = l.countP p := by
  induction l with
  | nil => rfl
  | cons a l ih =>
    rw [List.flatMap_cons, List.countP_append, List.countP_cons,
      ih (fun x hx => h x (List.mem_cons_of_mem _ hx)), h a List.mem_cons_self]
    omega

theorem countP_split {α : Type} (l : List α) (p q : α → Bool) :
    (l.filter q).countP p + (l.filter fun x => !q x).countP p = l.countP p := by
  induction l with
  | nil => rfl
  | cons a l ih =>
    rw [List.filter_cons, List.filter_cons, List.countP_cons]
    cases hq : q a
    · simp only [Bool.false_eq_true, if_false, Bool.not_false, if_true, List.countP_cons]; omega
    · simp only [if_true, Bool.not_true, Bool.false_eq_true, if_false, List.countP_cons]; omega

theorem countP_refineLevel {norb m : Nat} (hn : norb ≤ N) (work : WfnConstraint N → Nat) (avg : Nat)
    (part : List (WfnConstraint N × Nat) → List (WfnConstraint N × Nat)) (hpart : ∀ l, (part l).Perm l)
    {cs : List (WfnConstraint N × Nat)} (h : LevelInv norb m cs) (t : BitVec N) (ht : m < count t)
    (hw : ∀ c : WfnConstraint N, SWF norb c → c.Cmin ∈ bitSet c.C → 3 ≤ count c.C → satB t c = true → work c ≠ 0) :
    (refineLevel work avg part cs).countP (fun x => satB t x.1) = cs.countP (fun x => satB t x.1) := by
  unfold refineLevel
  dsimp only
  rw [List.countP_append, countP_flatMap_ind']
  · have := countP_split (part cs) (fun x => satB t x.1) (fun c => decide (c.2 ≤ avg))
    have e : ∀ c : WfnConstraint N × Nat, (!decide (c.2 ≤ avg)) = decide (¬ c.2 ≤ avg) := by
      intro c; by_cases h : c.2 ≤ avg <;> simp only [h, decide_true, decide_false, not_true_eq_false, not_false_eq_true, Bool.not_true, Bool.not_false]
    simp only [e] at this
    rw [this, (hpart cs).countP_eq]
  · intro x hx
    obtain ⟨h1, h2, h3, h4⟩ := h x ((hpart cs).mem_iff.1 (List.mem_of_mem_filter hx))
    rw [countP_filter_work _ work (satB t), countP_refine h1.min (h1.le.trans hn)]
    · congr 1
      simp only [eq_iff_iff, and_iff_left_iff_imp]
      intro _; omega
    · intro c hc hs
      rw [List.mem_map] at hc
      obtain ⟨q, hq, rfl⟩ := hc
      obtain ⟨a1, a2, a3⟩ := refine_swf hn h1 (List.mem_range.1 hq)
      exact hw _ a1 a2 (by omega) hs

theorem countP_refineLevels {norb : Nat} (hn : norb ≤ N) (work : WfnConstraint N → Nat) (avg : Nat)
    (part : List (WfnConstraint N × Nat) → List (WfnConstraint N × Nat)) (hpart : ∀ l, (part l).Perm l)
    (t : BitVec N)
    (hw : ∀ c : WfnConstraint N, SWF norb c → c.Cmin ∈ bitSet c.C → 3 ≤ count c.C → satB t c = true → work c ≠ 0)
    (n : Nat) : ∀ (m : Nat) (cs : List (WfnConstraint N × Nat)), LevelInv norb m cs → m + n ≤ count t →
    (refineLevels work avg part n cs).countP (fun x => satB t x.1) = cs.countP (fun x => satB t x.1) := by
  induction n with
  | zero => intro m cs _ _; rfl
  | succ n ih =>
    intro m cs hinv hm
    unfold refineLevels
    split
    · exact (hpart cs).countP_eq _
    · rw [ih (m + 1) _ (refineLevel_inv hn work avg part hpart hinv) (by omega),
        countP_refineLevel hn work avg part hpart hinv t (by omega) hw]

end Macis
