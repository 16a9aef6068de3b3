import Verif.Model.Constraint
import Verif.Spec.Constraint
import Verif.Lemmas.SD
import Mathlib.Data.Finset.Powerset
import Mathlib.Data.Nat.Choose.Basic
/-
Constrained excitations as set statements.
-/
namespace Macis
open Spec
variable {N : Nat}

/-- the orbitals of a bit string -/
def bitSet (s : BitVec N) : Finset Nat := (occ s).toFinset

theorem mem_bitSet {s : BitVec N} {i : Nat} : i ∈ bitSet s ↔ s.getLsbD i = true := by
  rw [bitSet, List.mem_toFinset, mem_occ]

theorem card_bitSet (s : BitVec N) : (bitSet s).card = count s := by
  rw [bitSet, List.toFinset_card_of_nodup (occ_nodup s), count_eq_length]

theorem bitSet_inj {s t : BitVec N} (h : bitSet s = bitSet t) : s = t := by
  apply BitVec.eq_of_getLsbD_eq
  intro i _
  rw [Bool.eq_iff_iff, ← mem_bitSet, ← mem_bitSet, h]

theorem bitSet_and (s t : BitVec N) : bitSet (s &&& t) = bitSet s ∩ bitSet t := by
  ext i; simp [mem_bitSet, BitVec.getLsbD_and]

theorem bitSet_or (s t : BitVec N) : bitSet (s ||| t) = bitSet s ∪ bitSet t := by
  ext i; simp [mem_bitSet, BitVec.getLsbD_or]

theorem bitSet_xor (s t : BitVec N) : bitSet (s ^^^ t) = (bitSet s \ bitSet t) ∪ (bitSet t \ bitSet s) := by
  ext i
  simp only [mem_bitSet, BitVec.getLsbD_xor, Finset.mem_union, Finset.mem_sdiff]
  cases s.getLsbD i <;> cases t.getLsbD i <;> simp

theorem bitSet_andNot (s t : BitVec N) : bitSet (s &&& ~~~t) = bitSet s \ bitSet t := by
  ext i
  simp only [mem_bitSet, BitVec.getLsbD_and, BitVec.getLsbD_not, Finset.mem_sdiff, Bool.and_eq_true,
    Bool.not_eq_true', decide_eq_true_eq, Bool.not_eq_true]
  constructor
  · rintro ⟨h1, -, h2⟩; exact ⟨h1, h2⟩
  · rintro ⟨h1, h2⟩; exact ⟨h1, BitVec.lt_of_getLsbD h1, h2⟩

theorem bitSet_notAnd2 (s t u : BitVec N) : bitSet (~~~s &&& t &&& u) = (bitSet t ∩ bitSet u) \ bitSet s := by
  ext i
  simp only [mem_bitSet, BitVec.getLsbD_and, BitVec.getLsbD_not, Finset.mem_sdiff, Finset.mem_inter,
    Bool.and_eq_true, Bool.not_eq_true', decide_eq_true_eq, Bool.not_eq_true]
  constructor
  · rintro ⟨⟨⟨-, h1⟩, h2⟩, h3⟩; exact ⟨⟨h2, h3⟩, h1⟩
  · rintro ⟨⟨h2, h3⟩, h1⟩; exact ⟨⟨⟨BitVec.lt_of_getLsbD h2, h1⟩, h2⟩, h3⟩

theorem bitSet_zero : bitSet (0#N) = ∅ := by
  ext i; simp [mem_bitSet]

theorem bitSet_flip_not_mem {s : BitVec N} {i : Nat} (hi : i < N) (h : i ∉ bitSet s) :
    bitSet (flip s i) = insert i (bitSet s) := by
  ext j
  rw [mem_bitSet, getLsbD_flip hi, Finset.mem_insert, mem_bitSet]
  rw [mem_bitSet] at h
  by_cases hj : i = j
  · subst hj; simp [h]
  · simp [hj, Ne.symm hj]

theorem bitSet_flip_mem {s : BitVec N} {i : Nat} (hi : i < N) (h : i ∈ bitSet s) :
    bitSet (flip s i) = (bitSet s).erase i := by
  ext j
  rw [mem_bitSet, getLsbD_flip hi, Finset.mem_erase, mem_bitSet]
  rw [mem_bitSet] at h
  by_cases hj : i = j
  · subst hj; simp [h]
  · simp [hj, Ne.symm hj]

theorem mem_indices {s : BitVec N} {i : Nat} : i ∈ bitsToIndices s ↔ i ∈ bitSet s := by
  rw [bitsToIndices_eq_occ, bitSet, List.mem_toFinset]

theorem nodup_indices (s : BitVec N) : (bitsToIndices s).Nodup := by
  rw [bitsToIndices_eq_occ]; exact occ_nodup s

theorem length_indices (s : BitVec N) : (bitsToIndices s).length = count s := by
  rw [bitsToIndices_eq_occ, count_eq_length]

theorem lt_of_mem_bitSet {s : BitVec N} {i : Nat} (h : i ∈ bitSet s) : i < N :=
  BitVec.lt_of_getLsbD (mem_bitSet.1 h)

/-! ### pairs -/

theorem bitSet_pair {i j : Nat} (hi : i < N) (hj : j < N) (hij : i ≠ j) :
    bitSet (flip (flip 0#N i) j) = {i, j} := by
  rw [bitSet_flip_not_mem hj, bitSet_flip_not_mem hi, bitSet_zero]
  · ext x; simp; tauto
  · rw [bitSet_zero]; simp
  · rw [bitSet_flip_not_mem hi (by rw [bitSet_zero]; simp), bitSet_zero]; simp [Ne.symm hij]

theorem mem_generatePairs {l : List Nat} (hn : l.Nodup) (hl : ∀ i ∈ l, i < N) (w : BitVec N) :
    w ∈ generatePairs N l ↔ (bitSet w).card = 2 ∧ bitSet w ⊆ l.toFinset := by
  induction l with
  | nil =>
    simp only [generatePairs, List.not_mem_nil, List.toFinset_nil, Finset.subset_empty, false_iff]
    rintro ⟨h1, h2⟩
    rw [h2] at h1; simp at h1
  | cons a l ih =>
    rw [List.nodup_cons] at hn
    have ha := hl a List.mem_cons_self
    have hl' : ∀ i ∈ l, i < N := fun i hi => hl i (List.mem_cons_of_mem _ hi)
    rw [generatePairs, List.mem_append, ih hn.2 hl', List.mem_map]
    constructor
    · rintro (⟨j, hj, rfl⟩ | ⟨h1, h2⟩)
      · have hne : a ≠ j := by rintro rfl; exact hn.1 hj
        rw [bitSet_pair ha (hl' j hj) hne]
        refine ⟨Finset.card_pair hne, ?_⟩
        intro x hx
        simp only [Finset.mem_insert, Finset.mem_singleton] at hx
        simp only [List.toFinset_cons, Finset.mem_insert, List.mem_toFinset]
        rcases hx with rfl | rfl
        · exact Or.inl rfl
        · exact Or.inr hj
      · exact ⟨h1, h2.trans (by simp)⟩
    · rintro ⟨h1, h2⟩
      by_cases hm : a ∈ bitSet w
      · left
        obtain ⟨x, y, hxy, he⟩ := Finset.card_eq_two.1 h1
        have : ∃ j, j ≠ a ∧ bitSet w = {a, j} := by
          rw [he] at hm
          simp only [Finset.mem_insert, Finset.mem_singleton] at hm
          rcases hm with rfl | rfl
          · exact ⟨y, Ne.symm hxy, he⟩
          · exact ⟨x, hxy, by rw [he]; exact Finset.pair_comm _ _⟩
        obtain ⟨j, hja, hj⟩ := this
        have hjl : j ∈ l := by
          have : j ∈ (a :: l).toFinset := h2 (by rw [hj]; simp)
          simp only [List.toFinset_cons, Finset.mem_insert, List.mem_toFinset] at this
          exact this.resolve_left hja
        refine ⟨j, hjl, ?_⟩
        apply bitSet_inj
        rw [bitSet_pair ha (hl' j hjl) (Ne.symm hja), hj]
      · right
        refine ⟨h1, ?_⟩
        intro x hx
        have := h2 hx
        simp only [List.toFinset_cons, Finset.mem_insert] at this
        rcases this with rfl | h
        · exact absurd hx hm
        · exact h

theorem nodup_generatePairs {l : List Nat} (hn : l.Nodup) (hl : ∀ i ∈ l, i < N) :
    (generatePairs N l).Nodup := by
  induction l with
  | nil => simp [generatePairs]
  | cons a l ih =>
    rw [List.nodup_cons] at hn
    have ha := hl a List.mem_cons_self
    have hl' : ∀ i ∈ l, i < N := fun i hi => hl i (List.mem_cons_of_mem _ hi)
    rw [generatePairs, List.nodup_append]
    refine ⟨?_, ih hn.2 hl', ?_⟩
    · apply List.Nodup.map_on _ hn.2
      intro x hx y hy he
      have h1 : a ≠ x := by rintro rfl; exact hn.1 hx
      have h2 : a ≠ y := by rintro rfl; exact hn.1 hy
      have := congrArg bitSet he
      rw [bitSet_pair ha (hl' x hx) h1, bitSet_pair ha (hl' y hy) h2] at this
      have hx' : x ∈ ({a, y} : Finset Nat) := by rw [← this]; simp
      simp only [Finset.mem_insert, Finset.mem_singleton] at hx'
      exact hx'.resolve_left (Ne.symm h1)
    · intro x hx y hy hxy
      subst hxy
      obtain ⟨j, hj, rfl⟩ := List.mem_map.1 hx
      have hne : a ≠ j := by rintro rfl; exact hn.1 hj
      have := ((mem_generatePairs hn.2 hl' _).1 hy).2
      rw [bitSet_pair ha (hl' j hj) hne] at this
      have : a ∈ l.toFinset := this (by simp)
      exact hn.1 (List.mem_toFinset.1 this)

theorem length_generatePairs (l : List Nat) :
    (generatePairs N l).length = l.length * (l.length - 1) / 2 := by
  induction l with
  | nil => simp [generatePairs]
  | cons a l ih =>
    rw [generatePairs, List.length_append, List.length_map, ih, List.length_cons, ← Nat.choose_two_right,
      ← Nat.choose_two_right, Nat.choose_succ_succ' l.length 1, Nat.choose_one_right]

/-! ### which excitations satisfy a constraint -/

/-- a constraint as the code builds them: `cmin` is the lowest orbital of `C`, `B` the orbitals below -/
structure WFCon (O C B : BitVec N) (cmin : Nat) : Prop where
  inO : bitSet C ⊆ bitSet O
  low : cmin ∈ bitSet C
  min : ∀ i ∈ bitSet C, cmin ≤ i
  below : ∀ i, i ∈ bitSet B ↔ i < cmin

variable {det O C B : BitVec N} {cmin : Nat}

/-- electrons outside `C` -/
def conD (det C : BitVec N) : Finset Nat := bitSet det \ bitSet C
/-- electrons outside `C` that are too high -/
def conX (det C B : BitVec N) : Finset Nat := conD det C \ bitSet B
/-- missing orbitals of `C` -/
def conM (det C : BitVec N) : Finset Nat := bitSet C \ bitSet det
/-- empty orbitals below `C` -/
def conV (det O B : BitVec N) : Finset Nat := (bitSet O ∩ bitSet B) \ bitSet det

theorem satisfies_iff_sets (t : BitVec N) :
    Satisfies C cmin t ↔ bitSet C ⊆ bitSet t ∧ ∀ i ∈ bitSet t, cmin ≤ i → i ∈ bitSet C := by
  unfold Satisfies
  simp only [← mem_bitSet]
  constructor
  · rintro ⟨h1, h2⟩; exact ⟨fun i => h1 i, fun i hi hc => h2 i hc hi⟩
  · rintro ⟨h1, h2⟩; exact ⟨fun i hi => h1 hi, fun i hc hi => h2 i hi hc⟩

theorem excited_sat_iff (wf : WFCon O C B cmin) (hdO : bitSet det ⊆ bitSet O) (k : Nat) (t : BitVec N) :
    (ExcitedWithin k (fun i => O.getLsbD i = true) det t ∧ Satisfies C cmin t) ↔
    ∃ R A : Finset Nat, R.card = k ∧ A.card = k ∧ conX det C B ⊆ R ∧ R ⊆ conD det C ∧
      conM det C ⊆ A ∧ A ⊆ conM det C ∪ conV det O B ∧ bitSet t = (bitSet det \ R) ∪ A := by
  rw [satisfies_iff_sets]
  constructor
  · rintro ⟨⟨R, A, hR, hA, hRo, hAv, ht⟩, h1, h2⟩
    simp only [← mem_bitSet] at hRo ht
    have hAn : ∀ a ∈ A, a ∈ bitSet O ∧ a ∉ bitSet det := by
      intro a ha
      have := hAv a ha
      exact ⟨mem_bitSet.2 this.2.1, by rw [mem_bitSet, this.2.2]; simp⟩
    have hRC : ∀ i ∈ R, i ∉ bitSet C := by
      intro i hi hc
      have := (ht i).1 (h1 hc)
      rcases this with h | h
      · exact h.2 hi
      · exact (hAn i h).2 (hRo i hi).2
    refine ⟨R, A, hR, hA, ?_, ?_, ?_, ?_, ?_⟩
    · intro i hi
      simp only [conX, conD, Finset.mem_sdiff] at hi
      by_contra hc
      have := h2 i ((ht i).2 (Or.inl ⟨hi.1.1, hc⟩)) (by have := (wf.below i).not.1 hi.2; omega)
      exact hi.1.2 this
    · intro i hi
      exact Finset.mem_sdiff.2 ⟨(hRo i hi).2, hRC i hi⟩
    · intro i hi
      simp only [conM, Finset.mem_sdiff] at hi
      rcases (ht i).1 (h1 hi.1) with h | h
      · exact absurd h.1 hi.2
      · exact h
    · intro a ha
      have := hAn a ha
      simp only [conM, conV, Finset.mem_union, Finset.mem_sdiff, Finset.mem_inter]
      by_cases hc : a ∈ bitSet C
      · exact Or.inl ⟨hc, this.2⟩
      · right
        refine ⟨⟨this.1, ?_⟩, this.2⟩
        rw [wf.below]
        by_contra hlt
        exact hc (h2 a ((ht a).2 (Or.inr ha)) (by omega))
    · ext j
      rw [ht j]; simp
  · rintro ⟨R, A, hR, hA, hXR, hRD, hMA, hAV, ht⟩
    have hRD' : ∀ i ∈ R, i ∈ bitSet det ∧ i ∉ bitSet C := by
      intro i hi; simpa [conD] using hRD hi
    have hA' : ∀ a ∈ A, a ∈ bitSet O ∧ a ∉ bitSet det ∧ (cmin ≤ a → a ∈ bitSet C) := by
      intro a ha
      have := hAV ha
      simp only [conM, conV, Finset.mem_union, Finset.mem_sdiff, Finset.mem_inter] at this
      rcases this with h | h
      · exact ⟨wf.inO h.1, h.2, fun _ => h.1⟩
      · exact ⟨h.1.1, h.2, fun hc => by have := (wf.below a).1 h.1.2; omega⟩
    refine ⟨⟨R, A, hR, hA, ?_, ?_, ?_⟩, ?_, ?_⟩
    · intro i hi
      exact ⟨mem_bitSet.1 (hdO (hRD' i hi).1), mem_bitSet.1 (hRD' i hi).1⟩
    · intro a ha
      obtain ⟨h1, h2, -⟩ := hA' a ha
      refine ⟨lt_of_mem_bitSet h1, mem_bitSet.1 h1, ?_⟩
      rw [mem_bitSet] at h2; simpa using h2
    · intro j
      rw [← mem_bitSet, ht, ← mem_bitSet]; simp
    · intro i hi
      rw [ht, Finset.mem_union, Finset.mem_sdiff]
      by_cases hd : i ∈ bitSet det
      · exact Or.inl ⟨hd, fun h => (hRD' i h).2 hi⟩
      · exact Or.inr (hMA (Finset.mem_sdiff.2 ⟨hi, hd⟩))
    · intro i hi hc
      rw [ht, Finset.mem_union, Finset.mem_sdiff] at hi
      rcases hi with ⟨h1, h2⟩ | h
      · by_contra hcc
        apply h2
        apply hXR
        simp only [conX, conD, Finset.mem_sdiff]
        exact ⟨⟨h1, hcc⟩, fun hb => by have := (wf.below i).1 hb; omega⟩
      · exact (hA' i h).2.2 hc

/-- the determinant after the move fixes the move -/
theorem move_inj {D R A R' A' : Finset Nat} (hR : R ⊆ D) (hR' : R' ⊆ D) (hA : Disjoint A D) (hA' : Disjoint A' D)
    (h : (D \ R) ∪ A = (D \ R') ∪ A') : R = R' ∧ A = A' := by
  have key : ∀ x, (x ∈ D ∧ x ∉ R ∨ x ∈ A) ↔ (x ∈ D ∧ x ∉ R' ∨ x ∈ A') := by
    intro x
    have := congrArg (x ∈ ·) h
    simpa using this
  constructor
  · ext x
    by_cases hx : x ∈ D
    · have := key x
      have a1 : x ∉ A := fun h => Finset.disjoint_left.1 hA h hx
      have a2 : x ∉ A' := fun h => Finset.disjoint_left.1 hA' h hx
      tauto
    · exact ⟨fun h => absurd (hR h) hx, fun h => absurd (hR' h) hx⟩
  · ext x
    by_cases hx : x ∈ D
    · exact ⟨fun h => absurd hx (Finset.disjoint_left.1 hA h), fun h => absurd hx (Finset.disjoint_left.1 hA' h)⟩
    · have := key x
      tauto

theorem set_xorC (det C : BitVec N) : bitSet (det ^^^ C) = conD det C ∪ conM det C := bitSet_xor _ _

theorem set_xorC_C (det C : BitVec N) : bitSet ((det ^^^ C) &&& C) = conM det C := by
  rw [bitSet_and, set_xorC]
  ext i; simp only [conD, conM, Finset.mem_inter, Finset.mem_union, Finset.mem_sdiff]; tauto

theorem set_strip (det C : BitVec N) : bitSet ((det ^^^ C) ^^^ ((det ^^^ C) &&& C)) = conD det C := by
  rw [bitSet_xor, set_xorC_C, set_xorC]
  ext i; simp only [conD, conM, Finset.mem_union, Finset.mem_sdiff]; tauto

theorem count_and_add (det C : BitVec N) : count (det &&& C) + (conM det C).card = count C := by
  rw [← card_bitSet, ← card_bitSet, bitSet_and, conM, Finset.inter_comm]
  exact Finset.card_inter_add_card_sdiff _ _

theorem set_noC {det C : BitVec N} (h : conM det C = ∅) : bitSet (det ^^^ C) = conD det C := by
  rw [set_xorC, h, Finset.union_empty]

theorem count_le (s : BitVec N) : count s ≤ N := by
  rw [count]; exact (List.countP_le_length).trans (by simp)

theorem constraintSingleEx_spec (hN : N < 2 ^ 64) (wf : WFCon O C B cmin) (i a : Nat) :
    (i ∈ bitSet (constraintSingleEx det C O B).1 ∧ a ∈ bitSet (constraintSingleEx det C O B).2) ↔
    ((conX det C B ⊆ {i} ∧ i ∈ conD det C) ∧ (conM det C ⊆ {a} ∧ a ∈ conM det C ∪ conV det O B)) := by
  have hC1 : 1 ≤ count C := by
    rw [← card_bitSet]; exact Finset.card_pos.2 ⟨_, wf.low⟩
  have hC2 := count_le C
  have hadd := count_and_add det C
  have hmod : (count C + 2 ^ 64 - 1) % 2 ^ 64 = count C - 1 := by
    rw [show count C + 2 ^ 64 - 1 = (count C - 1) + 2 ^ 64 by omega, Nat.add_mod_right, Nat.mod_eq_of_lt (by omega)]
  have hzero : ∀ (P : Prop), ¬ P → ((i ∈ bitSet (0#N) ∧ a ∈ bitSet (0#N)) ↔ P) := by
    intro P hP; rw [bitSet_zero]; simp [hP]
  unfold constraintSingleEx
  rw [hmod]
  by_cases h1 : count (det &&& C) < count C - 1
  · rw [if_pos h1]
    dsimp only
    apply hzero
    rintro ⟨-, h, -⟩
    have := Finset.card_le_card h
    rw [Finset.card_singleton] at this
    omega
  rw [if_neg h1]
  dsimp only
  have hMc : count ((det ^^^ C) &&& C) = (conM det C).card := by rw [← card_bitSet, set_xorC_C]
  have hMle : (conM det C).card ≤ 1 := by omega
  -- the tail: removing the electron that is too high
  have tail : ∀ o v : BitVec N, bitSet o = conD det C →
      (∀ b, b ∈ bitSet v ↔ conM det C ⊆ {b} ∧ b ∈ conM det C ∪ conV det O B) →
      ((i ∈ bitSet (if count (o &&& ~~~B) > 1 then (0#N, 0#N)
          else (if count (o &&& ~~~B) = 1 then o &&& ~~~B else o, v)).1 ∧
        a ∈ bitSet (if count (o &&& ~~~B) > 1 then (0#N, 0#N)
          else (if count (o &&& ~~~B) = 1 then o &&& ~~~B else o, v)).2) ↔
      ((conX det C B ⊆ {i} ∧ i ∈ conD det C) ∧ (conM det C ⊆ {a} ∧ a ∈ conM det C ∪ conV det O B))) := by
    intro o v ho hv
    have hX : bitSet (o &&& ~~~B) = conX det C B := by rw [bitSet_andNot, ho]; rfl
    have hXc : count (o &&& ~~~B) = (conX det C B).card := by rw [← card_bitSet, hX]
    by_cases h2 : count (o &&& ~~~B) > 1
    · rw [if_pos h2]
      dsimp only
      apply hzero
      rintro ⟨⟨h, -⟩, -⟩
      have := Finset.card_le_card h
      rw [Finset.card_singleton] at this
      omega
    rw [if_neg h2]
    dsimp only
    rw [hv a]
    apply and_congr_left
    intro _
    by_cases h3 : count (o &&& ~~~B) = 1
    · rw [if_pos h3, hX]
      obtain ⟨x, hx⟩ := Finset.card_eq_one.1 (hXc ▸ h3)
      rw [hx]
      have hxD : x ∈ conD det C := by
        have : x ∈ conX det C B := by rw [hx]; simp
        exact (Finset.mem_sdiff.1 this).1
      simp only [Finset.mem_singleton, Finset.singleton_subset_iff]
      constructor
      · rintro rfl; exact ⟨rfl, hxD⟩
      · rintro ⟨rfl, -⟩; rfl
    · rw [if_neg h3, ho]
      have : conX det C B = ∅ := by
        rw [← Finset.card_eq_zero]; omega
      rw [this]
      simp
  by_cases h4 : count ((det ^^^ C) &&& C) = 1
  · rw [if_pos h4]
    dsimp only
    apply tail _ _ (set_strip det C)
    intro b
    rw [set_xorC_C]
    obtain ⟨x, hx⟩ := Finset.card_eq_one.1 (hMc ▸ h4)
    rw [hx]
    simp only [Finset.mem_singleton, Finset.singleton_subset_iff, Finset.mem_union]
    constructor
    · rintro rfl; exact ⟨rfl, Or.inl rfl⟩
    · rintro ⟨rfl, -⟩; rfl
  · rw [if_neg h4]
    dsimp only
    have hM0 : conM det C = ∅ := by
      rw [← Finset.card_eq_zero]; omega
    apply tail _ _ (set_noC hM0)
    intro b
    rw [bitSet_notAnd2, hM0]
    simp [conV]

/-- two-element sets between `L` and `L ∪ U` -/
def between2 (L U : Finset Nat) (w : BitVec N) : Prop :=
  (bitSet w).card = 2 ∧ L ⊆ bitSet w ∧ bitSet w ⊆ L ∪ U

theorem between2_one {L U : Finset Nat} {x : Nat} (hL : L = {x}) (hx : x ∉ U) (l : BitVec N) (hl : bitSet l = L)
    (u : List Nat) (hu : ∀ i, i ∈ u ↔ i ∈ U) (huN : ∀ i ∈ u, i < N) (w : BitVec N) :
    w ∈ (u.map fun a => flip l a) ↔ between2 L U w := by
  rw [List.mem_map]
  subst hL
  have hf : ∀ a ∈ u, bitSet (flip l a) = {a, x} := by
    intro a ha
    rw [bitSet_flip_not_mem (huN a ha), hl]
    rw [hl]; rintro h
    rw [Finset.mem_singleton] at h
    exact hx (h ▸ (hu a).1 ha)
  constructor
  · rintro ⟨a, ha, rfl⟩
    have hax : a ≠ x := by rintro rfl; exact hx ((hu a).1 ha)
    unfold between2
    rw [hf a ha]
    refine ⟨Finset.card_pair hax, by simp, ?_⟩
    intro y hy
    simp only [Finset.mem_insert, Finset.mem_singleton] at hy
    rcases hy with rfl | rfl
    · simp [(hu y).1 ha]
    · simp
  · rintro ⟨h1, h2, h3⟩
    have hxw : x ∈ bitSet w := h2 (by simp)
    obtain ⟨p, q, hpq, he⟩ := Finset.card_eq_two.1 h1
    have : ∃ a, a ≠ x ∧ bitSet w = {a, x} := by
      rw [he] at hxw
      simp only [Finset.mem_insert, Finset.mem_singleton] at hxw
      rcases hxw with rfl | rfl
      · exact ⟨q, Ne.symm hpq, by rw [he]; exact Finset.pair_comm _ _⟩
      · exact ⟨p, hpq, he⟩
    obtain ⟨a, hax, ha⟩ := this
    have hau : a ∈ u := by
      rw [hu]
      have := h3 (show a ∈ bitSet w by rw [ha]; simp)
      simp only [Finset.mem_union, Finset.mem_singleton] at this
      exact this.resolve_left hax
    exact ⟨a, hau, bitSet_inj (by rw [hf a hau, ha])⟩

theorem pairs_zero {U : Finset Nat} (u : BitVec N) (hu : bitSet u = U) (w : BitVec N) :
    w ∈ generatePairs N (bitsToIndices u) ↔ between2 ∅ U w := by
  rw [mem_generatePairs (nodup_indices u) (fun i hi => lt_of_mem_bitSet (mem_indices.1 hi))]
  have : (bitsToIndices u).toFinset = U := by
    rw [← hu]; ext i; rw [List.mem_toFinset, mem_indices]
  rw [this]
  unfold between2
  simp

theorem pairs_two {L U : Finset Nat} (hL : L.card = 2) (u : BitVec N) (hu : bitSet u = L) (w : BitVec N) :
    w ∈ generatePairs N (bitsToIndices u) ↔ between2 L U w := by
  rw [mem_generatePairs (nodup_indices u) (fun i hi => lt_of_mem_bitSet (mem_indices.1 hi))]
  have : (bitsToIndices u).toFinset = L := by
    rw [← hu]; ext i; rw [List.mem_toFinset, mem_indices]
  rw [this]
  unfold between2
  constructor
  · rintro ⟨h1, h2⟩
    have := Finset.eq_of_subset_of_card_le h2 (by omega)
    exact ⟨h1, this.symm.subset, h2.trans Finset.subset_union_left⟩
  · rintro ⟨h1, h2, -⟩
    have := Finset.eq_of_subset_of_card_le h2 (by omega)
    exact ⟨h1, this.symm.subset⟩

/-- occupied part of the doubles code, `o` already stripped of the constraint -/
def occPairs (o B : BitVec N) : List (BitVec N) :=
  if count (o &&& ~~~B) > 2 then []
  else if count (o &&& ~~~B) = 1 then (bitsToIndices (o &&& B)).map fun i => flip (o &&& ~~~B) i
  else generatePairs N (bitsToIndices (if count (o &&& ~~~B) = 2 then o &&& ~~~B else o))

theorem occPairs_spec {o : BitVec N} (ho : bitSet o = conD det C) (w : BitVec N) :
    w ∈ occPairs o B ↔ (bitSet w).card = 2 ∧ conX det C B ⊆ bitSet w ∧ bitSet w ⊆ conD det C := by
  have hX : bitSet (o &&& ~~~B) = conX det C B := by rw [bitSet_andNot, ho]; rfl
  have hXc : count (o &&& ~~~B) = (conX det C B).card := by rw [← card_bitSet, hX]
  have hU : conX det C B ∪ (conD det C ∩ bitSet B) = conD det C := by
    unfold conX
    exact Finset.sdiff_union_inter _ _
  have hb : between2 (conX det C B) (conD det C ∩ bitSet B) w ↔
      (bitSet w).card = 2 ∧ conX det C B ⊆ bitSet w ∧ bitSet w ⊆ conD det C := by
    unfold between2; rw [hU]
  unfold occPairs
  by_cases h1 : count (o &&& ~~~B) > 2
  · rw [if_pos h1]
    simp only [List.not_mem_nil, false_iff]
    rintro ⟨h2, h3, -⟩
    have := Finset.card_le_card h3
    omega
  rw [if_neg h1]
  by_cases h2 : count (o &&& ~~~B) = 1
  · rw [if_pos h2, ← hb]
    obtain ⟨x, hx⟩ := Finset.card_eq_one.1 (hXc ▸ h2)
    apply between2_one hx _ _ hX
    · intro i
      rw [mem_indices, bitSet_and, ho]
    · intro i hi
      exact lt_of_mem_bitSet (mem_indices.1 hi)
    · intro hm
      have hxX : x ∈ conX det C B := by rw [hx]; simp
      exact (Finset.mem_sdiff.1 hxX).2 (Finset.mem_inter.1 hm).2
  rw [if_neg h2]
  by_cases h3 : count (o &&& ~~~B) = 2
  · rw [if_pos h3, ← hb]
    exact pairs_two (hXc ▸ h3) _ hX w
  · rw [if_neg h3]
    have : conX det C B = ∅ := by
      rw [← Finset.card_eq_zero]; omega
    rw [pairs_zero o ho, this]
    unfold between2
    simp

theorem nodup_flip_map {l : BitVec N} {u : List Nat} (hn : u.Nodup) (hu : ∀ i ∈ u, i < N ∧ i ∉ bitSet l) :
    (u.map fun a => flip l a).Nodup := by
  apply List.Nodup.map_on _ hn
  intro x hx y hy he
  have := congrArg bitSet he
  rw [bitSet_flip_not_mem (hu x hx).1 (hu x hx).2, bitSet_flip_not_mem (hu y hy).1 (hu y hy).2] at this
  have hx' : x ∈ insert y (bitSet l) := by rw [← this]; simp
  rw [Finset.mem_insert] at hx'
  exact hx'.resolve_right (hu x hx).2

theorem nodup_pairs (u : BitVec N) : (generatePairs N (bitsToIndices u)).Nodup :=
  nodup_generatePairs (nodup_indices u) (fun _ hi => lt_of_mem_bitSet (mem_indices.1 hi))

theorem occPairs_nodup (o B : BitVec N) : (occPairs o B).Nodup := by
  unfold occPairs
  split
  · exact List.nodup_nil
  split
  · apply nodup_flip_map (nodup_indices _)
    intro i hi
    rw [mem_indices, bitSet_and, Finset.mem_inter] at hi
    refine ⟨lt_of_mem_bitSet hi.1, ?_⟩
    rw [bitSet_andNot, Finset.mem_sdiff]
    exact fun h => h.2 hi.2
  · exact nodup_pairs _

/-- length of `occPairs` as computed by the counting code -/
theorem occPairs_length (o B : BitVec N) : (occPairs o B).length =
    if count (o &&& ~~~B) > 2 then 0
    else if count (o &&& ~~~B) = 1 then count (o &&& B)
    else count (if count (o &&& ~~~B) = 2 then o &&& ~~~B else o) *
      (count (if count (o &&& ~~~B) = 2 then o &&& ~~~B else o) - 1) / 2 := by
  unfold occPairs
  split
  · rfl
  split
  · rw [List.length_map, length_indices]
  · rw [length_generatePairs, length_indices]

/-- the doubles code in two independent halves -/
theorem constraintDoubleEx_eq (det C O B : BitVec N) :
    constraintDoubleEx det C O B =
      if det &&& C = 0#N then ([], [])
      else if (conM det C).card ≥ 3 then ([], [])
      else if (conM det C).card = 2 then
        (occPairs ((det ^^^ C) ^^^ ((det ^^^ C) &&& C)) B, generatePairs N (bitsToIndices ((det ^^^ C) &&& C)))
      else if (conM det C).card = 1 then
        (occPairs ((det ^^^ C) ^^^ ((det ^^^ C) &&& C)) B,
          (bitsToIndices (~~~det &&& O &&& B)).map fun a => flip ((det ^^^ C) &&& C) a)
      else (occPairs (det ^^^ C) B, generatePairs N (bitsToIndices (~~~det &&& O &&& B))) := by
  have hMc : count ((det ^^^ C) &&& C) = (conM det C).card := by rw [← card_bitSet, set_xorC_C]
  have hS0 : count (((det ^^^ C) ^^^ ((det ^^^ C) &&& C)) &&& C) = 0 := by
    rw [← card_bitSet, bitSet_and, set_strip, Finset.card_eq_zero]
    ext i; simp only [conD, Finset.mem_inter, Finset.mem_sdiff, Finset.notMem_empty, iff_false]; tauto
  unfold constraintDoubleEx
  dsimp only
  rw [hMc]
  by_cases h0 : det &&& C = 0#N
  · rw [if_pos h0, if_pos h0]
  rw [if_neg h0, if_neg h0]
  by_cases h1 : (conM det C).card ≥ 3
  · rw [if_pos h1, if_pos h1]
  rw [if_neg h1, if_neg h1]
  have fin : ∀ (o : BitVec N) (V : List (BitVec N)),
      (if count (o &&& ~~~B) > 2 then (([] : List (BitVec N)), V)
        else if count (o &&& ~~~B) = 1 then ((bitsToIndices (o &&& B)).map fun i => flip (o &&& ~~~B) i, V)
        else (generatePairs N (bitsToIndices (if count (o &&& ~~~B) = 2 then o &&& ~~~B else o)), V))
      = (occPairs o B, V) := by
    intro o V
    unfold occPairs
    split
    · rfl
    split <;> rfl
  by_cases h2 : (conM det C).card = 2
  · rw [if_pos h2, if_pos h2]
    dsimp only
    rw [hS0, if_neg (by decide : ¬ ((0 : Nat) = 1))]
    exact fin _ _
  rw [if_neg h2, if_neg h2]
  dsimp only
  rw [hMc]
  by_cases h3 : (conM det C).card = 1
  · rw [if_pos h3, if_pos h3]
    exact fin _ _
  · rw [if_neg h3, if_neg h3]
    exact fin _ _

theorem constraintDoubleEx_spec (wf : WFCon O C B cmin) (hC3 : 3 ≤ count C) (ij ab : BitVec N) :
    (ij ∈ (constraintDoubleEx det C O B).1 ∧ ab ∈ (constraintDoubleEx det C O B).2) ↔
    (((bitSet ij).card = 2 ∧ conX det C B ⊆ bitSet ij ∧ bitSet ij ⊆ conD det C) ∧
      ((bitSet ab).card = 2 ∧ conM det C ⊆ bitSet ab ∧ bitSet ab ⊆ conM det C ∪ conV det O B)) := by
  have hadd := count_and_add det C
  rw [constraintDoubleEx_eq]
  by_cases h0 : det &&& C = 0#N
  · rw [if_pos h0]
    simp only [List.not_mem_nil, false_and, false_iff]
    rintro ⟨-, h, h', -⟩
    have := Finset.card_le_card h'
    rw [h0, count_eq_zero_iff.2 rfl] at hadd
    omega
  rw [if_neg h0]
  by_cases h1 : (conM det C).card ≥ 3
  · rw [if_pos h1]
    simp only [List.not_mem_nil, false_and, false_iff]
    rintro ⟨-, h, h', -⟩
    have := Finset.card_le_card h'
    omega
  rw [if_neg h1]
  by_cases h2 : (conM det C).card = 2
  · rw [if_pos h2]
    dsimp only
    rw [occPairs_spec (set_strip det C), pairs_two (U := conV det O B) h2 _ (set_xorC_C det C)]
    rfl
  rw [if_neg h2]
  by_cases h3 : (conM det C).card = 1
  · rw [if_pos h3]
    dsimp only
    obtain ⟨x, hx⟩ := Finset.card_eq_one.1 h3
    rw [occPairs_spec (set_strip det C), between2_one (U := conV det O B) hx _ _ (set_xorC_C det C)]
    · rfl
    · intro i; rw [mem_indices, bitSet_notAnd2]; rfl
    · intro i hi; exact lt_of_mem_bitSet (mem_indices.1 hi)
    · intro hm
      have hxM : x ∈ conM det C := by rw [hx]; simp
      simp only [conV, Finset.mem_sdiff, Finset.mem_inter] at hm
      have := (wf.below x).1 hm.1.2
      have := wf.min x (Finset.mem_sdiff.1 hxM).1
      omega
  · rw [if_neg h3]
    have hM0 : conM det C = ∅ := by rw [← Finset.card_eq_zero]; omega
    dsimp only
    rw [occPairs_spec (set_noC hM0), pairs_zero (U := conV det O B) _ (bitSet_notAnd2 _ _ _), hM0]
    unfold between2
    rfl

theorem constraintDoubleEx_nodup (wf : WFCon O C B cmin) :
    (constraintDoubleEx det C O B).1.Nodup ∧ (constraintDoubleEx det C O B).2.Nodup := by
  rw [constraintDoubleEx_eq]
  split
  · exact ⟨List.nodup_nil, List.nodup_nil⟩
  split
  · exact ⟨List.nodup_nil, List.nodup_nil⟩
  split
  · exact ⟨occPairs_nodup _ _, nodup_pairs _⟩
  split
  · refine ⟨occPairs_nodup _ _, nodup_flip_map (nodup_indices _) ?_⟩
    intro i hi
    rw [mem_indices] at hi
    refine ⟨lt_of_mem_bitSet hi, ?_⟩
    rw [set_xorC_C]
    rw [bitSet_notAnd2] at hi
    simp only [Finset.mem_sdiff, Finset.mem_inter] at hi
    intro hm
    have := (wf.below i).1 hi.1.2
    have := wf.min i (Finset.mem_sdiff.1 hm).1
    omega
  · exact ⟨occPairs_nodup _ _, nodup_pairs _⟩

theorem countConstraintDoubles_eq (det C O B : BitVec N) :
    countConstraintDoubles det C O B =
      (constraintDoubleEx det C O B).1.length * (constraintDoubleEx det C O B).2.length := by
  rw [constraintDoubleEx_eq]
  have hMc : count ((det ^^^ C) &&& C) = (conM det C).card := by rw [← card_bitSet, set_xorC_C]
  have hS0 : count (((det ^^^ C) ^^^ ((det ^^^ C) &&& C)) &&& C) = 0 := by
    rw [← card_bitSet, bitSet_and, set_strip, Finset.card_eq_zero]
    ext i; simp only [conD, Finset.mem_inter, Finset.mem_sdiff, Finset.notMem_empty, iff_false]; tauto
  unfold countConstraintDoubles
  dsimp only
  rw [hMc]
  by_cases h0 : det &&& C = 0#N
  · rw [if_pos h0, if_pos h0]; rfl
  rw [if_neg h0, if_neg h0]
  by_cases h1 : (conM det C).card ≥ 3
  · rw [if_pos h1, if_pos h1]; rfl
  rw [if_neg h1, if_neg h1]
  have fin : ∀ (o : BitVec N) (nv : Nat),
      (if count (o &&& ~~~B) > 2 then 0
        else if count (o &&& ~~~B) = 1 then count (o &&& B) * nv
        else count (if count (o &&& ~~~B) = 2 then o &&& ~~~B else o) *
          (count (if count (o &&& ~~~B) = 2 then o &&& ~~~B else o) - 1) / 2 * nv)
      = (occPairs o B).length * nv := by
    intro o nv
    rw [occPairs_length]
    split
    · simp
    split <;> rfl
  by_cases h2 : (conM det C).card = 2
  · rw [if_pos h2, if_pos h2]
    dsimp only
    rw [hS0, if_neg (by decide : ¬ ((0 : Nat) = 1)), length_generatePairs, length_indices]
    exact fin _ _
  rw [if_neg h2, if_neg h2]
  dsimp only
  rw [hMc]
  by_cases h3 : (conM det C).card = 1
  · rw [if_pos h3, if_pos h3]
    dsimp only
    rw [List.length_map, length_indices]
    exact fin _ _
  · rw [if_neg h3, if_neg h3]
    dsimp only
    rw [length_generatePairs, length_indices]
    exact fin _ _


theorem mem_constraintSingles (hN : N < 2 ^ 64) (wf : WFCon O C B cmin) (hdO : bitSet det ⊆ bitSet O) (t : BitVec N) :
    t ∈ generateConstraintSingles det C O B [] ↔
      ExcitedWithin 1 (fun i => O.getLsbD i = true) det t ∧ Satisfies C cmin t := by
  rw [excited_sat_iff wf hdO]
  have hspec := fun i a => constraintSingleEx_spec (det := det) hN wf i a
  unfold generateConstraintSingles
  dsimp only
  generalize (constraintSingleEx det C O B).1 = o at hspec ⊢
  generalize (constraintSingleEx det C O B).2 = v at hspec ⊢
  have hmem : t ∈ (if count o = 0 ∨ count v = 0 then []
      else (bitsToIndices o).flatMap fun i => (bitsToIndices v).map fun a => flip (flip det i) a) ↔
      ∃ i a, (i ∈ bitSet o ∧ a ∈ bitSet v) ∧ flip (flip det i) a = t := by
    have e : (if count o = 0 ∨ count v = 0 then []
      else (bitsToIndices o).flatMap fun i => (bitsToIndices v).map fun a => flip (flip det i) a)
      = (bitsToIndices o).flatMap fun i => (bitsToIndices v).map fun a => flip (flip det i) a := by
      split
      · rename_i h
        rcases h with h | h
        · rw [← length_indices, List.length_eq_zero_iff] at h; rw [h]; rfl
        · rw [← length_indices, List.length_eq_zero_iff] at h; rw [h]; simp
      · rfl
    rw [e]
    simp only [List.mem_flatMap, List.mem_map, mem_indices]
    constructor
    · rintro ⟨i, hi, a, ha, h⟩; exact ⟨i, a, ⟨hi, ha⟩, h⟩
    · rintro ⟨i, a, ⟨hi, ha⟩, h⟩; exact ⟨i, hi, a, ha, h⟩
  rw [hmem]
  have hbits : ∀ i a, i ∈ conD det C → a ∈ conM det C ∪ conV det O B →
      bitSet (flip (flip det i) a) = (bitSet det \ {i}) ∪ {a} := by
    intro i a hi ha
    have hid : i ∈ bitSet det := (Finset.mem_sdiff.1 hi).1
    have had : a ∉ bitSet det := by
      simp only [conM, conV, Finset.mem_union, Finset.mem_sdiff] at ha
      tauto
    have haN : a < N := by
      simp only [conM, conV, Finset.mem_union, Finset.mem_sdiff, Finset.mem_inter] at ha
      rcases ha with h | h
      · exact lt_of_mem_bitSet h.1
      · exact lt_of_mem_bitSet h.1.1
    have h1 := bitSet_flip_mem (lt_of_mem_bitSet hid) hid
    rw [bitSet_flip_not_mem haN, h1]
    · ext x; simp only [Finset.mem_insert, Finset.mem_erase, Finset.mem_union, Finset.mem_sdiff, Finset.mem_singleton]; tauto
    · rw [h1]; intro h; exact had (Finset.mem_of_mem_erase h)
  constructor
  · rintro ⟨i, a, hia, rfl⟩
    obtain ⟨⟨h1, h2⟩, h3, h4⟩ := (hspec i a).1 hia
    exact ⟨{i}, {a}, by simp, by simp, h1, by simpa using h2, h3, by simpa using h4, hbits i a h2 h4⟩
  · rintro ⟨R, A, hR, hA, h1, h2, h3, h4, h5⟩
    obtain ⟨i, rfl⟩ := Finset.card_eq_one.1 hR
    obtain ⟨a, rfl⟩ := Finset.card_eq_one.1 hA
    rw [Finset.singleton_subset_iff] at h2 h4
    refine ⟨i, a, (hspec i a).2 ⟨⟨h1, h2⟩, h3, h4⟩, bitSet_inj ?_⟩
    rw [hbits i a h2 h4, h5]


theorem nodup_constraintSingles (hN : N < 2 ^ 64) (wf : WFCon O C B cmin) :
    (generateConstraintSingles det C O B []).Nodup := by
  have hspec := fun i a => constraintSingleEx_spec (det := det) hN wf i a
  unfold generateConstraintSingles
  dsimp only
  generalize (constraintSingleEx det C O B).1 = o at hspec ⊢
  generalize (constraintSingleEx det C O B).2 = v at hspec ⊢
  split
  · exact List.nodup_nil
  have e : ((bitsToIndices o).flatMap fun i => (bitsToIndices v).map fun a => flip (flip det i) a)
      = (bitsToIndices o ×ˢ bitsToIndices v).map fun p => flip (flip det p.1) p.2 := by
    simp only [SProd.sprod, List.product, List.map_flatMap, List.map_map]
    rfl
  rw [e]
  apply List.Nodup.map_on _ (List.Nodup.product (nodup_indices o) (nodup_indices v))
  rintro ⟨i, a⟩ h1 ⟨j, b⟩ h2 he
  simp only [List.mem_product, mem_indices] at h1 h2
  dsimp only at he
  obtain ⟨⟨-, p2⟩, -, p4⟩ := (hspec i a).1 h1
  obtain ⟨⟨-, q2⟩, -, q4⟩ := (hspec j b).1 h2
  have hbits : ∀ i a, i ∈ conD det C → a ∈ conM det C ∪ conV det O B →
      a ∉ bitSet det ∧ i ∈ bitSet det ∧ a < N := by
    intro i a hi ha
    refine ⟨?_, (Finset.mem_sdiff.1 hi).1, ?_⟩
    · simp only [conM, conV, Finset.mem_union, Finset.mem_sdiff] at ha
      tauto
    · simp only [conM, conV, Finset.mem_union, Finset.mem_sdiff, Finset.mem_inter] at ha
      rcases ha with h | h
      · exact lt_of_mem_bitSet h.1
      · exact lt_of_mem_bitSet h.1.1
  have hb : ∀ i a, i ∈ conD det C → a ∈ conM det C ∪ conV det O B →
      bitSet (flip (flip det i) a) = (bitSet det \ {i}) ∪ {a} := by
    intro i a hi ha
    obtain ⟨had, hid, haN⟩ := hbits i a hi ha
    have h1 := bitSet_flip_mem (lt_of_mem_bitSet hid) hid
    rw [bitSet_flip_not_mem haN, h1]
    · ext x; simp only [Finset.mem_insert, Finset.mem_erase, Finset.mem_union, Finset.mem_sdiff, Finset.mem_singleton]; tauto
    · rw [h1]; intro h; exact had (Finset.mem_of_mem_erase h)
  have := congrArg bitSet he
  rw [hb i a p2 p4, hb j b q2 q4] at this
  obtain ⟨a1, a2, -⟩ := hbits i a p2 p4
  obtain ⟨b1, b2, -⟩ := hbits j b q2 q4
  obtain ⟨e1, e2⟩ := move_inj (by simpa using a2) (by simpa using b2)
    (by simpa using a1) (by simpa using b1) this
  rw [Finset.singleton_inj] at e1 e2
  rw [e1, e2]


theorem double_move_bits {ij ab : BitVec N} (h2 : bitSet ij ⊆ conD det C) :
    bitSet ((det ^^^ ij) ||| ab) = (bitSet det \ bitSet ij) ∪ bitSet ab := by
  rw [bitSet_or, bitSet_xor]
  have : bitSet ij \ bitSet det = ∅ := by
    rw [Finset.sdiff_eq_empty_iff_subset]
    exact fun i hi => (Finset.mem_sdiff.1 (h2 hi)).1
  rw [this, Finset.union_empty]

theorem mem_constraintDoubles (wf : WFCon O C B cmin) (hC3 : 3 ≤ count C) (hdO : bitSet det ⊆ bitSet O)
    (old : List (BitVec N)) (t : BitVec N) :
    t ∈ generateConstraintDoubles det C O B old ↔
      ExcitedWithin 2 (fun i => O.getLsbD i = true) det t ∧ Satisfies C cmin t := by
  rw [excited_sat_iff wf hdO]
  have hspec := fun ij ab => constraintDoubleEx_spec (det := det) wf hC3 ij ab
  unfold generateConstraintDoubles
  generalize constraintDoubleEx det C O B = ov at hspec ⊢
  obtain ⟨Oc, V⟩ := ov
  dsimp only at hspec ⊢
  simp only [List.mem_flatMap, List.mem_map]
  constructor
  · rintro ⟨ij, hij, ab, hab, rfl⟩
    obtain ⟨⟨h1, h2, h3⟩, h4, h5, h6⟩ := (hspec ij ab).1 ⟨hij, hab⟩
    exact ⟨_, _, h1, h4, h2, h3, h5, h6, double_move_bits h3⟩
  · rintro ⟨R, A, hR, hA, h1, h2, h3, h4, h5⟩
    have real : ∀ S : Finset Nat, S.card = 2 → (∀ i ∈ S, i < N) → ∃ w : BitVec N, bitSet w = S := by
      intro S h hS
      obtain ⟨x, y, hxy, rfl⟩ := Finset.card_eq_two.1 h
      exact ⟨flip (flip 0#N x) y, bitSet_pair (hS x (by simp)) (hS y (by simp)) hxy⟩
    obtain ⟨ij, rfl⟩ := real R hR (fun i hi => lt_of_mem_bitSet (Finset.mem_sdiff.1 (h2 hi)).1)
    obtain ⟨ab, rfl⟩ := real A hA (fun a ha => by
      have := h4 ha
      simp only [conM, conV, Finset.mem_union, Finset.mem_sdiff, Finset.mem_inter] at this
      rcases this with h | h
      · exact lt_of_mem_bitSet h.1
      · exact lt_of_mem_bitSet h.1.1)
    obtain ⟨m1, m2⟩ := (hspec ij ab).2 ⟨⟨hR, h1, h2⟩, hA, h3, h4⟩
    exact ⟨ij, m1, ab, m2, bitSet_inj (by rw [double_move_bits h2, h5])⟩

theorem nodup_constraintDoubles (wf : WFCon O C B cmin) (hC3 : 3 ≤ count C) (old : List (BitVec N)) :
    (generateConstraintDoubles det C O B old).Nodup := by
  have hspec := fun ij ab => constraintDoubleEx_spec (det := det) wf hC3 ij ab
  have hnd := constraintDoubleEx_nodup (det := det) wf
  unfold generateConstraintDoubles
  generalize constraintDoubleEx det C O B = ov at hspec hnd ⊢
  obtain ⟨Oc, V⟩ := ov
  dsimp only at hspec hnd ⊢
  have e : (Oc.flatMap fun ij => V.map fun ab => (det ^^^ ij) ||| ab)
      = (Oc ×ˢ V).map fun p => (det ^^^ p.1) ||| p.2 := by
    simp only [SProd.sprod, List.product, List.map_flatMap, List.map_map]
    rfl
  rw [e]
  apply List.Nodup.map_on _ (List.Nodup.product hnd.1 hnd.2)
  rintro ⟨i, a⟩ h1 ⟨j, b⟩ h2 he
  simp only [List.mem_product] at h1 h2
  dsimp only at he
  obtain ⟨⟨-, -, p3⟩, -, -, p6⟩ := (hspec i a).1 h1
  obtain ⟨⟨-, -, q3⟩, -, -, q6⟩ := (hspec j b).1 h2
  have := congrArg bitSet he
  rw [double_move_bits p3, double_move_bits q3] at this
  have hdis : ∀ A : Finset Nat, A ⊆ conM det C ∪ conV det O B → Disjoint A (bitSet det) := by
    intro A hA
    rw [Finset.disjoint_left]
    intro x hx
    have := hA hx
    simp only [conM, conV, Finset.mem_union, Finset.mem_sdiff] at this
    tauto
  have hsub : ∀ R : Finset Nat, R ⊆ conD det C → R ⊆ bitSet det :=
    fun R hR x hx => (Finset.mem_sdiff.1 (hR hx)).1
  obtain ⟨e1, e2⟩ := move_inj (hsub _ p3) (hsub _ q3) (hdis _ p6) (hdis _ q6) this
  rw [bitSet_inj e1, bitSet_inj e2]

end Macis
