import Verif.Props.SD

/-! Property C100: the CIS space and the spin-resolved generators, unrestricted and restricted to a list of
active orbitals (`sd_operations.hpp:228-418, 477-493`). -/
namespace Macis
open Spec

/-- Determinants reached by moving exactly `ka` alpha and `kb` beta electrons inside the allowed
orbitals. -/
def ExcitedSpin {M : Nat} (ka kb : Nat) (allowed : Nat → Prop) (s t : BitVec (2 * M)) : Prop :=
  ExcitedWithin ka allowed (loWord s) (loWord t) ∧ ExcitedWithin kb allowed (hiWord s) (hiWord t)

theorem excitedSpin_unique {M ka kb la lb : Nat} {P : Nat → Prop} {s t : BitVec (2 * M)}
    (h1 : ExcitedSpin ka kb P s t) (h2 : ExcitedSpin la lb P s t) : ka = la ∧ kb = lb :=
  ⟨excited_card_unique h1.1 h2.1, excited_card_unique h1.2 h2.2⟩

section
variable {M : Nat} {P : Nat → Prop} {s : BitVec (2 * M)} {sA sB dA dB : List (BitVec M)}

theorem mem_alpha {k : Nat} (h : ∀ t, t ∈ sA ↔ ExcitedWithin k P (loWord s) t) (t : BitVec (2 * M)) :
    t ∈ sA.map (fun x => joinSpin x (hiWord s)) ↔ ExcitedSpin k 0 P s t := by
  simp only [List.mem_map, ExcitedSpin]
  constructor
  · rintro ⟨a, ha, rfl⟩
    rw [loWord_joinSpin, hiWord_joinSpin]; exact ⟨(h a).1 ha, excited_zero.2 rfl⟩
  · rintro ⟨h1, h2⟩
    exact ⟨loWord t, (h _).2 h1, by rw [← excited_zero.1 h2, joinSpin_lo_hi]⟩

theorem mem_beta {k : Nat} (h : ∀ t, t ∈ sB ↔ ExcitedWithin k P (hiWord s) t) (t : BitVec (2 * M)) :
    t ∈ sB.map (fun x => joinSpin (loWord s) x) ↔ ExcitedSpin 0 k P s t := by
  simp only [List.mem_map, ExcitedSpin]
  constructor
  · rintro ⟨a, ha, rfl⟩
    rw [loWord_joinSpin, hiWord_joinSpin]; exact ⟨excited_zero.2 rfl, (h a).1 ha⟩
  · rintro ⟨h1, h2⟩
    exact ⟨hiWord t, (h _).2 h2, by rw [← excited_zero.1 h1, joinSpin_lo_hi]⟩

theorem mem_mixed (hA : ∀ t, t ∈ sA ↔ ExcitedWithin 1 P (loWord s) t)
    (hB : ∀ t, t ∈ sB ↔ ExcitedWithin 1 P (hiWord s) t) (t : BitVec (2 * M)) :
    t ∈ sA.flatMap (fun a => sB.map fun b => joinSpin a b) ↔ ExcitedSpin 1 1 P s t := by
  simp only [List.mem_flatMap, List.mem_map, ExcitedSpin]
  constructor
  · rintro ⟨a, ha, b, hb, rfl⟩
    rw [loWord_joinSpin, hiWord_joinSpin]; exact ⟨(hA a).1 ha, (hB b).1 hb⟩
  · rintro ⟨h1, h2⟩
    exact ⟨loWord t, (hA _).2 h1, hiWord t, (hB _).2 h2, joinSpin_lo_hi t⟩

theorem disjoint_spin {l1 l2 : List (BitVec (2 * M))} {a b c d : Nat}
    (h1 : ∀ t, t ∈ l1 ↔ ExcitedSpin a b P s t) (h2 : ∀ t, t ∈ l2 ↔ ExcitedSpin c d P s t)
    (hne : ¬ (a = c ∧ b = d)) : List.Disjoint l1 l2 :=
  fun t ht1 ht2 => hne (excitedSpin_unique ((h1 t).1 ht1) ((h2 t).1 ht2))

theorem nodup_alpha (h : sA.Nodup) : (sA.map (fun x => joinSpin x (hiWord s))).Nodup :=
  List.Nodup.map (fun _ _ h => (joinSpin_inj h).1) h

theorem nodup_beta (h : sB.Nodup) : (sB.map (fun x => joinSpin (loWord s) x)).Nodup :=
  List.Nodup.map (fun _ _ h => (joinSpin_inj h).2) h

theorem nodup_mixed (hA : sA.Nodup) (hB : sB.Nodup) :
    (sA.flatMap (fun a => sB.map fun b => joinSpin a b)).Nodup := by
  rw [List.nodup_flatMap]
  refine ⟨fun a _ => List.Nodup.map (fun _ _ h => (joinSpin_inj h).2) hB, hA.imp ?_⟩
  intro x y hxy z h1 h2
  obtain ⟨_, _, rfl⟩ := List.mem_map.1 h1
  obtain ⟨_, _, h⟩ := List.mem_map.1 h2
  exact hxy (joinSpin_inj h).1.symm

theorem spinSingles_exact (hA : ∀ t, t ∈ sA ↔ ExcitedWithin 1 P (loWord s) t)
    (hB : ∀ t, t ∈ sB ↔ ExcitedWithin 1 P (hiWord s) t) (nA : sA.Nodup) (nB : sB.Nodup) :
    (spinSingles (loWord s) (hiWord s) sA sB).Nodup ∧
      ∀ t, t ∈ spinSingles (loWord s) (hiWord s) sA sB ↔
        ExcitedSpin 1 0 P s t ∨ ExcitedSpin 0 1 P s t :=
  ⟨List.Nodup.append (nodup_alpha nA) (nodup_beta nB)
      (disjoint_spin (mem_alpha hA) (mem_beta hB) (by omega)),
    fun t => by rw [spinSingles, List.mem_append, mem_alpha hA, mem_beta hB]⟩

theorem spinDoubles_exact (hA : ∀ t, t ∈ sA ↔ ExcitedWithin 1 P (loWord s) t)
    (hB : ∀ t, t ∈ sB ↔ ExcitedWithin 1 P (hiWord s) t)
    (gA : ∀ t, t ∈ dA ↔ ExcitedWithin 2 P (loWord s) t)
    (gB : ∀ t, t ∈ dB ↔ ExcitedWithin 2 P (hiWord s) t) (nA : sA.Nodup) (nB : sB.Nodup)
    (mA : dA.Nodup) (mB : dB.Nodup) :
    (spinDoubles (loWord s) (hiWord s) sA sB dA dB).Nodup ∧
      ∀ t, t ∈ spinDoubles (loWord s) (hiWord s) sA sB dA dB ↔
        ExcitedSpin 2 0 P s t ∨ ExcitedSpin 0 2 P s t ∨ ExcitedSpin 1 1 P s t := by
  constructor
  · refine List.Nodup.append (List.Nodup.append (nodup_alpha mA) (nodup_beta mB)
      (disjoint_spin (mem_alpha gA) (mem_beta gB) (by omega))) (nodup_mixed nA nB) ?_
    intro t h1 h2
    rcases List.mem_append.1 h1 with h1 | h1
    · exact disjoint_spin (mem_alpha gA) (mem_mixed hA hB) (by omega) h1 h2
    · exact disjoint_spin (mem_beta gB) (mem_mixed hA hB) (by omega) h1 h2
  · intro t
    rw [spinDoubles, List.mem_append, List.mem_append, mem_alpha gA, mem_beta gB, mem_mixed hA hB, or_assoc]

end

/-! ### C100 -/

/-- C100: the CIS space lists the reference first, then exactly the determinants with one electron moved
(spin conserving, inside `norb` orbitals), each once. -/
theorem C100_cis_exact (M norb : Nat) (hn : norb ≤ M) (s : BitVec (2 * M))
    (ha : SupportedOn norb (loWord s)) (hb : SupportedOn norb (hiWord s)) :
    ∃ l, generateCis norb s = some (s :: l) ∧ (s :: l).Nodup ∧
      ∀ t, t ∈ l ↔ ExcitedSpin 1 0 (· < norb) s t ∨ ExcitedSpin 0 1 (· < norb) s t := by
  obtain ⟨sA, hsA, hsAn, hsAm⟩ := C07_singles_exact M norb hn _ ha
  obtain ⟨sB, hsB, hsBn, hsBm⟩ := C07_singles_exact M norb hn _ hb
  obtain ⟨h1, h2⟩ := spinSingles_exact hsAm hsBm hsAn hsBn
  refine ⟨spinSingles (loWord s) (hiWord s) sA sB, ?_, ?_, h2⟩
  · simp [generateCis, generateSinglesSpin, hsA, hsB]
  · rw [List.nodup_cons]
    refine ⟨fun h => ?_, h1⟩
    have h0 : ExcitedSpin 0 0 (· < norb) s s := ⟨excited_zero.2 rfl, excited_zero.2 rfl⟩
    rcases (h2 s).1 h with h | h
    · have := excitedSpin_unique h0 h; omega
    · have := excitedSpin_unique h0 h; omega

/-- C100: `generate_singles_spin` lists exactly the determinants with one electron moved, once each. -/
theorem C100_singles_spin_exact (M norb : Nat) (hn : norb ≤ M) (s : BitVec (2 * M))
    (ha : SupportedOn norb (loWord s)) (hb : SupportedOn norb (hiWord s)) :
    ∃ l, generateSinglesSpin norb s = some l ∧ l.Nodup ∧
      ∀ t, t ∈ l ↔ ExcitedSpin 1 0 (· < norb) s t ∨ ExcitedSpin 0 1 (· < norb) s t := by
  obtain ⟨sA, hsA, hsAn, hsAm⟩ := C07_singles_exact M norb hn _ ha
  obtain ⟨sB, hsB, hsBn, hsBm⟩ := C07_singles_exact M norb hn _ hb
  obtain ⟨h1, h2⟩ := spinSingles_exact hsAm hsBm hsAn hsBn
  exact ⟨_, by simp [generateSinglesSpin, hsA, hsB], h1, h2⟩

/-- C100: `generate_singles_doubles_spin` splits the one- and two-electron excitations exactly. -/
theorem C100_singles_doubles_spin_exact (M norb : Nat) (hn : norb ≤ M) (s : BitVec (2 * M))
    (ha : SupportedOn norb (loWord s)) (hb : SupportedOn norb (hiWord s)) :
    ∃ l d, generateSinglesDoublesSpin norb s = some (l, d) ∧ l.Nodup ∧ d.Nodup ∧
      (∀ t, t ∈ l ↔ ExcitedSpin 1 0 (· < norb) s t ∨ ExcitedSpin 0 1 (· < norb) s t) ∧
      ∀ t, t ∈ d ↔ ExcitedSpin 2 0 (· < norb) s t ∨ ExcitedSpin 0 2 (· < norb) s t ∨
        ExcitedSpin 1 1 (· < norb) s t := by
  obtain ⟨sA, hsA, hsAn, hsAm⟩ := C07_singles_exact M norb hn _ ha
  obtain ⟨sB, hsB, hsBn, hsBm⟩ := C07_singles_exact M norb hn _ hb
  obtain ⟨dA, hdA, hdAn, hdAm⟩ := C08_doubles_exact M norb hn _ ha
  obtain ⟨dB, hdB, hdBn, hdBm⟩ := C08_doubles_exact M norb hn _ hb
  obtain ⟨h1, h2⟩ := spinSingles_exact hsAm hsBm hsAn hsBn
  obtain ⟨h3, h4⟩ := spinDoubles_exact hsAm hsBm hdAm hdBm hsAn hsBn hdAn hdBn
  exact ⟨_, _, by simp [generateSinglesDoublesSpin, hsA, hsB, hdA, hdB], h1, h3, h2, h4⟩

/-- C100: the generator restricted to a list of distinct active orbitals moves electrons only between
those orbitals, and lists every such one- and two-electron excitation exactly once.  Electrons outside the
active orbitals may be anywhere. -/
theorem C100_singles_doubles_spin_as_exact (M : Nat) (s : BitVec (2 * M)) (asOrbs : List Nat)
    (hnd : asOrbs.Nodup) (hlt : ∀ i ∈ asOrbs, i < M) :
    (generateSinglesDoublesSpinAs s asOrbs).1.Nodup ∧ (generateSinglesDoublesSpinAs s asOrbs).2.Nodup ∧
      (∀ t, t ∈ (generateSinglesDoublesSpinAs s asOrbs).1 ↔
        ExcitedSpin 1 0 (· ∈ asOrbs) s t ∨ ExcitedSpin 0 1 (· ∈ asOrbs) s t) ∧
      ∀ t, t ∈ (generateSinglesDoublesSpinAs s asOrbs).2 ↔
        ExcitedSpin 2 0 (· ∈ asOrbs) s t ∨ ExcitedSpin 0 2 (· ∈ asOrbs) s t ∨
          ExcitedSpin 1 1 (· ∈ asOrbs) s t := by
  obtain ⟨nA, mA⟩ := C07_singles_as_exact M (loWord s) asOrbs hnd hlt
  obtain ⟨nB, mB⟩ := C07_singles_as_exact M (hiWord s) asOrbs hnd hlt
  obtain ⟨nA2, mA2⟩ := C08_doubles_as_exact M (loWord s) asOrbs hnd hlt
  obtain ⟨nB2, mB2⟩ := C08_doubles_as_exact M (hiWord s) asOrbs hnd hlt
  obtain ⟨h1, h2⟩ := spinSingles_exact mA mB nA nB
  obtain ⟨h3, h4⟩ := spinDoubles_exact mA mB mA2 mB2 nA nB nA2 nB2
  exact ⟨h1, h3, h2, h4⟩

-- two electrons of each spin in three of four orbitals; active orbitals 1, 2, 3
theorem supportedOn_of_all {N : Nat} (norb : Nat) (x : BitVec N)
    (h : ∀ i < N, x.getLsbD i = true → i < norb) : SupportedOn norb x := by
  intro i hi
  rcases Nat.lt_or_ge i N with h4 | h4
  · exact h i h4 hi
  · rw [BitVec.getLsbD_of_ge _ _ h4] at hi; cases hi

example : SupportedOn 3 (loWord (M := 4) (0b00110011#8)) ∧ SupportedOn 3 (hiWord (M := 4) (0b00110011#8)) :=
  ⟨supportedOn_of_all 3 _ (by decide), supportedOn_of_all 3 _ (by decide)⟩
example : generateCis (M := 4) 3 (0b00110011#8) =
    some [0b00110011#8, 0b00110110#8, 0b00110101#8, 0b01100011#8, 0b01010011#8] := by decide +kernel
example : [1, 2, 3].Nodup ∧ (∀ i ∈ [1, 2, 3], i < 4) ∧
    (generateSinglesDoublesSpinAs (M := 4) (0b00110011#8) [1, 2, 3]).1 =
      [0b00110101#8, 0b00111001#8, 0b01010011#8, 0b10010011#8] := by decide +kernel

end Macis
