import Verif.Lemmas.Ham

namespace Macis
open Spec
variable {M : Nat} {R : Type} [Field R]

theorem DoubleExc.of_string_alpha {a a' : BitVec M} (b : BitVec M) {o1 v1 o2 v2 : Nat} {sg : Int}
    (h : DoubleExc a a' o1 v1 o2 v2 sg) :
    DoubleExc (joinSpin a b) (joinSpin a' b) o1 v1 o2 v2 sg := by
  have o1N := BitVec.lt_of_getLsbD h.ho1
  have o2N := BitVec.lt_of_getLsbD h.ho2
  have v1N := h.v1N
  have v2N := h.v2N
  refine ⟨?_, ?_, ?_, ?_, h.ho, h.hv, by omega, by omega, ?_⟩
  · rw [join_alpha_bit _ _ o1N, h.ho1]
  · rw [join_alpha_bit _ _ o2N, h.ho2]
  · rw [join_alpha_bit _ _ v1N, h.hv1]
  · rw [join_alpha_bit _ _ v2N, h.hv2]
  · rw [excite_lift_alpha _ _ v1N o1N, cre_ann h.ho1 h.hv1 v1N, Option.map_some,
      excite_lift_alpha _ _ v2N o2N]
    have := h.hE
    rw [cre_ann h.ho1 h.hv1 v1N] at this
    rw [this]; rfl

theorem DoubleExc.of_string_beta {b b' : BitVec M} (a : BitVec M) {o1 v1 o2 v2 : Nat} {sg : Int}
    (h : DoubleExc b b' o1 v1 o2 v2 sg) :
    DoubleExc (joinSpin a b) (joinSpin a b') (o1 + M) (v1 + M) (o2 + M) (v2 + M) sg := by
  have o1N := BitVec.lt_of_getLsbD h.ho1
  have o2N := BitVec.lt_of_getLsbD h.ho2
  have v1N := h.v1N
  have v2N := h.v2N
  refine ⟨?_, ?_, ?_, ?_, fun e => h.ho (by omega), fun e => h.hv (by omega), by omega, by omega, ?_⟩
  · rw [join_beta_bit, h.ho1]
  · rw [join_beta_bit, h.ho2]
  · rw [join_beta_bit, h.hv1]
  · rw [join_beta_bit, h.hv2]
  · rw [excite_lift_beta _ _ v1N o1N, cre_ann h.ho1 h.hv1 v1N, Option.map_some,
      excite_lift_beta _ _ v2N o2N]
    have := h.hE
    rw [cre_ann h.ho1 h.hv1 v1N] at this
    rw [this]; rfl

theorem DoubleExc.of_string_both {a a' b b' : BitVec M} {o1 v1 o2 v2 : Nat} {s1 s2 : Int}
    (ho1 : a'.getLsbD o1 = true) (hv1 : a'.getLsbD v1 = false) (hv1M : v1 < M)
    (h1 : cre v1 (ann o1 (some (1, a'))) = some (s1, a))
    (ho2 : b'.getLsbD o2 = true) (hv2 : b'.getLsbD v2 = false) (hv2M : v2 < M)
    (h2 : cre v2 (ann o2 (some (1, b'))) = some (s2, b)) :
    DoubleExc (joinSpin a b) (joinSpin a' b') o1 v1 (o2 + M) (v2 + M) (s1 * s2) := by
  have o1N := BitVec.lt_of_getLsbD ho1
  have o2N := BitVec.lt_of_getLsbD ho2
  refine ⟨?_, ?_, ?_, ?_, by omega, by omega, by omega, by omega, ?_⟩
  · rw [join_alpha_bit _ _ o1N, ho1]
  · rw [join_beta_bit, ho2]
  · rw [join_alpha_bit _ _ hv1M, hv1]
  · rw [join_beta_bit, hv2]
  · rw [excite_lift_alpha _ _ hv1M o1N, h1, Option.map_some, excite_lift_beta _ _ hv2M o2N]
    rw [cre_ann ho2 hv2 hv2M] at h2 ⊢
    simp only [Option.some.injEq, Prod.mk.injEq, mul_one] at h2
    simp [h2.1, h2.2, mul_comm]

/-- string level single excitation data -/
theorem single_data {a a' : BitVec M} (h : ExcitedWithin 1 (fun _ => True) a' a) :
    ∃ o v sgn, singleExcitationSignIndices a a' (a ^^^ a') = (o, v, sgn) ∧
      a'.getLsbD o = true ∧ a'.getLsbD v = false ∧ v < M ∧ a.getLsbD v = true ∧ v ≠ o ∧
      cre v (ann o (some (1, a'))) = some (sgn, a) := by
  obtain ⟨o, v, sgn, h1, h2, h3, h4⟩ := C11_single_indices M a a' h
  have hv := BitVec.lt_of_getLsbD h3
  have hvo : v ≠ o := by
    rintro rfl
    obtain ⟨Rm, Ad, hR, hA, hRo, hAv, hk⟩ := h
    -- removing and re-adding gives the same determinant, which has no excitation
    have hE := h4
    rw [ann_eq_ladder, cre_eq_ladder hv, ladder_number hv, h2, if_pos rfl] at hE
    simp only [Option.some.injEq, Prod.mk.injEq] at hE
    obtain ⟨x, hx⟩ : Ad.Nonempty := Finset.card_pos.1 (by omega)
    have := (hk x).2 (Or.inr hx)
    rw [← hE.2, (hAv x hx).2.2] at this
    simp at this
  obtain ⟨b1, b2, b3, b4⟩ := (single_bits hv h4).resolve_right hvo
  exact ⟨o, v, sgn, h1, h2, b2, hv, h3, hvo, h4⟩

theorem double_data {a a' : BitVec M} (h : ExcitedWithin 2 (fun _ => True) a' a) :
    ∃ o1 v1 o2 v2 sgn, doublesSignIndices a a' (a ^^^ a') = (o1, v1, o2, v2, sgn) ∧
      DoubleExc a a' o1 v1 o2 v2 sgn := by
  obtain ⟨o1, v1, o2, v2, sgn, h1, h2, h3, h4, h5, h6, h7, h8, h9, _, h10⟩ :=
    C11_double_indices M a a' h
  exact ⟨o1, v1, o2, v2, sgn, h1, h4, h5, h6, h7, by omega, by omega, BitVec.lt_of_getLsbD h8,
    BitVec.lt_of_getLsbD h9, h10⟩

/-- three or more moved electrons: no coupling -/
theorem spec_zero_of_three {norb : Nat} (hn : norb ≤ M) {a a' b b' : BitVec M} {ka kb : Nat}
    (ha : ExcitedWithin ka (fun _ => True) a' a) (hb : ExcitedWithin kb (fun _ => True) b' b)
    (hk : 3 ≤ ka + kb) (t : Bool × Nat → Bool × Nat → R)
    (w : Bool × Nat → Bool × Nat → Bool × Nat → Bool × Nat → R) :
    abs1 (spinOrbs norb) (soBit M) t (joinSpin a b) (joinSpin a' b') = 0 ∧
    abs2 (spinOrbs norb) (soBit M) w (joinSpin a b) (joinSpin a' b') = 0 := by
  obtain ⟨Ra, Aa, hRa, hAa, hRoa, hAva, hka⟩ := ha
  obtain ⟨Rb, Ab, hRb, hAb, hRob, hAvb, hkb⟩ := hb
  let A : Finset Nat := Aa ∪ Ab.image (· + M)
  have hA : A.card = ka + kb := by
    rw [Finset.card_union_of_disjoint, hAa, Finset.card_image_of_injective _ (add_left_injective M), hAb]
    rw [Finset.disjoint_left]
    intro x hx hx'
    simp only [Finset.mem_image] at hx'
    obtain ⟨y, _, rfl⟩ := hx'
    have := (hAva _ hx).1
    omega
  have hAbits : ∀ j ∈ A, (joinSpin a b).getLsbD j = true ∧ (joinSpin a' b').getLsbD j = false := by
    intro j hj
    simp only [A, Finset.mem_union, Finset.mem_image] at hj
    rcases hj with hj | ⟨y, hy, rfl⟩
    · have h := hAva j hj
      rw [join_alpha_bit _ _ h.1, join_alpha_bit _ _ h.1, h.2.2, hka]
      exact ⟨Or.inr hj, rfl⟩
    · have h := hAvb y hy
      rw [join_beta_bit, join_beta_bit, h.2.2, hkb]
      exact ⟨Or.inr hy, rfl⟩
  constructor
  · unfold abs1
    refine Finset.sum_eq_zero fun P hP => Finset.sum_eq_zero fun Q hQ => ?_
    by_cases hz : amp1 (joinSpin a b) (joinSpin a' b') (soBit M P) (soBit M Q) = 0
    · rw [hz]; simp
    · obtain ⟨a1, a2, a3⟩ := amp1_support (soBit_lt hn P hP) hz
      have hsub : A ⊆ {soBit M P} := by
        intro j hj
        obtain ⟨h1, h2⟩ := hAbits j hj
        have := (a3 j).1 h1
        rw [h2] at this; simpa using this
      have := Finset.card_le_card hsub
      rw [hA] at this; simp at this; omega
  · unfold abs2
    refine Finset.sum_eq_zero fun P hP => Finset.sum_eq_zero fun Q hQ =>
      Finset.sum_eq_zero fun X hX => Finset.sum_eq_zero fun Y hY => ?_
    by_cases hz : amp2 (joinSpin a b) (joinSpin a' b') (soBit M P) (soBit M X) (soBit M Y)
        (soBit M Q) = 0
    · rw [hz]; simp
    · obtain ⟨a1, a2, a3, a4, a5, a6, a7⟩ := amp2_support (soBit_lt hn P hP) (soBit_lt hn X hX) hz
      have hsub : A ⊆ {soBit M P, soBit M X} := by
        intro j hj
        obtain ⟨h1, h2⟩ := hAbits j hj
        have := (a7 j).1 h1
        rw [h2] at this; simpa using this
      have := Finset.card_le_card hsub
      have h2 := Finset.card_le_two (a := soBit M P) (b := soBit M X)
      omega

/-- The matrix element of the code is that of the specification (string form). -/
theorem matrixElement_join (I : Integrals R) (hn : I.norb ≤ M) (h2 : (2 : R) ≠ 0)
    (hV : PairSymmetric I) (a b a' b' : BitVec M)
    (sa : SupportedOn I.norb a) (sb : SupportedOn I.norb b)
    (sa' : SupportedOn I.norb a') (sb' : SupportedOn I.norb b')
    (ha : electrons a = electrons a') (hb : electrons b = electrons b') :
    I.matrixElement (joinSpin a b) (joinSpin a' b')
      = hamiltonian I (joinSpin a b) (joinSpin a' b') := by
  obtain ⟨ka, ca, ea⟩ := exists_excited ha
  obtain ⟨kb, cb, eb⟩ := exists_excited hb
  have inj := soBit_inj (M := M) hn
  have lt := soBit_lt (M := M) hn
  have sym := soV_symm hV
  have i2 : (2⁻¹ : R) * 2 = 1 := inv_mul_cancel₀ h2
  rw [hamiltonian_eq_abs]
  simp only [Integrals.matrixElement, loWord_joinSpin, hiWord_joinSpin, Integrals.matrixElementSpin,
    ca, cb, bitsToIndices_eq_occ]
  by_cases h3 : 3 ≤ ka + kb
  · obtain ⟨z1, z2⟩ := spec_zero_of_three hn ea eb h3 (soT I) (soV I)
    rw [if_pos (by omega), z1, z2]; simp
  have memA : ∀ {s : BitVec M}, SupportedOn I.norb s → ∀ {p}, s.getLsbD p = true →
      ∀ σ, (σ, p) ∈ spinOrbs I.norb := by
    intro s hs p hp σ; simp [spinOrbs]; exact hs p hp
  rw [if_neg (by omega)]
  by_cases hka2 : ka = 2
  · subst hka2
    have hkb : kb = 0 := by omega
    subst hkb
    have hbb : b = b' := excited_zero.1 eb
    subst hbb
    obtain ⟨o1, v1, o2, v2, sgn, e1, hD⟩ := double_data ea
    have hD' := hD.of_string_alpha b
    rw [if_pos rfl, Integrals.matrixElement4, e1]
    have m1 := memA sa' hD.ho1 false
    have m2 := memA sa' hD.ho2 false
    have m3 := memA sa ((hD.bits v1).2 (by simp)) false
    have m4 := memA sa ((hD.bits v2).2 (by simp)) false
    rw [abs1_double (K := spinOrbs I.norb) (e := soBit M) lt (o1 := (false, o1)) (v1 := (false, v1)) (o2 := (false, o2)) (v2 := (false, v2)) hD',
      abs2_double (K := spinOrbs I.norb) (e := soBit M) inj lt m1 m3 m2 m4 hD' sym]
    simp only [soV, Integrals.G]
    simp
    linear_combination (-(sgn : R) * (I.V v1 o1 v2 o2 - I.V v1 o2 v2 o1)) * i2
  rw [if_neg (by omega)]
  by_cases hkb2 : kb = 2
  · subst hkb2
    have hka : ka = 0 := by omega
    subst hka
    have haa : a = a' := excited_zero.1 ea
    subst haa
    obtain ⟨o1, v1, o2, v2, sgn, e1, hD⟩ := double_data eb
    have hD' := hD.of_string_beta a
    rw [if_pos rfl, Integrals.matrixElement4, e1]
    have m1 := memA sb' hD.ho1 true
    have m2 := memA sb' hD.ho2 true
    have m3 := memA sb ((hD.bits v1).2 (by simp)) true
    have m4 := memA sb ((hD.bits v2).2 (by simp)) true
    rw [abs1_double (K := spinOrbs I.norb) (e := soBit M) lt (o1 := (true, o1)) (v1 := (true, v1)) (o2 := (true, o2)) (v2 := (true, v2)) hD',
      abs2_double (K := spinOrbs I.norb) (e := soBit M) inj lt m1 m3 m2 m4 hD' sym]
    simp only [soV, Integrals.G]
    simp
    linear_combination (-(sgn : R) * (I.V v1 o1 v2 o2 - I.V v1 o2 v2 o1)) * i2
  rw [if_neg (by omega)]
  by_cases h11 : ka = 1 ∧ kb = 1
  · obtain ⟨rfl, rfl⟩ := h11
    obtain ⟨o1, v1, s1, e1, p1, p2, p3, p4, p5, p6⟩ := single_data ea
    obtain ⟨o2, v2, s2, e2, q1, q2, q3, q4, q5, q6⟩ := single_data eb
    have hD' := DoubleExc.of_string_both p1 p2 p3 p6 q1 q2 q3 q6
    rw [if_pos (by omega), Integrals.matrixElement22, e1, e2]
    have m1 := memA sa' p1 false
    have m2 := memA sb' q1 true
    have m3 := memA sa p4 false
    have m4 := memA sb q4 true
    rw [abs1_double (K := spinOrbs I.norb) (e := soBit M) lt (o1 := (false, o1)) (v1 := (false, v1)) (o2 := (true, o2)) (v2 := (true, v2)) hD',
      abs2_double (K := spinOrbs I.norb) (e := soBit M) inj lt m1 m3 m2 m4 hD' sym]
    simp only [soV]
    simp
    linear_combination (-(s1 * s2 : R) * (I.V v1 o1 v2 o2)) * i2
  rw [if_neg (by omega)]
  by_cases hka1 : ka = 1
  · subst hka1
    have hkb : kb = 0 := by omega
    subst hkb
    have hbb : b = b' := excited_zero.1 eb
    subst hbb
    obtain ⟨o, v, sgn, e1, p1, p2, p3, p4, p5, p6⟩ := single_data ea
    have hE : cre (soBit M (false, v)) (ann (soBit M (false, o)) (some (1, joinSpin a' b)))
        = some (sgn, joinSpin a b) := by
      simp only [soBit, so]
      rw [if_neg (by simp), if_neg (by simp),
        excite_lift_alpha _ _ p3 (BitVec.lt_of_getLsbD p1), p6]; rfl
    have m1 := memA sa' p1 false
    have m2 := memA sa p4 false
    have hne : ((false, v) : Bool × Nat) ≠ (false, o) := by simp [p5]
    rw [if_pos rfl, Integrals.matrixElement2, e1, abs1_single inj lt m1 m2 hne hE,
      abs2_single inj lt m1 m2 hne hE sym]
    dsimp only
    rw [sum_occ sa hn, sum_occ sb hn, sum_spinOrbs]
    simp only [soT, soV, soBit, so, Integrals.Gred, Integrals.G, Integrals.Vred]
    simp only [if_true, and_true, true_and, Bool.false_eq_true, if_false, Bool.true_eq_false, false_and, and_false]
    obtain ⟨b1, b2, -, b4⟩ := (single_bits p3 p6).resolve_right p5
    have key : ∀ p ∈ Finset.range I.norb,
        (if a.getLsbD p = true then I.V p p v o - I.V p o v p else 0)
        = (if (joinSpin a' b).getLsbD p = true ∧ ((false, p) : Bool × Nat) ≠ (false, o)
            then I.V v o p p - I.V v p p o else 0) := by
      intro p hp
      simp only [Finset.mem_range] at hp
      rw [join_alpha_bit _ _ (by omega)]
      by_cases hpv : p = v
      · subst hpv
        rw [if_pos p4, if_neg (by simp [p2]), hV p p p o]; ring
      · have : a.getLsbD p = true ↔ a'.getLsbD p = true ∧ ((false, p) : Bool × Nat) ≠ (false, o) := by
          rw [b4]; simp [hpv]
        simp only [this]
        rw [hV p p v o, hV p o v p]
    have keyb : ∀ p ∈ Finset.range I.norb,
        (if b.getLsbD p = true then I.V p p v o else 0)
        = (if (joinSpin a' b).getLsbD (p + M) = true ∧ ((true, p) : Bool × Nat) ≠ (false, o)
            then I.V v o p p - 0 else 0) := by
      intro p hp
      rw [join_beta_bit, hV p p v o]; simp
    rw [Finset.sum_congr rfl key, Finset.sum_congr rfl keyb]
    generalize (∑ p ∈ Finset.range I.norb, if (joinSpin a' b).getLsbD p = true ∧
      ((false, p) : Bool × Nat) ≠ (false, o) then I.V v o p p - I.V v p p o else 0) = X1
    generalize (∑ p ∈ Finset.range I.norb, if (joinSpin a' b).getLsbD (p + M) = true ∧
      ((true, p) : Bool × Nat) ≠ (false, o) then I.V v o p p - 0 else 0) = X2
    linear_combination (-(sgn : R) * (X1 + X2)) * i2
  rw [if_neg (by omega)]
  by_cases hkb1 : kb = 1
  · subst hkb1
    have hka : ka = 0 := by omega
    subst hka
    have haa : a = a' := excited_zero.1 ea
    subst haa
    obtain ⟨o, v, sgn, e1, p1, p2, p3, p4, p5, p6⟩ := single_data eb
    have hE : cre (soBit M (true, v)) (ann (soBit M (true, o)) (some (1, joinSpin a b')))
        = some (sgn, joinSpin a b) := by
      simp only [soBit, so]
      simp only [if_true]
      rw [excite_lift_beta _ _ p3 (BitVec.lt_of_getLsbD p1), p6]; rfl
    have m1 := memA sb' p1 true
    have m2 := memA sb p4 true
    have hne : ((true, v) : Bool × Nat) ≠ (true, o) := by simp [p5]
    rw [if_pos rfl, Integrals.matrixElement2, e1, abs1_single inj lt m1 m2 hne hE,
      abs2_single inj lt m1 m2 hne hE sym]
    dsimp only
    rw [sum_occ sa hn, sum_occ sb hn, sum_spinOrbs]
    simp only [soT, soV, soBit, so, Integrals.Gred, Integrals.G, Integrals.Vred]
    simp only [if_true, and_true, true_and, Bool.false_eq_true, if_false, Bool.true_eq_false,
      false_and, and_false]
    obtain ⟨b1, b2, -, b4⟩ := (single_bits p3 p6).resolve_right p5
    have key : ∀ p ∈ Finset.range I.norb,
        (if b.getLsbD p = true then I.V p p v o - I.V p o v p else 0)
        = (if (joinSpin a b').getLsbD (p + M) = true ∧ ((true, p) : Bool × Nat) ≠ (true, o)
            then I.V v o p p - I.V v p p o else 0) := by
      intro p hp
      simp only [Finset.mem_range] at hp
      rw [join_beta_bit]
      by_cases hpv : p = v
      · subst hpv
        rw [if_pos p4, if_neg (by simp [p2]), hV p p p o]; ring
      · have : b.getLsbD p = true ↔ b'.getLsbD p = true ∧ ((true, p) : Bool × Nat) ≠ (true, o) := by
          rw [b4]; simp [hpv]
        simp only [this]
        rw [hV p p v o, hV p o v p]
    have keyb : ∀ p ∈ Finset.range I.norb,
        (if a.getLsbD p = true then I.V p p v o else 0)
        = (if (joinSpin a b').getLsbD p = true ∧ ((false, p) : Bool × Nat) ≠ (true, o)
            then I.V v o p p - 0 else 0) := by
      intro p hp
      simp only [Finset.mem_range] at hp
      rw [join_alpha_bit _ _ (by omega), hV p p v o]; simp
    rw [Finset.sum_congr rfl key, Finset.sum_congr rfl keyb]
    generalize (∑ p ∈ Finset.range I.norb, if (joinSpin a b').getLsbD (p + M) = true ∧
      ((true, p) : Bool × Nat) ≠ (true, o) then I.V v o p p - I.V v p p o else 0) = X1
    generalize (∑ p ∈ Finset.range I.norb, if (joinSpin a b').getLsbD p = true ∧
      ((false, p) : Bool × Nat) ≠ (true, o) then I.V v o p p - 0 else 0) = X2
    linear_combination (-(sgn : R) * (X1 + X2)) * i2
  rw [if_neg (by omega)]
  have hka : ka = 0 := by omega
  have hkb : kb = 0 := by omega
  subst hka hkb
  have haa : a = a' := excited_zero.1 ea
  have hbb : b = b' := excited_zero.1 eb
  subst haa hbb
  rw [abs1_diag inj lt, abs2_diag inj lt, Integrals.matrixElementDiag]
  have conv : ∀ {s t : BitVec M} (_ : SupportedOn I.norb s) (_ : SupportedOn I.norb t)
      (f : Nat → Nat → R),
      ((occ t).map fun q => ((occ s).map fun p => f p q).sum).sum
      = ∑ p ∈ Finset.range I.norb, ∑ q ∈ Finset.range I.norb,
        if s.getLsbD p = true ∧ t.getLsbD q = true then f p q else 0 := by
    intro s t hs ht f
    rw [sum_occ ht hn, Finset.sum_comm]
    refine Finset.sum_congr rfl fun q _ => ?_
    rw [sum_occ hs hn]
    by_cases h : t.getLsbD q = true <;> simp [h]
  rw [conv sa sa, conv sb sb, conv sa sb, sum_occ sa hn, sum_occ sb hn]
  simp only [sum_spinOrbs]
  simp only [soT, soV, soBit, so, Integrals.G2red, Integrals.G, Integrals.V2red]
  simp only [if_true, Bool.false_eq_true, if_false, Bool.true_eq_false,
    join_beta_bit, and_self]
  have hA : ∀ p ∈ Finset.range I.norb, (joinSpin a b).getLsbD p = a.getLsbD p := by
    intro p hp; simp only [Finset.mem_range] at hp; exact join_alpha_bit _ _ (by omega)
  have t1 : (∑ p ∈ Finset.range I.norb, if (joinSpin a b).getLsbD p = true then I.T p p else 0)
      = ∑ p ∈ Finset.range I.norb, if a.getLsbD p = true then I.T p p else 0 :=
    Finset.sum_congr rfl fun p hp => by rw [hA p hp]
  have t2 : (∑ p ∈ Finset.range I.norb, ∑ q ∈ Finset.range I.norb,
        if (joinSpin a b).getLsbD p = true ∧ (joinSpin a b).getLsbD q = true
          then I.V p p q q - I.V p q q p else 0)
      = ∑ p ∈ Finset.range I.norb, ∑ q ∈ Finset.range I.norb,
        if a.getLsbD p = true ∧ a.getLsbD q = true then I.V p p q q - I.V p q q p else 0 :=
    Finset.sum_congr rfl fun p hp => Finset.sum_congr rfl fun q hq => by rw [hA p hp, hA q hq]
  have t3 : (∑ p ∈ Finset.range I.norb, ∑ q ∈ Finset.range I.norb,
        if (joinSpin a b).getLsbD p = true ∧ b.getLsbD q = true then I.V p p q q - 0 else 0)
      = ∑ p ∈ Finset.range I.norb, ∑ q ∈ Finset.range I.norb,
        if a.getLsbD p = true ∧ b.getLsbD q = true then I.V p p q q else 0 :=
    Finset.sum_congr rfl fun p hp => Finset.sum_congr rfl fun q hq => by rw [hA p hp, sub_zero]
  have t4 : (∑ p ∈ Finset.range I.norb, ∑ q ∈ Finset.range I.norb,
        if b.getLsbD p = true ∧ (joinSpin a b).getLsbD q = true then I.V p p q q - 0 else 0)
      = ∑ p ∈ Finset.range I.norb, ∑ q ∈ Finset.range I.norb,
        if a.getLsbD p = true ∧ b.getLsbD q = true then I.V p p q q else 0 := by
    rw [Finset.sum_comm]
    refine Finset.sum_congr rfl fun p hp => Finset.sum_congr rfl fun q hq => ?_
    rw [hA p hp, sub_zero, hV q q p p]
    by_cases h1 : a.getLsbD p = true <;> by_cases h2 : b.getLsbD q = true <;> simp [h1, h2]
  have half : ∀ s : BitVec M, (∑ p ∈ Finset.range I.norb, ∑ q ∈ Finset.range I.norb,
        if s.getLsbD p = true ∧ s.getLsbD q = true then 2⁻¹ * (I.V p p q q - I.V p q q p) else 0)
      = 2⁻¹ * ∑ p ∈ Finset.range I.norb, ∑ q ∈ Finset.range I.norb,
        if s.getLsbD p = true ∧ s.getLsbD q = true then I.V p p q q - I.V p q q p else 0 := by
    intro s
    rw [Finset.mul_sum]
    refine Finset.sum_congr rfl fun p hp => ?_
    rw [Finset.mul_sum]
    refine Finset.sum_congr rfl fun q hq => ?_
    split <;> simp
  simp only [Finset.sum_add_distrib]
  rw [t1, t2, t3, t4, half a, half b]
  linear_combination (-(∑ p ∈ Finset.range I.norb, ∑ q ∈ Finset.range I.norb,
        if a.getLsbD p = true ∧ b.getLsbD q = true then I.V p p q q else 0)) * i2

end Macis
