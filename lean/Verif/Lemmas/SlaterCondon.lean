import Verif.Lemmas.CAR
import Mathlib.Algebra.BigOperators.Ring.Finset
import Mathlib.Algebra.BigOperators.Group.Finset.Basic
import Mathlib.Algebra.BigOperators.Group.Finset.Sigma
import Mathlib.Algebra.BigOperators.Group.Finset.Piecewise

/-! Slater–Condon rules at the level of spin orbitals. -/
namespace Macis
open Spec
variable {N : Nat}

theorem amp1_ladder {bra ket : BitVec N} {P Q : Nat} (hP : P < N) :
    amp1 bra ket P Q = amp bra (ladder false P (ladder true Q (some (1, ket)))) := by
  simp only [amp1, ann_eq_ladder, cre_eq_ladder hP]

/-- what a nonzero one-body amplitude says about the occupations -/
theorem amp1_support {bra ket : BitVec N} {P Q : Nat} (hP : P < N) (h : amp1 bra ket P Q ≠ 0) :
    ket.getLsbD Q = true ∧ (ket.getLsbD P = true → P = Q) ∧
    ∀ j, bra.getLsbD j = true ↔ (ket.getLsbD j = true ∧ j ≠ Q) ∨ j = P := by
  rw [amp1_ladder hP] at h
  cases h1 : ket.getLsbD Q
  · simp [ladder, h1, amp] at h
  have hQ := BitVec.lt_of_getLsbD h1
  simp only [ladder, h1, if_true] at h
  cases h4 : (flip ket Q).getLsbD P
  case true => simp [ladder, h4, amp] at h
  simp only [ladder, h4, if_true, amp] at h
  have hb : flip (flip ket Q) P = bra := by
    by_contra hc; simp [hc] at h
  rw [getLsbD_flip hQ] at h4
  refine ⟨rfl, ?_, ?_⟩
  · intro hk
    by_contra hc
    rw [hk] at h4; simp [Ne.symm hc] at h4
  · intro j
    rw [← hb, getLsbD_flip hP, getLsbD_flip hQ]
    by_cases jP : j = P
    · subst jP; rw [h4]; simp
    · by_cases jQ : j = Q
      · subst jQ; simp [h1, jP, Ne.symm jP]
      · simp [jP, jQ, Ne.symm jP, Ne.symm jQ]

/-! #### zero moved electrons -/

theorem amp1_diag {ket : BitVec N} {P Q : Nat} (hP : P < N) :
    amp1 ket ket P Q = if P = Q ∧ ket.getLsbD P = true then 1 else 0 := by
  by_cases hPQ : P = Q
  · subst hPQ
    rw [amp1_ladder hP, ladder_number hP]
    by_cases h : ket.getLsbD P = true
    · simp [h, amp]
    · simp [h, amp]
  · rw [if_neg (by tauto)]
    by_contra h
    obtain ⟨h1, h2, h3⟩ := amp1_support hP h
    have := (h3 Q).1 h1
    simp at this; exact hPQ this.symm

theorem amp2_number {bra ket : BitVec N} {P R S Q : Nat} (hP : P < N) (hR : R < N) (hS : R = S) :
    amp2 bra ket P R S Q = if ket.getLsbD R = true ∧ R ≠ Q then amp1 bra ket P Q else 0 := by
  subst hS
  rw [amp2_ladder hP hR, amp1_ladder hP]
  by_cases h1 : ket.getLsbD Q = true
  · have hQ := BitVec.lt_of_getLsbD h1
    simp only [ladder, h1, if_true]
    have := ladder_number hR ((-1) ^ below ket Q * 1) (flip ket Q)
    simp only [ladder] at this
    rw [this]
    rw [getLsbD_flip hQ]
    by_cases hRQ : R = Q
    · subst hRQ; simp [h1, amp, ladder]
    · cases hk : ket.getLsbD R <;> simp [hRQ, Ne.symm hRQ, amp, ladder]
  · simp [ladder, h1, amp]

theorem amp2_diag {ket : BitVec N} {P R S Q : Nat} (hP : P < N) (hR : R < N) (hS : S < N)
    (hQ : Q < N) :
    amp2 ket ket P R S Q =
      (if P = Q ∧ R = S ∧ ket.getLsbD P = true ∧ ket.getLsbD R = true then 1 else 0)
      - (if P = S ∧ R = Q ∧ ket.getLsbD P = true ∧ ket.getLsbD R = true then 1 else 0) := by
  by_cases hRS : R = S
  · rw [amp2_number hP hR hRS, amp1_diag hP]
    subst hRS
    by_cases hPQ : P = Q
    · subst hPQ
      by_cases hRP : R = P
      · subst hRP; simp
      · cases ket.getLsbD P <;> cases ket.getLsbD R <;> simp [hRP, Ne.symm hRP]
    · have : ¬(P = R ∧ R = Q ∧ ket.getLsbD P = true ∧ ket.getLsbD R = true) := by
        rintro ⟨rfl, rfl, _⟩; exact hPQ rfl
      simp [hPQ, this]
  by_cases hRQ : R = Q
  · rw [amp2_swap_ann hP hR hS hQ, amp2_number hP hR hRQ, amp1_diag hP]
    subst hRQ
    by_cases hPS : P = S
    · subst hPS
      cases ket.getLsbD P <;> cases ket.getLsbD R <;> simp [hRS, Ne.symm hRS]
    · simp [hRS, hPS]
  · rw [if_neg (by tauto), if_neg (by tauto), sub_zero]
    by_contra h
    obtain ⟨a1, a2, a3, a4, a5, a6, a7⟩ := amp2_support hP hR h
    have hR' := (a7 R).2 (by simp)
    rcases a6 hR' with h | h
    · exact hRQ h
    · exact hRS h

/-! #### one moved electron -/

section single
variable {bra ket : BitVec N} {o v : Nat} {sg : Int}

/-- bits of a singly excited determinant -/
theorem single_bits (hv : v < N)
    (hE : cre v (ann o (some (1, ket))) = some (sg, bra)) :
    ket.getLsbD o = true ∧ ket.getLsbD v = false ∧ v ≠ o ∧
    (∀ j, bra.getLsbD j = true ↔ (ket.getLsbD j = true ∧ j ≠ o) ∨ j = v) ∨ v = o := by
  by_cases hvo : v = o
  · exact Or.inr hvo
  left
  cases h1 : ket.getLsbD o
  · simp [ann, h1, cre] at hE
  have hoN := BitVec.lt_of_getLsbD h1
  rw [ann_some _ h1] at hE
  cases h2 : (flip ket o).getLsbD v
  case true => simp [cre, h2] at hE
  rw [cre_some _ h2 hv] at hE
  have hb : flip (flip ket o) v = bra := by simpa using congrArg (Option.map (·.2)) hE
  rw [getLsbD_flip hoN] at h2
  have h2' : ket.getLsbD v = false := by simpa [Ne.symm hvo] using h2
  refine ⟨rfl, h2', hvo, ?_⟩
  intro j
  rw [← hb, getLsbD_flip hv, getLsbD_flip hoN]
  by_cases jv : j = v
  · subst jv; simp [h2', Ne.symm hvo]
  · by_cases jo : j = o
    · subst jo; simp [h1, jv, Ne.symm jv]
    · simp [jv, jo, Ne.symm jv, Ne.symm jo]

variable (hv : v < N) (hvo : v ≠ o) (hE : cre v (ann o (some (1, ket))) = some (sg, bra))
include hv hvo hE

theorem amp1_single {P Q : Nat} (hP : P < N) :
    amp1 bra ket P Q = if P = v ∧ Q = o then sg else 0 := by
  obtain ⟨b1, b2, -, b4⟩ := (single_bits hv hE).resolve_right hvo
  by_cases h : P = v ∧ Q = o
  · obtain ⟨rfl, rfl⟩ := h
    rw [amp1, hE]; simp [amp]
  · rw [if_neg h]
    by_contra hc
    obtain ⟨a1, a2, a3⟩ := amp1_support hP hc
    apply h
    constructor
    · have := (a3 v).1 ((b4 v).2 (Or.inr rfl))
      rw [b2] at this; simp at this; exact this.symm
    · by_contra hQo
      have h3 := (a3 o).2 (Or.inl ⟨b1, Ne.symm hQo⟩)
      rw [b4] at h3
      rcases h3 with h3 | h3
      · exact h3.2 rfl
      · exact hvo h3.symm

theorem amp2_single_core {R S : Nat} (hR : R < N) :
    amp2 bra ket v R S o = if R = S ∧ ket.getLsbD R = true ∧ R ≠ o then sg else 0 := by
  obtain ⟨b1, b2, -, b4⟩ := (single_bits hv hE).resolve_right hvo
  by_cases hRS : R = S
  · rw [amp2_number hv hR hRS, amp1_single hv hvo hE hv]
    simp [hRS]
  · rw [if_neg (by tauto)]
    by_contra hc
    obtain ⟨a1, a2, a3, a4, a5, a6, a7⟩ := amp2_support hv hR hc
    have hS : bra.getLsbD S = true := (b4 S).2 (Or.inl ⟨a4, Ne.symm a1⟩)
    rcases (a7 S).1 hS with h | h | h
    · exact h.2.2 rfl
    · rw [h, b2] at a4; simp at a4
    · exact hRS h.symm

theorem amp2_single {P R S Q : Nat} (hP : P < N) (hR : R < N) (hS : S < N) (hQ : Q < N) :
    amp2 bra ket P R S Q =
      (if P = v ∧ Q = o ∧ R = S ∧ ket.getLsbD R = true ∧ R ≠ o then sg else 0)
      - (if P = v ∧ S = o ∧ R = Q ∧ ket.getLsbD R = true ∧ R ≠ o then sg else 0)
      + (if R = v ∧ S = o ∧ P = Q ∧ ket.getLsbD P = true ∧ P ≠ o then sg else 0)
      - (if R = v ∧ Q = o ∧ P = S ∧ ket.getLsbD P = true ∧ P ≠ o then sg else 0) := by
  obtain ⟨b1, b2, -, b4⟩ := (single_bits hv hE).resolve_right hvo
  by_cases hPv : P = v
  · subst hPv
    by_cases hQo : Q = o
    · subst hQo
      rw [amp2_single_core hv hvo hE hR, if_neg (c := P = P ∧ S = Q ∧ _) (by tauto),
        if_neg (c := R = P ∧ S = Q ∧ _) (by rw [b2]; simp),
        if_neg (c := R = P ∧ Q = Q ∧ _) (by rw [b2]; simp)]
      simp
    · by_cases hSo : S = o
      · subst hSo
        rw [amp2_swap_ann hP hR hS hQ, amp2_single_core hv hvo hE hR, b2]
        simp [hQo]
      · rw [if_neg (by tauto), if_neg (by tauto), if_neg (by tauto), if_neg (by tauto)]
        simp only [sub_zero, add_zero]
        by_contra hc
        obtain ⟨a1, a2, a3, a4, a5, a6, a7⟩ := amp2_support hP hR hc
        have h3 := (a7 o).2 (Or.inl ⟨b1, Ne.symm hQo, Ne.symm hSo⟩)
        rw [b4] at h3
        rcases h3 with h3 | h3
        · exact h3.2 rfl
        · exact hvo h3.symm
  · by_cases hRv : R = v
    · subst hRv
      by_cases hSo : S = o
      · subst hSo
        rw [amp2_swap_cre hP hR, amp2_swap_ann hR hP hS hQ, neg_neg,
          amp2_single_core hv hvo hE hP, b2]
        by_cases hQ' : Q = S
        · subst hQ'; simp [hPv]; intro a _ b; exact absurd a b
        · simp [hPv, hQ']
      · by_cases hQo : Q = o
        · subst hQo
          rw [amp2_swap_cre hP hR, amp2_single_core hv hvo hE hP]
          simp [hPv, hSo]
        · rw [if_neg (by tauto), if_neg (by tauto), if_neg (by tauto), if_neg (by tauto)]
          simp only [sub_zero, add_zero]
          by_contra hc
          obtain ⟨a1, a2, a3, a4, a5, a6, a7⟩ := amp2_support hP hR hc
          have h3 := (a7 o).2 (Or.inl ⟨b1, Ne.symm hQo, Ne.symm hSo⟩)
          rw [b4] at h3
          rcases h3 with h3 | h3
          · exact h3.2 rfl
          · exact hvo h3.symm
    · rw [if_neg (by tauto), if_neg (by tauto), if_neg (by tauto), if_neg (by tauto)]
      simp only [sub_zero, add_zero]
      by_contra hc
      obtain ⟨a1, a2, a3, a4, a5, a6, a7⟩ := amp2_support hP hR hc
      rcases (a7 v).1 ((b4 v).2 (Or.inr rfl)) with h | h | h
      · rw [b2] at h; simp at h
      · exact hPv h.symm
      · exact hRv h.symm

end single

/-! #### two moved electrons -/

section double
variable {bra ket : BitVec N} {o1 o2 v1 v2 : Nat} {sg : Int}

/-- hypotheses describing a doubly excited determinant -/
structure DoubleExc (bra ket : BitVec N) (o1 v1 o2 v2 : Nat) (sg : Int) : Prop where
  ho1 : ket.getLsbD o1 = true
  ho2 : ket.getLsbD o2 = true
  hv1 : ket.getLsbD v1 = false
  hv2 : ket.getLsbD v2 = false
  ho : o1 ≠ o2
  hv : v1 ≠ v2
  v1N : v1 < N
  v2N : v2 < N
  hE : cre v2 (ann o2 (cre v1 (ann o1 (some (1, ket))))) = some (sg, bra)

theorem DoubleExc.bits (h : DoubleExc bra ket o1 v1 o2 v2 sg) (j : Nat) :
    bra.getLsbD j = true ↔ (ket.getLsbD j = true ∧ j ≠ o1 ∧ j ≠ o2) ∨ j = v1 ∨ j = v2 := by
  obtain ⟨ho1, ho2, hv1, hv2, ho, hv, v1N, v2N, hE⟩ := h
  have o1N := BitVec.lt_of_getLsbD ho1
  have o2N := BitVec.lt_of_getLsbD ho2
  have n1 : v1 ≠ o1 := by rintro rfl; simp [ho1] at hv1
  have n2 : v1 ≠ o2 := by rintro rfl; simp [ho2] at hv1
  have n3 : v2 ≠ o1 := by rintro rfl; simp [ho1] at hv2
  have n4 : v2 ≠ o2 := by rintro rfl; simp [ho2] at hv2
  have e1 : (flip (flip ket o1) v1).getLsbD o2 = true := by
    rw [getLsbD_flip v1N, getLsbD_flip o1N, ho2]; simp [ho, n2]
  have e2 : (flip (flip ket o1) v1).getLsbD v2 = false := by
    rw [getLsbD_flip v1N, getLsbD_flip o1N, hv2]; simp [hv, Ne.symm n3]
  rw [cre_ann ho1 hv1 v1N, cre_ann e1 e2 v2N] at hE
  have hb : flip (flip (flip (flip ket o1) v1) o2) v2 = bra := by
    simpa using congrArg (Option.map (·.2)) hE
  rw [← hb, getLsbD_flip v2N, getLsbD_flip o2N, getLsbD_flip v1N, getLsbD_flip o1N]
  by_cases j1 : j = o1
  · subst j1; simp [ho1, n1, n3, Ne.symm ho, Ne.symm n1, Ne.symm n3]
  by_cases j2 : j = o2
  · subst j2; simp [ho2, n2, n4, ho, Ne.symm n2, Ne.symm n4]
  by_cases j3 : j = v1
  · subst j3; simp [hv1, Ne.symm n1, Ne.symm n2, Ne.symm hv]
  by_cases j4 : j = v2
  · subst j4; simp [hv2, Ne.symm n3, Ne.symm n4, hv]
  simp [j1, j2, j3, j4, Ne.symm j1, Ne.symm j2, Ne.symm j3, Ne.symm j4]

theorem amp2_double_core (h : DoubleExc bra ket o1 v1 o2 v2 sg) :
    amp2 bra ket v1 v2 o2 o1 = sg := by
  have hv2o2 : v2 ≠ o2 := by
    rintro rfl; have := h.hv2; rw [h.ho2] at this; simp at this
  have n2 : v1 ≠ o2 := by
    rintro rfl; have := h.hv1; rw [h.ho2] at this; simp at this
  have hE := h.hE
  have o1N := BitVec.lt_of_getLsbD h.ho1
  have o2N := BitVec.lt_of_getLsbD h.ho2
  rw [amp2_ladder h.v1N h.v2N]
  rw [ann_eq_ladder, ann_eq_ladder, cre_eq_ladder h.v1N, cre_eq_ladder h.v2N] at hE
  rw [ladder_anticomm false false h.v1N h.v2N h.hv, ladder_anticomm false true h.v1N o2N n2,
    ladder_vneg, vneg_vneg, hE]
  simp [amp]

theorem amp1_double (h : DoubleExc bra ket o1 v1 o2 v2 sg) {P Q : Nat} (hP : P < N) :
    amp1 bra ket P Q = 0 := by
  by_contra hc
  obtain ⟨a1, a2, a3⟩ := amp1_support hP hc
  have e1 := (a3 v1).1 ((h.bits v1).2 (by simp))
  have e2 := (a3 v2).1 ((h.bits v2).2 (by simp))
  rw [h.hv1] at e1; rw [h.hv2] at e2
  simp at e1 e2
  exact h.hv (e1.trans e2.symm)

theorem amp2_double (h : DoubleExc bra ket o1 v1 o2 v2 sg) {P R S Q : Nat} (hP : P < N)
    (hR : R < N) (hS : S < N) (hQ : Q < N) :
    amp2 bra ket P R S Q =
      (if P = v1 ∧ Q = o1 ∧ R = v2 ∧ S = o2 then sg else 0)
      - (if P = v1 ∧ Q = o2 ∧ R = v2 ∧ S = o1 then sg else 0)
      - (if P = v2 ∧ Q = o1 ∧ R = v1 ∧ S = o2 then sg else 0)
      + (if P = v2 ∧ Q = o2 ∧ R = v1 ∧ S = o1 then sg else 0) := by
  have hno := h.ho
  have hnv := h.hv
  have hno' := Ne.symm h.ho
  have hnv' := Ne.symm h.hv
  have core := amp2_double_core h
  have v1N := h.v1N
  have v2N := h.v2N
  have o1N := BitVec.lt_of_getLsbD h.ho1
  have o2N := BitVec.lt_of_getLsbD h.ho2
  by_cases hz : amp2 bra ket P R S Q = 0
  · have c1 : ¬(P = v1 ∧ Q = o1 ∧ R = v2 ∧ S = o2) ∨ sg = 0 := by
      by_cases hs : P = v1 ∧ Q = o1 ∧ R = v2 ∧ S = o2
      · obtain ⟨rfl, rfl, rfl, rfl⟩ := hs; right; rw [← core, hz]
      · exact Or.inl hs
    have c2 : ¬(P = v1 ∧ Q = o2 ∧ R = v2 ∧ S = o1) ∨ sg = 0 := by
      by_cases hs : P = v1 ∧ Q = o2 ∧ R = v2 ∧ S = o1
      · obtain ⟨rfl, rfl, rfl, rfl⟩ := hs; right
        rw [amp2_swap_ann hP hR hS hQ] at hz; rw [← core]; omega
      · exact Or.inl hs
    have c3 : ¬(P = v2 ∧ Q = o1 ∧ R = v1 ∧ S = o2) ∨ sg = 0 := by
      by_cases hs : P = v2 ∧ Q = o1 ∧ R = v1 ∧ S = o2
      · obtain ⟨rfl, rfl, rfl, rfl⟩ := hs; right
        rw [amp2_swap_cre hP hR] at hz; rw [← core]; omega
      · exact Or.inl hs
    have c4 : ¬(P = v2 ∧ Q = o2 ∧ R = v1 ∧ S = o1) ∨ sg = 0 := by
      by_cases hs : P = v2 ∧ Q = o2 ∧ R = v1 ∧ S = o1
      · obtain ⟨rfl, rfl, rfl, rfl⟩ := hs; right
        rw [amp2_swap_cre hP hR, amp2_swap_ann hR hP hS hQ] at hz; rw [← core]; omega
      · exact Or.inl hs
    by_cases hs : sg = 0
    · simp [hs, hz]
    · rw [if_neg (c1.resolve_right hs), if_neg (c2.resolve_right hs), if_neg (c3.resolve_right hs),
        if_neg (c4.resolve_right hs), hz]; rfl
  · obtain ⟨a1, a2, a3, a4, a5, a6, a7⟩ := amp2_support hP hR hz
    have ev1 := (a7 v1).1 ((h.bits v1).2 (by simp))
    have ev2 := (a7 v2).1 ((h.bits v2).2 (by simp))
    rw [h.hv1] at ev1; rw [h.hv2] at ev2
    simp at ev1 ev2
    have eo : ∀ o, ket.getLsbD o = true → (o = o1 ∨ o = o2) → o = Q ∨ o = S := by
      intro o hk ho
      by_contra hc
      rw [not_or] at hc
      have := (h.bits o).1 ((a7 o).2 (Or.inl ⟨hk, hc⟩))
      rcases this with h' | h' | h'
      · rcases ho with ho | ho
        · exact h'.2.1 ho
        · exact h'.2.2 ho
      · rw [h', h.hv1] at hk; simp at hk
      · rw [h', h.hv2] at hk; simp at hk
    have eo1 := eo o1 h.ho1 (by simp)
    have eo2 := eo o2 h.ho2 (by simp)
    have hPR : (P = v1 ∧ R = v2) ∨ (P = v2 ∧ R = v1) := by omega
    have hQS : (Q = o1 ∧ S = o2) ∨ (Q = o2 ∧ S = o1) := by omega
    rcases hPR with ⟨rfl, rfl⟩ | ⟨rfl, rfl⟩ <;> rcases hQS with ⟨rfl, rfl⟩ | ⟨rfl, rfl⟩
    · rw [core]; simp [hno, hnv, hno', hnv']
    · rw [amp2_swap_ann hP hR hS hQ, core]; simp [hno, hnv, hno', hnv']
    · rw [amp2_swap_cre hP hR, core]; simp [hno, hnv, hno', hnv']
    · rw [amp2_swap_cre hP hR, amp2_swap_ann hR hP hS hQ, core]; simp [hno, hnv, hno', hnv']

end double

/-! ### collapsing the sums -/

section sums
variable {R : Type} [Field R] {ι : Type} [DecidableEq ι]

theorem sum4_collapse_a (K : Finset ι) (F : ι → ι → ι → ι → R) (g : ι → Prop) [DecidablePred g]
    {v o : ι} (hv : v ∈ K) (ho : o ∈ K) (c : R) :
    (∑ P ∈ K, ∑ Q ∈ K, ∑ X ∈ K, ∑ Y ∈ K, F P Q X Y *
      (if P = v ∧ Q = o ∧ X = Y ∧ g X then c else 0))
      = c * ∑ X ∈ K, if g X then F v o X X else 0 := by
  rw [Finset.sum_eq_single v _ (by simp [hv])]
  · rw [Finset.sum_eq_single o _ (by simp [ho])]
    · rw [Finset.mul_sum]
      apply Finset.sum_congr rfl
      intro X hX
      rw [Finset.sum_eq_single X _ (by simp [hX])]
      · by_cases h : g X <;> simp [h, mul_comm]
      · intro b _ hb; simp [Ne.symm hb]
    · intro b _ hb; simp [hb]
  · intro b _ hb; simp [hb]

theorem sum4_collapse_b (K : Finset ι) (F : ι → ι → ι → ι → R) (g : ι → Prop) [DecidablePred g]
    {v o : ι} (hv : v ∈ K) (ho : o ∈ K) (c : R) :
    (∑ P ∈ K, ∑ Q ∈ K, ∑ X ∈ K, ∑ Y ∈ K, F P Q X Y *
      (if P = v ∧ Y = o ∧ X = Q ∧ g X then c else 0))
      = c * ∑ X ∈ K, if g X then F v X X o else 0 := by
  rw [Finset.sum_eq_single v _ (by simp [hv])]
  · rw [Finset.mul_sum]
    apply Finset.sum_congr rfl
    intro Q hQ
    rw [Finset.sum_eq_single Q _ (by simp [hQ])]
    · rw [Finset.sum_eq_single o _ (by simp [ho])]
      · by_cases h : g Q <;> simp [h, mul_comm]
      · intro b _ hb; simp [hb]
    · intro b _ hb; simp [hb]
  · intro b _ hb; simp [hb]

theorem sum4_collapse_c (K : Finset ι) (F : ι → ι → ι → ι → R) (g : ι → Prop) [DecidablePred g]
    {v o : ι} (hv : v ∈ K) (ho : o ∈ K) (c : R) :
    (∑ P ∈ K, ∑ Q ∈ K, ∑ X ∈ K, ∑ Y ∈ K, F P Q X Y *
      (if X = v ∧ Y = o ∧ P = Q ∧ g P then c else 0))
      = c * ∑ P ∈ K, if g P then F P P v o else 0 := by
  rw [Finset.mul_sum]
  apply Finset.sum_congr rfl
  intro P hP
  rw [Finset.sum_eq_single P _ (by simp [hP])]
  · rw [Finset.sum_eq_single v _ (by simp [hv])]
    · rw [Finset.sum_eq_single o _ (by simp [ho])]
      · by_cases h : g P <;> simp [h, mul_comm]
      · intro b _ hb; simp [hb]
    · intro b _ hb; simp [hb]
  · intro b _ hb; simp [Ne.symm hb]

theorem sum4_collapse_d (K : Finset ι) (F : ι → ι → ι → ι → R) (g : ι → Prop) [DecidablePred g]
    {v o : ι} (hv : v ∈ K) (ho : o ∈ K) (c : R) :
    (∑ P ∈ K, ∑ Q ∈ K, ∑ X ∈ K, ∑ Y ∈ K, F P Q X Y *
      (if X = v ∧ Q = o ∧ P = Y ∧ g P then c else 0))
      = c * ∑ P ∈ K, if g P then F P o v P else 0 := by
  rw [Finset.mul_sum]
  apply Finset.sum_congr rfl
  intro P hP
  rw [Finset.sum_eq_single o _ (by simp [ho])]
  · rw [Finset.sum_eq_single v _ (by simp [hv])]
    · rw [Finset.sum_eq_single P _ (by simp [hP])]
      · by_cases h : g P <;> simp [h, mul_comm]
      · intro b _ hb; simp [Ne.symm hb]
    · intro b _ hb; simp [hb]
  · intro b _ hb; simp [hb]

theorem sum4_collapse_e (K : Finset ι) (F : ι → ι → ι → ι → R)
    {a b c d : ι} (ha : a ∈ K) (hb : b ∈ K) (hc : c ∈ K) (hd : d ∈ K) (x : R) :
    (∑ P ∈ K, ∑ Q ∈ K, ∑ X ∈ K, ∑ Y ∈ K, F P Q X Y *
      (if P = a ∧ Q = b ∧ X = c ∧ Y = d then x else 0)) = x * F a b c d := by
  rw [Finset.sum_eq_single a _ (by simp [ha])]
  · rw [Finset.sum_eq_single b _ (by simp [hb])]
    · rw [Finset.sum_eq_single c _ (by simp [hc])]
      · rw [Finset.sum_eq_single d _ (by simp [hd])]
        · simp [mul_comm]
        · intro y _ hy; simp [hy]
      · intro y _ hy; simp [hy]
    · intro y _ hy; simp [hy]
  · intro y _ hy; simp [hy]

theorem sum4_collapse_f (K : Finset ι) (F : ι → ι → ι → ι → R) (g : ι → Prop) [DecidablePred g] :
    (∑ P ∈ K, ∑ Q ∈ K, ∑ X ∈ K, ∑ Y ∈ K, F P Q X Y *
      (if P = Q ∧ X = Y ∧ g P ∧ g X then 1 else 0))
      = ∑ P ∈ K, ∑ X ∈ K, if g P ∧ g X then F P P X X else 0 := by
  apply Finset.sum_congr rfl
  intro P hP
  rw [Finset.sum_eq_single P _ (by simp [hP])]
  · apply Finset.sum_congr rfl
    intro X hX
    rw [Finset.sum_eq_single X _ (by simp [hX])]
    · by_cases h : g P ∧ g X <;> simp [h]
    · intro y _ hy; simp [Ne.symm hy]
  · intro y _ hy; simp [Ne.symm hy]

theorem sum4_collapse_g (K : Finset ι) (F : ι → ι → ι → ι → R) (g : ι → Prop) [DecidablePred g] :
    (∑ P ∈ K, ∑ Q ∈ K, ∑ X ∈ K, ∑ Y ∈ K, F P Q X Y *
      (if P = Y ∧ X = Q ∧ g P ∧ g X then 1 else 0))
      = ∑ P ∈ K, ∑ X ∈ K, if g P ∧ g X then F P X X P else 0 := by
  apply Finset.sum_congr rfl
  intro P hP
  apply Finset.sum_congr rfl
  intro Q hQ
  rw [Finset.sum_eq_single Q _ (by simp [hQ])]
  · rw [Finset.sum_eq_single P _ (by simp [hP])]
    · by_cases h : g P ∧ g Q <;> simp [h]
    · intro y _ hy; simp [Ne.symm hy]
  · intro y _ hy; simp [hy]

/-- the one- and two-body energy of abstract spin orbitals `K`, placed at bits `e` -/
def abs1 (K : Finset ι) (e : ι → Nat) (t : ι → ι → R) (bra ket : BitVec N) : R :=
  ∑ P ∈ K, ∑ Q ∈ K, t P Q * (amp1 bra ket (e P) (e Q) : R)

def abs2 (K : Finset ι) (e : ι → Nat) (w : ι → ι → ι → ι → R) (bra ket : BitVec N) : R :=
  ∑ P ∈ K, ∑ Q ∈ K, ∑ X ∈ K, ∑ Y ∈ K, w P Q X Y * (amp2 bra ket (e P) (e X) (e Y) (e Q) : R)

variable {K : Finset ι} {e : ι → Nat} {t : ι → ι → R} {w : ι → ι → ι → ι → R}
  (he : Set.InjOn e K) (hN : ∀ x ∈ K, e x < N)
include he hN

theorem abs1_diag (ket : BitVec N) :
    abs1 K e t ket ket = ∑ P ∈ K, if ket.getLsbD (e P) = true then t P P else 0 := by
  unfold abs1
  apply Finset.sum_congr rfl
  intro P hP
  rw [Finset.sum_eq_single P _ (by simp [hP])]
  · rw [amp1_diag (hN P hP)]; by_cases h : ket.getLsbD (e P) = true <;> simp [h]
  · intro Q hQ hne
    rw [amp1_diag (hN P hP), if_neg]
    · simp
    · rintro ⟨h, _⟩; exact hne (he hP hQ h).symm

theorem abs2_diag (ket : BitVec N) :
    abs2 K e w ket ket = ∑ P ∈ K, ∑ X ∈ K,
      if ket.getLsbD (e P) = true ∧ ket.getLsbD (e X) = true then w P P X X - w P X X P else 0 := by
  have : abs2 K e w ket ket = ∑ P ∈ K, ∑ Q ∈ K, ∑ X ∈ K, ∑ Y ∈ K, (w P Q X Y *
      (if P = Q ∧ X = Y ∧ ket.getLsbD (e P) = true ∧ ket.getLsbD (e X) = true then 1 else 0)
      - w P Q X Y *
      (if P = Y ∧ X = Q ∧ ket.getLsbD (e P) = true ∧ ket.getLsbD (e X) = true then 1 else 0)) := by
    refine Finset.sum_congr rfl fun P hP => Finset.sum_congr rfl fun Q hQ =>
      Finset.sum_congr rfl fun X hX => Finset.sum_congr rfl fun Y hY => ?_
    rw [amp2_diag (hN P hP) (hN X hX) (hN Y hY) (hN Q hQ), ← mul_sub]
    simp only [he.eq_iff hP hQ, he.eq_iff hX hY, he.eq_iff hP hY, he.eq_iff hX hQ]
    push_cast
    rfl
  rw [this]
  simp only [Finset.sum_sub_distrib]
  rw [sum4_collapse_f K w (fun x => ket.getLsbD (e x) = true),
    sum4_collapse_g K w (fun x => ket.getLsbD (e x) = true)]
  simp only [← Finset.sum_sub_distrib]
  refine Finset.sum_congr rfl fun P _ => Finset.sum_congr rfl fun X _ => ?_
  split <;> simp

section
variable {bra ket : BitVec N} {o v : ι} {sg : Int}
  (ho : o ∈ K) (hv : v ∈ K) (hvo : v ≠ o)
  (hE : cre (e v) (ann (e o) (some (1, ket))) = some (sg, bra))
include ho hv hvo hE

theorem abs1_single : abs1 K e t bra ket = sg * t v o := by
  have hvo' : e v ≠ e o := fun h => hvo (he hv ho h)
  unfold abs1
  rw [Finset.sum_eq_single v _ (by simp [hv])]
  · rw [Finset.sum_eq_single o _ (by simp [ho])]
    · rw [amp1_single (hN v hv) hvo' hE (hN v hv)]; simp [mul_comm]
    · intro Q hQ hne
      rw [amp1_single (hN v hv) hvo' hE (hN v hv)]; simp [he.eq_iff hQ ho, hne]
  · intro P hP hne
    apply Finset.sum_eq_zero
    intro Q hQ
    rw [amp1_single (hN v hv) hvo' hE (hN P hP)]; simp [he.eq_iff hP hv, hne]

theorem abs2_single (hw : ∀ a b c d, w a b c d = w c d a b) :
    abs2 K e w bra ket = 2 * sg * ∑ X ∈ K,
      if ket.getLsbD (e X) = true ∧ X ≠ o then w v o X X - w v X X o else 0 := by
  have hvo' : e v ≠ e o := fun h => hvo (he hv ho h)
  have : abs2 K e w bra ket = ∑ P ∈ K, ∑ Q ∈ K, ∑ X ∈ K, ∑ Y ∈ K, (w P Q X Y *
      (if P = v ∧ Q = o ∧ X = Y ∧ (ket.getLsbD (e X) = true ∧ X ≠ o) then (sg : R) else 0)
      - w P Q X Y *
      (if P = v ∧ Y = o ∧ X = Q ∧ (ket.getLsbD (e X) = true ∧ X ≠ o) then (sg : R) else 0)
      + w P Q X Y *
      (if X = v ∧ Y = o ∧ P = Q ∧ (ket.getLsbD (e P) = true ∧ P ≠ o) then (sg : R) else 0)
      - w P Q X Y *
      (if X = v ∧ Q = o ∧ P = Y ∧ (ket.getLsbD (e P) = true ∧ P ≠ o) then (sg : R) else 0)) := by
    refine Finset.sum_congr rfl fun P hP => Finset.sum_congr rfl fun Q hQ =>
      Finset.sum_congr rfl fun X hX => Finset.sum_congr rfl fun Y hY => ?_
    rw [amp2_single (hN v hv) hvo' hE (hN P hP) (hN X hX) (hN Y hY) (hN Q hQ)]
    simp only [ne_eq, he.eq_iff hP hv, he.eq_iff hQ ho, he.eq_iff hX hY, he.eq_iff hX ho,
      he.eq_iff hY ho, he.eq_iff hX hQ, he.eq_iff hX hv, he.eq_iff hP hQ, he.eq_iff hP ho,
      he.eq_iff hP hY]
    push_cast
    ring
  rw [this]
  simp only [Finset.sum_sub_distrib, Finset.sum_add_distrib]
  rw [sum4_collapse_a K w (fun X => ket.getLsbD (e X) = true ∧ X ≠ o) hv ho,
    sum4_collapse_b K w (fun X => ket.getLsbD (e X) = true ∧ X ≠ o) hv ho,
    sum4_collapse_c K w (fun X => ket.getLsbD (e X) = true ∧ X ≠ o) hv ho,
    sum4_collapse_d K w (fun X => ket.getLsbD (e X) = true ∧ X ≠ o) hv ho]
  rw [← mul_sub, ← mul_add, ← mul_sub, mul_comm 2 (sg : R), mul_assoc]
  congr 1
  rw [← Finset.sum_sub_distrib, ← Finset.sum_add_distrib, ← Finset.sum_sub_distrib, Finset.mul_sum]
  refine Finset.sum_congr rfl fun X _ => ?_
  by_cases h : ket.getLsbD (e X) = true ∧ X ≠ o
  · simp only [h, if_true, ne_eq, not_false_eq_true, and_self]
    rw [hw X X v o, hw X o v X]; ring
  · rw [if_neg h, if_neg h, if_neg h, if_neg h, if_neg h]; ring

end

section
variable {bra ket : BitVec N} {o1 v1 o2 v2 : ι} {sg : Int}
  (ho1 : o1 ∈ K) (hv1 : v1 ∈ K) (ho2 : o2 ∈ K) (hv2 : v2 ∈ K)
  (hD : DoubleExc bra ket (e o1) (e v1) (e o2) (e v2) sg)
include ho1 hv1 ho2 hv2 hD

omit he ho1 hv1 ho2 hv2 in
theorem abs1_double : abs1 K e t bra ket = 0 := by
  unfold abs1
  refine Finset.sum_eq_zero fun P hP => Finset.sum_eq_zero fun Q hQ => ?_
  rw [amp1_double hD (hN P hP)]; simp

theorem abs2_double (hw : ∀ a b c d, w a b c d = w c d a b) :
    abs2 K e w bra ket = 2 * sg * (w v1 o1 v2 o2 - w v1 o2 v2 o1) := by
  have : abs2 K e w bra ket = ∑ P ∈ K, ∑ Q ∈ K, ∑ X ∈ K, ∑ Y ∈ K, (w P Q X Y *
      (if P = v1 ∧ Q = o1 ∧ X = v2 ∧ Y = o2 then (sg : R) else 0)
      - w P Q X Y * (if P = v1 ∧ Q = o2 ∧ X = v2 ∧ Y = o1 then (sg : R) else 0)
      - w P Q X Y * (if P = v2 ∧ Q = o1 ∧ X = v1 ∧ Y = o2 then (sg : R) else 0)
      + w P Q X Y * (if P = v2 ∧ Q = o2 ∧ X = v1 ∧ Y = o1 then (sg : R) else 0)) := by
    refine Finset.sum_congr rfl fun P hP => Finset.sum_congr rfl fun Q hQ =>
      Finset.sum_congr rfl fun X hX => Finset.sum_congr rfl fun Y hY => ?_
    rw [amp2_double hD (hN P hP) (hN X hX) (hN Y hY) (hN Q hQ)]
    simp only [he.eq_iff hP hv1, he.eq_iff hP hv2, he.eq_iff hX hv1, he.eq_iff hX hv2,
      he.eq_iff hQ ho1, he.eq_iff hQ ho2, he.eq_iff hY ho1, he.eq_iff hY ho2]
    push_cast
    ring
  rw [this]
  simp only [Finset.sum_sub_distrib, Finset.sum_add_distrib]
  rw [sum4_collapse_e K w hv1 ho1 hv2 ho2, sum4_collapse_e K w hv1 ho2 hv2 ho1,
    sum4_collapse_e K w hv2 ho1 hv1 ho2, sum4_collapse_e K w hv2 ho2 hv1 ho1,
    hw v2 o1 v1 o2, hw v2 o2 v1 o1]
  ring

end
end sums

end Macis
