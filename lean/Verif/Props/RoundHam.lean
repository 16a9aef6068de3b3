import Verif.Model.RoundHam
import Verif.Lemmas.Rounding
import Verif.Lemmas.RoundCsr
import Verif.Lemmas.Chop
import Verif.Props.Ham
import Verif.Lemmas.AsciContrib
/-! Property C169: Hamiltonian matrix elements in floating point. -/
namespace Macis
open Spec

variable {M : Nat} {rnd : ℝ → ℝ} {u : ℝ}

/-! ### Symmetry -/

theorem single_swap {a a' : BitVec M} (h : ExcitedWithin 1 (fun _ => True) a' a) :
    ∃ o v sgn, singleExcitationSignIndices a a' (a ^^^ a') = (o, v, sgn) ∧
      singleExcitationSignIndices a' a (a' ^^^ a) = (v, o, sgn) ∧ v ≠ o ∧
      (occ a).filter (fun p => p != v) = (occ a').filter (fun p => p != o) := by
  obtain ⟨o, v, sgn, e1, p1, p2, p3, p4, p5, p6⟩ := single_data h
  obtain ⟨o', v', sgn', e1', q1, q2, q3, q4, q5, q6⟩ := single_data (excited_symm h)
  obtain ⟨-, -, -, b⟩ := (single_bits p3 p6).resolve_right p5
  obtain ⟨-, -, -, b'⟩ := (single_bits q3 q6).resolve_right q5
  have hv : v' = o := by
    by_contra hc
    have := (b v').2 (Or.inl ⟨q4, hc⟩)
    rw [q2] at this
    cases this
  have ho : o' = v := by
    rcases (b o').1 q1 with ⟨h1, -⟩ | h1
    · rcases (b' o').1 h1 with ⟨-, h2⟩ | h2
      · exact absurd rfl h2
      · exact absurd h2.symm q5
    · exact h1
  subst hv ho
  have s1 := amp1_single p3 p5 p6 (P := o') (Q := v') p3
  have s2 := amp1_single q3 q5 q6 (P := v') (Q := o') q3
  rw [if_pos ⟨rfl, rfl⟩] at s1 s2
  have := amp1_adjoint (bra := a) (ket := a') p3 q3
  obtain rfl : sgn = sgn' := by rw [← s1, ← s2, this]
  refine ⟨v', o', sgn, e1, e1', p5, ?_⟩
  unfold occ
  rw [List.filter_filter, List.filter_filter]
  refine List.filter_congr fun x _ => ?_
  rw [Bool.eq_iff_iff]
  simp only [Bool.and_eq_true, bne_iff_ne, ne_eq, b x]
  constructor
  · rintro ⟨h1, h2⟩
    tauto
  · rintro ⟨h1, h2⟩
    refine ⟨?_, Or.inl ⟨h2, h1⟩⟩
    rintro rfl
    rw [p2] at h2
    cases h2

theorem double_swap {a a' : BitVec M} (h : ExcitedWithin 2 (fun _ => True) a' a) :
    ∃ o1 v1 o2 v2 sgn, doublesSignIndices a a' (a ^^^ a') = (o1, v1, o2, v2, sgn) ∧
      doublesSignIndices a' a (a' ^^^ a) = (v1, o1, v2, o2, sgn) := by
  obtain ⟨o1, v1, o2, v2, sgn, e, h1, h2, h3, h4, h5, h6, h7, h8, -, h9⟩ := C11_double_indices M a a' h
  obtain ⟨p1, w1, p2, w2, sgn', e', k1, k2, k3, k4, k5, k6, k7, k8, -, k9⟩ :=
    C11_double_indices M a' a (excited_symm h)
  have D : DoubleExc a a' o1 v1 o2 v2 sgn := ⟨h3, h4, h5, h6, by omega, by omega, BitVec.lt_of_getLsbD h7,
    BitVec.lt_of_getLsbD h8, h9⟩
  have D' : DoubleExc a' a p1 w1 p2 w2 sgn' := ⟨k3, k4, k5, k6, by omega, by omega, BitVec.lt_of_getLsbD k7,
    BitVec.lt_of_getLsbD k8, k9⟩
  have b := D.bits
  have b' := D'.bits
  have gone : ∀ x, a'.getLsbD x = true → a.getLsbD x = false → x = o1 ∨ x = o2 := by
    intro x hx hx'
    by_contra hc
    have := (b x).2 (Or.inl ⟨hx, by tauto, by tauto⟩)
    rw [hx'] at this
    cases this
  have gone' : ∀ x, a.getLsbD x = true → a'.getLsbD x = false → x = p1 ∨ x = p2 := by
    intro x hx hx'
    by_contra hc
    have := (b' x).2 (Or.inl ⟨hx, by tauto, by tauto⟩)
    rw [hx'] at this
    cases this
  have a1 := gone w1 k7 k5
  have a2 := gone w2 k8 k6
  have a3 := gone' v1 h7 h5
  have a4 := gone' v2 h8 h6
  obtain rfl : w1 = o1 := by omega
  obtain rfl : w2 = o2 := by omega
  obtain rfl : p1 = v1 := by omega
  obtain rfl : p2 = v2 := by omega
  have s1 := amp2_double_core D
  have s2 := amp2_double_core D'
  have l := fun {x : Nat} {s : BitVec M} (h : s.getLsbD x = true) => BitVec.lt_of_getLsbD h
  have adj := amp2_adjoint (bra := a) (ket := a') (P := p1) (R := p2) (S := w2) (Q := w1) (l h7) (l h8) (l h4) (l h3)
  obtain rfl : sgn = sgn' := by
    rw [← s1, ← s2, adj]
  exact ⟨_, _, _, _, _, e, e'⟩

theorem me2_symm (hi : Idempotent rnd) (h0 : rnd 0 = 0) {I : Integrals ℝ} (hI : RealSymmetric I)
    (hT : ∀ p q, rnd (I.T p q) = I.T p q) {a a' : BitVec M}
    (h : ExcitedWithin 1 (fun _ => True) a' a) (os : List Nat) :
    I.matrixElement2R rnd a a' (a ^^^ a') (occ a) os = I.matrixElement2R rnd a' a (a' ^^^ a) (occ a') os := by
  obtain ⟨o, v, sgn, e1, e2, hvo, hf⟩ := single_swap h
  unfold Integrals.matrixElement2R
  rw [e1, e2]
  dsimp only
  have hV : ∀ p, I.Vred p v o = I.Vred p o v := fun p => by
    unfold Integrals.Vred
    rw [hI.2.1 p p v o, hI.2.2 v o p p, hI.2.1 o v p p]
  have hG : ∀ p, I.GredR rnd p v o = I.GredR rnd p o v := fun p => by
    unfold Integrals.GredR Integrals.GR
    rw [show I.V p p v o = I.V p p o v from hV p, hI.2.1 p o v p, hI.2.2 v p p o, hI.2.1 p v p o, hI.2.2 p o p v,
      hI.2.1 o p p v]
  have z1 : I.GredR rnd v v o = 0 := by
    unfold Integrals.GredR Integrals.GR
    rw [hI.2.1 v v v o, sub_self, h0]
  have z2 : I.GredR rnd o v o = 0 := by
    rw [hG]
    unfold Integrals.GredR Integrals.GR
    rw [hI.2.1 o o o v, sub_self, h0]
  have f1 := foldl_skip hi (fun p => I.GredR rnd p v o) (fun p => p != v) (occ a) (fun x _ hx => by
    obtain rfl : x = v := by simpa using hx
    exact z1) (hT v o)
  have f2 := foldl_skip hi (fun p => I.GredR rnd p v o) (fun p => p != o) (occ a') (fun x _ hx => by
    obtain rfl : x = o := by simpa using hx
    exact z2) (hT v o)
  unfold Integrals.accR
  rw [f1.1, hf, ← f2.1, hI.1 o v]
  simp only [hG, hV]

/-- C169: in floating point, with any rounding, the matrix elements between determinants with equal numbers of alpha and
beta electrons are exactly symmetric - not only up to rounding - when the integrals are exactly symmetric. -/
theorem C169_symmetric (hi : Idempotent rnd) (h0 : rnd 0 = 0) {I : Integrals ℝ} (hI : RealSymmetric I)
    (hT : ∀ p q, rnd (I.T p q) = I.T p q) (bra ket : BitVec (2 * M)) (hs : SameSector bra ket) :
    I.matrixElementR rnd bra ket = I.matrixElementR rnd ket bra := by
  obtain ⟨ha, hb⟩ := hs
  rw [alphaElectrons_eq, alphaElectrons_eq] at ha
  rw [betaElectrons_eq, betaElectrons_eq] at hb
  simp only [Integrals.matrixElementR]
  generalize loWord bra = a, hiWord bra = b, loWord ket = a', hiWord ket = b' at ha hb ⊢
  obtain ⟨ka, ca, ea⟩ := exists_excited ha
  obtain ⟨kb, cb, eb⟩ := exists_excited hb
  have ca' : count (a' ^^^ a) = 2 * ka := by rw [BitVec.xor_comm]; exact ca
  have cb' : count (b' ^^^ b) = 2 * kb := by rw [BitVec.xor_comm]; exact cb
  simp only [Integrals.matrixElementSpinR, ca, cb, ca', cb', bitsToIndices_eq_occ]
  have hG : ∀ o1 v1 o2 v2, I.GR rnd v1 o1 v2 o2 = I.GR rnd o1 v1 o2 v2 := by
    intro o1 v1 o2 v2
    unfold Integrals.GR
    rw [hI.2.2 v1 o1 v2 o2, hI.2.1 o1 v1 v2 o2, hI.2.2 v2 o2 o1 v1, hI.2.1 o2 v2 o1 v1,
      hI.2.2 v1 o2 v2 o1, hI.2.1 o2 v1 v2 o1, hI.2.2 v2 o1 o2 v1, hI.2.1 o1 v2 o2 v1, hI.2.1 o2 v1 o1 v2]
  by_cases h3 : 3 ≤ ka + kb
  · rw [if_pos (by omega), if_pos (by omega)]
  obtain ⟨rfl, rfl⟩ | ⟨rfl, rfl⟩ | ⟨rfl, rfl⟩ | ⟨rfl, rfl⟩ | ⟨rfl, rfl⟩ | ⟨rfl, rfl⟩ :
      (ka = 2 ∧ kb = 0) ∨ (ka = 0 ∧ kb = 2) ∨ (ka = 1 ∧ kb = 1) ∨ (ka = 1 ∧ kb = 0) ∨ (ka = 0 ∧ kb = 1) ∨
        (ka = 0 ∧ kb = 0) := by omega
  all_goals norm_num
  · obtain ⟨o1, v1, o2, v2, sgn, e1, e2⟩ := double_swap ea
    rw [Integrals.matrixElement4R, Integrals.matrixElement4R, e1, e2]
    simp only [hG o1 v1 o2 v2]
  · obtain ⟨o1, v1, o2, v2, sgn, e1, e2⟩ := double_swap eb
    rw [Integrals.matrixElement4R, Integrals.matrixElement4R, e1, e2]
    simp only [hG o1 v1 o2 v2]
  · obtain ⟨o1, v1, s1, e1, e2, -, -⟩ := single_swap ea
    obtain ⟨o2, v2, s2, f1, f2, -, -⟩ := single_swap eb
    rw [Integrals.matrixElement22R, Integrals.matrixElement22R, e1, e2, f1, f2]
    dsimp only
    rw [hI.2.2 v1 o1 v2 o2, hI.2.1 o1 v1 v2 o2, hI.2.2 v2 o2 o1 v1, hI.2.1 o2 v2 o1 v1]
  · obtain rfl : b = b' := excited_zero.1 eb
    exact me2_symm hi h0 hI hT ea _
  · obtain rfl : a = a' := excited_zero.1 ea
    exact me2_symm hi h0 hI hT eb _
  · obtain rfl : a = a' := excited_zero.1 ea
    obtain rfl : b = b' := excited_zero.1 eb
    rfl

/-! ### Accuracy -/

theorem near_G (hr : RoundsTo rnd u) {I : Integrals ℝ} {B : ℝ}
    (hV : ∀ p q r s, p < I.norb → q < I.norb → r < I.norb → s < I.norb → |I.V p q r s| ≤ B) {i j k l : Nat}
    (hi : i < I.norb) (hj : j < I.norb) (hk : k < I.norb) (hl : l < I.norb) :
    Near u 1 (2 * B) (I.GR rnd i j k l) (I.G i j k l) := by
  have := ((Near.exact (u := u) (hV i j k l hi hj hk hl)).add' hr.nonneg
    (Near.exact (u := u) (hV i l k j hi hl hk hj)).neg).round hr
  rw [show 2 * B = B + B by ring]
  simpa [Integrals.GR, Integrals.G, sub_eq_add_neg] using this

theorem near_G2 (hr : RoundsTo rnd u) {I : Integrals ℝ} {B : ℝ}
    (hV : ∀ p q r s, p < I.norb → q < I.norb → r < I.norb → s < I.norb → |I.V p q r s| ≤ B) {i j : Nat}
    (hi : i < I.norb) (hj : j < I.norb) : Near u 2 B (I.G2redR rnd i j) (I.G2red i j) := by
  have := ((near_G hr hV hi hi hj hj).smul (c := 1 / 2) (by norm_num [abs_of_pos]) hr.nonneg).round hr
  rw [show |(1 / 2 : ℝ)| * (2 * B) = B by rw [abs_of_pos (by norm_num)]; ring] at this
  simpa [Integrals.G2redR, Integrals.G2red] using this

theorem near_sign (hr : RoundsTo rnd u) {k : Nat} {A h H : ℝ} (n : Near u k A h H) {s : Int} (hs : s = 1 ∨ s = -1) :
    Near u (k + 1) A (rnd ((s : ℝ) * h)) ((s : ℝ) * H) := by
  have e : |(s : ℝ)| = 1 := by rcases hs with rfl | rfl <;> simp
  have := (n.smul (c := (s : ℝ)) e.le hr.nonneg).round hr
  rwa [e, one_mul] at this

theorem near_rows (hr : RoundsTo rnd u) (f F : Nat → Nat → ℝ) (B : ℝ) (c : Nat) (l m : List Nat)
    (hf : ∀ q ∈ l, ∀ p ∈ m, Near u c B (f p q) (F p q)) : ∀ {k : Nat} {A h H : ℝ}, c ≤ k → Near u k A h H →
    Near u (k + l.length * m.length) (A + (l.length * m.length : Nat) * B)
      (l.foldl (fun h q => Integrals.accR rnd (fun p => f p q) h m) h)
      (H + (l.map fun q => (m.map fun p => F p q).sum).sum) := by
  induction l with
  | nil => intro k A h H hk n; simpa using n
  | cons x l ih =>
    intro k A h H hk n
    have s := Near.foldl hr (fun p => f p x) (fun p => F p x) B c m (hf x (by simp)) hk n
    have := ih (fun y hy => hf y (by simp [hy])) (by omega) s
    rw [List.foldl_cons, List.map_cons, List.sum_cons]
    simp only [List.length_cons]
    rw [show k + (l.length + 1) * m.length = k + m.length + l.length * m.length by ring, ← add_assoc,
      show A + (((l.length + 1) * m.length : Nat) : ℝ) * B
        = A + m.length * B + ((l.length * m.length : Nat) : ℝ) * B by push_cast; ring]
    exact this

theorem occ_length {N : Nat} (s : BitVec N) : (occ s).length = electrons s := rfl

theorem mem_occ' {N norb : Nat} {s : BitVec N} (hs : SupportedOn norb s) {p : Nat} (hp : p ∈ occ s) : p < norb :=
  hs p (by simpa [occ] using (List.mem_filter.1 hp).2)

theorem near_2 (hr : RoundsTo rnd u) {I : Integrals ℝ} {B : ℝ} (hT : ∀ p q, p < I.norb → q < I.norb → |I.T p q| ≤ B)
    (hV : ∀ p q r s, p < I.norb → q < I.norb → r < I.norb → s < I.norb → |I.V p q r s| ≤ B)
    {a a' b : BitVec M} (sa : SupportedOn I.norb a) (sa' : SupportedOn I.norb a') (sb : SupportedOn I.norb b)
    (h : ExcitedWithin 1 (fun _ => True) a' a) :
    Near u (electrons a + electrons b + 2) ((1 + 2 * electrons a + electrons b) * B)
      (I.matrixElement2R rnd a a' (a ^^^ a') (occ a) (occ b)) (I.matrixElement2 a a' (a ^^^ a') (occ a) (occ b)) := by
  obtain ⟨o, v, sgn, e, h1, h2, h3, h4, h5, h6⟩ := single_data h
  have ho := sa' o h1
  have hv := sa v h4
  have hs : sgn = 1 ∨ sgn = -1 := by
    rw [cre_ann h1 h2 h3] at h6
    simp only [Option.some.injEq, Prod.mk.injEq] at h6
    rw [← h6.1]
    simpa using sign_cases a' v o
  unfold Integrals.matrixElement2R Integrals.matrixElement2
  rw [e]
  dsimp only
  have n0 := (Near.exact (u := u) (hT v o hv ho)).mono hr.nonneg (Nat.zero_le 1) le_rfl
  have n1 := n0.foldl hr (fun p => I.GredR rnd p v o) (fun p => I.Gred p v o) (2 * B) 1 (occ a)
    (fun x hx => near_G hr hV (mem_occ' sa hx) (mem_occ' sa hx) hv ho) le_rfl
  have n2 := n1.foldl hr (fun p => I.Vred p v o) (fun p => I.Vred p v o) B 0 (occ b)
    (fun x hx => Near.exact (hV _ _ _ _ (mem_occ' sb hx) (mem_occ' sb hx) hv ho)) (Nat.zero_le _)
  have n3 := near_sign hr n2 hs
  rw [occ_length, occ_length] at n3
  refine n3.mono hr.nonneg (by omega) (le_of_eq (by ring))

theorem near_4 (hr : RoundsTo rnd u) {I : Integrals ℝ} {B : ℝ}
    (hV : ∀ p q r s, p < I.norb → q < I.norb → r < I.norb → s < I.norb → |I.V p q r s| ≤ B)
    {a a' : BitVec M} (sa : SupportedOn I.norb a) (sa' : SupportedOn I.norb a')
    (h : ExcitedWithin 2 (fun _ => True) a' a) :
    Near u 2 (2 * B) (I.matrixElement4R rnd a a' (a ^^^ a')) (I.matrixElement4 a a' (a ^^^ a')) := by
  obtain ⟨o1, v1, o2, v2, sgn, e, hD⟩ := double_data h
  have hs : sgn = 1 ∨ sgn = -1 := by
    have := doublesSign_cases a a' (a ^^^ a')
    rwa [doublesSign, e] at this
  unfold Integrals.matrixElement4R Integrals.matrixElement4
  rw [e]
  exact near_sign hr (near_G hr hV (sa v1 ((hD.bits v1).2 (by simp))) (sa' o1 hD.ho1) (sa v2 ((hD.bits v2).2 (by simp)))
    (sa' o2 hD.ho2)) hs

theorem near_diag (hr : RoundsTo rnd u) {I : Integrals ℝ} {B : ℝ} (hT : ∀ p q, p < I.norb → q < I.norb → |I.T p q| ≤ B)
    (hV : ∀ p q r s, p < I.norb → q < I.norb → r < I.norb → s < I.norb → |I.V p q r s| ≤ B)
    {a b : BitVec M} (sa : SupportedOn I.norb a) (sb : SupportedOn I.norb b) {n m : Nat} (hn : electrons a = n)
    (hm : electrons b = m) :
    Near u (n + m + 2 + n * n + m * m + m * n) ((n + m + n * n + m * m + m * n : Nat) * B)
      (I.matrixElementDiagR rnd (occ a) (occ b)) (I.matrixElementDiag (occ a) (occ b)) := by
  unfold Integrals.matrixElementDiagR Integrals.matrixElementDiag
  have n0 : Near u 0 0 0 0 := Near.exact (by simp)
  have n1 := n0.foldl hr (fun p => I.T p p) (fun p => I.T p p) B 0 (occ a)
    (fun x hx => Near.exact (hT _ _ (mem_occ' sa hx) (mem_occ' sa hx))) le_rfl
  have n2 := n1.foldl hr (fun p => I.T p p) (fun p => I.T p p) B 0 (occ b)
    (fun x hx => Near.exact (hT _ _ (mem_occ' sb hx) (mem_occ' sb hx))) (Nat.zero_le _)
  have n2' := n2.mono (k' := electrons a + electrons b + 2) hr.nonneg
    (by rw [occ_length, occ_length]; omega) le_rfl
  have n3 := near_rows hr (I.G2redR rnd) I.G2red B 2 (occ a) (occ a)
    (fun q hq p hp => near_G2 hr hV (mem_occ' sa hp) (mem_occ' sa hq)) (by omega) n2'
  have n4 := near_rows hr (I.G2redR rnd) I.G2red B 2 (occ b) (occ b)
    (fun q hq p hp => near_G2 hr hV (mem_occ' sb hp) (mem_occ' sb hq)) (by omega) n3
  have n5 := near_rows hr I.V2red I.V2red B 0 (occ b) (occ a)
    (fun q hq p hp => Near.exact (hV _ _ _ _ (mem_occ' sa hp) (mem_occ' sa hp) (mem_occ' sb hq) (mem_occ' sb hq)))
    (Nat.zero_le _) n4
  simp only [occ_length, hn, hm, zero_add] at n5
  refine (n5.mono hr.nonneg le_rfl (le_of_eq ?_))
  push_cast
  ring

/-- C169: a Hamiltonian matrix element computed in floating point differs from the second quantised operator's by a
relative error of at most `n² + n + 2` roundings, where `n` is the number of electrons: with `B` a bound on the
integrals, by at most `((1+u)^(n²+n+2) - 1)·(n²+n+2)·B`. -/
theorem C169_error (hr : RoundsTo rnd u) (I : Integrals ℝ) (hn : I.norb ≤ M) (hp : PairSymmetric I) {B : ℝ} (hB : 0 ≤ B)
    (hT : ∀ p q, p < I.norb → q < I.norb → |I.T p q| ≤ B)
    (hV : ∀ p q r s, p < I.norb → q < I.norb → r < I.norb → s < I.norb → |I.V p q r s| ≤ B)
    (bra ket : BitVec (2 * M)) (hb : InSpace I.norb bra) (hk : InSpace I.norb ket) (hs : SameSector bra ket) {n : Nat}
    (he : alphaElectrons bra + betaElectrons bra = n) :
    |I.matrixElementR rnd bra ket - hamiltonian I bra ket|
      ≤ ((1 + u) ^ (n ^ 2 + n + 2) - 1) * ((n ^ 2 + n + 2 : Nat) * B) := by
  rw [← C13_slater_condon M I hn two_ne_zero hp bra ket hb hk hs]
  rw [inSpace_iff] at hb hk
  obtain ⟨ha, hb'⟩ := hs
  rw [alphaElectrons_eq, alphaElectrons_eq] at ha
  rw [betaElectrons_eq, betaElectrons_eq] at hb'
  rw [alphaElectrons_eq, betaElectrons_eq] at he
  obtain ⟨sa, sb⟩ := hb
  obtain ⟨sa', sb'⟩ := hk
  simp only [Integrals.matrixElementR, Integrals.matrixElement]
  generalize loWord bra = a, hiWord bra = b, loWord ket = a', hiWord ket = b' at *
  obtain ⟨ka, ca, ea⟩ := exists_excited ha
  obtain ⟨kb, cb, eb⟩ := exists_excited hb'
  simp only [Integrals.matrixElementSpinR, Integrals.matrixElementSpin, ca, cb, bitsToIndices_eq_occ]
  by_cases h3 : 3 ≤ ka + kb
  · rw [if_pos (by omega), if_pos (by omega), sub_self, abs_zero]
    exact mul_nonneg (grow_nonneg hr.nonneg _) (mul_nonneg (Nat.cast_nonneg _) hB)
  have fin : ∀ {k N : Nat} {h H : ℝ}, Near u k (N * B) h H → k ≤ n ^ 2 + n + 2 → N ≤ n ^ 2 + n + 2 →
      |h - H| ≤ ((1 + u) ^ (n ^ 2 + n + 2) - 1) * ((n ^ 2 + n + 2 : Nat) * B) := by
    intro k N h H x h1 h2
    exact (x.mono hr.nonneg h1 (mul_le_mul_of_nonneg_right (by exact_mod_cast h2) hB)).1
  have sq : 2 * n ≤ n ^ 2 + 1 := by
    rcases n with _ | _ | n
    · simp
    · simp
    · nlinarith
  obtain ⟨rfl, rfl⟩ | ⟨rfl, rfl⟩ | ⟨rfl, rfl⟩ | ⟨rfl, rfl⟩ | ⟨rfl, rfl⟩ | ⟨rfl, rfl⟩ :
      (ka = 2 ∧ kb = 0) ∨ (ka = 0 ∧ kb = 2) ∨ (ka = 1 ∧ kb = 1) ∨ (ka = 1 ∧ kb = 0) ∨ (ka = 0 ∧ kb = 1) ∨
        (ka = 0 ∧ kb = 0) := by omega
  all_goals simp only [Nat.reduceMul, Nat.reduceAdd, gt_iff_lt, lt_irrefl, if_false, if_true, Nat.reduceLT,
    Nat.reduceEqDiff, OfNat.zero_ne_ofNat, and_self, and_false, false_and]
  · exact fin (N := 2) (by exact_mod_cast near_4 hr hV sa sa' ea) (by omega) (by omega)
  · exact fin (N := 2) (by exact_mod_cast near_4 hr hV sb sb' eb) (by omega) (by omega)
  · obtain ⟨o1, v1, s1, e1, p1, p2, p3, p4, p5, p6⟩ := single_data ea
    obtain ⟨o2, v2, s2, e2, q1, q2, q3, q4, q5, q6⟩ := single_data eb
    rw [Integrals.matrixElement22R, Integrals.matrixElement22, e1, e2]
    have t1 : s1 = 1 ∨ s1 = -1 := by
      rw [cre_ann p1 p2 p3] at p6
      simp only [Option.some.injEq, Prod.mk.injEq] at p6
      rw [← p6.1]
      simpa using sign_cases a' v1 o1
    have t2 : s2 = 1 ∨ s2 = -1 := by
      rw [cre_ann q1 q2 q3] at q6
      simp only [Option.some.injEq, Prod.mk.injEq] at q6
      rw [← q6.1]
      simpa using sign_cases b' v2 o2
    have t3 : s1 * s2 = 1 ∨ s1 * s2 = -1 := by
      rcases t1 with rfl | rfl <;> rcases t2 with rfl | rfl <;> simp
    have := near_sign hr (Near.exact (u := u) (hV v1 o1 v2 o2 (sa v1 p4) (sa' o1 p1) (sb v2 q4) (sb' o2 q1))) t3
    exact fin (N := 1) (by rw [Nat.cast_one, one_mul]; exact this) (by omega) (by omega)
  · have := near_2 hr hT hV sa sa' sb ea
    exact fin (N := 1 + 2 * electrons a + electrons b) (by push_cast; exact this) (by nlinarith) (by nlinarith)
  · have := near_2 hr hT hV sb sb' sa eb
    exact fin (N := 1 + 2 * electrons b + electrons a) (by push_cast; exact this) (by nlinarith) (by nlinarith)
  · exact fin (near_diag hr hT hV sa sb rfl rfl) (by nlinarith) (by nlinarith)

/-! ### The sparse Hamiltonian -/

/-- C169: the sparse Hamiltonian built in floating point over determinants of one sector is exactly symmetric: the same
positions are stored, with the same value, above and below the diagonal. -/
theorem C169_sparse_symmetric (hi : Idempotent rnd) (h0 : rnd 0 = 0) {I : Integrals ℝ} (hI : RealSymmetric I)
    (hT : ∀ p q, rnd (I.T p q) = I.T p q) {thresh : ℝ} (ht : 0 ≤ thresh) (dets : List (BitVec (2 * M)))
    (hs : ∀ s ∈ dets, ∀ t ∈ dets, SameSector s t) (i j : Nat) (hi' : i < dets.length) (hj : j < dets.length) :
    (csrStored (I.csrHamiltonianR rnd dets thresh) i j ↔ csrStored (I.csrHamiltonianR rnd dets thresh) j i) ∧
      csrEntry (I.csrHamiltonianR rnd dets thresh) i j = csrEntry (I.csrHamiltonianR rnd dets thresh) j i := by
  have e := C169_symmetric hi h0 hI hT dets[i] dets[j] (hs _ (List.getElem_mem hi') _ (List.getElem_mem hj))
  unfold Integrals.csrHamiltonianR
  rw [csrBlock_storedR rnd I ht _ _ hi', csrBlock_storedR rnd I ht _ _ hj, csrBlock_entryR rnd I ht _ _ hi' hj,
    csrBlock_entryR rnd I ht _ _ hj hi']
  refine ⟨⟨fun ⟨_, a, b, c⟩ => ⟨hi', b, a, e ▸ c⟩, fun ⟨_, a, b, c⟩ => ⟨hj, b, a, e ▸ c⟩⟩, ?_⟩
  exact if_congr (by rw [e]; tauto) e rfl

/-- C169: the entries of the sparse Hamiltonian built in floating point: what is stored is within the rounding error of
the operator's matrix element, and what is left out has a matrix element of at most the threshold plus the rounding
error. -/
theorem C169_sparse_error (hr : RoundsTo rnd u) (I : Integrals ℝ) (hn : I.norb ≤ M) (hp : PairSymmetric I) {B : ℝ}
    (hB : 0 ≤ B) (hT : ∀ p q, p < I.norb → q < I.norb → |I.T p q| ≤ B)
    (hV : ∀ p q r s, p < I.norb → q < I.norb → r < I.norb → s < I.norb → |I.V p q r s| ≤ B) {thresh : ℝ}
    (ht : 0 ≤ thresh) (dets : List (BitVec (2 * M))) (hd : ∀ s ∈ dets, InSpace I.norb s ∧ s ≠ 0#(2 * M))
    (hs : ∀ s ∈ dets, ∀ t ∈ dets, SameSector s t) {n : Nat}
    (he : ∀ s ∈ dets, alphaElectrons s + betaElectrons s = n) (i j : Nat) (hi : i < dets.length)
    (hj : j < dets.length) :
    let err := ((1 + u) ^ (n ^ 2 + n + 2) - 1) * ((n ^ 2 + n + 2 : Nat) * B)
    let A := I.csrHamiltonianR rnd dets thresh
    (csrStored A i j → |csrEntry A i j - hamiltonian I dets[i] dets[j]| ≤ err ∧ thresh < |csrEntry A i j|) ∧
      (¬ csrStored A i j → csrEntry A i j = 0 ∧ |hamiltonian I dets[i] dets[j]| ≤ thresh + err) := by
  intro err A
  have mi := List.getElem_mem hi
  have mj := List.getElem_mem hj
  have e := C169_error hr I hn hp hB hT hV dets[i] dets[j] (hd _ mi).1 (hd _ mj).1 (hs _ mi _ mj) (he _ mi)
  have s1 : csrStored A i j ↔ thresh < |I.matrixElementR rnd dets[i] dets[j]| := by
    refine (csrBlock_storedR rnd I ht _ _ hi).trans ⟨fun ⟨_, _, _, c⟩ => c, fun c => ⟨hj, (hd _ mi).2, (hd _ mj).2, c⟩⟩
  have s2 := csrBlock_entryR rnd I ht dets dets hi hj
  change csrEntry A i j = _ at s2
  rw [s1, s2]
  constructor
  · intro c
    rw [if_pos ⟨(hd _ mi).2, (hd _ mj).2, c⟩]
    exact ⟨e, c⟩
  · intro c
    rw [if_neg (fun h => c h.2.2)]
    refine ⟨rfl, ?_⟩
    have := abs_sub_abs_le_abs_sub (hamiltonian I dets[i] dets[j]) (I.matrixElementR rnd dets[i] dets[j])
    rw [abs_sub_comm] at this
    linarith [not_lt.1 c]

/-! ### Examples -/

/-- example integrals: two orbitals, `T = -1`, `V = 1/3` -/
noncomputable def roundInts : Integrals ℝ := ⟨2, fun _ _ => -1, fun _ _ _ _ => 1 / 3⟩

theorem roundInts_symm : RealSymmetric roundInts := ⟨fun _ _ => rfl, fun _ _ _ _ => rfl, fun _ _ _ _ => rfl⟩

/-- `double` arithmetic rounding towards zero, with alpha and beta electron in orbital 0 and one of them moved -/
example : roundInts.matrixElementR (chop 52) (0b0101#(2 * 2)) (0b0110#(2 * 2))
    = roundInts.matrixElementR (chop 52) (0b0110#(2 * 2)) (0b0101#(2 * 2)) :=
  C169_symmetric (chop_idem 52) (chop_zero 52) roundInts_symm (fun _ _ => chop_neg_one 52) _ _ (by decide)

example : |roundInts.matrixElementR (chop 52) (0b0101#(2 * 2)) (0b0110#(2 * 2))
      - hamiltonian roundInts (0b0101#(2 * 2)) (0b0110#(2 * 2))|
    ≤ ((1 + (2 : ℝ) ^ (-(52 : ℤ))) ^ (2 ^ 2 + 2 + 2) - 1) * ((2 ^ 2 + 2 + 2 : Nat) * 1) :=
  C169_error (chop_rounds 52) roundInts (by decide) roundInts_symm.2.1 (by norm_num)
    (fun _ _ _ _ => by norm_num [roundInts]) (fun _ _ _ _ _ _ _ _ => by norm_num [roundInts, abs_of_pos])
    _ _ (by change InSpace 2 _; decide) (by change InSpace 2 _; decide) (by decide) (by decide)

/-- the hypotheses on the sparse Hamiltonian are met by the four determinants of two electrons in two orbitals -/
example : (∀ s ∈ [0b0101#(2 * 2), 0b0110#(2 * 2), 0b1001#(2 * 2), 0b1010#(2 * 2)],
    ∀ t ∈ [0b0101#(2 * 2), 0b0110#(2 * 2), 0b1001#(2 * 2), 0b1010#(2 * 2)], SameSector (M := 2) s t) ∧
    (∀ s ∈ [0b0101#(2 * 2), 0b0110#(2 * 2), 0b1001#(2 * 2), 0b1010#(2 * 2)],
      InSpace (M := 2) 2 s ∧ s ≠ 0#(2 * 2) ∧ alphaElectrons (M := 2) s + betaElectrons (M := 2) s = 2) := by
  decide

end Macis
