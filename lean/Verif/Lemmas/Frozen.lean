import Verif.Lemmas.MatrixElement
import Verif.Lemmas.Diag
import Verif.Spec.Frozen
/-! Shifting strings up by a fully occupied core: indices, signs, counts and occupied sums. -/
namespace Macis
open Spec

variable {M : Nat}

/-- `A` is `a` moved up by `ni` with the first `ni` bits set -/
def Emb (ni : Nat) (a A : BitVec M) : Prop :=
  ∀ j, A.getLsbD j = (decide (j < ni) || a.getLsbD (j - ni))

/-- `X` is `x` moved up by `ni` -/
def Shl (ni : Nat) (x X : BitVec M) : Prop :=
  ∀ j, X.getLsbD j = (decide (ni ≤ j) && x.getLsbD (j - ni))

theorem Emb.hi {ni : Nat} {a A : BitVec M} (h : Emb ni a A) (j : Nat) :
    A.getLsbD (j + ni) = a.getLsbD j := by
  rw [h]; simp

theorem Shl.hi {ni : Nat} {a A : BitVec M} (h : Shl ni a A) (j : Nat) :
    A.getLsbD (j + ni) = a.getLsbD j := by
  rw [h]; simp

theorem Shl.lo {ni : Nat} {a A : BitVec M} (h : Shl ni a A) {j : Nat} (hj : j < ni) :
    A.getLsbD j = false := by
  rw [h]; simp; omega

theorem Emb.xor {ni : Nat} {a A a' A' : BitVec M} (h : Emb ni a A) (h' : Emb ni a' A') :
    Shl ni (a ^^^ a') (A ^^^ A') := by
  intro j
  rw [BitVec.getLsbD_xor, h, h', BitVec.getLsbD_xor]
  by_cases hj : j < ni
  · simp [hj]
  · simp [hj, show ni ≤ j by omega]

theorem Shl.count {ni na : Nat} {x X : BitVec M} (h : Shl ni x X) (hs : SupportedOn na x)
    (hM : ni + na ≤ M) : count X = count x := by
  rw [← electrons_eq_count, ← electrons_eq_count]
  have hcard : ∀ s : BitVec M, electrons s = ((Finset.range M).filter (fun i => s.getLsbD i = true)).card := by
    intro s
    unfold electrons
    rw [← List.toFinset_card_of_nodup (List.nodup_range.filter _)]
    congr 1; ext x; simp
  rw [hcard, hcard]
  symm
  refine Finset.card_bij (fun i _ => i + ni) ?_ ?_ ?_
  · intro i hi
    rw [Finset.mem_filter] at hi ⊢
    have := hs i hi.2
    exact ⟨Finset.mem_range.2 (by omega), by rw [h.hi]; exact hi.2⟩
  · intro i _ j _ hij
    omega
  · intro j hj
    rw [Finset.mem_filter, h] at hj
    obtain ⟨h1, h2⟩ := hj
    rw [Bool.and_eq_true, decide_eq_true_eq] at h2
    refine ⟨j - ni, ?_, by omega⟩
    rw [Finset.mem_filter, Finset.mem_range]
    have := hs _ h2.2
    exact ⟨by omega, h2.2⟩

theorem Emb.first {ni : Nat} {a A x X : BitVec M} (h : Emb ni a A) (hx : Shl ni x X)
    (he : ∃ i, a.getLsbD i = true ∧ x.getLsbD i = true) :
    firstOccupiedFlipped A X = firstOccupiedFlipped a x + ni := by
  obtain ⟨b1, b2, b3⟩ := firstOccupiedFlipped_spec he
  have hE : ∃ i, A.getLsbD i = true ∧ X.getLsbD i = true := by
    obtain ⟨i, h1, h2⟩ := he
    exact ⟨i + ni, by rw [h.hi]; exact h1, by rw [hx.hi]; exact h2⟩
  obtain ⟨c1, c2, c3⟩ := firstOccupiedFlipped_spec hE
  apply le_antisymm
  · exact c3 _ (by rw [h.hi]; exact b1) (by rw [hx.hi]; exact b2)
  · have hge : ni ≤ firstOccupiedFlipped A X := by
      by_contra hlt
      rw [hx.lo (by omega)] at c2
      cases c2
    have e : firstOccupiedFlipped A X = (firstOccupiedFlipped A X - ni) + ni := by omega
    rw [e, h.hi] at c1
    rw [e, hx.hi] at c2
    have := b3 _ c1 c2
    omega

theorem Emb.flip {ni na : Nat} {a A : BitVec M} (h : Emb ni a A) {o : Nat} (ho : o < na)
    (hM : ni + na ≤ M) : Emb ni (flip a o) (flip A (o + ni)) := by
  intro j
  rw [getLsbD_flip (by omega), getLsbD_flip (by omega), h]
  by_cases hj : j < ni
  · simp [hj, show ¬ o + ni = j by omega]
  · simp only [hj, decide_false, Bool.false_or]
    congr 1
    simp only [decide_eq_decide]
    omega

theorem Shl.flip {ni na : Nat} {a A : BitVec M} (h : Shl ni a A) {o : Nat} (ho : o < na)
    (hM : ni + na ≤ M) : Shl ni (flip a o) (flip A (o + ni)) := by
  intro j
  rw [getLsbD_flip (by omega), getLsbD_flip (by omega), h]
  by_cases hj : j < ni
  · simp [show ¬ ni ≤ j by omega, show ¬ o + ni = j by omega]
  · simp only [show ni ≤ j by omega, decide_true, Bool.true_and]
    congr 1
    simp only [decide_eq_decide]
    omega

theorem Emb.sign {ni na : Nat} {a A : BitVec M} (h : Emb ni a A) (hs : SupportedOn na a)
    (hM : ni + na ≤ M) (p q : Nat) (hp : p < na) (hq : q < na) :
    singleExcitationSign A (p + ni) (q + ni) = singleExcitationSign a p q := by
  have key : ∀ x y : Nat, x < na → y < na → x ≤ y →
      Shl ni (a &&& (fullMask M y ^^^ fullMask M (x + 1))) (A &&& (fullMask M (y + ni) ^^^ fullMask M (x + ni + 1))) := by
    intro x y hx hy hxy j
    rw [BitVec.getLsbD_and, BitVec.getLsbD_xor, BitVec.getLsbD_and, BitVec.getLsbD_xor,
      getLsbD_fullMask (by omega), getLsbD_fullMask (by omega), getLsbD_fullMask (by omega),
      getLsbD_fullMask (by omega), h]
    by_cases hj : j < ni
    · simp [hj, show ¬ ni ≤ j by omega, show j < y + ni by omega, show j < x + ni + 1 by omega]
    · simp only [hj, decide_false, Bool.false_or, show ni ≤ j by omega, decide_true, Bool.true_and]
      by_cases hb : a.getLsbD (j - ni) = true
      · have := hs _ hb
        have e1 : (j < y + ni) ↔ (j - ni < y) := by omega
        have e2 : (j < x + ni + 1) ↔ (j - ni < x + 1) := by omega
        simp [e1, e2, show j < M by omega, show j - ni < M by omega]
      · simp [hb]
  have hsup : ∀ y : BitVec M, SupportedOn na (a &&& y) := by
    intro y i hi
    rw [BitVec.getLsbD_and, Bool.and_eq_true] at hi
    exact hs i hi.1
  unfold singleExcitationSign
  dsimp only
  by_cases hpq : p > q
  · rw [if_pos hpq, if_pos (show p + ni > q + ni by omega)]
    rw [(key q p hq hp (by omega)).count (hsup _) hM]
  · rw [if_neg hpq, if_neg (show ¬ p + ni > q + ni by omega)]
    rw [(key p q hp hq (by omega)).count (hsup _) hM]

theorem Emb.single {ni na : Nat} {a A a' A' : BitVec M} (h : Emb ni a A) (h' : Emb ni a' A')
    (hs : SupportedOn na a) (hs' : SupportedOn na a') (hM : ni + na ≤ M)
    (hE : ExcitedWithin 1 (fun _ => True) a' a) :
    ∃ o v sgn, singleExcitationSignIndices a a' (a ^^^ a') = (o, v, sgn) ∧ o < na ∧ v < na ∧
      singleExcitationSignIndices A A' (A ^^^ A') = (o + ni, v + ni, sgn) := by
  obtain ⟨o, v, sgn, e, p1, p2, p3, p4, p5, p6⟩ := single_data hE
  obtain ⟨b1, b2, b3, b4⟩ := (single_bits p3 p6).resolve_right p5
  have hx := h.xor h'
  have ho := hs' o p1
  have hv := hs v p4
  have ao : a.getLsbD o = false := by
    cases hb : a.getLsbD o
    · rfl
    · exfalso
      have := (b4 o).1 hb
      simp [p5.symm] at this
  have f1 : firstOccupiedFlipped A' (A ^^^ A') = firstOccupiedFlipped a' (a ^^^ a') + ni :=
    h'.first hx ⟨o, p1, by rw [BitVec.getLsbD_xor, ao, p1]; rfl⟩
  have f2 : firstOccupiedFlipped A (A ^^^ A') = firstOccupiedFlipped a (a ^^^ a') + ni :=
    h.first hx ⟨v, p4, by rw [BitVec.getLsbD_xor, p4, p2]; rfl⟩
  refine ⟨o, v, sgn, e, ho, hv, ?_⟩
  unfold singleExcitationSignIndices at e ⊢
  simp only [Prod.mk.injEq] at e
  obtain ⟨e1, e2, e3⟩ := e
  simp only [f1, f2, e1, e2]
  rw [e1, e2] at e3
  rw [h'.sign hs' hM v o hv ho, e3]

theorem supportedOn_flip {na : Nat} {a : BitVec M} (hs : SupportedOn na a) {o : Nat} (ho : o < na)
    (hM : na ≤ M) : SupportedOn na (flip a o) := by
  intro j hj
  rw [getLsbD_flip (by omega)] at hj
  by_cases h : o = j
  · omega
  · simp [h] at hj
    exact hs j hj

theorem Emb.double {ni na : Nat} {a A a' A' : BitVec M} (h : Emb ni a A) (h' : Emb ni a' A')
    (hs : SupportedOn na a) (hs' : SupportedOn na a') (hM : ni + na ≤ M)
    (hE : ExcitedWithin 2 (fun _ => True) a' a) :
    ∃ o1 v1 o2 v2 sgn, doublesSignIndices a a' (a ^^^ a') = (o1, v1, o2, v2, sgn) ∧
      o1 < na ∧ v1 < na ∧ o2 < na ∧ v2 < na ∧
      doublesSignIndices A A' (A ^^^ A') = (o1 + ni, v1 + ni, o2 + ni, v2 + ni, sgn) := by
  obtain ⟨o1, v1, o2, v2, sgn, e, hD⟩ := double_data hE
  have hx := h.xor h'
  have hbits := hD.bits
  have av1 : a.getLsbD v1 = true := (hbits v1).2 (by simp)
  have av2 : a.getLsbD v2 = true := (hbits v2).2 (by simp)
  have n1 := hD.hv1
  have n2 := hD.hv2
  have ho1 := hs' o1 hD.ho1
  have ho2 := hs' o2 hD.ho2
  have hv1 := hs v1 av1
  have hv2 := hs v2 av2
  have o1v1 : o1 ≠ v1 := by intro e; have := hD.ho1; rw [e, n1] at this; cases this
  have o1v2 : o1 ≠ v2 := by intro e; have := hD.ho1; rw [e, n2] at this; cases this
  have o2v1 : o2 ≠ v1 := by intro e; have := hD.ho2; rw [e, n1] at this; cases this
  have o2v2 : o2 ≠ v2 := by intro e; have := hD.ho2; rw [e, n2] at this; cases this
  have ao1 : a.getLsbD o1 = false := by
    cases hb : a.getLsbD o1
    · rfl
    · have := (hbits o1).1 hb
      simp [o1v1, o1v2] at this
  have ao2 : a.getLsbD o2 = false := by
    cases hb : a.getLsbD o2
    · rfl
    · have := (hbits o2).1 hb
      simp [o2v1, o2v2] at this
  have f1 : firstOccupiedFlipped A' (A ^^^ A') = firstOccupiedFlipped a' (a ^^^ a') + ni :=
    h'.first hx ⟨o1, hD.ho1, by rw [BitVec.getLsbD_xor, ao1, hD.ho1]; rfl⟩
  have f2 : firstOccupiedFlipped A (A ^^^ A') = firstOccupiedFlipped a (a ^^^ a') + ni :=
    h.first hx ⟨v1, av1, by rw [BitVec.getLsbD_xor, av1, n1]; rfl⟩
  refine ⟨o1, v1, o2, v2, sgn, e, ho1, hv1, ho2, hv2, ?_⟩
  unfold doublesSignIndices at e ⊢
  simp only [Prod.mk.injEq] at e
  obtain ⟨e1, e2, e3, e4, e5⟩ := e
  rw [e1, e2] at e3 e4 e5
  rw [e3, e4] at e5
  simp only [f1, f2, e1, e2]
  have hk : Emb ni (Macis.flip (Macis.flip a' o1) v1) (Macis.flip (Macis.flip A' (o1 + ni)) (v1 + ni)) :=
    (h'.flip ho1 hM).flip hv1 hM
  have hx2 : Shl ni (Macis.flip (Macis.flip (a ^^^ a') o1) v1)
      (Macis.flip (Macis.flip (A ^^^ A') (o1 + ni)) (v1 + ni)) := (hx.flip ho1 hM).flip hv1 hM
  have bit : ∀ (s : BitVec M) (j : Nat), j ≠ o1 → j ≠ v1 →
      (Macis.flip (Macis.flip s o1) v1).getLsbD j = s.getLsbD j := by
    intro s j h1 h2
    rw [getLsbD_flip (by omega), getLsbD_flip (by omega)]
    simp [h1.symm, h2.symm]
  have f3 := hk.first hx2 ⟨o2, by rw [bit _ _ hD.ho.symm o2v1]; exact hD.ho2, by
    rw [bit _ _ hD.ho.symm o2v1, BitVec.getLsbD_xor, ao2, hD.ho2]; rfl⟩
  have f4 := h.first hx2 ⟨v2, av2, by
    rw [bit _ _ o1v2.symm hD.hv.symm, BitVec.getLsbD_xor, av2, n2]; rfl⟩
  rw [e3] at f3
  rw [e4] at f4
  rw [f3, f4, h'.sign hs' hM v1 o1 hv1 ho1,
    hk.sign (supportedOn_flip (supportedOn_flip hs' ho1 (by omega)) hv1 (by omega)) hM v2 o2 hv2 ho2, e5]

variable {R : Type} [Field R]

/-- sums over the occupied orbitals of a string with core -/
theorem Emb.occSum {ni na : Nat} {a A : BitVec M} (h : Emb ni a A) (hs : SupportedOn na a)
    (hM : ni + na ≤ M) (f : Nat → R) :
    ((occ A).map f).sum = ∑ i ∈ Finset.range ni, f i + ((occ a).map fun p => f (p + ni)).sum := by
  have hS : SupportedOn (ni + na) A := by
    intro j hj
    rw [h, Bool.or_eq_true, decide_eq_true_eq] at hj
    rcases hj with hj | hj
    · omega
    · have := hs _ hj; omega
  rw [sum_occ hS hM, sum_occ hs (by omega), Finset.sum_range_add]
  congr 1
  · refine Finset.sum_congr rfl fun i hi => ?_
    rw [if_pos (by rw [h]; simp [Finset.mem_range.1 hi])]
  · refine Finset.sum_congr rfl fun i _ => ?_
    rw [Nat.add_comm ni i, h.hi]

/-- `J` are the integrals of the active space over a core of `ni` orbitals of `I` -/
structure ActiveInts (ni na : Nat) (I J : Integrals R) : Prop where
  T : ∀ p q, p < na → q < na → J.T p q = I.T (p + ni) (q + ni) +
    ∑ i ∈ Finset.range ni, (2 * I.V (p + ni) (q + ni) i i - I.V (p + ni) i i (q + ni))
  V : ∀ p q r s, p < na → q < na → r < na → s < na →
    J.V p q r s = I.V (p + ni) (q + ni) (r + ni) (s + ni)

/-- pair exchange symmetry of the integrals over the first `n` orbitals -/
def PairSymBelow (n : Nat) (I : Integrals R) : Prop :=
  ∀ p q r s, p < n → q < n → r < n → s < n → I.V p q r s = I.V r s p q

/-- energy of the doubly occupied core -/
def coreEnergy (ni : Nat) (I : Integrals R) : R :=
  (∑ i ∈ Finset.range ni, 2 * I.T i i) +
    ∑ i ∈ Finset.range ni, ∑ j ∈ Finset.range ni, (2 * I.V i i j j - I.V i j j i)

theorem occ_supp {na : Nat} {a : BitVec M} (hs : SupportedOn na a) {p : Nat} (hp : p ∈ occ a) : p < na :=
  hs p (mem_occ.1 hp)

/-- singly excited element: the core contributes its mean field -/
theorem matrixElement2_core {ni na : Nat} {I J : Integrals R} (hI : PairSymBelow (ni + na) I)
    (hJ : ActiveInts ni na I J) {a A a' A' b B : BitVec M} (h : Emb ni a A) (h' : Emb ni a' A')
    (hb : Emb ni b B) (hs : SupportedOn na a) (hs' : SupportedOn na a') (hsb : SupportedOn na b)
    (hM : ni + na ≤ M) (hE : ExcitedWithin 1 (fun _ => True) a' a) :
    I.matrixElement2 A A' (A ^^^ A') (occ A) (occ B) = J.matrixElement2 a a' (a ^^^ a') (occ a) (occ b) := by
  obtain ⟨o, v, sgn, e1, ho, hv, e2⟩ := h.single h' hs hs' hM hE
  unfold Integrals.matrixElement2
  rw [e1, e2]
  dsimp only
  congr 1
  rw [h.occSum hs hM, hb.occSum hsb hM, hJ.T v o hv ho]
  have k1 : ((occ a).map fun p => J.Gred p v o) = (occ a).map fun p => I.Gred (p + ni) (v + ni) (o + ni) := by
    refine List.map_congr_left fun p hp => ?_
    have := occ_supp hs hp
    rw [Integrals.Gred, Integrals.Gred, Integrals.G, Integrals.G, hJ.V _ _ _ _ this this hv ho,
      hJ.V _ _ _ _ this ho hv this]
  have k2 : ((occ b).map fun p => J.Vred p v o) = (occ b).map fun p => I.Vred (p + ni) (v + ni) (o + ni) := by
    refine List.map_congr_left fun p hp => ?_
    have := occ_supp hsb hp
    rw [Integrals.Vred, Integrals.Vred, hJ.V _ _ _ _ this this hv ho]
  rw [k1, k2]
  have k3 : ∑ i ∈ Finset.range ni, (2 * I.V (v + ni) (o + ni) i i - I.V (v + ni) i i (o + ni)) =
      ∑ i ∈ Finset.range ni, I.Gred i (v + ni) (o + ni) + ∑ i ∈ Finset.range ni, I.Vred i (v + ni) (o + ni) := by
    rw [← Finset.sum_add_distrib]
    refine Finset.sum_congr rfl fun i hi => ?_
    have hi := Finset.mem_range.1 hi
    rw [Integrals.Gred, Integrals.Vred, Integrals.G,
      hI i i _ _ (by omega) (by omega) (by omega) (by omega),
      hI i (o + ni) _ _ (by omega) (by omega) (by omega) (by omega)]
    ring
  rw [k3]
  ring

theorem list_sum_comm (l : List Nat) (n : Nat) (f : Nat → Nat → R) :
    (l.map fun q => ∑ i ∈ Finset.range n, f q i).sum = ∑ i ∈ Finset.range n, (l.map fun q => f q i).sum := by
  induction l with
  | nil => simp
  | cons x l ih => simp only [List.map_cons, List.sum_cons, ih, Finset.sum_add_distrib]

theorem list_sum_add (l : List Nat) (f g : Nat → R) :
    (l.map fun q => f q + g q).sum = (l.map f).sum + (l.map g).sum := by
  induction l with
  | nil => simp
  | cons x l ih => simp only [List.map_cons, List.sum_cons, ih]; ring

/-- diagonal element -/
theorem matrixElementDiag_core {ni na : Nat} {I J : Integrals R} (h2 : (2 : R) ≠ 0) (hI : PairSymBelow (ni + na) I)
    (hJ : ActiveInts ni na I J) {a A b B : BitVec M} (h : Emb ni a A)
    (hb : Emb ni b B) (hs : SupportedOn na a) (hsb : SupportedOn na b) (hM : ni + na ≤ M) :
    I.matrixElementDiag (occ A) (occ B) = coreEnergy ni I + J.matrixElementDiag (occ a) (occ b) := by
  have i2 : (2⁻¹ : R) * 2 = 1 := inv_mul_cancel₀ h2
  -- active-active parts
  have t : ∀ {s : BitVec M}, SupportedOn na s → ((occ s).map fun p => J.T p p) =
      (occ s).map fun p => I.T (p + ni) (p + ni) +
        ∑ i ∈ Finset.range ni, (2 * I.V (p + ni) (p + ni) i i - I.V (p + ni) i i (p + ni)) := by
    intro s hs
    exact List.map_congr_left fun p hp => hJ.T p p (occ_supp hs hp) (occ_supp hs hp)
  have g : ∀ {s t : BitVec M}, SupportedOn na s → SupportedOn na t →
      ((occ t).map fun q => ((occ s).map fun p => J.G2red p q).sum).sum =
      ((occ t).map fun q => ((occ s).map fun p => I.G2red (p + ni) (q + ni)).sum).sum := by
    intro s t hs ht
    congr 1
    refine List.map_congr_left fun q hq => ?_
    congr 1
    refine List.map_congr_left fun p hp => ?_
    have h1 := occ_supp hs hp
    have h2 := occ_supp ht hq
    rw [Integrals.G2red, Integrals.G2red, Integrals.G, Integrals.G, hJ.V _ _ _ _ h1 h1 h2 h2,
      hJ.V _ _ _ _ h1 h2 h2 h1]
  have v : ((occ b).map fun q => ((occ a).map fun p => J.V2red p q).sum).sum =
      ((occ b).map fun q => ((occ a).map fun p => I.V2red (p + ni) (q + ni)).sum).sum := by
    congr 1
    refine List.map_congr_left fun q hq => ?_
    congr 1
    refine List.map_congr_left fun p hp => ?_
    have h1 := occ_supp hs hp
    have h2 := occ_supp hsb hq
    rw [Integrals.V2red, Integrals.V2red, hJ.V _ _ _ _ h1 h1 h2 h2]
  -- splitting a double sum
  have split : ∀ {s S t T : BitVec M}, Emb ni s S → Emb ni t T → SupportedOn na s → SupportedOn na t →
      ∀ F : Nat → Nat → R, ((occ T).map fun q => ((occ S).map fun p => F p q).sum).sum =
      ∑ q ∈ Finset.range ni, ∑ p ∈ Finset.range ni, F p q +
      ((occ s).map fun p => ∑ q ∈ Finset.range ni, F (p + ni) q).sum +
      ((occ t).map fun q => ∑ p ∈ Finset.range ni, F p (q + ni)).sum +
      ((occ t).map fun q => ((occ s).map fun p => F (p + ni) (q + ni)).sum).sum := by
    intro s S t T e1 e2 s1 s2 F
    rw [e2.occSum s2 hM]
    simp only [e1.occSum s1 hM]
    rw [list_sum_add, Finset.sum_add_distrib, list_sum_comm (occ s)]
    ring
  unfold Integrals.matrixElementDiag
  rw [h.occSum hs hM, hb.occSum hsb hM, split h h hs hs, split hb hb hsb hsb, split h hb hs hsb,
    t hs, t hsb, g hs hs, g hsb hsb, v, list_sum_add, list_sum_add]
  -- core with active alpha
  have ca : ∀ {s : BitVec M}, SupportedOn na s → ((occ s).map fun p => ∑ i ∈ Finset.range ni,
        (2 * I.V (p + ni) (p + ni) i i - I.V (p + ni) i i (p + ni))).sum =
      ((occ s).map fun p => ∑ q ∈ Finset.range ni, I.G2red (p + ni) q).sum +
      ((occ s).map fun q => ∑ p ∈ Finset.range ni, I.G2red p (q + ni)).sum +
      ((occ s).map fun p => ∑ q ∈ Finset.range ni, I.V2red (p + ni) q).sum := by
    intro s hs
    rw [← list_sum_add, ← list_sum_add]
    congr 1
    refine List.map_congr_left fun p hp => ?_
    have hp := occ_supp hs hp
    rw [← Finset.sum_add_distrib, ← Finset.sum_add_distrib]
    refine Finset.sum_congr rfl fun i hi => ?_
    have hi := Finset.mem_range.1 hi
    rw [Integrals.G2red, Integrals.G2red, Integrals.V2red, Integrals.G, Integrals.G,
      hI i i _ _ (by omega) (by omega) (by omega) (by omega),
      hI i (p + ni) _ _ (by omega) (by omega) (by omega) (by omega)]
    linear_combination (-(I.V (p + ni) (p + ni) i i - I.V (p + ni) i i (p + ni))) * i2
  have cb : ((occ b).map fun p => ∑ q ∈ Finset.range ni, I.V2red (p + ni) q).sum =
      ((occ b).map fun q => ∑ p ∈ Finset.range ni, I.V2red p (q + ni)).sum := by
    congr 1
    refine List.map_congr_left fun p hp => Finset.sum_congr rfl fun i hi => ?_
    have hp := occ_supp hsb hp
    have hi := Finset.mem_range.1 hi
    rw [Integrals.V2red, Integrals.V2red, hI i i _ _ (by omega) (by omega) (by omega) (by omega)]
  have cc : coreEnergy ni I = ∑ i ∈ Finset.range ni, I.T i i + ∑ i ∈ Finset.range ni, I.T i i +
      ∑ q ∈ Finset.range ni, ∑ p ∈ Finset.range ni, I.G2red p q +
      ∑ q ∈ Finset.range ni, ∑ p ∈ Finset.range ni, I.G2red p q +
      ∑ q ∈ Finset.range ni, ∑ p ∈ Finset.range ni, I.V2red p q := by
    unfold coreEnergy
    have c1 : ∑ i ∈ Finset.range ni, 2 * I.T i i =
        ∑ i ∈ Finset.range ni, I.T i i + ∑ i ∈ Finset.range ni, I.T i i := by
      rw [← Finset.sum_add_distrib]
      exact Finset.sum_congr rfl fun i _ => by ring
    have c2 : ∑ i ∈ Finset.range ni, ∑ j ∈ Finset.range ni, (2 * I.V i i j j - I.V i j j i) =
        ∑ q ∈ Finset.range ni, ∑ p ∈ Finset.range ni, I.G2red p q +
        ∑ q ∈ Finset.range ni, ∑ p ∈ Finset.range ni, I.G2red p q +
        ∑ q ∈ Finset.range ni, ∑ p ∈ Finset.range ni, I.V2red p q := by
      rw [Finset.sum_comm, ← Finset.sum_add_distrib, ← Finset.sum_add_distrib]
      refine Finset.sum_congr rfl fun q _ => ?_
      rw [← Finset.sum_add_distrib, ← Finset.sum_add_distrib]
      refine Finset.sum_congr rfl fun p _ => ?_
      rw [Integrals.G2red, Integrals.V2red, Integrals.G]
      linear_combination (-(I.V p p q q - I.V p q q p)) * i2
    rw [c1, c2]
    ring
  rw [ca hs, ca hsb, cb, cc]
  ring

/-- matrix elements over strings with core -/
theorem matrixElementSpin_core {ni na : Nat} {I J : Integrals R} (h2 : (2 : R) ≠ 0) (hI : PairSymBelow (ni + na) I)
    (hJ : ActiveInts ni na I J) {a A a' A' b B b' B' : BitVec M} (h : Emb ni a A) (h' : Emb ni a' A')
    (hb : Emb ni b B) (hb' : Emb ni b' B') (hs : SupportedOn na a) (hs' : SupportedOn na a')
    (hsb : SupportedOn na b) (hsb' : SupportedOn na b') (hM : ni + na ≤ M)
    (ea : electrons a = electrons a') (eb : electrons b = electrons b') :
    I.matrixElementSpin A A' (A ^^^ A') B B' (B ^^^ B') (occ A) (occ B) =
      (if a = a' ∧ b = b' then coreEnergy ni I else 0) +
      J.matrixElementSpin a a' (a ^^^ a') b b' (b ^^^ b') (occ a) (occ b) := by
  obtain ⟨ka, ca, xa⟩ := exists_excited ea
  obtain ⟨kb, cb, xb⟩ := exists_excited eb
  have sx : ∀ {s t : BitVec M}, SupportedOn na s → SupportedOn na t → SupportedOn na (s ^^^ t) := by
    intro s t hs ht i hi
    rw [BitVec.getLsbD_xor] at hi
    cases hb : s.getLsbD i
    · rw [hb] at hi
      exact ht i (by simpa using hi)
    · exact hs i hb
  have cA := (h.xor h').count (sx hs hs') hM
  have cB := (hb.xor hb').count (sx hsb hsb') hM
  have na0 : ka ≠ 0 → a ≠ a' := by
    intro hk e
    subst e
    rw [BitVec.xor_self] at ca
    have : count (0#M) = 0 := by rw [← electrons_eq_count]; simp [electrons]
    omega
  have nb0 : kb ≠ 0 → b ≠ b' := by
    intro hk e
    subst e
    rw [BitVec.xor_self] at cb
    have : count (0#M) = 0 := by rw [← electrons_eq_count]; simp [electrons]
    omega
  unfold Integrals.matrixElementSpin
  simp only [cA, cB, ca, cb]
  by_cases h3 : 2 * ka + 2 * kb > 4
  · rw [if_pos h3, if_pos h3, if_neg, add_zero]
    rintro ⟨e1, e2⟩
    by_cases hk : ka = 0
    · exact nb0 (by omega) e2
    · exact na0 hk e1
  rw [if_neg h3, if_neg h3]
  have hG : ∀ v1 o1 v2 o2, v1 < na → o1 < na → v2 < na → o2 < na →
      I.G (v1 + ni) (o1 + ni) (v2 + ni) (o2 + ni) = J.G v1 o1 v2 o2 := by
    intro v1 o1 v2 o2 i1 i2 i3 i4
    rw [Integrals.G, Integrals.G, hJ.V _ _ _ _ i1 i2 i3 i4, hJ.V _ _ _ _ i1 i4 i3 i2]
  by_cases hk4 : 2 * ka = 4
  · rw [if_pos hk4, if_pos hk4, if_neg (fun e => na0 (by omega) e.1), zero_add]
    have : ka = 2 := by omega
    subst this
    obtain ⟨o1, v1, o2, v2, sgn, e1, i1, i2, i3, i4, e2⟩ := h.double h' hs hs' hM xa
    rw [Integrals.matrixElement4, Integrals.matrixElement4, e1, e2]
    dsimp only
    rw [hG _ _ _ _ i2 i1 i4 i3]
  rw [if_neg hk4, if_neg hk4]
  by_cases hkb4 : 2 * kb = 4
  · rw [if_pos hkb4, if_pos hkb4, if_neg (fun e => nb0 (by omega) e.2), zero_add]
    have : kb = 2 := by omega
    subst this
    obtain ⟨o1, v1, o2, v2, sgn, e1, i1, i2, i3, i4, e2⟩ := hb.double hb' hsb hsb' hM xb
    rw [Integrals.matrixElement4, Integrals.matrixElement4, e1, e2]
    dsimp only
    rw [hG _ _ _ _ i2 i1 i4 i3]
  rw [if_neg hkb4, if_neg hkb4]
  by_cases hk22 : 2 * ka = 2 ∧ 2 * kb = 2
  · rw [if_pos hk22, if_pos hk22, if_neg (fun e => na0 (by omega) e.1), zero_add]
    obtain ⟨rfl, rfl⟩ : ka = 1 ∧ kb = 1 := by omega
    obtain ⟨o1, v1, s1, e1, i1, i2, e2⟩ := h.single h' hs hs' hM xa
    obtain ⟨o2, v2, s2, e3, i3, i4, e4⟩ := hb.single hb' hsb hsb' hM xb
    rw [Integrals.matrixElement22, Integrals.matrixElement22, e1, e2, e3, e4]
    dsimp only
    rw [hJ.V _ _ _ _ i2 i1 i4 i3]
  rw [if_neg hk22, if_neg hk22]
  by_cases hk2 : 2 * ka = 2
  · rw [if_pos hk2, if_pos hk2, if_neg (fun e => na0 (by omega) e.1), zero_add]
    have : ka = 1 := by omega
    subst this
    exact matrixElement2_core hI hJ h h' hb hs hs' hsb hM xa
  rw [if_neg hk2, if_neg hk2]
  by_cases hkb2 : 2 * kb = 2
  · rw [if_pos hkb2, if_pos hkb2, if_neg (fun e => nb0 (by omega) e.2), zero_add]
    have : kb = 1 := by omega
    subst this
    exact matrixElement2_core hI hJ hb hb' h hsb hsb' hs hM xb
  rw [if_neg hkb2, if_neg hkb2]
  have hka : ka = 0 := by omega
  have hkb : kb = 0 := by omega
  subst hka hkb
  rw [if_pos ⟨excited_zero.1 xa, excited_zero.1 xb⟩]
  exact matrixElementDiag_core h2 hI hJ h hb hs hsb hM

end Macis
