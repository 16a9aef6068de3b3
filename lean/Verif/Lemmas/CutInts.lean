import Verif.Props.Frozen
/-! Matrix elements, the CSR Hamiltonian and the CASCI driver depend only on the integrals of the orbitals. -/
namespace Macis
open Spec

variable {M : Nat} {R : Type} [Field R]

/-- The integrals agree on the first `n` orbitals. -/
structure AgreeBelow (n : Nat) (I J : Integrals R) : Prop where
  T : ∀ p q, p < n → q < n → J.T p q = I.T p q
  V : ∀ p q r s, p < n → q < n → r < n → s < n → J.V p q r s = I.V p q r s

theorem emb_zero (a : BitVec M) : Emb 0 a a := by intro j; simp

theorem AgreeBelow.G {n : Nat} {I J : Integrals R} (h : AgreeBelow n I J) {p q r s : Nat} (hp : p < n) (hq : q < n)
    (hr : r < n) (hs : s < n) : J.G p q r s = I.G p q r s := by
  rw [Integrals.G, Integrals.G, h.V _ _ _ _ hp hq hr hs, h.V _ _ _ _ hp hs hr hq]

theorem matrixElement2_congr {n : Nat} {I J : Integrals R} (h : AgreeBelow n I J) {a a' b : BitVec M}
    (hs : SupportedOn n a) (hs' : SupportedOn n a') (hsb : SupportedOn n b) (hM : n ≤ M)
    (hE : ExcitedWithin 1 (fun _ => True) a' a) :
    J.matrixElement2 a a' (a ^^^ a') (occ a) (occ b) = I.matrixElement2 a a' (a ^^^ a') (occ a) (occ b) := by
  obtain ⟨o, v, sgn, e1, ho, hv, -⟩ := (emb_zero a).single (emb_zero a') hs hs' (by omega) hE
  unfold Integrals.matrixElement2
  rw [e1]
  dsimp only
  rw [h.T v o hv ho]
  have k1 : ((occ a).map fun p => J.Gred p v o) = (occ a).map fun p => I.Gred p v o :=
    List.map_congr_left fun p hp => by
      have := occ_supp hs hp
      exact h.G this this hv ho
  have k2 : ((occ b).map fun p => J.Vred p v o) = (occ b).map fun p => I.Vred p v o :=
    List.map_congr_left fun p hp => by
      have := occ_supp hsb hp
      exact h.V _ _ _ _ this this hv ho
  rw [k1, k2]

theorem matrixElementDiag_congr {n : Nat} {I J : Integrals R} (h : AgreeBelow n I J) {la lb : List Nat}
    (ha : ∀ p ∈ la, p < n) (hb : ∀ p ∈ lb, p < n) :
    J.matrixElementDiag la lb = I.matrixElementDiag la lb := by
  have t : ∀ {l : List Nat}, (∀ p ∈ l, p < n) → (l.map fun p => J.T p p) = l.map fun p => I.T p p :=
    fun hl => List.map_congr_left fun p hp => h.T p p (hl p hp) (hl p hp)
  have g : ∀ {l : List Nat}, (∀ p ∈ l, p < n) →
      (l.map fun q => (l.map fun p => J.G2red p q).sum) = l.map fun q => (l.map fun p => I.G2red p q).sum :=
    fun hl => List.map_congr_left fun q hq => congrArg List.sum (List.map_congr_left fun p hp => by
      rw [Integrals.G2red, Integrals.G2red, h.G (hl p hp) (hl p hp) (hl q hq) (hl q hq)])
  have v : (lb.map fun q => (la.map fun p => J.V2red p q).sum) = lb.map fun q => (la.map fun p => I.V2red p q).sum :=
    List.map_congr_left fun q hq => congrArg List.sum (List.map_congr_left fun p hp =>
      h.V _ _ _ _ (ha p hp) (ha p hp) (hb q hq) (hb q hq))
  unfold Integrals.matrixElementDiag
  rw [t ha, t hb, g ha, g hb, v]

theorem matrixElementSpin_congr {n : Nat} {I J : Integrals R} (h : AgreeBelow n I J) {a a' b b' : BitVec M}
    (hs : SupportedOn n a) (hs' : SupportedOn n a') (hsb : SupportedOn n b) (hsb' : SupportedOn n b') (hM : n ≤ M)
    (ea : electrons a = electrons a') (eb : electrons b = electrons b') :
    J.matrixElementSpin a a' (a ^^^ a') b b' (b ^^^ b') (occ a) (occ b) =
      I.matrixElementSpin a a' (a ^^^ a') b b' (b ^^^ b') (occ a) (occ b) := by
  obtain ⟨ka, ca, xa⟩ := exists_excited ea
  obtain ⟨kb, cb, xb⟩ := exists_excited eb
  unfold Integrals.matrixElementSpin
  simp only [ca, cb]
  by_cases h3 : 2 * ka + 2 * kb > 4
  · rw [if_pos h3, if_pos h3]
  rw [if_neg h3, if_neg h3]
  by_cases hk4 : 2 * ka = 4
  · rw [if_pos hk4, if_pos hk4]
    have : ka = 2 := by omega
    subst this
    obtain ⟨o1, v1, o2, v2, sgn, e1, i1, i2, i3, i4, -⟩ := (emb_zero a).double (emb_zero a') hs hs' (by omega) xa
    rw [Integrals.matrixElement4, Integrals.matrixElement4, e1]
    dsimp only
    rw [h.G i2 i1 i4 i3]
  rw [if_neg hk4, if_neg hk4]
  by_cases hkb4 : 2 * kb = 4
  · rw [if_pos hkb4, if_pos hkb4]
    have : kb = 2 := by omega
    subst this
    obtain ⟨o1, v1, o2, v2, sgn, e1, i1, i2, i3, i4, -⟩ := (emb_zero b).double (emb_zero b') hsb hsb' (by omega) xb
    rw [Integrals.matrixElement4, Integrals.matrixElement4, e1]
    dsimp only
    rw [h.G i2 i1 i4 i3]
  rw [if_neg hkb4, if_neg hkb4]
  by_cases hk22 : 2 * ka = 2 ∧ 2 * kb = 2
  · rw [if_pos hk22, if_pos hk22]
    obtain ⟨rfl, rfl⟩ : ka = 1 ∧ kb = 1 := by omega
    obtain ⟨o1, v1, s1, e1, i1, i2, -⟩ := (emb_zero a).single (emb_zero a') hs hs' (by omega) xa
    obtain ⟨o2, v2, s2, e3, i3, i4, -⟩ := (emb_zero b).single (emb_zero b') hsb hsb' (by omega) xb
    rw [Integrals.matrixElement22, Integrals.matrixElement22, e1, e3]
    dsimp only
    rw [h.V _ _ _ _ i2 i1 i4 i3]
  rw [if_neg hk22, if_neg hk22]
  by_cases hk2 : 2 * ka = 2
  · rw [if_pos hk2, if_pos hk2]
    have : ka = 1 := by omega
    subst this
    exact matrixElement2_congr h hs hs' hsb hM xa
  rw [if_neg hk2, if_neg hk2]
  by_cases hkb2 : 2 * kb = 2
  · rw [if_pos hkb2, if_pos hkb2]
    have : kb = 1 := by omega
    subst this
    exact matrixElement2_congr h hsb hsb' hs hM xb
  rw [if_neg hkb2, if_neg hkb2]
  exact matrixElementDiag_congr h (fun p => occ_supp hs) (fun p => occ_supp hsb)

theorem matrixElement_congr {n : Nat} {I J : Integrals R} (h : AgreeBelow n I J) {bra ket : BitVec (2 * M)}
    (hb : InSpace n bra) (hk : InSpace n ket) (hs : SameSector bra ket) (hM : n ≤ M) :
    J.matrixElement bra ket = I.matrixElement bra ket := by
  unfold Integrals.matrixElement
  simp only [bitsToIndices_eq_occ]
  exact matrixElementSpin_congr h ((inSpace_iff bra).1 hb).1 ((inSpace_iff ket).1 hk).1 ((inSpace_iff bra).1 hb).2
    ((inSpace_iff ket).1 hk).2 hM (by rw [← alphaElectrons_eq, ← alphaElectrons_eq]; exact hs.1)
    (by rw [← betaElectrons_eq, ← betaElectrons_eq]; exact hs.2)

theorem foldl_congr_mem {A B : Type} {f g : B → A → B} {l : List A} (h : ∀ b, ∀ a ∈ l, f b a = g b a) (b : B) :
    l.foldl f b = l.foldl g b := by
  induction l generalizing b with
  | nil => rfl
  | cons a l ih =>
    rw [List.foldl_cons, List.foldl_cons, h b a (List.mem_cons_self ..)]
    exact ih (fun b a ha => h b a (List.mem_cons_of_mem _ ha)) _

variable [LinearOrder R]

theorem csrBlock_congr {n : Nat} {I J : Integrals R} (h : AgreeBelow n I J) (hM : n ≤ M)
    {bras kets : List (BitVec (2 * M))} (hb : ∀ d ∈ bras, InSpace n d) (hk : ∀ d ∈ kets, InSpace n d)
    (hs : ∀ d ∈ bras, ∀ d' ∈ kets, count d' ≠ 0 → SameSector d d') (thresh : R) :
    J.csrBlock bras kets thresh = I.csrBlock bras kets thresh := by
  unfold Integrals.csrBlock Integrals.csrBlockImpl
  have : bras.foldl (braStep J thresh kets) { rowptr := [0], colind := [], nzval := [], nrow := 0 } =
      bras.foldl (braStep I thresh kets) { rowptr := [0], colind := [], nzval := [], nrow := 0 } := by
    refine foldl_congr_mem (fun st bra hbra => ?_) _
    unfold braStep
    dsimp only
    have : ∀ st, (enumerate kets).foldl (ketStep J thresh bra) st = (enumerate kets).foldl (ketStep I thresh bra) st := by
      intro st
      refine foldl_congr_mem (fun st jk hjk => ?_) _
      obtain ⟨j, ket⟩ := jk
      have hket : ket ∈ kets := (List.of_mem_zip hjk).2
      unfold ketStep
      dsimp only
      by_cases c0 : count ket ≠ 0
      · rw [if_pos c0, if_pos c0]
        have := matrixElement_congr h (hb bra hbra) (hk ket hket) (hs bra hbra ket hket c0) hM
        unfold Integrals.matrixElement at this
        dsimp only at this
        have e1 : loWord (bra ^^^ ket) = loWord bra ^^^ loWord ket := loWord_xor _ _
        have e2 : hiWord (bra ^^^ ket) = hiWord bra ^^^ hiWord ket := hiWord_xor _ _
        rw [e1, e2, this]
      · rw [if_neg c0, if_neg c0]
    rw [this]
  rw [this]

end Macis
