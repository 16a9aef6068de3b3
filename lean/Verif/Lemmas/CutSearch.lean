import Verif.Lemmas.CutInts
import Verif.Model.AsciContrib
/-! The scores of the ASCI search depend only on the integrals of the orbitals. -/
namespace Macis
open Spec

variable {M : Nat} {R : Type} [Field R] {n : Nat} {I J : Integrals R}

theorem vir_lt {N norb : Nat} {s : BitVec N} {p : Nat} (h : p ∈ vir norb s) : p < norb := by
  unfold vir at h
  simp at h
  exact h.1

theorem AgreeBelow.G2red (h : AgreeBelow n I J) {p q : Nat} (hp : p < n) (hq : q < n) :
    J.G2red p q = I.G2red p q := by
  rw [Integrals.G2red, Integrals.G2red, h.G hp hp hq hq]

theorem AgreeBelow.V2red (h : AgreeBelow n I J) {p q : Nat} (hp : p < n) (hq : q < n) :
    J.V2red p q = I.V2red p q := h.V _ _ _ _ hp hp hq hq

theorem singleOrbitalEns_congr (h : AgreeBelow n I J) {la lb : List Nat} (ha : ∀ p ∈ la, p < n) (hb : ∀ p ∈ lb, p < n) :
    J.singleOrbitalEns n la lb = I.singleOrbitalEns n la lb := by
  unfold Integrals.singleOrbitalEns
  refine List.map_congr_left fun i hi => ?_
  have hi : i < n := by simpa using hi
  have e1 : (la.map fun q => J.G2red i q + J.G2red q i) = la.map fun q => I.G2red i q + I.G2red q i :=
    List.map_congr_left fun q hq => by rw [h.G2red hi (ha q hq), h.G2red (ha q hq) hi]
  have e2 : (lb.map fun q => J.V2red i q) = lb.map fun q => I.V2red i q :=
    List.map_congr_left fun q hq => h.V2red hi (hb q hq)
  rw [h.T i i hi hi, e1, h.G2red hi hi, e2]

theorem fastDiagSingleEn_congr (h : AgreeBelow n I J) {i a : Nat} (hi : i < n) (ha : a < n) (x y z : R) :
    J.fastDiagSingleEn x y i a z = I.fastDiagSingleEn x y i a z := by
  unfold Integrals.fastDiagSingleEn
  rw [h.G2red ha hi, h.G2red hi ha]

theorem fastDiagSSDoubleEn_congr (h : AgreeBelow n I J) {i j a b : Nat} (hi : i < n) (hj : j < n) (ha : a < n) (hb : b < n)
    (x y z w t : R) : J.fastDiagSSDoubleEn x y z w i j a b t = I.fastDiagSSDoubleEn x y z w i j a b t := by
  unfold Integrals.fastDiagSSDoubleEn
  rw [h.G2red hi hj, h.G2red hj hi, h.G2red ha hb, h.G2red hb ha, h.G2red ha hi, h.G2red hi ha, h.G2red hb hi,
    h.G2red hi hb, h.G2red ha hj, h.G2red hj ha, h.G2red hb hj, h.G2red hj hb]

theorem fastDiagOSDoubleEn_congr (h : AgreeBelow n I J) {i j a b : Nat} (hi : i < n) (hj : j < n) (ha : a < n) (hb : b < n)
    (x y z w t : R) : J.fastDiagOSDoubleEn x y z w i j a b t = I.fastDiagOSDoubleEn x y z w i j a b t := by
  unfold Integrals.fastDiagOSDoubleEn
  rw [h.V2red hi hj, h.V2red ha hb, h.G2red ha hi, h.G2red hi ha, h.G2red hb hj, h.G2red hj hb, h.V2red ha hj,
    h.V2red hi hb]

theorem flatMap_congr_cut {A B : Type} {f g : A → List B} {l : List A} (h : ∀ a ∈ l, f a = g a) :
    l.flatMap f = l.flatMap g := by
  induction l with
  | nil => rfl
  | cons a l ih =>
    rw [List.flatMap_cons, List.flatMap_cons, h a List.mem_cons_self, ih fun a ha => h a (List.mem_cons_of_mem _ ha)]

theorem filterMap_congr_mem {A B : Type} {f g : A → Option B} {l : List A} (h : ∀ a ∈ l, f a = g a) :
    l.filterMap f = l.filterMap g := by
  induction l with
  | nil => rfl
  | cons a l ih =>
    rw [List.filterMap_cons, List.filterMap_cons, h a List.mem_cons_self, ih fun a ha => h a (List.mem_cons_of_mem _ ha)]

theorem singleH_congr (h : AgreeBelow n I J) {i a : Nat} (hi : i < n) (ha : a < n) {la lb : List Nat}
    (hla : ∀ p ∈ la, p < n) (hlb : ∀ p ∈ lb, p < n) :
    J.T a i + (la.map fun p => J.Gred p a i).sum + (lb.map fun p => J.Vred p a i).sum =
      I.T a i + (la.map fun p => I.Gred p a i).sum + (lb.map fun p => I.Vred p a i).sum := by
  have k1 : (la.map fun p => J.Gred p a i) = la.map fun p => I.Gred p a i :=
    List.map_congr_left fun p hp => h.G (hla p hp) (hla p hp) ha hi
  have k2 : (lb.map fun p => J.Vred p a i) = lb.map fun p => I.Vred p a i :=
    List.map_congr_left fun p hp => h.V _ _ _ _ (hlb p hp) (hlb p hp) ha hi
  rw [k1, k2, h.T a i ha hi]

variable [LinearOrder R]

theorem singlesContrib_congr (h : AgreeBelow n I J) {oS vS oO : List Nat} (h1 : ∀ p ∈ oS, p < n)
    (h2 : ∀ p ∈ vS, p < n) (h3 : ∀ p ∈ oO, p < n) (c : R) (s : BitVec (2 * M)) (t : BitVec M) (eps : List R)
    (tol d E0 : R) (sh : Nat) :
    J.singlesContrib c s t oS vS oO eps tol d E0 sh = I.singlesContrib c s t oS vS oO eps tol d E0 sh := by
  unfold Integrals.singlesContrib
  refine flatMap_congr_cut fun i hi => filterMap_congr_mem fun a ha => ?_
  dsimp only
  rw [singleH_congr h (h1 i hi) (h2 a ha) h1 h3, fastDiagSingleEn_congr h (h1 i hi) (h2 a ha)]

theorem getD_lt {l : List Nat} (h : ∀ p ∈ l, p < n) {k : Nat} (hk : k < l.length) : l.getD k 0 < n := by
  rw [List.getD_eq_getElem _ _ hk]
  exact h _ (List.getElem_mem hk)

theorem ssDoublesContrib_congr (h : AgreeBelow n I J) {o v : List Nat} (h1 : ∀ p ∈ o, p < n)
    (h2 : ∀ p ∈ v, p < n) (c : R) (s : BitVec (2 * M)) (t : BitVec M) (eps : List R) (tol d E0 : R) (sh : Nat) :
    J.ssDoublesContrib c s t o v eps tol d E0 sh = I.ssDoublesContrib c s t o v eps tol d E0 sh := by
  unfold Integrals.ssDoublesContrib
  refine flatMap_congr_cut fun ii hi => flatMap_congr_cut fun aa ha => flatMap_congr_cut fun jj hj =>
    filterMap_congr_mem fun bb hb => ?_
  have gi := getD_lt h1 (List.mem_range.1 hi)
  have ga := getD_lt h2 (List.mem_range.1 ha)
  have gj : o.getD jj 0 < n := getD_lt h1 (by rw [List.mem_range'_1] at hj; omega)
  have gb : v.getD bb 0 < n := getD_lt h2 (by rw [List.mem_range'_1] at hb; omega)
  dsimp only
  rw [h.G gb gj ga gi, fastDiagSSDoubleEn_congr h gi gj ga gb]

theorem osDoublesContrib_congr (h : AgreeBelow n I J) {oA oB vA vB : List Nat} (h1 : ∀ p ∈ oA, p < n)
    (h2 : ∀ p ∈ oB, p < n) (h3 : ∀ p ∈ vA, p < n) (h4 : ∀ p ∈ vB, p < n) (c : R) (s : BitVec (2 * M))
    (a b : BitVec M) (eA eB : List R) (tol d E0 : R) :
    J.osDoublesContrib c s a b oA oB vA vB eA eB tol d E0 = I.osDoublesContrib c s a b oA oB vA vB eA eB tol d E0 := by
  unfold Integrals.osDoublesContrib
  refine flatMap_congr_cut fun i hi => flatMap_congr_cut fun a ha => ?_
  dsimp only
  refine flatMap_congr_cut fun j hj => filterMap_congr_mem fun b hb => ?_
  rw [h.V _ _ _ _ (h3 a ha) (h1 i hi) (h4 b hb) (h2 j hj), fastDiagOSDoubleEn_congr h (h1 i hi) (h2 j hj) (h3 a ha) (h4 b hb)]

theorem detContribs_congr (h : AgreeBelow n I J) (hn : n ≤ M) (st : ContribSettings R) (E0 c : R) {s : BitVec (2 * M)}
    (hs : InSpace n s) : detContribs J st n E0 c s = detContribs I st n E0 c s := by
  obtain ⟨hA, hB⟩ := (inSpace_iff s).1 hs
  have oA : ∀ p ∈ occ (loWord s), p < n := fun p => occ_supp hA
  have oB : ∀ p ∈ occ (hiWord s), p < n := fun p => occ_supp hB
  have vA : ∀ p ∈ vir n (loWord s), p < n := fun p => vir_lt
  have vB : ∀ p ∈ vir n (hiWord s), p < n := fun p => vir_lt
  unfold detContribs
  dsimp only
  rw [bitsetToOccVir_eq hA hn, bitsetToOccVir_eq hB hn]
  simp only [bind, Option.bind, pure]
  rw [singleOrbitalEns_congr h oA oB, singleOrbitalEns_congr h oB oA, matrixElement_congr h hs hs ⟨rfl, rfl⟩ hn,
    singlesContrib_congr h oA vA oB, singlesContrib_congr h oB vB oA, ssDoublesContrib_congr h oA vA,
    ssDoublesContrib_congr h oB vB, osDoublesContrib_congr h oA oB vA vB]

theorem foldlM_congr_mem {A B : Type} {f g : B → A → Option B} {l : List A} (h : ∀ b, ∀ a ∈ l, f b a = g b a) (b : B) :
    l.foldlM f b = l.foldlM g b := by
  induction l generalizing b with
  | nil => rfl
  | cons a l ih =>
    rw [List.foldlM_cons, List.foldlM_cons, h b a List.mem_cons_self]
    cases g b a with
    | none => rfl
    | some b' => exact ih (fun b a ha => h b a (List.mem_cons_of_mem _ ha)) b'

theorem asciContributionsStandard_congr (h : AgreeBelow n I J) (hn : n ≤ M) (st : ContribSettings R) (E0 : R)
    (srt part : List (Contrib (2 * M) R) → List (Contrib (2 * M) R)) {cdets : List (BitVec (2 * M))}
    (hc : ∀ s ∈ cdets, InSpace n s) (C : List R) :
    asciContributionsStandard J st n E0 srt part cdets C = asciContributionsStandard I st n E0 srt part cdets C := by
  unfold asciContributionsStandard
  split
  · rfl
  · refine foldlM_congr_mem (fun b x hx => ?_) _
    rw [detContribs_congr h hn st E0 x.2 (hc _ (List.of_mem_zip hx).1)]

theorem asciSearchSerial_congr (h : AgreeBelow n I J) (hn : n ≤ M) (st : ContribSettings R) (E0 : R)
    (srt part : List (Contrib (2 * M) R) → List (Contrib (2 * M) R))
    (nth : Nat → List (Contrib (2 * M) R) → List (Contrib (2 * M) R)) (ndetsMax : Nat) {cdets : List (BitVec (2 * M))}
    (hc : ∀ s ∈ cdets, InSpace n s) (C : List R) :
    asciSearchSerial J st n E0 srt part nth ndetsMax cdets C = asciSearchSerial I st n E0 srt part nth ndetsMax cdets C := by
  unfold asciSearchSerial
  rw [asciContributionsStandard_congr h hn st E0 srt part hc C]

end Macis
