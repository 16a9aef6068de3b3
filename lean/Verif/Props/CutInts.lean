import Verif.Lemmas.CutInts
import Verif.Lemmas.Widen
/-! C152: only the integrals of the orbitals matter.  C153: the number of determinant bits does not matter. -/
namespace Macis
open Spec

variable {M : Nat} {R : Type} [Field R]

/-- C152.  Two integral records that agree on the first `n` orbitals give the same matrix element between any
determinants of these orbitals with equal numbers of alpha and of beta electrons. -/
theorem C152_matrix_element {n : Nat} (hn : n ≤ M) {I J : Integrals R}
    (hT : ∀ p q, p < n → q < n → J.T p q = I.T p q)
    (hV : ∀ p q r s, p < n → q < n → r < n → s < n → J.V p q r s = I.V p q r s)
    {bra ket : BitVec (2 * M)} (hb : InSpace n bra) (hk : InSpace n ket) (hs : SameSector bra ket) :
    J.matrixElement bra ket = I.matrixElement bra ket :=
  matrixElement_congr ⟨hT, hV⟩ hb hk hs hn

/-- C152.  The sparse Hamiltonian, all three arrays of it, depends only on the integrals of the orbitals the
determinants are made of. -/
theorem C152_csr [LinearOrder R] {n : Nat} (hn : n ≤ M) {I J : Integrals R}
    (hT : ∀ p q, p < n → q < n → J.T p q = I.T p q)
    (hV : ∀ p q r s, p < n → q < n → r < n → s < n → J.V p q r s = I.V p q r s)
    {dets : List (BitVec (2 * M))} (hin : ∀ d ∈ dets, InSpace n d)
    (hs : ∀ d ∈ dets, ∀ d' ∈ dets, SameSector d d') (thresh : R) :
    J.csrHamiltonian dets thresh = I.csrHamiltonian dets thresh :=
  csrBlock_congr ⟨hT, hV⟩ hn hin hin (fun d hd d' hd' _ => hs d hd d' hd') thresh

/-- C152.  The same for the piece of the distributed Hamiltonian that any rank of any communicator builds. -/
theorem C152_dist [LinearOrder R] {n : Nat} (hn : n ≤ M) {I J : Integrals R}
    (hT : ∀ p q, p < n → q < n → J.T p q = I.T p q)
    (hV : ∀ p q r s, p < n → q < n → r < n → s < n → J.V p q r s = I.V p q r s)
    {dets : List (BitVec (2 * M))} (hin : ∀ d ∈ dets, InSpace n d)
    (hs : ∀ d ∈ dets, ∀ d' ∈ dets, SameSector d d') (thresh : R) (P rank : Nat) :
    J.distHamiltonian dets thresh P rank = I.distHamiltonian dets thresh P rank := by
  unfold Integrals.distHamiltonian
  dsimp only
  set H : DistCsr R := DistCsr.create P rank dets.length dets.length
  obtain ⟨st, en⟩ := H.rowBounds rank
  dsimp only
  have mine : ∀ d ∈ (dets.drop st).take (en - st), d ∈ dets := fun d hd =>
    List.drop_subset _ _ (List.take_subset _ _ hd)
  have off : ∀ d ∈ (enumerate dets).map fun (x : Nat × BitVec (2 * M)) =>
      if st ≤ x.1 ∧ x.1 < en then 0#(2 * M) else x.2, d = 0#(2 * M) ∨ d ∈ dets := by
    intro d hd
    obtain ⟨⟨i, e⟩, hx, rfl⟩ := List.mem_map.1 hd
    dsimp only
    by_cases c : st ≤ i ∧ i < en
    · rw [if_pos c]; exact .inl rfl
    · rw [if_neg c]; exact .inr (List.of_mem_zip hx).2
  have h0 : InSpace n (0#(2 * M)) := by constructor <;> intro i _ hi <;> simp at hi
  have e1 := csrBlock_congr ⟨hT, hV⟩ hn (fun d hd => hin d (mine d hd)) (fun d hd => hin d (mine d hd))
    (fun d hd d' hd' _ => hs d (mine d hd) d' (mine d' hd')) thresh
  have e2 := csrBlock_congr ⟨hT, hV⟩ hn (fun d hd => hin d (mine d hd))
    (kets := (enumerate dets).map fun (x : Nat × BitVec (2 * M)) => if st ≤ x.1 ∧ x.1 < en then 0#(2 * M) else x.2)
    (fun d hd => (off d hd).elim (fun e => e ▸ h0) (hin d))
    (fun d hd d' hd' hc => (off d' hd').elim
      (fun e => absurd (by rw [e, ← electrons_eq_count]; simp [electrons]) hc)
      (fun m => hs d (mine d hd) d' m)) thresh
  rw [e1]
  have e3 := congrArg (fun z => if P > 1 then some z else none) e2
  rw [e3]

/-- C152.  `compute_casci_rdms` returns the same energy, vector and density matrices, and fails in the same cases,
for integrals that agree on the active orbitals. -/
theorem C152_casci {I J : Integrals ℝ} (hn : I.norb ≤ M) (hno : J.norb = I.norb)
    (hT : ∀ p q, p < I.norb → q < I.norb → J.T p q = I.T p q)
    (hV : ∀ p q r s, p < I.norb → q < I.norb → r < I.norb → s < I.norb → J.V p q r s = I.V p q r s)
    (eig : Nat → (Nat → Nat → ℝ) → ℝ × (Nat → ℝ)) {na nb : Nat} (hna : na ≤ I.norb) (hnb : nb ≤ I.norb)
    (thresh : ℝ) (maxM : Nat) (tol : ℝ) (C : List ℝ) (st : Rdms ℝ) :
    computeCasciRdms M eig J na nb thresh maxM tol C st = computeCasciRdms M eig I na nb thresh maxM tol C st := by
  unfold computeCasciRdms
  rw [hno]
  cases hd : generateHilbertSpace M I.norb na nb with
  | none => rfl
  | some dets =>
    dsimp only
    obtain ⟨hS, -⟩ := hilbert_sector hn hna hnb hd
    have : J.csrHamiltonian dets thresh = I.csrHamiltonian dets thresh :=
      C152_csr hn hT hV hS.1 hS.2.2 thresh
    unfold selectedCiDiag
    rw [this]

/-- The hypotheses hold, and integrals beyond the orbitals do differ. -/
example :
    let I : Integrals ℚ := ⟨2, fun p q => if p = q then p + 1 else 1, fun _ _ _ _ => 1⟩
    let J : Integrals ℚ := ⟨2, fun p q => if p < 2 ∧ q < 2 then I.T p q else 7, fun p q r s =>
      if p < 2 ∧ q < 2 ∧ r < 2 ∧ s < 2 then 1 else 9⟩
    J.T 2 2 ≠ I.T 2 2 ∧ J.matrixElement (M := 3) (0b001001#6) (0b010001#6) = 2 ∧
    J.matrixElement (M := 3) (0b100100#6) (0b100100#6) ≠ I.matrixElement (M := 3) (0b100100#6) (0b100100#6) := by
  decide +kernel

/-! ### the number of bits -/

variable {M' : Nat}

theorem sameOcc_inSpace {n : Nat} {s : BitVec (2 * M)} {s' : BitVec (2 * M')} (h : SameOcc n s s') :
    InSpace n s ∧ InSpace n s' := by
  refine ⟨⟨fun i hi hb => ?_, fun i hi hb => ?_⟩, ⟨fun i hi hb => ?_, fun i hi hb => ?_⟩⟩ <;> by_contra c
  · have := h.lo false i (by omega) hi; simp [so] at this; rw [this] at hb; exact absurd hb (by simp)
  · have := h.lo true i (by omega) hi; simp [so] at this; rw [this] at hb; exact absurd hb (by simp)
  · have := h.hi false i (by omega) hi; simp [so] at this; rw [this] at hb; exact absurd hb (by simp)
  · have := h.hi true i (by omega) hi; simp [so] at this; rw [this] at hb; exact absurd hb (by simp)

/-- C152.  The matrix element is the second-quantised one as soon as the integrals have pair symmetry on the
orbitals themselves. -/
theorem C152_slater_condon (I : Integrals R) (hn : I.norb ≤ M) (h2 : (2 : R) ≠ 0)
    (hV : ∀ p q r s, p < I.norb → q < I.norb → r < I.norb → s < I.norb → I.V p q r s = I.V r s p q)
    {bra ket : BitVec (2 * M)} (hb : InSpace I.norb bra) (hk : InSpace I.norb ket) (hs : SameSector bra ket) :
    I.matrixElement bra ket = hamiltonian I bra ket := by
  rw [← hamiltonian_cut I, ← C13_slater_condon M I.cut hn h2 (cut_pairSym hV) bra ket hb hk hs]
  refine C152_matrix_element (J := I) (I := I.cut) hn (fun p q hp hq => (if_pos ⟨hp, hq⟩).symm)
    (fun p q r s hp hq hr hs => ?_) hb hk hs
  simp only [Integrals.cut]
  rw [if_pos ⟨⟨hp, hq⟩, hr, hs⟩]

/-- C153.  The same determinants stored with different numbers of bits have the same matrix element. -/
theorem C153_matrix_element (I : Integrals R) (hn : I.norb ≤ M) (hn' : I.norb ≤ M') (h2 : (2 : R) ≠ 0)
    (hV : ∀ p q r s, p < I.norb → q < I.norb → r < I.norb → s < I.norb → I.V p q r s = I.V r s p q)
    {bra ket : BitVec (2 * M)} {bra' ket' : BitVec (2 * M')} (hb : SameOcc I.norb bra bra')
    (hk : SameOcc I.norb ket ket') (hs : SameSector bra ket) :
    I.matrixElement bra ket = I.matrixElement bra' ket' := by
  have e1 := hb.electrons hn hn'
  have e2 := hk.electrons hn hn'
  rw [C152_slater_condon I hn h2 hV (sameOcc_inSpace hb).1 (sameOcc_inSpace hk).1 hs,
    C152_slater_condon I hn' h2 hV (sameOcc_inSpace hb).2 (sameOcc_inSpace hk).2
      ⟨by rw [← e1.1, ← e2.1, hs.1], by rw [← e1.2, ← e2.2, hs.2]⟩]
  exact hamiltonian_widen I hn hn' hb hk

theorem forall₂_foldl {A B S : Type} {r : A → B → Prop} {f : S → A → S} {g : S → B → S}
    (h : ∀ s a b, r a b → f s a = g s b) {l : List A} {l' : List B} (hl : List.Forall₂ r l l') (s : S) :
    l.foldl f s = l'.foldl g s := by
  induction hl generalizing s with
  | nil => rfl
  | cons hab _ ih => rw [List.foldl_cons, List.foldl_cons, h s _ _ hab, ih]

theorem forall₂_enumerate {A B : Type} {r : A → B → Prop} {l : List A} {l' : List B} (hl : List.Forall₂ r l l') :
    List.Forall₂ (fun x y => x.1 = y.1 ∧ r x.2 y.2) (enumerate l) (enumerate l') := by
  have e := hl.length_eq
  rw [List.forall₂_iff_get] at hl ⊢
  have len : (enumerate l).length = l.length := by simp [enumerate]
  have len' : (enumerate l').length = l'.length := by simp [enumerate]
  refine ⟨by rw [len, len', e], fun i h1 h2 => ?_⟩
  simp only [enumerate, List.get_eq_getElem, List.getElem_zip, List.getElem_range]
  exact ⟨trivial, hl.2 i (by omega) (by omega)⟩

/-- C153.  The sparse Hamiltonian of the same list of determinants stored with different numbers of bits is the
same, array by array. -/
theorem C153_csr [LinearOrder R] (I : Integrals R) (hn : I.norb ≤ M) (hn' : I.norb ≤ M') (h2 : (2 : R) ≠ 0)
    (hV : ∀ p q r s, p < I.norb → q < I.norb → r < I.norb → s < I.norb → I.V p q r s = I.V r s p q)
    {dets : List (BitVec (2 * M))} {dets' : List (BitVec (2 * M'))} (h : List.Forall₂ (SameOcc I.norb) dets dets')
    (hs : ∀ d ∈ dets, ∀ d' ∈ dets, SameSector d d') (thresh : R) :
    I.csrHamiltonian dets thresh = I.csrHamiltonian dets' thresh := by
  have h' : List.Forall₂ (fun d d' => d ∈ dets ∧ SameOcc I.norb d d') dets dets' := by
    rw [List.forall₂_iff_get] at h ⊢
    exact ⟨h.1, fun i h1 h2 => ⟨List.getElem_mem h1, h.2 i h1 h2⟩⟩
  have len := h.length_eq
  unfold Integrals.csrHamiltonian Integrals.csrBlock Integrals.csrBlockImpl
  rw [len]
  have key : dets.foldl (braStep I thresh dets) { rowptr := [0], colind := [], nzval := [], nrow := 0 } =
      dets'.foldl (braStep I thresh dets') { rowptr := [0], colind := [], nzval := [], nrow := 0 } := by
    refine forall₂_foldl (fun st bra bra' hb => ?_) h' _
    unfold braStep
    dsimp only
    have : ∀ st, (enumerate dets).foldl (ketStep I thresh bra) st = (enumerate dets').foldl (ketStep I thresh bra') st := by
      intro st
      refine forall₂_foldl (fun st jk jk' hk => ?_) (forall₂_enumerate h') st
      obtain ⟨j, ket⟩ := jk
      obtain ⟨j', ket'⟩ := jk'
      obtain ⟨rfl, hm, hk⟩ := hk
      have me := C153_matrix_element I hn hn' h2 hV hb.2 hk (hs bra hb.1 ket hm)
      unfold Integrals.matrixElement at me
      dsimp only at me
      unfold ketStep
      dsimp only
      rw [hk.count hn hn', (hb.2.xor hk).count hn hn', loWord_xor, hiWord_xor, loWord_xor, hiWord_xor, me]
    rw [this, hb.2.count hn hn']
  rw [key]

/-- C153.  So diagonalising it gives the same energy and vector. -/
theorem C153_diagonalisation (I : Integrals ℝ) (hn : I.norb ≤ M) (hn' : I.norb ≤ M')
    (hV : ∀ p q r s, p < I.norb → q < I.norb → r < I.norb → s < I.norb → I.V p q r s = I.V r s p q)
    {dets : List (BitVec (2 * M))} {dets' : List (BitVec (2 * M'))} (h : List.Forall₂ (SameOcc I.norb) dets dets')
    (hs : ∀ d ∈ dets, ∀ d' ∈ dets, SameSector d d') (eig : Nat → (Nat → Nat → ℝ) → ℝ × (Nat → ℝ)) (thresh : ℝ)
    (maxM : Nat) (tol : ℝ) (C : List ℝ) :
    selectedCiDiag eig I dets thresh maxM tol C = selectedCiDiag eig I dets' thresh maxM tol C := by
  unfold selectedCiDiag
  rw [C153_csr I hn hn' two_ne_zero hV h hs thresh]

/-- Two determinants of two orbitals, stored with two and with three bits per spin. -/
example : SameOcc (M := 2) (M' := 3) 2 0b0101#4 0b001001#6 ∧ SameOcc (M := 2) (M' := 3) 2 0b1001#4 0b010001#6 ∧
    SameSector (M := 2) 0b0101#4 0b1001#4 := by
  refine ⟨⟨?_, ?_, ?_⟩, ⟨?_, ?_, ?_⟩, by decide⟩ <;> decide

end Macis
