import Verif.Lemmas.Rotate2
import Verif.Props.Transform
import Verif.Props.Frozen
/-! C151: full-CI energies do not depend on the choice of orthonormal orbitals. -/
namespace Macis
open Spec Finset

variable {R : Type} [Field R] {M : Nat}

/-- sums over all determinants reduce to sums over a sector -/
theorem sum_dets {dets : List (BitVec (2 * M))} (nd : dets.Nodup) (f : BitVec (2 * M) → R)
    (h : ∀ m, m ∉ dets → f m = 0) : ∑ m, f m = ∑ k ∈ range dets.length, f (dets.getD k 0) := by
  classical
  rw [← Finset.sum_subset (Finset.subset_univ dets.toFinset) fun m _ hm => h m (by simpa using hm),
    List.sum_toFinset _ nd, Finset.sum_range]
  rw [← Fin.sum_univ_fun_getElem]
  refine Finset.sum_congr rfl fun k _ => ?_
  rw [List.getD_eq_getElem _ _ k.2]

theorem rotated_arrays {no ldt ldc ldy : Nat} (hy : no ≤ ldy) (T V C Y Z : Nat → R) (bra ket : BitVec (2 * M)) :
    let T' := twoIndexTransform no no T ldt C ldc Y ldy
    let V' := fourIndexTransform no no V no C ldc Z no
    hamiltonian (⟨no, asMat T' ldy, asTen V' no⟩ : Integrals R) bra ket =
      hamiltonian (rotInts ⟨no, asMat T ldt, asTen V no⟩ (asMat C ldc)) bra ket := by
  intro T' V'
  refine hamiltonian_congr (I := rotInts ⟨no, asMat T ldt, asTen V no⟩ (asMat C ldc))
    (J := ⟨no, asMat T' ldy, asTen V' no⟩) rfl (fun p q hp hq => ?_) (fun p q r s hp hq hr hs => ?_) bra ket
  · exact (C38_two_index no no ldt ldc ldy hy T C Y).1 p q hp hq
  · exact (C38_four_index no no ldc V C Z).1 p q r s hp hq hr hs

/-- C151.  Let the columns of `C` be orthonormal.  The Hamiltonian matrix over the integrals that
`two_index_transform` and `four_index_transform` compute from `C`, in all determinants of `no` orbitals with given
numbers of alpha and beta electrons, is orthogonally similar to the one over the original integrals.  (`Y`, `Z` are
the output arrays before the call; they may be `T`, `V` themselves, as in the driver.) -/
theorem C151_similar {no ldt ldc ldy : Nat} (hn : no ≤ M) (hy : no ≤ ldy) (T V C Y Z : Nat → R)
    (hC : ∀ p q, p < no → q < no → ∑ i ∈ range no, C (i + p * ldc) * C (i + q * ldc) = if p = q then 1 else 0)
    {na nb : Nat} {dets : List (BitVec (2 * M))} (nd : dets.Nodup)
    (mem : ∀ s, s ∈ dets ↔ InSpace no s ∧ alphaElectrons s = na ∧ betaElectrons s = nb) :
    let T' := twoIndexTransform no no T ldt C ldc Y ldy
    let V' := fourIndexTransform no no V no C ldc Z no
    let n := dets.length
    ∃ W : Nat → Nat → R,
      (∀ k l, k < n → l < n → ∑ m ∈ range n, W m k * W m l = if k = l then 1 else 0) ∧
      ∀ k l, k < n → l < n →
        hamiltonian (⟨no, asMat T' ldy, asTen V' no⟩ : Integrals R) (dets.getD k 0) (dets.getD l 0) =
          ∑ i ∈ range n, ∑ j ∈ range n, W i k * W j l *
            hamiltonian (⟨no, asMat T ldt, asTen V no⟩ : Integrals R) (dets.getD i 0) (dets.getD j 0) := by
  intro T' V' n
  set I : Integrals R := ⟨no, asMat T ldt, asTen V no⟩
  have hg : ∀ k, k < n → dets.getD k 0 ∈ dets := fun k hk => by
    rw [List.getD_eq_getElem _ _ hk]; exact List.getElem_mem hk
  have supp : ∀ k, k < n → ∀ m, m ∉ dets → rotState no (asMat C ldc) (dets.getD k 0) m = 0 := by
    intro k hk m hm
    by_contra hne
    have hk' := (mem _).1 (hg k hk)
    obtain ⟨h1, h2⟩ := rotState_sector hn (asMat C ldc) hk'.1 hne
    exact hm ((mem m).2 ⟨h1, by rw [h2.1, hk'.2.1], by rw [h2.2, hk'.2.2]⟩)
  refine ⟨fun i k => rotState no (asMat C ldc) (dets.getD k 0) (dets.getD i 0), fun k l hk hl => ?_,
    fun k l hk hl => ?_⟩
  · have h := rotState_ortho hn (C := asMat C ldc) hC (dets.getD k 0) (dets.getD l 0)
    rw [dot, sum_dets nd _ fun m hm => by rw [supp k hk m hm, zero_mul]] at h
    rw [h]
    congr 1
    rw [List.getD_eq_getElem _ _ hk, List.getD_eq_getElem _ _ hl]
    exact propext nd.getElem_inj_iff
  · rw [rotated_arrays hy, hamiltonian_rot (I := I) (C := asMat C ldc) hn hC, sum_dets nd]
    · refine Finset.sum_congr rfl fun i _ => ?_
      rw [sum_dets nd]
      intro m hm
      change _ * rotState no (asMat C ldc) (dets.getD l 0) m * _ = 0
      rw [supp l hl m hm, mul_zero, zero_mul]
    · intro m hm
      refine Finset.sum_eq_zero fun j _ => ?_
      change rotState no (asMat C ldc) (dets.getD k 0) m * _ * _ = 0
      rw [supp k hk m hm, zero_mul, zero_mul]

/-- similar matrices share their eigenvalues -/
theorem similar_eigen {n : Nat} {W H H' : Nat → Nat → R}
    (hW : ∀ k l, k < n → l < n → ∑ m ∈ range n, W m k * W m l = if k = l then 1 else 0)
    (h : ∀ k l, k < n → l < n → H' k l = ∑ i ∈ range n, ∑ j ∈ range n, W i k * W j l * H i j) (mu : R) :
    (∃ y : Nat → R, (∃ i < n, y i ≠ 0) ∧ ∀ i < n, ∑ j ∈ range n, H' i j * y j = mu * y i) ↔
    (∃ y : Nat → R, (∃ i < n, y i ≠ 0) ∧ ∀ i < n, ∑ j ∈ range n, H i j * y j = mu * y i) := by
  -- as matrices
  let w : Matrix (Fin n) (Fin n) R := fun i j => W i j
  let a : Matrix (Fin n) (Fin n) R := fun i j => H i j
  let a' : Matrix (Fin n) (Fin n) R := fun i j => H' i j
  have ww : w.transpose * w = 1 := by
    ext k l
    rw [Matrix.mul_apply, Matrix.one_apply]
    have := hW k l k.2 l.2
    rw [Finset.sum_range] at this
    refine Eq.trans this ?_
    simp [Fin.ext_iff]
  have ww' : w * w.transpose = 1 := mul_eq_one_comm.1 ww
  have haw : a' = w.transpose * a * w := by
    ext k l
    rw [Matrix.mul_apply]
    have := h k l k.2 l.2
    refine Eq.trans this ?_
    rw [Finset.sum_range]
    simp only [Finset.sum_range, Matrix.mul_apply, Matrix.transpose_apply, Finset.sum_mul]
    rw [Finset.sum_comm]
    refine Finset.sum_congr rfl fun j _ => Finset.sum_congr rfl fun i _ => ?_
    change _ = W i k * H i j * W j l
    ring
  -- eigenvectors as vectors over `Fin n`
  have conv : ∀ (B : Nat → Nat → R), (∃ y : Nat → R, (∃ i < n, y i ≠ 0) ∧
        ∀ i < n, ∑ j ∈ range n, B i j * y j = mu * y i) ↔
      ∃ y : Fin n → R, y ≠ 0 ∧ Matrix.mulVec (fun i j => B i j : Matrix (Fin n) (Fin n) R) y = mu • y := by
    intro B
    constructor
    · rintro ⟨y, ⟨i, hi, hy⟩, he⟩
      refine ⟨fun k => y k, fun e => hy (congrFun e ⟨i, hi⟩), funext fun k => ?_⟩
      have := he k k.2
      rw [Finset.sum_range] at this
      exact this
    · rintro ⟨y, hy, he⟩
      obtain ⟨k, hk⟩ := Function.ne_iff.1 hy
      refine ⟨fun i => if hi : i < n then y ⟨i, hi⟩ else 0, ⟨k, k.2, by simpa using hk⟩, fun i hi => ?_⟩
      rw [Finset.sum_range]
      have := congrFun he ⟨i, hi⟩
      simp only [Fin.is_lt, dite_true, Fin.eta, hi]
      exact this
  rw [conv H', conv H]
  change (∃ y : Fin n → R, y ≠ 0 ∧ a'.mulVec y = mu • y) ↔ ∃ y : Fin n → R, y ≠ 0 ∧ a.mulVec y = mu • y
  have aw : a = w * a' * w.transpose := by
    rw [haw]
    calc a = (w * w.transpose) * a * (w * w.transpose) := by rw [ww']; simp
      _ = _ := by simp only [Matrix.mul_assoc]
  constructor
  · rintro ⟨y, hy, he⟩
    refine ⟨w.mulVec y, fun e => hy ?_, ?_⟩
    · have := congrArg w.transpose.mulVec e
      rwa [Matrix.mulVec_mulVec, ww, Matrix.one_mulVec, Matrix.mulVec_zero] at this
    · rw [aw, Matrix.mulVec_mulVec, Matrix.mul_assoc, ww, Matrix.mul_one, ← Matrix.mulVec_mulVec, he, Matrix.mulVec_smul]
  · rintro ⟨y, hy, he⟩
    refine ⟨w.transpose.mulVec y, fun e => hy ?_, ?_⟩
    · have := congrArg w.mulVec e
      rwa [Matrix.mulVec_mulVec, ww', Matrix.one_mulVec, Matrix.mulVec_zero] at this
    · rw [haw, Matrix.mulVec_mulVec, Matrix.mul_assoc, ww', Matrix.mul_one, ← Matrix.mulVec_mulVec, he,
        Matrix.mulVec_smul]

/-- C151.  Hence both have the same eigenvalues: full-CI energies do not depend on the orbitals. -/
theorem C151_eigenvalues {no ldt ldc ldy : Nat} (hn : no ≤ M) (hy : no ≤ ldy) (T V C Y Z : Nat → R)
    (hC : ∀ p q, p < no → q < no → ∑ i ∈ range no, C (i + p * ldc) * C (i + q * ldc) = if p = q then 1 else 0)
    {na nb : Nat} {dets : List (BitVec (2 * M))} (nd : dets.Nodup)
    (mem : ∀ s, s ∈ dets ↔ InSpace no s ∧ alphaElectrons s = na ∧ betaElectrons s = nb) (mu : R) :
    let T' := twoIndexTransform no no T ldt C ldc Y ldy
    let V' := fourIndexTransform no no V no C ldc Z no
    let n := dets.length
    let H := fun i j => hamiltonian (⟨no, asMat T ldt, asTen V no⟩ : Integrals R) (dets.getD i 0) (dets.getD j 0)
    let H' := fun i j => hamiltonian (⟨no, asMat T' ldy, asTen V' no⟩ : Integrals R) (dets.getD i 0) (dets.getD j 0)
    (∃ y : Nat → R, (∃ i < n, y i ≠ 0) ∧ ∀ i < n, ∑ j ∈ range n, H' i j * y j = mu * y i) ↔
    (∃ y : Nat → R, (∃ i < n, y i ≠ 0) ∧ ∀ i < n, ∑ j ∈ range n, H i j * y j = mu * y i) := by
  intro T' V' n H H'
  obtain ⟨W, hW, h⟩ := C151_similar hn hy T V C Y Z hC nd mem (ldt := ldt)
  exact similar_eigen hW h mu

/-- C151.  And every energy expectation value of a wave function over the rotated orbitals is one of a wave
function of the same norm over the original orbitals. -/
theorem C151_expectation {no ldt ldc ldy : Nat} (hn : no ≤ M) (hy : no ≤ ldy) (T V C Y Z : Nat → R)
    (hC : ∀ p q, p < no → q < no → ∑ i ∈ range no, C (i + p * ldc) * C (i + q * ldc) = if p = q then 1 else 0)
    {na nb : Nat} {dets : List (BitVec (2 * M))} (nd : dets.Nodup)
    (mem : ∀ s, s ∈ dets ↔ InSpace no s ∧ alphaElectrons s = na ∧ betaElectrons s = nb) :
    let T' := twoIndexTransform no no T ldt C ldc Y ldy
    let V' := fourIndexTransform no no V no C ldc Z no
    let n := dets.length
    let H := fun i j => hamiltonian (⟨no, asMat T ldt, asTen V no⟩ : Integrals R) (dets.getD i 0) (dets.getD j 0)
    let H' := fun i j => hamiltonian (⟨no, asMat T' ldy, asTen V' no⟩ : Integrals R) (dets.getD i 0) (dets.getD j 0)
    ∀ x : Nat → R, ∃ y : Nat → R, ∑ i ∈ range n, y i * y i = ∑ i ∈ range n, x i * x i ∧
      ∑ i ∈ range n, ∑ j ∈ range n, y i * y j * H i j = ∑ i ∈ range n, ∑ j ∈ range n, x i * x j * H' i j := by
  intro T' V' n H H' x
  obtain ⟨W, hW, h⟩ := C151_similar hn hy T V C Y Z hC nd mem (ldt := ldt)
  refine ⟨fun i => ∑ k ∈ range n, W i k * x k, ?_, ?_⟩
  · have e1 : ∀ i, (∑ k ∈ range n, W i k * x k) * (∑ k ∈ range n, W i k * x k) =
        ∑ k ∈ range n, ∑ l ∈ range n, x k * x l * (W i k * W i l) := by
      intro i
      rw [Finset.sum_mul_sum]
      exact Finset.sum_congr rfl fun k _ => Finset.sum_congr rfl fun l _ => by ring
    simp only [e1]
    rw [Finset.sum_comm]
    refine Finset.sum_congr rfl fun k hk => ?_
    rw [Finset.sum_comm]
    rw [Finset.sum_congr rfl fun l hl => by
      rw [← Finset.mul_sum, hW k l (Finset.mem_range.1 hk) (Finset.mem_range.1 hl)]]
    simp only [mul_ite, mul_one, mul_zero, Finset.sum_ite_eq, hk, if_true]
  · have e2 : ∀ i j, (∑ k ∈ range n, W i k * x k) * (∑ k ∈ range n, W j k * x k) * H i j =
        ∑ k ∈ range n, ∑ l ∈ range n, x k * x l * (W i k * W j l * H i j) := by
      intro i j
      rw [Finset.sum_mul_sum, Finset.sum_mul]
      refine Finset.sum_congr rfl fun k _ => ?_
      rw [Finset.sum_mul]
      exact Finset.sum_congr rfl fun l _ => by ring
    have e3 : ∀ k ∈ range n, ∀ l ∈ range n, x k * x l * H' k l =
        ∑ i ∈ range n, ∑ j ∈ range n, x k * x l * (W i k * W j l * H i j) := by
      intro k hk l hl
      change x k * x l * hamiltonian _ _ _ = _
      rw [h k l (Finset.mem_range.1 hk) (Finset.mem_range.1 hl), Finset.mul_sum]
      exact Finset.sum_congr rfl fun i _ => Finset.mul_sum _ _ _
    rw [Finset.sum_congr rfl fun k hk => Finset.sum_congr rfl fun l hl => e3 k hk l hl]
    simp only [e2]
    have sw : ∀ F : Nat → Nat → Nat → Nat → R, ∑ i ∈ range n, ∑ j ∈ range n, ∑ k ∈ range n, ∑ l ∈ range n, F i j k l =
        ∑ k ∈ range n, ∑ l ∈ range n, ∑ i ∈ range n, ∑ j ∈ range n, F i j k l := by
      intro F
      have e : ∀ G : Nat → Nat → R, ∑ p ∈ range n, ∑ q ∈ range n, G p q = ∑ x ∈ range n ×ˢ range n, G x.1 x.2 := by
        intro G; rw [Finset.sum_product]
      simp only [e]
      rw [Finset.sum_comm]
    rw [sw]

/-- The hypotheses hold: rotating two orbitals by the angle with cosine 3/5, one alpha and one beta electron, and
the rotated integrals differ from the original ones. -/
example :
    let C : Nat → Rat := fun a => if a = 0 then 3/5 else if a = 1 then 4/5 else if a = 2 then -4/5 else 3/5
    let T : Nat → Rat := fun a => if a = 0 then 1 else if a = 3 then 2 else 0
    (∀ p < 2, ∀ q < 2, ∑ i ∈ range 2, C (i + p * 2) * C (i + q * 2) = if p = q then 1 else 0) ∧
    (∀ s : Fin 16, BitVec.ofNat (2 * 2) s ∈ [0b0101#4, 0b0110#4, 0b1001#4, 0b1010#4] ↔
      InSpace (M := 2) 2 (BitVec.ofNat (2 * 2) s) ∧ alphaElectrons (M := 2) (BitVec.ofNat (2 * 2) s) = 1 ∧
        betaElectrons (M := 2) (BitVec.ofNat (2 * 2) s) = 1) ∧
    twoIndexTransform 2 2 T 2 C 2 T 2 0 = 41 / 25 := by
  refine ⟨by decide +kernel, by decide +kernel, by decide +kernel⟩

end Macis
