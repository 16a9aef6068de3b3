import Verif.Model.Narrow
import Verif.Props.HamCsr
/-
C165: the CSR Hamiltonian with an index type of `w` bits.
-/
namespace Macis
open Spec

variable {R : Type} {M : Nat}

/-- The arrays of a matrix with unbounded indices after conversion of every index to `w` bits. -/
def Csr.narrow (w : Nat) (A : Csr R) : CsrW R :=
  ⟨A.m, A.n, toIndex w A.indexing, A.rowptr.map fun x : Nat => toIndex w x, A.colind.map fun x : Nat => toIndex w x, A.nzval⟩

def BlockState.narrow (w : Nat) (s : BlockState R) : BlockStateW R :=
  ⟨s.rowptr.map fun x : Nat => toIndex w x, s.colind.map fun x : Nat => toIndex w x, s.nzval, s.nrow⟩

theorem toIndex_small {w : Nat} (hw : 1 ≤ w) {x : Nat} (h : x < 2 ^ (w - 1)) : toIndex w x = x := by
  obtain ⟨v, rfl⟩ : ∃ v, w = v + 1 := ⟨w - 1, by omega⟩
  rw [Nat.add_sub_cancel] at h
  unfold toIndex
  have h' : (x : Int) < 2 ^ v := by exact_mod_cast h
  apply Int.bmod_eq_of_le <;> push_cast <;> rw [pow_succ] <;> omega

theorem toIndex_large {w : Nat} (hw : 1 ≤ w) {x : Nat} (h : 2 ^ (w - 1) ≤ x) (h' : x < 2 ^ w) :
    toIndex w x = x - 2 ^ w := by
  obtain ⟨v, rfl⟩ : ∃ v, w = v + 1 := ⟨w - 1, by omega⟩
  rw [Nat.add_sub_cancel] at h
  unfold toIndex
  have h1 : (2 : Int) ^ v ≤ x := by exact_mod_cast h
  have h2 : (x : Int) < 2 ^ (v + 1) := by exact_mod_cast h'
  have e : (x : Int) % ((2 ^ (v + 1) : Nat) : Int) = x := Int.emod_eq_of_lt (by omega) (by push_cast; exact h2)
  rw [Int.bmod, e, if_neg]
  · push_cast; rfl
  · push_cast; rw [pow_succ]; omega

section
variable [Field R] [LinearOrder R]

theorem ketStepW_eq (w : Nat) (I : Integrals R) (thresh : R) (bra : BitVec (2 * M)) (st : BlockState R)
    (jk : Nat × BitVec (2 * M)) :
    ketStepW w I thresh bra (st.narrow w) jk = (ketStep I thresh bra st jk).narrow w := by
  unfold ketStepW ketStep
  dsimp only
  split
  · split
    · split
      · simp [BlockState.narrow]
      · rfl
    · rfl
  · rfl

theorem ketFoldW_eq (w : Nat) (I : Integrals R) (thresh : R) (bra : BitVec (2 * M)) (l : List (Nat × BitVec (2 * M)))
    (st : BlockState R) :
    l.foldl (ketStepW w I thresh bra) (st.narrow w) = (l.foldl (ketStep I thresh bra) st).narrow w := by
  induction l generalizing st with
  | nil => rfl
  | cons x l ih => rw [List.foldl_cons, List.foldl_cons, ketStepW_eq, ih]

theorem getLastD_narrow (w : Nat) (l : List Nat) :
    (l.map fun x : Nat => toIndex w x).getLastD 0 = toIndex w (l.getLastD 0 : Nat) := by
  rcases List.eq_nil_or_concat l with rfl | ⟨l, a, rfl⟩
  · simp [toIndex]
  · simp

theorem braStepW_eq (w : Nat) (I : Integrals R) (thresh : R) (kets : List (BitVec (2 * M))) (st : BlockState R)
    (bra : BitVec (2 * M)) :
    braStepW w I thresh kets (st.narrow w) bra = (braStep I thresh kets st bra).narrow w := by
  unfold braStepW braStep
  dsimp only
  have h0 : ({ st.narrow w with nrow := 0 } : BlockStateW R) = ({ st with nrow := 0 } : BlockState R).narrow w := rfl
  rw [h0, ketFoldW_eq]
  have : ∀ s : BlockState R, ({ s.narrow w with
      rowptr := (s.narrow w).rowptr ++ [toIndex w ((s.narrow w).rowptr.getLastD 0 + (s.narrow w).nrow)] } : BlockStateW R) =
      ({ s with rowptr := s.rowptr ++ [s.rowptr.getLastD 0 + s.nrow] } : BlockState R).narrow w := by
    intro s
    simp only [BlockState.narrow, getLastD_narrow, List.map_append, List.map_cons, List.map_nil]
    rw [toIndex, toIndex, Int.bmod_add_bmod]
    simp [toIndex]
  split
  · exact this _
  · exact this _

theorem braFoldW_eq (w : Nat) (I : Integrals R) (thresh : R) (kets l : List (BitVec (2 * M))) (st : BlockState R) :
    l.foldl (braStepW w I thresh kets) (st.narrow w) = (l.foldl (braStep I thresh kets) st).narrow w := by
  induction l generalizing st with
  | nil => rfl
  | cons x l ih => rw [List.foldl_cons, List.foldl_cons, braStepW_eq, ih]

theorem csrBlockW_eq (w : Nat) (I : Integrals R) (bras kets : List (BitVec (2 * M))) (thresh : R) :
    I.csrBlockW w bras kets thresh = (I.csrBlock bras kets thresh).narrow w := by
  unfold Integrals.csrBlockW Integrals.csrBlock
  have z : toIndex w 0 = 0 := by simp [toIndex]
  split
  · unfold Integrals.csrBlockImplW Integrals.csrBlockImpl
    have e : (⟨[0], [], [], 0⟩ : BlockStateW R) = (⟨[0], [], [], 0⟩ : BlockState R).narrow w := by
      simp [BlockState.narrow, z]
    simp only [e, braFoldW_eq]
    simp only [BlockState.narrow, Csr.narrow, Csr.ofArrays, CsrW.mk.injEq, true_and, and_true]
    generalize BlockState.rowptr (List.foldl _ _ bras) = l
    cases l <;> simp [z]
  · simp [Csr.narrow, Csr.alloc, z]

end


section
variable [Semiring R]

theorem foldlM_some {α β : Type} (f : β → α → β) (g : β → α → Option β) (l : List α) (b : β)
    (h : ∀ b, ∀ a ∈ l, g b a = some (f b a)) : l.foldlM g b = some (l.foldl f b) := by
  induction l generalizing b with
  | nil => rfl
  | cons a l ih =>
    rw [List.foldlM_cons, h b a (by simp)]
    exact ih _ fun b a ha => h b a (by simp [ha])

theorem getD_map_toIndex (w : Nat) (l : List Nat) (i : Nat) :
    (l.map fun x : Nat => toIndex w x).getD i 0 = toIndex w (l.getD i 0 : Nat) := by
  simp only [List.getD_eq_getElem?_getD, List.getElem?_map]
  cases l[i]? <;> simp [toIndex]

theorem rp_le_nnz {A : Csr R} (wf : CsrWF A) {i : Nat} (hi : i ≤ A.m) :
    A.rowptr.getD i 0 ≤ A.indexing + A.nzval.length := by
  obtain ⟨d, hd⟩ : ∃ d, A.m = i + d := ⟨A.m - i, by omega⟩
  rw [← wf.rowptr_last, hd]
  have : ∀ d, i + d ≤ A.m → A.rowptr.getD i 0 ≤ A.rowptr.getD (i + d) 0 := by
    intro d
    induction d with
    | zero => intro _; exact le_rfl
    | succ d ih => intro h; exact le_trans (ih (by omega)) (wf.rowptr_mono _ (by omega))
  exact this d (by omega)

/-- the row loop of the unbounded model, position by position -/
theorem rowDot_range {A : Csr R} (wf : CsrWF A) (h0 : A.indexing = 0) {i : Nat} (hi : i < A.m) (x : Nat → R) :
    A.rowDot x i = (List.range (A.rowptr.getD (i + 1) 0 - A.rowptr.getD i 0)).foldl (fun av j =>
      av + A.nzval.getD (A.rowptr.getD i 0 + j) 0 * x (A.colind.getD (A.rowptr.getD i 0 + j) 0)) 0 := by
  have hle := rp_le_nnz wf (show i + 1 ≤ A.m by omega)
  have hm := wf.rowptr_mono i hi
  have hc := wf.colind_length
  rw [h0] at hle
  have : A.row i = (List.range (A.rowptr.getD (i + 1) 0 - A.rowptr.getD i 0)).map fun j =>
      (A.colind.getD (A.rowptr.getD i 0 + j) 0, A.nzval.getD (A.rowptr.getD i 0 + j) 0) := by
    unfold Csr.row Csr.rowCols Csr.rowVals Csr.rp
    rw [h0]
    apply List.ext_getElem
    · simp only [List.length_zip, List.length_take, List.length_drop, List.length_map, List.length_range]
      omega
    · intro k h1 h2
      simp only [List.length_map, List.length_range] at h2
      simp only [List.getElem_zip, List.getElem_take, List.getElem_drop, List.getElem_map, List.getElem_range]
      have a1 : A.rowptr.getD i 0 + k < A.colind.length := by omega
      have a2 : A.rowptr.getD i 0 + k < A.nzval.length := by omega
      rw [List.getD_eq_getElem (n := A.rowptr.getD i 0 + k) _ _ a1, List.getD_eq_getElem (n := A.rowptr.getD i 0 + k) _ _ a2]
      simp only [Nat.sub_zero]
  rw [Csr.rowDot, this, List.foldl_map, h0]
  rfl

theorem rowDot_fits {w : Nat} (hw : 1 ≤ w) {A : Csr R} (wf : CsrWF A) (h0 : A.indexing = 0)
    (hz : A.nzval.length < 2 ^ (w - 1)) (hn : A.n ≤ 2 ^ (w - 1)) {i : Nat} (hi : i < A.m) (x : Nat → R) :
    (A.narrow w).rowDot x i = some (A.rowDot x i) := by
  have hle := rp_le_nnz wf (show i + 1 ≤ A.m by omega)
  have hm := wf.rowptr_mono i hi
  rw [h0] at hle
  rw [rowDot_range wf h0 hi, CsrW.rowDot]
  simp only [Csr.narrow, getD_map_toIndex, h0]
  rw [toIndex_small hw (show A.rowptr.getD i 0 < _ by omega), toIndex_small hw (show A.rowptr.getD (i + 1) 0 < _ by omega),
    toIndex_small hw (Nat.two_pow_pos _)]
  have e : ((A.rowptr.getD (i + 1) 0 : Int) - (0 : Nat) - (A.rowptr.getD i 0 - (0 : Nat))).toNat =
      A.rowptr.getD (i + 1) 0 - A.rowptr.getD i 0 := by omega
  rw [e]
  apply foldlM_some
  intro av j hj
  rw [List.mem_range] at hj
  have hk : ((A.rowptr.getD i 0 : Int) - (0 : Nat) + j).toNat = A.rowptr.getD i 0 + j := by omega
  rw [hk, if_pos (by omega)]
  have hlt : A.rowptr.getD i 0 + j < A.colind.length := by rw [wf.colind_length]; omega
  have hc := (wf.col_range _ (List.getElem_mem hlt)).2
  rw [h0, ← List.getD_eq_getElem _ 0 hlt] at hc
  rw [toIndex_small hw (show A.colind.getD (A.rowptr.getD i 0 + j) 0 < _ by omega), if_pos (by omega)]
  congr 3

theorem gespmbv_fits {w : Nat} (hw : 1 ≤ w) {A : Csr R} (wf : CsrWF A) (h0 : A.indexing = 0)
    (hz : A.nzval.length < 2 ^ (w - 1)) (hn : A.n ≤ 2 ^ (w - 1)) (K : Nat) (alpha : R) (V : Nat → R) (LDV : Nat) (beta : R)
    (AV : Nat → R) (LDAV : Nat) :
    (A.narrow w).gespmbv K alpha V LDV beta AV LDAV = some (gespmbv K alpha A V LDV beta AV LDAV) := by
  apply foldlM_some
  rintro AV ⟨k, i⟩ hki
  obtain ⟨k', -, h⟩ := List.mem_flatMap.1 hki
  obtain ⟨i', hi', e⟩ := List.mem_map.1 h
  cases e
  dsimp only
  rw [rowDot_fits hw wf h0 hz hn (by simpa [Csr.narrow] using hi')]
  rfl

theorem rowDot_wrapped {w : Nat} (hw : 1 ≤ w) {A : Csr R} (h0 : A.indexing = 0) {i : Nat}
    (h1 : A.rowptr.getD i 0 < 2 ^ (w - 1)) (h2 : 2 ^ (w - 1) ≤ A.rowptr.getD (i + 1) 0)
    (h3 : A.rowptr.getD (i + 1) 0 < 2 ^ w) (x : Nat → R) : (A.narrow w).rowDot x i = some 0 := by
  rw [CsrW.rowDot]
  simp only [Csr.narrow, getD_map_toIndex, h0]
  rw [toIndex_small hw h1, toIndex_large hw h2 h3, toIndex_small hw (Nat.two_pow_pos _)]
  have h3' : (A.rowptr.getD (i + 1) 0 : Int) < 2 ^ w := by exact_mod_cast h3
  have e : ((A.rowptr.getD (i + 1) 0 : Int) - 2 ^ w - (0 : Nat) - (A.rowptr.getD i 0 - (0 : Nat))).toNat = 0 := by omega
  rw [e]
  rfl

theorem rowDot_outside {w : Nat} (hw : 1 ≤ w) {A : Csr R} (h0 : A.indexing = 0) {i : Nat}
    (h1 : 2 ^ (w - 1) ≤ A.rowptr.getD i 0) (h2 : A.rowptr.getD i 0 < A.rowptr.getD (i + 1) 0)
    (h3 : A.rowptr.getD (i + 1) 0 < 2 ^ w) (x : Nat → R) : (A.narrow w).rowDot x i = none := by
  rw [CsrW.rowDot]
  simp only [Csr.narrow, getD_map_toIndex, h0]
  rw [toIndex_large hw h1 (by omega), toIndex_large hw (by omega) h3, toIndex_small hw (Nat.two_pow_pos _)]
  have h3' : (A.rowptr.getD (i + 1) 0 : Int) < 2 ^ w := by exact_mod_cast h3
  have e : ((A.rowptr.getD (i + 1) 0 : Int) - 2 ^ w - (0 : Nat) - (A.rowptr.getD i 0 - 2 ^ w - (0 : Nat))).toNat =
      (A.rowptr.getD (i + 1) 0 - A.rowptr.getD i 0 - 1) + 1 := by omega
  rw [e, List.range_succ_eq_map, List.foldlM_cons, if_neg (by omega)]
  rfl

end

section
variable [Field R] [LinearOrder R] [IsOrderedAddMonoid R]

/-- C165 (arrays): with any index width the row pointers and columns are the exact ones reduced to `w` bits, the
values are exact; if the stored elements and the columns can be counted in `w` bits, the arrays are exact. -/
theorem C165_arrays (w : Nat) (hw : 1 ≤ w) (I : Integrals R) (thresh : R) (h0 : 0 ≤ thresh)
    (bras kets : List (BitVec (2 * M))) :
    let A := I.csrBlock bras kets thresh
    let B := I.csrBlockW w bras kets thresh
    B.m = bras.length ∧ B.n = kets.length ∧ B.nzval = A.nzval ∧ B.rowptr.length = A.rowptr.length ∧
      B.colind.length = A.colind.length ∧
      (∀ i, B.rowptr.getD i 0 = (A.rowptr.getD i 0 : Int).bmod (2 ^ w)) ∧
      (∀ k, B.colind.getD k 0 = (A.colind.getD k 0 : Int).bmod (2 ^ w)) ∧
      (A.nzval.length < 2 ^ (w - 1) → kets.length ≤ 2 ^ (w - 1) →
        (∀ i ≤ bras.length, B.rowptr.getD i 0 = (A.rowptr.getD i 0 : Int)) ∧
        ∀ k < A.nzval.length, B.colind.getD k 0 = (A.colind.getD k 0 : Int)) := by
  dsimp only
  have wf := csrBlock_wf I h0 bras kets
  have hm := csrBlock_m I h0 bras kets
  have hn := csrBlock_n I h0 bras kets
  have hi := csrBlock_indexing I h0 bras kets
  rw [csrBlockW_eq]
  generalize I.csrBlock bras kets thresh = A at *
  refine ⟨hm, hn, rfl, by simp [Csr.narrow], by simp [Csr.narrow], fun i => getD_map_toIndex w _ i,
    fun i => getD_map_toIndex w _ i, fun hz hk => ⟨fun i hb => ?_, fun k hb => ?_⟩⟩
  · refine (getD_map_toIndex w _ i).trans (toIndex_small hw ?_)
    have := rp_le_nnz wf (hm ▸ hb)
    omega
  · refine (getD_map_toIndex w _ k).trans (toIndex_small hw ?_)
    have hlt : k < A.colind.length := by rw [wf.colind_length]; exact hb
    have hc := (wf.col_range _ (List.getElem_mem hlt)).2
    rw [← List.getD_eq_getElem _ 0 hlt] at hc
    omega

/-- C165 (product): if the stored elements of the block number less than `2^(w-1)` and its columns at most that, the
product with any block of vectors makes no access outside the arrays and is that of the block with unbounded indices. -/
theorem C165_product_partial (w : Nat) (hw : 1 ≤ w) (I : Integrals R) (thresh : R) (h0 : 0 ≤ thresh)
    (bras kets : List (BitVec (2 * M))) (hz : (I.csrBlock bras kets thresh).nzval.length < 2 ^ (w - 1))
    (hk : kets.length ≤ 2 ^ (w - 1)) (K : Nat) (alpha : R) (V : Nat → R) (LDV : Nat) (beta : R) (AV : Nat → R) (LDAV : Nat) :
    (I.csrBlockW w bras kets thresh).gespmbv K alpha V LDV beta AV LDAV =
      some (gespmbv K alpha (I.csrBlock bras kets thresh) V LDV beta AV LDAV) := by
  rw [csrBlockW_eq]
  exact gespmbv_fits hw (csrBlock_wf I h0 bras kets) (csrBlock_indexing I h0 bras kets) hz
    (by rw [csrBlock_n I h0]; exact hk) K alpha V LDV beta AV LDAV

/-- C165 is violated (lost row): the row during which the count of stored elements passes `2^(w-1)` is read as
empty, whatever the vector; every non-empty row after it (below `2^w`) is read outside the arrays. -/
theorem C165_lost_row_refuted (w : Nat) (hw : 1 ≤ w) (I : Integrals R) (thresh : R) (h0 : 0 ≤ thresh)
    (bras kets : List (BitVec (2 * M))) (i : Nat) (x : Nat → R)
    (h3 : (I.csrBlock bras kets thresh).rowptr.getD (i + 1) 0 < 2 ^ w) :
    ((I.csrBlock bras kets thresh).rowptr.getD i 0 < 2 ^ (w - 1) →
      2 ^ (w - 1) ≤ (I.csrBlock bras kets thresh).rowptr.getD (i + 1) 0 →
      (I.csrBlockW w bras kets thresh).rowDot x i = some 0) ∧
    (2 ^ (w - 1) ≤ (I.csrBlock bras kets thresh).rowptr.getD i 0 →
      (I.csrBlock bras kets thresh).rowptr.getD i 0 < (I.csrBlock bras kets thresh).rowptr.getD (i + 1) 0 →
      (I.csrBlockW w bras kets thresh).rowDot x i = none) := by
  rw [csrBlockW_eq]
  have hi := csrBlock_indexing I h0 bras kets
  exact ⟨fun h1 h2 => rowDot_wrapped hw hi h1 h2 h3 x, fun h1 h2 => rowDot_outside hw hi h1 h2 h3 x⟩

end

/-! ### One electron in `M` orbitals -/

/-- The determinant with one electron, in orbital `p`. -/
def oneElectron (M p : Nat) : BitVec (2 * M) := BitVec.twoPow (2 * M) p

/-- One-electron integrals all 1, no repulsion. -/
def flatInts (M : Nat) : Integrals ℚ := ⟨M, fun _ _ => 1, fun _ _ _ _ => 0⟩

theorem occ_twoPow {M p : Nat} (hp : p < M) : occ (BitVec.twoPow M p) = [p] := by
  apply List.perm_singleton.1
  rw [List.perm_ext_iff_of_nodup (occ_nodup _) (by simp)]
  intro a
  rw [mem_occ]
  simp [BitVec.getLsbD_twoPow, hp, eq_comm]

theorem count_twoPow_xor {M p q : Nat} (hp : p < M) (hq : q < M) (h : p ≠ q) :
    count (BitVec.twoPow M p ^^^ BitVec.twoPow M q) = 2 := by
  rw [count_eq_length]
  have : (occ (BitVec.twoPow M p ^^^ BitVec.twoPow M q)).Perm [p, q] := by
    rw [List.perm_ext_iff_of_nodup (occ_nodup _) (by simpa using h)]
    intro a
    rw [mem_occ]
    simp only [BitVec.getLsbD_xor, BitVec.getLsbD_twoPow]
    by_cases h1 : p = a <;> by_cases h2 : q = a <;> simp_all [eq_comm]
  exact this.length_eq

theorem loWord_oneElectron {M p : Nat} (hp : p < M) : loWord (oneElectron M p) = BitVec.twoPow M p := by
  apply BitVec.eq_of_getLsbD_eq
  intro i hi
  rw [getLsbD_loWord, oneElectron]
  simp only [BitVec.getLsbD_twoPow]
  by_cases h : p = i <;> simp [h, hi] <;> omega

theorem hiWord_oneElectron {M p : Nat} (hp : p < M) : hiWord (oneElectron M p) = 0#M := by
  apply BitVec.eq_of_getLsbD_eq
  intro i hi
  rw [getLsbD_hiWord, oneElectron]
  simp only [BitVec.getLsbD_twoPow]
  simp
  omega

theorem flat_element {M p q : Nat} (hp : p < M) (hq : q < M) :
    |(flatInts M).matrixElement (oneElectron M p) (oneElectron M q)| = 1 := by
  unfold Integrals.matrixElement Integrals.matrixElementSpin
  simp only [loWord_oneElectron hp, loWord_oneElectron hq, hiWord_oneElectron hp, hiWord_oneElectron hq, BitVec.xor_self]
  have c0 : count (0#M) = 0 := count_eq_zero_iff.2 rfl
  by_cases h : p = q
  · subst h
    simp only [BitVec.xor_self, c0, bitsToIndices_eq_occ, occ_twoPow hp]
    have o0 : occ (0#M) = [] := by
      rw [← List.length_eq_zero_iff, ← count_eq_length, c0]
    rw [o0]
    simp [Integrals.matrixElementDiag, flatInts, Integrals.G2red, Integrals.V2red, Integrals.G]
  · rw [count_twoPow_xor hp hq h, c0]
    simp only [Integrals.matrixElement2, Integrals.Gred, Integrals.Vred, Integrals.G, flatInts]
    simp only [singleExcitationSignIndices, singleExcitationSign]
    norm_num
    split <;> split <;> norm_num

theorem flat_rows {M : Nat} {b : BitVec (2 * M)} (hb : b ∈ (List.range M).map (oneElectron M)) :
    (rowEntries (flatInts M) 0 ((List.range M).map (oneElectron M)) b).length = M := by
  obtain ⟨p, hp, rfl⟩ := List.mem_map.1 hb
  rw [List.mem_range] at hp
  have nz : ∀ {q}, q < M → oneElectron M q ≠ 0#(2 * M) := by
    intro q hq h
    have : (oneElectron M q).getLsbD q = true := by
      rw [oneElectron, BitVec.getLsbD_twoPow]; simp; omega
    rw [h] at this; simp at this
  unfold rowEntries
  have : ∀ jk ∈ enumerate ((List.range M).map (oneElectron M)),
      (if oneElectron M p ≠ 0#(2*M) ∧ jk.2 ≠ 0#(2*M) ∧ |(flatInts M).matrixElement (oneElectron M p) jk.2| > 0
        then some (jk.1, (flatInts M).matrixElement (oneElectron M p) jk.2) else none) =
      some (jk.1, (flatInts M).matrixElement (oneElectron M p) jk.2) := by
    rintro ⟨j, k⟩ hjk
    obtain ⟨hj, e⟩ := enumerate_mem.1 hjk
    simp only [List.getElem_map, List.getElem_range] at e
    simp only [List.length_map, List.length_range] at hj
    subst e
    rw [if_pos ⟨nz hp, nz hj, by rw [flat_element hp hj]; norm_num⟩]
  rw [List.filterMap_congr this, List.filterMap_eq_map']
  simp [enumerate]

theorem flat_rowptr {M i : Nat} (hi : i ≤ M) :
    ((flatInts M).csrHamiltonian ((List.range M).map (oneElectron M)) 0).rowptr.getD i 0 = i * M := by
  unfold Integrals.csrHamiltonian
  rw [csrBlock_eq _ le_rfl, csrOfRows_rp _ _ _ _ (by simpa using hi), Nat.zero_add, List.sum_eq_card_nsmul _ M]
  · simp [hi]
  · intro x hx
    obtain ⟨r, hr, rfl⟩ := List.mem_map.1 hx
    obtain ⟨b, hb, rfl⟩ := List.mem_map.1 (List.mem_of_mem_take hr)
    exact flat_rows hb

/-- C165 is violated (reachable): one electron in any number of orbitals from 46341 to `2^31`, all one-electron
integrals 1: the determinants are distinct, every element of the Hamiltonian has absolute value 1, and with the default
`int32_t` some row of the matrix gives zero with every vector. -/
theorem C165_one_electron_refuted (M : Nat) (h1 : 46341 ≤ M) (h2 : M ≤ 2 ^ 31) :
    ((List.range M).map (oneElectron M)).Nodup ∧
    (∀ b ∈ (List.range M).map (oneElectron M), ∀ k ∈ (List.range M).map (oneElectron M),
      |(flatInts M).matrixElement b k| = 1) ∧
    ∃ i < M, ∀ x, ((flatInts M).csrBlockW 32 ((List.range M).map (oneElectron M)) ((List.range M).map (oneElectron M)) 0).rowDot
      x i = some 0 := by
  refine ⟨?_, ?_, (2 ^ 31 - 1) / M, ?_, fun x => ?_⟩
  · apply List.Nodup.map_on _ List.nodup_range
    intro p hp q hq e
    rw [List.mem_range] at hp hq
    have := congrArg (fun z => occ (loWord z)) e
    simp only [loWord_oneElectron hp, loWord_oneElectron hq, occ_twoPow hp, occ_twoPow hq] at this
    simpa using this
  · intro b hb k hk
    obtain ⟨p, hp, rfl⟩ := List.mem_map.1 hb
    obtain ⟨q, hq, rfl⟩ := List.mem_map.1 hk
    exact flat_element (List.mem_range.1 hp) (List.mem_range.1 hq)
  · rw [Nat.div_lt_iff_lt_mul (by omega)]
    have := Nat.mul_le_mul h1 h1
    omega
  · have hM : 0 < M := by omega
    have hd : (2 ^ 31 - 1) / M < M := by
      rw [Nat.div_lt_iff_lt_mul hM]
      have := Nat.mul_le_mul h1 h1
      omega
    have e1 := Nat.div_add_mod (2 ^ 31 - 1) M
    have e2 := Nat.mod_lt (2 ^ 31 - 1) hM
    have r1 := flat_rowptr (M := M) hd.le
    have r2 := flat_rowptr (M := M) (i := (2 ^ 31 - 1) / M + 1) hd
    unfold Integrals.csrHamiltonian at r1 r2
    generalize (2 ^ 31 - 1) / M = d at *
    rw [mul_comm] at e1
    have e3 : (d + 1) * M = d * M + M := by ring
    refine (C165_lost_row_refuted 32 (by norm_num) (flatInts M) 0 le_rfl _ _ d x ?_).1 ?_ ?_
    · rw [r2, e3]; omega
    · rw [r1]; omega
    · rw [r2, e3]; omega

/-- The conditions of `C165_product_partial` are met by one electron in two orbitals with 4-bit indices. -/
example : ((flatInts 2).csrBlock ((List.range 2).map (oneElectron 2)) ((List.range 2).map (oneElectron 2)) 0).nzval.length = 4 ∧
    ((flatInts 2).csrBlockW 4 ((List.range 2).map (oneElectron 2)) ((List.range 2).map (oneElectron 2)) 0).rowDot
      (fun _ => 1) 1 = some 2 := by
  decide +kernel

end Macis
