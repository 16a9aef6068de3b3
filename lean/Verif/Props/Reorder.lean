import Verif.Props.Permute
import Verif.Props.SpUtil
import Verif.Props.SpBlas
import Verif.Props.Omp
/-
C160: reordering a matrix by a partition of its graph, multiplying (in one process or distributed over the parts) and
undoing the reordering, as in src/sparsexx/examples/test_dist.cxx.
-/
namespace Macis
open Spec
variable {R : Type}

theorem sum_perm_getD [AddCommMonoid R] {perm : List Nat} {n : Nat} (hp : perm.Perm (List.range n)) (f : Nat → R) :
    ∑ j ∈ Finset.range n, f (perm.getD j 0) = ∑ j ∈ Finset.range n, f j := by
  have hl : perm.length = n := by rw [hp.length_eq, List.length_range]
  rw [← sum_map_range, ← sum_map_range]
  have e : (List.range n).map (fun j => f (perm.getD j 0)) = perm.map f := by
    apply List.ext_getElem (by simp [hl])
    intro i h1 h2
    simp only [List.getElem_map, List.getElem_range]
    rw [List.getD_eq_getElem _ _ (by simpa using h2)]
  rw [e]
  exact (hp.map f).sum_eq

/-- the product with the reordered matrix is the reordered product -/
theorem reordered_row [Semiring R] (A : Csr R) (h : CsrWF A) (hsq : A.m = A.n)
    (hnd : ∀ i < A.m, (A.rowCols i).Nodup) {perm : List Nat} (hp : perm.Perm (List.range A.m)) {ind : Nat → List Nat}
    (hi : IndexArrays A (invertPerm perm) (fun i => perm.getD i 0) ind) (X g : List R) (hX : X.length = A.m)
    (hg : g.length = A.m) {i : Nat} (him : i < A.m) :
    ∑ j ∈ Finset.range A.n, csrEntry (A.permuteRowsCols perm perm ind) i j * (permuteBackward X perm g).getD j 0 =
      ∑ j ∈ Finset.range A.n, csrEntry A (perm.getD i 0) j * X.getD j 0 := by
  obtain ⟨-, -, -, -, -, hent⟩ := C48_permute_rows_cols A h hnd perm perm hp (hsq ▸ hp) ind hi
  obtain ⟨-, hb, -⟩ := C48_permute_vector X perm (hX ▸ hp) g g (by omega) (by omega)
  rw [← sum_perm_getD (hsq ▸ hp) fun j => csrEntry A (perm.getD i 0) j * X.getD j 0]
  apply Finset.sum_congr rfl
  intro j hj
  rw [Finset.mem_range] at hj
  rw [(hent i him j hj).1, hb j (by omega)]

/-- C160 (one process): for every square well-formed matrix without repeated positions, every permutation and every
vector, multiplying the reordered matrix with the vector permuted `Backward` and permuting the result `Forward`
gives the product with the original matrix. -/
theorem C160_serial [Semiring R] (A : Csr R) (h : CsrWF A) (hsq : A.m = A.n) (hnd : ∀ i < A.m, (A.rowCols i).Nodup)
    (perm : List Nat) (hp : perm.Perm (List.range A.m)) (ind : Nat → List Nat)
    (hi : IndexArrays A (invertPerm perm) (fun i => perm.getD i 0) ind) (X g g' : List R) (hX : X.length = A.m)
    (hg : g.length = A.m) (hg' : g'.length = A.m) (alpha : R) (AV : Nat → R) :
    let Ap := A.permuteRowsCols perm perm ind
    let V := permuteBackward X perm g
    let Y := (List.range A.m).map (gespmbv 1 alpha Ap (fun a => V.getD a 0) A.m 0 AV A.m)
    ∀ i < A.m, (permuteForward Y perm g').getD i 0 = alpha * ∑ j ∈ Finset.range A.n, csrEntry A i j * X.getD j 0 := by
  intro Ap V Y i him
  obtain ⟨hw, -, -, hm, hn, -⟩ := C48_permute_rows_cols A h hnd perm perm hp (hsq ▸ hp) ind hi
  have hY : Y.length = A.m := by simp [Y]
  obtain ⟨hf, -, -, -⟩ := C48_permute_vector Y perm (hY ▸ hp) g' g' (by omega) (by omega)
  have hmem : i ∈ perm := hp.mem_iff.2 (List.mem_range.2 him)
  obtain ⟨k, hk, hki⟩ := List.mem_iff_getElem.1 hmem
  have hkm : k < A.m := by rw [hp.length_eq, List.length_range] at hk; exact hk
  have hk' : perm.getD k 0 = i := by rw [List.getD_eq_getElem _ _ hk, hki]
  have h1 := hf k (by omega)
  rw [hk'] at h1
  rw [h1]
  have h2 : Y.getD k 0 = gespmbv 1 alpha Ap (fun a => V.getD a 0) A.m 0 AV A.m k := by
    simp only [Y]
    rw [List.getD_eq_getElem _ _ (by simpa using hkm)]
    simp
  have h3 := C44_csr_spmv_serial 1 alpha 0 Ap hw (fun a => V.getD a 0) AV A.m A.m (by rw [hm]) 0 (by omega) k
    (by rw [hm]; exact hkm)
  simp only [Nat.zero_mul, Nat.add_zero, zero_mul, add_zero] at h3
  rw [h2, h3, hn, reordered_row A h hsq hnd hp hi X g hX hg hkm, hk']

/-- the row ranges of the parts (test_dist.cxx:121-124) -/
def partTiles (P : Nat) (ptr : List Nat) : List (Nat × Nat) :=
  (List.range P).map fun p => (ptr.getD p 0, ptr.getD (p + 1) 0)

theorem partTiles_get {P : Nat} {ptr : List Nat} {r : Nat} {t : Nat × Nat} (h : (partTiles P ptr)[r]? = some t) :
    r < P ∧ t = (ptr.getD r 0, ptr.getD (r + 1) 0) := by
  unfold partTiles at h
  rw [List.getElem?_map, Option.map_eq_some_iff] at h
  obtain ⟨p, hp, rfl⟩ := h
  rw [List.getElem?_eq_some_iff] at hp
  obtain ⟨h1, h2⟩ := hp
  simp only [List.getElem_range] at h2
  subst h2
  exact ⟨by simpa using h1, rfl⟩

/-- C160 (distributed): for every assignment of the rows to `P` parts, `perm_from_part` and `permute_rows_cols` give
a reordering whose parts the distributed matrix accepts as row ranges of `P` ranks; multiplying in parallel with
the vector permuted `Backward`, collecting the local results and permuting them `Forward` gives the product with the
original matrix. -/
theorem C160_distributed [Semiring R] (A : Csr R) (h : CsrWF A) (hsq : A.m = A.n)
    (hnd : ∀ i < A.m, (A.rowCols i).Nodup) (P : Nat) (hP : 0 < P) (part : List Nat) (hlen : part.length = A.m)
    (hpart : ∀ i < part.length, part.getD i 0 < P) :
    ∃ perm ptr, permFromPart P part = some (perm, ptr) ∧
      ∀ ind, IndexArrays A (invertPerm perm) (fun i => perm.getD i 0) ind →
        let Ap := A.permuteRowsCols perm perm ind
        let tiles := partTiles P ptr
        (∀ r, (DistCsr.ofSerialTiled P r Ap tiles).isSome) ∧
        ∀ B : Nat → DistCsr R, (∀ r < P, DistCsr.ofSerialTiled P r Ap tiles = some (B r)) →
        ∀ (X g g' : List R), X.length = A.m → g.length = A.m → g'.length = A.m →
        ∀ (V : Nat → Nat → R), (∀ r < P, ∀ k < ptr.getD (r + 1) 0 - ptr.getD r 0,
          V r k = (permuteBackward X perm g).getD (ptr.getD r 0 + k) 0) →
        ∀ (alpha : R) (AV garbage : Nat → R) (Y : List R), Y.length = A.m →
          (∀ r < P, ∀ k < ptr.getD (r + 1) 0 - ptr.getD r 0,
            Y.getD (ptr.getD r 0 + k) 0 = pgespmv B (spmvInfo B) alpha V 0 AV garbage r k) →
          ∀ i < A.m, (permuteForward Y perm g').getD i 0 =
            alpha * ∑ j ∈ Finset.range A.n, csrEntry A i j * X.getD j 0 := by
  obtain ⟨perm, ptr, e, hp, hptr, hp0, hpP, hmono⟩ := (C48_perm_from_part P hP part).2 hpart
  refine ⟨perm, ptr, e, ?_⟩
  intro ind hi Ap tiles
  rw [hlen] at hp hpP
  obtain ⟨hw, hs, -, hm, hn, -⟩ := C48_permute_rows_cols A h hnd perm perm hp (hsq ▸ hp) ind hi
  have hsq' : Ap.m = Ap.n := by rw [hm, hn, hsq]
  have hrp : RowPartition Ap.m P tiles := by
    refine ⟨by simp [tiles, partTiles], ?_, ?_, ?_, ?_⟩
    · intro t ht
      obtain ⟨-, rfl⟩ := partTiles_get ht
      exact hp0
    · intro t ht
      obtain ⟨-, rfl⟩ := partTiles_get ht
      show ptr.getD (P - 1 + 1) 0 = _
      rw [show P - 1 + 1 = P by omega, hpP, hm]
    · intro t ht
      obtain ⟨r, hr⟩ := List.mem_iff_getElem?.1 ht
      obtain ⟨hr', rfl⟩ := partTiles_get hr
      exact (hmono r hr').1
    · intro r s t hs ht
      obtain ⟨-, rfl⟩ := partTiles_get hs
      obtain ⟨-, rfl⟩ := partTiles_get ht
      rfl
  obtain ⟨hsome, hprod⟩ := C61_distribute_serial_tiled Ap hw hs hsq' P hP tiles
  refine ⟨fun r => (hsome r).2 hrp, ?_⟩
  intro B hB X g g' hX hg hg' V hV alpha AV garbage Y hY hYv i him
  obtain ⟨hd, hent⟩ := hprod B hB
  obtain ⟨hf, -, -, -⟩ := C48_permute_vector Y perm (hY ▸ hp) g' g' (by omega) (by omega)
  have hmem : i ∈ perm := hp.mem_iff.2 (List.mem_range.2 him)
  obtain ⟨k, hk, hki⟩ := List.mem_iff_getElem.1 hmem
  have hkm : k < A.m := by rw [hp.length_eq, List.length_range] at hk; exact hk
  have hk' : perm.getD k 0 = i := by rw [List.getD_eq_getElem _ _ hk, hki]
  have h1 := hf k (by omega)
  rw [hk'] at h1
  rw [h1]
  -- the part that holds position `k`
  obtain ⟨r, hr, hr1, hr2⟩ : ∃ r < P, ptr.getD r 0 ≤ k ∧ k < ptr.getD (r + 1) 0 := by
    have : ∀ q ≤ P, k < ptr.getD q 0 → ∃ r < q, ptr.getD r 0 ≤ k ∧ k < ptr.getD (r + 1) 0 := by
      intro q
      induction q with
      | zero => intro _ hc; rw [hp0] at hc; omega
      | succ q ih =>
        intro hq hc
        by_cases hcase : k < ptr.getD q 0
        · obtain ⟨r, hr, h1, h2⟩ := ih (by omega) hcase
          exact ⟨r, by omega, h1, h2⟩
        · exact ⟨q, by omega, by omega, hc⟩
    exact this P le_rfl (by rw [hpP]; exact hkm)
  have htile : ∀ r < P, tiles[r]? = some (ptr.getD r 0, ptr.getD (r + 1) 0) := by
    intro r hr
    simp [tiles, partTiles, hr]
  have hx : ∀ r < P, ∀ st en, tiles[r]? = some (st, en) → ∀ k < en - st,
      V r k = (fun a => (permuteBackward X perm g).getD a 0) (st + k) := by
    intro r hr st en hse k hk
    rw [htile r hr] at hse
    simp only [Option.some.injEq, Prod.mk.injEq] at hse
    obtain ⟨rfl, rfl⟩ := hse
    exact hV r hr k hk
  have h2 := C45_distributed_spmv hd alpha 0 V (fun a => (permuteBackward X perm g).getD a 0) AV garbage hx r hr _ _ (htile r hr) (k - ptr.getD r 0) (by omega)
  have h3 := hYv r hr (k - ptr.getD r 0) (by omega)
  rw [show ptr.getD r 0 + (k - ptr.getD r 0) = k by omega] at h3
  rw [h3, h2, zero_mul, add_zero]
  congr 1
  rw [← hk', ← reordered_row A h hsq hnd hp hi X g hX hg hkm, hn]
  apply Finset.sum_congr rfl
  intro j hj
  rw [Finset.mem_range] at hj
  rw [hent r hr _ _ (htile r hr) _ (by omega) j (by rw [hn]; exact hj)]
  rw [show ptr.getD r 0 + (k - ptr.getD r 0) = k by omega]

/-- the program asks for at least two parts (test_dist.cxx:109), so in a single process its row ranges are
rejected whatever the partition -/
theorem C160_single_process (A : Csr R) [Zero R] (ptr : List Nat) (r : Nat) :
    DistCsr.ofSerialTiled 1 r A (partTiles 2 ptr) = none := by
  have := (C42_custom_tiles R 1 r A.m A.n (by omega) (partTiles 2 ptr)).1
  unfold DistCsr.ofSerialTiled
  cases hc : DistCsr.createTiled (R := R) 1 r A.m A.n (partTiles 2 ptr) with
  | none => rfl
  | some D =>
    rw [hc] at this
    have h1 := (this.1 rfl).length_eq
    simp [partTiles] at h1

/-- sorted index arrays exist -/
theorem exists_indexArrays (A : Csr R) (ic : List Nat) (p : Nat → Nat) : ∃ ind, IndexArrays A ic p ind :=
  ⟨fun i => exOmpSort A ic (p i) (indPrepare [] (A.rowCols (p i)).length), fun _ _ =>
    ⟨[], List.Perm.refl _, exOmpSort_spec A ic _ _⟩⟩

/-- a path of three vertices, its ends in part 1, its middle in part 0 -/
def exPath : Csr Int :=
  { m := 3, n := 3, indexing := 0, rowptr := [0, 1, 3, 4], colind := [1, 0, 2, 1], nzval := [2, 2, 5, 5] }

theorem exPath_wf : CsrWF exPath :=
  { rowptr_length := rfl, rowptr_first := rfl, rowptr_mono := by decide, rowptr_last := rfl,
    colind_length := rfl, col_range := by decide }

example : permFromPart 2 [1, 0, 1] = some ([1, 0, 2], [0, 1, 3]) ∧
    ∃ ind, IndexArrays exPath (invertPerm [1, 0, 2]) (fun i => [1, 0, 2].getD i 0) ind ∧
      (∀ r, (DistCsr.ofSerialTiled 2 r (exPath.permuteRowsCols [1, 0, 2] [1, 0, 2] ind) [(0, 1), (1, 3)]).isSome) := by
  have he : permFromPart 2 [1, 0, 1] = some ([1, 0, 2], [0, 1, 3]) := by decide +kernel
  refine ⟨he, ?_⟩
  obtain ⟨ind, hi⟩ := exists_indexArrays exPath (invertPerm [1, 0, 2]) (fun i => [1, 0, 2].getD i 0)
  refine ⟨ind, hi, ?_⟩
  obtain ⟨perm, ptr, e, hall⟩ := C160_distributed exPath exPath_wf rfl (by decide +kernel) 2 (by decide) [1, 0, 1] rfl
    (by decide)
  rw [he] at e
  cases e
  exact (hall ind hi).1

end Macis
