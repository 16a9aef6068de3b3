import Verif.Lemmas.Pack
import Verif.Spec.DistMatrix
namespace Macis
open Spec
variable {R : Type}

theorem foldl_store_list {R : Type} (idx : List Nat) (hn : idx.Nodup) (x : Nat → R) (pack : List R) (z : R)
    (hpack : pack = idx.map x) (g : Nat → R) :
    ∀ c ∈ idx, (List.range idx.length).foldl
      (fun mem k => store mem (idx.getD k 0) (pack.getD k z)) g c = x c := by
  have hinj : ∀ a ∈ List.range idx.length, ∀ b ∈ List.range idx.length,
      idx.getD a 0 = idx.getD b 0 → a = b := by
    intro a ha b hb e
    simp only [List.mem_range] at ha hb
    rw [List.getD_eq_getElem _ _ ha, List.getD_eq_getElem _ _ hb] at e
    exact (List.Nodup.getElem_inj_iff hn).1 e
  have h := (foldl_store (fun k => idx.getD k 0) (fun k _ => pack.getD k z) (List.range idx.length)
    List.nodup_range hinj g).1
  intro c hc
  obtain ⟨k, hk, rfl⟩ := List.mem_iff_getElem.1 hc
  have := h k (List.mem_range.2 hk)
  rw [List.getD_eq_getElem _ _ hk] at this
  rw [this, List.getD_eq_getElem _ _ (by rw [hpack]; simpa using hk)]
  simp [hpack]

/-- what every rank finally has in its receive buffer: the needed elements of the global vector -/
theorem recvPack_eq [Zero R] {A : Nat → DistCsr R} {P N : Nat} {ext : List (Nat × Nat)}
    (h : DistributedMatrix A P N ext) (V : Nat → Nat → R) (x : Nat → R)
    (hV : ∀ r < P, ∀ st en, ext[r]? = some (st, en) → ∀ k < en - st, V r k = x (st + k))
    {r : Nat} (hr : r < P) :
    spmvRecvPack (spmvInfo A) V r = ((A r).neededCols).map x ∧
    (spmvInfo A r).recvIndices = (A r).neededCols := by
  have hP : 0 < P := by omega
  have hpart : ∀ q < P, RowPartition N (A q).size (A q).extents := by
    intro q hq; rw [h.size_eq q hq, h.extents_eq q hq]; exact h.partition
  have hb : ∀ q < P, ∀ i < P, ext[i]? = some ((A q).rowBounds i) := by
    intro q hq i hi
    unfold DistCsr.rowBounds
    rw [h.extents_eq q hq, List.getD_eq_getElem _ _ (by rw [h.partition.length_eq]; exact hi)]
    exact List.getElem?_eq_getElem _
  have hneed : ∀ q < P, ∀ c ∈ (A q).neededCols, c < N ∧
      ¬ (((A q).rowBounds q).1 ≤ c ∧ c < ((A q).rowBounds q).2) := by
    intro q hq c hc
    unfold DistCsr.neededCols at hc
    split at hc
    · rename_i O hO
      rw [mem_stdSet] at hc
      obtain ⟨wf, hi, -, hn, hno⟩ := h.offdiag_ok q hq _ _ (hb q hq q hq) O hO
      have := wf.col_range c hc
      rw [hi, hn] at this
      exact ⟨by omega, hno c hc⟩
    · simp at hc
  have hlenR : ∀ q < P, (recvByRank (A q)).length = P := by
    intro q hq; rw [recvByRank_eq _ (hpart q hq)]; simp [h.size_eq q hq]
  have hflat : (recvByRank (A r)).flatten = (A r).neededCols :=
    recvByRank_flatten _ (hpart r hr) (by rw [h.size_eq r hr]; exact hP)
      (fun c hc => (hneed r hr c hc).1)
  -- chunk q of rank d
  have hchunk : ∀ d < P, ∀ q < P, (recvByRank (A d)).getD q []
      = (A d).neededCols.filter fun c =>
          decide (((A d).rowBounds q).1 ≤ c ∧ c < ((A d).rowBounds q).2) := by
    intro d hd q hq
    rw [List.getD_eq_getElem _ _ (by rw [hlenR d hd]; exact hq)]
    simp only [recvByRank_eq _ (hpart d hd), List.getElem_map, List.getElem_range]
  have hchunk_self : ∀ d < P, (recvByRank (A d)).getD d [] = [] := by
    intro d hd
    rw [hchunk d hd d hd, List.filter_eq_nil_iff]
    intro c hc
    have := (hneed d hd c hc).2
    simpa using this
  -- the message from q to d
  have hmsg : ∀ q < P, ∀ d < P, spmvMessage (spmvInfo A) V q d
      = ((recvByRank (A d)).getD q []).map x := by
    intro q hq d hd
    unfold spmvMessage spmvInfo
    dsimp only
    rw [h.size_eq q hq]
    set sendBy := (List.range P).map fun i =>
      if i ≠ q then (recvByRank (A i)).getD q [] else [] with hsb
    have hsl : sendBy.length = P := by simp [hsb]
    rw [exclusiveScan_getD _ (by simpa [hsl] using hd),
      List.getD_eq_getElem _ _ (by simpa [hsl] using hd), List.getElem_map,
      ← List.map_drop, ← List.map_take, ← List.map_drop, ← List.map_take,
      flatten_slice sendBy (by omega), List.map_map]
    have hd' : sendBy[d]'(by omega) = (recvByRank (A d)).getD q [] := by
      simp only [hsb, List.getElem_map, List.getElem_range]
      split
      · rfl
      · rename_i hne
        have : d = q := by simpa using hne
        subst this
        exact (hchunk_self d hd).symm
    rw [hd']
    apply List.map_congr_left
    intro c hc
    rw [hchunk d hd q hq, List.mem_filter] at hc
    have hc2 := hc.2
    simp only [decide_eq_true_eq] at hc2
    have e1 : (A d).rowBounds q = (A q).rowBounds q := by
      have a := hb d hd q hq
      have b := hb q hq q hq
      rw [a] at b; simpa using b
    rw [e1] at hc2
    have e2 : (A q).localRowStart = ((A q).rowBounds q).1 := by
      unfold DistCsr.localRowStart; rw [h.rank_eq q hq]
    simp only [Function.comp]
    rw [e2, hV q hq ((A q).rowBounds q).1 ((A q).rowBounds q).2 (hb q hq q hq) _ (by omega)]
    congr 1; omega
  constructor
  · unfold spmvRecvPack
    have hoff : (spmvInfo A r).recvOffsets = exclusiveScan ((recvByRank (A r)).map List.length) := rfl
    have hcnt : (spmvInfo A r).recvCounts = (recvByRank (A r)).map List.length := rfl
    have hidx : (spmvInfo A r).recvIndices = (recvByRank (A r)).flatten := rfl
    have hol : (spmvInfo A r).recvOffsets.length = P := by
      rw [hoff, exclusiveScan_eq]; simp [hlenR r hr]
    have hsrc : ∀ i < P, (if (spmvInfo A r).recvCounts.getD i 0 ≠ 0 then
        spmvMessage (spmvInfo A) V i r else []) = ((recvByRank (A r)).getD i []).map x := by
      intro i hi
      rw [hcnt, List.getD_eq_getElem _ _ (by simpa [hlenR r hr] using hi), List.getElem_map,
        hmsg i hi r hr, List.getD_eq_getElem _ _ (by rw [hlenR r hr]; exact hi)]
      split
      · rfl
      · rename_i hz
        have hz' : (recvByRank (A r))[i]'(by rw [hlenR r hr]; exact hi) = [] := by
          simpa using hz
        rw [hz']; rfl
    have hmapR : ∀ k ≤ P, (List.range k).map (fun i => if (spmvInfo A r).recvCounts.getD i 0 ≠ 0 then
        spmvMessage (spmvInfo A) V i r else []) = ((recvByRank (A r)).take k).map (List.map x) := by
      intro k hk
      apply List.ext_getElem
      · simp [hlenR r hr, hk]
      · intro i h1 h2
        simp at h1
        simp only [List.getElem_map, List.getElem_range, List.getElem_take]
        rw [hsrc i (by omega), List.getD_eq_getElem _ _ (by rw [hlenR r hr]; omega)]
    have hall := hmapR P le_rfl
    rw [List.take_of_length_le (by rw [hlenR r hr])] at hall
    rw [writeRows_full]
    · rw [hol, hall, ← List.map_flatten, hflat]
    · intro i hi
      rw [hol] at hi
      rw [hmapR i (by omega), hoff, exclusiveScan_getD _ (by simpa [hlenR r hr] using hi),
        ← List.map_flatten, List.length_map, List.length_flatten, List.map_take]
    · rw [hol, hall, ← List.map_flatten, List.length_map, List.length_replicate, hidx]
  · exact hflat

theorem pgespmv_spec [Semiring R] {A : Nat → DistCsr R} {P N : Nat} {ext : List (Nat × Nat)}
    (h : DistributedMatrix A P N ext) (alpha beta : R) (V : Nat → Nat → R) (x AV garbage : Nat → R)
    (hV : ∀ r < P, ∀ st en, ext[r]? = some (st, en) → ∀ k < en - st, V r k = x (st + k))
    {r : Nat} (hr : r < P) {st en : Nat} (hse : ext[r]? = some (st, en)) :
    ∀ i < en - st, pgespmv A (spmvInfo A) alpha V beta AV garbage r i
      = alpha * (∑ j ∈ Finset.range N, distEntry (A r) st en i j * x j) + beta * AV i := by
  intro i hi
  obtain ⟨hpack, hidx⟩ := recvPack_eq h V x hV hr
  obtain ⟨D, hD, wfD, hDi, hDm, hDn⟩ := h.diag_ok r hr st en hse
  have hen : st ≤ en ∧ en ≤ N := by
    have hl := (List.getElem?_eq_some_iff.1 hse).1
    refine ⟨h.partition.ordered (st, en) (List.mem_of_getElem? hse), ?_⟩
    rcases Nat.lt_or_ge r (P - 1) with hlt | hge
    · have hl2 : P - 1 < ext.length := by rw [h.partition.length_eq]; omega
      have e := List.getElem?_eq_getElem hl2
      have h1 := h.partition.mono hlt hse e
      have h2 := h.partition.ordered _ (List.getElem_mem hl2)
      rw [h.partition.ends _ e] at h2
      dsimp only at h1; omega
    · have : r = P - 1 := by omega
      subst this
      exact (h.partition.ends _ hse).le
  -- diagonal part as a sum over all columns
  have hdiag : ∑ j ∈ Finset.range D.n, csrEntry D i j * V r j
      = ∑ j ∈ Finset.range N, (if st ≤ j ∧ j < en then csrEntry D i (j - st) else 0) * x j := by
    have e1 : ∑ j ∈ Finset.range D.n, csrEntry D i j * V r j
        = ∑ j ∈ Finset.range (en - st), csrEntry D i j * x (st + j) := by
      rw [hDn]
      apply Finset.sum_congr rfl
      intro j hj
      rw [Finset.mem_range] at hj
      rw [hV r hr st en hse j hj]
    have e2 : ∑ j ∈ Finset.range (en - st), csrEntry D i j * x (st + j)
        = ∑ j ∈ Finset.Ico st en, csrEntry D i (j - st) * x j := by
      rw [Finset.sum_Ico_eq_sum_range]
      apply Finset.sum_congr rfl
      intro j _
      rw [Nat.add_sub_cancel_left]
    rw [e1, e2]
    have hsub : Finset.Ico st en ⊆ Finset.range N := by
      intro a ha; simp at ha ⊢; omega
    rw [← Finset.sum_subset hsub]
    · apply Finset.sum_congr rfl
      intro j hj
      rw [Finset.mem_Ico] at hj
      rw [if_pos hj]
    · intro j _ hj
      rw [Finset.mem_Ico] at hj
      rw [if_neg hj, zero_mul]
  have hAV1 : gespmbv 1 alpha D (V r) N beta AV N i
      = alpha * (∑ j ∈ Finset.range N,
          (if st ≤ j ∧ j < en then csrEntry D i (j - st) else 0) * x j) + beta * AV i := by
    have := (gespmbvSched_spec 1 alpha beta D wfD (V r) AV N N (by omega) _ (List.Perm.refl _)).1 0
      (by omega) i (by omega)
    simp only [Nat.zero_mul, Nat.add_zero] at this
    rw [hdiag] at this
    exact this
  unfold pgespmv
  rw [hD, h.n_eq r hr, hpack]
  dsimp only
  unfold distEntry
  rw [hD]
  cases hO : (A r).offdiag with
  | none =>
    simp only [Option.elim_some, Option.elim_none, add_zero]
    exact hAV1
  | some O =>
    simp only [Option.elim_some]
    obtain ⟨wfO, hOi, hOm, hOn, -⟩ := h.offdiag_ok r hr st en hse O hO
    set Vr := (List.range (spmvInfo A r).recvIndices.length).foldl
      (fun mem k => store mem ((spmvInfo A r).recvIndices.getD k 0)
        (((A r).neededCols.map x).getD k 0)) garbage with hVr
    have hU : (A r).neededCols = stdSet O.colind := by unfold DistCsr.neededCols; rw [hO]
    have hVr' : ∀ c ∈ O.colind, Vr c = x c := by
      intro c hc
      rw [hVr, hidx]
      apply foldl_store_list _ _ _ _ _ rfl
      · rw [hU, mem_stdSet]; exact hc
      · rw [hU]; exact (stdSet_sorted _).imp (fun h => Nat.ne_of_lt h)
    have hdot : O.rowDot Vr i = O.rowDot x i := by
      unfold Csr.rowDot
      apply List.foldl_ext
      intro a p hp
      have hrow := row_col_range wfO (i := i) (by omega) hp
      have hmem : p.1 ∈ O.colind := by
        have : p.1 ∈ O.rowCols i := by
          rw [Csr.rowCols_eq wfO (by omega)]; exact List.mem_map_of_mem hp
        exact List.mem_of_mem_drop (List.mem_of_mem_take this)
      rw [hOi, Nat.sub_zero, hVr' p.1 hmem]
    have := (gespmbvSched_spec 1 alpha 1 O wfO Vr (gespmbv 1 alpha D (V r) N beta AV N) N N (by omega) _
      (List.Perm.refl _)).1 0 (by omega) i (by omega)
    simp only [Nat.zero_mul, Nat.add_zero] at this
    rw [← rowDot_eq wfO (by omega), hdot, rowDot_eq wfO (by omega), hAV1, hOn] at this
    refine this.trans ?_
    simp only [add_mul, Finset.sum_add_distrib, mul_add, one_mul]
    rw [add_comm (alpha * _) (alpha * _ + _), add_right_comm]

end Macis
