import Verif.Props.HamCsr
import Verif.Lemmas.Dist
/-
C42: row distributions; C18: the distributed Hamiltonian.
-/
namespace Macis
open Spec

/-! ### C42 -/

/-- C42: the default distribution over any number of ranks is a contiguous partition of the rows in
rank order; every rank but the last gets `M / P` rows and the last one also the remainder; every row
has exactly one owner. -/
theorem C42_default_partition (M P : Nat) (hP : 0 < P) :
    RowPartition M P (defaultExtents M P) ∧
    (∀ row < M, ∃ r, r < P ∧ Owns (defaultExtents M P) r row ∧
      ∀ r', Owns (defaultExtents M P) r' row → r' = r) ∧
    (∀ (R : Type) (rank : Nat) (N : Nat), ∀ r < P,
      (DistCsr.create (R := R) P rank M N).rowExtent r
        = if r = P - 1 then M / P + M % P else M / P) := by
  refine ⟨defaultExtents_partition M P hP, fun row h => (defaultExtents_partition M P hP).owner hP h,
    ?_⟩
  intro R rank N r hr
  unfold DistCsr.rowExtent DistCsr.rowBounds DistCsr.create
  simp only [defaultExtents_eq M P hP]
  rw [List.getD_eq_getElem _ _ (by simpa using hr)]
  simp only [List.getElem_map, List.getElem_range]
  by_cases h : r = P - 1
  · rw [if_pos (by omega), if_pos h]
    subst h
    have h1 := Nat.div_add_mod M P
    have h2 : P * (M / P) = (P - 1) * (M / P) + M / P := by
      obtain ⟨k, rfl⟩ : ∃ k, P = k + 1 := ⟨P - 1, by omega⟩
      rw [Nat.add_sub_cancel]; ring
    rw [h2] at h1
    rw [Nat.add_assoc] at h1
    exact Nat.sub_eq_of_eq_add (by rw [Nat.add_comm]; exact h1.symm)
  · rw [if_neg (by omega), if_neg h, Nat.add_mul, Nat.one_mul, Nat.add_sub_cancel_left]

/-- C42: the local sizes of the ranks add up to the number of rows, and each rank starts where the ranks
before it end. -/
theorem C42_local_rows (R : Type) (P M N : Nat) (hP : 0 < P) :
    (∑ r ∈ Finset.range P, (DistCsr.create (R := R) P r M N).localRowExtent) = M ∧
    ∀ r < P, (DistCsr.create (R := R) P r M N).localRowStart =
      ∑ q ∈ Finset.range r, (DistCsr.create (R := R) P q M N).localRowExtent := by
  have hext := (C42_default_partition M P hP).2.2 R
  have hloc : ∀ q < P, (DistCsr.create (R := R) P q M N).localRowExtent
      = if q = P - 1 then M / P + M % P else M / P := fun q hq => by
    unfold DistCsr.localRowExtent
    exact hext q N q hq
  have hpre : ∀ k < P, (∑ q ∈ Finset.range k, (DistCsr.create (R := R) P q M N).localRowExtent) = k * (M / P) := by
    intro k hk
    rw [Finset.sum_congr rfl (fun q hq => by
      rw [hloc q (by rw [Finset.mem_range] at hq; omega), if_neg (by rw [Finset.mem_range] at hq; omega)])]
    simp
  constructor
  · obtain ⟨Q, rfl⟩ : ∃ Q, P = Q + 1 := ⟨P - 1, by omega⟩
    rw [Finset.sum_range_succ, hpre Q (by omega), hloc Q (by omega), if_pos (by omega)]
    have := Nat.div_add_mod M (Q + 1)
    have e : (Q + 1) * (M / (Q + 1)) = Q * (M / (Q + 1)) + M / (Q + 1) := by ring
    omega
  · intro r hr
    rw [hpre r hr]
    unfold DistCsr.localRowStart DistCsr.rowBounds DistCsr.create
    simp only [defaultExtents_eq M P hP]
    rw [List.getD_eq_getElem _ _ (by simpa using hr)]
    simp only [List.getElem_map, List.getElem_range]

/-- C42: user supplied tiles are accepted exactly when they are a contiguous partition of the rows
in rank order, and are then used as given; otherwise the constructor throws. -/
theorem C42_custom_tiles (R : Type) (P rank M N : Nat) (hP : 0 < P) (tiles : List (Nat × Nat)) :
    ((DistCsr.createTiled (R := R) P rank M N tiles).isSome ↔ RowPartition M P tiles) ∧
    ∀ A, DistCsr.createTiled (R := R) P rank M N tiles = some A →
      A.extents = tiles ∧ A.m = M ∧ A.n = N ∧
      ∀ row < M, ∃ r, r < P ∧ Owns A.extents r row ∧ ∀ r', Owns A.extents r' row → r' = r := by
  unfold DistCsr.createTiled
  constructor
  · rw [Option.isSome_map, Option.isSome_iff_exists]
    constructor
    · rintro ⟨e, he⟩; exact ((customExtents_iff M P hP tiles e).1 he).2
    · intro h; exact ⟨tiles, (customExtents_iff M P hP tiles tiles).2 ⟨rfl, h⟩⟩
  · intro A hA
    rw [Option.map_eq_some_iff] at hA
    obtain ⟨e, he, rfl⟩ := hA
    obtain ⟨rfl, h⟩ := (customExtents_iff M P hP tiles e).1 he
    exact ⟨rfl, rfl, rfl, fun row hr => h.owner hP hr⟩

/-- non-trivial instances: 7 rows over 3 ranks, an accepted uneven tiling with an empty tile, and
rejected ones (gap, overlap, wrong end) -/
example : defaultExtents 7 3 = [(0, 2), (2, 4), (4, 7)] ∧ defaultExtents 2 3 = [(0, 0), (0, 0), (0, 2)] ∧
    customExtents 7 3 [(0, 5), (5, 5), (5, 7)] = some [(0, 5), (5, 5), (5, 7)] ∧
    customExtents 7 3 [(0, 2), (3, 5), (5, 7)] = none ∧
    customExtents 7 3 [(0, 2), (2, 5), (5, 6)] = none ∧
    customExtents 7 3 [(0, 4), (4, 3), (3, 7)] = none := by decide

/-! ### C52: copying -/

/-- C52, the part that holds: copying a matrix with the default distribution gives the same object. -/
theorem C52_copy_default_partial (R : Type) (P rank M N : Nat) (d o : Option (Csr R)) :
    let A : DistCsr R := { (DistCsr.create P rank M N : DistCsr R) with diag := d, offdiag := o }
    A.copy = A := rfl

/-- C52 refuted in general: copying a matrix with user supplied row tiles silently replaces the row
bounds by the default ones, so the copied local tile no longer matches the bounds reported. -/
theorem C52_copy_loses_tiles_refuted :
    ∃ A : DistCsr Nat, DistCsr.createTiled 2 0 10 10 [(0, 1), (1, 10)] = some A ∧
      A.rowBounds 0 = (0, 1) ∧ A.copy.rowBounds 0 = (0, 5) :=
  ⟨_, rfl, rfl, rfl⟩

/-! ### C18 -/

variable {R : Type} [Field R] [LinearOrder R] [IsOrderedAddMonoid R] {M : Nat}

/-- C18: on every rank of every communicator, the local rows of the distributed Hamiltonian are the
rows of the serial one: entry `(i,j)` of the local rows (diagonal tile, whose column 0 is global
column `st`, plus off-diagonal tile) is entry `(st+i, j)` of the serial matrix; a position is stored
in one of the tiles exactly when it is stored in the serial matrix; the tiles never overlap.
No hypothesis on the determinants. -/
theorem C18_distributed_hamiltonian (I : Integrals R) (thresh : R) (h0 : 0 ≤ thresh)
    (dets : List (BitVec (2 * M))) (P rank : Nat) (hr : rank < P) :
    ∃ st en D, st ≤ en ∧ en ≤ dets.length ∧
      (I.distHamiltonian dets thresh P rank).rowBounds rank = (st, en) ∧
      (I.distHamiltonian dets thresh P rank).diag = some D ∧
      CsrWF D ∧ CsrSorted D ∧ D.indexing = 0 ∧ D.m = en - st ∧ D.n = en - st ∧
      (∀ O, (I.distHamiltonian dets thresh P rank).offdiag = some O →
        CsrWF O ∧ CsrSorted O ∧ O.indexing = 0 ∧ O.m = en - st ∧ O.n = dets.length) ∧
      ∀ i < en - st, ∀ j < dets.length,
        csrEntry (I.csrHamiltonian dets thresh) (st + i) j
          = (if st ≤ j ∧ j < en then csrEntry D i (j - st) else 0)
            + ((I.distHamiltonian dets thresh P rank).offdiag.elim 0 fun O => csrEntry O i j) ∧
        (csrStored (I.csrHamiltonian dets thresh) (st + i) j ↔
          (st ≤ j ∧ j < en ∧ csrStored D i (j - st)) ∨
          ∃ O, (I.distHamiltonian dets thresh P rank).offdiag = some O ∧ csrStored O i j) ∧
        (∀ O, (I.distHamiltonian dets thresh P rank).offdiag = some O → csrStored O i j →
          ¬ (st ≤ j ∧ j < en)) := by
  have hP : 0 < P := by omega
  have part := defaultExtents_partition dets.length P hP
  have hlen : rank < (defaultExtents dets.length P).length := by rw [part.length_eq]; exact hr
  obtain ⟨st, en, hse⟩ : ∃ st en, (defaultExtents dets.length P)[rank] = (st, en) := ⟨_, _, rfl⟩
  have hbounds : (defaultExtents dets.length P).getD rank (0, 0) = (st, en) := by
    rw [List.getD_eq_getElem _ _ hlen, hse]
  have hse1 : st ≤ en := by
    have := part.ordered _ (List.getElem_mem hlen); rw [hse] at this; exact this
  have hen : en ≤ dets.length := by
    rcases Nat.lt_or_ge rank (P - 1) with h | h
    · have hl : P - 1 < (defaultExtents dets.length P).length := by rw [part.length_eq]; omega
      have e := List.getElem?_eq_getElem hl
      have := part.mono h (List.getElem?_eq_getElem hlen) e
      rw [hse] at this
      have h2 := part.ordered _ (List.getElem_mem hl)
      rw [part.ends _ e] at h2
      dsimp only at this; omega
    · have : rank = P - 1 := by omega
      subst this
      have := part.ends _ (List.getElem?_eq_getElem hlen)
      rw [hse] at this
      exact this.le
  have hall : P = 1 → st = 0 ∧ en = dets.length := by
    intro h
    subst h
    have hr0 : rank = 0 := by omega
    subst hr0
    have a := part.starts _ (List.getElem?_eq_getElem hlen)
    have b := part.ends _ (List.getElem?_eq_getElem hlen)
    rw [hse] at a b
    exact ⟨a, b⟩
  set mine := (dets.drop st).take (en - st) with hmine
  set off := (enumerate dets).map fun (i, d) => if st ≤ i ∧ i < en then 0#(2 * M) else d with hoff
  have hml : mine.length = en - st := by simp [hmine]; omega
  have hol : off.length = dets.length := by simp [hoff, enumerate]
  have hmi : ∀ k (hk : k < en - st), mine[k]'(by omega) = dets[st + k]'(by omega) := by
    intro k hk; simp [hmine]
  have hoi : ∀ k (hk : k < dets.length), off[k]'(by omega)
      = if st ≤ k ∧ k < en then 0#(2 * M) else dets[k] := by
    intro k hk; simp [hoff, enumerate]
  have hd : (I.distHamiltonian dets thresh P rank).diag = some (I.csrBlock mine mine thresh) := by
    unfold Integrals.distHamiltonian
    simp only [DistCsr.rowBounds, DistCsr.create, hbounds]
    rfl
  have ho : (I.distHamiltonian dets thresh P rank).offdiag
      = if P > 1 then some (I.csrBlock mine off thresh) else none := by
    unfold Integrals.distHamiltonian
    simp only [DistCsr.rowBounds, DistCsr.create, hbounds]
    rfl
  have hb : (I.distHamiltonian dets thresh P rank).rowBounds rank = (st, en) := by
    unfold Integrals.distHamiltonian
    simp only [DistCsr.rowBounds, DistCsr.create, hbounds]
  refine ⟨st, en, _, hse1, hen, hb, hd, csrBlock_wf I h0 _ _, csrBlock_sorted I h0 _ _,
    csrBlock_indexing I h0 _ _, by rw [csrBlock_m I h0, hml], by rw [csrBlock_n I h0, hml], ?_, ?_⟩
  · intro O hO
    rw [ho] at hO
    split at hO
    · simp only [Option.some.injEq] at hO
      subst hO
      exact ⟨csrBlock_wf I h0 _ _, csrBlock_sorted I h0 _ _,
        csrBlock_indexing I h0 _ _, by rw [csrBlock_m I h0, hml], by rw [csrBlock_n I h0, hol]⟩
    · simp at hO
  · intro i hi j hj
    unfold Integrals.csrHamiltonian
    have eH := csrBlock_entry I h0 dets dets (i := st + i) (j := j) (by omega) hj
    have sH := csrBlock_stored I h0 dets dets (i := st + i) (j := j) (by omega)
    have sD := csrBlock_stored I h0 mine mine (i := i) (j := j - st) (by omega)
    have eO := csrBlock_entry I h0 mine off (i := i) (j := j) (by omega) (by omega)
    have sO := csrBlock_stored I h0 mine off (i := i) (j := j) (by omega)
    rw [hmi i hi] at eO sO sD
    rw [hoi j hj] at eO
    have sO' : csrStored (I.csrBlock mine off thresh) i j ↔ ¬ (st ≤ j ∧ j < en) ∧
        (dets[st + i] ≠ 0#(2*M) ∧ dets[j] ≠ 0#(2*M) ∧
          |I.matrixElement dets[st + i] dets[j]| > thresh) := by
      rw [sO]
      constructor
      · rintro ⟨_, h⟩
        rw [hoi j hj] at h
        by_cases hc : st ≤ j ∧ j < en
        · rw [if_pos hc] at h; exact absurd rfl h.2.1
        · rw [if_neg hc] at h; exact ⟨hc, h⟩
      · rintro ⟨hc, h⟩
        refine ⟨by omega, ?_⟩
        rw [hoi j hj, if_neg hc]; exact h
    have sH' : csrStored (I.csrBlock dets dets thresh) (st + i) j ↔
        (dets[st + i] ≠ 0#(2*M) ∧ dets[j] ≠ 0#(2*M) ∧
          |I.matrixElement dets[st + i] dets[j]| > thresh) := by
      rw [sH]; exact ⟨fun ⟨_, h⟩ => h, fun h => ⟨hj, h⟩⟩
    by_cases hc : st ≤ j ∧ j < en
    · have eD := csrBlock_entry I h0 mine mine (i := i) (j := j - st) (by omega) (by omega)
      rw [hmi i hi, hmi (j - st) (by omega)] at eD
      simp only [show st + (j - st) = j by omega] at eD
      have sD' : csrStored (I.csrBlock mine mine thresh) i (j - st) ↔
          (dets[st + i] ≠ 0#(2*M) ∧ dets[j] ≠ 0#(2*M) ∧
            |I.matrixElement dets[st + i] dets[j]| > thresh) := by
        rw [sD]
        constructor
        · rintro ⟨_, h⟩
          rw [hmi (j - st) (by omega)] at h
          simpa only [show st + (j - st) = j by omega] using h
        · intro h
          refine ⟨by omega, ?_⟩
          rw [hmi (j - st) (by omega)]
          simpa only [show st + (j - st) = j by omega] using h
      rw [if_pos hc, eH, eD, ho, sH', sD']
      rw [if_pos hc] at eO
      refine ⟨?_, ?_, ?_⟩
      · by_cases hP1 : P > 1
        · simp only [if_pos hP1, Option.elim_some, eO]; simp
        · simp only [if_neg hP1, Option.elim_none, add_zero]
      · constructor
        · intro h; exact Or.inl ⟨hc.1, hc.2, h⟩
        · rintro (⟨-, -, h⟩ | ⟨O, hO, h⟩)
          · exact h
          · split at hO
            · simp only [Option.some.injEq] at hO
              subst hO
              exact absurd hc (sO'.1 h).1
            · simp at hO
      · intro O hO h
        split at hO
        · simp only [Option.some.injEq] at hO
          subst hO
          exact (sO'.1 h).1
        · simp at hO
    · have hP1 : P > 1 := by
        by_contra h
        have := hall (by omega)
        omega
      rw [if_neg hc] at eO
      rw [if_neg hc, eH, ho, sH', zero_add]
      simp only [if_pos hP1, Option.elim_some, eO, Option.some.injEq]
      refine ⟨trivial, ?_, ?_⟩
      · constructor
        · intro h; exact Or.inr ⟨_, rfl, sO'.2 ⟨hc, h⟩⟩
        · rintro (⟨h1, h2, -⟩ | ⟨O, hO, h⟩)
          · exact absurd ⟨h1, h2⟩ hc
          · subst hO; exact (sO'.1 h).2
      · intro O hO h; exact hc

/-- Two determinants per rank on two ranks: rank 1 holds a diagonal tile with all four entries and
the two entries of row 2 and the two of row 3 that couple to remote determinants. -/
example : let D : List (BitVec (2 * 2)) := [0b0101#4, 0b1001#4, 0b0110#4, 0b1010#4]
    (exInts.distHamiltonian D 2 2 1).rowBounds 1 = (2, 4) ∧
    (exInts.distHamiltonian D 2 2 1).diag.map Csr.colind = some [0, 1, 0, 1] ∧
    (exInts.distHamiltonian D 2 2 1).offdiag.map Csr.colind = some [0, 1] := by
  dsimp only
  decide +kernel

end Macis
