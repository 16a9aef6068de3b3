import Verif.Model.RoundPSpmv
import Verif.Props.RoundSpmv
import Verif.Props.PSpmv
import Verif.Props.MpiDav
/-! Property C172: the distributed matrix-vector product in floating point. -/
namespace Macis

namespace Spec

/-- a distributed matrix with every stored value replaced by its absolute value -/
def absDist (A : DistCsr ℝ) : DistCsr ℝ := { A with diag := A.diag.map absCsr, offdiag := A.offdiag.map absCsr }

/-- number of elements stored in local row `i` -/
def rowStored (A : DistCsr ℝ) (i : Nat) : Nat :=
  (A.diag.elim 0 fun D => D.rowptr.getD (i + 1) 0 - D.rowptr.getD i 0)
    + A.offdiag.elim 0 fun O => O.rowptr.getD (i + 1) 0 - O.rowptr.getD i 0

end Spec

open Spec OmpCell Spec.OmpCell

variable {rnd : ℝ → ℝ} {u : ℝ}

theorem partialSum_range (J : Job ℝ) (q : Nat × Nat) (n : Nat) :
    (List.range n).foldl (fun av j => J.term q j av) J.zero = partialSum J q n := by
  induction n with
  | zero => rfl
  | succ n ih => rw [List.range_succ, List.foldl_append, ih]; rfl

theorem psp_row_length {A : Csr ℝ} (h : CsrWF A) {i : Nat} (hi : i < A.m) :
    (A.row i).length = A.rowptr.getD (i + 1) 0 - A.rowptr.getD i 0 := by
  have b0 := CsrWFL.ge_idx h (i := i) (by omega)
  have b1 := CsrWFL.ge_idx h (i := i + 1) (by omega)
  have b2 := CsrWFL.le_last h (i := i + 1) (by omega)
  have hc := h.colind_length
  simp only [Csr.row, Csr.rowCols, Csr.rowVals, Csr.rp, List.length_zip, List.length_take, List.length_drop, hc]
  omega

/-- one local product, one vector -/
theorem gespmbvR_near (hr : RoundsTo rnd u) (fuseTerm : Bool) (fuseFin : Fuse) (alpha beta : ℝ) (A : Csr ℝ) (h : CsrWF A)
    (V AV : Nat → ℝ) (N : Nat) (hN : A.m ≤ N) (i : Nat) (hi : i < A.m) :
    Near u (A.rowptr.getD (i + 1) 0 - A.rowptr.getD i 0 + 3)
      (|alpha| * (∑ j ∈ Finset.range A.n, csrEntry (absCsr A) i j * |V j|) + |beta * AV i|)
      (gespmbvR rnd fuseTerm fuseFin 1 alpha A V N beta AV N i)
      (alpha * (∑ j ∈ Finset.range A.n, csrEntry A i j * V j) + beta * AV i) := by
  set J := csrJobR rnd fuseTerm fuseFin alpha A V N beta N with hJ
  have hinj : ∀ a ∈ iterSpace 1 A.m, ∀ b ∈ iterSpace 1 A.m, J.cell a = J.cell b → a = b := iterSpace_inj hN
  obtain ⟨f1, -⟩ := foldl_store J.cell (fun q old => J.fin q (partialSum J q (J.len q)) old) (iterSpace 1 A.m)
    (iterSpace_nodup _ _) hinj AV
  have e := f1 (0, i) (mem_iterSpace.2 ⟨by omega, hi⟩)
  have n := csrR_near hr fuseTerm fuseFin alpha beta A h V N N 0 i hi (AV i)
  rw [psp_row_length h hi] at n
  simp only [Nat.zero_mul, Nat.add_zero] at n
  have hc : J.cell (0, i) = i := by simp [hJ, csrJobR]
  rw [hc] at e
  have hl : J.len (0, i) = A.rowptr.getD (i + 1) 0 - A.rowptr.getD i 0 := psp_row_length h hi
  have e' : gespmbvR rnd fuseTerm fuseFin 1 alpha A V N beta AV N i
      = J.fin (0, i) (partialSum J (0, i) (A.rowptr.getD (i + 1) 0 - A.rowptr.getD i 0)) (AV i) := by
    rw [← hl, ← e]
    unfold gespmbvR runInOrder
    simp only [partialSum_range]
    rfl
  rw [e']
  exact n

/-- C172: each of the two local products, executed by any number of threads under any schedule, ends with the array that
`gespmbvR` describes (bit for bit), without a race. -/
theorem C172_every_schedule (fuseTerm : Bool) (fuseFin : Fuse) (K : Nat) (alpha beta : ℝ) (A : Csr ℝ)
    (V AV : Nat → ℝ) (LDV LDAV : Nat) (hLD : A.m ≤ LDAV) (s : State ℝ) (hs : Starts (iterSpace K A.m) s) (hm : s.mem = AV) :
    AlwaysEnds (csrJobR rnd fuseTerm fuseFin alpha A V LDV beta LDAV) s fun AV' =>
      AV' = gespmbvR rnd fuseTerm fuseFin K alpha A V LDV beta AV LDAV := by
  subst hm
  set J := csrJobR rnd fuseTerm fuseFin alpha A V LDV beta LDAV with hJ
  have hinj : ∀ a ∈ iterSpace K A.m, ∀ b ∈ iterSpace K A.m, J.cell a = J.cell b → a = b := iterSpace_inj hLD
  refine AlwaysEnds.mono (loop_ends (J := J) hinj hs) ?_
  rintro mem ⟨h1, h2⟩
  have := ompcell_foldl (iterSpace_nodup _ _) hinj h1 h2
  rw [this]
  unfold gespmbvR runInOrder
  simp only [partialSum_range]
  rfl

/-- adding to an already rounded number -/
theorem Near.pchain (hu : 0 ≤ u) {k k' : Nat} {A a h H x X : ℝ} (n : Near u k A h H) (ha : |X| ≤ a)
    (m : Near u k' (a + |h|) x (X + h)) : Near u (k + k') (a + A) x (X + H) := by
  have h0 : 0 ≤ A := (abs_nonneg _).trans n.2
  have a0 : 0 ≤ a := (abs_nonneg _).trans ha
  have g1 := grow_nonneg hu k
  have g2 := grow_nonneg hu k'
  have hh : |h| ≤ (1 + u) ^ k * A := by
    have := abs_sub_abs_le_abs_sub h H
    linarith [n.1, n.2]
  refine ⟨?_, (abs_add_le _ _).trans (add_le_add ha n.2)⟩
  have e : |x - (X + H)| ≤ |x - (X + h)| + |h - H| := by
    rw [show x - (X + H) = (x - (X + h)) + (h - H) by ring]
    exact abs_add_le _ _
  have e1 : ((1 + u) ^ k' - 1) * (a + |h|) ≤ ((1 + u) ^ k' - 1) * (a + (1 + u) ^ k * A) :=
    mul_le_mul_of_nonneg_left (by linarith) g2
  have e2 : ((1 + u) ^ k' - 1) * a ≤ ((1 + u) ^ (k + k') - 1) * a := by
    apply mul_le_mul_of_nonneg_right _ a0
    have := pow_le_pow_right₀ (show (1 : ℝ) ≤ 1 + u by linarith) (show k' ≤ k + k' by omega)
    linarith
  have e3 : ((1 + u) ^ k' - 1) * ((1 + u) ^ k * A) + ((1 + u) ^ k - 1) * A = ((1 + u) ^ (k + k') - 1) * A := by
    rw [pow_add]; ring
  have := m.1
  have := n.1
  nlinarith

theorem diag_sum {D : Csr ℝ} {V x : Nat → ℝ} {st en N i : Nat} (hn : D.n = en - st) (hen : st ≤ en ∧ en ≤ N)
    (hV : ∀ k < en - st, V k = x (st + k)) :
    ∑ j ∈ Finset.range D.n, csrEntry D i j * V j
      = ∑ j ∈ Finset.range N, (if st ≤ j ∧ j < en then csrEntry D i (j - st) else 0) * x j := by
  have e1 : ∑ j ∈ Finset.range D.n, csrEntry D i j * V j
      = ∑ j ∈ Finset.range (en - st), csrEntry D i j * x (st + j) := by
    rw [hn]
    apply Finset.sum_congr rfl
    intro j hj
    rw [Finset.mem_range] at hj
    rw [hV j hj]
  have e2 : ∑ j ∈ Finset.range (en - st), csrEntry D i j * x (st + j)
      = ∑ j ∈ Finset.Ico st en, csrEntry D i (j - st) * x j := by
    rw [Finset.sum_Ico_eq_sum_range]
    apply Finset.sum_congr rfl
    intro j _
    rw [Nat.add_sub_cancel_left]
  rw [e1, e2]
  have hsub : Finset.Ico st en ⊆ Finset.range N := by
    intro a ha; simp at ha ⊢; omega
  rw [← Finset.sum_subset hsub]
  · apply Finset.sum_congr rfl
    intro j hj
    rw [Finset.mem_Ico] at hj
    rw [if_pos hj]
  · intro j _ hj
    rw [Finset.mem_Ico] at hj
    rw [if_neg hj, zero_mul]

theorem offdiag_sum {O : Csr ℝ} (wfO : CsrWF O) (hOi : O.indexing = 0) {V x : Nat → ℝ} {i : Nat} (hi : i < O.m)
    (hV : ∀ c ∈ O.colind, V c = x c) :
    ∑ j ∈ Finset.range O.n, csrEntry O i j * V j = ∑ j ∈ Finset.range O.n, csrEntry O i j * x j := by
  rw [← rowDot_eq wfO hi, ← rowDot_eq wfO hi]
  unfold Csr.rowDot
  apply List.foldl_ext
  intro a p hp
  have hmem : p.1 ∈ O.colind := by
    have : p.1 ∈ O.rowCols i := by
      rw [Csr.rowCols_eq wfO hi]; exact List.mem_map_of_mem hp
    exact List.mem_of_mem_drop (List.mem_of_mem_take this)
  rw [hOi, Nat.sub_zero, hV p.1 hmem]

/-- C172: the distributed product in floating point, any number of ranks and any consistent distribution of the matrix:
every element of every rank's piece of `alpha*A*x + beta*y` is within the rounding error, with one factor `1+u` for every
stored element of its row and six more - whatever the distribution, the compiler's use of fused operations and the
uninitialised receive buffer. -/
theorem C172_distributed_product (hr : RoundsTo rnd u) (fuseTerm : Bool) (fuseFin : Fuse) {A : Nat → DistCsr ℝ} {P N : Nat}
    {ext : List (Nat × Nat)} (h : DistributedMatrix A P N ext) (alpha beta : ℝ)
    (V : Nat → Nat → ℝ) (x AV garbage : Nat → ℝ)
    (hV : ∀ r < P, ∀ st en, ext[r]? = some (st, en) → ∀ k < en - st, V r k = x (st + k)) :
    ∀ r < P, ∀ st en, ext[r]? = some (st, en) → ∀ i < en - st,
      |pgespmvR rnd fuseTerm fuseFin A (spmvInfo A) alpha V beta AV garbage r i
        - (alpha * (∑ j ∈ Finset.range N, distEntry (A r) st en i j * x j) + beta * AV i)|
      ≤ ((1 + u) ^ (rowStored (A r) i + 6) - 1) *
        (|alpha| * (∑ j ∈ Finset.range N, distEntry (absDist (A r)) st en i j * |x j|) + |beta * AV i|) := by
  intro r hrP st en hse i hi
  obtain ⟨hpack, hidx⟩ := recvPack_eq h V x hV hrP
  obtain ⟨D, hD, wfD, hDi, hDm, hDn⟩ := h.diag_ok r hrP st en hse
  have hen : st ≤ en ∧ en ≤ N := by
    have hl := (List.getElem?_eq_some_iff.1 hse).1
    refine ⟨h.partition.ordered (st, en) (List.mem_of_getElem? hse), ?_⟩
    rcases Nat.lt_or_ge r (P - 1) with hlt | hge
    · have hl2 : P - 1 < ext.length := by rw [h.partition.length_eq]; omega
      have e := List.getElem?_eq_getElem hl2
      have h1 := h.partition.mono hlt hse e
      have h2 := h.partition.ordered _ (List.getElem_mem hl2)
      rw [h.partition.ends _ e] at h2
      dsimp only at h1; omega
    · have : r = P - 1 := by omega
      subst this
      exact (h.partition.ends _ hse).le
  have hVr := hV r hrP st en hse
  have n1 := gespmbvR_near hr fuseTerm fuseFin alpha beta D wfD (V r) AV N (by omega) i (by omega)
  have dn : (absCsr D).n = en - st := hDn
  have s1 : ∑ j ∈ Finset.range D.n, csrEntry (absCsr D) i j * |V r j|
      = ∑ j ∈ Finset.range N, (if st ≤ j ∧ j < en then csrEntry (absCsr D) i (j - st) else 0) * |x j| :=
    diag_sum (D := absCsr D) (V := fun j => |V r j|) (x := fun j => |x j|) dn hen (fun k hk => by rw [hVr k hk])
  rw [diag_sum hDn hen hVr, s1] at n1
  unfold pgespmvR
  rw [hD, h.n_eq r hrP, hpack]
  dsimp only
  unfold distEntry rowStored absDist
  rw [hD]
  cases hO : (A r).offdiag with
  | none =>
    simp only [Option.map_some, Option.map_none, Option.elim_some, Option.elim_none, add_zero]
    exact (n1.mono (k' := D.rowptr.getD (i + 1) 0 - D.rowptr.getD i 0 + 6) hr.nonneg (by omega) le_rfl).1
  | some O =>
    simp only [Option.map_some, Option.elim_some]
    obtain ⟨wfO, hOi, hOm, hOn, -⟩ := h.offdiag_ok r hrP st en hse O hO
    set Vr := (List.range (spmvInfo A r).recvIndices.length).foldl
      (fun mem k => store mem ((spmvInfo A r).recvIndices.getD k 0)
        (((A r).neededCols.map x).getD k 0)) garbage with hVrdef
    have hU : (A r).neededCols = stdSet O.colind := by unfold DistCsr.neededCols; rw [hO]
    have hVr' : ∀ c ∈ O.colind, Vr c = x c := by
      intro c hc
      rw [hVrdef, hidx]
      apply foldl_store_list _ _ _ _ _ rfl
      · rw [hU, mem_stdSet]; exact hc
      · rw [hU]; exact (stdSet_sorted _).imp (fun h => Nat.ne_of_lt h)
    have n2 := gespmbvR_near hr fuseTerm fuseFin alpha 1 O wfO Vr
      (gespmbvR rnd fuseTerm fuseFin 1 alpha D (V r) N beta AV N) N (by omega) i (by omega)
    have s2 : ∑ j ∈ Finset.range O.n, csrEntry (absCsr O) i j * |Vr j|
        = ∑ j ∈ Finset.range O.n, csrEntry (absCsr O) i j * |x j| :=
      offdiag_sum (absCsr_wf wfO) (V := fun j => |Vr j|) (x := fun j => |x j|) (i := i)
        hOi (by show i < O.m; omega) (fun c hc => by rw [hVr' c hc])
    rw [offdiag_sum wfO hOi (by omega) hVr', s2, one_mul] at n2
    have hb : |alpha * ∑ j ∈ Finset.range O.n, csrEntry O i j * x j|
        ≤ |alpha| * ∑ j ∈ Finset.range O.n, csrEntry (absCsr O) i j * |x j| := by
      have := (gespmbvR_near hr fuseTerm fuseFin alpha 0 O wfO x (fun _ => 0) N (by omega) i (by omega)).2
      simpa using this
    have n := (Near.pchain hr.nonneg n1 hb n2).1
    rw [hOn] at n
    refine le_trans (le_of_eq ?_) (n.trans (le_of_eq ?_))
    · congr 2
      simp only [add_mul, Finset.sum_add_distrib, mul_add]
      ring
    · have e1 : D.rowptr.getD (i + 1) 0 - D.rowptr.getD i 0 + 3 + (O.rowptr.getD (i + 1) 0 - O.rowptr.getD i 0 + 3)
          = D.rowptr.getD (i + 1) 0 - D.rowptr.getD i 0 + (O.rowptr.getD (i + 1) 0 - O.rowptr.getD i 0) + 6 := by omega
      have e2 : ∑ j ∈ Finset.range N, ((if st ≤ j ∧ j < en then csrEntry (absCsr D) i (j - st) else 0)
            + csrEntry (absCsr O) i j) * |x j|
          = ∑ j ∈ Finset.range N, (if st ≤ j ∧ j < en then csrEntry (absCsr D) i (j - st) else 0) * |x j|
            + ∑ j ∈ Finset.range N, csrEntry (absCsr O) i j * |x j| := by
        simp only [add_mul, Finset.sum_add_distrib]
      rw [e1, e2]
      ring

/-- two ranks with one row each of `[[1, 2], [2, 3]]`, `double` arithmetic rounded towards zero: the first element of the
product with `(1/3, 1/7)` on rank 0 has eight roundings -/
example (garbage : Nat → ℝ) :
    |pgespmvR (chop 52) false .none exPair (spmvInfo exPair) 1 (fun r _ => if r = 0 then 1 / 3 else 1 / 7) 0 (fun _ => 5)
        garbage 0 0 - (1 * (∑ j ∈ Finset.range 2, distEntry (exPair 0) 0 1 0 j * (if j = 0 then 1 / 3 else 1 / 7)) + 0 * 5)|
      ≤ ((1 + 2 ^ (-(52 : ℤ))) ^ 8 - 1) *
        (|1| * (∑ j ∈ Finset.range 2, distEntry (absDist (exPair 0)) 0 1 0 j * |if j = 0 then 1 / 3 else 1 / 7|) + |(0 : ℝ) * 5|) := by
  have := C172_distributed_product (chop_rounds 52) false .none exPair_distributed 1 0
    (fun r _ => if r = 0 then 1 / 3 else 1 / 7) (fun j => if j = 0 then 1 / 3 else 1 / 7) (fun _ => 5) garbage
    (by
      intro r hr st en hse k hk
      have : r = 0 ∨ r = 1 := by omega
      rcases this with rfl | rfl
      · have e : some (0, 1) = some (st, en) := hse
        simp only [Option.some.injEq, Prod.mk.injEq] at e
        obtain ⟨rfl, rfl⟩ := e
        have : k = 0 := by omega
        subst this; rfl
      · have e : some (1, 2) = some (st, en) := hse
        simp only [Option.some.injEq, Prod.mk.injEq] at e
        obtain ⟨rfl, rfl⟩ := e
        simp) 0 (by omega) 0 1 rfl 0 (by omega)
  exact this

end Macis
