import Verif.Model.RoundSpmv
import Verif.Spec.SparseAbs
import Verif.Props.OmpCell
import Verif.Lemmas.Rounding
import Verif.Lemmas.Chop
/-! Property C170: the sparse matrix-vector product in floating point, under every thread schedule. -/
namespace Macis
open Spec OmpCell Spec.OmpCell

variable {rnd : ℝ → ℝ} {u : ℝ}

theorem Near.mul_left {k : Nat} {A h H : ℝ} (n : Near u k A h H) (c : ℝ) : Near u k (|c| * A) (c * h) (c * H) := by
  refine ⟨?_, ?_⟩
  · rw [← mul_sub, abs_mul]
    calc |c| * |h - H| ≤ |c| * (((1 + u) ^ k - 1) * A) := mul_le_mul_of_nonneg_left n.1 (abs_nonneg _)
      _ = ((1 + u) ^ k - 1) * (|c| * A) := by ring
  · rw [abs_mul]
    exact mul_le_mul_of_nonneg_left n.2 (abs_nonneg _)

/-- a loop that adds up numbers of different sizes, each itself rounded at most once -/
theorem Near.fold_terms {α : Type} (hr : RoundsTo rnd u) (step : α → ℝ → ℝ) (F : α → ℝ)
    (hstep : ∀ x h, ∃ t, step x h = rnd (h + t) ∧ Near u 1 |F x| t (F x)) (l : List α) : ∀ {k : Nat} {A h H : ℝ}, 1 ≤ k →
    Near u k A h H →
    Near u (k + l.length) (A + (l.map fun x => |F x|).sum) (l.foldl (fun h x => step x h) h) (H + (l.map F).sum) := by
  induction l with
  | nil => intro k A h H hk n; simpa using n
  | cons x l ih =>
    intro k A h H hk n
    obtain ⟨t, e, ht⟩ := hstep x h
    have s := (n.add' hr.nonneg (ht.mono hr.nonneg hk le_rfl)).round hr
    rw [← e] at s
    have := ih (by omega) s
    rw [List.foldl_cons, List.map_cons, List.sum_cons, List.map_cons, List.sum_cons, List.length_cons,
      show k + (l.length + 1) = k + 1 + l.length by ring, ← add_assoc, ← add_assoc]
    exact this

theorem partialSum_foldl (J : Job ℝ) (q : Nat × Nat) (l : List (Nat × ℝ)) (g : Nat × ℝ → ℝ → ℝ)
    (hg : ∀ j (h : j < l.length) av, J.term q j av = g l[j] av) :
    partialSum J q l.length = l.foldl (fun av p => g p av) J.zero := by
  have key : ∀ j ≤ l.length, partialSum J q j = (l.take j).foldl (fun av p => g p av) J.zero := by
    intro j
    induction j with
    | zero => intro _; rfl
    | succ j ih =>
      intro hj
      rw [List.take_add_one, List.getElem?_eq_getElem hj]
      simp only [Option.toList_some, List.foldl_append, List.foldl_cons, List.foldl_nil]
      rw [← ih (by omega), partialSum, hg j hj]
  rw [key _ le_rfl, List.take_length]

theorem absCsr_wf {A : Csr ℝ} (h : CsrWF A) : CsrWF (absCsr A) where
  rowptr_length := h.rowptr_length
  rowptr_first := h.rowptr_first
  rowptr_mono := h.rowptr_mono
  rowptr_last := by
    have := h.rowptr_last
    simpa [absCsr] using this
  colind_length := by
    have := h.colind_length
    simpa [absCsr] using this
  col_range := h.col_range

theorem absCsr_row (A : Csr ℝ) (i : Nat) : (absCsr A).row i = (A.row i).map fun p => (p.1, |p.2|) := by
  have h1 : (absCsr A).rowCols i = A.rowCols i := rfl
  have h2 : (absCsr A).rowVals i = (A.rowVals i).map (|·|) := by
    simp only [Csr.rowVals, absCsr, Csr.rp, List.map_drop, List.map_take]
  rw [Csr.row, h1, h2, List.zip_map_right]
  rfl

/-- what iteration `(k, i)` of the loop computes -/
theorem csrR_near (hr : RoundsTo rnd u) (fuseTerm : Bool) (fuseFin : Fuse) (alpha beta : ℝ) (A : Csr ℝ) (h : CsrWF A)
    (V : Nat → ℝ) (LDV LDAV : Nat) (k i : Nat) (hi : i < A.m) (old : ℝ) :
    Near u ((A.row i).length + 3)
      (|alpha| * (∑ j ∈ Finset.range A.n, csrEntry (absCsr A) i j * |V (j + k * LDV)|) + |beta * old|)
      ((csrJobR rnd fuseTerm fuseFin alpha A V LDV beta LDAV).fin (k, i)
        (partialSum (csrJobR rnd fuseTerm fuseFin alpha A V LDV beta LDAV) (k, i) (A.row i).length) old)
      (alpha * (∑ j ∈ Finset.range A.n, csrEntry A i j * V (j + k * LDV)) + beta * old) := by
  set J := csrJobR rnd fuseTerm fuseFin alpha A V LDV beta LDAV with hJ
  let F : Nat × ℝ → ℝ := fun p => p.2 * V (k * LDV + (p.1 - A.indexing))
  let g : Nat × ℝ → ℝ → ℝ := fun p av => if fuseTerm then rnd (av + F p) else rnd (av + rnd (F p))
  have e := partialSum_foldl J (k, i) (A.row i) g (by
    intro j hj av
    simp only [hJ, csrJobR, List.getD_eq_getElem _ _ hj]
    rfl)
  have hstep : ∀ x h, ∃ t, g x h = rnd (h + t) ∧ Near u 1 |F x| t (F x) := by
    intro x h
    have n0 : Near u 0 |F x| (F x) (F x) := Near.exact le_rfl
    cases fuseTerm
    · exact ⟨rnd (F x), rfl, n0.round hr⟩
    · exact ⟨F x, rfl, n0.mono hr.nonneg (Nat.zero_le 1) le_rfl⟩
  have z : Near u 1 0 (0 : ℝ) 0 := ⟨by simp, by simp⟩
  have n1 := Near.fold_terms hr g F hstep (A.row i) le_rfl z
  have s1 : 0 + ((A.row i).map F).sum = ∑ j ∈ Finset.range A.n, csrEntry A i j * V (j + k * LDV) := by
    have := rowDot_eq h hi (fun c => V (k * LDV + c))
    rw [Csr.rowDot, foldl_add_sum] at this
    rw [this]
    exact Finset.sum_congr rfl fun j _ => by rw [Nat.add_comm]
  have s2 : 0 + ((A.row i).map fun x => |F x|).sum
      = ∑ j ∈ Finset.range A.n, csrEntry (absCsr A) i j * |V (j + k * LDV)| := by
    have := rowDot_eq (absCsr_wf h) (i := i) hi (fun c => |V (k * LDV + c)|)
    rw [Csr.rowDot, foldl_add_sum, absCsr_row, List.map_map] at this
    have e2 : (A.row i).map (fun x => |F x|) = (A.row i).map ((fun p : Nat × ℝ =>
        p.2 * |V (k * LDV + (p.1 - (absCsr A).indexing))|) ∘ fun p => (p.1, |p.2|)) :=
      List.map_congr_left fun p _ => abs_mul _ _
    rw [e2, this]
    exact Finset.sum_congr rfl fun j _ => by rw [Nat.add_comm]
  rw [s1, s2] at n1
  have e' : partialSum J (k, i) (A.row i).length = (A.row i).foldl (fun h x => g x h) 0 := e
  rw [e']
  generalize (A.row i).foldl (fun h x => g x h) 0 = av at n1 ⊢
  have a1 := n1.mul_left alpha
  have b1 : Near u 0 |beta * old| (beta * old) (beta * old) := Near.exact le_rfl
  have a2 := a1.round hr
  have b2 := b1.round hr
  generalize (A.row i).length = n at *
  cases hf : fuseFin
  · have := ((a2.mono (k' := n + 2) hr.nonneg (by omega) le_rfl).add' hr.nonneg
      (b2.mono (k' := n + 2) hr.nonneg (by omega) le_rfl)).round hr
    simpa [hJ, csrJobR, hf] using this
  · have := ((a1.mono (k' := n + 2) hr.nonneg (by omega) le_rfl).add' hr.nonneg
      (b2.mono (k' := n + 2) hr.nonneg (by omega) le_rfl)).round hr
    simpa [hJ, csrJobR, hf] using this
  · have := ((a2.mono (k' := n + 2) hr.nonneg (by omega) le_rfl).add' hr.nonneg
      (b1.mono (k' := n + 2) hr.nonneg (by omega) le_rfl)).round hr
    simpa [hJ, csrJobR, hf] using this

/-- C170: the CSR product in floating point.  For given inputs there is one output array that the loop leaves however
OpenMP distributes the iterations over any number of threads and interleaves them - the result is reproducible to the last
bit - without a race; each element is within the rounding error of `alpha*A*V + beta*AV`, with one factor `1+u` for every
stored element of the row and three more; the rest of the buffer is left alone.  Whether the compiler fuses
multiplications with additions changes nothing in this. -/
theorem C170_csr_product (hr : RoundsTo rnd u) (fuseTerm : Bool) (fuseFin : Fuse) (K : Nat) (alpha beta : ℝ) (A : Csr ℝ)
    (h : CsrWF A) (V AV : Nat → ℝ) (LDV LDAV : Nat) (hLD : A.m ≤ LDAV) :
    ∃ out : Nat → ℝ,
      (∀ s : State ℝ, Starts (iterSpace K A.m) s → s.mem = AV →
        AlwaysEnds (csrJobR rnd fuseTerm fuseFin alpha A V LDV beta LDAV) s fun AV' => AV' = out) ∧
      (∀ k < K, ∀ i < A.m,
        |out (i + k * LDAV)
          - (alpha * (∑ j ∈ Finset.range A.n, csrEntry A i j * V (j + k * LDV)) + beta * AV (i + k * LDAV))|
        ≤ ((1 + u) ^ (A.rowptr.getD (i + 1) 0 - A.rowptr.getD i 0 + 3) - 1) *
          (|alpha| * (∑ j ∈ Finset.range A.n, csrEntry (absCsr A) i j * |V (j + k * LDV)|)
            + |beta * AV (i + k * LDAV)|)) ∧
      ∀ a, (∀ k < K, ∀ i < A.m, a ≠ i + k * LDAV) → out a = AV a := by
  set J := csrJobR rnd fuseTerm fuseFin alpha A V LDV beta LDAV with hJ
  have hinj : ∀ a ∈ iterSpace K A.m, ∀ b ∈ iterSpace K A.m, J.cell a = J.cell b → a = b := iterSpace_inj hLD
  refine ⟨(iterSpace K A.m).foldl (fun m q => store m (J.cell q) (J.fin q (partialSum J q (J.len q)) (m (J.cell q)))) AV,
    ?_, ?_, ?_⟩
  · rintro s hs rfl
    refine AlwaysEnds.mono (loop_ends (J := J) hinj hs) ?_
    rintro mem ⟨h1, h2⟩
    exact ompcell_foldl (iterSpace_nodup _ _) hinj h1 h2
  · intro k hk i hi
    obtain ⟨f1, -⟩ := foldl_store J.cell (fun q old => J.fin q (partialSum J q (J.len q)) old) (iterSpace K A.m)
      (iterSpace_nodup _ _) hinj AV
    have := f1 (k, i) (mem_iterSpace.2 ⟨hk, hi⟩)
    have hl : (A.row i).length = A.rowptr.getD (i + 1) 0 - A.rowptr.getD i 0 := by
      have b0 := CsrWFL.ge_idx h (i := i) (by omega)
      have b1 := CsrWFL.ge_idx h (i := i + 1) (by omega)
      have b2 := CsrWFL.le_last h (i := i + 1) (by omega)
      have hc := h.colind_length
      simp only [Csr.row, Csr.rowCols, Csr.rowVals, Csr.rp, List.length_zip, List.length_take, List.length_drop, hc]
      omega
    have n := (csrR_near hr fuseTerm fuseFin alpha beta A h V LDV LDAV k i hi (AV (i + k * LDAV))).1
    rw [hl] at n
    refine le_trans (le_of_eq ?_) n
    rw [show i + k * LDAV = J.cell (k, i) from rfl, this, ← hl]
    rfl
  · intro a ha
    obtain ⟨-, f2⟩ := foldl_store J.cell (fun q old => J.fin q (partialSum J q (J.len q)) old) (iterSpace K A.m)
      (iterSpace_nodup _ _) hinj AV
    refine f2 a fun q hq e => ?_
    obtain ⟨h1, h2⟩ := mem_iterSpace.1 hq
    exact ha q.1 h1 q.2 h2 e.symm

/-- example: a matrix with thirds in it -/
noncomputable def exThirds : Csr ℝ :=
  { m := 2, n := 2, indexing := 0, rowptr := [0, 2, 3], colind := [0, 1, 1], nzval := [1 / 3, 2 / 3, -1 / 3] }

theorem exThirds_wf : CsrWF exThirds :=
  { rowptr_length := rfl, rowptr_first := rfl, rowptr_mono := by change ∀ i < 2, _; decide, rowptr_last := rfl,
    colind_length := rfl, col_range := by change ∀ c ∈ [0, 1, 1], 0 ≤ c ∧ c < 0 + 2; decide }

/-- two threads, two vectors, `double` arithmetic rounded towards zero: the two ways to share out the iterations give the
same bits -/
example : ∃ out : Nat → ℝ,
    AlwaysEnds (csrJobR (chop 52) false .none 1 exThirds (fun i => i) 2 (1 / 2) 2)
      (twoThreads [(1, 1), (0, 0)] [(0, 1), (1, 0)] fun _ => 1) (fun AV' => AV' = out) ∧
    AlwaysEnds (csrJobR (chop 52) false .none 1 exThirds (fun i => i) 2 (1 / 2) 2)
      (twoThreads [(0, 0), (0, 1), (1, 0)] [(1, 1)] fun _ => 1) (fun AV' => AV' = out) := by
  obtain ⟨out, h, -, -⟩ := C170_csr_product (chop_rounds 52) false .none 2 1 (1 / 2) exThirds exThirds_wf (fun i => i)
    (fun _ => 1) 2 2 le_rfl
  exact ⟨out, h _ (twoThreads_starts _ (by decide) (iterSpace_nodup _ _)) rfl,
    h _ (twoThreads_starts _ (by decide) (iterSpace_nodup _ _)) rfl⟩

end Macis
