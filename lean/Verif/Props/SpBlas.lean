import Verif.Lemmas.SpBlas
import Mathlib.Data.Rat.Defs
import Mathlib.Algebra.Field.Rat
/-
C44: sparse matrix - block vector products.
-/
namespace Macis
open Spec

/-- C44 (CSR): for every well-formed CSR matrix over any semiring, any index base, any number of
vectors and leading dimension at least the row count, and whatever the order in which the iterations
of the parallel loop are executed, the product is `alpha*A*V + beta*AV`, and no other location of the
output buffer changes. -/
theorem C44_csr_spmv {R : Type} [Semiring R] (K : Nat) (alpha beta : R) (A : Csr R) (h : CsrWF A)
    (V AV : Nat → R) (LDV LDAV : Nat) (hLD : A.m ≤ LDAV) (sched : List (Nat × Nat))
    (hs : sched.Perm (iterSpace K A.m)) :
    (∀ k < K, ∀ i < A.m, gespmbvSched sched alpha A V LDV beta AV LDAV (i + k * LDAV)
      = alpha * (∑ j ∈ Finset.range A.n, csrEntry A i j * V (j + k * LDV))
        + beta * AV (i + k * LDAV)) ∧
    (∀ a, (∀ k < K, ∀ i < A.m, a ≠ i + k * LDAV) →
      gespmbvSched sched alpha A V LDV beta AV LDAV a = AV a) :=
  gespmbvSched_spec K alpha beta A h V AV LDV LDAV hLD sched hs

/-- C44 (CSR), program order. -/
theorem C44_csr_spmv_serial {R : Type} [Semiring R] (K : Nat) (alpha beta : R) (A : Csr R)
    (h : CsrWF A) (V AV : Nat → R) (LDV LDAV : Nat) (hLD : A.m ≤ LDAV) :
    ∀ k < K, ∀ i < A.m, gespmbv K alpha A V LDV beta AV LDAV (i + k * LDAV)
      = alpha * (∑ j ∈ Finset.range A.n, csrEntry A i j * V (j + k * LDV))
        + beta * AV (i + k * LDAV) :=
  (gespmbvSched_spec K alpha beta A h V AV LDV LDAV hLD _ (List.Perm.refl _)).1

/-- a one-based 2x3 matrix `[[0,5,7],[0,0,0]]` meets the hypotheses -/
def exCsr : Csr Int := { m := 2, n := 3, indexing := 1, rowptr := [1, 3, 3], colind := [2, 3], nzval := [5, 7] }

theorem exCsr_wf : CsrWF exCsr where
  rowptr_length := rfl
  rowptr_first := rfl
  rowptr_mono := by decide
  rowptr_last := rfl
  colind_length := rfl
  col_range := by decide

example : gespmbv 1 2 exCsr (fun i => if i = 0 then 1 else if i = 1 then 10 else 100) 3 3
    (fun _ => 1) 2 0 = 2 * (5 * 10 + 7 * 100) + 3 := by decide

/-- C55, the part that holds: zero-based matrices. -/
theorem C55_coo_spmv_partial {R : Type} [CommSemiring R] (K : Nat) (alpha beta : R) (A : Coo R)
    (h : CooWF A) (h0 : A.indexing = 0) (V AV : Nat → R) (LDV LDAV : Nat) (hLD : A.m ≤ LDAV) :
    ∀ k < K, ∀ i < A.m, gespmbvCoo K alpha A V LDV beta AV LDAV (i + k * LDAV)
      = alpha * (∑ j ∈ Finset.range A.n, cooEntry A i j * V (j + k * LDV))
        + beta * AV (i + k * LDAV) := by
  intro k hk i hi
  unfold gespmbvCoo
  have hscale := (foldl_store (fun p : Nat × Nat => p.2 + p.1 * LDAV) (fun _ old => old * beta)
    (iterSpace K A.m) (iterSpace_nodup _ _) (by
      intro x hx y hy e
      obtain ⟨h1, h2⟩ := addr_inj hLD (mem_iterSpace.1 hx).2 (mem_iterSpace.1 hy).2 e
      exact Prod.ext h1 h2) AV).1 (k, i) (mem_iterSpace.2 ⟨hk, hi⟩)
  have hacc := foldl_accum (fun p : Nat × Nat => A.rowind.getD p.2 0 + p.1 * LDAV)
    (fun p => alpha * A.nzval.getD p.2 0 * V (A.colind.getD p.2 0 + p.1 * LDV)) (iterSpace K A.nnz)
    ((iterSpace K A.m).foldl (fun m x => store m (x.2 + x.1 * LDAV) (m (x.2 + x.1 * LDAV) * beta)) AV)
    (i + k * LDAV)
  dsimp only at hscale hacc ⊢
  rw [hscale, sum_iterSpace] at hacc
  refine Eq.trans hacc ?_
  rw [add_comm, mul_comm (AV _)]
  congr 1
  rw [Finset.sum_eq_single k]
  · rw [Finset.mul_sum]
    simp only [cooEntry, Finset.sum_mul, h0, Nat.add_zero, Finset.mul_sum]
    rw [Finset.sum_comm, h.nnz_eq]
    apply Finset.sum_congr rfl
    intro z hz
    rw [Finset.mem_range] at hz
    have hc : A.colind.getD z 0 ∈ A.colind := by
      rw [List.getD_eq_getElem _ _ (by rw [h.colind_length]; exact hz)]; exact List.getElem_mem _
    have hcol := h.col_range _ hc
    rw [h0] at hcol
    by_cases hz' : A.rowind.getD z 0 = i
    · rw [if_pos (by rw [hz']), Finset.sum_eq_single (A.colind.getD z 0)]
      · rw [if_pos ⟨hz', rfl⟩, mul_assoc]
      · intro b _ hb; rw [if_neg (fun hh => hb hh.2.symm), zero_mul, mul_zero]
      · intro hh; simp at hh; simp at hcol; omega
    · rw [if_neg (by omega)]
      symm
      apply Finset.sum_eq_zero
      intro b _
      rw [if_neg (fun hh => hz' hh.1), zero_mul, mul_zero]
  · intro k' hk' hne
    apply Finset.sum_eq_zero
    intro z hz
    rw [Finset.mem_range, h.nnz_eq] at hz
    have hc : A.rowind.getD z 0 ∈ A.rowind := by
      rw [List.getD_eq_getElem _ _ (by rw [h.rowind_length]; exact hz)]; exact List.getElem_mem _
    have hrow := h.row_range _ hc
    rw [h0] at hrow
    rw [if_neg]
    intro e
    exact hne (addr_inj hLD (i := A.rowind.getD z 0) (by omega) hi e).1
  · intro hh; simp at hh; omega

/-- C44 refuted for one-based COO matrices: the index base is ignored.  The 1x1 matrix `(3)` with
one-based indices times `(2)` should be 6; the product is written to the next location instead. -/
theorem C55_coo_index_base_refuted :
    ∃ A : Coo Int, CooWF A ∧ A.indexing = 1 ∧ cooEntry A 0 0 = 3 ∧
      gespmbvCoo 1 1 A (fun _ => 2) 1 0 (fun _ => 0) 1 0 = 0 := by
  refine ⟨{ m := 1, n := 1, nnz := 1, indexing := 1, rowind := [1], colind := [1], nzval := [3] },
    ⟨rfl, rfl, rfl, by decide, by decide⟩, rfl, by decide, by decide⟩

end Macis
