import Verif.Lemmas.PSpmv
import Verif.Props.Dist
/-
C45: the distributed sparse matrix - vector product.
-/
namespace Macis
open Spec

/-- C45: `A 0 .. A (P-1)` is any consistent distributed matrix over any number of ranks, rank `q`
holds its rows `V q` of a global vector `x`.  After `generate_spmv_comm_info` and `pgespmv`, every
rank holds its rows of `alpha * A * x + beta * y`, whatever was in the uninitialised receive
buffer. -/
theorem C45_distributed_spmv {R : Type} [Semiring R] {A : Nat → DistCsr R} {P N : Nat}
    {ext : List (Nat × Nat)} (h : DistributedMatrix A P N ext) (alpha beta : R)
    (V : Nat → Nat → R) (x AV garbage : Nat → R)
    (hV : ∀ r < P, ∀ st en, ext[r]? = some (st, en) → ∀ k < en - st, V r k = x (st + k)) :
    ∀ r < P, ∀ st en, ext[r]? = some (st, en) → ∀ i < en - st,
      pgespmv A (spmvInfo A) alpha V beta AV garbage r i
        = alpha * (∑ j ∈ Finset.range N, distEntry (A r) st en i j * x j) + beta * AV i :=
  fun _ hr _ _ hse => pgespmv_spec h alpha beta V x AV garbage hV hr hse

/-- every stored column index of a well-formed matrix belongs to some row -/
theorem colind_stored {R : Type} [Zero R] {A : Csr R} (h : CsrWF A) {c : Nat} (hc : c ∈ A.colind) :
    ∃ i < A.m, csrStored A i (c - A.indexing) := by
  have e := csr_eq_ofRows h
  have hc' : c ∈ (csrOfRows A.m A.n A.indexing ((List.range A.m).map A.row)).colind := e ▸ hc
  simp only [csrOfRows, List.mem_map, List.mem_flatten, List.mem_range] at hc'
  obtain ⟨p, ⟨l, ⟨i, hi, rfl⟩, hp⟩, rfl⟩ := hc'
  refine ⟨i, hi, (csrStored_iff h hi _).2 ?_⟩
  have := row_col_range h hi hp
  rw [Nat.sub_add_cancel this.1]
  exact List.mem_map_of_mem hp

variable {R : Type} [Field R] [LinearOrder R] [IsOrderedAddMonoid R] {M : Nat}

/-- the objects built by `make_dist_csr_hamiltonian` on the ranks form a distributed matrix -/
theorem distHamiltonian_distributed (I : Integrals R) (thresh : R) (h0 : 0 ≤ thresh)
    (dets : List (BitVec (2 * M))) (P : Nat) (hP : 0 < P) :
    DistributedMatrix (fun r => I.distHamiltonian dets thresh P r) P dets.length
      (defaultExtents dets.length P) := by
  have part := defaultExtents_partition dets.length P hP
  have hb : ∀ r < P, ∀ st en, (defaultExtents dets.length P)[r]? = some (st, en) →
      (I.distHamiltonian dets thresh P r).rowBounds r = (st, en) := by
    intro r hr st en hse
    show (defaultExtents dets.length P).getD r (0, 0) = (st, en)
    rw [List.getD_eq_getElem?_getD, hse]; rfl
  refine ⟨part, fun _ _ => rfl, fun _ _ => rfl, fun _ _ => rfl, fun _ _ => rfl, ?_, ?_⟩
  · intro r hr st en hse
    obtain ⟨st', en', D, _, _, e, hd, wf, -, hi, hm, hn, -, -⟩ :=
      C18_distributed_hamiltonian I thresh h0 dets P r hr
    rw [hb r hr st en hse, Prod.mk.injEq] at e
    obtain ⟨rfl, rfl⟩ := e
    exact ⟨D, hd, wf, hi, hm, hn⟩
  · intro r hr st en hse O hO
    obtain ⟨st', en', D, _, _, e, hd, _, -, _, _, _, ho, hall⟩ :=
      C18_distributed_hamiltonian I thresh h0 dets P r hr
    rw [hb r hr st en hse, Prod.mk.injEq] at e
    obtain ⟨rfl, rfl⟩ := e
    obtain ⟨wf, -, hi, hm, hn⟩ := ho O hO
    refine ⟨wf, hi, hm, hn, ?_⟩
    intro c hc
    obtain ⟨i, him, hst⟩ := colind_stored wf hc
    have hr' := wf.col_range c hc
    rw [hi] at hst hr'
    exact (hall i (by omega) c (by omega)).2.2 O hO hst

/-- C45 for the Hamiltonian: the distributed product with the distributed Hamiltonian gives every
rank its rows of the product with the *serial* Hamiltonian matrix. -/
theorem C45_distributed_hamiltonian_product (I : Integrals R) (thresh : R) (h0 : 0 ≤ thresh)
    (dets : List (BitVec (2 * M))) (P : Nat) (alpha beta : R)
    (V : Nat → Nat → R) (x AV garbage : Nat → R)
    (hV : ∀ r < P, ∀ st en, (defaultExtents dets.length P)[r]? = some (st, en) →
      ∀ k < en - st, V r k = x (st + k)) :
    ∀ r < P, ∀ st en, (defaultExtents dets.length P)[r]? = some (st, en) → ∀ i < en - st,
      pgespmv (fun r => I.distHamiltonian dets thresh P r)
          (spmvInfo fun r => I.distHamiltonian dets thresh P r) alpha V beta AV garbage r i
        = alpha * (∑ j ∈ Finset.range dets.length,
            csrEntry (I.csrHamiltonian dets thresh) (st + i) j * x j) + beta * AV i := by
  intro r hr st en hse i hi
  have hd := distHamiltonian_distributed I thresh h0 dets P (by omega)
  rw [C45_distributed_spmv hd alpha beta V x AV garbage hV r hr st en hse i hi]
  obtain ⟨st', en', D, _, _, e, hdd, _, -, _, _, _, _, hall⟩ :=
    C18_distributed_hamiltonian I thresh h0 dets P r hr
  have hb : (I.distHamiltonian dets thresh P r).rowBounds r = (st, en) := by
    show (defaultExtents dets.length P).getD r (0, 0) = (st, en)
    rw [List.getD_eq_getElem?_getD, hse]; rfl
  rw [hb, Prod.mk.injEq] at e
  obtain ⟨rfl, rfl⟩ := e
  congr 2
  apply Finset.sum_congr rfl
  intro j hj
  rw [Finset.mem_range] at hj
  rw [(hall i hi j hj).1]
  unfold distEntry
  rw [hdd]
  rfl

/-- a concrete three-rank matrix with an uneven distribution meets the hypotheses:
`[[1,2,0],[0,3,4],[5,0,6]]` with rows 0, 1-2 and none. -/
def exDist : Nat → DistCsr Int
  | 0 => { size := 3, rank := 0, m := 3, n := 3, extents := [(0, 1), (1, 3), (3, 3)],
           diag := some { m := 1, n := 1, indexing := 0, rowptr := [0, 1], colind := [0], nzval := [1] },
           offdiag := some { m := 1, n := 3, indexing := 0, rowptr := [0, 1], colind := [1], nzval := [2] } }
  | 1 => { size := 3, rank := 1, m := 3, n := 3, extents := [(0, 1), (1, 3), (3, 3)],
           diag := some { m := 2, n := 2, indexing := 0, rowptr := [0, 2, 3], colind := [0, 1, 1],
                          nzval := [3, 4, 6] },
           offdiag := some { m := 2, n := 3, indexing := 0, rowptr := [0, 0, 1], colind := [0], nzval := [5] } }
  | _ => { size := 3, rank := 2, m := 3, n := 3, extents := [(0, 1), (1, 3), (3, 3)],
           diag := some { m := 0, n := 0, indexing := 0, rowptr := [0], colind := [], nzval := [] },
           offdiag := none }

example : let V : Nat → Nat → Int := fun r k => if r = 0 then 10 else 20 + k
    ((List.range 1).map (pgespmv exDist (spmvInfo exDist) 1 V 0 (fun _ => 0) (fun _ => 777) 0),
     (List.range 2).map (pgespmv exDist (spmvInfo exDist) 1 V 0 (fun _ => 0) (fun _ => 777) 1))
      = ([10 + 40], [3 * 20 + 4 * 21, 50 + 6 * 21]) := by
  dsimp only
  decide +kernel

end Macis
