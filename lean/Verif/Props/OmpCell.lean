import Verif.Lemmas.OmpCell
import Verif.Props.SpBlas
import Verif.Props.SpConv
/-
C159: the OpenMP loops of the sparse products and of the conversion to dense storage under every distribution of
the iterations over threads and every interleaving of their steps.
-/
namespace Macis
open Spec OmpCell Spec.OmpCell
variable {R : Type}

/-- what the loop leaves behind is what it leaves in program order -/
theorem ompcell_foldl {J : Job R} {its : List (Nat × Nat)} (hn : its.Nodup)
    (hinj : ∀ a ∈ its, ∀ b ∈ its, J.cell a = J.cell b → a = b) {mem0 mem : Nat → R}
    (h1 : ∀ q ∈ its, mem (J.cell q) = J.fin q (partialSum J q (J.len q)) (mem0 (J.cell q)))
    (h2 : ∀ x, (∀ q ∈ its, J.cell q ≠ x) → mem x = mem0 x) :
    mem = its.foldl (fun m q => store m (J.cell q) (J.fin q (partialSum J q (J.len q)) (m (J.cell q)))) mem0 := by
  obtain ⟨f1, f2⟩ := foldl_store J.cell (fun q old => J.fin q (partialSum J q (J.len q)) old) its hn hinj mem0
  funext x
  by_cases hx : ∃ q ∈ its, J.cell q = x
  · obtain ⟨q, hq, rfl⟩ := hx
    rw [h1 q hq, f1 q hq]
  · have hx' : ∀ q ∈ its, J.cell q ≠ x := fun q hq e => hx ⟨q, hq, e⟩
    rw [h2 x hx', f2 x hx']

theorem csr_partialSum [Semiring R] (alpha : R) (A : Csr R) (V : Nat → R) (LDV : Nat) (beta : R) (LDAV : Nat)
    (q : Nat × Nat) :
    partialSum (csrJob alpha A V LDV beta LDAV) q (A.row q.2).length = A.rowDot (fun c => V (q.1 * LDV + c)) q.2 := by
  have key : ∀ j ≤ (A.row q.2).length, partialSum (csrJob alpha A V LDV beta LDAV) q j =
      ((A.row q.2).take j).foldl (fun av p => av + p.2 * V (q.1 * LDV + (p.1 - A.indexing))) 0 := by
    intro j
    induction j with
    | zero => intro _; rfl
    | succ j ih =>
      intro hj
      rw [List.take_add_one, List.getElem?_eq_getElem hj]
      simp only [Option.toList_some, List.foldl_append, List.foldl_cons, List.foldl_nil]
      rw [← ih (by omega), partialSum]
      simp only [csrJob, List.getD_eq_getElem _ _ hj]
  rw [key _ le_rfl, List.take_length]
  rfl

theorem iterSpace_inj {K M LD : Nat} (hLD : M ≤ LD) : ∀ a ∈ iterSpace K M, ∀ b ∈ iterSpace K M,
    a.2 + a.1 * LD = b.2 + b.1 * LD → a = b := by
  intro x hx y hy e
  obtain ⟨h1, h2⟩ := addr_inj hLD (mem_iterSpace.1 hx).2 (mem_iterSpace.1 hy).2 e
  exact Prod.ext h1 h2

/-- C159 (what an access is): `touching` names every element that a step reads or writes.  A step of thread `t` changes
no other element, and does the same whatever other elements hold. -/
theorem C159_accesses {J : Job R} {s : State R} {t x : Nat} (h : touching J s t ≠ some x) (v : R) :
    (∀ s', step J s t = some s' → s'.mem x = s.mem x) ∧
    step J { s with mem := Function.update s.mem x v } t =
      (step J s t).map fun s' => { s' with mem := Function.update s'.mem x v } := by
  unfold touching at h
  unfold step
  dsimp only
  cases hc : (s.thr t).cur with
  | none =>
    dsimp only
    cases hl : (s.thr t).todo with
    | nil => exact ⟨fun s' h => (by cases h), rfl⟩
    | cons q rest => exact ⟨fun s' h => by cases h; rfl, rfl⟩
  | some a =>
    obtain ⟨q, p⟩ := a
    rw [hc] at h
    cases p with
    | adding j av =>
      dsimp only at h ⊢
      split
      · exact ⟨fun s' h => by cases h; rfl, rfl⟩
      · rename_i hj
        rw [if_neg hj] at h
        have hx : J.cell q ≠ x := fun e => h (by rw [e])
        refine ⟨fun s' h => by cases h; rfl, ?_⟩
        rw [Function.update_of_ne hx]
        rfl
    | loaded av old =>
      dsimp only at h ⊢
      have hx : J.cell q ≠ x := fun e => h (by rw [e])
      refine ⟨fun s' h => ?_, ?_⟩
      · cases h
        simp [store, hx.symm]
      · simp only [Option.map_some, Option.some.injEq, State.mk.injEq, true_and]
        funext y
        by_cases hy : y = x
        · subst hy; simp [store, hx.symm]
        · by_cases hz : y = J.cell q
          · subst hz; simp [store, hy]
          · simp [store, hy, hz, Function.update_of_ne hy]

/-- C159 (CSR product): for every well-formed CSR matrix, any number of vectors and a leading dimension of at
least the row count, however OpenMP distributes the iterations over threads and interleaves their reads and writes, the
product ends without two threads ever being about to access the same element of the output, and leaves
`alpha*A*V + beta*AV`; nothing else in the output buffer changes. -/
theorem C159_csr_product [Semiring R] (K : Nat) (alpha beta : R) (A : Csr R) (h : CsrWF A) (V : Nat → R)
    (LDV LDAV : Nat) (hLD : A.m ≤ LDAV) (s : State R) (hs : Starts (iterSpace K A.m) s) :
    AlwaysEnds (csrJob alpha A V LDV beta LDAV) s fun AV' =>
      (∀ k < K, ∀ i < A.m, AV' (i + k * LDAV) =
        alpha * (∑ j ∈ Finset.range A.n, csrEntry A i j * V (j + k * LDV)) + beta * s.mem (i + k * LDAV)) ∧
      ∀ a, (∀ k < K, ∀ i < A.m, a ≠ i + k * LDAV) → AV' a = s.mem a := by
  have hinj := iterSpace_inj (K := K) hLD
  refine AlwaysEnds.mono (loop_ends (J := csrJob alpha A V LDV beta LDAV) hinj hs) ?_
  rintro mem ⟨h1, h2⟩
  have e : mem = gespmbvSched (iterSpace K A.m) alpha A V LDV beta s.mem LDAV := by
    rw [ompcell_foldl (iterSpace_nodup _ _) hinj h1 h2]
    unfold gespmbvSched
    congr 1
    funext m q
    show store m _ (alpha * partialSum (csrJob alpha A V LDV beta LDAV) q (A.row q.2).length + _) = _
    rw [csr_partialSum]
    rfl
  rw [e]
  exact C44_csr_spmv K alpha beta A h V s.mem LDV LDAV hLD _ (List.Perm.refl _)

/-- C159 (COO product): the same for the COO product with zero-based indices: once the parallel scaling loop has
ended, in whatever interleaving, the sequential loop that follows leaves `alpha*A*V + beta*AV`. -/
theorem C159_coo_product [CommSemiring R] (K : Nat) (alpha beta : R) (A : Coo R) (h : CooWF A) (h0 : A.indexing = 0)
    (V : Nat → R) (LDV LDAV : Nat) (hLD : A.m ≤ LDAV) (s : State R) (hs : Starts (iterSpace K A.m) s) :
    AlwaysEnds (scaleJob beta LDAV) s fun AV' =>
      ∀ k < K, ∀ i < A.m, cooAccumulate K alpha A V LDV LDAV AV' (i + k * LDAV) =
        alpha * (∑ j ∈ Finset.range A.n, cooEntry A i j * V (j + k * LDV)) + beta * s.mem (i + k * LDAV) := by
  have hinj := iterSpace_inj (K := K) hLD
  refine AlwaysEnds.mono (loop_ends (J := scaleJob beta LDAV) hinj hs) ?_
  rintro mem ⟨h1, h2⟩
  have e : cooAccumulate K alpha A V LDV LDAV mem = gespmbvCoo K alpha A V LDV beta s.mem LDAV := by
    rw [ompcell_foldl (iterSpace_nodup _ _) hinj h1 h2]
    rfl
  rw [e]
  exact C55_coo_spmv_partial K alpha beta A h h0 V s.mem LDV LDAV hLD

/-- C159 (conversion to dense storage): for every well-formed zero-based COO matrix that stores no position twice,
the parallel conversion into a zeroed buffer ends without a race, in whatever interleaving, and leaves the matrix. -/
theorem C159_coo_to_dense [AddCommMonoid R] (A : Coo R) (h : CooWF A) (h0 : A.indexing = 0) (hd : CooNodup A)
    (LD : Nat) (hLD : A.m ≤ LD) (s : State R) (hz : ∀ x, s.mem x = 0) (hs : Starts (iterSpace 1 A.nnz) s) :
    AlwaysEnds (denseJob A LD) s fun D => ∀ i < A.m, ∀ j < A.n, D (i + j * LD) = cooEntry A i j := by
  have hl1 := h.rowind_length
  have hl2 := h.colind_length
  have hrow : ∀ k, k < A.nzval.length → A.rowind.getD k 0 < A.m := by
    intro k hk
    rw [List.getD_eq_getElem _ _ (by omega)]
    have := h.row_range _ (List.getElem_mem (by omega : k < A.rowind.length))
    omega
  have hinj : ∀ a ∈ iterSpace 1 A.nnz, ∀ b ∈ iterSpace 1 A.nnz,
      (denseJob A LD).cell a = (denseJob A LD).cell b → a = b := by
    intro a ha b hb e
    obtain ⟨a1, a2⟩ := mem_iterSpace.1 ha
    obtain ⟨b1, b2⟩ := mem_iterSpace.1 hb
    rw [h.nnz_eq] at a2 b2
    obtain ⟨e1, e2⟩ := addr_inj hLD (hrow _ a2) (hrow _ b2) e
    rw [List.getD_eq_getElem _ _ (by omega), List.getD_eq_getElem _ _ (by omega)] at e1 e2
    have hk' : a.2 < (A.rowind.zip A.colind).length := by simp; omega
    have hl' : b.2 < (A.rowind.zip A.colind).length := by simp; omega
    have : a.2 = b.2 := by
      apply (List.Nodup.getElem_inj_iff hd (hi := hk') (hj := hl')).1
      simp [e1, e2]
    exact Prod.ext (by omega) this
  refine AlwaysEnds.mono (loop_ends (J := denseJob A LD) hinj hs) ?_
  rintro mem ⟨h1, h2⟩
  obtain ⟨D', hD, hval⟩ := C59_coo_to_dense_partial A h h0 hd LD hLD (List.range A.nnz) (List.Perm.refl _)
  have e : mem = D' := by
    rw [denseOfCoo, if_neg (by omega), Option.some.injEq] at hD
    rw [ompcell_foldl (iterSpace_nodup _ _) hinj h1 h2, ← hD]
    have hm : s.mem = fun _ => 0 := funext hz
    rw [hm, iterSpace]
    simp only [List.range_one, List.flatMap_cons, List.flatMap_nil, List.append_nil, List.foldl_map]
    rfl
  rw [e]
  exact hval

/-! ### Where threads do get in each other's way -/

/-- run the threads in the order `l` -/
def runSched (J : Job R) : List Nat → State R → Option (State R)
  | [], s => some s
  | t :: l, s => (step J s t).bind (runSched J l)

theorem runSched_run {J : Job R} : ∀ {l : List Nat} {s s' : State R}, runSched J l s = some s' → Run J l.length s s'
  | [], s, s', h => by cases h; exact .nil s
  | t :: l, s, s', h => by
    rw [runSched, Option.bind_eq_some_iff] at h
    obtain ⟨s1, h1, h2⟩ := h
    exact .cons t h1 (runSched_run h2)

theorem step_other {J : Job R} {s s' : State R} {t t' : Nat} (h : step J s t = some s') (ht : t' ≠ t) :
    s'.thr t' = s.thr t' := by
  unfold step at h
  split at h
  · split at h
    · exact absurd h (by simp)
    · cases h; simp [Function.update_of_ne ht]
  · split at h <;> · cases h; simp [Function.update_of_ne ht]
  · cases h; simp [Function.update_of_ne ht]

theorem runSched_other {J : Job R} {t' : Nat} : ∀ {l : List Nat} {s s' : State R}, runSched J l s = some s' → t' ∉ l →
    s'.thr t' = s.thr t'
  | [], s, s', h, _ => by cases h; rfl
  | t :: l, s, s', h, hn => by
    rw [runSched, Option.bind_eq_some_iff] at h
    obtain ⟨s1, h1, h2⟩ := h
    rw [runSched_other h2 (fun hc => hn (List.mem_cons_of_mem _ hc)),
      step_other h1 (fun hc => hn (hc ▸ List.mem_cons_self ..))]

/-- thread 0 gets `a`, thread 1 gets `b` -/
def twoThreads (a b : List (Nat × Nat)) (mem : Nat → R) : State R :=
  ⟨fun t => if t = 0 then ⟨a, none⟩ else if t = 1 then ⟨b, none⟩ else ⟨[], none⟩, mem⟩

theorem twoThreads_starts {a b its : List (Nat × Nat)} (mem : Nat → R) (h : (a ++ b).Perm its) (hn : its.Nodup) :
    Starts its (twoThreads a b mem) := by
  have hn' : (a ++ b).Nodup := h.nodup_iff.2 hn
  rw [List.nodup_append] at hn'
  obtain ⟨na, nb, nab⟩ := hn'
  have key : ∀ t q, q ∈ ((twoThreads a b mem).thr t).todo → (t = 0 ∧ q ∈ a) ∨ (t = 1 ∧ q ∈ b) := by
    intro t q hq
    unfold twoThreads at hq
    dsimp only at hq
    split at hq
    · exact .inl ⟨by assumption, hq⟩
    · split at hq
      · exact .inr ⟨by assumption, hq⟩
      · simp at hq
  refine ⟨?_, ?_, ?_, ?_, ?_⟩
  · intro t; unfold twoThreads; dsimp only; split; · rfl
    split <;> rfl
  · intro t; unfold twoThreads; dsimp only; split; · exact na
    split; · exact nb
    simp
  · intro t q hq
    rcases key t q hq with ⟨-, hq⟩ | ⟨-, hq⟩
    · exact h.mem_iff.1 (List.mem_append_left _ hq)
    · exact h.mem_iff.1 (List.mem_append_right _ hq)
  · intro q hq
    rcases List.mem_append.1 (h.mem_iff.2 hq) with hq | hq
    · exact ⟨0, hq⟩
    · exact ⟨1, hq⟩
  · intro t t' q hq hq'
    rcases key t q hq with ⟨rfl, hq⟩ | ⟨rfl, hq⟩ <;> rcases key t' q hq' with ⟨rfl, hq'⟩ | ⟨rfl, hq'⟩
    · rfl
    · exact absurd rfl (nab q hq q hq')
    · exact absurd rfl (nab q hq' q hq)
    · rfl

theorem twoThreads_finished {J : Job R} {a b : List (Nat × Nat)} {mem : Nat → R} {l : List Nat} {s' : State R}
    (h : runSched J l (twoThreads a b mem) = some s') (hl : ∀ t ∈ l, t < 2)
    (h0 : (s'.thr 0).todo = [] ∧ (s'.thr 0).cur.isNone = true) (h1 : (s'.thr 1).todo = [] ∧ (s'.thr 1).cur.isNone = true) :
    Finished s' := by
  intro t
  by_cases e0 : t = 0
  · subst e0; exact ⟨h0.1, by simpa using h0.2⟩
  by_cases e1 : t = 1
  · subst e1; exact ⟨h1.1, by simpa using h1.2⟩
  rw [runSched_other h (fun hc => by have := hl t hc; omega)]
  simp [twoThreads, e0, e1]

/-- one schedule of two threads, run to its end -/
theorem two_ends {J : Job R} {a b : List (Nat × Nat)} {mem : Nat → R} (l : List Nat) (x : Nat) (v : R)
    (hl : ∀ t ∈ l, t < 2)
    (h : ∃ s', runSched J l (twoThreads a b mem) = some s' ∧ ((s'.thr 0).todo = [] ∧ (s'.thr 0).cur.isNone = true) ∧
      ((s'.thr 1).todo = [] ∧ (s'.thr 1).cur.isNone = true) ∧ s'.mem x = v) :
    ∃ n s', Run J n (twoThreads a b mem) s' ∧ Finished s' ∧ s'.mem x = v := by
  obtain ⟨s', h1, h2, h3, h4⟩ := h
  exact ⟨_, s', runSched_run h1, twoThreads_finished h1 hl h2 h3, h4⟩

/-- two ones in a column -/
def exRaceCsr : Csr Int := { m := 2, n := 1, indexing := 0, rowptr := [0, 1, 2], colind := [0, 0], nzval := [1, 1] }

/-- The hypothesis on the leading dimension is needed: with `LDAV < m` the last row of one vector and the first of
the next share an element, and from the same start one interleaving adds both products while another loses one. -/
theorem C159_short_leading_dimension :
    ∃ s : State Int, CsrWF exRaceCsr ∧ Starts (iterSpace 2 exRaceCsr.m) s ∧
      (∃ n s', Run (csrJob 1 exRaceCsr (fun _ => 5) 1 1 1) n s s' ∧ Finished s' ∧ s'.mem 1 = 10) ∧
      (∃ n s', Run (csrJob 1 exRaceCsr (fun _ => 5) 1 1 1) n s s' ∧ Finished s' ∧ s'.mem 1 = 5) := by
  refine ⟨twoThreads [(0, 0), (0, 1)] [(1, 0), (1, 1)] (fun _ => 0), ?_, ?_, ?_, ?_⟩
  · exact { rowptr_length := rfl, rowptr_first := rfl, rowptr_mono := by decide, rowptr_last := rfl,
            colind_length := rfl, col_range := by decide }
  · exact twoThreads_starts _ (by decide) (iterSpace_nodup _ _)
  · refine two_ends [0, 0, 0, 0, 0, 0, 0, 0, 1, 1, 1, 1, 1, 1, 1, 1] 1 10 (by decide) ⟨_, rfl, ?_, ?_, ?_⟩
    · exact ⟨rfl, rfl⟩
    · exact ⟨rfl, rfl⟩
    · decide +kernel
  · refine two_ends [0, 0, 0, 0, 0, 0, 0, 1, 1, 1, 0, 1, 1, 1, 1, 1] 1 5 (by decide) ⟨_, rfl, ?_, ?_, ?_⟩
    · exact ⟨rfl, rfl⟩
    · exact ⟨rfl, rfl⟩
    · decide +kernel

/-- one position stored twice -/
def exTwice : Coo Int := { m := 1, n := 1, nnz := 2, indexing := 0, rowind := [0, 0], colind := [0, 0], nzval := [3, 4] }

/-- The hypothesis that no position is stored twice is needed: the dense value depends on which thread comes
last, and is in no case the sum. -/
theorem C159_duplicates :
    ∃ s : State Int, CooWF exTwice ∧ Starts (iterSpace 1 exTwice.nnz) s ∧ cooEntry exTwice 0 0 = 7 ∧
      (∃ n s', Run (denseJob exTwice 1) n s s' ∧ Finished s' ∧ s'.mem 0 = 3) ∧
      (∃ n s', Run (denseJob exTwice 1) n s s' ∧ Finished s' ∧ s'.mem 0 = 4) := by
  refine ⟨twoThreads [(0, 0)] [(0, 1)] (fun _ => 0), ⟨rfl, rfl, rfl, by decide, by decide⟩, ?_, by decide +kernel, ?_, ?_⟩
  · exact twoThreads_starts _ (by decide) (iterSpace_nodup _ _)
  · refine two_ends [1, 1, 1, 0, 0, 0] 0 3 (by decide) ⟨_, rfl, ?_, ?_, ?_⟩
    · exact ⟨rfl, rfl⟩
    · exact ⟨rfl, rfl⟩
    · decide +kernel
  · refine two_ends [0, 0, 0, 1, 1, 1] 0 4 (by decide) ⟨_, rfl, ?_, ?_, ?_⟩
    · exact ⟨rfl, rfl⟩
    · exact ⟨rfl, rfl⟩
    · decide +kernel

example : AlwaysEnds (csrJob 2 exCsr (fun i => 10 ^ i) 3 3 2) (twoThreads [(1, 1), (0, 0)] [(0, 1), (1, 0)] fun _ => 1)
    fun AV' => AV' 0 = 2 * (5 * 10 + 7 * 100) + 3 := by
  refine AlwaysEnds.mono (C159_csr_product 2 2 3 exCsr exCsr_wf (fun i => 10 ^ i) 3 2 (by decide) _
    (twoThreads_starts _ (by decide) (iterSpace_nodup _ _))) ?_
  rintro m ⟨h, -⟩
  rw [show (0 : Nat) = 0 + 0 * 2 from rfl, h 0 (by decide) 0 (by decide)]
  decide +kernel

end Macis
