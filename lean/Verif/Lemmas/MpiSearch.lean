import Verif.Lemmas.MpiQuick
import Verif.Props.AsciSelect
import Verif.Lemmas.MpiLift
import Verif.Model.MpiSearch
/-! `asci_search` rank by rank: the execution in which all ranks proceed phase by phase. -/
namespace Macis.Mpi
open Spec Spec.Mpi
variable {N : Nat} {R : Type}

theorem stats_reach (P n : Nat) (rest : Nat → List (Instr (SearchSt N R) (SearchMs N R))) (st : Nat → SearchSt N R) :
    Reach (ranks P (fun r => searchStats P n ++ rest r) st) (ranks P rest st) := by
  induction n with
  | zero => simpa [searchStats] using Reach.refl _
  | succ n ih =>
    have h := ranks_gather P qsColl (fun _ m => (Sum.inr (.stat m.2.pairs.length) : SearchMs N R)) (fun _ => putStat)
      (fun r => searchStats P n ++ rest r) st
    refine Reach.trans (cast ?_ h) ih
    congr 1
    · simp only [searchStats, List.append_assoc]
    · congr 1
      funext r
      split
      · have : ∀ (L : List Nat) (x : SearchSt N R),
            L.foldl (fun x s => putStat (Sum.inr (.stat (st s).2.pairs.length)) x) x = x := by
          intro L; induction L with
          | nil => intro x; rfl
          | cons a L ih => intro x; exact ih x
        rw [this]
      · rfl

theorem foldl_putCount (c : Nat → Nat) (L : List Nat) : ∀ m : SearchSt N R,
    L.foldl (fun x s => putCount s (Sum.inr (.size (c s))) x) m
      = (m.1, { m.2 with sizes := fun i => if i ∈ L then c i else m.2.sizes i }) := by
  induction L with
  | nil => intro m; simp
  | cons a L ih =>
    intro m
    rw [List.foldl_cons, ih]
    simp only [putCount, Prod.mk.injEq, SearchMem.mk.injEq, true_and, and_true]
    funext i
    by_cases e : i ∈ L
    · simp [e]
    · by_cases e2 : i = a
      · subst e2; simp [e]
      · simp [e, e2]

theorem foldl_putStrings (c : Nat → List (BitVec N)) (L : List Nat) : ∀ m : SearchSt N R,
    (∀ s ∈ L, (c s).length = m.2.sizes s) →
    L.foldl (fun x s => putStrings s (Sum.inr (.strings (c s))) x) m
      = (m.1, { m.2 with data := fun i => if i ∈ L then c i else m.2.data i }) := by
  induction L with
  | nil => intro m _; simp
  | cons a L ih =>
    intro m h
    rw [List.foldl_cons]
    have e : putStrings a (Sum.inr (.strings (c a))) m = (m.1, { m.2 with data := Function.update m.2.data a (c a) }) := by
      simp only [putStrings, h a (by simp), bne_self_eq_false, Bool.or_false]
    rw [e, ih (m.1, { m.2 with data := Function.update m.2.data a (c a) }) (fun s hs => h s (by simp [hs]))]
    simp only [Prod.mk.injEq, SearchMem.mk.injEq, true_and, and_true]
    funext i
    by_cases e : i ∈ L
    · simp [e]
    · by_cases e2 : i = a
      · subst e2; simp [e]
      · simp [e, e2]

theorem counts_reach (P : Nat) (rest : Nat → List (Instr (SearchSt N R) (SearchMs N R))) (st : Nat → SearchSt N R) :
    Reach (ranks P (fun r => searchCounts P ++ rest r) st)
      (ranks P rest fun r => if r < P then
        ((st r).1, { (st r).2 with sizes := fun i => if i < P then (st i).2.keep.length else (st r).2.sizes i }) else st r) := by
  have h := ranks_gather P qsColl (fun _ m => (Sum.inr (.size m.2.keep.length) : SearchMs N R)) putCount rest st
  refine cast ?_ h
  congr 1
  · simp only [searchCounts, List.append_assoc]
  · congr 1
    funext r
    by_cases hr : r < P
    · simp only [hr, if_true, foldl_putCount (fun s => (st s).2.keep.length), List.mem_range]
    · simp [hr]

theorem strings_reach (P : Nat) (rest : Nat → List (Instr (SearchSt N R) (SearchMs N R))) (st : Nat → SearchSt N R)
    (hs : ∀ r < P, ∀ s < P, (st s).2.keep.length = (st r).2.sizes s) :
    Reach (ranks P (fun r => searchStrings P ++ rest r) st)
      (ranks P rest fun r => if r < P then
        ((st r).1, { (st r).2 with data := fun i => if i < P then (st i).2.keep else (st r).2.data i }) else st r) := by
  have h := ranks_gather P qsColl (fun _ m => (Sum.inr (.strings m.2.keep) : SearchMs N R)) putStrings rest st
  refine cast ?_ h
  congr 1
  · simp only [searchStrings, List.append_assoc]
  · congr 1
    funext r
    by_cases hr : r < P
    · simp only [hr, if_true]
      rw [foldl_putStrings (fun s => (st s).2.keep) _ _ (fun s h => hs r hr s (by simpa using h))]
      simp only [List.mem_range]
    · simp [hr]

variable [AddCommGroup R] [LinearOrder R]

/-- all ranks run `asci_search` to the end, with the same result -/
theorem search_reach (P : Nat) (hP : 2 ≤ P) {srt part : List (Contrib N R) → List (Contrib N R)} (draw : Nat → Nat)
    {partS : Nat → Nat → List R → List R} (hpS : ∀ r i, Rearranges (partS r i))
    {nthS : Nat → Nat → List R → List R} (hnS : ∀ r, NthElement (id : R → R) (nthS r)) (fuel ndetsMax : Nat)
    (cdets : List (BitVec N)) (C : List R) (pairs : Nat → List (Contrib N R)) (hC : cdets.length ≤ C.length)
    (h1 : 1 ≤ topKElements ndetsMax cdets.length)
    (h2 : topKElements ndetsMax cdets.length ≤
      (((List.range P).map fun r => searchCandidates srt part cdets C (pairs r)).flatten).length)
    (hf : (((List.range P).map fun r => searchCandidates srt part cdets C (pairs r)).flatten).length < fuel) :
    ∃ st' v, Reach (ranks P (fun r => searchProg P r srt part draw (partS r) (nthS r) fuel ndetsMax cdets C)
        fun r => searchStart (pairs r)) (ranks P (fun _ => []) st') ∧
      IsKthLargest ((((List.range P).map fun r => searchCandidates srt part cdets C (pairs r)).flatten).map
        fun p => |p.rv|) (topKElements ndetsMax cdets.length) v ∧
      ∀ r < P, (st' r).2.err = false ∧ (st' r).2.out =
        some ((((List.range P).map fun s =>
          ((legPartition part (fun p : Contrib N R => |p.rv|) v (searchCandidates srt part cdets C (pairs s))).1 ++
          (legPartition part (fun p : Contrib N R => |p.rv|) v (searchCandidates srt part cdets C (pairs s))).2.1).map
            (·.state)).flatten).take (topKElements ndetsMax cdets.length) ++ cdets) := by
  set k := topKElements ndetsMax cdets.length with hk
  set cand : Nat → List (Contrib N R) := fun r => searchCandidates srt part cdets C (pairs r) with hcand
  have hCd : decide (C.length < cdets.length) = false := by simp [hC]
  -- 1. statistics, candidates
  have r1 := stats_reach P 11 (fun r => comps [searchPrepare srt part ndetsMax cdets C] ++ (searchStats P 3 ++
    (liftL (fun e : SearchMem N R => { e with err := true }) (qsProg P r draw (partS r) (nthS r) fuel) ++
    (comps [searchKeep part] ++ (searchCounts P ++ (searchStrings P ++ (searchStats P 3 ++
    (comps [searchFinish P ndetsMax cdets] ++ searchStats P 1)))))))) (fun r => searchStart (pairs r))
  have r2 := ranks_comps (μ := SearchMs N R) P (fun _ => [searchPrepare srt part ndetsMax cdets C]) (fun r => searchStats P 3 ++
    (liftL (fun e : SearchMem N R => { e with err := true }) (qsProg P r draw (partS r) (nthS r) fuel) ++
    (comps [searchKeep part] ++ (searchCounts P ++ (searchStrings P ++ (searchStats P 3 ++
    (comps [searchFinish P ndetsMax cdets] ++ searchStats P 1))))))) (fun r => searchStart (pairs r))
  have r3 := stats_reach P 3 (fun r =>
    liftL (fun e : SearchMem N R => { e with err := true }) (qsProg P r draw (partS r) (nthS r) fuel) ++
    (comps [searchKeep part] ++ (searchCounts P ++ (searchStrings P ++ (searchStats P 3 ++
    (comps [searchFinish P ndetsMax cdets] ++ searchStats P 1))))))
    (fun r => if r < P then runComps [searchPrepare srt part ndetsMax cdets C] (searchStart (pairs r)) else searchStart (pairs r))
  set st1 : Nat → SearchSt N R := fun r => if r < P then runComps [searchPrepare srt part ndetsMax cdets C] (searchStart (pairs r))
    else searchStart (pairs r) with hst1
  have f1 : ∀ r < P, st1 r = (qsStart ((cand r).map fun p => |p.rv|) k,
      ⟨cand r, [], fun _ => 0, fun _ => [], none, false⟩) := by
    intro r hr
    simp only [hst1, hr, if_true, runComps, List.foldl_cons, List.foldl_nil, searchPrepare, searchStart, hCd, Bool.or_false,
      hcand, hk]
  -- 2. the selection
  have hflat : ((List.range P).map fun r => (st1 r).1.rng).flatten =
      (((List.range P).map cand).flatten).map fun p => |p.rv| := by
    rw [List.map_flatten, List.map_map]
    congr 1
    apply List.map_congr_left
    intro r hr
    rw [f1 r (List.mem_range.1 hr)]
    rfl
  obtain ⟨q, hq, hqr⟩ := loop_reach P hP draw hpS hnS fuel 0 (fun r => (st1 r).1) k
    (fun r hr => by rw [f1 r hr]; rfl) (fun r hr => by rw [f1 r hr]; rfl) h1
    (by rw [hflat, List.length_map]; exact h2) (by rw [hflat, List.length_map]; exact hf)
  rw [hflat] at hqr
  obtain ⟨-, v, -, hv⟩ := hqr 0 (by omega)
  have hout : ∀ r < P, (q r).out = some v ∧ (q r).err = false := by
    intro r hr
    obtain ⟨a, w, b, c⟩ := hqr r hr
    rw [b, C30_kth_unique _ k v w hv c]
    exact ⟨rfl, a⟩
  have r4 := ranks_call P (fun e : SearchMem N R => { e with err := true })
    (fun r => qsProg P r draw (partS r) (nthS r) fuel) (fun r =>
    (comps [searchKeep part] ++ (searchCounts P ++ (searchStrings P ++ (searchStats P 3 ++
    (comps [searchFinish P ndetsMax cdets] ++ searchStats P 1)))))) (fun r => (st1 r).1) q (fun r => (st1 r).2)
    (by
      have : P ≠ 1 := by omega
      simp only [qsProg, this, if_false]; exact hq)
  -- 3. what is kept
  have r5 := ranks_comps (μ := SearchMs N R) P (fun _ => [searchKeep part]) (fun r => searchCounts P ++ (searchStrings P ++ (searchStats P 3 ++
    (comps [searchFinish P ndetsMax cdets] ++ searchStats P 1)))) (fun r => (q r, (st1 r).2))
  set st2 : Nat → SearchSt N R := fun r => if r < P then runComps [searchKeep part] (q r, (st1 r).2) else (q r, (st1 r).2) with hst2
  set kp : Nat → List (BitVec N) := fun s =>
    ((legPartition part (fun p : Contrib N R => |p.rv|) v (cand s)).1 ++
      (legPartition part (fun p : Contrib N R => |p.rv|) v (cand s)).2.1).map (·.state) with hkp
  have f2 : ∀ r < P, (st2 r).2.keep = kp r ∧ (st2 r).2.err = false := by
    intro r hr
    simp only [hst2, hr, if_true, runComps, List.foldl_cons, List.foldl_nil, searchKeep, (hout r hr).1, (hout r hr).2, f1 r hr,
      Bool.or_false]
    exact ⟨rfl, trivial⟩
  have r6 := counts_reach P (fun r => searchStrings P ++ (searchStats P 3 ++
    (comps [searchFinish P ndetsMax cdets] ++ searchStats P 1))) st2
  set st3 : Nat → SearchSt N R := fun r => if r < P then
        ((st2 r).1, { (st2 r).2 with sizes := fun i => if i < P then (st2 i).2.keep.length else (st2 r).2.sizes i }) else st2 r with hst3
  have f3 : ∀ r < P, (st3 r).2.keep = kp r ∧ (st3 r).2.err = false ∧ ∀ s < P, (st3 r).2.sizes s = (kp s).length := by
    intro r hr
    simp only [hst3, hr, if_true]
    refine ⟨(f2 r hr).1, (f2 r hr).2, ?_⟩
    intro s hs
    simp only [hs, if_true, (f2 s hs).1]
  have r7 := strings_reach P (fun r => searchStats P 3 ++ (comps [searchFinish P ndetsMax cdets] ++ searchStats P 1)) st3
    (fun r hr s hs => by rw [(f3 s hs).1, (f3 r hr).2.2 s hs])
  set st4 : Nat → SearchSt N R := fun r => if r < P then
        ((st3 r).1, { (st3 r).2 with data := fun i => if i < P then (st3 i).2.keep else (st3 r).2.data i }) else st3 r with hst4
  have f4 : ∀ r < P, (st4 r).2.err = false ∧ (List.range P).map (st4 r).2.data = (List.range P).map kp := by
    intro r hr
    simp only [hst4, hr, if_true]
    refine ⟨(f3 r hr).2.1, ?_⟩
    apply List.map_congr_left
    intro s hs
    have hs' := List.mem_range.1 hs
    simp only [hs', if_true, (f3 s hs').1]
  have r8 := stats_reach P 3 (fun r => comps [searchFinish P ndetsMax cdets] ++ searchStats P 1) st4
  have r9 := ranks_comps (μ := SearchMs N R) P (fun _ => [searchFinish P ndetsMax cdets]) (fun r => searchStats P 1) st4
  set st5 : Nat → SearchSt N R := fun r => if r < P then runComps [searchFinish P ndetsMax cdets] (st4 r) else st4 r with hst5
  have r10 := stats_reach P 1 (fun _ => []) st5
  simp only [List.append_nil] at r10
  refine ⟨st5, v, r1.trans (r2.trans (r3.trans (r4.trans (r5.trans (r6.trans (r7.trans (r8.trans (r9.trans r10)))))))), hv, ?_⟩
  intro r hr
  simp only [hst5, hr, if_true, runComps, List.foldl_cons, List.foldl_nil, searchFinish, (f4 r hr).2]
  refine ⟨(f4 r hr).1, ?_⟩
  congr 2
  split
  · rfl
  · rename_i hle
    exact (List.take_of_length_le (Nat.le_of_not_lt hle)).symm

end Macis.Mpi
