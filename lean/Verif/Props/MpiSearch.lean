import Verif.Props.MpiQuick
import Verif.Lemmas.MpiSearch
/-
C149: `asci_search` on several ranks, rank by rank, under every schedule.
-/
namespace Macis
open Spec Mpi Spec.Mpi
variable {N : Nat} {R : Type} [AddCommGroup R] [LinearOrder R] [IsOrderedAddMonoid R]

/-- the result of a cut to the `k`-th score does not depend on how the score was found -/
theorem asciSelectDist_of_kth {srt part : List (Contrib N R) → List (Contrib N R)} (draw : Nat → Nat)
    {partS nthS : Nat → List R → List R} (hpS : ∀ i, Rearranges (partS i)) (hnS : NthElement (id : R → R) nthS)
    (ndetsMax : Nat) (cdets : List (BitVec N)) (C : List R) (pairs : List (List (Contrib N R)))
    (hC : cdets.length ≤ C.length) (h1 : 1 ≤ topKElements ndetsMax cdets.length)
    (h2 : topKElements ndetsMax cdets.length ≤ ((pairs.map (searchCandidates srt part cdets C)).flatten).length) (v : R)
    (hv : IsKthLargest (((pairs.map (searchCandidates srt part cdets C)).flatten).map fun p => |p.rv|)
      (topKElements ndetsMax cdets.length) v) :
    asciSelectDist srt part draw partS nthS ndetsMax cdets C pairs =
      some (((pairs.map fun l =>
          ((legPartition part (fun p : Contrib N R => |p.rv|) v (searchCandidates srt part cdets C l)).1 ++
          (legPartition part (fun p : Contrib N R => |p.rv|) v (searchCandidates srt part cdets C l)).2.1).map
            (·.state)).flatten).take (topKElements ndetsMax cdets.length) ++ cdets) := by
  obtain ⟨w, hw, hk⟩ := distQuickselect_spec draw hpS hnS
    ((pairs.map (searchCandidates srt part cdets C)).map fun l => l.map fun p => |p.rv|) _ h1
    (by rw [← List.map_flatten, List.length_map]; exact h2)
  rw [← List.map_flatten] at hk
  have e := C30_kth_unique _ _ v w hv hk
  subst e
  unfold asciSelectDist distSelect
  rw [if_neg (by omega), hw]
  simp only [bind, Option.bind, pure, Option.map_some, List.map_map]
  congr 2
  split
  · rfl
  · rename_i hle
    exact (List.take_of_length_le (Nat.le_of_not_lt hle)).symm

/-- C149 (agreement): for every number of ranks, every distribution of contributions over them, all random draws,
every implementation of `std::partition` and `std::nth_element` (which may even differ between the ranks in the
selection of the score), every schedule and every buffering of messages: the collective part of `asci_search` never
gets stuck and ends with the same list of determinants on every rank - the list of the serial description of the
distributed search - provided there are at least as many candidates as determinants asked for. -/
theorem C149_same_on_all_ranks (P : Nat) (hP : 2 ≤ P) {srt part : List (Contrib N R) → List (Contrib N R)} (draw : Nat → Nat)
    {partS : Nat → Nat → List R → List R} (hpS : ∀ r i, Rearranges (partS r i))
    {nthS : Nat → Nat → List R → List R} (hnS : ∀ r, NthElement (id : R → R) (nthS r)) (fuel ndetsMax : Nat)
    (cdets : List (BitVec N)) (C : List R) (pairs : Nat → List (Contrib N R)) (hC : cdets.length ≤ C.length)
    (h1 : 1 ≤ topKElements ndetsMax cdets.length)
    (h2 : topKElements ndetsMax cdets.length ≤
      (((List.range P).map fun r => searchCandidates srt part cdets C (pairs r)).flatten).length)
    (hf : (((List.range P).map fun r => searchCandidates srt part cdets C (pairs r)).flatten).length < fuel) :
    ∃ L st, AlwaysEnds (searchWorld P srt part draw partS nthS fuel ndetsMax cdets C pairs) st ∧
      (∀ r < P, (st r).2.out = some L ∧ (st r).2.err = false) ∧
      ∀ (draw' : Nat → Nat) (partS' nthS' : Nat → List R → List R), (∀ i, Rearranges (partS' i)) →
        NthElement (id : R → R) nthS' →
        asciSelectDist srt part draw' partS' nthS' ndetsMax cdets C ((List.range P).map pairs) = some L := by
  obtain ⟨st', v, hreach, hv, hres⟩ := search_reach P hP draw hpS hnS fuel ndetsMax cdets C pairs hC h1 h2 hf
  refine ⟨_, st', ?_, fun r hr => ⟨(hres r hr).2, (hres r hr).1⟩, ?_⟩
  · obtain ⟨n, hn⟩ := hreach
    refine always_ends hn ?_ ?_
    · intro r; simp [ranks]
    · intro q; rfl
  · intro draw' partS' nthS' hp' hn'
    rw [asciSelectDist_of_kth draw' hp' hn' ndetsMax cdets C ((List.range P).map pairs) hC h1
      (by rw [List.map_map]; exact h2) v (by rw [List.map_map]; exact hv), List.map_map]
    rfl

/-- C149 (best choice): if moreover the determinants are distributed over the ranks without repetition and no tie
straddles the cut, all ranks end with the same list, which consists of a best choice of the candidates followed by the
core determinants, `ndets_max` in number and all different. -/
theorem C149_best_choice (P : Nat) (hP : 2 ≤ P) {srt part : List (Contrib N R) → List (Contrib N R)} (draw : Nat → Nat)
    (hs : SortsBy (fun x y => bitsetLess x.state y.state) srt) (hp : Rearranges part)
    {partS : Nat → Nat → List R → List R} (hpS : ∀ r i, Rearranges (partS r i))
    {nthS : Nat → Nat → List R → List R} (hnS : ∀ r, NthElement (id : R → R) (nthS r)) (fuel ndetsMax : Nat)
    (cdets : List (BitVec N)) (C : List R) (pairs : Nat → List (Contrib N R)) (hC : cdets.length ≤ C.length)
    (hm : cdets.length < ndetsMax) (h64 : ndetsMax < 2 ^ 64) (hcd : cdets.Nodup)
    (hnd : (((List.range P).map pairs).flatten.map (·.state)).Nodup)
    (henough : ndetsMax - cdets.length ≤ (globalCand ((List.range P).map pairs) cdets).length)
    (hcut : ∀ v, IsKthLargest ((globalCand ((List.range P).map pairs) cdets).map fun p => |p.rv|) (ndetsMax - cdets.length) v →
      ((globalCand ((List.range P).map pairs) cdets).filter fun p => v ≤ |p.rv|).length = ndetsMax - cdets.length)
    (hf : (globalCand ((List.range P).map pairs) cdets).length < fuel) :
    ∃ K st, AlwaysEnds (searchWorld P srt part draw partS nthS fuel ndetsMax cdets C pairs) st ∧
      (∀ r < P, (st r).2.out = some (K ++ cdets) ∧ (st r).2.err = false) ∧
      BestOf (Candidate ((List.range P).map pairs).flatten cdets)
        (fun s => |totalScore ((List.range P).map pairs).flatten s|) (ndetsMax - cdets.length) K ∧
      (K ++ cdets).Nodup ∧ (K ++ cdets).length = ndetsMax := by
  have hlen : (((List.range P).map fun r => searchCandidates srt part cdets C (pairs r)).flatten).length
      = (globalCand ((List.range P).map pairs) cdets).length := by
    have := (candidates_perm hs hp cdets C ((List.range P).map pairs) hC hnd).length_eq
    rw [List.length_map, List.map_map] at this
    exact this
  have htop := topK_eq hm.le h64
  obtain ⟨L, st, ha, hr, hL⟩ := C149_same_on_all_ranks P hP (srt := srt) (part := part) draw hpS hnS fuel ndetsMax cdets C pairs
    hC (by rw [htop]; omega) (by rw [htop, hlen]; exact henough) (by rw [hlen]; exact hf)
  obtain ⟨K, hK, hb, h3, h4⟩ := C29_distributed draw hs hp (hpS 0) (hnS 0) ndetsMax cdets C ((List.range P).map pairs) hC hm h64
    hcd hnd henough hcut
  rw [hL draw (partS 0) (nthS 0) (hpS 0) (hnS 0)] at hK
  cases hK
  exact ⟨K, st, ha, hr, hb, h3, h4⟩

/-- three ranks, one without contributions -/
example : ∃ L st, AlwaysEnds (searchWorld (N := 4) (R := Int) 3 exSort id (fun i => 5 * i + 2) (fun _ _ => id)
      (fun _ _ => List.insertionSort fun x y => y ≤ x) 9 3 [1#4] [1]
      (fun r => if r = 0 then [⟨5, 3⟩, ⟨3, 10⟩] else if r = 1 then [] else [⟨1, -1⟩, ⟨9, -4⟩])) st ∧
    (∀ r < 3, (st r).2.out = some L ∧ (st r).2.err = false) ∧ L = [3, 9, 1] := by
  obtain ⟨L, st, h1, h2, h3⟩ := C149_same_on_all_ranks (N := 4) (R := Int) 3 (by decide) (srt := exSort) (part := id)
    (fun i => 5 * i + 2) (partS := fun _ _ => id) (fun _ _ l => List.Perm.refl l)
    (nthS := fun _ _ => List.insertionSort fun x y => y ≤ x) (fun _ => exNth_spec id _ rfl) 9 3 [1#4] [1]
    (fun r => if r = 0 then [⟨5, 3⟩, ⟨3, 10⟩] else if r = 1 then [] else [⟨1, -1⟩, ⟨9, -4⟩]) (by decide)
    (by decide +kernel) (by decide +kernel) (by decide +kernel)
  refine ⟨L, st, h1, h2, ?_⟩
  have := h3 (fun _ => 0) (fun _ => id) (fun _ => List.insertionSort fun x y => y ≤ x) (fun _ l => List.Perm.refl l)
    (exNth_spec id _ rfl)
  have e : asciSelectDist (N := 4) (R := Int) exSort id (fun _ => 0) (fun _ => id)
      (fun _ => List.insertionSort fun x y => y ≤ x) 3 [1#4] [1]
      ((List.range 3).map fun r => if r = 0 then [⟨5, 3⟩, ⟨3, 10⟩] else if r = 1 then [] else [⟨1, -1⟩, ⟨9, -4⟩])
      = some [3, 9, 1] := by decide +kernel
  rw [this] at e
  exact Option.some.inj e

end Macis
