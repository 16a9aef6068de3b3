import Verif.Lemmas.AsciSelect
import Mathlib.Data.List.Sort
/-! Properties C26-C30, C66: ASCI score accumulation and selection
(`asci/determinant_sort.hpp`, `asci/determinant_search.hpp`, `util/dist_quickselect.hpp`). -/
namespace Macis
open Spec
variable {N : Nat} {R : Type}

/-- C26: sorting and accumulating gives strictly increasing determinants, the same set of
determinants, and for each the sum of its scores, for every sort the library may perform. -/
theorem C26_accumulate [AddCommGroup R] {srt : List (Contrib N R) → List (Contrib N R)}
    (h : SortsBy (fun x y => bitsetLess x.state y.state) srt) (l : List (Contrib N R)) :
    (sortAccumulate srt l).Pairwise (fun x y => x.state.toNat < y.state.toNat) ∧
    (∀ s, (∃ p ∈ sortAccumulate srt l, p.state = s) ↔ ∃ p ∈ l, p.state = s) ∧
    ∀ p ∈ sortAccumulate srt l, p.rv = totalScore l p.state :=
  sortAccumulate_spec h l

/-- Such a sort exists. -/
theorem insertionSort_sorts {α : Type} (key : α → Nat) (less : α → α → Bool)
    (hl : ∀ x y, less x y = true ↔ key x < key y) :
    SortsBy less (List.insertionSort fun x y => key x ≤ key y) := by
  intro l
  refine ⟨List.perm_insertionSort _ _, ?_⟩
  have : Std.Total (fun x y : α => key x ≤ key y) := ⟨fun x y => Nat.le_total _ _⟩
  have : IsTrans α (fun x y : α => key x ≤ key y) := ⟨fun x y z => Nat.le_trans⟩
  refine (List.pairwise_insertionSort (fun x y : α => key x ≤ key y) l).imp ?_
  intro x y hxy
  rw [Bool.eq_false_iff, ne_eq, hl]; omega

/-- the sort used in the examples -/
def exSort : List (Contrib N R) → List (Contrib N R) :=
  List.insertionSort fun x y => x.state.toNat ≤ y.state.toNat

theorem exSort_sorts : SortsBy (fun x y : Contrib N R => bitsetLess x.state y.state) exSort :=
  insertionSort_sorts (fun x : Contrib N R => x.state.toNat) _ (fun x y => bitsetLess_iff x.state y.state)

example : sortAccumulate (N := 4) (R := Int) exSort [⟨5, 1⟩, ⟨3, 10⟩, ⟨5, 2⟩, ⟨1, -1⟩, ⟨3, -10⟩]
    = [⟨1, -1⟩, ⟨3, 0⟩, ⟨5, 3⟩] := by decide +kernel

/-- C27: keeping the largest copy gives strictly increasing determinants, the same set, and for each
the largest of its entries. -/
theorem C27_keep_largest_copy [LinearOrder R] {srt : List (Contrib N R) → List (Contrib N R)}
    (h : SortsBy (fun x y => bitsetLess x.state y.state) srt) (l : List (Contrib N R)) :
    (keepLargestCopy srt l).Pairwise (fun x y => x.state.toNat < y.state.toNat) ∧
    (∀ s, (∃ p ∈ keepLargestCopy srt l, p.state = s) ↔ ∃ p ∈ l, p.state = s) ∧
    ∀ p ∈ keepLargestCopy srt l, p ∈ l ∧ ∀ q ∈ l, q.state = p.state → q.rv ≤ p.rv :=
  keepLargest_spec h l

example : keepLargestCopy (N := 4) (R := Int) exSort [⟨5, 1⟩, ⟨3, 10⟩, ⟨5, 2⟩, ⟨1, -1⟩, ⟨3, -10⟩]
    = [⟨1, -1⟩, ⟨3, 10⟩, ⟨5, 2⟩] := by decide +kernel

/-- C27: reordering by coefficient permutes (determinant, coefficient) pairs jointly into
non-increasing absolute coefficient. -/
theorem C27_reorder_ci {α : Type} [AddCommGroup R] [LinearOrder R] (dets : List α) (C : List R) (d0 : α)
    (hlen : C.length = dets.length) {srt : List Nat → List Nat}
    (h : SortsBy (fun i j => decide (|C.getD j 0| < |C.getD i 0|)) srt) :
    ∃ dets' C', reorderCi srt dets C d0 0 = some (dets', C') ∧
      dets'.length = dets.length ∧ C'.length = C.length ∧
      (dets'.zip C').Perm (dets.zip C) ∧ C'.Pairwise fun x y => |y| ≤ |x| := by
  obtain ⟨hp, hs⟩ := h (List.range C.length)
  refine ⟨_, _, by unfold reorderCi; rw [if_pos hlen], ?_, ?_, ?_, ?_⟩
  · rw [List.length_map, hp.length_eq, List.length_range, hlen]
  · rw [List.length_map, hp.length_eq, List.length_range]
  · rw [List.zip_map']
    refine (hp.map _).trans (List.Perm.of_eq ?_)
    apply List.ext_getElem
    · simp [hlen]
    · intro i h1 h2
      rw [List.length_map, List.length_range] at h1
      simp only [List.getElem_map, List.getElem_range, List.getElem_zip]
      rw [List.getD_eq_getElem _ _ (by omega), List.getD_eq_getElem _ _ h1]
  · rw [List.pairwise_map]
    refine hs.imp ?_
    intro i j hij
    simpa using hij

example : reorderCi (R := Int) (List.insertionSort fun i j => |([3, -7, 5] : List Int).getD j 0|
    ≤ |([3, -7, 5] : List Int).getD i 0|) ["a", "b", "c"] [3, -7, 5] "" 0 = some (["b", "c", "a"], [-7, 5, 3]) := by
  decide +kernel

section search
variable [AddCommGroup R] [LinearOrder R] [IsOrderedAddMonoid R]

/-- a candidate of the search: a determinant outside the core whose total score is not zero -/
def Spec.Candidate (contribs : List (Contrib N R)) (cdets : List (BitVec N)) (s : BitVec N) : Prop :=
  totalScore contribs s ≠ 0 ∧ s ∉ cdets

/-- C28: the search on one rank returns a best choice of `ndets_max - ncdets` candidates followed by
the core determinants: no repetitions, at most `ndets_max` determinants, whatever the library's
sort, partition and nth_element do within their specification. -/
theorem C28_search {srt part : List (Contrib N R) → List (Contrib N R)}
    {nth : Nat → List (Contrib N R) → List (Contrib N R)}
    (hs : SortsBy (fun x y => bitsetLess x.state y.state) srt) (hp : Rearranges part)
    (hn : NthElement (fun p : Contrib N R => |p.rv|) nth)
    (ndetsMax : Nat) (cdets : List (BitVec N)) (C : List R) (contribs : List (Contrib N R))
    (hC : cdets.length ≤ C.length) (hm : cdets.length ≤ ndetsMax) (h64 : ndetsMax < 2 ^ 64) (hcd : cdets.Nodup) :
    ∃ K, asciSelectSerial srt part nth ndetsMax cdets C contribs = some (K ++ cdets) ∧
      BestOf (Candidate contribs cdets) (fun s => |totalScore contribs s|) (ndetsMax - cdets.length) K ∧
      (K ++ cdets).Nodup ∧ (K ++ cdets).length ≤ ndetsMax := by
  unfold asciSelectSerial
  rw [if_neg (by omega)]
  dsimp only
  rw [topK_eq hm h64]
  obtain ⟨a1, a2, a3⟩ := sortAccumulate_spec hs contribs
  have hnd := nodup_of_lt a1
  have hmem := fun x => mem_searchCandidates hs hp hC hnd x
  have hnd' := nodup_searchCandidates hs hp cdets C (sortAccumulate srt contribs)
  generalize searchCandidates srt part cdets C (sortAccumulate srt contribs) = cs at hmem hnd'
  have hbest := bestOf_take hn (ndetsMax - cdets.length) cs hnd' (Candidate contribs cdets)
    (fun s => |totalScore contribs s|) (by
      intro s
      constructor
      · rintro ⟨h0, hc⟩
        have hex : ∃ p ∈ contribs, p.state = s := by
          by_contra hne
          apply h0
          have : contribs.filter (fun p => p.state = s) = [] := by
            rw [List.filter_eq_nil_iff]
            intro p hpm
            simp only [decide_eq_true_eq]
            exact fun e => hne ⟨p, hpm, e⟩
          unfold totalScore
          rw [this]; rfl
        obtain ⟨p, hpm, rfl⟩ := (a2 s).2 hex
        refine ⟨⟨p.state, -|p.rv|⟩, (hmem _).2 ⟨p, hpm, ?_, hc, rfl⟩, rfl⟩
        rw [a3 p hpm]; exact h0
      · rintro ⟨x, hx, rfl⟩
        obtain ⟨p, hpm, h0, hc, rfl⟩ := (hmem x).1 hx
        refine ⟨?_, hc⟩
        rw [a3 p hpm] at h0; exact h0) (by
      intro x hx
      obtain ⟨p, hpm, -, -, rfl⟩ := (hmem x).1 hx
      dsimp only
      rw [abs_neg, abs_abs, a3 p hpm])
  refine ⟨_, rfl, hbest, ?_, ?_⟩
  · rw [List.nodup_append]
    refine ⟨hbest.nodup, hcd, ?_⟩
    intro s hs t ht e
    subst e
    exact (hbest.sub s hs).2 ht
  · have := hbest.atMost
    rw [List.length_append]; omega

/-- an `nth_element` (a full sort), as used in the examples -/
theorem exNth_spec {α β : Type} [LinearOrder β] (f : α → β) (nth : Nat → List α → List α)
    (h : nth = fun _ => List.insertionSort fun x y => f y ≤ f x) : NthElement f nth := by
  subst h
  intro k l
  refine ⟨List.perm_insertionSort _ _, ?_⟩
  have i1 : Std.Total (fun x y : α => f y ≤ f x) := ⟨fun x y => le_total _ _⟩
  have i2 : IsTrans α (fun x y : α => f y ≤ f x) := ⟨fun x y z h1 h2 => h2.trans h1⟩
  have hsort := List.pairwise_insertionSort (fun x y : α => f y ≤ f x) l
  intro x hx y hy
  rw [← List.take_append_drop k (List.insertionSort (fun x y => f y ≤ f x) l), List.pairwise_append] at hsort
  exact not_lt.2 (hsort.2.2 x hx y hy)

example : asciSelectSerial (N := 4) (R := Int) exSort id (fun _ => List.insertionSort fun x y => |y.rv| ≤ |x.rv|) 3
    [1#4] [1] [⟨5, 1⟩, ⟨3, 10⟩, ⟨5, 2⟩, ⟨1, -1⟩, ⟨9, -4⟩, ⟨6, 2⟩, ⟨6, -2⟩] = some [3, 9, 1] := by decide +kernel

/-- C28: on one rank, if fewer candidates exist than requested all of them are returned (the case
the distributed code cannot handle, see C66). -/
theorem C28_all_when_few {srt part : List (Contrib N R) → List (Contrib N R)}
    {nth : Nat → List (Contrib N R) → List (Contrib N R)}
    (hs : SortsBy (fun x y => bitsetLess x.state y.state) srt) (hp : Rearranges part)
    (hn : NthElement (fun p : Contrib N R => |p.rv|) nth)
    (ndetsMax : Nat) (cdets : List (BitVec N)) (C : List R) (contribs : List (Contrib N R))
    (hC : cdets.length ≤ C.length) (hm : cdets.length ≤ ndetsMax) (h64 : ndetsMax < 2 ^ 64) (hcd : cdets.Nodup)
    (r : List (BitVec N)) (hr : asciSelectSerial srt part nth ndetsMax cdets C contribs = some r)
    (hlt : r.length < ndetsMax) : ∀ s, Candidate contribs cdets s → s ∈ r := by
  obtain ⟨K, h1, h2, -, -⟩ := C28_search hs hp hn ndetsMax cdets C contribs hC hm h64 hcd
  rw [h1] at hr
  cases hr
  rw [List.length_append] at hlt
  intro s hs
  exact List.mem_append_left _ (h2.full (by omega) s hs)

/-- C30: `dist_quickselect` ends with the k-th largest element of all local lists together, for every
number of ranks, distribution (empty ranks included), random draws and partition orders. -/
theorem C30_quickselect {α : Type} [LinearOrder α] (draw : Nat → Nat) {part : Nat → List α → List α}
    (hp : ∀ i, Rearranges (part i)) {nth : Nat → List α → List α} (hn : NthElement (id : α → α) nth)
    (locals : List (List α)) (k : Nat) (h1 : 1 ≤ k) (h2 : k ≤ locals.flatten.length) :
    ∃ v, distQuickselect draw part nth locals k = some v ∧ IsKthLargest locals.flatten k v :=
  distQuickselect_spec draw hp hn locals k h1 h2

/-- the k-th largest element is unique, so the specification determines the result -/
theorem C30_kth_unique {α : Type} [LinearOrder α] (l : List α) (k : Nat) (v w : α)
    (hv : IsKthLargest l k v) (hw : IsKthLargest l k w) : v = w := by
  have key : ∀ v w : α, IsKthLargest l k v → IsKthLargest l k w → ¬ v < w := by
    intro v w hv hw hlt
    have h1 := hv.2.1
    have h2 := hw.2.2
    have : (l.filter fun x => w ≤ x).length ≤ (l.filter fun x => v < x).length := by
      apply length_filter_le_of_imp
      intro x _ hx
      simp only [decide_eq_true_eq] at hx ⊢
      exact lt_of_lt_of_le hlt hx
    omega
  exact le_antisymm (not_lt.1 (key w v hw hv)) (not_lt.1 (key v w hv hw))

example : distQuickselect (α := Int) (fun i => 7 * i + 3) (fun _ => id) (fun _ => List.insertionSort fun x y => y ≤ x)
    [[3, 1], [], [9, 3, 5], [2]] 3 = some 3 := by decide +kernel

/-- the candidates of all ranks together -/
def Spec.globalCand (pairs : List (List (Contrib N R))) (cdets : List (BitVec N)) : List (Contrib N R) :=
  pairs.flatten.filter fun p => p.rv ≠ 0 ∧ p.state ∉ cdets

theorem distSelect_kept {part : List (Contrib N R) → List (Contrib N R)} (hp : Rearranges part) (kth : R)
    (cands : List (List (Contrib N R))) :
    ((cands.map fun l =>
      ((legPartition part (fun p : Contrib N R => |p.rv|) kth l).1 ++
        (legPartition part (fun p : Contrib N R => |p.rv|) kth l).2.1).map (·.state)).flatten).Perm
    ((cands.flatten.filter fun p => kth ≤ |p.rv|).map (·.state)) := by
  induction cands with
  | nil => simp
  | cons a cands ih =>
    rw [List.map_cons, List.flatten_cons, List.flatten_cons, List.filter_append,
      List.map_append (l₁ := a.filter _)]
    refine List.Perm.append ?_ ih
    obtain ⟨h1, h2, -⟩ := legPartition_spec hp (fun p : Contrib N R => |p.rv|) kth a
    refine ((h1.append h2).map _).trans (List.Perm.map _ ?_)
    clear h1 h2 ih
    induction a with
    | nil => simp
    | cons x a ih =>
      rcases lt_trichotomy (|x.rv|) kth with h | h | h
      · simpa [List.filter_cons, h.not_ge, h.ne, h.not_gt] using ih
      · simp only [List.filter_cons, h, lt_irrefl, le_refl, decide_true, decide_false, if_true, Bool.false_eq_true, if_false]
        exact List.perm_middle.trans (List.Perm.cons _ ih)
      · simp only [List.filter_cons, h, h.ne', h.le, decide_true, decide_false, if_true, Bool.false_eq_true, if_false]
        exact List.Perm.cons _ ih

/-- the candidates, rank by rank -/
theorem candidates_perm {srt part : List (Contrib N R) → List (Contrib N R)}
    (hs : SortsBy (fun x y => bitsetLess x.state y.state) srt) (hp : Rearranges part)
    (cdets : List (BitVec N)) (C : List R) (pairs : List (List (Contrib N R)))
    (hC : cdets.length ≤ C.length) (hnd : (pairs.flatten.map (·.state)).Nodup) :
    ((pairs.map (searchCandidates srt part cdets C)).flatten).Perm
      ((globalCand pairs cdets).map fun p => ⟨p.state, -|p.rv|⟩) := by
  unfold globalCand
  induction pairs with
  | nil => simp
  | cons a pairs ih =>
    rw [List.flatten_cons, List.map_append, List.nodup_append] at hnd
    rw [List.map_cons, List.flatten_cons, List.flatten_cons, List.filter_append, List.map_append]
    refine List.Perm.append ?_ (ih hnd.2.1)
    rw [List.perm_ext_iff_of_nodup]
    · intro x
      rw [mem_searchCandidates hs hp hC hnd.1]
      simp only [List.mem_map, List.mem_filter, decide_eq_true_eq]
      constructor
      · rintro ⟨p, h1, h2, h3, rfl⟩; exact ⟨p, ⟨h1, h2, h3⟩, rfl⟩
      · rintro ⟨p, ⟨h1, h2, h3⟩, rfl⟩; exact ⟨p, h1, h2, h3, rfl⟩
    · exact (nodup_searchCandidates hs hp cdets C a).of_map
    · apply List.Nodup.of_map (f := fun x : Contrib N R => x.state)
      rw [List.map_map]
      exact hnd.1.sublist (List.Sublist.map _ List.filter_sublist)

/-- C29: the distributed selection makes a best choice of the candidates of all ranks together,
whenever there are enough candidates and no tie straddles the cut: for every number of ranks, every
distribution of the determinants over the ranks, and all random draws. -/
theorem C29_distributed {srt part : List (Contrib N R) → List (Contrib N R)} (draw : Nat → Nat)
    {partS nthS : Nat → List R → List R}
    (hs : SortsBy (fun x y => bitsetLess x.state y.state) srt) (hp : Rearranges part)
    (hpS : ∀ i, Rearranges (partS i)) (hnS : NthElement (id : R → R) nthS)
    (ndetsMax : Nat) (cdets : List (BitVec N)) (C : List R) (pairs : List (List (Contrib N R)))
    (hC : cdets.length ≤ C.length) (hm : cdets.length < ndetsMax) (h64 : ndetsMax < 2 ^ 64) (hcd : cdets.Nodup)
    (hnd : (pairs.flatten.map (·.state)).Nodup)
    (henough : ndetsMax - cdets.length ≤ (globalCand pairs cdets).length)
    (hcut : ∀ v, IsKthLargest ((globalCand pairs cdets).map fun p => |p.rv|) (ndetsMax - cdets.length) v →
      ((globalCand pairs cdets).filter fun p => v ≤ |p.rv|).length = ndetsMax - cdets.length) :
    ∃ K, asciSelectDist srt part draw partS nthS ndetsMax cdets C pairs = some (K ++ cdets) ∧
      BestOf (Candidate pairs.flatten cdets) (fun s => |totalScore pairs.flatten s|) (ndetsMax - cdets.length) K ∧
      (K ++ cdets).Nodup ∧ (K ++ cdets).length = ndetsMax := by
  set k := ndetsMax - cdets.length with hk
  have hcand := candidates_perm hs hp cdets C pairs hC hnd
  -- scores
  have hscores : ((pairs.map (searchCandidates srt part cdets C)).map fun l => l.map fun p => |p.rv|).flatten.Perm
      ((globalCand pairs cdets).map fun p => |p.rv|) := by
    rw [← List.map_flatten]
    refine (hcand.map _).trans (List.Perm.of_eq ?_)
    rw [List.map_map]
    apply List.map_congr_left
    intro p _
    simp
  obtain ⟨v, hv, hkth⟩ := distQuickselect_spec draw hpS hnS
    ((pairs.map (searchCandidates srt part cdets C)).map fun l => l.map fun p => |p.rv|) k (by omega)
    (by rw [hscores.length_eq, List.length_map]; exact henough)
  have hlen := hcut v (isKth_perm hscores hkth)
  have hkept := distSelect_kept hp v (pairs.map (searchCandidates srt part cdets C))
  have hkept2 : (((pairs.map (searchCandidates srt part cdets C)).flatten.filter fun p => v ≤ |p.rv|).map (·.state)).Perm
      (((globalCand pairs cdets).filter fun p => v ≤ |p.rv|).map (·.state)) := by
    refine ((hcand.filter _).map _).trans (List.Perm.of_eq ?_)
    rw [List.filter_map, List.map_map]
    congr 1
    apply List.filter_congr
    intro p _
    simp
  have hperm := hkept.trans hkept2
  have hgl : (globalCand pairs cdets).Sublist pairs.flatten := List.filter_sublist
  have hmemG : ∀ s, Candidate pairs.flatten cdets s ↔ ∃ p ∈ globalCand pairs cdets, p.state = s := by
    intro s
    have hts : ∀ p ∈ pairs.flatten, totalScore pairs.flatten p.state = p.rv := fun p hpm => by
      unfold totalScore
      have : pairs.flatten.filter (fun q => q.state = p.state) = [p] := by
        have h1 : (pairs.flatten.filter (fun q => q.state = p.state)).Nodup :=
          (hnd.of_map).sublist List.filter_sublist
        rw [← List.perm_singleton, List.perm_ext_iff_of_nodup h1 (List.nodup_singleton p)]
        intro q
        rw [List.mem_filter, List.mem_singleton]
        constructor
        · rintro ⟨hq, e⟩
          exact List.inj_on_of_nodup_map hnd hq hpm (by simpa using e)
        · rintro rfl; exact ⟨hpm, by simp⟩
      rw [this]; simp
    constructor
    · rintro ⟨h0, hc⟩
      have hex : ∃ p ∈ pairs.flatten, p.state = s := by
        by_contra hne
        apply h0
        have : pairs.flatten.filter (fun p => p.state = s) = [] := by
          rw [List.filter_eq_nil_iff]
          intro p hpm
          simp only [decide_eq_true_eq]
          exact fun e => hne ⟨p, hpm, e⟩
        unfold totalScore
        rw [this]; rfl
      obtain ⟨p, hpm, rfl⟩ := hex
      rw [hts p hpm] at h0
      exact ⟨p, List.mem_filter.2 ⟨hpm, by simpa using ⟨h0, hc⟩⟩, rfl⟩
    · rintro ⟨p, hpm, rfl⟩
      have := List.mem_filter.1 hpm
      have h2 : p.rv ≠ 0 ∧ p.state ∉ cdets := by simpa using this.2
      exact ⟨by rw [hts p this.1]; exact h2.1, h2.2⟩
  have hscore : ∀ p ∈ pairs.flatten, totalScore pairs.flatten p.state = p.rv := fun p hpm => by
    unfold totalScore
    have : pairs.flatten.filter (fun q => q.state = p.state) = [p] := by
      have h1 : (pairs.flatten.filter (fun q => q.state = p.state)).Nodup :=
        (hnd.of_map).sublist List.filter_sublist
      rw [← List.perm_singleton, List.perm_ext_iff_of_nodup h1 (List.nodup_singleton p)]
      intro q
      rw [List.mem_filter, List.mem_singleton]
      constructor
      · rintro ⟨hq, e⟩
        exact List.inj_on_of_nodup_map hnd hq hpm (by simpa using e)
      · rintro rfl; exact ⟨hpm, by simp⟩
    rw [this]; simp
  have hall : (distSelect draw partS nthS part k (pairs.map (searchCandidates srt part cdets C)))
      = some ((pairs.map (searchCandidates srt part cdets C)).map fun l =>
        ((legPartition part (fun p : Contrib N R => |p.rv|) v l).1 ++
          (legPartition part (fun p : Contrib N R => |p.rv|) v l).2.1).map (·.state)).flatten := by
    unfold distSelect
    rw [hv]
    dsimp only [bind, Option.bind, pure]
    rw [if_neg]
    rw [hperm.length_eq, List.length_map, hlen]; omega
  generalize hK : ((pairs.map (searchCandidates srt part cdets C)).map fun l =>
        ((legPartition part (fun p : Contrib N R => |p.rv|) v l).1 ++
          (legPartition part (fun p : Contrib N R => |p.rv|) v l).2.1).map (·.state)).flatten = K at hall hperm
  have hKlen : K.length = k := by rw [hperm.length_eq, List.length_map, hlen]
  have hKmem : ∀ s, s ∈ K ↔ ∃ p ∈ globalCand pairs cdets, v ≤ |p.rv| ∧ p.state = s := by
    intro s
    rw [hperm.mem_iff, List.mem_map]
    simp only [List.mem_filter, decide_eq_true_eq]
    constructor
    · rintro ⟨p, ⟨h1, h2⟩, h3⟩; exact ⟨p, h1, h2, h3⟩
    · rintro ⟨p, h1, h2, h3⟩; exact ⟨p, ⟨h1, h2⟩, h3⟩
  have hbest : BestOf (Candidate pairs.flatten cdets) (fun s => |totalScore pairs.flatten s|) k K := by
    refine ⟨?_, ?_, hKlen.le, fun h => absurd hKlen h.ne, ?_⟩
    · rw [hperm.nodup_iff]
      exact hnd.sublist (List.Sublist.map _ (List.filter_sublist.trans hgl))
    · intro s hs'
      obtain ⟨p, h1, -, rfl⟩ := (hKmem s).1 hs'
      exact (hmemG _).2 ⟨p, h1, rfl⟩
    · intro s hs' t ht htn
      obtain ⟨p, h1, h2, rfl⟩ := (hKmem s).1 hs'
      obtain ⟨q, hq, rfl⟩ := (hmemG t).1 ht
      have : ¬ v ≤ |q.rv| := fun h => htn ((hKmem _).2 ⟨q, hq, h, rfl⟩)
      rw [hscore p (hgl.subset h1), hscore q (hgl.subset hq)]
      exact ((not_le.1 this).trans_le h2).le
  refine ⟨K, ?_, hbest, ?_, ?_⟩
  · unfold asciSelectDist
    rw [if_neg (by omega), topK_eq hm.le h64, hall]; rfl
  · rw [List.nodup_append]
    refine ⟨hbest.nodup, hcd, ?_⟩
    intro s hs t ht e
    subst e
    exact (hbest.sub s hs).2 ht
  · rw [List.length_append, hKlen]; omega

/-- a run of the distributed selection on two ranks, with distinct scores -/
example : asciSelectDist (N := 4) (R := Int) exSort id (fun _ => 0) (fun _ => id)
    (fun _ => List.insertionSort fun x y => y ≤ x) 3 [1#4] [1] [[⟨5, 3⟩, ⟨3, 10⟩], [⟨1, -1⟩, ⟨9, -4⟩]]
    = some [3, 9, 1] := by decide +kernel

/-- C66: what always holds for the distributed selection with enough candidates: every selected
determinant is a candidate scoring at least the k-th best score. -/
theorem C66_kept_are_good_partial {part : List (Contrib N R) → List (Contrib N R)} (draw : Nat → Nat)
    {partS nthS : Nat → List R → List R} (hp : Rearranges part)
    (hpS : ∀ i, Rearranges (partS i)) (hnS : NthElement (id : R → R) nthS) (k : Nat)
    (cands : List (List (Contrib N R))) (h1 : 1 ≤ k) (h2 : k ≤ cands.flatten.length) :
    ∃ v K, IsKthLargest (cands.flatten.map fun p => |p.rv|) k v ∧
      distSelect draw partS nthS part k cands = some K ∧ K.length = k ∧
      ∀ s ∈ K, ∃ p ∈ cands.flatten, p.state = s ∧ v ≤ |p.rv| := by
  obtain ⟨v, hv, hkth⟩ := distQuickselect_spec draw hpS hnS (cands.map fun l => l.map fun p => |p.rv|) k h1
    (by rw [← List.map_flatten, List.length_map]; exact h2)
  rw [← List.map_flatten] at hkth
  have hkept := distSelect_kept hp v cands
  have hlen : k ≤ (cands.flatten.filter fun p => v ≤ |p.rv|).length := by
    have := hkth.2.2
    rw [List.filter_map, List.length_map] at this
    exact this
  unfold distSelect
  rw [hv]
  dsimp only [bind, Option.bind, pure]
  refine ⟨v, _, hkth, rfl, ?_, ?_⟩
  · have e := hkept.length_eq
    rw [List.length_map] at e
    split
    · rw [List.length_take]; omega
    · rename_i hnot
      omega
  · intro s hs
    have hs' : s ∈ ((cands.map fun l =>
        ((legPartition part (fun p : Contrib N R => |p.rv|) v l).1 ++
          (legPartition part (fun p : Contrib N R => |p.rv|) v l).2.1).map (·.state)).flatten) := by
      split at hs
      · exact List.mem_of_mem_take hs
      · exact hs
    rw [hkept.mem_iff, List.mem_map] at hs'
    obtain ⟨p, hpm, rfl⟩ := hs'
    rw [List.mem_filter] at hpm
    exact ⟨p, hpm.1, rfl, by simpa using hpm.2⟩

/-- C66 is violated by ties: with two candidates of score 1 on rank 0 and one of score 2 on rank 1,
the best two are cut to the first two gathered, dropping the best candidate. -/
theorem C66_ties_refuted :
    asciSelectDist (N := 4) (R := Int) exSort id (fun _ => 0) (fun _ => id)
      (fun _ => List.insertionSort fun x y => y ≤ x) 3 [8#4] [1] [[⟨1, 1⟩, ⟨2, 1⟩], [⟨4, 2⟩]] = some [1, 2, 8] ∧
    asciSelectSerial (N := 4) (R := Int) exSort id (fun _ => List.insertionSort fun x y => |y.rv| ≤ |x.rv|) 3
      [8#4] [1] [⟨1, 1⟩, ⟨2, 1⟩, ⟨4, 2⟩] = some [4, 1, 8] := by decide +kernel

/-- C66 is violated when fewer candidates exist than requested: the k-th score is read past the end
of the gathered data (a serial search returns all candidates). -/
theorem C66_few_candidates_refuted :
    asciSelectDist (N := 4) (R := Int) exSort id (fun _ => 0) (fun _ => id)
      (fun _ => List.insertionSort fun x y => y ≤ x) 9 [8#4] [1] [[⟨1, 1⟩, ⟨2, 3⟩], [⟨4, 2⟩]] = none ∧
    asciSelectSerial (N := 4) (R := Int) exSort id (fun _ => List.insertionSort fun x y => |y.rv| ≤ |x.rv|) 9
      [8#4] [1] [⟨1, 1⟩, ⟨2, 3⟩, ⟨4, 2⟩] = some [1, 2, 4, 8] := by decide +kernel

/-- more elements requested than there are: the loop always ends in the out-of-range read -/
theorem quickLoop_few {α : Type} [LinearOrder α] (W : Nat) (draw : Nat → Nat) {part : Nat → List α → List α}
    (hp : ∀ i, Rearranges (part i)) (nth : Nat → List α → List α) (fuel : Nat) :
    ∀ (step : Nat) (locals : List (List α)) (k : Nat), locals.flatten.length < k →
    quickLoop W draw part nth fuel step locals k = none := by
  induction fuel with
  | zero => intro _ _ _ _; rfl
  | succ fuel ih =>
    intro step locals k hk
    rw [quickLoop]
    dsimp only
    split
    · unfold quickFinish; dsimp only; rw [if_pos hk]
    split
    · rfl
    rename_i pv hpv
    have hL := filter_flatten_length locals (fun l => (legPartition (part step) id pv l).1) (fun x => decide (pv < x))
      (fun l _ => (legPartition_spec (hp step) id pv l).1)
    have hE := filter_flatten_length locals (fun l => (legPartition (part step) id pv l).2.1) (fun x => decide (x = pv))
      (fun l _ => (legPartition_spec (hp step) id pv l).2.1)
    have hG := filter_flatten_length locals (fun l => (legPartition (part step) id pv l).2.2) (fun x => decide (x < pv))
      (fun l _ => (legPartition_spec (hp step) id pv l).2.2)
    have eL : ((locals.map fun l => legPartition (part step) id pv l).map fun p => p.1.length).sum
        = (locals.flatten.filter fun x => decide (pv < x)).length := by
      rw [← hL.length_eq, List.length_flatten, List.map_map, List.map_map]; rfl
    have eE : ((locals.map fun l => legPartition (part step) id pv l).map fun p => p.2.1.length).sum
        = (locals.flatten.filter fun x => decide (x = pv)).length := by
      rw [← hE.length_eq, List.length_flatten, List.map_map, List.map_map]; rfl
    have eG : (locals.map fun l => legPartition (part step) id pv l).map (·.2.2)
        = locals.map fun l => (legPartition (part step) id pv l).2.2 := by rw [List.map_map]; rfl
    have hsplit := length_split locals.flatten pv
    rw [eL, eE, eG, if_neg (by omega), if_neg (by omega)]
    refine ih _ _ _ ?_
    rw [hG.length_eq]
    omega

/-- C66: asked for at least one determinant, the distributed selection goes through exactly when there are as many
candidates as requested; with fewer it always ends in the out-of-range read, whatever the draws and partitions (the
serial selection returns them all). -/
theorem C66_defined_iff_partial {srt part : List (Contrib N R) → List (Contrib N R)} (draw : Nat → Nat)
    {partS nthS : Nat → List R → List R} (hp : Rearranges part)
    (hpS : ∀ i, Rearranges (partS i)) (hnS : NthElement (id : R → R) nthS) (ndetsMax : Nat) (cdets : List (BitVec N))
    (C : List R) (pairs : List (List (Contrib N R))) (hC : cdets.length ≤ C.length) (hk : cdets.length < ndetsMax)
    (hw : ndetsMax < 2 ^ 64) :
    (asciSelectDist srt part draw partS nthS ndetsMax cdets C pairs).isSome ↔
      ndetsMax - cdets.length ≤ ((pairs.map (searchCandidates srt part cdets C)).flatten).length := by
  have ek : topKElements ndetsMax cdets.length = ndetsMax - cdets.length := by
    unfold topKElements
    rw [show ndetsMax + 2 ^ 64 - cdets.length = (ndetsMax - cdets.length) + 2 ^ 64 by omega, Nat.add_mod_right]
    exact Nat.mod_eq_of_lt (by omega)
  unfold asciSelectDist
  rw [if_neg (by omega), ek, Option.isSome_map]
  constructor
  · intro h
    by_contra hlt
    have hn : distQuickselect draw partS nthS ((pairs.map (searchCandidates srt part cdets C)).map
        fun l => l.map fun p => |p.rv|) (ndetsMax - cdets.length) = none := by
      have hl : (((pairs.map (searchCandidates srt part cdets C)).map
          fun l => l.map fun p => |p.rv|).flatten).length < ndetsMax - cdets.length := by
        rw [← List.map_flatten, List.length_map]; omega
      unfold distQuickselect
      split
      · unfold quickFinish; dsimp only; rw [if_pos hl]
      · exact quickLoop_few _ _ hpS _ _ _ _ _ hl
    unfold distSelect at h
    rw [hn] at h
    simp at h
  · intro h
    obtain ⟨v, K, -, hK, -⟩ := C66_kept_are_good_partial draw hp hpS hnS (ndetsMax - cdets.length)
      (pairs.map (searchCandidates srt part cdets C)) (by omega) h
    rw [hK]; rfl

/-- C66, nothing requested (`ndets_max = ncdets`, which is what the refinement does when `NCDETS_MAX` is at least the
size of the wave function): if the distributed selection goes through, it returns the core determinants, as the
serial one does. -/
theorem C66_nothing_requested_partial (srt part : List (Contrib N R) → List (Contrib N R)) (draw : Nat → Nat)
    (partS nthS : Nat → List R → List R) (ndetsMax : Nat) (cdets : List (BitVec N))
    (C : List R) (pairs : List (List (Contrib N R))) (hk : cdets.length = ndetsMax) (K : List (BitVec N))
    (h : asciSelectDist srt part draw partS nthS ndetsMax cdets C pairs = some K) : K = cdets := by
  have ek : topKElements ndetsMax cdets.length = 0 := by
    subst hk
    unfold topKElements
    rw [Nat.add_sub_cancel_left, Nat.mod_self]
  unfold asciSelectDist at h
  split at h
  · cases h
  rw [ek, Option.map_eq_some_iff] at h
  obtain ⟨a, ha, rfl⟩ := h
  unfold distSelect at ha
  cases hd : distQuickselect draw partS nthS ((pairs.map (searchCandidates srt part cdets C)).map
    fun l => l.map fun p => |p.rv|) 0 with
  | none => rw [hd] at ha; cases ha
  | some v =>
    rw [hd] at ha
    simp only [Option.bind_eq_bind, Option.bind_some, pure, Option.some.injEq] at ha
    split at ha
    · subst ha; simp
    · rename_i hn
      rw [not_lt, Nat.le_zero, List.length_eq_zero_iff] at hn
      rw [← ha, hn]; rfl

/-- a run with nothing requested that goes through: the pivot scores less than the other candidate, which is left to read -/
example : asciSelectDist (N := 4) (R := Int) exSort id (fun _ => 0) (fun _ => id)
    (fun _ => List.insertionSort fun x y => y ≤ x) 1 [8#4] [1] [[⟨1, 1⟩], [⟨4, 2⟩]] = some [8#4] := by decide +kernel

/-- C66 is violated when nothing is requested: on two ranks whose candidates score 3 and 1, the quickselect looks for
the 0th largest score among nothing, whatever number is drawn, and reads through a null pointer (the serial
selection returns the core determinants). -/
theorem C66_nothing_requested_refuted (draw : Nat → Nat) :
    asciSelectDist (N := 4) (R := Int) exSort id draw (fun _ => id)
      (fun _ => List.insertionSort fun x y => y ≤ x) 1 [8#4] [1] [[⟨1, 3⟩], [⟨4, 1⟩]] = none ∧
    asciSelectSerial (N := 4) (R := Int) exSort id (fun _ => List.insertionSort fun x y => |y.rv| ≤ |x.rv|) 1
      [8#4] [1] [⟨1, 3⟩, ⟨4, 1⟩] = some [8#4] := by
  refine ⟨?_, by decide +kernel⟩
  rw [show (none : Option (List (BitVec 4))) = asciSelectDist (N := 4) (R := Int) exSort id (fun _ => 0) (fun _ => id)
      (fun _ => List.insertionSort fun x y => y ≤ x) 1 [8#4] [1] [[⟨1, 3⟩], [⟨4, 1⟩]] by decide +kernel]
  have hc : ([[⟨1, 3⟩], [⟨4, 1⟩]] : List (List (Contrib 4 Int))).map (searchCandidates exSort id [8#4] [1])
      = [[⟨1, -3⟩], [⟨4, -1⟩]] := by decide +kernel
  unfold asciSelectDist distSelect distQuickselect
  rw [hc]
  have hq : ∀ d : Nat → Nat, quickLoop 2 d (fun _ => id) (fun _ => List.insertionSort fun x y => y ≤ x) 3 0
      [[(3 : Int)], [1]] 0 = none := by
    intro d
    rw [quickLoop]
    have : d 0 % ((List.map List.length [[(3 : Int)], [1]]).sum - 1) = 0 := Nat.mod_one _
    rw [this]
    have hrec : ∀ l : List (List Int), l.flatten = [] → ∀ d : Nat → Nat, quickLoop 2 d (fun _ => id)
        (fun _ => List.insertionSort fun x y => y ≤ x) 2 1 l 0 = none := by
      intro l hl d
      rw [quickLoop]
      dsimp only
      have : (l.map List.length).sum = 0 := by rw [← List.length_flatten, hl]; rfl
      rw [this, if_pos (by decide)]
      unfold quickFinish
      simp [hl]
    simp [qsStarts, pivotOwner, legPartition, List.range_succ]
    exact hrec _ rfl d
  simp only [List.map_cons, List.map_nil]
  rw [show topKElements 1 [8#4].length = 0 by decide]
  simp only [List.length_cons, List.length_nil]
  have e := hq draw
  have e0 := hq (fun _ => 0)
  simp at e e0 ⊢
  rw [e, e0]

end search
end Macis
