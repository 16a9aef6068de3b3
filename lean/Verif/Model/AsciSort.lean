import Verif.Model.Bits
import Mathlib.Algebra.Order.Group.Abs
/-
Model of `include/macis/asci/determinant_sort.hpp`, of the selection half of `asci_search`
(`include/macis/asci/determinant_search.hpp:394-663`) and of
`include/macis/util/dist_quickselect.hpp`.

Simplification: scores (`double`) are elements of an arbitrary linearly ordered additive group `R`;
sums are exact.  Library algorithms whose result is not determined by their specification
(`std::sort` on ties, `std::partition`, `std::nth_element`) are parameters; the theorems hold for
every function meeting the library's specification.
-/
namespace Macis

/-- `asci_contrib` (determinant_contributions.hpp:16-20). -/
structure Contrib (N : Nat) (R : Type) where
  state : BitVec N
  rv : R
deriving DecidableEq

/-- Content of the array after the accumulation loop (determinant_sort.hpp:59-71 and 102-113),
`cur` being the element under `cur_it` and the list the elements from `it` on: an element with the
state of `cur` is combined into it by `op` (and left in place as `leave x`), any other becomes the
new `cur`.  Result: final content of `cur`, and the elements after it. -/
def combineRun {N : Nat} {R : Type} (op : R → R → R) (leave : Contrib N R → Contrib N R) (cur : Contrib N R) :
    List (Contrib N R) → Contrib N R × List (Contrib N R)
  | [] => (cur, [])
  | x :: xs =>
    if x.state ≠ cur.state then
      let (x', r) := combineRun op leave x xs
      (cur, x' :: r)
    else
      let (c', r) := combineRun op leave { cur with rv := op cur.rv x.rv } xs
      (c', leave x :: r)

/-- `std::unique` by state after the element `last` was kept. -/
def uniqueFrom {N : Nat} {R : Type} (last : Contrib N R) : List (Contrib N R) → List (Contrib N R)
  | [] => []
  | x :: xs => if x.state = last.state then uniqueFrom last xs else x :: uniqueFrom x xs

/-- Sort by bitstring (`srt`), combine runs, remove duplicates. -/
def sortCombine {N : Nat} {R : Type} (op : R → R → R) (leave : Contrib N R → Contrib N R)
    (srt : List (Contrib N R) → List (Contrib N R)) (l : List (Contrib N R)) : List (Contrib N R) :=
  match srt l with
  | [] => []
  | x :: xs =>
    let (c, r) := combineRun op leave x xs
    c :: uniqueFrom c r

/-- `sort_and_accumulate_asci_pairs` (determinant_sort.hpp:39-83), followed by the erase of the dead
tail (83-85).  The element merged into `cur` is set to zero. -/
def sortAccumulate {N : Nat} {R : Type} [AddCommGroup R]
    (srt : List (Contrib N R) → List (Contrib N R)) (l : List (Contrib N R)) : List (Contrib N R) :=
  if l.isEmpty then l else sortCombine (· + ·) (fun x => { x with rv := 0 }) srt l

/-- `keep_only_largest_copy_asci_pairs` (determinant_sort.hpp:85-119). -/
def keepLargestCopy {N : Nat} {R : Type} [LinearOrder R]
    (srt : List (Contrib N R) → List (Contrib N R)) (l : List (Contrib N R)) : List (Contrib N R) :=
  if l.isEmpty then l else sortCombine max id srt l

/-- `reorder_ci_on_coeff` (determinant_sort.hpp:18-37); `srt` sorts the indices by decreasing
absolute coefficient.  `none`: `C.size() != dets.size()` (assertion, out-of-range access). -/
def reorderCi {α R : Type} (srt : List Nat → List Nat) (dets : List α) (C : List R) (d0 : α) (c0 : R) :
    Option (List α × List R) :=
  if C.length = dets.length then
    let idx := srt (List.range C.length)
    some (idx.map fun i => dets.getD i d0, idx.map fun i => C.getD i c0)
  else none

variable {N : Nat} {R : Type} [AddCommGroup R] [LinearOrder R]

/-- The candidates of `asci_search` before the top-K step (determinant_search.hpp:528-544): scores
made negative, core determinants added with their (positive) coefficients, the larger copy kept,
negative scores kept.  `part` is the order left by `std::partition`. -/
def searchCandidates (srt part : List (Contrib N R) → List (Contrib N R)) (cdets : List (BitVec N))
    (C : List R) (pairs : List (Contrib N R)) : List (Contrib N R) :=
  let neg := pairs.map fun x => { x with rv := -|x.rv| }
  let seeded := neg ++ (cdets.zip C).map fun x => ⟨x.1, |x.2|⟩
  (part (keepLargestCopy srt seeded)).filter fun p => p.rv < 0

/-- `ndets_max - ncdets` in `size_t` (determinant_search.hpp:547). -/
def topKElements (ndetsMax ncdets : Nat) : Nat := (ndetsMax + 2 ^ 64 - ncdets) % 2 ^ 64

/-- `asci_search` on one rank after the contributions have been collected
(determinant_search.hpp:498, 528-547, 565-566, 621-629, 647-653).  `C.size() < ncdets` is an
out-of-range read (`none`).  `nth k l` is the array after `std::nth_element` at position `k`. -/
def asciSelectSerial (srt part : List (Contrib N R) → List (Contrib N R))
    (nth : Nat → List (Contrib N R) → List (Contrib N R)) (ndetsMax : Nat) (cdets : List (BitVec N))
    (C : List R) (contribs : List (Contrib N R)) : Option (List (BitVec N)) :=
  if C.length < cdets.length then none
  else
    let pairs := searchCandidates srt part cdets C (sortAccumulate srt contribs)
    let k := topKElements ndetsMax cdets.length
    let kept := if pairs.length > k then (nth k pairs).take k else pairs
    some (kept.map (·.state) ++ cdets)

/-- `leg_partition` (dist_quickselect.hpp:18-29) by the order `greater`: (greater, equal, less).
`part` is the order left by `std::partition`. -/
def legPartition {α β : Type} [LinearOrder β] (part : List α → List α) (f : α → β) (pivot : β) (l : List α) :
    List α × List α × List α :=
  let g := (part l).filter fun x => pivot < f x
  let rest := (part l).filter fun x => ¬ pivot < f x
  (g, (part rest).filter fun x => f x = pivot, (part rest).filter fun x => ¬ f x = pivot)

/-- exclusive scan of the sizes (`total_gather_and_exclusive_scan`, dist_quickselect.hpp:31-46) -/
def qsStarts (sizes : List Nat) : List Nat :=
  (List.range sizes.length).map fun r => (sizes.take r).sum

/-- owner of the pivot: `upper_bound` on the starts minus one (dist_quickselect.hpp:84-90) -/
def pivotOwner (starts : List Nat) (pivotIdx : Nat) : Nat :=
  (starts.findIdx fun s => pivotIdx < s) - 1

/-- The gathered tail of `dist_quickselect` (dist_quickselect.hpp:127-147): `k`-th element of the
gathered data; `none` for `k` beyond the data (out-of-range iterators).  With `k = 0`, `max_element` gets an empty
range and returns its end, which is the beginning of the data: the element there, and with no data a read through
a null pointer (`none`). -/
def quickFinish {α : Type} [LinearOrder α] (nth : Nat → List α → List α) (locals : List (List α)) (k : Nat) :
    Option α :=
  let data := locals.flatten
  if data.length < k then none
  else if k = 0 then (nth 0 data).head?
  else
    -- `max_element` under `greater`: an element no other of the range comes after
    ((nth k data).take k).min?

/-- The loop of `dist_quickselect` (dist_quickselect.hpp:74-125) for `W > 1` ranks.  All ranks take
the same branches (they branch on all-reduced counts and draw the same random numbers), so the
model follows the list of the ranks' local ranges; `draw i` is the `i`-th random number and
`part i` the reordering made by `std::partition` in round `i`.  `none`: out of fuel or an
out-of-range access. -/
def quickLoop {α : Type} [LinearOrder α] (W : Nat) (draw : Nat → Nat) (part : Nat → List α → List α)
    (nth : Nat → List α → List α) : Nat → Nat → List (List α) → Nat → Option α
  | 0, _, _, _ => none
  | fuel + 1, step, locals, k =>
    let sizes := locals.map List.length
    let total := sizes.sum
    if total < W then quickFinish nth locals k
    else
      let pivotIdx := draw step % (total - 1)
      let starts := qsStarts sizes
      let owner := pivotOwner starts pivotIdx
      match (locals.getD owner [])[pivotIdx - starts.getD owner 0]? with
      | none => none
      | some pivot =>
        let parts := locals.map fun l => legPartition (part step) id pivot l
        let totL := (parts.map fun p => p.1.length).sum
        let totE := (parts.map fun p => p.2.1.length).sum
        if k ≤ totL then quickLoop W draw part nth fuel (step + 1) (parts.map (·.1)) k
        else if k ≤ totL + totE then some pivot
        else quickLoop W draw part nth fuel (step + 1) (parts.map (·.2.2)) (k - (totL + totE))

/-- `dist_quickselect` with `greater` (dist_quickselect.hpp:48-150); the fuel bounds the number of
rounds (C30 shows it suffices).  One rank: lines 59-63. -/
def distQuickselect {α : Type} [LinearOrder α] (draw : Nat → Nat) (part : Nat → List α → List α)
    (nth : Nat → List α → List α) (locals : List (List α)) (k : Nat) : Option α :=
  if locals.length = 1 then quickFinish nth locals k
  else quickLoop locals.length draw part nth (locals.flatten.length + 1) 0 locals k

/-- The distributed top-K step of `asci_search` (determinant_search.hpp:567-619): `cands r` are the
candidates of rank `r`.  Returns the list of states every rank holds afterwards. -/
def distSelect (draw : Nat → Nat) (partS : Nat → List R → List R) (nthS : Nat → List R → List R)
    (part : List (Contrib N R) → List (Contrib N R)) (k : Nat) (cands : List (List (Contrib N R))) :
    Option (List (BitVec N)) := do
  let kth ← distQuickselect draw partS nthS (cands.map fun l => l.map fun p => |p.rv|) k
  let keep := cands.map fun l =>
    let p := legPartition part (fun p : Contrib N R => |p.rv|) kth l
    (p.1 ++ p.2.1).map (·.state)
  let all := keep.flatten
  return if all.length > k then all.take k else all

/-- `asci_search` on several ranks after the contributions have been collected
(determinant_search.hpp:528-620, 647-653); `pairs` are the accumulated contributions of each rank. -/
def asciSelectDist (srt part : List (Contrib N R) → List (Contrib N R)) (draw : Nat → Nat)
    (partS : Nat → List R → List R) (nthS : Nat → List R → List R) (ndetsMax : Nat) (cdets : List (BitVec N))
    (C : List R) (pairs : List (List (Contrib N R))) : Option (List (BitVec N)) :=
  if C.length < cdets.length then none
  else
    (distSelect draw partS nthS part (topKElements ndetsMax cdets.length)
      (pairs.map (searchCandidates srt part cdets C))).map (· ++ cdets)

end Macis
