import Verif.Model.AsciSort
import Mathlib.Data.Real.Basic
/-
The accumulation of ASCI scores and the selection of one rank in floating point: Model/AsciSort.lean with the sum
`cur_it->rv += it->rv` rounded.  Taking absolute values, negating and comparing are exact.
-/
namespace Macis
variable {N : Nat}

/-- `sort_and_accumulate_asci_pairs` (determinant_sort.hpp:39-83) in floating point. -/
noncomputable def sortAccumulateR (rnd : ℝ → ℝ) (srt : List (Contrib N ℝ) → List (Contrib N ℝ)) (l : List (Contrib N ℝ)) :
    List (Contrib N ℝ) :=
  if l.isEmpty then l else sortCombine (fun a b => rnd (a + b)) (fun x => { x with rv := 0 }) srt l

/-- `asci_search` on one rank after the contributions have been collected (determinant_search.hpp:498, 528-547, 565-566,
621-629, 647-653) in floating point. -/
noncomputable def asciSelectSerialR (rnd : ℝ → ℝ) (srt part : List (Contrib N ℝ) → List (Contrib N ℝ))
    (nth : Nat → List (Contrib N ℝ) → List (Contrib N ℝ)) (ndetsMax : Nat) (cdets : List (BitVec N))
    (C : List ℝ) (contribs : List (Contrib N ℝ)) : Option (List (BitVec N)) :=
  if C.length < cdets.length then none
  else
    let pairs := searchCandidates srt part cdets C (sortAccumulateR rnd srt contribs)
    let k := topKElements ndetsMax cdets.length
    let kept := if pairs.length > k then (nth k pairs).take k else pairs
    some (kept.map (·.state) ++ cdets)

end Macis
