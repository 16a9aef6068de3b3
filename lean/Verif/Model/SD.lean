import Verif.Model.Bits
/-
Model of `include/macis/sd_operations.hpp`.

A full determinant has width `2*M` (alpha = low half, beta = high half, `N/2 = M`).
Output parameters become results.  `none` marks behaviour that is undefined in the C++
(out-of-bounds access, size_t underflow used as an allocation size).
-/
namespace Macis

/-- `canonical_hf_determinant(nalpha, nbeta)` (sd_operations.hpp:30-36). -/
def canonicalHF (M nalpha nbeta : Nat) : BitVec (2 * M) :=
  fullMask (2 * M) nalpha ||| (fullMask (2 * M) nbeta <<< M)

/-- `canonical_hf_determinant(nalpha, nbeta, orb_ens)` (sd_operations.hpp:55-70).
`std::stable_sort` by `orb_ens[i1] < orb_ens[i2]` is the (stable) merge sort of the index list;
reading `idx[i]` past the end is `none`.  The vector of `n` energies is the function `orbEns`
restricted to `i < n`. -/
def canonicalHFEns {α : Type} [LT α] [DecidableLT α] (M nalpha nbeta : Nat) (n : Nat)
    (orbEns : Nat → α) : Option (BitVec (2 * M)) :=
  let idx := (List.range n).mergeSort (fun i1 i2 => !decide (orbEns i2 < orbEns i1))
  if nalpha ≤ idx.length ∧ nbeta ≤ idx.length then
    let alpha := (idx.take nalpha).foldl (fun s i => flip s i) (0#(2 * M))
    let beta := (idx.take nbeta).foldl (fun s i => flip s (i + M)) (0#(2 * M))
    some (alpha ||| beta)
  else none

/-- `bitset_to_occ_vir` (sd_operations.hpp:81-96).  The virtual loop (lines 91-95) has the same body
as the loop of `bits_to_indices`, run on the complement for `nvir` iterations.  `nocc > norb`
underflows `norb - nocc` (`none`). -/
def bitsetToOccVir {N : Nat} (norb : Nat) (state : BitVec N) : Option (List Nat × List Nat) :=
  let o := bitsToIndices state
  if norb < o.length then none
  else some (o, bitsToIndicesLoop (norb - o.length) (~~~state))

/-- `bitset_to_occ_vir_as` (sd_operations.hpp:110-126). -/
def bitsetToOccVirAs {N : Nat} (state : BitVec N) (asOrbs : List Nat) : List Nat × List Nat :=
  (asOrbs.filter (fun i => state.getLsbD i), asOrbs.filter (fun i => !state.getLsbD i))

/-- `append_singles` (sd_operations.hpp:128-143): loops `a` then `i`. -/
def appendSingles {N : Nat} (state : BitVec N) (occ vir : List Nat) : List (BitVec N) :=
  vir.flatMap fun a => occ.map fun i => state ^^^ flip (flip (0#N) i) a

/-- Index quadruples visited by `append_doubles` (sd_operations.hpp:157-160), in loop order. -/
def doublesIndices (nocc nvir : Nat) : List (Nat × Nat × Nat × Nat) :=
  (List.range nvir).flatMap fun a => (List.range nocc).flatMap fun i =>
    (List.range' (a + 1) (nvir - (a + 1))).flatMap fun b =>
      (List.range' (i + 1) (nocc - (i + 1))).map fun j => (a, i, b, j)

/-- `append_doubles` (sd_operations.hpp:145-166).  All accesses `occ[i]`, `vir[a]` are in range. -/
def appendDoubles {N : Nat} (state : BitVec N) (occ vir : List Nat) : List (BitVec N) :=
  (doublesIndices occ.length vir.length).map fun (a, i, b, j) =>
    state ^^^ flip (flip (flip (flip (0#N) (occ.getD i 0)) (vir.getD a 0)) (occ.getD j 0))
      (vir.getD b 0)

/-- `generate_singles` (sd_operations.hpp:168-176). -/
def generateSingles {N : Nat} (norb : Nat) (state : BitVec N) : Option (List (BitVec N)) :=
  (bitsetToOccVir norb state).map fun (o, v) => appendSingles state o v

/-- `generate_doubles` (sd_operations.hpp:178-186). -/
def generateDoubles {N : Nat} (norb : Nat) (state : BitVec N) : Option (List (BitVec N)) :=
  (bitsetToOccVir norb state).map fun (o, v) => appendDoubles state o v

/-- `generate_singles_as` (sd_operations.hpp:202-211). -/
def generateSinglesAs {N : Nat} (state : BitVec N) (asOrbs : List Nat) : List (BitVec N) :=
  appendSingles state (bitsetToOccVirAs state asOrbs).1 (bitsetToOccVirAs state asOrbs).2

/-- The doubles half of `generate_singles_doubles_as` (sd_operations.hpp:214-226). -/
def generateDoublesAs {N : Nat} (state : BitVec N) (asOrbs : List Nat) : List (BitVec N) :=
  appendDoubles state (bitsetToOccVirAs state asOrbs).1 (bitsetToOccVirAs state asOrbs).2

/-- `expand_bitset<N>(alpha) | (expand_bitset<N>(beta) << N/2)`, the assembly used by all
`_spin` generators (e.g. sd_operations.hpp:348,355,414-416). -/
def joinSpin {M : Nat} (alpha beta : BitVec M) : BitVec (2 * M) :=
  expandBitset (2 * M) alpha ||| (expandBitset (2 * M) beta <<< M)

/-- Assembly of spin-resolved singles (sd_operations.hpp:249-260, 346-357, 381-392). -/
def spinSingles {M : Nat} (sa sb : BitVec M) (singA singB : List (BitVec M)) :
    List (BitVec (2 * M)) :=
  singA.map (fun s => joinSpin s sb) ++ singB.map (fun s => joinSpin sa s)

/-- Assembly of spin-resolved doubles (sd_operations.hpp:305-324, 398-417). -/
def spinDoubles {M : Nat} (sa sb : BitVec M) (singA singB doubA doubB : List (BitVec M)) :
    List (BitVec (2 * M)) :=
  doubA.map (fun s => joinSpin s sb) ++ doubB.map (fun s => joinSpin sa s) ++
    singA.flatMap (fun a => singB.map fun b => joinSpin a b)

/-- `generate_singles_spin` (sd_operations.hpp:327-358). -/
def generateSinglesSpin {M : Nat} (norb : Nat) (state : BitVec (2 * M)) :
    Option (List (BitVec (2 * M))) := do
  let singA ← generateSingles norb (loWord state)
  let singB ← generateSingles norb (hiWord state)
  return spinSingles (loWord state) (hiWord state) singA singB

/-- `generate_singles_doubles_spin` (sd_operations.hpp:360-418): (singles, doubles). -/
def generateSinglesDoublesSpin {M : Nat} (norb : Nat) (state : BitVec (2 * M)) :
    Option (List (BitVec (2 * M)) × List (BitVec (2 * M))) := do
  let singA ← generateSingles norb (loWord state)
  let doubA ← generateDoubles norb (loWord state)
  let singB ← generateSingles norb (hiWord state)
  let doubB ← generateDoubles norb (hiWord state)
  return (spinSingles (loWord state) (hiWord state) singA singB,
    spinDoubles (loWord state) (hiWord state) singA singB doubA doubB)

/-- `generate_singles_doubles_spin_as` (sd_operations.hpp:264-325): (singles, doubles). -/
def generateSinglesDoublesSpinAs {M : Nat} (state : BitVec (2 * M)) (asOrbs : List Nat) :
    List (BitVec (2 * M)) × List (BitVec (2 * M)) :=
  let singA := generateSinglesAs (loWord state) asOrbs
  let doubA := generateDoublesAs (loWord state) asOrbs
  let singB := generateSinglesAs (hiWord state) asOrbs
  let doubB := generateDoublesAs (hiWord state) asOrbs
  (spinSingles (loWord state) (hiWord state) singA singB,
    spinDoubles (loWord state) (hiWord state) singA singB doubA doubB)

/-- `generate_cis_hilbert_space` (sd_operations.hpp:477-493). -/
def generateCis {M : Nat} (norb : Nat) (state : BitVec (2 * M)) :
    Option (List (BitVec (2 * M))) := do
  let s ← generateSinglesSpin norb state
  return state :: s

/-- `generate_cisd_hilbert_space` (sd_operations.hpp:420-437). -/
def generateCisd {M : Nat} (norb : Nat) (state : BitVec (2 * M)) :
    Option (List (BitVec (2 * M))) := do
  let (s, d) ← generateSinglesDoublesSpin norb state
  return state :: (s ++ d)

/-- Replace the rightmost `false` of a list by `true` (part of `prev_permutation`). -/
def replaceLastFalse : List Bool → List Bool
  | [] => []
  | x :: xs => if false ∈ xs then x :: replaceLastFalse xs else (true :: xs)

/-- `std::prev_permutation` on `std::vector<bool>` (called in sd_operations.hpp:454): find the
rightmost descent `v[i-1] > v[i]`, swap `v[i-1]` with the rightmost smaller element to its right,
reverse the suffix; `none` when there is no descent (the C++ returns `false` and the loop ends).
Written recursively: a descent further right takes precedence. -/
def prevPermutation : List Bool → Option (List Bool)
  | [] => none
  | x :: xs =>
    match prevPermutation xs with
    | some xs' => some (x :: xs')
    | none => if x = true ∧ false ∈ xs then some (false :: (replaceLastFalse xs).reverse) else none

/-- Lines 446-452 of sd_operations.hpp: the bitset of the `true` positions. -/
def bitsOfBools (N : Nat) (v : List Bool) : BitVec N :=
  (List.range v.length).foldl
    (fun temp i => if v.getD i false then temp ||| ((BitVec.ofNat N 1) <<< i) else temp) 0#N

/-- The do-while loop of `generate_combs` (sd_operations.hpp:445-454), at most `fuel + 1`
iterations. -/
def combsLoop (N : Nat) : Nat → List Bool → List (BitVec N)
  | 0, v => [bitsOfBools N v]
  | fuel + 1, v =>
    bitsOfBools N v ::
      match prevPermutation v with
      | some v' => combsLoop N fuel v'
      | none => []

/-- `generate_combs` (sd_operations.hpp:439-457); `nset > nbits` writes out of bounds.  The fuel is
the number of boolean vectors; `C10` shows that the loop stops by itself before. -/
def generateCombs (N nbits nset : Nat) : Option (List (BitVec N)) :=
  if nset ≤ nbits then
    some (combsLoop N (2 ^ nbits) (List.replicate nset true ++ List.replicate (nbits - nset) false))
  else none

/-- `generate_hilbert_space` (sd_operations.hpp:459-475). -/
def generateHilbertSpace (M norbs nalpha nbeta : Nat) : Option (List (BitVec (2 * M))) := do
  let alphaDets ← generateCombs (2 * M) norbs nalpha
  let betaDets ← generateCombs (2 * M) norbs nbeta
  return alphaDets.flatMap fun a => betaDets.map fun (b : BitVec (2 * M)) => a ||| (b <<< M)

/-- `first_occupied_flipped` (sd_operations.hpp:496-499). -/
def firstOccupiedFlipped {N : Nat} (state ex : BitVec N) : Nat := ffs (state &&& ex) - 1

/-- `single_excitation_sign` (sd_operations.hpp:502-512); `±1` as an integer. -/
def singleExcitationSign {N : Nat} (state : BitVec N) (p q : Nat) : Int :=
  let mask :=
    if p > q then state &&& (fullMask N p ^^^ fullMask N (q + 1))
    else state &&& (fullMask N q ^^^ fullMask N (p + 1))
  if count mask % 2 = 1 then -1 else 1

/-- `single_excitation_sign_indices` (sd_operations.hpp:515-524): `(o1, v1, sign)`. -/
def singleExcitationSignIndices {N : Nat} (bra ket ex : BitVec N) : Nat × Nat × Int :=
  let o1 := firstOccupiedFlipped ket ex
  let v1 := firstOccupiedFlipped bra ex
  (o1, v1, singleExcitationSign ket v1 o1)

/-- `doubles_sign_indices` (sd_operations.hpp:527-542): `(o1, v1, o2, v2, sign)`. -/
def doublesSignIndices {N : Nat} (bra ket ex : BitVec N) : Nat × Nat × Nat × Nat × Int :=
  let o1 := firstOccupiedFlipped ket ex
  let v1 := firstOccupiedFlipped bra ex
  let sign1 := singleExcitationSign ket v1 o1
  let ket' := flip (flip ket o1) v1
  let ex' := flip (flip ex o1) v1
  let o2 := firstOccupiedFlipped ket' ex'
  let v2 := firstOccupiedFlipped bra ex'
  (o1, v1, o2, v2, sign1 * singleExcitationSign ket' v2 o2)

/-- `doubles_sign` (sd_operations.hpp:545-550). -/
def doublesSign {N : Nat} (bra ket ex : BitVec N) : Int :=
  (doublesSignIndices bra ket ex).2.2.2.2

/-- Ordered index pairs `i < j < n` in loop order (sd_operations.hpp:571-572, 579-580). -/
def ltPairs (n : Nat) : List (Nat × Nat) :=
  (List.range n).flatMap fun i => (List.range' (i + 1) (n - (i + 1))).map fun j => (i, j)

/-- `generate_residues` (sd_operations.hpp:553-593): the residues appended to `res`. -/
def generateResidues {M : Nat} (state : BitVec (2 * M)) (res : List (BitVec (2 * M))) :
    List (BitVec (2 * M)) :=
  let sa := loWord state
  let sb := hiWord state
  let occA := bitsToIndices sa
  let occB := bitsToIndices sb
  let one := BitVec.ofNat M 1
  let full := 2 * M
  res ++
  ((ltPairs occA.length).map fun (i, j) =>
    let mask := (one <<< occA.getD i 0) ||| (one <<< occA.getD j 0)
    expandBitset full (sa &&& ~~~mask) ||| (expandBitset full sb <<< M)) ++
  ((ltPairs occB.length).map fun (i, j) =>
    let mask := (one <<< occB.getD i 0) ||| (one <<< occB.getD j 0)
    (expandBitset full (sb &&& ~~~mask) <<< M) ||| expandBitset full sa) ++
  (occA.flatMap fun i => occB.map fun j =>
    state &&& ~~~(expandBitset full (one <<< i) ||| (expandBitset full (one <<< j) <<< M)))

/-- `to_canonical_string` (sd_operations.hpp:595-612). -/
def toCanonicalString {M : Nat} (state : BitVec (2 * M)) : List Char :=
  (List.range M).map fun i =>
    if (loWord state).getLsbD i && (hiWord state).getLsbD i then '2'
    else if (loWord state).getLsbD i then 'u'
    else if (hiWord state).getLsbD i then 'd'
    else '0'

/-- Loop of `from_canonical_string` (sd_operations.hpp:617-626) from position `i`, updating
`(state_alpha, state_beta)`.  `std::bitset<N>::set(i)` throws `out_of_range` when `i ≥ N` (`none`). -/
def fromCanonicalLoop {N : Nat} : Nat → List Char → BitVec N × BitVec N →
    Option (BitVec N × BitVec N)
  | _, [], st => some st
  | i, c :: cs, (a, b) =>
    if c = '2' then
      if i < N then fromCanonicalLoop (i + 1) cs (a ||| BitVec.twoPow N i, b ||| BitVec.twoPow N i)
      else none
    else if c = 'u' then
      if i < N then fromCanonicalLoop (i + 1) cs (a ||| BitVec.twoPow N i, b) else none
    else if c = 'd' then
      if i < N then fromCanonicalLoop (i + 1) cs (a, b ||| BitVec.twoPow N i) else none
    else fromCanonicalLoop (i + 1) cs (a, b)

/-- `from_canonical_string` (sd_operations.hpp:614-629). -/
def fromCanonicalString (M : Nat) (str : List Char) : Option (BitVec (2 * M)) :=
  (fromCanonicalLoop 0 str (0#(2 * M), 0#(2 * M))).map fun (a, b) => a ||| (b <<< M)

end Macis
