/-
Model of `include/macis/bitset_operations.hpp`.

`std::bitset<N>` is modelled by `BitVec N`; `bits[i]` is `getLsbD i`.  Machine words are
modelled by natural numbers `< 2^64` obtained from `BitVec.toNat`.
Undefined behaviour (`__builtin_clz(0)`, reading past the bitset) is the outcome `none`.
-/
namespace Macis

/-- `std::bitset<N>::flip(pos)` (used throughout, e.g. bitset_operations.hpp:214).
Simplification: for `pos ≥ N` the C++ throws `std::out_of_range`; here the bitset is unchanged,
and every theorem using `flip` is about positions `< N`. -/
def flip {N : Nat} (s : BitVec N) (i : Nat) : BitVec N := s ^^^ BitVec.twoPow N i

/-- `std::bitset<N>::count()` (used in bitset_operations.hpp:209). -/
def count {N : Nat} (s : BitVec N) : Nat := (List.range N).countP (fun i => s.getLsbD i)

/-- `ffsl` / `ffsll` of glibc on a 64-bit word (used in bitset_operations.hpp:156,158,162,164):
one plus the index of the least significant set bit, `0` for `0`. -/
def ffsWord (w : Nat) : Nat :=
  match (List.range 64).find? (fun i => w.testBit i) with
  | some i => i + 1
  | none => 0

/-- `clz(unsigned long)` = `__builtin_clzl` (bitset_operations.hpp:36,46) on a 64-bit word;
undefined (`none`) on `0`. -/
def clz64 (w : Nat) : Option Nat := if w = 0 then none else some (63 - w.log2)

/-- `fls(Integral i)` for 64-bit unsigned integers (bitset_operations.hpp:58-63). -/
def flsWord (w : Nat) : Option Nat := (clz64 w).map (fun z => 64 - z - 1)

/-- `full_mask<N>(i)` (bitset_operations.hpp:136-141).  `assert(i <= N)`: theorems assume it. -/
def fullMask (N i : Nat) : BitVec N := (~~~(0#N)) >>> (N - i)

/-- `full_mask<N, M>()` (bitset_operations.hpp:108-122): the word-wise special cases
(`N == M/2`, `N ∈ {32, 64}`) write the low word directly, the others shift. -/
def fullMaskStatic (N M : Nat) : BitVec M :=
  if N = M / 2 then
    if N = 64 then BitVec.ofNat M (2 ^ 64 - 1)
    else if N = 32 then BitVec.ofNat M (2 ^ 32 - 1)
    else (~~~(0#M)) >>> (M - N)
  else (~~~(0#M)) >>> (M - N)

/-- `ffs(std::bitset<N>)` (bitset_operations.hpp:153-172): all four width paths.  The
`reinterpret_cast` to 64-bit words is little endian. -/
def ffs {N : Nat} (bits : BitVec N) : Nat :=
  if N ≤ 32 then ffsWord bits.toNat
  else if N ≤ 64 then ffsWord bits.toNat
  else if N ≤ 128 then
    let w0 := bits.toNat % 2 ^ 64
    let w1 := bits.toNat / 2 ^ 64
    if w0 ≠ 0 then ffsWord w0 else ffsWord w1 + 64
  else
    match (List.range N).find? (fun i => bits.getLsbD i) with
    | some i => i + 1
    | none => N

/-- `fls(std::bitset<N>)` (bitset_operations.hpp:184-203).  `none` is undefined behaviour:
`clz(0)`, or (width > 128) the loop `ind >= 0` over an unsigned index that runs off the bitset. -/
def fls {N : Nat} (bits : BitVec N) : Option Nat :=
  if N ≤ 32 then flsWord bits.toNat
  else if N ≤ 64 then flsWord bits.toNat
  else if N ≤ 128 then
    let w0 := bits.toNat % 2 ^ 64
    let w1 := bits.toNat / 2 ^ 64
    if w1 ≠ 0 then (flsWord w1).map (· + 64) else flsWord w0
  else (List.range N).reverse.find? (fun i => bits.getLsbD i)

/-- The loop of `bits_to_indices` (bitset_operations.hpp:212-216), `c` iterations left. -/
def bitsToIndicesLoop {N : Nat} : Nat → BitVec N → List Nat
  | 0, _ => []
  | c + 1, bits =>
    let ind := ffs bits - 1
    ind :: bitsToIndicesLoop c (flip bits ind)

/-- `bits_to_indices` (bitset_operations.hpp:206-225). -/
def bitsToIndices {N : Nat} (bits : BitVec N) : List Nat :=
  bitsToIndicesLoop (count bits) bits

/-- The copy loop `for i < K: if(bits[i]) out[i] = 1` shared by `truncate_bitset` and
`expand_bitset` for wide bitsets (bitset_operations.hpp:239-242, 257-260). -/
def copyBits {M : Nat} (N K : Nat) (bits : BitVec M) : BitVec N :=
  (List.range K).foldl (fun acc i => if bits.getLsbD i then acc ||| BitVec.twoPow N i else acc) 0#N

/-- `truncate_bitset<N, M>` (bitset_operations.hpp:228-244), `M ≥ N`. -/
def truncateBitset {M : Nat} (N : Nat) (bits : BitVec M) : BitVec N :=
  if N ≤ 64 then BitVec.ofNat N (bits &&& fullMaskStatic N M).toNat
  else copyBits N N bits

/-- `expand_bitset<N, M>` (bitset_operations.hpp:247-262), `N ≥ M`. -/
def expandBitset {M : Nat} (N : Nat) (bits : BitVec M) : BitVec N :=
  if M ≤ 64 then BitVec.ofNat N bits.toNat
  else copyBits N M bits

/-- `bitset_lo_word` (bitset_operations.hpp:265-274) for a width `2*M` determinant.  The code
supports `M ∈ {32, 64}`; the model is generic in `M`. -/
def loWord {M : Nat} (bits : BitVec (2 * M)) : BitVec M := BitVec.ofNat M (bits.toNat % 2 ^ M)

/-- `bitset_hi_word` (bitset_operations.hpp:277-286). -/
def hiWord {M : Nat} (bits : BitVec (2 * M)) : BitVec M := BitVec.ofNat M (bits.toNat / 2 ^ M)

/-- `bitset_less` (bitset_operations.hpp:289-306): word comparison for `N ≤ 64` and `N = 128`,
most-significant-bit-first loop otherwise. -/
def bitsetLess {N : Nat} (x y : BitVec N) : Bool :=
  if N ≤ 64 ∨ N = 128 then decide (x.toNat < y.toNat)
  else
    match (List.range N).reverse.find? (fun i => x.getLsbD i ^^ y.getLsbD i) with
    | some i => y.getLsbD i
    | none => false

end Macis
