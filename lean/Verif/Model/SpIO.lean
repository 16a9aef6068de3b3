import Verif.Model.SpConv
import Verif.Model.Dist
import Verif.Model.Fcidump
/-
Model of the matrix files of sparsexx (src/sparsexx/include/sparsexx/io/*.hpp, util/string.hpp).  Text
files are lists of characters; a binary triplet file is the record of its fields.  `NumIO.fmt` stands
here for `operator<<` with precision 17.

Simplifications: `int64_t` / `index_t` values are unbounded after the range check of `std::stoll`;
negative numbers in a file, which no sparse matrix can hold, end in `ub`.  An assertion failure is not
modelled (release build).
-/
namespace Macis
variable {R : Type}

/-- `operator<<` of a signed integer -/
def showInt (z : Int) : List Char := if z < 0 then '-' :: showNat z.natAbs else showNat z.toNat

/-- `trim` (string.hpp:18-31): white space removed on both sides -/
def trimC (s : List Char) : List Char :=
  (((s.reverse.dropWhile isSpaceC).reverse).dropWhile isSpaceC)

/-- `tokenize(line)` (string.hpp:33-53): the words between blanks, each trimmed -/
def tokenize (line : List Char) : List (List Char) := (splitTokens line).map trimC

/-- `std::stoll`: like `stoi` with the range of 64-bit integers -/
def stoll (str : List Char) : Option Int :=
  let s := str.dropWhile isSpaceC
  let sgn : Int := if s.head? = some '-' then -1 else 1
  let s := if s.head? = some '-' || s.head? = some '+' then s.tail else s
  let ds := s.takeWhile Char.isDigit
  if ds.isEmpty then none
  else
    let v : Int := sgn * (Nat.ofDigitChars 10 ds 0 : Nat)
    if -9223372036854775808 ≤ v ∧ v ≤ 9223372036854775807 then some v else none

/-- `std::stoll` stored where only naturals are modelled -/
def stollNat (str : List Char) : Run Nat :=
  match stoll str with
  | none => .throw
  | some z => if z < 0 then .ub else .ok z.toNat

/-- `std::stoi` stored where only naturals are modelled -/
def stoiNat (str : List Char) : Run Nat :=
  match stoi str with
  | none => .throw
  | some z => if z < 0 then .ub else .ok z.toNat

/-- `std::stod` -/
def stodRun (io : NumIO R) (str : List Char) : Run R :=
  match io.parse str with
  | none => .throw
  | some v => .ok v

/-! ### matrix-market files -/

/-- `write_mm_header` (write_mm.hpp:22-36): two lines; the subtraction wraps like `size_t`. -/
def mmHeader (m n nnz : Nat) (symm : Bool) : List (List Char) :=
  let count := if symm then (nnz + 18446744073709551616 - n) % 18446744073709551616 / 2 + n else nnz
  ["%%MatrixMarket matrix coordinate real ".toList ++
      (if symm then "symmetric".toList else "general".toList),
    showNat m ++ ' ' :: showNat n ++ ' ' :: showNat count]

/-- the line written for one entry (write_mm.hpp:51) -/
def mmLine (io : NumIO R) (i j : Int) (v : R) : List Char :=
  showInt i ++ ' ' :: showInt j ++ ' ' :: io.fmt v

/-- `write_mm_csr_block` (write_mm.hpp:38-54): the lines -/
def mmBlock [Zero R] (io : NumIO R) (A : Csr R) (rowOff colOff : Int) : List (List Char) :=
  (List.range A.m).flatMap fun (i : Nat) => (A.row i).map fun p => mmLine io (i + rowOff) (p.1 + colOff) p.2

/-- the text of a list of lines, each followed by a newline -/
def unlinesC (ls : List (List Char)) : List Char := ls.flatMap fun l => l ++ ['\n']

/-- `write_mm` (write_mm.hpp:60-84); `forced = none` is a negative `forced_index`. -/
def writeMm [Zero R] (io : NumIO R) (A : Csr R) (symm : Bool) (forced : Option Nat) : Run (List Char) :=
  if symm then .throw
  else
    let colOff : Int := match forced with | none => 0 | some f => (f : Int) - A.indexing
    let rowOff : Int := match forced with | none => 0 | some f => f
    .ok (unlinesC (mmHeader A.m A.n A.nzval.length symm ++ mmBlock io A rowOff colOff))

/-- One line of the body of a matrix-market file (read_mm.hpp:323-338): the entries it adds. -/
def mmEntry [One R] (io : NumIO R) (sym : Bool) (line : List Char) : Run (List (Nat × Nat × R)) :=
  let tokens := tokenize line
  match tokens with
  | t0 :: t1 :: rest =>
    (stollNat t0).bind fun i => (stollNat t1).bind fun j =>
      (match rest with | [t2] => stodRun io t2 | _ => .ok 1).bind fun v =>
        .ok ((i, j, v) :: if sym ∧ i ≠ j then [(j, i, v)] else [])
  | _ => .ub

/-- the loop over the remaining lines (read_mm.hpp:321-339) -/
def mmEntries [One R] (io : NumIO R) (sym : Bool) : List (List Char) → Run (List (Nat × Nat × R))
  | [] => .ok []
  | l :: ls => (mmEntry io sym l).bind fun e => (mmEntries io sym ls).bind fun es => .ok (e ++ es)

/-- `while(std::getline(f_in, line)) if(line[0] != '%') break;` (read_mm.hpp:266-268): the dimension
line and the lines after it.  At the end of the file `line` is empty (a failed `getline` clears it);
the first character of an empty line is the terminating zero. -/
def skipComments : List (List Char) → List Char × List (List Char)
  | [] => ([], [])
  | l :: ls => if l.head? ≠ some '%' then (l, ls) else skipComments ls

/-- `determine_indexing_from_adj` (coo_matrix.hpp:196-201) -/
def Coo.determineIndexing (A : Coo R) : Coo R :=
  let zeroBased := A.rowind.any (· == 0) || A.colind.any (· == 0)
  { A with indexing := if zeroBased then 0 else 1 }

/-- `read_mm_as_coo` without sorting (read_mm.hpp:246-356). -/
def readMmCoo [One R] (io : NumIO R) (file : List Char) : Run (Coo R) :=
  let lines := fileLines file
  let tokens := tokenize (lines.headD [])
  match tokens with
  | [] => .ub
  | t0 :: _ =>
    if t0 ≠ "%%MatrixMarket".toList ∨ tokens.length ≠ 5 then .throw
    else
      let sym := decide (tokens.getD 4 [] = "symmetric".toList)
      let (dims, body) := skipComments lines.tail
      match tokenize dims with
      | [a, b, c] =>
        (stollNat a).bind fun m => (stollNat b).bind fun n => (stollNat c).bind fun _ =>
          if sym ∧ m ≠ n then .throw
          else (mmEntries io sym body).bind fun es =>
            .ok (Coo.determineIndexing
              { m := m, n := n, nnz := es.length, indexing := 1, rowind := es.map (·.1),
                colind := es.map (·.2.1), nzval := es.map (·.2.2) })
      | _ => .throw

/-- `read_mm<csr_matrix>` (read_mm.hpp:358-371): sorted by row, then converted; `srt` is the index array
left by `std::sort`. -/
def readMmCsr [Zero R] [One R] (io : NumIO R) (srt : Coo R → List Nat) (file : List Char) : Run (Csr R) :=
  (readMmCoo io file).bind fun A =>
    match Csr.ofCoo (A.gather (srt A)) with
    | none => .throw
    | some B => .ok B

/-- What rank `r` appends to the file (write_dist_mm.hpp:51-72); no diagonal tile: `diagonal_tile()`
dereferences a null pointer. -/
def distMmPart [Zero R] (io : NumIO R) (A : DistCsr R) (off : Nat) : Option (List (List Char)) :=
  A.diag.map fun D =>
    mmBlock io D ((A.localRowStart + off : Nat) : Int) ((A.localRowStart + off : Nat) : Int) ++
    match A.offdiag with
    | none => []
    | some O => mmBlock io O ((A.localRowStart + off : Nat) : Int) (off : Int)

/-- the ranks append in turn (write_dist_mm.hpp:44-76): rank `k` waits for the token of rank `k-1` -/
def distMmParts [Zero R] (io : NumIO R) (A : Nat → DistCsr R) (off : Nat) : Nat → Option (List (List Char))
  | 0 => some []
  | P + 1 => (distMmParts io A off P).bind fun ls => (distMmPart io (A P) off).map fun l => ls ++ l

/-- number of entries held by a rank (`nnz()`, dist_sparse_matrix.hpp:141-146) -/
def distNnz (A : DistCsr R) : Nat :=
  (A.diag.elim 0 fun D => D.nzval.length) + (A.offdiag.elim 0 fun O => O.nzval.length)

/-- `write_dist_mm` (write_dist_mm.hpp:19-79) on a communicator of `P` ranks. -/
def writeDistMm [Zero R] (io : NumIO R) (P : Nat) (A : Nat → DistCsr R) (forced : Option Nat) :
    Option (List Char) :=
  let off := match forced with | none => 0 | some f => f
  let nnz := ((List.range P).map fun r => distNnz (A r)).sum
  (distMmParts io A off P).map fun body => unlinesC (mmHeader (A 0).m (A 0).n nnz false ++ body)

/-! ### binary triplet files -/

/-- Contents of a binary triplet file (write_binary_triplets.hpp:28-36). -/
structure TripletFile (R : Type) where
  m : Nat
  n : Nat
  nnz : Nat
  rowind : List Nat
  colind : List Nat
  nzval : List R
deriving DecidableEq

/-- `write_binary_triplet(coo_matrix)` (write_binary_triplets.hpp:21-38) -/
def writeTripletCoo (A : Coo R) : TripletFile R :=
  ⟨A.m, A.n, A.nnz, A.rowind, A.colind, A.nzval⟩

/-- `write_binary_triplet(csr_matrix)` (write_binary_triplets.hpp:40-66) -/
def writeTripletCsr (A : Csr R) : TripletFile R :=
  ⟨A.m, A.n, A.nzval.length,
    (List.range A.m).flatMap fun i =>
      List.replicate (A.rowptr.getD (i + 1) 0 - A.rowptr.getD i 0) (i + A.indexing),
    A.colind, A.nzval⟩

/-- `read_binary_triplet_as_coo` (read_binary_triplets.hpp:21-47) of a complete file; `srt` is the index
array left by `std::sort`. -/
def readTripletCoo [Zero R] (srt : Coo R → List Nat) (f : TripletFile R) : Run (Coo R) :=
  let A : Coo R := Coo.determineIndexing
    { m := f.m, n := f.n, nnz := f.nnz, indexing := 1, rowind := f.rowind, colind := f.colind,
      nzval := f.nzval }
  match A.expandFromTriangle with
  | none => .throw
  | some B => .ok (B.gather (srt B))

/-! ### Rutherford-Boeing files -/

/-- One of the three reading loops of `read_rb_as_csc` (read_rb.hpp:52-74): numbers are stored one after
the other until exactly `total` of them have been read at the end of a line; a number past the end of
the array is an out-of-range access.  Returns the numbers and the remaining lines; a file that ends
early leaves zeros. -/
def rbLoop {α : Type} (zero : α) (conv : List Char → Run α) (total : Nat) :
    List (List Char) → List α → Run (List α × List (List Char))
  | [], acc => .ok (acc ++ List.replicate (total - acc.length) zero, [])
  | l :: ls, acc =>
    ((tokenize l).foldl (fun st t => st.bind fun acc => (conv t).bind fun x =>
        if acc.length < total then .ok (acc ++ [x]) else .ub) (Run.ok acc)).bind fun acc =>
      if acc.length = total then .ok (acc, ls) else rbLoop zero conv total ls acc

/-- `read_rb_as_csc` (read_rb.hpp:19-78): three header lines and a format line, then column pointers, row
indices and values.  The index base is the default of the constructor, 1. -/
def readRbCsc [Zero R] (io : NumIO R) (file : List Char) : Run (Csc R) :=
  let lines := fileLines file
  match tokenize (lines.getD 2 []) with
  | _ :: t1 :: t2 :: t3 :: _ =>
    (stollNat t1).bind fun m => (stollNat t2).bind fun n => (stollNat t3).bind fun nnz =>
      (rbLoop 0 stoiNat (n + 1) (lines.drop 4) []).bind fun (colptr, ls) =>
        (rbLoop 0 stoiNat nnz ls []).bind fun (rowind, ls) =>
          (rbLoop 0 (stodRun io) nnz ls []).bind fun (nzval, _) =>
            .ok { m := m, n := n, indexing := 1, colptr := colptr, rowind := rowind, nzval := nzval }
  | _ => .ub

end Macis
