import Verif.Model.Fcidump
/-
Model of the binary RDM files (src/macis/fcidump.cxx:209-280).  A file is a header `int` followed by
doubles (files cut inside a double are not modelled); arrays behind pointers are functions from
addresses to values.
-/
namespace Macis

/-- A binary RDM file; `hdr = none`: too short to hold the header. -/
structure RdmFile (R : Type) where
  hdr : Option Int
  vals : List R
deriving DecidableEq

/-- conversion of a `size_t` to a 32-bit `int` (two's complement) -/
def toInt32 (n : Nat) : Int :=
  if n % 4294967296 < 2147483648 then ((n % 4294967296 : Nat) : Int)
  else ((n % 4294967296 : Nat) : Int) - 4294967296

/-- The index pairs of the double loop `for i < n, for j < n`. -/
def pairs2 (n : Nat) : List (Nat × Nat) :=
  (List.range n).flatMap fun i => (List.range n).map fun j => (i, j)

/-- The index tuples of the quadruple loop. -/
def quads (n : Nat) : List (Nat × Nat × Nat × Nat) :=
  (List.range n).flatMap fun i => (List.range n).flatMap fun j => (List.range n).flatMap fun k =>
    (List.range n).map fun l => (i, j, k, l)

/-- `in_file.read((char*)raw.data(), n * sizeof(double))`: a short file leaves the rest of the buffer
as it was. -/
def fillRaw {R : Type} (raw : Nat → R) (vals : List R) (n : Nat) : Nat → R :=
  fun a => if a < n then vals.getD a (raw a) else raw a

/-- `read_rdms_binary` (fcidump.cxx:209-252): how the call ends, and the two arrays afterwards.
`file = none`: the file cannot be opened. -/
def readRdmsBinary {R : Type} [Zero R] (file : Option (RdmFile R)) (norb : Nat) (ordm : Nat → R)
    (ldd1 : Nat) (trdm : Nat → R) (ldd2 : Nat) : Run Unit × (Nat → R) × (Nat → R) :=
  let ordm := storeAll ordm ((pairs2 norb).map fun (i, j) => (i + j * ldd1, 0))
  let trdm := storeAll trdm ((quads norb).map fun (i, j, k, l) =>
    (i + j * ldd2 + k * ldd2 * ldd2 + l * ldd2 * ldd2 * ldd2, 0))
  match file with
  | none => (.throw, ordm, trdm)
  | some f =>
    match f.hdr with
    | none => (.ub, ordm, trdm)
    | some n =>
      if n ≠ toInt32 norb then (.throw, ordm, trdm)
      else
        let raw : Nat → R := fun _ => 0
        let raw := fillRaw raw f.vals (norb * norb)
        let ordm := storeAll ordm ((pairs2 norb).map fun (i, j) =>
          (i + j * ldd1, raw (i + j * norb)))
        let raw := fillRaw raw (f.vals.drop (norb * norb)) (norb * norb * norb * norb)
        let trdm := storeAll trdm ((quads norb).map fun (i, j, k, l) =>
          (i + j * ldd2 + k * ldd2 * ldd2 + l * ldd2 * ldd2 * ldd2,
           raw (i + j * norb + k * norb * norb + l * norb * norb * norb)))
        (.ok (), ordm, trdm)

/-- `write_rdms_binary` (fcidump.cxx:254-280): the contents of the file.  `raw.data()` of `n` doubles
is `raw` on `0, ..., n-1`. -/
def writeRdmsBinary {R : Type} [Zero R] (norb : Nat) (ordm : Nat → R) (ldd1 : Nat) (trdm : Nat → R)
    (ldd2 : Nat) : RdmFile R :=
  let raw : Nat → R := fun _ => 0
  let raw1 := storeAll raw ((pairs2 norb).map fun (i, j) => (i + j * norb, ordm (i + j * ldd1)))
  let raw2 := storeAll raw1 ((quads norb).map fun (i, j, k, l) =>
    (i + j * norb + k * norb * norb + l * norb * norb * norb,
     trdm (i + j * ldd2 + k * ldd2 * ldd2 + l * ldd2 * ldd2 * ldd2)))
  ⟨some (toInt32 norb),
   (List.range (norb * norb)).map raw1 ++ (List.range (norb * norb * norb * norb)).map raw2⟩

end Macis
