import Verif.Model.SpConv
/-
The OpenMP loops of src/sparsexx/include/sparsexx/spblas/spmbv.hpp and
src/sparsexx/include/sparsexx/matrix_types/dense_conversions.hpp, whose iterations each update one element of a shared
output array, as threads that run in any interleaving.

Simplification: the memory model is sequentially consistent (which for a program without data races - C159 - is
what C++ guarantees); reading and writing the output element are two steps, and so is every term of a row's sum.
-/
namespace Macis.OmpCell
variable {R : Type}

/-- The body of a parallel loop whose iteration `q` accumulates `len q` terms in a local variable, then reads the
element `cell q` of the shared array and writes `fin q sum old` there. -/
structure Job (R : Type) where
  len : Nat × Nat → Nat
  zero : R
  term : Nat × Nat → Nat → R → R
  cell : Nat × Nat → Nat
  fin : Nat × Nat → R → R → R

/-- where an iteration is: `j` terms added; output element read -/
inductive Phase (R : Type)
  | adding (j : Nat) (av : R)
  | loaded (av old : R)

/-- A thread: the iterations the OpenMP runtime gave it and the one it is in. -/
structure Thread (R : Type) where
  todo : List (Nat × Nat)
  cur : Option ((Nat × Nat) × Phase R)

/-- All threads and the shared output array. -/
structure State (R : Type) where
  thr : Nat → Thread R
  mem : Nat → R

/-- One step of thread `t`: begin its next iteration, add a term, read the output element, write it. -/
def step (J : Job R) (s : State R) (t : Nat) : Option (State R) :=
  match (s.thr t).cur with
  | none =>
    match (s.thr t).todo with
    | [] => none
    | q :: rest => some { s with thr := Function.update s.thr t ⟨rest, some (q, .adding 0 J.zero)⟩ }
  | some (q, .adding j av) =>
    if j < J.len q then
      some { s with thr := Function.update s.thr t ⟨(s.thr t).todo, some (q, .adding (j + 1) (J.term q j av))⟩ }
    else
      some { s with thr := Function.update s.thr t ⟨(s.thr t).todo, some (q, .loaded av (s.mem (J.cell q)))⟩ }
  | some (q, .loaded av old) =>
    some { thr := Function.update s.thr t ⟨(s.thr t).todo, none⟩, mem := store s.mem (J.cell q) (J.fin q av old) }

/-- the output element thread `t` is about to read or write -/
def touching (J : Job R) (s : State R) (t : Nat) : Option Nat :=
  match (s.thr t).cur with
  | none => none
  | some (q, .adding j _) => if j < J.len q then none else some (J.cell q)
  | some (q, .loaded _ _) => some (J.cell q)

/-- the parallel loop of the CSR `gespmbv` (spmbv.hpp:53-72) -/
def csrJob [Semiring R] (alpha : R) (A : Csr R) (V : Nat → R) (LDV : Nat) (beta : R) (LDAV : Nat) : Job R :=
  { len := fun q => (A.row q.2).length
    zero := 0
    term := fun q j av =>
      let p := (A.row q.2).getD j (0, 0)
      av + p.2 * V (q.1 * LDV + (p.1 - A.indexing))
    cell := fun q => q.2 + q.1 * LDAV
    fin := fun _ av old => alpha * av + beta * old }

/-- the parallel loop of the COO `gespmbv` (spmbv.hpp:115-120) -/
def scaleJob [Semiring R] (beta : R) (LDAV : Nat) : Job R :=
  { len := fun _ => 0
    zero := 0
    term := fun _ _ av => av
    cell := fun q => q.2 + q.1 * LDAV
    fin := fun _ _ old => old * beta }

/-- the sequential loop that follows it (spmbv.hpp:122-127) -/
def cooAccumulate [Semiring R] (K : Nat) (alpha : R) (A : Coo R) (V : Nat → R) (LDV LDAV : Nat) (AV : Nat → R) :
    Nat → R :=
  (iterSpace K A.nnz).foldl (fun AV (k, inz) =>
    let i := A.rowind.getD inz 0
    let j := A.colind.getD inz 0
    store AV (i + k * LDAV) (AV (i + k * LDAV) + alpha * A.nzval.getD inz 0 * V (j + k * LDV))) AV

/-- the parallel loop of `convert_to_dense(coo_matrix)` (dense_conversions.hpp:60-63); iteration `(0, i)`; the
element is written without being read, so what `loaded` holds is not used -/
def denseJob [Zero R] (A : Coo R) (LD : Nat) : Job R :=
  { len := fun _ => 0
    zero := 0
    term := fun _ _ av => av
    cell := fun q => A.rowind.getD q.2 0 + A.colind.getD q.2 0 * LD
    fin := fun q _ _ => A.nzval.getD q.2 0 }

end Macis.OmpCell
