import Verif.Model.RoundSpmv
import Verif.Model.SpBlas
/-
The distributed product in floating point: Model/SpBlas.lean `pgespmv` with the two local products replaced by the rounded
loop of Model/RoundSpmv.lean.  Packing, sending and unpacking only copy numbers.
-/
namespace Macis.OmpCell

/-- the iterations of a loop one after the other -/
def runInOrder (J : Job ℝ) (iters : List (Nat × Nat)) (mem : Nat → ℝ) : Nat → ℝ :=
  iters.foldl (fun m q =>
    store m (J.cell q) (J.fin q ((List.range (J.len q)).foldl (fun av j => J.term q j av) J.zero) (m (J.cell q)))) mem

/-- the CSR `gespmbv` (spmbv.hpp:47-72) in floating point, iterations in program order -/
def gespmbvR (rnd : ℝ → ℝ) (fuseTerm : Bool) (fuseFin : Fuse) (K : Nat) (alpha : ℝ) (A : Csr ℝ) (V : Nat → ℝ) (LDV : Nat)
    (beta : ℝ) (AV : Nat → ℝ) (LDAV : Nat) : Nat → ℝ :=
  runInOrder (csrJobR rnd fuseTerm fuseFin alpha A V LDV beta LDAV) (iterSpace K A.m) AV

/-- `pgespmv` on rank `r` (pspmbv.hpp:201-287) in floating point -/
def pgespmvR (rnd : ℝ → ℝ) (fuseTerm : Bool) (fuseFin : Fuse) (A : Nat → DistCsr ℝ) (info : Nat → SpmvInfo) (alpha : ℝ)
    (V : Nat → Nat → ℝ) (beta : ℝ) (AV : Nat → ℝ) (garbage : Nat → ℝ) (r : Nat) : Nat → ℝ :=
  let N := (A r).n
  let recv := spmvRecvPack info V r
  let AV1 := match (A r).diag with
    | some D => gespmbvR rnd fuseTerm fuseFin 1 alpha D (V r) N beta AV N
    | none => AV
  let Vremote := (List.range (info r).recvIndices.length).foldl
    (fun mem k => store mem ((info r).recvIndices.getD k 0) (recv.getD k 0)) garbage
  match (A r).offdiag with
  | some O => gespmbvR rnd fuseTerm fuseFin 1 alpha O Vremote N 1 AV1 N
  | none => AV1

end Macis.OmpCell
