import Verif.Model.MpiSpmv
import Verif.Model.MpiLift
import Verif.Model.Davidson
import Verif.Model.SpUtil
/-
`p_davidson` and `parallel_selected_ci_diag` on several ranks as the program every rank runs: the products, reductions
and broadcasts it takes part in, in order, and its local work in between
(include/macis/solvers/davidson.hpp:70-109, 227-395, include/macis/solvers/selected_ci_diag.hpp:21-73).

Simplifications: exact real arithmetic; a division by zero sets `nan` ("some of this rank's numbers are infinite or
not a number"), which reductions and broadcasts pass on to their receivers and which makes every comparison false; of
the eigenpairs that are broadcast only the lowest is kept, because only that one is used.  A barrier is an exchange of
empty messages.
-/
namespace Macis.Mpi

/-- What the collectives carry: a summand of a reduction, a broadcast eigenvalue, a broadcast eigenvector, a piece of
the diagonal, nothing. -/
inductive DavMsg
  | part (nan : Bool) (l : List ℝ)
  | value (nan : Bool) (lam : ℝ)
  | vector (nan : Bool) (l : List ℝ)
  | diag (l : List ℝ)
  | token

/-- How `p_davidson` ended on a rank. -/
inductive DavEnd
  | running
  | converged (iter : Nat) (lam : ℝ)
  | failed

/-- The variables of a rank: `V_local`, `AV_local` by columns, `X_local`, the buffer of a reduction (`inner`, `C`, a
scalar) before and after, `LAM[0]`, the first column of `C`, the pieces of the gathered diagonal.  `err`: a message
does not fit the collective it arrives in, or memory is accessed out of range. -/
structure DavMem where
  V : Nat → Nat → ℝ
  AV : Nat → Nat → ℝ
  X : Nat → ℝ
  buf : List ℝ
  sum : List ℝ
  lam : ℝ
  c : Nat → ℝ
  diags : Nat → List ℝ
  out : DavEnd
  nan : Bool
  err : Bool

/-- all variables of a rank: those of the products and those of the solver -/
abbrev DavSt := SpmvMem ℝ × DavMem
/-- all messages on the communicator -/
abbrev DavMs := SpmvMsg ℝ ⊕ DavMsg

/-- a summand of an `MPI_Allreduce` with `MPI_SUM` arrives (include/macis/util/mpi.hpp: `allreduce`) -/
def putPart : DavMs → DavSt → DavSt
  | .inr (.part b l), m => (m.1, { m.2 with sum := List.zipWith (· + ·) m.2.sum l, nan := m.2.nan || b,
                                            err := m.2.err || l.length != m.2.sum.length })
  | _, m => (m.1, { m.2 with err := true })

/-- the broadcast `LAM[0]` arrives (davidson.hpp:278) -/
def putValue : DavMs → DavSt → DavSt
  | .inr (.value b lam), m => (m.1, { m.2 with lam := lam, nan := m.2.nan || b })
  | _, m => (m.1, { m.2 with err := true })

/-- the broadcast first column of `C`, of `k` elements, arrives (davidson.hpp:279) -/
def putVector (k : Nat) : DavMs → DavSt → DavSt
  | .inr (.vector b l), m => (m.1, { m.2 with c := fun j => l.getD j 0, nan := m.2.nan || b,
                                              err := m.2.err || l.length != k })
  | _, m => (m.1, { m.2 with err := true })

/-- the piece of the diagonal of rank `s`, `n` elements, arrives (davidson.hpp:93-94) -/
def putDiag (n s : Nat) : DavMs → DavSt → DavSt
  | .inr (.diag l), m => (m.1, { m.2 with diags := Function.update m.2.diags s l, err := m.2.err || l.length != n })
  | _, m => (m.1, { m.2 with err := true })

/-- a rank has reached the barrier -/
def putToken : DavMs → DavSt → DavSt
  | .inr .token, m => m
  | _, m => (m.1, { m.2 with err := true })

/-- `allreduce(…, MPI_SUM, comm)` of the buffer that `fill` fills (include/macis/util/mpi.hpp) -/
def reduceProg (P : Nat) (fill : DavMem → List ℝ) : List (Instr DavSt DavMs) :=
  comps [fun m => (m.1, { m.2 with buf := fill m.2, sum := List.replicate (fill m.2).length 0 })] ++
  (isends coll ((List.range P).map fun d => (d, fun m => .inr (.part m.2.nan m.2.buf))) ++
  recvs coll ((List.range P).map fun s => (s, putPart)))

/-- `MPI_Bcast` from rank 0 of `P` -/
def bcastProg (P r : Nat) (m : DavSt → DavMs) (k : DavMs → DavSt → DavSt) : List (Instr DavSt DavMs) :=
  let dsts := if r = 0 then (List.range P).filter fun d => d ≠ r else []
  isends coll (dsts.map fun d => (d, m)) ++
  (recvs coll ((if r = 0 then [] else [0]).map fun s => (s, k)) ++ wsends coll dsts)

/-- `MPI_Barrier` -/
def barrierProg (P : Nat) : List (Instr DavSt DavMs) :=
  isends coll ((List.range P).map fun d => (d, fun _ => .inr .token)) ++
  recvs coll ((List.range P).map fun s => (s, putToken))

/-- the local projection (davidson.hpp:239-241, 247-249): column `k` minus its components along the columns before -/
def gsProject (k : Nat) (m : DavSt) : DavSt :=
  (m.1, { m.2 with
    V := Function.update m.2.V k fun t => m.2.V k t - ∑ j ∈ Finset.range k, m.2.V j t * m.2.sum.getD j 0 })

open Classical in
/-- the normalisation (davidson.hpp:254-255) -/
noncomputable def gsScale (k : Nat) (m : DavSt) : DavSt :=
  let nrm := Real.sqrt (m.2.sum.getD 0 0)
  (m.1, { m.2 with V := Function.update m.2.V k fun t => 1 / nrm * m.2.V k t,
                   nan := m.2.nan || decide (nrm = 0) })

/-- One pass of `p_gram_schmidt` on column `k` (davidson.hpp:232-241, again 244-249): local inner products with the `k`
columns before it, reduction, local projection. `n` is the number of local rows. -/
def gsPass (P n k : Nat) : List (Instr DavSt DavMs) :=
  reduceProg P (fun m => (List.range k).map fun j => ∑ t ∈ Finset.range n, m.V j t * m.V k t) ++ comps [gsProject k]

/-- local `dot` of column `k` with itself and its reduction (davidson.hpp:252-253, 360-361) -/
def dotProg (P n k : Nat) : List (Instr DavSt DavMs) :=
  reduceProg P fun m => (List.range 1).map fun _ => ∑ t ∈ Finset.range n, m.V k t * m.V k t

/-- `p_gram_schmidt` (davidson.hpp:228-256) on column `k`. -/
noncomputable def gsProg (P n k : Nat) : List (Instr DavSt DavMs) :=
  gsPass P n k ++ (gsPass P n k ++ (dotProg P n k ++ comps [gsScale k]))

/-- column `i` is handed to the product (davidson.hpp:315-316, 330-331) -/
def actLoad (i : Nat) (m : DavSt) : DavSt := ({ m.1 with V := m.2.V i, AV := m.2.AV i }, m.2)

/-- the result of the product is column `i` of `AV` (davidson.hpp:315-316, 330-331) -/
def actStore (i : Nat) (m : DavSt) : DavSt := (m.1, { m.2 with AV := Function.update m.2.AV i m.1.AV })

/-- `op.operator_action` on column `i` (davidson.hpp:47-51, 315-316, 330-331). -/
def actProg (A : DistCsr ℝ) (garbage : Nat → ℝ) (i : Nat) : List (Instr DavSt DavMs) :=
  comps [actLoad i] ++
  (liftL (fun e : DavMem => { e with err := true }) (spmvProg A 1 0 garbage) ++ comps [actStore i])

/-- the diagonalisation on rank 0 (davidson.hpp:273-275) -/
def rrSolve (eig : Nat → (Nat → Nat → ℝ) → ℝ × (Nat → ℝ)) (k : Nat) (m : DavSt) : DavSt :=
  let p := eig k fun p q => m.2.sum.getD (p + q * k) 0
  (m.1, { m.2 with lam := p.1, c := p.2 })

/-- `p_rayleigh_ritz` with `k` columns on rank `r` (davidson.hpp:258-280): local inner products, reduction,
diagonalisation on rank 0, broadcasts. -/
def rrProg (eig : Nat → (Nat → Nat → ℝ) → ℝ × (Nat → ℝ)) (P r n k : Nat) : List (Instr DavSt DavMs) :=
  reduceProg P (fun m => (List.range (k * k)).map fun e => ∑ t ∈ Finset.range n, m.V (e % k) t * m.AV (e / k) t) ++
  (comps (if r = 0 then [rrSolve eig k] else []) ++
  (bcastProg P r (fun m => .inr (.value m.2.nan m.2.lam)) putValue ++
  bcastProg P r (fun m => .inr (.vector m.2.nan ((List.range k).map m.2.c))) (putVector k)))

/-- `X` and the residual, in the next column of `V` (davidson.hpp:344-357) -/
def davResidual (i : Nat) (m : DavSt) : DavSt :=
  let X := fun t => ∑ j ∈ Finset.range (i + 1), m.2.V j t * m.2.c j
  (m.1, { m.2 with
    X := X,
    V := Function.update m.2.V (i + 1) fun t => (∑ j ∈ Finset.range (i + 1), m.2.AV j t * m.2.c j) - m.2.lam * X t })

open Classical in
/-- the next direction (davidson.hpp:381-383) -/
noncomputable def davDivide (n : Nat) (D : Nat → ℝ) (i : Nat) (m : DavSt) : DavSt :=
  (m.1, { m.2 with
    V := Function.update m.2.V (i + 1) fun t => -m.2.V (i + 1) t / (D t - m.2.lam),
    nan := m.2.nan || decide (∃ t < n, D t - m.2.lam = 0) })

/-- no convergence (davidson.hpp:390) -/
def davFail (m : DavSt) : DavSt := (m.1, { m.2 with out := .failed })

/-- convergence in iteration `i` (davidson.hpp:374-377, 393) -/
def davAccept (i : Nat) (m : DavSt) : DavSt := (m.1, { m.2 with out := .converged i m.2.lam })

open Classical in
/-- The iterations of `p_davidson` on rank `r` (davidson.hpp:325-390), at most `f` more, the current one being `i`:
product, Rayleigh-Ritz, residual and its norm, test, next direction. -/
noncomputable def davIter (eig : Nat → (Nat → Nat → ℝ) → ℝ × (Nat → ℝ)) (P r n : Nat) (A : DistCsr ℝ)
    (garbage : Nat → Nat → ℝ) (D : Nat → ℝ) (tol : ℝ) : Nat → Nat → List (Instr DavSt DavMs)
  | 0, _ => comps [davFail]
  | f + 1, i =>
    actProg A (garbage i) i ++
    (rrProg eig P r n (i + 1) ++
    (comps [davResidual i] ++
    (dotProg P n (i + 1) ++
    [.dyn fun m =>
      if m.2.nan = false ∧ Real.sqrt (m.2.sum.getD 0 0) < tol then
        comps [davAccept i]
      else
        comps [davDivide n D i] ++ (gsProg P n (i + 1) ++ davIter eig P r n A garbage D tol f (i + 1))])))

/-- `p_davidson` on rank `r` of `P` (davidson.hpp:282-394) for `max_m ≥ 1`: the guess is column 0, its image,
orthogonalised, column 1. -/
noncomputable def davProg (eig : Nat → (Nat → Nat → ℝ) → ℝ × (Nat → ℝ)) (P r n : Nat) (A : DistCsr ℝ)
    (garbage : Nat → Nat → ℝ) (D : Nat → ℝ) (tol : ℝ) (maxM : Nat) : List (Instr DavSt DavMs) :=
  comps [fun m => (m.1, { m.2 with V := Function.update m.2.V 0 m.2.X })] ++
  (actProg A (garbage 0) 0 ++
  (comps [fun m => (m.1, { m.2 with V := Function.update m.2.V 1 (m.2.AV 0) })] ++
  (gsProg P n 1 ++ davIter eig P r n A garbage D tol (maxM - 1) 1)))

/-! ### the eigensolver as it is called -/

/-- `extract_diagonal_elements(H.diagonal_tile())` (selected_ci_diag.hpp:37, davidson.hpp:79-83); without the tile
the first dereferences a null pointer and the second throws, here: no elements -/
def localDiag (A : DistCsr ℝ) : List ℝ :=
  match A.diag with
  | some D => D.diagonal
  | none => []

/-- the guess from the gathered diagonal (davidson.hpp:96-107) -/
noncomputable def guessStore (P r : Nat) (A : DistCsr ℝ) (m : DavSt) : DavSt :=
  match pDiagonalGuess A.extents ((List.range P).flatMap m.2.diags) r with
  | some X => (m.1, { m.2 with X := fun t => X.getD t 0 })
  | none => (m.1, { m.2 with err := true })

/-- `p_diagonal_guess` on rank `r` (davidson.hpp:70-109): `MPI_Allgatherv` of the diagonals, then the local part. -/
noncomputable def guessProg (P r : Nat) (A : DistCsr ℝ) : List (Instr DavSt DavMs) :=
  isends coll ((List.range P).map fun d => (d, fun _ => .inr (.diag (localDiag A)))) ++
  (recvs coll ((List.range P).map fun s => (s, putDiag (A.rowExtent s) s)) ++ comps [guessStore P r A])

/-- `C.resize(n, 0)` (selected_ci_diag.hpp:34) -/
def resizeVec (C : List ℝ) (n : Nat) : List ℝ := C.take n ++ List.replicate (n - C.length) 0

/-- `p_davidson` returned: the second barrier; otherwise it threw (selected_ci_diag.hpp:64) -/
def ciFinish (P : Nat) (m : DavSt) : List (Instr DavSt DavMs) :=
  match m.2.out with
  | .converged _ _ => barrierProg P
  | _ => []

/-- `parallel_selected_ci_diag` on rank `r` (selected_ci_diag.hpp:21-73) with the passed piece `C` of the vector: the
decision about the guess, the set-up of the products (davidson.hpp:38-45), barrier, `p_davidson`, barrier.
`max_m ≥ 1`. -/
noncomputable def ciDiagProg (eig : Nat → (Nat → Nat → ℝ) → ℝ × (Nat → ℝ)) (P r : Nat) (A : DistCsr ℝ)
    (garbage : Nat → Nat → ℝ) (tol : ℝ) (maxM : Nat) (C : List ℝ) : List (Instr DavSt DavMs) :=
  let n := A.localRowExtent
  let X := resizeVec C n
  match usesPassedVector X with
  | none => comps [fun m => (m.1, { m.2 with err := true })]
  | some b =>
    comps [fun m => (m.1, { m.2 with X := fun t => X.getD t 0 })] ++
    ((if b then [] else guessProg P r A) ++
    (liftL (fun e : DavMem => { e with err := true }) (genProg A r) ++
    (barrierProg P ++
    (davProg eig P r n A garbage (fun t => (localDiag A).getD t 0) tol maxM ++ [.dyn (ciFinish P)]))))

end Macis.Mpi
