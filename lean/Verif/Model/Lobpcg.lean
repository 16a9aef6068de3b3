import Verif.Model.Davidson
/-
Model of the LOBPCG eigensolver bundled with MACIS, `src/lobpcgxx/include/lobpcgxx/*.hpp`
(driver.hpp, cholqr.hpp, rayleigh_ritz.hpp, rotate_basis.hpp, residuals.hpp, convergence.hpp,
operator.hpp, simplified_interface.hpp).

Simplifications: exact real arithmetic (`T = double`).  `S`, `AS` and the caller's `V` are functions
from the column index to the column (leading dimensions `N`, `N`, `LDV` of the code; columns keep
whatever they held beyond the ones written).  The layout of `WORK` is modelled separately
(`lobRegions`), `C`, `LAM`, `ABS_RES`, `REL_RES` are values.  `potrf`, `syev` and `lq` stand for the
LAPACK routines `potrf`, `syev` and the pair `gelqf`/`ormlq`.  A quotient `0/0` is `none` (NaN), for
which every comparison is false.  Printing is dropped (`print_iter` is never read by the code).
-/
namespace Macis
open Finset

variable {ι : Type} [Fintype ι]

/-- the LAPACK routines used: `potrf` (`none`: nonzero info), `syev` (ascending eigenvalues and
eigenvectors as columns), `lq` (the orthogonal factor of `gelqf`, all `n` rows) -/
structure LobLapack where
  potrf : Nat → (Nat → Nat → ℝ) → Option (Nat → Nat → ℝ)
  syev : Nat → (Nat → Nat → ℝ) → (Nat → ℝ) × (Nat → Nat → ℝ)
  lq : Nat → Nat → (Nat → Nat → ℝ) → (Nat → Nat → ℝ)

/-- `blas::trsm(Right, Lower, ConjTrans, NonUnit)` in place, column after column
(cholqr.hpp:82-84): `V := V * inv(L)**T` -/
noncomputable def trsmCols (K : Nat) (L : Nat → Nat → ℝ) (V : Nat → ι → ℝ) : Nat → ι → ℝ :=
  (List.range K).foldl (fun X j => Function.update X j
    (fun t => (X j t - ∑ k ∈ range j, X k t * L j k) / L j j)) V

/-- `cholqr` (cholqr.hpp:71-87), `nRep` repetitions; `none` is the exception -/
noncomputable def cholqr (lp : LobLapack) (K : Nat) : Nat → (Nat → ι → ℝ) → Option (Nat → ι → ℝ)
  | 0, V => some V
  | nRep + 1, V =>
    match lp.potrf K (fun i j => vdot (V i) (V j)) with
    | none => none
    | some L => cholqr lp K nRep (trsmCols K L V)

/-- `rayleigh_ritz` (rayleigh_ritz.hpp:70-77) -/
def rayleighRitz (lp : LobLapack) (k : Nat) (X AX : Nat → ι → ℝ) : (Nat → ℝ) × (Nat → Nat → ℝ) :=
  lp.syev k (fun i j => vdot (X i) (AX j))

/-- `rotate_basis` (rotate_basis.hpp:68-75): the first `K` columns become the combinations of the
first `M` columns given by the columns of `C` -/
def rotateBasis (K M : Nat) (X : Nat → ι → ℝ) (C : Nat → Nat → ℝ) : Nat → ι → ℝ :=
  fun c => if c < K then combine M X (fun j => C j c) else X c

/-- residual vector of column `i` (residuals.hpp:76-77) -/
def residCol (X AX : Nat → ι → ℝ) (W : Nat → ℝ) (i : Nat) : ι → ℝ :=
  fun t => AX i t + -W i * X i t

/-- the residual block, written to `R` (residuals.hpp:75-77) -/
def residBlock (K : Nat) (X AX : Nat → ι → ℝ) (W : Nat → ℝ) (R : Nat → ι → ℝ) : Nat → ι → ℝ :=
  fun i => if i < K then residCol X AX W i else R i

/-- absolute residual norm (residuals.hpp:78) -/
noncomputable def absRes (X AX : Nat → ι → ℝ) (W : Nat → ℝ) (i : Nat) : ℝ := nrm2 (residCol X AX W i)

open Classical in
/-- relative residual norm (residuals.hpp:79); `none` is NaN -/
noncomputable def relRes (X AX : Nat → ι → ℝ) (W : Nat → ℝ) (i : Nat) : Option ℝ :=
  let den := nrm2 (AX i) + |W i|
  if den = 0 then none else some (absRes X AX W i / den)

open Classical in
/-- `lobpcg_relres_convergence_check` (convergence.hpp:76-82) -/
noncomputable def relresCheck (NR : Nat) (_abs : Nat → ℝ) (rel : Nat → Option ℝ) (tol : ℝ) : Bool :=
  (List.range NR).all fun i => match rel i with
    | none => false
    | some r => decide (r < tol)

open Classical in
/-- `lobpcg_absres_convergence_check` (convergence.hpp:98-104) -/
noncomputable def absresCheck (NR : Nat) (abs : Nat → ℝ) (_rel : Nat → Option ℝ) (tol : ℝ) : Bool :=
  (List.range NR).all fun i => decide (abs i < tol)

/-- the swap loop over the residuals (driver.hpp:171-173) -/
def reverseCols (K : Nat) (V : Nat → ι → ℝ) : Nat → ι → ℝ :=
  (List.range (K / 2)).foldl (fun V i =>
    Function.update (Function.update V i (V (K - 1 - i))) (K - 1 - i) (V i)) V

/-- store `K` columns of `W` from column `off` on -/
def storeCols (off K : Nat) (S W : Nat → ι → ℝ) : Nat → ι → ℝ :=
  fun c => if off ≤ c ∧ c < off + K then W (c - off) else S c

/-- `C` after `gelqf`/`ormlq` (driver.hpp:207-213): the last `dXP` columns are multiplied by the
transposed orthogonal factor of their first `K` rows -/
def hlOrtho (lp : LobLapack) (K dXP : Nat) (C : Nat → Nat → ℝ) : Nat → Nat → ℝ :=
  let Q := lp.lq K dXP (fun i p => C i (K + p))
  fun i c => if c < K then C i c else ∑ p ∈ range dXP, C i (K + p) * Q (c - K) p

/-- settings of `lobpcg` (driver.hpp:23-28) -/
structure LobSettings where
  tol : ℝ
  maxiter : Int
  track : Bool

/-- the operator (operator.hpp:56-140): matrix and preconditioner functors, given the number of
columns -/
structure LobOp (ι : Type) where
  A : Nat → (Nat → ι → ℝ) → (Nat → ι → ℝ)
  K : Nat → (Nat → ι → ℝ) → (Nat → ι → ℝ)

/-- operator without preconditioner (operator.hpp:68-71, 106-107): `lacpy` -/
def LobOp.ofMatrix (A : Nat → (Nat → ι → ℝ) → (Nat → ι → ℝ)) : LobOp ι := ⟨A, fun _ V => V⟩

/-- contents of the work arrays between iterations -/
structure LobState (ι : Type) where
  S : Nat → ι → ℝ
  AS : Nat → ι → ℝ
  V : Nat → ι → ℝ
  lam : Nat → ℝ

/-- one entry of the convergence history: `W`, `res`, `rel_res` (convergence.hpp:111-119) -/
structure LobRecord where
  W : List ℝ
  res : List ℝ
  rel : List (Option ℝ)

/-- how `lobpcg` ends -/
inductive LobExit (ι : Type) where
  /-- return at the workspace query (driver.hpp:80-82) with the new `LWORK` -/
  | query (lwork : Int)
  /-- argument exceptions (driver.hpp:84, 88, 90, 113) -/
  | badArg
  /-- normal return (driver.hpp:153-159): `LAMR`, `V`, `res` -/
  | converged (iter : Nat) (lam : Nat → ℝ) (V : Nat → ι → ℝ) (res : Nat → Option ℝ)
  /-- `"LOBPCG FAILED TO CONVERGE"` (driver.hpp:226-230), outputs filled -/
  | failed (lam : Nat → ℝ) (V : Nat → ι → ℝ) (res : Nat → Option ℝ)
  /-- `"Cholesky failed in CholQR"`: `V` holds the reversed residuals, `LAMR` and `res` nothing -/
  | cholFailed (iter : Nat) (V : Nat → ι → ℝ)

/-- the state before the loop (driver.hpp:122-135) -/
noncomputable def lobInit (lp : LobLapack) (K : Nat) (op : LobOp ι) (V : Nat → ι → ℝ) : LobState ι :=
  let X := V
  let AX := op.A K X
  let (lam, C) := rayleighRitz lp K X AX
  let X := rotateBasis K K X C
  let AX := rotateBasis K K AX C
  ⟨X, AX, residBlock K X AX lam V, lam⟩

/-- the search directions of an iteration before orthonormalisation (driver.hpp:171-188) -/
def lobDirections (K : Nat) (op : LobOp ι) (iter : Nat) (st : LobState ι) : Nat → ι → ℝ :=
  let dXP := (if iter = 0 then 1 else 2) * K
  let W := op.K K (reverseCols K st.V)
  let W := fun c => projectOut dXP st.S (W c)
  fun c => projectOut dXP st.S (W c)

/-- the rest of an iteration, from orthonormal search directions `W` (driver.hpp:193-221) -/
noncomputable def lobUpdate (lp : LobLapack) (K : Nat) (op : LobOp ι) (iter : Nat) (st : LobState ι)
    (W : Nat → ι → ℝ) : LobState ι :=
  let dXP := (if iter = 0 then 1 else 2) * K
  let dS := dXP + K
  let S := storeCols dXP K st.S W
  let AS := if (iter + 1) % 20 = 0 then storeCols 0 dS st.AS (op.A dS S)
    else storeCols dXP K st.AS (op.A K W)
  let (lam, C) := rayleighRitz lp dS S AS
  let C := hlOrtho lp K dXP C
  let S := rotateBasis (2 * K) dS S C
  let AS := rotateBasis (2 * K) dS AS C
  ⟨S, AS, residBlock K S AS lam (reverseCols K st.V), lam⟩

/-- `conv.conv_data` entry (driver.hpp:141-150) -/
noncomputable def lobRecord (K : Nat) (st : LobState ι) : LobRecord :=
  ⟨(List.range K).map st.lam, (List.range K).map (absRes st.S st.AS st.lam),
    (List.range K).map (relRes st.S st.AS st.lam)⟩

/-- the main loop (driver.hpp:138-231), `n` iterations left; also returns the convergence history -/
noncomputable def lobLoop (lp : LobLapack) (set : LobSettings) (K NR : Nat) (op : LobOp ι)
    (check : Nat → (Nat → ℝ) → (Nat → Option ℝ) → ℝ → Bool) :
    Nat → Nat → LobState ι → LobExit ι × List LobRecord
  | 0, _, st => (.failed st.lam st.S (relRes st.S st.AS st.lam), [])
  | n + 1, iter, st =>
    let rec' := if set.track then [lobRecord K st] else []
    if check NR (absRes st.S st.AS st.lam) (relRes st.S st.AS st.lam) set.tol then
      (.converged iter st.lam st.S (relRes st.S st.AS st.lam), rec')
    else match cholqr lp K 2 (lobDirections K op iter st) with
      | none => (.cholFailed iter (reverseCols K st.V), rec')
      | some W =>
        let (e, recs) := lobLoop lp set K NR op check n (iter + 1) (lobUpdate lp K op iter st W)
        (e, rec' ++ recs)

/-- `lobpcg_lwork` (driver.hpp:38-40) -/
def lobLwork (N K : Int) : Int := 8 * N * K + 9 * K * K + 5 * K

/-- start and length of the pieces `S`, `AS`, `C`, `LAM`, `ABS_RES`, `REL_RES`, `WORKSPACE` of `WORK`
(driver.hpp:96-104, 111) -/
def lobRegions (N K : Int) : List (Int × Int) :=
  let S := 0
  let AS := S + 3 * N * K
  let C := AS + 3 * N * K
  let lam := C + 9 * K * K
  let abs := lam + 3 * K
  let rel := abs + K
  let ws := rel + K
  [(S, 3 * N * K), (AS, 3 * N * K), (C, 9 * K * K), (lam, 3 * K), (abs, K), (rel, K), (ws, 2 * N * K)]

open Classical in
/-- `lobpcg` (driver.hpp:70-231) for vectors of length `Fintype.card ι` -/
noncomputable def lobpcg (lp : LobLapack) (set : LobSettings) (K NR : Nat) (op : LobOp ι)
    (V : Nat → ι → ℝ) (lwork : Int) (check : Nat → (Nat → ℝ) → (Nat → Option ℝ) → ℝ → Bool) :
    LobExit ι × List LobRecord :=
  let N : Int := Fintype.card ι
  if lwork < 0 then (.query (lobLwork N K), [])
  else if lwork < lobLwork N K then (.badArg, [])
  else if set.maxiter < 0 then (.badArg, [])
  else if set.tol < 0 then (.badArg, [])
  else match (lobRegions N K).getLast? with
    | none => (.badArg, [])
    | some (ws, len) =>
      if ws + len > lwork then (.badArg, [])
      else lobLoop lp set K NR op check set.maxiter.toNat 0 (lobInit lp K op V)

/-- the interface without check and work array (simplified_interface.hpp:8-16, 18-27): relative
residuals, minimal work array -/
noncomputable def lobpcgSimple (lp : LobLapack) (set : LobSettings) (K NR : Nat) (op : LobOp ι)
    (V : Nat → ι → ℝ) : LobExit ι × List LobRecord :=
  lobpcg lp set K NR op V (lobLwork (Fintype.card ι) K) relresCheck

end Macis
