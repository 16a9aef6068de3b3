import Verif.Model.MpiIter
import Verif.Spec.MpiDav
import Verif.Spec.Davidson
import Verif.Spec.AsciSort
/-! What `asci_iter`, `asci_grow` and `asci_refine` on several ranks are compared with: the drivers of one process
(`Model/AsciDrive`) around the joint search and the diagonalisation of the whole matrix. -/
namespace Macis.Spec
open Macis Macis.Mpi
variable {M : Nat}

/-- the whole Hamiltonian matrix in the given determinants -/
noncomputable def ciFull (a : AsciPar M) (h : GenState) (dets : List (BitVec (2 * M))) :
    Matrix (Fin dets.length) (Fin dets.length) ℝ :=
  fun i j => csrEntry ((viewInts a.norb h.T h.V).csrHamiltonian dets a.ci.matelTol) i j

open scoped Classical in
/-- the start vector of the distributed solver: the unit vector of the first smallest diagonal element, and nothing
if that is one of the last `n % P` rows -/
noncomputable def distGuess {n : Nat} (P : Nat) (D : Fin n → ℝ) : Fin n → ℝ :=
  fun i => if FirstMin (List.ofFn D) i ∧ (i : Nat) < P * (n / P) then 1 else 0

/-- the lowest eigenpair as the Davidson solver finds it from that start vector; `none`: exception -/
noncomputable def jointDiag (a : AsciPar M) (h : GenState) (dets : List (BitVec (2 * M))) : Option (ℝ × List ℝ) :=
  match davidsonRun (ciFull a h dets).mulVec (fun i => ciFull a h dets i i) a.ci.resTol a.eig a.ci.maxSub
      (distGuess a.P fun i => ciFull a h dets i i) with
  | .converged _ E x => some (E, List.ofFn x)
  | _ => none

/-- The search of the ranks together; `none`: an access out of range on some rank, or no determinant is asked for
beyond the core (see C66). -/
noncomputable def jointSearch (a : AsciPar M) (h : GenState) (ndetsMax : Nat) (cdets : List (BitVec (2 * M))) (E0 : ℝ)
    (C : List ℝ) : Option (List (BitVec (2 * M))) :=
  if ndetsMax ≤ cdets.length then none
  else asciSearchDist (viewInts a.norb h.T h.V) a.contrib a.norb E0 a.srt a.part a.P (a.avg cdets) a.partC a.sortC a.draw
    (a.partS 0) (a.nthS 0) ndetsMax cdets C

/-- what the drivers call -/
noncomputable def jointEnv (a : AsciPar M) : AsciEnv (2 * M) ℝ GenState where
  srtIdx := a.srtIdx
  search := jointSearch a
  diag := jointDiag a
  rotate := a.rotate

/-- the library routines behave as the C++ standard says, the eigensolver reads only its matrix, and the rotation
changes no memory outside the integrals -/
structure Behaves (a : AsciPar M) : Prop where
  srt : SortsBy (fun x y => bitsetLess x.state y.state) a.srt
  part : Rearranges a.part
  partS : ∀ r i, Rearranges (a.partS r i)
  nthS : ∀ r, NthElement (id : ℝ → ℝ) (a.nthS r)
  eig : EigLocal a.eig
  rotT : ∀ h w X i, a.norb * a.norb ≤ i → (a.rotate h w X).T i = h.T i
  rotV : ∀ h w X i, a.norb * a.norb * a.norb * a.norb ≤ i → (a.rotate h w X).V i = h.V i

end Macis.Spec
