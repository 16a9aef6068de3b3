import Verif.Model.MpiSearch
import Verif.Model.MpiDav
import Verif.Model.AsciContrib
import Verif.Model.Driver
/-
`asci_iter`, `asci_grow` and `asci_refine` on several ranks as the program every rank runs
(include/macis/asci/iteration.hpp, include/macis/asci/grow.hpp, include/macis/asci/refine.hpp,
include/macis/solvers/selected_ci_diag.hpp:124-207): the search, the diagonalisation, the gathering of the CI vector,
the broadcast of rotated integrals.  Nothing is assumed about the ranks agreeing.

Simplifications: those of the models called; reductions whose result is only logged carry a number nobody uses.
-/
namespace Macis.Mpi

/-- How a caller with variables `S` and messages `M` calls a program with variables `σ` and messages `μ`: where the
callee's variables are among the caller's, what its messages are among the caller's, and what happens when another
message arrives. -/
structure Port (S σ M μ : Type) where
  get : S → σ
  set : σ → S → S
  inj : μ → M
  prj : M → Option μ
  bad : S → S

mutual
/-- an instruction of the callee, run by the caller -/
def callI {S σ M μ : Type} (po : Port S σ M μ) : Instr σ μ → Instr S M
  | .comp f => .comp fun x => po.set (f (po.get x)) x
  | .isend t d m => .isend t d fun x => po.inj (m (po.get x))
  | .recv t s k => .recv t s fun v x => match po.prj v with
    | some v => po.set (k v (po.get x)) x
    | none => po.bad x
  | .wsend t d => .wsend t d
  | .dyn f => .dyn fun x => callL po (f (po.get x))
/-- a program of the callee, run by the caller -/
def callL {S σ M μ : Type} (po : Port S σ M μ) : List (Instr σ μ) → List (Instr S M)
  | [] => []
  | i :: p => callI po i :: callL po p
end

/-- What does not change during a calculation: number of ranks, settings, and the behaviour of the library routines
(those with a rank as first argument may differ between the ranks). -/
structure AsciPar (M : Nat) where
  P : Nat
  norb : Nat
  asci : AsciSettings ℝ
  contrib : ContribSettings ℝ
  ci : CiSettings
  /-- `std::sort` of the indices by coefficient -/
  srtIdx : List ℝ → List Nat → List Nat
  /-- `std::sort` and `std::partition` of the candidates -/
  srt : List (Contrib (2 * M) ℝ) → List (Contrib (2 * M) ℝ)
  part : List (Contrib (2 * M) ℝ) → List (Contrib (2 * M) ℝ)
  /-- random numbers, partition and selection of scores -/
  draw : Nat → Nat
  partS : Nat → Nat → List ℝ → List ℝ
  nthS : Nat → Nat → List ℝ → List ℝ
  /-- threshold and reorderings in the distribution of the constraints -/
  avg : List (BitVec (2 * M)) → Nat
  partC : List (WfnConstraint (2 * M) × Nat) → List (WfnConstraint (2 * M) × Nat)
  sortC : List (WfnConstraint (2 * M) × Nat) → List (WfnConstraint (2 * M) × Nat)
  /-- lowest eigenpair of the Davidson subspace matrix -/
  eig : Nat → (Nat → Nat → ℝ) → ℝ × (Nat → ℝ)
  /-- natural-orbital rotation of the integrals (grow.hpp:71-122) -/
  rotate : GenState → List (BitVec (2 * M)) → List ℝ → GenState

/-- What the collectives carry: what those of the search and of the eigensolver carry, a number that is only logged, a
piece of the CI vector, integrals. -/
inductive AsciMsg (M : Nat)
  | search (m : SearchMs (2 * M) ℝ)
  | dav (m : DavMs)
  | stat
  | piece (l : List ℝ)
  | ints (l : List ℝ)

/-- The variables of a rank: the integrals of `ham_gen`, `E0`, `E`, `wfn`, `X`, the energy and `X_local` of
`selected_ci_diag`, `E_final` of all iterations so far; those of the search and of the eigensolver.  `thrown`: an
exception has left the program.  `err`: a message does not fit the collective it arrives in, or an access is out of
range. -/
structure AsciMem (M : Nat) where
  h : GenState
  E0 : ℝ
  E : ℝ
  wfn : List (BitVec (2 * M))
  X : List ℝ
  diagE : ℝ
  Xl : List ℝ
  energies : List ℝ
  search : SearchSt (2 * M) ℝ
  dav : DavSt
  thrown : Bool
  err : Bool

variable {M : Nat}

/-- the call of `asci_search` (iteration.hpp:28-30) -/
def searchPort : Port (AsciMem M) (SearchSt (2 * M) ℝ) (AsciMsg M) (SearchMs (2 * M) ℝ) where
  get m := m.search
  set s m := { m with search := s }
  inj := .search
  prj | .search v => some v | _ => none
  bad m := { m with err := true }

/-- the call of `parallel_selected_ci_diag` (selected_ci_diag.hpp:199-200) -/
def davPort : Port (AsciMem M) DavSt (AsciMsg M) DavMs where
  get m := m.dav
  set s m := { m with dav := s }
  inj := .dav
  prj | .dav v => some v | _ => none
  bad m := { m with err := true }

/-- a contribution to a barrier or to a reduction that is only logged -/
def putLog : AsciMsg M → AsciMem M → AsciMem M
  | .stat, m => m
  | _, m => { m with err := true }

/-- the piece of rank `s` of the CI vector, `n` elements (iteration.hpp:48-49, grow.hpp:139-140) -/
def putPiece (n s : Nat) : AsciMsg M → AsciMem M → AsciMem M
  | .piece l, m => { m with X := writeAt m.X (s * n) l, err := m.err || l.length != n }
  | _, m => { m with err := true }

/-- the last `n` elements of the CI vector, from position `k` (iteration.hpp:57, grow.hpp:148) -/
def putRest (k n : Nat) : AsciMsg M → AsciMem M → AsciMem M
  | .piece l, m => { m with X := writeAt m.X k l, err := m.err || l.length != n }
  | _, m => { m with err := true }

/-- the first `n` elements of `T` (grow.hpp:116) -/
def putT (n : Nat) : AsciMsg M → AsciMem M → AsciMem M
  | .ints l, m => { m with h := ⟨fun i => if i < n then l.getD i 0 else m.h.T i, m.h.V⟩,
                           err := m.err || l.length != n }
  | _, m => { m with err := true }

/-- the first `n` elements of `V` (grow.hpp:117) -/
def putV (n : Nat) : AsciMsg M → AsciMem M → AsciMem M
  | .ints l, m => { m with h := ⟨m.h.T, fun i => if i < n then l.getD i 0 else m.h.V i⟩,
                           err := m.err || l.length != n }
  | _, m => { m with err := true }

/-- `n` collectives whose results are only logged, or barriers -/
def logProg (P : Nat) : Nat → List (Instr (AsciMem M) (AsciMsg M))
  | 0 => []
  | n + 1 =>
    isends coll ((List.range P).map fun d => (d, fun _ => .stat)) ++
    (recvs coll ((List.range P).map fun s => (s, putLog)) ++ logProg P n)

/-- `MPI_Bcast` from rank `o` of `P` -/
def castProg (P o r : Nat) (m : AsciMem M → AsciMsg M) (k : AsciMsg M → AsciMem M → AsciMem M) :
    List (Instr (AsciMem M) (AsciMsg M)) :=
  let dsts := if r = o then (List.range P).filter fun d => d ≠ r else []
  isends coll (dsts.map fun d => (d, m)) ++
  (recvs coll ((if r = o then [] else [o]).map fun s => (s, k)) ++ wsends coll dsts)

/-- what follows a call, unless it ended with an exception -/
def andThen (p : List (Instr (AsciMem M) (AsciMsg M))) : List (Instr (AsciMem M) (AsciMsg M)) :=
  [.dyn fun m => if m.thrown then [] else p]

/-! ### selected_ci_diag -/

/-- the Hamiltonian of this rank's rows in the current determinants (selected_ci_diag.hpp:149-150) -/
noncomputable def AsciPar.ham (a : AsciPar M) (r : Nat) (m : AsciMem M) : DistCsr ℝ :=
  (viewInts a.norb m.h.T m.h.V).distHamiltonian m.wfn a.ci.matelTol a.P r

/-- `C_local` is empty; the solver's variables start with whatever the memory contains
(iteration.hpp:33, grow.hpp:126) -/
def diagStart (m : AsciMem M) : AsciMem M :=
  { m with dav := ({ m.dav.1 with err := false }, { m.dav.2 with nan := false, err := false, out := .running }) }

/-- `selected_ci_diag` returns the energy and the local piece of the vector, of `n` elements, or an exception leaves
it (selected_ci_diag.hpp:199-206) -/
def diagEnd (n : Nat) (m : AsciMem M) : AsciMem M :=
  match m.dav.2.out with
  | .converged _ lam => { m with diagE := lam, Xl := (List.range n).map m.dav.2.X,
                                 err := m.err || m.dav.1.err || m.dav.2.err }
  | _ => { m with thrown := true, err := m.err || m.dav.1.err || m.dav.2.err }

/-- `selected_ci_diag` on rank `r` (selected_ci_diag.hpp:124-207) with an empty `C_local`: two barriers (146, 158),
three reductions (163-165), three more of several ranks (177-179), the eigensolver.  `garbage` is what is in the
memory the products are written to. -/
noncomputable def diagProg (a : AsciPar M) (r : Nat) (garbage : Nat → Nat → ℝ) :
    List (Instr (AsciMem M) (AsciMsg M)) :=
  logProg a.P 8 ++
  (comps [diagStart] ++
  [.dyn fun m =>
    callL davPort (ciDiagProg a.eig a.P r (a.ham r m) garbage a.ci.resTol a.ci.maxSub []) ++
    comps [diagEnd (a.ham r m).localRowExtent]])

/-! ### gathering the CI vector -/

/-- `X.resize(wfn.size())` (iteration.hpp:46, grow.hpp:137) -/
def gatherStart (m : AsciMem M) : AsciMem M := { m with X := resizeVec m.X m.wfn.length }

/-- the last rank copies what is left of its piece (iteration.hpp:53-56, grow.hpp:144-147) -/
def gatherRest (P : Nat) (m : AsciMem M) : AsciMem M :=
  let n := m.wfn.length
  { m with X := writeAt m.X (P * (n / P)) ((m.Xl.drop (n / P)).take (n % P)),
           err := m.err || decide (m.Xl.length < n / P + n % P) }

/-- The gathering of the CI vector (iteration.hpp:42-58, grow.hpp:132-149) on rank `r` of `P`. -/
def gatherProg (P r : Nat) : List (Instr (AsciMem M) (AsciMsg M)) :=
  comps [gatherStart] ++
  [.dyn fun m =>
    let n := m.wfn.length
    isends coll ((List.range P).map fun d => (d, fun m => .piece (m.Xl.take (n / P)))) ++
    (recvs coll ((List.range P).map fun s => (s, putPiece (n / P) s)) ++
    (if n % P = 0 then []
     else comps (if r = P - 1 then [gatherRest P] else []) ++
      castProg P (P - 1) r (fun m => .piece ((m.X.drop (P * (n / P))).take (n % P))) (putRest (P * (n / P)) (n % P))))]

/-! ### asci_iter -/

/-- `reorder_ci_on_coeff` (iteration.hpp:22) -/
def iterSort (a : AsciPar M) (m : AsciMem M) : AsciMem M :=
  if m.wfn.length > 1 then
    match reorderCi (a.srtIdx m.X) m.wfn m.X 0 0 with
    | some (wfn, X) => { m with wfn := wfn, X := X }
    | none => { m with err := true }
  else m

/-- the determinants searched from (iteration.hpp:25-28) -/
def AsciPar.core (a : AsciPar M) (m : AsciMem M) : List (BitVec (2 * M)) :=
  m.wfn.take (min a.asci.ncdetsMax m.wfn.length)

/-- this rank's contributions (determinant_search.hpp:453-455) -/
noncomputable def iterContribs (a : AsciPar M) (r : Nat) (m : AsciMem M) : AsciMem M :=
  match asciContributionsConstraint (viewInts a.norb m.h.T m.h.V) a.contrib a.norb m.E0 a.srt a.part a.P r
      (a.avg (a.core m)) a.partC a.sortC (a.core m) m.X with
  | some pairs => { m with search := searchStart pairs }
  | none => { m with err := true }

/-- the search returns (iteration.hpp:28) -/
def iterFound (m : AsciMem M) : AsciMem M :=
  match m.search.2.out with
  | some wfn => { m with wfn := wfn, err := m.err || m.search.2.err }
  | none => { m with err := true }

/-- the energy is that of the diagonalisation (iteration.hpp:34) -/
def iterEnergy (m : AsciMem M) : AsciMem M := { m with E := m.diagE }

/-- `asci_iter` on rank `r` of `P` (iteration.hpp:16-68), several ranks.  `fuel` bounds the rounds of the
selection. -/
noncomputable def iterProg (a : AsciPar M) (r fuel ndetsMax : Nat) (garbage : Nat → Nat → ℝ) :
    List (Instr (AsciMem M) (AsciMsg M)) :=
  comps [iterSort a, iterContribs a r] ++
  ([.dyn fun m =>
    callL searchPort (searchProg a.P r a.srt a.part a.draw (a.partS r) (a.nthS r) fuel ndetsMax (a.core m) m.X)] ++
  (comps [iterFound] ++
  (diagProg a r garbage ++ andThen (gatherProg a.P r ++ comps [iterEnergy]))))

/-! ### asci_grow and asci_refine -/

/-- an exception -/
def throwing (m : AsciMem M) : AsciMem M := { m with thrown := true }

/-- the rotation on the root rank (grow.hpp:72-111) -/
def rotateRoot (a : AsciPar M) (m : AsciMem M) : AsciMem M := { m with h := a.rotate m.h m.wfn m.X }

/-- `E0 = E` (grow.hpp:164) -/
def growNext (m : AsciMem M) : AsciMem M := { m with E0 := m.E }

/-- The rotation of the integrals and the second diagonalisation (grow.hpp:67-163) on rank `r`. -/
noncomputable def rotateProg (a : AsciPar M) (r : Nat) (garbage : Nat → Nat → ℝ) :
    List (Instr (AsciMem M) (AsciMsg M)) :=
  comps (if r = 0 then [rotateRoot a] else []) ++
  (castProg a.P 0 r (fun m => .ints ((List.range (a.norb * a.norb)).map m.h.T)) (putT (a.norb * a.norb)) ++
  (castProg a.P 0 r (fun m => .ints ((List.range (a.norb * a.norb * a.norb * a.norb)).map m.h.V))
    (putV (a.norb * a.norb * a.norb * a.norb)) ++
  (diagProg a r garbage ++ andThen (gatherProg a.P r))))

/-- The growth loop (grow.hpp:50-165) on rank `r`, at most `rounds` rounds. -/
noncomputable def growProg (a : AsciPar M) (r fuel : Nat) (garbage : Nat → Nat → Nat → ℝ) :
    Nat → List (Instr (AsciMem M) (AsciMsg M))
  | 0 => []
  | rounds + 1 =>
    [.dyn fun m =>
      if m.wfn.length < a.asci.ntdetsMax then
        let n := ndetsNew a.asci m.wfn.length
        iterProg a r fuel n (garbage (2 * rounds)) ++
        andThen [.dyn fun m =>
          if n > m.wfn.length then comps [throwing]
          else if a.asci.growWithRot ∧ m.wfn.length ≥ a.asci.rotSizeStart then
            rotateProg a r (garbage (2 * rounds + 1)) ++ andThen (comps [growNext] ++ growProg a r fuel garbage rounds)
          else comps [growNext] ++ growProg a r fuel garbage rounds]
      else []]

/-- the bookkeeping of a refinement step: the energy of this iteration in front of those before (refine.hpp:55-62) -/
def refineNext (m : AsciMem M) : AsciMem M := { m with energies := m.E :: m.energies, E0 := m.E }

/-- The refinement loop (refine.hpp:43-66) on rank `r`, `ndets` determinants, `rounds` iterations left. -/
noncomputable def refineProg (a : AsciPar M) (r fuel ndets : Nat) (garbage : Nat → Nat → Nat → ℝ) :
    Nat → List (Instr (AsciMem M) (AsciMsg M))
  | 0 => comps [throwing]
  | rounds + 1 =>
    iterProg a r fuel ndets (garbage rounds) ++
    andThen [.dyn fun m =>
      if m.wfn.length ≠ ndets then comps [throwing]
      else if |m.E - m.E0| < a.asci.refineEnergyTol then comps [refineNext]
      else comps [refineNext] ++ refineProg a r fuel ndets garbage rounds]

/-- a rank that calls `asci_iter`, `asci_grow` or `asci_refine` with these arguments; the rest of its memory is
arbitrary -/
def asciStart (h : GenState) (E0 : ℝ) (wfn : List (BitVec (2 * M))) (X : List ℝ) (m : AsciMem M) : AsciMem M :=
  { m with h := h, E0 := E0, wfn := wfn, X := X, energies := [E0], thrown := false, err := false }

/-- All ranks call the same function, with the same arguments. -/
def asciWorld (a : AsciPar M) (prog : Nat → List (Instr (AsciMem M) (AsciMsg M))) (h : GenState) (E0 : ℝ)
    (wfn : List (BitVec (2 * M))) (X : List ℝ) (mem : Nat → AsciMem M) : World (AsciMem M) (AsciMsg M) :=
  ⟨fun r => if r < a.P then prog r else [], fun r => asciStart h E0 wfn X (mem r), fun _ => []⟩

end Macis.Mpi
