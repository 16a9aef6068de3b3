import Verif.Model.OrbGrad
import Verif.Model.Diis
import Mathlib.Analysis.Real.Sqrt
/-
Model of the MCSCF driver: include/macis/util/mcscf_impl.hpp:24-325 (used by `casscf_diis`,
src/macis/casscf.cxx), of `precond_cg_orbital_step` (src/macis/orbital_steps.cxx) and of
`approx_diag_hessian` (src/macis/orbital_hessian.cxx:17-67).

Numbers are real numbers, the matrix exponential is exact, logging is dropped except that the state keeps
the flag that decides the "MCSCF Converged" message.  The CI solver (`rdm_op.rdms`) and the least-squares
solver of the DIIS equations (`lapack::gelss`) are parameters.  A division by a zero diagonal element,
which gives an infinity or NaN in the code, is a separate outcome.
-/
namespace Macis

/-- How a call of the driver ends. -/
inductive Out (α : Type) where
  | ok (a : α)
  /-- a number stops being finite -/
  | nonfinite
  | throw
  | ub

/-- sequencing -/
def Out.bind {α β : Type} (x : Out α) (f : α → Out β) : Out β :=
  match x with
  | .ok a => f a
  | .nonfinite => .nonfinite
  | .throw => .throw
  | .ub => .ub

/-- results of calls modelled elsewhere -/
def Run.toOut {α : Type} : Run α → Out α
  | .ok a => .ok a
  | .throw => .throw
  | .ub => .ub
  | .timeout => .ub

/-- `approx_diag_hessian` (orbital_hessian.cxx:17-67, orbital_hessian.hpp:24-33): packed array. -/
def approxDiagHessian {R : Type} [Field R] (ni na nv : Nat) (Fi : Nat → R) (ldfi : Nat) (Fa : Nat → R)
    (ldfa : Nat) (D : Nat → R) (ldd : Nat) (F : Nat → R) (ldf : Nat) (H : Nat → R) : Nat → R :=
  let (o1, o2, o3) := splitLinearOrbRot ni na nv
  let FI := fun i j => Fi (i + j * ldfi)
  let FA := fun i j => Fa (i + j * ldfa)
  let FF := fun i j => F (i + j * ldf)
  let DD := fun i j => D (i + j * ldd)
  let H := storeAll H (packBlock nv ni o1 fun i a =>
    4 * (FI (a + ni + na) (a + ni + na) + FA (a + ni + na) (a + ni + na) - (FI i i + FA i i)))
  let H := storeAll H (packBlock nv na o2 fun i a =>
    2 * DD i i * (FI (a + ni + na) (a + ni + na) + FA (a + ni + na) (a + ni + na)) -
      2 * FF (i + ni) (i + ni))
  storeAll H (packBlock na ni o3 fun i a =>
    2 * DD a a * (FI i i + FA i i) +
      4 * (FI (a + ni) (a + ni) + FA (a + ni) (a + ni) - FI i i - FA i i) - 2 * FF (a + ni) (a + ni))

/-- `precond_cg_orbital_step` (orbital_steps.cxx:14-31): element `p` of `K_lin`, `none` when some
element divides by zero. -/
noncomputable def precondStep (ni na nv : Nat) (Fi : Nat → ℝ) (ldfi : Nat) (Fa : Nat → ℝ) (ldfa : Nat)
    (F : Nat → ℝ) (ldf : Nat) (D : Nat → ℝ) (ldd : Nat) (OG : Nat → ℝ) : Out (Nat → ℝ) :=
  let sz := nv * (na + ni) + na * ni
  let DH := approxDiagHessian ni na nv Fi ldfi Fa ldfa D ldd F ldf (fun _ => 0)
  open Classical in
  if ∃ p < sz, DH p = 0 then .nonfinite
  else .ok fun p => if p < sz then -OG p / DH p else 0

/-- The settings the driver reads (mcscf.hpp:15-30). -/
structure McSettings where
  maxMacroIter : Nat
  maxStep : ℝ
  tol : ℝ
  enableDiis : Bool
  diisStart : Nat
  diisNkeep : Nat

/-- What the driver calls: the CI solver, from the active Hamiltonian, the RDM arrays and the CI vector
to the energy, the RDM arrays and the CI vector; and the solver of the DIIS equations. -/
structure McEnv (X : Type) where
  rdms : (Nat → ℝ) → (Nat → ℝ) → (Nat → ℝ) → (Nat → ℝ) → X → Out (ℝ × (Nat → ℝ) × (Nat → ℝ) × X)
  gelss : Nat → (Nat → ℝ) → Nat → ℝ

/-- Input of the driver that stays fixed. -/
structure McInput where
  nalpha : Nat
  nbeta : Nat
  ni : Nat
  na : Nat
  nv : Nat
  /-- `norb` -/
  no : Nat
  eCore : ℝ
  T : Nat → ℝ
  ldt : Nat
  V : Nat → ℝ
  ldv : Nat
  ldd1 : Nat
  ldd2 : Nat

/-- The variables of the driver that live across iterations (mcscf_impl.hpp:83-110). -/
structure McState (X : Type) where
  E0 : ℝ
  conv : Bool
  Ta : Nat → ℝ
  Va : Nat → ℝ
  ci : X
  F : Nat → ℝ
  OG : Nat → ℝ
  Fi : Nat → ℝ
  Fa : Nat → ℝ
  Q : Nat → ℝ
  Tt : Nat → ℝ
  Vt : Nat → ℝ
  U : Nat → ℝ
  K : Nat → ℝ
  diis : List ((Nat → ℝ) × (Nat → ℝ))
  A1 : Nat → ℝ
  A2 : Nat → ℝ
  /-- number of CI solutions so far (not a variable of the code) -/
  calls : Nat

/-- `blas::nrmN` -/
noncomputable def nrmN (n : Nat) (x : Nat → ℝ) : ℝ := Real.sqrt (∑ k ∈ Finset.range n, x k ^ 2)

/-- `std::fill_n(p, n, 0)` -/
def fillZero (n : Nat) (x : Nat → ℝ) : Nat → ℝ := fun m => if m < n then 0 else x m

/-- `blas::axpy(n, alpha, x, 1, y, 1)` -/
def axpyN (n : Nat) (alpha : ℝ) (x y : Nat → ℝ) : Nat → ℝ :=
  fun m => if m < n then alpha * x m + y m else y m

/-- `blas::scal(n, alpha, x, 1)` -/
def scalN (n : Nat) (alpha : ℝ) (x : Nat → ℝ) : Nat → ℝ := fun m => if m < n then alpha * x m else x m

/-- the largest absolute value, `abs(x[iamax(n, x, 1)])` -/
noncomputable def amaxN (n : Nat) (x : Nat → ℝ) : ℝ := (List.range n).foldl (fun m k => max m |x k|) 0

variable {X : Type}

/-- Fock matrices and gradient from the active Fock matrix on (mcscf_impl.hpp:165-172, 304-315), for
integrals `T`, `V` in use, the array `F` holding `F0`. -/
noncomputable def mcGradient (p : McInput) (V : Nat → ℝ) (ldv : Nat) (F0 : Nat → ℝ) (s : McState X) :
    McState X :=
  let Fa := activeFockMatrix p.no p.ni p.na V ldv s.A1 p.ldd1 s.Fa p.no
  let Q := auxQMatrix p.na p.no p.ni V ldv s.A2 p.ldd2 s.Q p.na
  let F := generalizedFockMatrix p.no p.ni p.na s.Fi p.no Fa p.no s.A1 p.ldd1 Q p.na F0 p.no
  let OG := fockToLinearOrbGrad p.ni p.na p.nv F p.no s.OG
  { s with Fa := Fa, Q := Q, F := F, OG := OG }

/-- Setup and initial energies (mcscf_impl.hpp:83-181). -/
noncomputable def mcInit (env : McEnv X) (st : McSettings) (p : McInput) (ci0 : X) (A1 A2 : Nat → ℝ) :
    Out (McState X) :=
  let na2 := p.na * p.na
  let na4 := na2 * na2
  let sz := p.nv * (p.ni + p.na) + p.na * p.ni
  let z : Nat → ℝ := fun _ => 0
  let (Fi, Ta, Va) := activeHamiltonian p.no p.na p.ni p.T p.ldt p.V p.ldv z p.no z p.na z p.na
  let eInactive := inactiveEnergy p.ni p.T p.ldt Fi p.no + p.eCore
  let iAtr := ∑ i ∈ Finset.range p.na, A1 (i * (p.ldd1 + 1))
  let first : Out ((Nat → ℝ) × (Nat → ℝ) × X × Nat) :=
    open Classical in
    if |iAtr - p.nalpha - p.nbeta| > 1 / 1000000 then
      (env.rdms Ta Va (fillZero na2 A1) (fillZero na4 A2) ci0).bind fun r =>
        .ok (r.2.1, r.2.2.1, r.2.2.2, 1)
    else .ok (A1, A2, ci0, 0)
  first.bind fun (A1, A2, ci, calls) =>
    let E0 := dotN na2 A1 Ta + dotN na4 A2 Va + eInactive
    let s : McState X := ⟨E0, false, Ta, Va, ci, z, z, Fi, z, z, p.T, p.V, z, z, [], A1, A2, calls⟩
    let s := mcGradient p p.V p.ldv s.F s
    open Classical in
    .ok { s with conv := decide (nrmN sz s.OG < st.tol) }

/-- The orbital step of an iteration in packed storage, after the step restriction
(mcscf_impl.hpp:201-220). -/
noncomputable def mcStepLin (st : McSettings) (p : McInput) (s : McState X) : Out (Nat → ℝ) :=
  let sz := p.nv * (p.ni + p.na) + p.na * p.ni
  (precondStep p.ni p.na p.nv s.Fi p.no s.Fa p.no s.F p.no s.A1 p.ldd1 s.OG).bind fun k =>
    if sz = 0 then .ub
    else
      let amax := amaxN sz k
      open Classical in
      .ok (if amax > st.maxStep then scalN sz (st.maxStep / amax) k else k)

/-- DIIS (mcscf_impl.hpp:229-235): the new total generator and the stored pairs. -/
noncomputable def mcDiis (env : McEnv X) (st : McSettings) (p : McInput) (iter : Nat) (K OG : Nat → ℝ)
    (pairs : List ((Nat → ℝ) × (Nat → ℝ))) :
    Out ((Nat → ℝ) × List ((Nat → ℝ) × (Nat → ℝ))) :=
  let sz := p.nv * (p.ni + p.na) + p.na * p.ni
  if st.enableDiis ∧ st.diisStart ≤ iter then
    (diisAdd st.diisNkeep pairs (K, OG)).toOut.bind fun pairs =>
      if st.diisStart + 2 ≤ iter then
        let nd := pairs.length
        let vec := fun i => (pairs.getD i (K, OG)).1
        let err := fun i => (pairs.getD i (K, OG)).2
        (diisExtrapolate nd vec (env.gelss nd (diisMatrix nd sz err))).toOut.bind fun K => .ok (K, pairs)
      else .ok (K, pairs)
  else .ok (K, pairs)

/-- One macro-iteration (mcscf_impl.hpp:191-320). -/
noncomputable def mcStep (env : McEnv X) (st : McSettings) (p : McInput) (iter : Nat) (s : McState X) :
    Out (McState X) :=
  let no2 := p.no * p.no
  let na2 := p.na * p.na
  let na4 := na2 * na2
  let sz := p.nv * (p.ni + p.na) + p.na * p.ni
  let z : Nat → ℝ := fun _ => 0
  (mcStepLin st p s).bind fun klin =>
    let kStep := linearOrbRotToMatrix p.ni p.na p.nv klin z p.no
    let K := axpyN no2 1 kStep s.K
    (mcDiis env st p iter K s.OG s.diis).bind fun (K, pairs) =>
      let U :=
        if iter = 0 then computeOrbitalRotation p.no 1 K p.no s.U p.no
        else
          let dK := scalN no2 (-1) (axpyN no2 (-1) K s.K)
          let uStep := computeOrbitalRotation p.no 1 dK p.no z p.no
          gemm false p.no p.no p.no s.U p.no uStep p.no z 0 p.no
      let Tt := twoIndexTransform p.no p.no p.T p.ldt U p.no s.Tt p.no
      let Vt := fourIndexTransform p.no p.no p.V p.ldv U p.no s.Vt p.no
      let (Fi, Ta, Va) := activeHamiltonian p.no p.na p.ni Tt p.no Vt p.no s.Fi p.no s.Ta p.na s.Va p.na
      let eInactive := inactiveEnergy p.ni Tt p.no Fi p.no + p.eCore
      (env.rdms Ta Va (fillZero na2 s.A1) (fillZero na4 s.A2) s.ci).bind fun r =>
        let s : McState X := { s with
          E0 := r.1 + eInactive, Ta := Ta, Va := Va, ci := r.2.2.2, Fi := Fi, Tt := Tt, Vt := Vt, U := U,
          K := K, diis := pairs, A1 := r.2.1, A2 := r.2.2.1, calls := s.calls + 1 }
        let s := mcGradient p Vt p.no (fillZero no2 s.F) s
        open Classical in
        .ok { s with conv := decide (nrmN sz s.OG / Real.sqrt sz < st.tol) }

/-- The iterations from number `iter` on, `n` of them being left (mcscf_impl.hpp:187-321). -/
noncomputable def mcLoop (env : McEnv X) (st : McSettings) (p : McInput) : Nat → Nat → McState X →
    Out (McState X)
  | 0, _, s => .ok s
  | n + 1, iter, s => if s.conv then .ok s else (mcStep env st p iter s).bind fun s =>
      mcLoop env st p n (iter + 1) s

/-- `mcscf_impl`: the returned energy is `E0` of the final state, the caller's RDM arrays are `A1`, `A2`. -/
noncomputable def mcscf (env : McEnv X) (st : McSettings) (p : McInput) (ci0 : X) (A1 A2 : Nat → ℝ) :
    Out (McState X) :=
  (mcInit env st p ci0 A1 A2).bind fun s => mcLoop env st p st.maxMacroIter 0 s

end Macis
