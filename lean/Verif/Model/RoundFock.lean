import Verif.Model.OrbRot
import Verif.Model.Fock
import Verif.Model.RoundHam
import Verif.Model.RoundTransform
/-
Model of src/macis/fock_matrices.cxx in floating point arithmetic: a rounding `rnd` after every operation, in program
order (no fused operations, no underflow or overflow); the one call of BLAS adds in any order (`Kernel`).
-/
namespace Macis

open Integrals (accR)
variable (rnd : ℝ → ℝ)

/-- `inactive_energy` (fock_matrices.cxx:15-22). -/
def inactiveEnergyR (ni : Nat) (T : Nat → ℝ) (ldt : Nat) (Fi : Nat → ℝ) (ldf : Nat) : ℝ :=
  accR rnd (fun i => rnd (T (i * (ldt + 1)) + Fi (i * (ldf + 1)))) 0 (List.range ni)

/-- `inactive_fock_matrix` (fock_matrices.cxx:24-42). -/
def inactiveFockMatrixR (no ni : Nat) (T : Nat → ℝ) (ldt : Nat) (V : Nat → ℝ) (ldv : Nat)
    (Fi : Nat → ℝ) (ldf : Nat) : Nat → ℝ :=
  let ldv2 := ldv * ldv
  let ldv3 := ldv2 * ldv
  storeAll Fi ((pairs2 no).map fun x => (x.1 + x.2 * ldf, rnd (T (x.1 + x.2 * ldt) +
    accR rnd (fun i => rnd (rnd (2 * V (x.1 + x.2 * ldv + i * (ldv2 + ldv3))) -
      V (x.1 + x.2 * ldv3 + i * (ldv + ldv2)))) 0 (List.range ni))))

/-- `active_hamiltonian` (fock_matrices.cxx:83-95): the arrays `Fi`, `T_active`, `V_active` afterwards. -/
def activeHamiltonianR (no na ni : Nat) (T : Nat → ℝ) (ldt : Nat) (V : Nat → ℝ) (ldv : Nat)
    (Fi : Nat → ℝ) (ldf : Nat) (Ta : Nat → ℝ) (ldta : Nat) (Va : Nat → ℝ) (ldva : Nat) :
    (Nat → ℝ) × (Nat → ℝ) × (Nat → ℝ) :=
  let Va := activeSubtensor2body na ni V ldv Va ldva
  let Fi := inactiveFockMatrixR rnd no ni T ldt V ldv Fi ldf
  let Ta := activeSubmatrix1body na ni Fi ldf Ta ldta
  (Fi, Ta, Va)

/-- `active_fock_matrix` (fock_matrices.cxx:97-120). -/
noncomputable def activeFockMatrixR (no ni na : Nat) (V : Nat → ℝ) (ldv : Nat) (D : Nat → ℝ) (ldd : Nat)
    (Fa : Nat → ℝ) (ldf : Nat) : Nat → ℝ :=
  let ldv2 := ldv * ldv
  let ldv3 := ldv2 * ldv
  storeAll Fa ((pairs2 no).map fun x => (x.1 + x.2 * ldf,
    accR rnd (fun y => rnd (D (y.1 + y.2 * ldd) *
      rnd (V (x.1 + x.2 * ldv + (y.1 + ni) * ldv2 + (y.2 + ni) * ldv3) -
        rnd (1 / 2 * V (x.1 + x.2 * ldv3 + (y.2 + ni) * ldv + (y.1 + ni) * ldv2))))) 0 (pairsMN na na)))

/-- the index triples of the innermost loops of `aux_q_matrix` (fock_matrices.cxx:136-138) -/
def triples (n : Nat) : List (Nat × Nat × Nat) :=
  (List.range n).flatMap fun w => (List.range n).flatMap fun x => (List.range n).map fun y => (w, x, y)

/-- `aux_q_matrix` (fock_matrices.cxx:122-149). -/
def auxQMatrixR (na no ni : Nat) (V : Nat → ℝ) (ldv : Nat) (D2 : Nat → ℝ) (ldd : Nat) (Q : Nat → ℝ)
    (ldq : Nat) : Nat → ℝ :=
  let ldv2 := ldv * ldv
  let ldv3 := ldv2 * ldv
  let ldd2 := ldd * ldd
  let ldd3 := ldd2 * ldd
  storeAll Q ((pairsMN na no).map fun x => (x.1 + x.2 * ldq,
    rnd (2 * accR rnd (fun t => rnd (D2 (x.1 + t.1 * ldd + t.2.1 * ldd2 + t.2.2 * ldd3) *
        V (x.2 + (t.1 + ni) * ldv + (t.2.1 + ni) * ldv2 + (t.2.2 + ni) * ldv3))) 0 (triples na))))

/-- `generalized_fock_matrix` (fock_matrices.cxx:151-179). -/
def generalizedFockMatrixR (dot : Kernel) (no ni na : Nat) (Fi : Nat → ℝ) (ldfi : Nat) (Fa : Nat → ℝ) (ldfa : Nat)
    (D : Nat → ℝ) (ldd : Nat) (Q : Nat → ℝ) (ldq : Nat) (F : Nat → ℝ) (ldf : Nat) : Nat → ℝ :=
  let F := storeAll F ((pairsMN ni no).map fun x =>
    (x.1 + x.2 * ldf, rnd (2 * rnd (Fi (x.2 + x.1 * ldfi) + Fa (x.2 + x.1 * ldfa)))))
  let X := gemmF dot 0 false no na na (fun a => Fi (ni * ldfi + a)) ldfi D ldd (fun _ => 0) 0 no
  storeAll F ((pairsMN na no).map fun x =>
    (x.1 + ni + x.2 * ldf, rnd (X (x.2 + x.1 * no) + Q (x.1 + x.2 * ldq))))

/-- `generalized_fock_matrix_comp_mat2` (fock_matrices.cxx:207-223) with the call of
`generalized_fock_matrix_comp_mat1` (fock_matrices.cxx:181-205) in it. -/
noncomputable def generalizedFockR (dot : Kernel) (no ni na : Nat) (T : Nat → ℝ) (ldt : Nat) (V : Nat → ℝ) (ldv : Nat)
    (D1 : Nat → ℝ) (ldd1 : Nat) (D2 : Nat → ℝ) (ldd2 : Nat) (F : Nat → ℝ) (ldf : Nat) : Nat → ℝ :=
  let Fi := inactiveFockMatrixR rnd no ni T ldt V ldv (fun _ => 0) no
  let Fa := activeFockMatrixR rnd no ni na V ldv D1 ldd1 (fun _ => 0) no
  let Q := auxQMatrixR rnd na no ni V ldv D2 ldd2 (fun _ => 0) na
  generalizedFockMatrixR rnd dot no ni na Fi no Fa no D1 ldd1 Q na F ldf

/-- `energy_from_generalized_fock` (fock_matrices.cxx:225-253). -/
noncomputable def energyFromGeneralizedFockR (ni na : Nat) (T : Nat → ℝ) (ldt : Nat) (D : Nat → ℝ) (ldd : Nat)
    (F : Nat → ℝ) (ldf : Nat) : ℝ :=
  let E := accR rnd (fun i => rnd (2 * T (i * (ldt + 1)))) 0 (List.range ni)
  let E := accR rnd (fun x => rnd (D (x.1 + x.2 * ldd) * T (x.1 + ni + (x.2 + ni) * ldt))) E (pairsMN na na)
  let E := accR rnd (fun p => F (p * (ldf + 1))) E (List.range (na + ni))
  rnd (1 / 2 * E)

/-- The energy of the CI step in `mcscf_impl` (mcscf_impl.hpp:113-123, 156-160) from the integrals and the active density
matrices; both calls of `blas::dot` add in any order. -/
noncomputable def mcscfEnergyR (dot : Kernel) (no na ni : Nat) (T : Nat → ℝ) (ldt : Nat) (V : Nat → ℝ) (ldv : Nat)
    (Ecore : ℝ) (D1 D2 : Nat → ℝ) : ℝ :=
  let (Fi, Ta, Va) := activeHamiltonianR rnd no na ni T ldt V ldv (fun _ => 0) no (fun _ => 0) na (fun _ => 0) na
  let Ei := inactiveEnergyR rnd ni T ldt Fi no
  let Ei := rnd (Ei + Ecore)
  let na2 := na * na
  let na4 := na2 * na2
  let E1 := dot 0 0 0 D1 Ta na2
  let E2 := dot 1 0 0 D2 Va na4
  rnd (rnd (E1 + E2) + Ei)

/-- `fock_to_linear_orb_grad` (orbital_rotation_utilities.cxx:83-115, .hpp:86-91); the two operations per element are
rounded. -/
noncomputable def fockToLinearOrbGradR (ni na nv : Nat) (F : Nat → ℝ) (ldf : Nat) (G : Nat → ℝ) : Nat → ℝ :=
  let (o1, o2, o3) := splitLinearOrbRot ni na nv
  let G := storeAll G (packBlock nv ni o1 fun i a =>
    rnd (2 * rnd (F (a + ni + na + i * ldf) - F (i + (a + ni + na) * ldf))))
  let G := storeAll G (packBlock nv na o2 fun i a =>
    rnd (2 * rnd (F (a + ni + na + (i + ni) * ldf) - F (i + ni + (a + ni + na) * ldf))))
  storeAll G (packBlock na ni o3 fun i a => rnd (2 * rnd (F (a + ni + i * ldf) - F (i + (a + ni) * ldf))))

/-- The orbital gradient `mcscf_impl` computes from integrals and active density matrices (mcscf_impl.hpp:165-172); the
array of the Fock matrix is created with zeros (mcscf_impl.hpp:97). -/
noncomputable def mcscfGradientR (dot : Kernel) (no ni na nv : Nat) (T : Nat → ℝ) (ldt : Nat) (V : Nat → ℝ) (ldv : Nat)
    (D1 : Nat → ℝ) (ldd1 : Nat) (D2 : Nat → ℝ) (ldd2 : Nat) (OG : Nat → ℝ) : Nat → ℝ :=
  let F := generalizedFockR rnd dot no ni na T ldt V ldv D1 ldd1 D2 ldd2 (fun _ => 0) no
  fockToLinearOrbGradR rnd ni na nv F no OG

end Macis
