import Verif.Model.Transform
import Verif.Model.RdmBin
import Mathlib.Algebra.Field.Defs
/-
Model of src/macis/fock_matrices.cxx.  Arrays behind pointers are functions from addresses to values;
numbers are elements of a field; accumulation loops are sums (order of summation is not modelled).
-/
namespace Macis

variable {R : Type} [Field R]

/-- `inactive_energy` (fock_matrices.cxx:15-22). -/
def inactiveEnergy (ni : Nat) (T : Nat → R) (ldt : Nat) (Fi : Nat → R) (ldf : Nat) : R :=
  ∑ i ∈ Finset.range ni, (T (i * (ldt + 1)) + Fi (i * (ldf + 1)))

/-- `inactive_fock_matrix` (fock_matrices.cxx:24-42). -/
def inactiveFockMatrix (no ni : Nat) (T : Nat → R) (ldt : Nat) (V : Nat → R) (ldv : Nat)
    (Fi : Nat → R) (ldf : Nat) : Nat → R :=
  let ldv2 := ldv * ldv
  let ldv3 := ldv2 * ldv
  storeAll Fi ((pairs2 no).map fun x => (x.1 + x.2 * ldf, T (x.1 + x.2 * ldt) +
    ∑ i ∈ Finset.range ni, (2 * V (x.1 + x.2 * ldv + i * (ldv2 + ldv3)) -
      V (x.1 + x.2 * ldv3 + i * (ldv + ldv2)))))

/-- `active_submatrix_1body` (fock_matrices.cxx:44-56). -/
def activeSubmatrix1body (na ni : Nat) (A : Nat → R) (lda : Nat) (S : Nat → R) (lds : Nat) : Nat → R :=
  storeAll S ((pairs2 na).map fun x => (x.1 + x.2 * lds, A (x.1 + ni + (x.2 + ni) * lda)))

/-- `active_subtensor_2body` (fock_matrices.cxx:58-81). -/
def activeSubtensor2body (na ni : Nat) (A : Nat → R) (lda : Nat) (S : Nat → R) (lds : Nat) : Nat → R :=
  storeAll S ((quads na).map fun x =>
    (x.1 + x.2.1 * lds + x.2.2.1 * lds * lds + x.2.2.2 * lds * lds * lds,
     A (x.1 + ni + (x.2.1 + ni) * lda + (x.2.2.1 + ni) * (lda * lda) +
       (x.2.2.2 + ni) * (lda * lda * lda))))

/-- `active_hamiltonian` (fock_matrices.cxx:83-95): the arrays `Fi`, `T_active`, `V_active`
afterwards. -/
def activeHamiltonian (no na ni : Nat) (T : Nat → R) (ldt : Nat) (V : Nat → R) (ldv : Nat)
    (Fi : Nat → R) (ldf : Nat) (Ta : Nat → R) (ldta : Nat) (Va : Nat → R) (ldva : Nat) :
    (Nat → R) × (Nat → R) × (Nat → R) :=
  let Va := activeSubtensor2body na ni V ldv Va ldva
  let Fi := inactiveFockMatrix no ni T ldt V ldv Fi ldf
  let Ta := activeSubmatrix1body na ni Fi ldf Ta ldta
  (Fi, Ta, Va)

/-- `active_fock_matrix` (fock_matrices.cxx:97-120). -/
def activeFockMatrix (no ni na : Nat) (V : Nat → R) (ldv : Nat) (D : Nat → R) (ldd : Nat)
    (Fa : Nat → R) (ldf : Nat) : Nat → R :=
  let ldv2 := ldv * ldv
  let ldv3 := ldv2 * ldv
  storeAll Fa ((pairs2 no).map fun x => (x.1 + x.2 * ldf,
    ∑ v ∈ Finset.range na, ∑ w ∈ Finset.range na, D (v + w * ldd) *
      (V (x.1 + x.2 * ldv + (v + ni) * ldv2 + (w + ni) * ldv3) -
        1 / 2 * V (x.1 + x.2 * ldv3 + (w + ni) * ldv + (v + ni) * ldv2))))

/-- `aux_q_matrix` (fock_matrices.cxx:122-149). -/
def auxQMatrix (na no ni : Nat) (V : Nat → R) (ldv : Nat) (D2 : Nat → R) (ldd : Nat) (Q : Nat → R)
    (ldq : Nat) : Nat → R :=
  let ldv2 := ldv * ldv
  let ldv3 := ldv2 * ldv
  let ldd2 := ldd * ldd
  let ldd3 := ldd2 * ldd
  storeAll Q ((pairsMN na no).map fun x => (x.1 + x.2 * ldq,
    2 * ∑ w ∈ Finset.range na, ∑ y ∈ Finset.range na, ∑ z ∈ Finset.range na,
      D2 (x.1 + w * ldd + y * ldd2 + z * ldd3) *
        V (x.2 + (w + ni) * ldv + (y + ni) * ldv2 + (z + ni) * ldv3)))

/-- `generalized_fock_matrix` (fock_matrices.cxx:151-179). -/
def generalizedFockMatrix (no ni na : Nat) (Fi : Nat → R) (ldfi : Nat) (Fa : Nat → R) (ldfa : Nat)
    (D : Nat → R) (ldd : Nat) (Q : Nat → R) (ldq : Nat) (F : Nat → R) (ldf : Nat) : Nat → R :=
  let F := storeAll F ((pairsMN ni no).map fun x =>
    (x.1 + x.2 * ldf, 2 * (Fi (x.2 + x.1 * ldfi) + Fa (x.2 + x.1 * ldfa))))
  let X := gemm false no na na (fun a => Fi (ni * ldfi + a)) ldfi D ldd (fun _ => 0) 0 no
  storeAll F ((pairsMN na no).map fun x =>
    (x.1 + ni + x.2 * ldf, X (x.2 + x.1 * no) + Q (x.1 + x.2 * ldq)))

/-- `generalized_fock_matrix_comp_mat1` (fock_matrices.cxx:181-205). -/
def generalizedFockCompMat1 (no ni na : Nat) (Fi : Nat → R) (ldfi : Nat) (V : Nat → R) (ldv : Nat)
    (D1 : Nat → R) (ldd1 : Nat) (D2 : Nat → R) (ldd2 : Nat) (F : Nat → R) (ldf : Nat) : Nat → R :=
  let Fa := activeFockMatrix no ni na V ldv D1 ldd1 (fun _ => 0) no
  let Q := auxQMatrix na no ni V ldv D2 ldd2 (fun _ => 0) na
  generalizedFockMatrix no ni na Fi ldfi Fa no D1 ldd1 Q na F ldf

/-- `generalized_fock_matrix_comp_mat2` (fock_matrices.cxx:207-223). -/
def generalizedFockCompMat2 (no ni na : Nat) (T : Nat → R) (ldt : Nat) (V : Nat → R) (ldv : Nat)
    (D1 : Nat → R) (ldd1 : Nat) (D2 : Nat → R) (ldd2 : Nat) (F : Nat → R) (ldf : Nat) : Nat → R :=
  let Fi := inactiveFockMatrix no ni T ldt V ldv (fun _ => 0) no
  generalizedFockCompMat1 no ni na Fi no V ldv D1 ldd1 D2 ldd2 F ldf

/-- `energy_from_generalized_fock` (fock_matrices.cxx:225-253). -/
def energyFromGeneralizedFock (ni na : Nat) (T : Nat → R) (ldt : Nat) (D : Nat → R) (ldd : Nat)
    (F : Nat → R) (ldf : Nat) : R :=
  1 / 2 * ((∑ i ∈ Finset.range ni, 2 * T (i * (ldt + 1))) +
    (∑ x ∈ Finset.range na, ∑ y ∈ Finset.range na, D (x + y * ldd) * T (x + ni + (y + ni) * ldt)) +
    ∑ p ∈ Finset.range (na + ni), F (p * (ldf + 1)))

end Macis
