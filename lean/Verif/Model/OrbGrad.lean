import Verif.Model.Fock
import Verif.Model.OrbRot
import Mathlib.Analysis.Normed.Algebra.MatrixExponential
import Mathlib.Data.Real.Basic
/-
Model of src/macis/orbital_gradient.cxx (rotations and rotated energies) and of the Hessian contraction
in src/macis/orbital_hessian.cxx.  Arrays behind pointers are functions from addresses to values.
-/
namespace Macis
variable {R : Type} [Field R]

/-- `orbital_rotated_generalized_fock` (orbital_gradient.cxx:69-87): the arrays `T_trans`, `V_trans`, `F`
afterwards. -/
def orbitalRotatedGeneralizedFock (no ni na : Nat) (T : Nat → R) (ldt : Nat) (V : Nat → R) (ldv : Nat)
    (D1 : Nat → R) (ldd1 : Nat) (D2 : Nat → R) (ldd2 : Nat) (U : Nat → R) (ldu : Nat) (Tt : Nat → R)
    (ldtt : Nat) (Vt : Nat → R) (ldvt : Nat) (F : Nat → R) (ldf : Nat) :
    (Nat → R) × (Nat → R) × (Nat → R) :=
  let Tt := twoIndexTransform no no T ldt U ldu Tt ldtt
  let Vt := fourIndexTransform no no V ldv U ldu Vt ldvt
  let F := generalizedFockCompMat2 no ni na Tt ldtt Vt ldvt D1 ldd1 D2 ldd2 F ldf
  (Tt, Vt, F)

/-- `orbital_rotated_energy` (orbital_gradient.cxx:89-103). -/
def orbitalRotatedEnergyWork (no ni na : Nat) (T : Nat → R) (ldt : Nat) (V : Nat → R) (ldv : Nat)
    (D1 : Nat → R) (ldd1 : Nat) (D2 : Nat → R) (ldd2 : Nat) (U : Nat → R) (ldu : Nat) (Tt : Nat → R)
    (ldtt : Nat) (Vt : Nat → R) (ldvt : Nat) (F : Nat → R) (ldf : Nat) : R :=
  let (Tt, _, F) := orbitalRotatedGeneralizedFock no ni na T ldt V ldv D1 ldd1 D2 ldd2 U ldu Tt ldtt Vt
    ldvt F ldf
  energyFromGeneralizedFock ni na Tt ldtt D1 ldd1 F ldf

/-- `orbital_rotated_energy` with its own work space (orbital_gradient.cxx:105-118). -/
def orbitalRotatedEnergy (no ni na : Nat) (T : Nat → R) (ldt : Nat) (V : Nat → R) (ldv : Nat)
    (D1 : Nat → R) (ldd1 : Nat) (D2 : Nat → R) (ldd2 : Nat) (U : Nat → R) (ldu : Nat) : R :=
  orbitalRotatedEnergyWork no ni na T ldt V ldv D1 ldd1 D2 ldd2 U ldu (fun _ => 0) no (fun _ => 0) no
    (fun _ => 0) no

/-- The `no x no` matrix stored at `A` with leading dimension `ld` (`Eigen::Map` and `block`). -/
def matOf (no : Nat) (A : Nat → ℝ) (ld : Nat) : Matrix (Fin no) (Fin no) ℝ :=
  Matrix.of fun i j => A (i + j * ld)

/-- `compute_orbital_rotation` (orbital_gradient.cxx:17-30): `U = exp(-alpha K)`, Eigen's matrix
exponential taken as exact. -/
noncomputable def computeOrbitalRotation (no : Nat) (alpha : ℝ) (K : Nat → ℝ) (ldk : Nat) (U : Nat → ℝ)
    (ldu : Nat) : Nat → ℝ :=
  storeAll U ((pairs2 no).map fun x => (x.1 + x.2 * ldu,
    if h : x.1 < no ∧ x.2 < no then
      NormedSpace.exp (-alpha • matOf no K ldk) ⟨x.1, h.1⟩ ⟨x.2, h.2⟩ else 0))

/-- `one_index_transformed_hamiltonian` (orbital_hessian.cxx:69-102): the arrays `Tx`, `Vx` afterwards.
The second product of the one-body part reads `T[p + o * LDX]`. -/
def oneIndexTransformedHamiltonian (no : Nat) (T : Nat → R) (ldt : Nat) (V : Nat → R) (ldv : Nat)
    (X : Nat → R) (ldx : Nat) (Tx : Nat → R) (ldtx : Nat) (Vx : Nat → R) (ldvx : Nat) :
    (Nat → R) × (Nat → R) :=
  (storeAll Tx ((pairs2 no).map fun x => (x.1 + x.2 * ldtx,
     ∑ o ∈ Finset.range no,
       (X (x.1 + o * ldx) * T (o + x.2 * ldt) + X (x.2 + o * ldx) * T (x.1 + o * ldx)))),
   storeAll Vx ((quads no).map fun x =>
     (x.1 + x.2.1 * ldvx + x.2.2.1 * ldvx * ldvx + x.2.2.2 * ldvx * ldvx * ldvx,
      ∑ o ∈ Finset.range no,
        (X (x.1 + o * ldx) * V (o + x.2.1 * ldv + x.2.2.1 * ldv * ldv + x.2.2.2 * ldv * ldv * ldv) +
         X (x.2.1 + o * ldx) * V (x.1 + o * ldv + x.2.2.1 * ldv * ldv + x.2.2.2 * ldv * ldv * ldv) +
         X (x.2.2.1 + o * ldx) * V (x.1 + x.2.1 * ldv + o * ldv * ldv + x.2.2.2 * ldv * ldv * ldv) +
         X (x.2.2.2 + o * ldx) * V (x.1 + x.2.1 * ldv + x.2.2.1 * ldv * ldv + o * ldv * ldv * ldv)))))

/-- `orb_orb_hessian_contract` (orbital_hessian.cxx:104-155): the array `HK_lin` afterwards. -/
def orbOrbHessianContract (no ni na nv : Nat) (T : Nat → R) (ldt : Nat) (V : Nat → R) (ldv : Nat)
    (D1 : Nat → R) (ldd1 : Nat) (D2 : Nat → R) (ldd2 : Nat) (OG Klin HK : Nat → R) : Nat → R :=
  let sz := nv * (na + ni) + na * ni
  let K := linearOrbRotToMatrix ni na nv Klin (fun _ => 0) no
  let (Tk, Vk) := oneIndexTransformedHamiltonian no T ldt V ldv K no (fun _ => 0) no (fun _ => 0) no
  let Fk := generalizedFockCompMat2 no ni na Tk no Vk no D1 ldd1 D2 ldd2 (fun _ => 0) no
  let HK := fockToLinearOrbGrad ni na nv Fk no HK
  let Tk := linearOrbRotToMatrix ni na nv OG (fun _ => 0) no
  let Fk := gemm false no no no Tk no K no Fk 0 no
  let Tk := storeAll Tk ((pairs2 no).map fun x =>
    (x.1 + x.2 * no, Fk (x.1 + x.2 * no) - Fk (x.2 + x.1 * no)))
  let tmp := matrixToLinearOrbRot ni na nv Tk no (fun _ => 0)
  fun m => if m < sz then HK m + tmp m else HK m

end Macis
