import Verif.Model.Transform
/-
Model of src/macis/orbital_rotation_utilities.cxx, include/macis/util/orbital_rotation_utilities.hpp
and of `fock_to_gradient` (src/macis/orbital_gradient.cxx).  Arrays behind pointers are functions from
addresses to values; numbers are elements of a commutative ring.
-/
namespace Macis
variable {R : Type} [CommRing R]

/-- `split_linear_orb_rot` (orbital_rotation_utilities.hpp:27-34): offsets of the virtual-inactive,
virtual-active and active-inactive pieces. -/
def splitLinearOrbRot (ni na nv : Nat) : Nat × Nat × Nat := (0, nv * ni, nv * ni + nv * na)

/-- The two stores of the loop body of `linear_orb_rot_to_matrix` for every column `i < cols` and row
`a < rows` of a block with offsets (orbital_rotation_utilities.cxx:20-27, 29-37, 39-46). -/
def rotBlock (rows cols roff coff : Nat) (K : Nat → R) (ldk : Nat) : List (Nat × R) :=
  (pairsMN cols rows).flatMap fun x =>
    [(x.2 + roff + (x.1 + coff) * ldk, K (x.2 + x.1 * rows)),
     (x.1 + coff + (x.2 + roff) * ldk, -K (x.2 + x.1 * rows))]

/-- `linear_orb_rot_to_matrix` (orbital_rotation_utilities.cxx:13-47, .hpp:64-69). -/
def linearOrbRotToMatrix (ni na nv : Nat) (Klin : Nat → R) (K : Nat → R) (ldk : Nat) : Nat → R :=
  let (o1, o2, o3) := splitLinearOrbRot ni na nv
  let K := storeAll K (rotBlock nv ni (ni + na) 0 (fun a => Klin (o1 + a)) ldk)
  let K := storeAll K (rotBlock nv na (ni + na) ni (fun a => Klin (o2 + a)) ldk)
  storeAll K (rotBlock na ni ni 0 (fun a => Klin (o3 + a)) ldk)

/-- The stores of a packing loop: `G[a + i * rows] = f i a` at offset `base`. -/
def packBlock (rows cols base : Nat) (f : Nat → Nat → R) : List (Nat × R) :=
  (pairsMN cols rows).map fun x => (base + (x.2 + x.1 * rows), f x.1 x.2)

/-- `matrix_to_linear_orb_rot` (orbital_rotation_utilities.cxx:49-81, .hpp:75-80). -/
def matrixToLinearOrbRot (ni na nv : Nat) (F : Nat → R) (ldf : Nat) (G : Nat → R) : Nat → R :=
  let (o1, o2, o3) := splitLinearOrbRot ni na nv
  let G := storeAll G (packBlock nv ni o1 fun i a => F (a + ni + na + i * ldf))
  let G := storeAll G (packBlock nv na o2 fun i a => F (a + ni + na + (i + ni) * ldf))
  storeAll G (packBlock na ni o3 fun i a => F (a + ni + i * ldf))

/-- `fock_to_linear_orb_grad` (orbital_rotation_utilities.cxx:83-115, .hpp:86-91). -/
def fockToLinearOrbGrad (ni na nv : Nat) (F : Nat → R) (ldf : Nat) (G : Nat → R) : Nat → R :=
  let (o1, o2, o3) := splitLinearOrbRot ni na nv
  let G := storeAll G (packBlock nv ni o1 fun i a =>
    2 * (F (a + ni + na + i * ldf) - F (i + (a + ni + na) * ldf)))
  let G := storeAll G (packBlock nv na o2 fun i a =>
    2 * (F (a + ni + na + (i + ni) * ldf) - F (i + ni + (a + ni + na) * ldf)))
  storeAll G (packBlock na ni o3 fun i a => 2 * (F (a + ni + i * ldf) - F (i + (a + ni) * ldf)))

/-- The two stores of the loop body of `fock_to_gradient` over a block.  `GMAT(i, a_off) = -GMAT(a_off,
i)` reads the element just stored. -/
def gradBlock (rows cols roff coff : Nat) (F : Nat → R) (ldf ldg : Nat) : List (Nat × R) :=
  (pairsMN cols rows).flatMap fun x =>
    [(x.2 + roff + (x.1 + coff) * ldg,
        2 * (F (x.2 + roff + (x.1 + coff) * ldf) - F (x.1 + coff + (x.2 + roff) * ldf))),
     (x.1 + coff + (x.2 + roff) * ldg,
        -(2 * (F (x.2 + roff + (x.1 + coff) * ldf) - F (x.1 + coff + (x.2 + roff) * ldf))))]

/-- `fock_to_gradient` (orbital_gradient.cxx:32-67). -/
def fockToGradient (ni na nv : Nat) (F : Nat → R) (ldf : Nat) (OG : Nat → R) (ldg : Nat) : Nat → R :=
  let OG := storeAll OG (gradBlock nv ni (ni + na) 0 F ldf ldg)
  let OG := storeAll OG (gradBlock nv na (ni + na) ni F ldf ldg)
  storeAll OG (gradBlock na ni ni 0 F ldf ldg)

end Macis
