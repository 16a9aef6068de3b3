import Verif.Model.SD
import Mathlib.Algebra.Field.Defs
import Mathlib.Algebra.BigOperators.Group.List.Defs
/-
Model of `HamiltonianGenerator` (include/macis/hamiltonian_generator.hpp and
include/macis/hamiltonian_generator/*.hpp).

Simplification: `double` is an arbitrary field `R` (exact arithmetic); `+=` accumulation loops are
list sums.  `T_pq_(p,q)`, `V_pqrs_(p,q,r,s)` are functions; all accesses made by the code are below
`norb_` when the determinants are supported on the orbital space.
-/
namespace Macis

/-- The integrals handed to the constructor (hamiltonian_generator/impl.hpp:15-23). -/
structure Integrals (R : Type) where
  /-- `norb_ = T.extent(0)` -/
  norb : Nat
  /-- one-electron integrals `T_pq_` -/
  T : Nat → Nat → R
  /-- two-electron integrals `V_pqrs_` = (pq|rs) -/
  V : Nat → Nat → Nat → Nat → R

variable {R : Type} [Field R]

namespace Integrals
variable (I : Integrals R)

/-- `G_pqrs_` (impl.hpp:36-44). -/
def G (i j k l : Nat) : R := I.V i j k l - I.V i l k j

/-- `G_red_(k,i,j)` (impl.hpp:52-57). -/
def Gred (k i j : Nat) : R := I.G k k i j

/-- `V_red_(k,i,j)` (impl.hpp:52-57). -/
def Vred (k i j : Nat) : R := I.V k k i j

/-- `G2_red_(i,j)` (impl.hpp:65-69). -/
def G2red (i j : Nat) : R := 2⁻¹ * I.G i i j j

/-- `V2_red_(i,j)` (impl.hpp:65-69). -/
def V2red (i j : Nat) : R := I.V i i j j

/-- `matrix_element_4` (matrix_elements.hpp:65-71). -/
def matrixElement4 {M : Nat} (bra ket ex : BitVec M) : R :=
  let (o1, v1, o2, v2, sign) := doublesSignIndices bra ket ex
  (sign : R) * I.G v1 o1 v2 o2

/-- `matrix_element_22` (matrix_elements.hpp:73-84). -/
def matrixElement22 {M : Nat} (braA ketA exA braB ketB exB : BitVec M) : R :=
  let (o1, v1, signA) := singleExcitationSignIndices braA ketA exA
  let (o2, v2, signB) := singleExcitationSignIndices braB ketB exB
  ((signA * signB : Int) : R) * I.V v1 o1 v2 o2

/-- `matrix_element_2` (matrix_elements.hpp:86-106). -/
def matrixElement2 {M : Nat} (bra ket ex : BitVec M) (braOccA braOccB : List Nat) : R :=
  let (o1, v1, sign) := singleExcitationSignIndices bra ket ex
  (sign : R) * (I.T v1 o1 + (braOccA.map fun p => I.Gred p v1 o1).sum
    + (braOccB.map fun p => I.Vred p v1 o1).sum)

/-- `matrix_element_diag` (matrix_elements.hpp:108-135). -/
def matrixElementDiag (occA occB : List Nat) : R :=
  (occA.map fun p => I.T p p).sum + (occB.map fun p => I.T p p).sum
  + (occA.map fun q => (occA.map fun p => I.G2red p q).sum).sum
  + (occB.map fun q => (occB.map fun p => I.G2red p q).sum).sum
  + (occB.map fun q => (occA.map fun p => I.V2red p q).sum).sum

/-- The spin-resolved `matrix_element` (matrix_elements.hpp:32-63). -/
def matrixElementSpin {M : Nat} (braA ketA exA braB ketB exB : BitVec M)
    (braOccA braOccB : List Nat) : R :=
  let ca := count exA
  let cb := count exB
  if ca + cb > 4 then 0
  else if ca = 4 then I.matrixElement4 braA ketA exA
  else if cb = 4 then I.matrixElement4 braB ketB exB
  else if ca = 2 ∧ cb = 2 then I.matrixElement22 braA ketA exA braB ketB exB
  else if ca = 2 then I.matrixElement2 braA ketA exA braOccA braOccB
  else if cb = 2 then I.matrixElement2 braB ketB exB braOccB braOccA
  else I.matrixElementDiag braOccA braOccB

/-- `matrix_element(bra, ket)` (matrix_elements.hpp:14-30). -/
def matrixElement {M : Nat} (bra ket : BitVec (2 * M)) : R :=
  let braA := loWord bra
  let ketA := loWord ket
  let braB := hiWord bra
  let ketB := hiWord ket
  I.matrixElementSpin braA ketA (braA ^^^ ketA) braB ketB (braB ^^^ ketB)
    (bitsToIndices braA) (bitsToIndices braB)

/-- `single_orbital_en` (fast_diagonals.hpp:14-29). -/
def singleOrbitalEn (orb : Nat) (ssOcc osOcc : List Nat) : R :=
  I.T orb orb + (ssOcc.map fun q => I.G2red orb q + I.G2red q orb).sum - I.G2red orb orb
    + (osOcc.map fun q => I.V2red orb q).sum

/-- `single_orbital_ens` (fast_diagonals.hpp:31-51). -/
def singleOrbitalEns (norb : Nat) (ssOcc osOcc : List Nat) : List R :=
  (List.range norb).map fun i =>
    I.T i i + (ssOcc.map fun q => I.G2red i q + I.G2red q i).sum - I.G2red i i
      + (osOcc.map fun q => I.V2red i q).sum

/-- `fast_diag_single(hol_en, par_en, ...)` (fast_diagonals.hpp:53-60). -/
def fastDiagSingleEn (holEn parEn : R) (hol par : Nat) (hii : R) : R :=
  hii + parEn - holEn - I.G2red par hol - I.G2red hol par

/-- `fast_diag_single(ss_occ, os_occ, ...)` (fast_diagonals.hpp:62-70). -/
def fastDiagSingle (ssOcc osOcc : List Nat) (hol par : Nat) (hii : R) : R :=
  I.fastDiagSingleEn (I.singleOrbitalEn hol ssOcc osOcc) (I.singleOrbitalEn par ssOcc osOcc)
    hol par hii

/-- `fast_diag_ss_double(hol1_en, ...)` (fast_diagonals.hpp:72-85). -/
def fastDiagSSDoubleEn (hol1En hol2En par1En par2En : R) (hol1 hol2 par1 par2 : Nat) (hii : R) : R :=
  hii + par1En + par2En - hol1En - hol2En +
    I.G2red hol1 hol2 + I.G2red hol2 hol1 +
    I.G2red par1 par2 + I.G2red par2 par1 -
    I.G2red par1 hol1 - I.G2red hol1 par1 -
    I.G2red par2 hol1 - I.G2red hol1 par2 -
    I.G2red par1 hol2 - I.G2red hol2 par1 -
    I.G2red par2 hol2 - I.G2red hol2 par2

/-- `fast_diag_ss_double(ss_occ, os_occ, ...)` (fast_diagonals.hpp:87-99). -/
def fastDiagSSDouble (ssOcc osOcc : List Nat) (hol1 hol2 par1 par2 : Nat) (hii : R) : R :=
  I.fastDiagSSDoubleEn (I.singleOrbitalEn hol1 ssOcc osOcc) (I.singleOrbitalEn hol2 ssOcc osOcc)
    (I.singleOrbitalEn par1 ssOcc osOcc) (I.singleOrbitalEn par2 ssOcc osOcc)
    hol1 hol2 par1 par2 hii

/-- `fast_diag_os_double(en_holu, ...)` (fast_diagonals.hpp:101-112). -/
def fastDiagOSDoubleEn (enHolu enHold enParu enPard : R) (holu hold paru pard : Nat) (hii : R) : R :=
  hii + enParu + enPard - enHolu - enHold +
    I.V2red holu hold + I.V2red paru pard -
    I.G2red paru holu - I.G2red holu paru -
    I.G2red pard hold - I.G2red hold pard -
    I.V2red paru hold - I.V2red holu pard

/-- `fast_diag_os_double(ss_occ, os_occ, ...)` (fast_diagonals.hpp:114-126). -/
def fastDiagOSDouble (upOcc doOcc : List Nat) (holu hold paru pard : Nat) (hii : R) : R :=
  I.fastDiagOSDoubleEn (I.singleOrbitalEn holu upOcc doOcc) (I.singleOrbitalEn hold doOcc upOcc)
    (I.singleOrbitalEn paru upOcc doOcc) (I.singleOrbitalEn pard doOcc upOcc)
    holu hold paru pard hii

end Integrals
end Macis
