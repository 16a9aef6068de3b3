import Verif.Model.RoundHam
/-
The incremental diagonal elements of `HamiltonianGenerator` in floating point: Model/Ham.lean's `fastDiag...` with every
addition and subtraction rounded, in program order (include/macis/hamiltonian_generator/fast_diagonals.hpp).  `a - b` is
`a + (-b)`; a sum `a + b - c ...` is evaluated from the left.
-/
namespace Macis.Integrals
variable (rnd : ℝ → ℝ) (I : Integrals ℝ)

/-- `h + t₁ + t₂ + ...` -/
def chainR (h : ℝ) (ts : List ℝ) : ℝ := accR rnd id h ts

/-- `single_orbital_en` (fast_diagonals.hpp:14-29). -/
noncomputable def singleOrbitalEnR (orb : Nat) (ssOcc osOcc : List Nat) : ℝ :=
  let e := I.T orb orb
  let e := accR rnd (fun q => rnd (I.G2redR rnd orb q + I.G2redR rnd q orb)) e ssOcc
  let e := rnd (e - I.G2redR rnd orb orb)
  accR rnd (fun q => I.V2red orb q) e osOcc

/-- `fast_diag_single(hol_en, par_en, ...)` (fast_diagonals.hpp:53-60). -/
noncomputable def fastDiagSingleEnR (holEn parEn : ℝ) (hol par : Nat) (hii : ℝ) : ℝ :=
  chainR rnd hii [parEn, -holEn, -I.G2redR rnd par hol, -I.G2redR rnd hol par]

/-- `fast_diag_single(ss_occ, os_occ, ...)` (fast_diagonals.hpp:62-70). -/
noncomputable def fastDiagSingleR (ssOcc osOcc : List Nat) (hol par : Nat) (hii : ℝ) : ℝ :=
  I.fastDiagSingleEnR rnd (I.singleOrbitalEnR rnd hol ssOcc osOcc) (I.singleOrbitalEnR rnd par ssOcc osOcc) hol par hii

/-- `fast_diag_ss_double(hol1_en, ...)` (fast_diagonals.hpp:72-85). -/
noncomputable def fastDiagSSDoubleEnR (hol1En hol2En par1En par2En : ℝ) (hol1 hol2 par1 par2 : Nat) (hii : ℝ) : ℝ :=
  let G2 := I.G2redR rnd
  chainR rnd hii [par1En, par2En, -hol1En, -hol2En, G2 hol1 hol2, G2 hol2 hol1, G2 par1 par2, G2 par2 par1,
    -G2 par1 hol1, -G2 hol1 par1, -G2 par2 hol1, -G2 hol1 par2, -G2 par1 hol2, -G2 hol2 par1, -G2 par2 hol2, -G2 hol2 par2]

/-- `fast_diag_ss_double(ss_occ, os_occ, ...)` (fast_diagonals.hpp:87-99). -/
noncomputable def fastDiagSSDoubleR (ssOcc osOcc : List Nat) (hol1 hol2 par1 par2 : Nat) (hii : ℝ) : ℝ :=
  I.fastDiagSSDoubleEnR rnd (I.singleOrbitalEnR rnd hol1 ssOcc osOcc) (I.singleOrbitalEnR rnd hol2 ssOcc osOcc)
    (I.singleOrbitalEnR rnd par1 ssOcc osOcc) (I.singleOrbitalEnR rnd par2 ssOcc osOcc) hol1 hol2 par1 par2 hii

/-- `fast_diag_os_double(en_holu, ...)` (fast_diagonals.hpp:101-112). -/
noncomputable def fastDiagOSDoubleEnR (enHolu enHold enParu enPard : ℝ) (holu hold paru pard : Nat) (hii : ℝ) : ℝ :=
  let G2 := I.G2redR rnd
  chainR rnd hii [enParu, enPard, -enHolu, -enHold, I.V2red holu hold, I.V2red paru pard, -G2 paru holu, -G2 holu paru,
    -G2 pard hold, -G2 hold pard, -I.V2red paru hold, -I.V2red holu pard]

/-- `fast_diag_os_double(ss_occ, os_occ, ...)` (fast_diagonals.hpp:114-126). -/
noncomputable def fastDiagOSDoubleR (ssOcc osOcc : List Nat) (holu hold paru pard : Nat) (hii : ℝ) : ℝ :=
  I.fastDiagOSDoubleEnR rnd (I.singleOrbitalEnR rnd holu ssOcc osOcc) (I.singleOrbitalEnR rnd hold osOcc ssOcc)
    (I.singleOrbitalEnR rnd paru ssOcc osOcc) (I.singleOrbitalEnR rnd pard osOcc ssOcc) holu hold paru pard hii

end Macis.Integrals
