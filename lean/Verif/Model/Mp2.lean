import Verif.Model.Fock
/-
Model of src/macis/orbital_energies.cxx and src/macis/moller_plesset.cxx.  Arrays behind pointers are
functions from addresses to values; numbers are elements of a field (so a division by zero gives 0
here, infinity or NaN in the code: the theorems assume nonzero denominators where it matters);
accumulation loops are sums (order of summation is not modelled).
-/
namespace Macis

variable {R : Type} [Field R]

/-- `canonical_orbital_energies` (orbital_energies.cxx:13-30). -/
def canonicalOrbitalEnergies (no ni : Nat) (T : Nat → R) (ldt : Nat) (V : Nat → R) (ldv : Nat)
    (eps : Nat → R) : Nat → R :=
  let ldv2 := ldv * ldv
  let ldv3 := ldv2 * ldv
  storeAll eps ((List.range no).map fun p => (p, T (p * (ldt + 1)) +
    ∑ i ∈ Finset.range ni, (2 * V (p * (ldv + 1) + i * (ldv2 + ldv3)) -
      V (p * (1 + ldv3) + i * (ldv + ldv2)))))

/-- The index tuples of the loop over `i`, `j`, `a`, `b` (moller_plesset.cxx:27-30). -/
def quadsOV (no nv : Nat) : List (Nat × Nat × Nat × Nat) :=
  (List.range no).flatMap fun i => (List.range no).flatMap fun j => (List.range nv).flatMap fun a =>
    (List.range nv).map fun b => (i, j, a, b)

/-- `mp2_t2` (moller_plesset.cxx:16-38). -/
def mp2T2 (nocc nvir : Nat) (V : Nat → R) (ldv : Nat) (eps : Nat → R) (T2 : Nat → R) : Nat → R :=
  let nocc2 := nocc * nocc
  let nocc2v := nocc2 * nvir
  let ldv2 := ldv * ldv
  let ldv3 := ldv2 * ldv
  storeAll T2 ((quadsOV nocc nvir).map fun x =>
    let i := x.1
    let j := x.2.1
    let a := x.2.2.1
    let b := x.2.2.2
    (i + j * nocc + a * nocc2 + b * nocc2v,
      V (i + (a + nocc) * ldv + j * ldv2 + (b + nocc) * ldv3) /
        (eps i + eps j - eps (a + nocc) - eps (b + nocc))))

/-- The amplitudes used inside `mp2_1rdm`: orbital energies, then `mp2_t2` into a zeroed vector
(moller_plesset.cxx:52-61). -/
def mp2Amplitudes (norb nocc nvir : Nat) (T : Nat → R) (ldt : Nat) (V : Nat → R) (ldv : Nat) :
    Nat → R :=
  let eps := canonicalOrbitalEnergies norb nocc T ldt V ldv (fun _ => 0)
  mp2T2 nocc nvir V ldv eps (fun _ => 0)

/-- The number printed as `EMP2` (moller_plesset.cxx:63-78).  The first stride of `V` is `norb` here,
not `LDV`. -/
def mp2PrintedEnergy (norb nocc nvir : Nat) (T : Nat → R) (ldt : Nat) (V : Nat → R) (ldv : Nat) : R :=
  let nocc2 := nocc * nocc
  let nocc2v := nocc2 * nvir
  let ldv2 := ldv * ldv
  let ldv3 := ldv2 * ldv
  let T2 := mp2Amplitudes norb nocc nvir T ldt V ldv
  ∑ i ∈ Finset.range nocc, ∑ j ∈ Finset.range nocc, ∑ a ∈ Finset.range nvir, ∑ b ∈ Finset.range nvir,
    T2 (i + j * nocc + a * nocc2 + b * nocc2v) *
      (2 * V (a + nocc + i * norb + (b + nocc) * ldv2 + j * ldv3) -
        V (a + nocc + j * norb + (b + nocc) * ldv2 + i * ldv3))

/-- `mp2_1rdm` (moller_plesset.cxx:40-110): the array `ORDM` afterwards.  Only the occupied-occupied
and the virtual-virtual blocks are written. -/
def mp2OneRdm (norb nocc nvir : Nat) (T : Nat → R) (ldt : Nat) (V : Nat → R) (ldv : Nat)
    (D : Nat → R) (ldd : Nat) : Nat → R :=
  let nocc2 := nocc * nocc
  let nocc2v := nocc2 * nvir
  let T2 := mp2Amplitudes norb nocc nvir T ldt V ldv
  let D := storeAll D ((pairs2 nocc).map fun x =>
    (x.1 + x.2 * ldd,
      -2 * (∑ k ∈ Finset.range nocc, ∑ a ∈ Finset.range nvir, ∑ b ∈ Finset.range nvir,
        T2 (x.1 + k * nocc + a * nocc2 + b * nocc2v) *
          (2 * T2 (x.2 + k * nocc + a * nocc2 + b * nocc2v) -
            T2 (x.2 + k * nocc + b * nocc2 + a * nocc2v))) +
      if x.1 = x.2 then 2 else 0))
  storeAll D ((pairs2 nvir).map fun x =>
    (x.1 + nocc + (x.2 + nocc) * ldd,
      2 * ∑ i ∈ Finset.range nocc, ∑ j ∈ Finset.range nocc, ∑ c ∈ Finset.range nvir,
        T2 (i + j * nocc + c * nocc2 + x.1 * nocc2v) *
          (2 * T2 (i + j * nocc + c * nocc2 + x.2 * nocc2v) -
            T2 (i + j * nocc + x.2 * nocc2 + c * nocc2v))))

/-- `mp2_natural_orbitals` (moller_plesset.cxx:112-134): the arrays `ON` and `NO_C` afterwards.
`syev n A lda` stands for `lapack::syev(Vec, Lower, n, A, lda, W)` and returns the arrays `A` and `W`
it leaves behind. -/
def mp2NaturalOrbitals (syev : Nat → (Nat → R) → Nat → (Nat → R) × (Nat → R)) (norb nocc nvir : Nat)
    (T : Nat → R) (ldt : Nat) (V : Nat → R) (ldv : Nat) (C : Nat → R) (ldc : Nat) :
    (Nat → R) × (Nat → R) :=
  let C := mp2OneRdm norb nocc nvir T ldt V ldv C ldc
  let C := storeAll C ((pairs2 norb).map fun x => (x.1 + x.2 * ldc, C (x.1 + x.2 * ldc) * (-1)))
  let r := syev norb C ldc
  let ON := storeAll r.2 ((List.range norb).map fun i => (i, r.2 i * (-1)))
  (ON, r.1)

end Macis
