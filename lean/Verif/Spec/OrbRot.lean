/-! Reference definitions for orbital rotations: kinds of orbitals and the packed numbering of the
non-redundant rotations. -/
namespace Macis.Spec

/-- 0: inactive, 1: active, 2: virtual -/
def orbKind (ni na p : Nat) : Nat := if p < ni then 0 else if p < ni + na then 1 else 2

/-- Number of non-redundant rotations: pairs of orbitals of different kinds. -/
def nRot (ni na nv : Nat) : Nat := nv * (na + ni) + na * ni

/-- Position in the packed vector of the rotation between `p` and `q`, the kind of `p` being the higher
one: first virtual-inactive, then virtual-active, then active-inactive, each with `p` running fastest. -/
def rotPos (ni na nv p q : Nat) : Nat :=
  if ni + na ≤ p then
    if q < ni then (p - (ni + na)) + q * nv
    else nv * ni + ((p - (ni + na)) + (q - ni) * nv)
  else nv * ni + nv * na + ((p - ni) + q * na)

end Macis.Spec
