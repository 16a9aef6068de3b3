import Verif.Model.OmpCell
import Mathlib.Data.Real.Basic
/-
The generic CSR product in floating point: the parallel loop of Model/OmpCell.lean with every operation on doubles
followed by a rounding.  The compiler may contract a product and a sum into one fused operation (one rounding); which of
them it contracts is a parameter.
-/
namespace Macis.OmpCell

/-- which of the two products of `alpha * av + beta * AV[...]` is fused with the sum -/
inductive Fuse
  | none | left | right

/-- the parallel loop of the CSR `gespmbv` (spmbv.hpp:53-72): `fuseTerm` says if `av += Anz[j] * V[...]` (spmbv.hpp:68) is
one fused operation, `fuseFin` what is fused in `AV[...] = alpha * av + beta * AV[...]` (spmbv.hpp:71) -/
def csrJobR (rnd : ℝ → ℝ) (fuseTerm : Bool) (fuseFin : Fuse) (alpha : ℝ) (A : Csr ℝ) (V : Nat → ℝ) (LDV : Nat) (beta : ℝ)
    (LDAV : Nat) : Job ℝ :=
  { len := fun q => (A.row q.2).length
    zero := 0
    term := fun q j av =>
      let p := (A.row q.2).getD j (0, 0)
      let x := p.2 * V (q.1 * LDV + (p.1 - A.indexing))
      if fuseTerm then rnd (av + x) else rnd (av + rnd x)
    cell := fun q => q.2 + q.1 * LDAV
    fin := fun _ av old =>
      match fuseFin with
      | .none => rnd (rnd (alpha * av) + rnd (beta * old))
      | .left => rnd (alpha * av + rnd (beta * old))
      | .right => rnd (rnd (alpha * av) + beta * old) }

end Macis.OmpCell
