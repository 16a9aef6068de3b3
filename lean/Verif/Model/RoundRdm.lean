import Verif.Model.Rdm
import Mathlib.Data.Real.Basic
/-
`form_rdms` in floating point: Model/Rdm.lean with the weight `C[i] * C[j]` and every accumulation rounded, in program
order.

Simplification: the products with `sign` and with `sign * 0.5` (util/rdms.hpp:20, 37, 50, 53, 78) are exact in binary
floating point (no underflow: the weight is above 1e-16) and are not rounded; for the same reason it makes no difference
if the compiler fuses one of them with the accumulation that follows.
-/
namespace Macis

/-- one accumulation, `x += v` or `x -= v`, rounded (util/rdms.hpp:21-24, 38-39, 50-62, 73-95) -/
def Rdms.applyR (rnd : ℝ → ℝ) (st : Rdms ℝ) : Upd ℝ → Rdms ℝ
  | .o p q v => { st with ordm := fun a b => if a = p ∧ b = q then rnd (st.ordm a b + v) else st.ordm a b }
  | .t p q r s v => { st with trdm := fun a b c d =>
      if a = p ∧ b = q ∧ c = r ∧ d = s then rnd (st.trdm a b c d + v) else st.trdm a b c d }

/-- `DoubleLoopHamiltonianGenerator::form_rdms` (double_loop.hpp:117-165) in floating point: the weight
`val = C[i] * C[j]` (double_loop.hpp:152) is rounded before it is compared with 1e-16 -/
noncomputable def formRdmsR {M : Nat} (rnd : ℝ → ℝ) (bras kets : List (BitVec (2 * M))) (C : Nat → ℝ) (hasT : Bool)
    (st : Rdms ℝ) : Rdms ℝ :=
  ((List.range bras.length).flatMap fun i => (List.range kets.length).flatMap fun j =>
    rdmPair (bras.getD i 0) (kets.getD j 0) (rnd (C i * C j)) hasT).foldl (Rdms.applyR rnd) st

end Macis
