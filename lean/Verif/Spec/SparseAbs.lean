import Verif.Spec.Sparse
import Mathlib.Data.Real.Basic
/-! The matrix of absolute values. -/
namespace Macis.Spec

/-- `A` with every stored value replaced by its absolute value -/
def absCsr (A : Csr ℝ) : Csr ℝ := { A with nzval := A.nzval.map (|·|) }

end Macis.Spec
