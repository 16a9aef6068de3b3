import Mathlib.Data.Matrix.Mul
import Mathlib.Algebra.Order.Field.Basic

/-! Textbook quasi-Newton notions (Nocedal & Wright, Numerical Optimization): the BFGS update of an inverse
Hessian, sufficient decrease and the strong Wolfe conditions. Independent of the model. -/
namespace Macis
namespace Spec
open Matrix

variable {K : Type} [Field K] {n : Nat}

/-- `H⁺ = (1 - ρ s yᵀ) H (1 - ρ y sᵀ) + ρ s sᵀ` with `ρ = 1 / (y·s)`. -/
def bfgsUpdate (H : Matrix (Fin n) (Fin n) K) (s y : Fin n → K) : Matrix (Fin n) (Fin n) K :=
  (1 - (1 / (y ⬝ᵥ s)) • vecMulVec s y) * H * (1 - (1 / (y ⬝ᵥ s)) • vecMulVec y s) +
    (1 / (y ⬝ᵥ s)) • vecMulVec s s

/-- The inverse Hessian after a sequence of updates `(s, y)`, oldest first. -/
def bfgsMatrix (H0 : Matrix (Fin n) (Fin n) K) (h : List ((Fin n → K) × (Fin n → K))) :
    Matrix (Fin n) (Fin n) K :=
  h.foldl (fun H sy => bfgsUpdate H sy.1 sy.2) H0

variable [LinearOrder K]

/-- Armijo (sufficient decrease) condition with constant `c` for the step `t` along `p`. -/
def Armijo (f : (Fin n → K) → K) (g : (Fin n → K) → (Fin n → K)) (c : K) (x p : Fin n → K) (t : K) : Prop :=
  f (x + t • p) ≤ f x + c * t * (g x ⬝ᵥ p)

/-- Strong Wolfe conditions. -/
def StrongWolfe (f : (Fin n → K) → K) (g : (Fin n → K) → (Fin n → K)) (c1 c2 : K) (x p : Fin n → K) (t : K) :
    Prop :=
  Armijo f g c1 x p t ∧ |g (x + t • p) ⬝ᵥ p| ≤ c2 * |g x ⬝ᵥ p|

end Spec
end Macis
