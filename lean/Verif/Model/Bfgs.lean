import Mathlib.Data.Matrix.Mul
import Mathlib.Algebra.Order.Field.Basic

/-! Model of src/macis/bfgs: quasi-Newton operator, line searches and driver.

The template parameter `Functor` is modelled for vectors `Fin n → K` over a linearly ordered field
(doubles idealised): `dot`, `axpy`, `scal`, `subtract` have their mathematical meaning, `eval`, `grad`
and `converged` are arbitrary functions.  `norm(y) * norm(y)` is `dot(y, y)`.  Logging is dropped.  A
thrown exception and a floating point division by zero both make the whole routine return `none`. -/
namespace Macis
namespace Bfgs

variable {K : Type} [Field K] [LinearOrder K] {n : Nat}

/-- `Functor` as used by bfgs.hpp:25-120 and line_search.hpp: objective, gradient, stopping test. -/
structure Objective (n : Nat) (K : Type) where
  eval : (Fin n → K) → K
  grad : (Fin n → K) → (Fin n → K)
  converged : (Fin n → K) → (Fin n → K) → Bool

/-! ### bfgs_hessian.hpp -/

/-- One stored update: bfgs_hessian.hpp:21-22 (`sk[i]`, `yk[i]`, `rhok[i]`). -/
structure Pair (n : Nat) (K : Type) where
  s : Fin n → K
  y : Fin n → K
  rho : K

/-- Which subclass of `BFGSHessian` is used: bfgs_hessian.hpp:18, 60, 84, 111, 125.  For
`updatedScaled`/`staticScaled` the payload is `gamma_k` (:65, initially 1.0) and `gamma_0` (:88,
initially empty). -/
inductive H0 (n : Nat) (K : Type) where
  | identity
  | updatedScaled (gamma : K)
  | staticScaled (gamma0 : Option K)
  | runtime (op : (Fin n → K) → (Fin n → K))
  | diag (inv : Fin n → K)

/-- State of a `BFGSHessian` object: bfgs_hessian.hpp:18-22. -/
structure Hess (n : Nat) (K : Type) where
  hist : List (Pair n K)
  h0 : H0 n K

/-- `make_identity_hessian` bfgs_hessian.hpp:54-57. -/
def identityHess : Hess n K := ⟨[], .identity⟩

/-- `make_updated_scaled_hessian` bfgs_hessian.hpp:78-81. -/
def updatedScaledHess : Hess n K := ⟨[], .updatedScaled 1⟩

/-- `make_static_scaled_hessian` bfgs_hessian.hpp:105-108. -/
def staticScaledHess : Hess n K := ⟨[], .staticScaled none⟩

/-- `RuntimeInitializedBFGSHessian(op)` bfgs_hessian.hpp:110-122. -/
def runtimeHess (op : (Fin n → K) → (Fin n → K)) : Hess n K := ⟨[], .runtime op⟩

/-- `DiagInitializedBFGSHessian(n, D)` bfgs_hessian.hpp:132-135; a zero in `D` gives an infinity, modelled
as failure. -/
def diagHess (D : Fin n → K) : Option (Hess n K) :=
  if ∀ i, D i ≠ 0 then some ⟨[], .diag fun i => 1 / D i⟩ else none

/-- `update` of the base class and of the two scaled subclasses: bfgs_hessian.hpp:26-32, 68-72, 91-97. -/
def Hess.update (B : Hess n K) (s y : Fin n → K) : Option (Hess n K) :=
  let ys := y ⬝ᵥ s
  if ys = 0 then none else
  let rho := 1 / ys
  some ⟨B.hist ++ [⟨s, y, rho⟩],
    match B.h0 with
    | .updatedScaled _ => .updatedScaled ((y ⬝ᵥ y) * rho)
    | .staticScaled none => .staticScaled (some ((y ⬝ᵥ y) * rho))
    | h => h⟩

/-- `apply_H0`: bfgs_hessian.hpp:34, 75, 100-102, 121, 137-141. A scaling by the inverse of zero is not
reachable through `update` unless `y = 0`; `1 / 0` is `0` here. -/
def H0.apply (h : H0 n K) (x : Fin n → K) : Fin n → K :=
  match h with
  | .identity => x
  | .updatedScaled g => (1 / g) • x
  | .staticScaled (some g) => (1 / g) • x
  | .staticScaled none => x
  | .runtime op => op x
  | .diag inv => fun i => x i * inv i

/-- `apply` (two-loop recursion): bfgs_hessian.hpp:36-51.  The first loop runs from the newest pair to the
oldest and stores `alpha[i]`, the second one from the oldest to the newest. -/
def Hess.apply (B : Hess n K) (x : Fin n → K) : Fin n → K :=
  let down := B.hist.foldr (fun pr (acc : (Fin n → K) × List K) =>
    let alpha := (pr.s ⬝ᵥ acc.1) * pr.rho
    (acc.1 + (-alpha) • pr.y, alpha :: acc.2)) (x, [])
  let q := B.h0.apply down.1
  (B.hist.zip down.2).foldl (fun q pa =>
    let beta := (pa.1.y ⬝ᵥ q) * pa.1.rho
    q + (pa.2 - beta) • pa.1.s) q

/-! ### line_search.hpp -/

/-- What a line search writes to its output arguments `step`, `x`, `fx`, `gfx`. -/
structure LsOut (n : Nat) (K : Type) where
  step : K
  x : Fin n → K
  fx : K
  gfx : Fin n → K

/-- The loop of `backtracking_line_search`, line_search.hpp:75-100 with `USE_CARLOS_VAL` defined
(:35): `tAr` is `t_armijo`, the last argument is `max_iter - iter`. Returns `step`, `x`, `fx`. -/
def backtrackLoop (f : Objective n K) (x0 p : Fin n → K) (fx0 tAr : K) :
    Nat → K → (Fin n → K) → K → K × (Fin n → K) × K
  | 0, step, x, fx => (step, x, fx)
  | fuel + 1, step, x, fx =>
    if (fx0 - fx) - step * tAr > -(1 / 1000000) then (step, x, fx)
    else
      let step := step * (1 / 2)
      let x := x0 + step • p
      backtrackLoop f x0 p fx0 tAr fuel step x (f.eval x)

/-- `backtracking_line_search` line_search.hpp:18-108. -/
def backtracking (f : Objective n K) (x0 p : Fin n → K) (step : K) : Option (LsOut n K) :=
  let fx0 := f.eval x0
  let gfx0 := f.grad x0
  let dg0 := p ⬝ᵥ gfx0
  if dg0 > 0 then none else
  if step ≤ 0 then none else
  let tAr := -dg0 * (1 / 2)
  let step : K := 1
  let x := x0 + step • p
  let r := backtrackLoop f x0 p fx0 tAr 100 step x (f.eval x)
  if r.2.2 - fx0 > 0 ∨ r.1 < 1 / 1000000 then none
  else some ⟨r.1, r.2.1, r.2.2, f.grad r.2.1⟩

/-- The bracketing/zoom variables of `nocedal_wright_line_search`, line_search.hpp:135. -/
structure Bracket (K : Type) where
  stepHi : K
  stepLo : K
  fxHi : K
  fxLo : K
  dgLo : K

/-- Result of the bracketing phase: converged (:160-163), or a bracket for the zoom phase. -/
inductive BracketRes (n : Nat) (K : Type) where
  | done (out : LsOut n K)
  | zoom (b : Bracket K)

/-- Bracketing phase, line_search.hpp:140-176; first argument `max_iter - iter`.  `dg_hi` is never read.
`step_hi` is uninitialised before the first pass, every exit to the zoom phase happens after it has been
set except when `max_iter` is zero, so its initial value is a parameter. -/
def bracketLoop (f : Objective n K) (x0 p : Fin n → K) (fx0 arm wolfe : K) :
    Nat → K → Bracket K → BracketRes n K
  | 0, _, b => .zoom b
  | fuel + 1, step, b =>
    let x := x0 + step • p
    let fx := f.eval x
    let gfx := f.grad x
    let dg := gfx ⬝ᵥ p
    if fx - fx0 > step * arm ∨ (0 < b.stepLo ∧ fx ≥ b.fxLo) then
      .zoom { b with stepHi := step, fxHi := fx }
    else if |dg| ≤ wolfe then .done ⟨step, x, fx, gfx⟩
    else
      let b : Bracket K := { stepHi := b.stepLo, fxHi := b.fxLo, stepLo := step, fxLo := fx, dgLo := dg }
      if dg ≥ 0 then .zoom b else bracketLoop f x0 p fx0 arm wolfe fuel (step * 2) b

/-- Zoom phase, line_search.hpp:178-221; first argument `max_iter - iter`, `none` is the exception. A
zero denominator of the interpolation (a NaN or infinity in the program) is modelled as failure. -/
def zoomLoop (f : Objective n K) (x0 p : Fin n → K) (fx0 arm wolfe : K) :
    Nat → Bracket K → Option (LsOut n K)
  | 0, _ => none
  | fuel + 1, b =>
    let num := (b.fxHi - b.fxLo) * b.stepLo - (b.stepHi * b.stepHi - b.stepLo * b.stepLo) * b.dgLo / 2
    let den := (b.fxHi - b.fxLo) - (b.stepHi - b.stepLo) * b.dgLo
    if den = 0 then none else
    let step := num / den
    let step := if step ≤ min b.stepLo b.stepHi ∨ step ≥ max b.stepLo b.stepHi
      then b.stepLo / 2 + b.stepHi / 2 else step
    let x := x0 + step • p
    let fx := f.eval x
    let gfx := f.grad x
    let dg := gfx ⬝ᵥ p
    if fx - fx0 > step * arm ∨ fx ≥ b.fxLo then
      if step = b.stepHi then none
      else zoomLoop f x0 p fx0 arm wolfe fuel { b with stepHi := step, fxHi := fx }
    else if |dg| ≤ wolfe then some ⟨step, x, fx, gfx⟩
    else
      let b := if dg * (b.stepHi - b.stepLo) ≥ 0
        then { b with stepHi := b.stepLo, fxHi := b.fxLo } else b
      if step = b.stepLo then none
      else zoomLoop f x0 p fx0 arm wolfe fuel { b with stepLo := step, fxLo := fx, dgLo := dg }

/-- `nocedal_wright_line_search` line_search.hpp:110-222: `fx`, `gfx` are the values passed in. -/
def nocedalWright (f : Objective n K) (x0 p : Fin n → K) (step fx : K) (gfx : Fin n → K) :
    Option (LsOut n K) :=
  let fx0 := fx
  let dgi := p ⬝ᵥ gfx
  if dgi > 0 then none else
  if step ≤ 0 then none else
  let arm := (1 / 10000) * dgi
  let wolfe := -(9 / 10) * dgi
  match bracketLoop f x0 p fx0 arm wolfe 100 step ⟨0, 0, fx0, fx0, dgi⟩ with
  | .done out => some out
  | .zoom b => zoomLoop f x0 p fx0 arm wolfe 100 b

/-- `discrete_line_search` line_search.hpp:224-278. -/
def discrete (f : Objective n K) (x0 p : Fin n → K) : LsOut n K :=
  let ds : K := 1 / 100
  let best := (List.range' 1 99).foldl (fun (acc : K × K) (ig : Nat) =>
    let tempStep : K := 1 - (ig : K) * ds
    let fx := f.eval (x0 + tempStep • p)
    if fx < acc.1 then (fx, tempStep) else acc) (f.eval (x0 + (1 : K) • p), 1)
  let x := x0 + best.2 • p
  ⟨best.2, x, best.1, f.grad x⟩

/-! ### bfgs.hpp -/

/-- The loop of `bfgs`, bfgs.hpp:55-118; first argument `max_iter - iter`, state `x`, `gfx`, `p`, `step`,
`B`. -/
def loop (f : Objective n K) : Nat → (Fin n → K) → (Fin n → K) → (Fin n → K) → K → Hess n K →
    Option (Fin n → K)
  | 0, _, _, _, _, _ => none
  | fuel + 1, x, gfx, p, step, B =>
    match backtracking f x p step with
    | none => none
    | some out =>
      let s := out.x - x
      let y := out.gfx - gfx
      let x := out.x
      let gfx := f.grad x
      if f.converged x gfx then some x
      else
        match B.update s y with
        | none => none
        | some B => loop f fuel x gfx (-(B.apply gfx)) 1 B

/-- `bfgs` bfgs.hpp:25-120. -/
def run (f : Objective n K) (x0 : Fin n → K) (B : Hess n K) (maxIter : Nat) : Option (Fin n → K) :=
  let gfx := f.grad x0
  loop f maxIter x0 gfx (-gfx) 1 B

/-- `bfgs` with the default Hessian, bfgs.hpp:122-128. -/
def runDefault (f : Objective n K) (x0 : Fin n → K) (maxIter : Nat) : Option (Fin n → K) :=
  run f x0 identityHess maxIter

end Bfgs
end Macis
