import Verif.Model.Mpi
/-
Calling a program inside a larger one: the caller has more variables (`τ`) and other messages (`ν`), which the callee
does not touch.  Used for `dist_quickselect` called from `asci_search`
(include/macis/asci/determinant_search.hpp:575-577).
-/
namespace Macis.Mpi
variable {σ τ μ ν : Type}

mutual
/-- An instruction of the callee, run by the caller; `bad` is what happens to the caller when a message arrives that
is not one of the callee's. -/
def liftI (bad : τ → τ) : Instr σ μ → Instr (σ × τ) (μ ⊕ ν)
  | .comp f => .comp fun x => (f x.1, x.2)
  | .isend t d m => .isend t d fun x => .inl (m x.1)
  | .recv t s k => .recv t s fun v x => match v with
    | .inl v => (k v x.1, x.2)
    | .inr _ => (x.1, bad x.2)
  | .wsend t d => .wsend t d
  | .dyn f => .dyn fun x => liftL bad (f x.1)
/-- a program of the callee, run by the caller -/
def liftL (bad : τ → τ) : List (Instr σ μ) → List (Instr (σ × τ) (μ ⊕ ν))
  | [] => []
  | i :: p => liftI bad i :: liftL bad p
end

end Macis.Mpi
