import Verif.Model.MpiFile
/-! Executions of `write_dist_mm` under every schedule. -/
namespace Macis.Spec.MpiFile
open Macis.MpiFile

/-- executions of `n` steps -/
inductive Run (T : Texts) (P : Nat) (eager : Nat → Bool) : Nat → State → State → Prop
  | nil (s) : Run T P eager 0 s s
  | cons {n s s' s'' r} : step T P eager s r = some s' → Run T P eager n s' s'' → Run T P eager (n + 1) s s''

end Macis.Spec.MpiFile
