import Verif.Model.LogFile
import Mathlib.Logic.Relation
/-! What executions of processes logging to one file are (C164). -/
namespace Macis.Spec

/-- a state that some execution of the `P` processes, stopped anywhere, leaves behind -/
def LogReach (P : Nat) (s s' : LogState) : Prop := Relation.ReflTransGen (LogStep P) s s'

/-- all processes have ended -/
def LogDone (P : Nat) (s : LogState) : Prop := ∀ r < P, s.pending r = []

/-- the piece ends where a line ends -/
def WholeLines (c : List Char) : Prop := c = [] ∨ c.getLast? = some '\n'

end Macis.Spec
