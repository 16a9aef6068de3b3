import Verif.Lemmas.MpiSpmv
import Verif.Model.MpiLift
/-! A program called by a larger one does there what it does alone. -/
namespace Macis.Mpi
open Spec Spec.Mpi
variable {σ τ μ ν : Type}

theorem liftL_append (bad : τ → τ) (p q : List (Instr σ μ)) :
    (liftL bad (p ++ q) : List (Instr (σ × τ) (μ ⊕ ν))) = liftL bad p ++ liftL bad q := by
  induction p with
  | nil => simp [liftL]
  | cons i p ih => simp [liftL, ih]

/-- the callee's world inside the caller's -/
def inCaller (bad : τ → τ) (rest : Nat → List (Instr (σ × τ) (μ ⊕ ν))) (e : Nat → τ) (w : World σ μ) :
    World (σ × τ) (μ ⊕ ν) :=
  ⟨fun r => liftL bad (w.prog r) ++ rest r, fun r => (w.st r, e r), fun k => (w.chan k).map .inl⟩

theorem update_lift {α β : Type} (f : Nat → α) (g : α → β) (r : Nat) (a : α) :
    (fun i => g (Function.update f r a i)) = Function.update (fun i => g (f i)) r (g a) := by
  funext i
  by_cases h : i = r
  · subst h; simp
  · simp [h]

theorem inCaller_step (bad : τ → τ) (rest : Nat → List (Instr (σ × τ) (μ ⊕ ν))) (e : Nat → τ) {w w' : World σ μ}
    (h : Step strict w w') : Step strict (inCaller bad rest e w) (inCaller bad rest e w') := by
  obtain ⟨r, h⟩ := h
  refine ⟨r, ?_⟩
  have hpr : ∀ p, (fun i => liftL bad (Function.update w.prog r p i) ++ rest i) =
      Function.update (fun i => liftL bad (w.prog i) ++ rest i) r (liftL bad p ++ rest r) := by
    intro p; funext i
    by_cases hi : i = r
    · subst hi; simp
    · simp [hi]
  have hst : ∀ x, (fun i => (Function.update w.st r x i, e i)) =
      Function.update (fun i => (w.st i, e i)) r (x, e r) := by
    intro p; funext i
    by_cases hi : i = r
    · subst hi; simp
    · simp [hi]
  have hch : ∀ k (l : List μ), (fun i => (Function.update w.chan k l i).map (Sum.inl : μ → μ ⊕ ν)) =
      Function.update (fun i => (w.chan i).map Sum.inl) k (l.map Sum.inl) := by
    intro k l; funext i
    by_cases hi : i = k
    · subst hi; simp
    · simp [hi]
  unfold stepRank at h
  split at h
  · exact absurd h (by simp)
  · rename_i f p hp
    cases h
    simp only [stepRank, inCaller, hp, liftL, liftI, List.cons_append, hpr, hst]
  · rename_i t d m p hp
    cases h
    simp only [stepRank, inCaller, hp, liftL, liftI, List.cons_append, hpr, hch, List.map_append, List.map_cons, List.map_nil]
  · rename_i t s k p hp
    split at h
    · exact absurd h (by simp)
    · rename_i m ms hc
      cases h
      simp only [stepRank, inCaller, hp, liftL, liftI, List.cons_append, hpr, hst, hch, hc, List.map_cons]
  · rename_i t d p hp
    split at h
    · rename_i hc
      cases h
      have hc' : w.chan (t, r, d) = [] := by simpa [strict] using hc
      simp [stepRank, inCaller, hp, liftL, liftI, hpr, hc']
    · exact absurd h (by simp)
  · rename_i f p hp
    cases h
    simp only [stepRank, inCaller, hp, liftL, liftI, List.cons_append, hpr, liftL_append, List.append_assoc]

theorem inCaller_run (bad : τ → τ) (rest : Nat → List (Instr (σ × τ) (μ ⊕ ν))) (e : Nat → τ) {n : Nat} {w w' : World σ μ}
    (h : Run strict n w w') : Run strict n (inCaller bad rest e w) (inCaller bad rest e w') := by
  induction h with
  | nil w => exact .nil _
  | cons h _ ih => exact .cons (inCaller_step bad rest e h) ih

/-- If alone all ranks can run the callee to its end, they can in the caller. -/
theorem ranks_call (P : Nat) (bad : τ → τ) (p : Nat → List (Instr σ μ)) (rest : Nat → List (Instr (σ × τ) (μ ⊕ ν)))
    (st st' : Nat → σ) (e : Nat → τ) (h : Reach (ranks P p st) (ranks P (fun _ => []) st')) :
    Reach (ranks P (fun r => liftL bad (p r) ++ rest r) fun r => (st r, e r)) (ranks P rest fun r => (st' r, e r)) := by
  obtain ⟨n, h⟩ := h
  refine ⟨n, cast ?_ (inCaller_run bad (fun r => if r < P then rest r else []) e h)⟩
  congr 1
  · simp only [inCaller, ranks, World.mk.injEq, List.map_nil, and_true]
    funext r
    by_cases hr : r < P <;> simp [hr, liftL]
  · simp only [inCaller, ranks, World.mk.injEq, List.map_nil, and_true]
    funext r
    by_cases hr : r < P <;> simp [hr, liftL]

end Macis.Mpi
