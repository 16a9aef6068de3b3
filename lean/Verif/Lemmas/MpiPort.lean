import Verif.Lemmas.MpiDav
import Verif.Model.MpiIter
/-! A program called through a port does in the caller what it does alone; programs one after the other. -/
namespace Macis.Mpi
open Spec Spec.Mpi
variable {S σ T μ : Type}

/-- the callee's variables are a part of the caller's and its messages are told apart from others -/
structure LawfulPort (po : Port S σ T μ) : Prop where
  get_set : ∀ a s, po.get (po.set a s) = a
  set_set : ∀ a b s, po.set b (po.set a s) = po.set b s
  set_get : ∀ s, po.set (po.get s) s = s
  prj_inj : ∀ m, po.prj (po.inj m) = some m

theorem callL_append (po : Port S σ T μ) (p q : List (Instr σ μ)) : callL po (p ++ q) = callL po p ++ callL po q := by
  induction p with
  | nil => simp [callL]
  | cons i p ih => simp [callL, ih]

/-- the callee's world inside the caller's -/
def inPort (po : Port S σ T μ) (rest : Nat → List (Instr S T)) (e : Nat → S) (w : World σ μ) : World S T :=
  ⟨fun r => callL po (w.prog r) ++ rest r, fun r => po.set (w.st r) (e r), fun k => (w.chan k).map po.inj⟩

theorem inPort_step {po : Port S σ T μ} (lw : LawfulPort po) (rest : Nat → List (Instr S T)) (e : Nat → S)
    {w w' : World σ μ} (h : Step strict w w') : Step strict (inPort po rest e w) (inPort po rest e w') := by
  obtain ⟨r, h⟩ := h
  refine ⟨r, ?_⟩
  have hpr : ∀ p, (fun i => callL po (Function.update w.prog r p i) ++ rest i) =
      Function.update (fun i => callL po (w.prog i) ++ rest i) r (callL po p ++ rest r) := by
    intro p; funext i
    by_cases hi : i = r
    · subst hi; simp
    · simp [hi]
  have hst : ∀ x, (fun i => po.set (Function.update w.st r x i) (e i)) =
      Function.update (fun i => po.set (w.st i) (e i)) r (po.set x (e r)) := by
    intro p; funext i
    by_cases hi : i = r
    · subst hi; simp
    · simp [hi]
  have hch : ∀ k (l : List μ), (fun i => (Function.update w.chan k l i).map po.inj) =
      Function.update (fun i => (w.chan i).map po.inj) k (l.map po.inj) := by
    intro k l; funext i
    by_cases hi : i = k
    · subst hi; simp
    · simp [hi]
  unfold stepRank at h
  split at h
  · exact absurd h (by simp)
  · rename_i f p hp
    cases h
    simp only [stepRank, inPort, hp, callL, callI, List.cons_append, hpr, hst, lw.get_set, lw.set_set]
  · rename_i t d m p hp
    cases h
    simp only [stepRank, inPort, hp, callL, callI, List.cons_append, hpr, hch, List.map_append, List.map_cons, List.map_nil,
      lw.get_set]
  · rename_i t s k p hp
    split at h
    · exact absurd h (by simp)
    · rename_i m ms hc
      cases h
      simp only [stepRank, inPort, hp, callL, callI, List.cons_append, hpr, hst, hch, hc, List.map_cons, lw.prj_inj,
        lw.get_set, lw.set_set]
  · rename_i t d p hp
    split at h
    · rename_i hc
      cases h
      have hc' : w.chan (t, r, d) = [] := by simpa [strict] using hc
      simp [stepRank, inPort, hp, callL, callI, hpr, hc']
    · exact absurd h (by simp)
  · rename_i f p hp
    cases h
    simp only [stepRank, inPort, hp, callL, callI, List.cons_append, hpr, callL_append, List.append_assoc, lw.get_set]

theorem inPort_run {po : Port S σ T μ} (lw : LawfulPort po) (rest : Nat → List (Instr S T)) (e : Nat → S) {n : Nat}
    {w w' : World σ μ} (h : Spec.Mpi.Run strict n w w') : Spec.Mpi.Run strict n (inPort po rest e w) (inPort po rest e w') := by
  induction h with
  | nil w => exact .nil _
  | cons h _ ih => exact .cons (inPort_step lw rest e h) ih

/-- If alone all ranks can run the callee to its end, they can in the caller. -/
theorem ranks_port (P : Nat) {po : Port S σ T μ} (lw : LawfulPort po) (p : Nat → List (Instr σ μ)) (s : Nat → S)
    (st' : Nat → σ) (h : Reach (ranks P p fun r => po.get (s r)) (ranks P (fun _ => []) st')) :
    Reach (ranks P (fun r => callL po (p r)) s) (ranks P (fun _ => []) fun r => po.set (st' r) (s r)) := by
  obtain ⟨n, h⟩ := h
  refine ⟨n, cast ?_ (inPort_run lw (fun _ => []) s h)⟩
  congr 1
  · simp only [inPort, ranks, World.mk.injEq, List.map_nil, and_true]
    constructor
    · funext r
      by_cases hr : r < P <;> simp [hr, callL]
    · funext r; exact lw.set_get _
  · simp only [inPort, ranks, World.mk.injEq, List.map_nil, and_true]
    funext r
    by_cases hr : r < P <;> simp [hr, callL]

/-- one program after the other -/
theorem ranks_seq (P : Nat) {p q : Nat → List (Instr S T)} {s s1 s2 : Nat → S}
    (h1 : Reach (ranks P p s) (ranks P (fun _ => []) s1)) (h2 : Reach (ranks P q s1) (ranks P (fun _ => []) s2)) :
    Reach (ranks P (fun r => p r ++ q r) s) (ranks P (fun _ => []) s2) :=
  (ranks_frame P p q s s1 h1).trans h2

/-- a choice made from data -/
theorem ranks_choice (P : Nat) (f : Nat → S → List (Instr S T)) {s s' : Nat → S}
    (h : Reach (ranks P (fun r => f r (s r)) s) (ranks P (fun _ => []) s')) :
    Reach (ranks P (fun r => [.dyn (f r)]) s) (ranks P (fun _ => []) s') := by
  refine (ranks_dyn P f (fun _ => []) s).trans ?_
  simpa using h

theorem ranks_local (P : Nat) (F : Nat → List (S → S)) (s : Nat → S) :
    Reach (ranks P (fun r => comps (F r) : Nat → List (Instr S T)) s)
      (ranks P (fun _ => []) fun r => if r < P then runComps (F r) (s r) else s r) := by
  have := ranks_comps (μ := T) P F (fun _ => []) s
  simpa using this

/-- the same with other variables outside the communicator -/
def patch (P : Nat) (t : Nat → S) (w : World S T) : World S T := ⟨w.prog, fun r => if r < P then w.st r else t r, w.chan⟩

theorem patch_step (P : Nat) (t : Nat → S) {w w' : World S T} (hp : ∀ r, P ≤ r → w.prog r = []) (h : Step strict w w') :
    Step strict (patch P t w) (patch P t w') ∧ ∀ r, P ≤ r → w'.prog r = [] := by
  obtain ⟨r, h⟩ := h
  have hr : r < P := by
    by_contra hc
    unfold stepRank at h
    rw [hp r (by omega)] at h
    cases h
  have hpr : ∀ p i, P ≤ i → Function.update w.prog r p i = [] := by
    intro p i hi
    rw [Function.update_of_ne (by omega)]; exact hp i hi
  have hst : ∀ x, (fun i => if i < P then Function.update w.st r x i else t i) =
      Function.update (fun i => if i < P then w.st i else t i) r x := by
    intro p; funext i
    by_cases hi : i = r
    · subst hi; simp [hr]
    · simp [hi]
  unfold stepRank at h
  split at h
  · exact absurd h (by simp)
  · rename_i f p hp
    cases h
    refine ⟨⟨r, ?_⟩, hpr _⟩
    simp only [stepRank, patch, hp, hst, hr, if_true]
  · rename_i t d m p hp
    cases h
    refine ⟨⟨r, ?_⟩, hpr _⟩
    simp only [stepRank, patch, hp, hr, if_true]
  · rename_i t s k p hp
    split at h
    · exact absurd h (by simp)
    · rename_i m ms hc
      cases h
      refine ⟨⟨r, ?_⟩, hpr _⟩
      simp only [stepRank, patch, hp, hst, hr, if_true, hc]
  · rename_i t d p hp
    split at h
    · rename_i hc
      cases h
      refine ⟨⟨r, ?_⟩, hpr _⟩
      have hc' : w.chan (t, r, d) = [] := by simpa [strict] using hc
      simp [stepRank, patch, hp, hc']
    · exact absurd h (by simp)
  · rename_i f p hp
    cases h
    refine ⟨⟨r, ?_⟩, hpr _⟩
    simp only [stepRank, patch, hp, hr, if_true]

theorem patch_run (P : Nat) (t : Nat → S) {n : Nat} {w w' : World S T} (h : Spec.Mpi.Run strict n w w') :
    (∀ r, P ≤ r → w.prog r = []) → Spec.Mpi.Run strict n (patch P t w) (patch P t w') := by
  induction h with
  | nil w => intro _; exact .nil _
  | cons h _ ih =>
    intro hp
    obtain ⟨h1, h2⟩ := patch_step P t hp h
    exact .cons h1 (ih h2)

/-- what ranks outside the communicator have does not matter -/
theorem ranks_outside (P : Nat) {p : Nat → List (Instr S T)} {s s' : Nat → S} (t : Nat → S) (ht : ∀ r < P, t r = s r)
    (h : Reach (ranks P p s) (ranks P (fun _ => []) s')) :
    Reach (ranks P p t) (ranks P (fun _ => []) fun r => if r < P then s' r else t r) := by
  obtain ⟨n, h⟩ := h
  refine ⟨n, cast ?_ (patch_run P t h (by intro r hr; simp [ranks, hr]))⟩
  congr 1
  simp only [patch, ranks, World.mk.injEq, true_and, and_true]
  funext r
  by_cases hr : r < P
  · simp [hr, ht r hr]
  · simp [hr]

end Macis.Mpi
