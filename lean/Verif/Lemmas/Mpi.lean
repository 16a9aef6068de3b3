import Verif.Spec.Mpi
namespace Macis.Mpi
open Spec.Mpi
variable {σ μ : Type}

/-- the step of a rank, on what it can see -/
def stepLocal (eager : Nat → Nat → Bool) (r : Nat) (p : List (Instr σ μ)) (s : σ) (c : Nat × Nat × Nat → List μ) :
    Option (List (Instr σ μ) × σ × (Nat × Nat × Nat → List μ)) :=
  match p with
  | [] => none
  | .comp f :: p => some (p, f s, c)
  | .isend t d m :: p => some (p, s, Function.update c (t, r, d) (c (t, r, d) ++ [m s]))
  | .recv t q k :: p =>
    match c (t, q, r) with
    | [] => none
    | m :: ms => some (p, k m s, Function.update c (t, q, r) ms)
  | .wsend t d :: p => if eager r p.length = true ∨ c (t, r, d) = [] then some (p, s, c) else none
  | .dyn f :: p => some (f s ++ p, s, c)

theorem stepRank_eq (eager : Nat → Nat → Bool) (w : World σ μ) (r : Nat) :
    stepRank eager w r = (stepLocal eager r (w.prog r) (w.st r) w.chan).map fun x =>
      ⟨Function.update w.prog r x.1, Function.update w.st r x.2.1, x.2.2⟩ := by
  unfold stepRank stepLocal
  cases w.prog r with
  | nil => rfl
  | cons i p =>
    cases i with
    | comp f => rfl
    | isend t d m => simp
    | recv t q k => dsimp only; cases w.chan (t, q, r) <;> rfl
    | wsend t d => dsimp only; split <;> simp
    | dyn f => simp

theorem push_pop {c : Nat × Nat × Nat → List μ} {k1 k2 : Nat × Nat × Nat} {x m : μ} {ms : List μ}
    (h : c k2 = m :: ms) :
    ∃ ms', Function.update c k1 (c k1 ++ [x]) k2 = m :: ms' ∧
      Function.update (Function.update c k1 (c k1 ++ [x])) k2 ms' =
        Function.update (Function.update c k2 ms) k1 (Function.update c k2 ms k1 ++ [x]) := by
  by_cases e : k1 = k2
  · subst e
    refine ⟨ms ++ [x], by simp [h], ?_⟩
    simp
  · refine ⟨ms, by rw [Function.update_of_ne (Ne.symm e), h], ?_⟩
    rw [Function.update_of_ne e, Function.update_comm e]

theorem step_commutes {eager : Nat → Nat → Bool} {r s : Nat} (hrs : r ≠ s) {p q : List (Instr σ μ)} {a b : σ}
    {c c1 c2 : Nat × Nat × Nat → List μ} {p1 q1 : List (Instr σ μ)} {a1 b1 : σ}
    (h1 : stepLocal eager r p a c = some (p1, a1, c1)) (h2 : stepLocal eager s q b c = some (q1, b1, c2)) :
    ∃ c3, stepLocal eager s q b c1 = some (q1, b1, c3) ∧ stepLocal eager r p a c2 = some (p1, a1, c3) := by
  have hk : ∀ t t' d d', ((t, r, d) : Nat × Nat × Nat) ≠ (t', s, d') := by
    intro t t' d d' h; simp at h; exact hrs h.2.1
  have hq : ∀ t t' d d', ((t, d, r) : Nat × Nat × Nat) ≠ (t', d', s) := by
    intro t t' d d' h; simp at h; exact hrs h.2.2
  unfold stepLocal at h1 h2
  split at h1
  · simp at h1
  · obtain ⟨rfl, rfl, rfl⟩ : _ ∧ _ ∧ _ := by simpa using h1
    exact ⟨c2, by unfold stepLocal; exact h2, rfl⟩
  · rename_i t d m p1'
    obtain ⟨rfl, rfl, rfl⟩ : _ ∧ _ ∧ _ := by simpa using h1
    split at h2
    · simp at h2
    · obtain ⟨rfl, rfl, rfl⟩ : _ ∧ _ ∧ _ := by simpa using h2
      exact ⟨_, rfl, rfl⟩
    · obtain ⟨rfl, rfl, rfl⟩ : _ ∧ _ ∧ _ := by simpa using h2
      refine ⟨_, rfl, ?_⟩
      simp only [stepLocal, Option.some.injEq, Prod.mk.injEq, true_and]
      rw [Function.update_of_ne (hk _ _ _ _), Function.update_of_ne (hk _ _ _ _).symm,
        Function.update_comm (hk _ _ _ _)]
    · rename_i t' q' k q1'
      split at h2
      · simp at h2
      · rename_i mm ms hc
        obtain ⟨rfl, rfl, rfl⟩ : _ ∧ _ ∧ _ := by simpa using h2
        obtain ⟨ms', e1, e2⟩ := push_pop (c := c) (k1 := (t, r, d)) (x := m a) hc
        refine ⟨_, ?_, rfl⟩
        simp only [stepLocal, e1]
        rw [e2]
    · rename_i t' d' q1'
      split at h2
      · rename_i hc
        obtain ⟨rfl, rfl, rfl⟩ : _ ∧ _ ∧ _ := by simpa using h2
        refine ⟨_, ?_, rfl⟩
        simp only [stepLocal]
        rw [Function.update_of_ne (hk _ _ _ _).symm, if_pos hc]
      · simp at h2
    · obtain ⟨rfl, rfl, rfl⟩ : _ ∧ _ ∧ _ := by simpa using h2
      exact ⟨_, rfl, rfl⟩
  · rename_i t q' k p1'
    split at h1
    · simp at h1
    rename_i mm ms hc
    obtain ⟨rfl, rfl, rfl⟩ : _ ∧ _ ∧ _ := by simpa using h1
    split at h2
    · simp at h2
    · obtain ⟨rfl, rfl, rfl⟩ : _ ∧ _ ∧ _ := by simpa using h2
      exact ⟨_, rfl, by simp only [stepLocal, hc]⟩
    · rename_i t' d' m' q1'
      obtain ⟨rfl, rfl, rfl⟩ : _ ∧ _ ∧ _ := by simpa using h2
      obtain ⟨ms', e1, e2⟩ := push_pop (c := c) (k1 := (t', s, d')) (x := m' b) hc
      refine ⟨_, rfl, ?_⟩
      simp only [stepLocal, e1]
      rw [e2]
    · rename_i t' q'' k' q1'
      split at h2
      · simp at h2
      rename_i mm' ms' hc'
      obtain ⟨rfl, rfl, rfl⟩ : _ ∧ _ ∧ _ := by simpa using h2
      refine ⟨Function.update (Function.update c (t, q', r) ms) (t', q'', s) ms', ?_, ?_⟩
      · simp only [stepLocal]
        rw [Function.update_of_ne (hq _ _ _ _).symm, hc']
      · simp only [stepLocal]
        rw [Function.update_of_ne (hq _ _ _ _), hc]
        simp only [Option.some.injEq, Prod.mk.injEq, true_and]
        rw [Function.update_comm (hq _ _ _ _)]
    · rename_i t' d' q1'
      split at h2
      · rename_i hc'
        obtain ⟨rfl, rfl, rfl⟩ : _ ∧ _ ∧ _ := by simpa using h2
        refine ⟨Function.update c (t, q', r) ms, ?_, by simp only [stepLocal, hc]⟩
        simp only [stepLocal]
        rw [if_pos]
        rcases hc' with hc' | hc'
        · exact .inl hc'
        · right
          by_cases e : ((t', s, d') : Nat × Nat × Nat) = (t, q', r)
          · rw [← e, hc'] at hc; simp at hc
          · rw [Function.update_of_ne e, hc']
      · simp at h2
    · obtain ⟨rfl, rfl, rfl⟩ : _ ∧ _ ∧ _ := by simpa using h2
      exact ⟨_, rfl, by simp only [stepLocal, hc]⟩
  · rename_i t d p1'
    split at h1
    rotate_left
    · simp at h1
    rename_i hc
    obtain ⟨rfl, rfl, rfl⟩ : _ ∧ _ ∧ _ := by simpa using h1
    refine ⟨c2, by unfold stepLocal; exact h2, ?_⟩
    simp only [stepLocal]
    rw [if_pos]
    rcases hc with hc | hc
    · exact .inl hc
    right
    split at h2
    · simp at h2
    · obtain ⟨rfl, rfl, rfl⟩ : _ ∧ _ ∧ _ := by simpa using h2
      exact hc
    · obtain ⟨rfl, rfl, rfl⟩ : _ ∧ _ ∧ _ := by simpa using h2
      rw [Function.update_of_ne (hk _ _ _ _), hc]
    · rename_i t' q'' k' q1'
      split at h2
      · simp at h2
      rename_i mm' ms' hc'
      obtain ⟨rfl, rfl, rfl⟩ : _ ∧ _ ∧ _ := by simpa using h2
      by_cases e : ((t, r, d) : Nat × Nat × Nat) = (t', q'', s)
      · rw [e, hc'] at hc; simp at hc
      · rw [Function.update_of_ne e, hc]
    · split at h2
      · obtain ⟨rfl, rfl, rfl⟩ : _ ∧ _ ∧ _ := by simpa using h2
        exact hc
      · simp at h2
    · obtain ⟨rfl, rfl, rfl⟩ : _ ∧ _ ∧ _ := by simpa using h2
      exact hc
  · obtain ⟨rfl, rfl, rfl⟩ : _ ∧ _ ∧ _ := by simpa using h1
    exact ⟨c2, by unfold stepLocal; exact h2, rfl⟩

/-- two ranks that can both take a step can take them in either order, with the same result -/
theorem diamond {eager : Nat → Nat → Bool} {w w1 w2 : World σ μ} {r s : Nat} (hrs : r ≠ s)
    (h1 : stepRank eager w r = some w1) (h2 : stepRank eager w s = some w2) :
    ∃ w3, stepRank eager w1 s = some w3 ∧ stepRank eager w2 r = some w3 := by
  rw [stepRank_eq, Option.map_eq_some_iff] at h1 h2
  obtain ⟨⟨p1, a1, c1⟩, e1, rfl⟩ := h1
  obtain ⟨⟨q1, b1, c2⟩, e2, rfl⟩ := h2
  obtain ⟨c3, e3, e4⟩ := step_commutes hrs e1 e2
  refine ⟨⟨Function.update (Function.update w.prog r p1) s q1, Function.update (Function.update w.st r a1) s b1, c3⟩, ?_, ?_⟩
  · rw [stepRank_eq]
    simp only [Function.update_of_ne hrs.symm, e3, Option.map_some]
  · rw [stepRank_eq]
    simp only [Function.update_of_ne hrs, e4, Option.map_some, Function.update_comm hrs]

/-- all executions are as long as one that ends -/
theorem run_ends {eager : Nat → Nat → Bool} {w F : World σ μ} {N : Nat} (h : Run eager N w F)
    (hF : ∀ w', ¬ Step eager F w') : ∀ {w'}, Step eager w w' → ∃ n, N = n + 1 ∧ Run eager n w' F := by
  induction h with
  | nil w => intro w' h; exact absurd h (hF w')
  | @cons n w w1 F h1 hr ih =>
    intro w' h2
    obtain ⟨r, h1⟩ := h1
    obtain ⟨s, h2⟩ := h2
    by_cases e : r = s
    · subst e
      rw [h1] at h2
      obtain rfl : w1 = w' := by simpa using h2
      exact ⟨n, rfl, hr⟩
    · obtain ⟨w3, e1, e2⟩ := diamond e h1 h2
      obtain ⟨k, rfl, hk⟩ := ih hF ⟨s, e1⟩
      exact ⟨k + 1, rfl, .cons ⟨r, e2⟩ hk⟩

theorem run_all {eager : Nat → Nat → Bool} {w F : World σ μ} {N : Nat} (h : Run eager N w F)
    (hF : ∀ w', ¬ Step eager F w') {n : Nat} {w' : World σ μ} (hr : Run eager n w w') :
    ∃ k, N = n + k ∧ Run eager k w' F := by
  induction hr generalizing N with
  | nil w => exact ⟨N, by omega, h⟩
  | @cons n w w1 w2 h1 hr ih =>
    obtain ⟨m, rfl, hm⟩ := run_ends h hF h1
    obtain ⟨k, rfl, hk⟩ := ih hm
    exact ⟨k, by omega, hk⟩

theorem Run.trans {eager : Nat → Nat → Bool} {w w' w'' : World σ μ} {m n : Nat} (h : Run eager m w w')
    (h' : Run eager n w' w'') : Run eager (m + n) w w'' := by
  induction h with
  | nil w => simpa using h'
  | @cons k a b c h1 _ ih => rw [show k + 1 + n = k + n + 1 by omega]; exact .cons h1 (ih h')

/-- with no send completed early -/
def strict : Nat → Nat → Bool := fun _ _ => false

theorem step_mono {eager : Nat → Nat → Bool} {w w' : World σ μ} (h : Step strict w w') : Step eager w w' := by
  obtain ⟨r, h⟩ := h
  refine ⟨r, ?_⟩
  rw [stepRank_eq, Option.map_eq_some_iff] at h ⊢
  obtain ⟨x, e, rfl⟩ := h
  refine ⟨x, ?_, rfl⟩
  unfold stepLocal at e ⊢
  split at e
  · simp at e
  · exact e
  · exact e
  · exact e
  · split at e
    · rename_i h
      rw [if_pos (h.imp (fun h => by simp [strict] at h) id)]
      exact e
    · simp at e
  · exact e

theorem run_mono {eager : Nat → Nat → Bool} {w w' : World σ μ} {n : Nat} (h : Run strict n w w') : Run eager n w w' := by
  induction h with
  | nil w => exact .nil w
  | cons h _ ih => exact .cons (step_mono h) ih

theorem finished_stuck {eager : Nat → Nat → Bool} {w : World σ μ} (h : Finished w) : ∀ w', ¬ Step eager w w' := by
  rintro w' ⟨r, hr⟩
  simp [stepRank, h r] at hr

/-- one execution with no send completed early, to the end and with all messages received, decides about all -/
theorem always_ends {w F : World σ μ} {N : Nat} (h : Run strict N w F) (hF : Finished F) (hc : ∀ k, F.chan k = []) :
    AlwaysEnds w F.st := by
  refine ⟨N, fun eager n w' hr => ?_⟩
  obtain ⟨k, rfl, hk⟩ := run_all (run_mono (eager := eager) h) (finished_stuck hF) hr
  refine ⟨by omega, ?_, ?_⟩
  · intro hn
    cases hk with
    | nil => omega
    | cons h1 _ => exact ⟨_, h1⟩
  · intro hn
    obtain rfl : k = 0 := by omega
    cases hk
    exact ⟨hF, rfl, hc⟩

end Macis.Mpi
