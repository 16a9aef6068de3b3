import Verif.Lemmas.MpiLift
/-! A flag that no instruction takes back. -/
namespace Macis.Mpi
open Spec Spec.Mpi
variable {σ τ μ ν : Type}

mutual
/-- the instruction keeps `B` -/
def keepsI (B : σ → Prop) : Instr σ μ → Prop
  | .comp f => ∀ x, B x → B (f x)
  | .isend _ _ _ => True
  | .recv _ _ k => ∀ v x, B x → B (k v x)
  | .wsend _ _ => True
  | .dyn f => ∀ x, keepsL B (f x)
/-- all instructions keep `B` -/
def keepsL (B : σ → Prop) : List (Instr σ μ) → Prop
  | [] => True
  | i :: p => keepsI B i ∧ keepsL B p
end

theorem keepsL_append (B : σ → Prop) (p q : List (Instr σ μ)) : keepsL B (p ++ q) ↔ keepsL B p ∧ keepsL B q := by
  induction p with
  | nil => simp [keepsL]
  | cons i p ih => simp [keepsL, ih, and_assoc]

theorem keepsL_isends (B : σ → Prop) (t : Nat) (L : List (Nat × (σ → μ))) : keepsL B (isends t L) := by
  induction L with
  | nil => simp [isends, keepsL]
  | cons a L ih => exact ⟨trivial, ih⟩

theorem keepsL_wsends (B : σ → Prop) (t : Nat) (L : List Nat) : keepsL (μ := μ) B (wsends t L) := by
  induction L with
  | nil => simp [wsends, keepsL]
  | cons a L ih => exact ⟨trivial, ih⟩

theorem keepsL_recvs (B : σ → Prop) (t : Nat) (L : List (Nat × (μ → σ → σ))) (h : ∀ a ∈ L, ∀ v x, B x → B (a.2 v x)) :
    keepsL B (recvs t L) := by
  induction L with
  | nil => simp [recvs, keepsL]
  | cons a L ih => exact ⟨h a (by simp), ih fun b hb => h b (List.mem_cons_of_mem _ hb)⟩

theorem keepsL_comps (B : σ → Prop) (F : List (σ → σ)) (h : ∀ f ∈ F, ∀ x, B x → B (f x)) : keepsL (μ := μ) B (comps F) := by
  induction F with
  | nil => simp [comps, keepsL]
  | cons a L ih => exact ⟨h a (by simp), ih fun b hb => h b (List.mem_cons_of_mem _ hb)⟩

mutual
theorem keepsI_lift (B : τ → Prop) (bad : τ → τ) (hb : ∀ e, B e → B (bad e)) :
    ∀ i : Instr σ μ, keepsI (fun x : σ × τ => B x.2) (liftI (ν := ν) bad i)
  | .comp f => fun _ h => h
  | .isend _ _ _ => trivial
  | .recv _ _ k => by
    simp only [liftI, keepsI]
    intro v x h
    cases v with
    | inl v => exact h
    | inr v => exact hb _ h
  | .wsend _ _ => trivial
  | .dyn f => fun x => keepsL_lift B bad hb (f x.1)
theorem keepsL_lift (B : τ → Prop) (bad : τ → τ) (hb : ∀ e, B e → B (bad e)) :
    ∀ p : List (Instr σ μ), keepsL (fun x : σ × τ => B x.2) (liftL (ν := ν) bad p)
  | [] => trivial
  | i :: p => ⟨keepsI_lift B bad hb i, keepsL_lift B bad hb p⟩
end

theorem keeps_step {eager : Nat → Nat → Bool} {B : σ → Prop} {w w' : World σ μ} (hk : ∀ r, keepsL B (w.prog r))
    (h : Step eager w w') : (∀ r, keepsL B (w'.prog r)) ∧ ∀ r, B (w.st r) → B (w'.st r) := by
  obtain ⟨q, h⟩ := h
  have hq := hk q
  have hup : ∀ p, keepsL B p → ∀ r, keepsL B (Function.update w.prog q p r) := by
    intro p hp r
    by_cases e : r = q
    · subst e; rw [Function.update_self]; exact hp
    · rw [Function.update_of_ne e]; exact hk r
  have hst : ∀ s, (B (w.st q) → B s) → ∀ r, B (w.st r) → B (Function.update w.st q s r) := by
    intro s hs r hr
    by_cases e : r = q
    · subst e; rw [Function.update_self]; exact hs hr
    · rw [Function.update_of_ne e]; exact hr
  unfold stepRank at h
  split at h
  · exact absurd h (by simp)
  · rename_i f p hp
    cases h
    rw [hp] at hq
    exact ⟨hup p hq.2, hst _ (hq.1 _)⟩
  · rename_i t d m p hp
    cases h
    rw [hp] at hq
    exact ⟨hup p hq.2, fun r hr => hr⟩
  · rename_i t s k p hp
    rw [hp] at hq
    split at h
    · exact absurd h (by simp)
    · rename_i m ms hc
      cases h
      exact ⟨hup p hq.2, hst _ (hq.1 _ _)⟩
  · rename_i t d p hp
    rw [hp] at hq
    split at h
    · cases h
      exact ⟨hup p hq.2, fun r hr => hr⟩
    · exact absurd h (by simp)
  · rename_i f p hp
    rw [hp] at hq
    cases h
    refine ⟨hup _ ((keepsL_append B _ _).2 ⟨?_, hq.2⟩), fun r hr => hr⟩
    exact hq.1 (w.st q)

theorem keeps_run {eager : Nat → Nat → Bool} {B : σ → Prop} {w w' : World σ μ} {n : Nat} (hk : ∀ r, keepsL B (w.prog r))
    (h : Run eager n w w') : (∀ r, keepsL B (w'.prog r)) ∧ ∀ r, B (w.st r) → B (w'.st r) := by
  induction h with
  | nil w => exact ⟨hk, fun _ h => h⟩
  | cons h _ ih =>
    obtain ⟨h1, h2⟩ := keeps_step hk h
    obtain ⟨h3, h4⟩ := ih h1
    exact ⟨h3, fun r hr => h4 r (h2 r hr)⟩

/-- If one execution raises the flag on rank `r`, it is raised when any execution ends or gets stuck. -/
theorem flag_always {B : σ → Prop} {w w1 : World σ μ} {r : Nat} (hk : ∀ r, keepsL B (w.prog r)) (h : Reach w w1)
    (hB : B (w1.st r)) (eager : Nat → Nat → Bool) {n : Nat} {F : World σ μ} (hr : Run eager n w F)
    (hF : ∀ w', ¬ Step eager F w') : B (F.st r) := by
  obtain ⟨k, h⟩ := h
  obtain ⟨j, -, hj⟩ := run_all hr hF (run_mono (eager := eager) h)
  have hk1 := (keeps_run hk (run_mono (eager := eager) h)).1
  exact (keeps_run hk1 hj).2 r hB

end Macis.Mpi
