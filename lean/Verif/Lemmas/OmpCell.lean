import Verif.Spec.OmpCell
import Verif.Lemmas.SpBlas
import Mathlib.Algebra.BigOperators.Group.Finset.Basic
import Mathlib.Algebra.Order.BigOperators.Group.Finset
/-! Parallel loops that update single elements: invariant, progress, termination. -/
namespace Macis.OmpCell
open Spec.OmpCell
variable {R : Type}

/-- what has become of an iteration -/
inductive Status (R : Type)
  | waiting
  | running (p : Phase R)
  | done

/-- status of iteration `q` in thread `th` -/
def Thread.status (th : Thread R) (q : Nat × Nat) : Status R :=
  if q ∈ th.todo then .waiting
  else match th.cur with
    | some (q', p) => if q' = q then .running p else .done
    | none => .done

/-- steps still to be taken -/
def Status.cost (len : Nat) : Status R → Nat
  | .waiting => len + 3
  | .running (.adding j _) => len - j + 2
  | .running (.loaded _ _) => 1
  | .done => 0

/-- the first `j` terms -/
def partialSum (J : Job R) (q : Nat × Nat) : Nat → R
  | 0 => J.zero
  | j + 1 => J.term q j (partialSum J q j)

/-- what memory holds at the element of an iteration, by status -/
def Good (J : Job R) (q : Nat × Nat) (old now : R) : Status R → Prop
  | .waiting => now = old
  | .running (.adding j av) => now = old ∧ j ≤ J.len q ∧ av = partialSum J q j
  | .running (.loaded av old') => now = old ∧ av = partialSum J q (J.len q) ∧ old' = old
  | .done => now = J.fin q (partialSum J q (J.len q)) old

structure Inv (J : Job R) (its : List (Nat × Nat)) (own : Nat × Nat → Nat) (mem0 : Nat → R) (s : State R) : Prop where
  todo : ∀ t, ∀ q ∈ (s.thr t).todo, q ∈ its ∧ own q = t
  nodup : ∀ t, (s.thr t).todo.Nodup
  cur : ∀ t q p, (s.thr t).cur = some (q, p) → q ∈ its ∧ own q = t ∧ q ∉ (s.thr t).todo
  good : ∀ q ∈ its, Good J q (mem0 (J.cell q)) (s.mem (J.cell q)) ((s.thr (own q)).status q)
  other : ∀ x, (∀ q ∈ its, J.cell q ≠ x) → s.mem x = mem0 x

variable {J : Job R} {its : List (Nat × Nat)} {own : Nat × Nat → Nat} {mem0 : Nat → R}

/-- total number of steps to be taken -/
def total (J : Job R) (its : List (Nat × Nat)) (own : Nat × Nat → Nat) (s : State R) : Nat :=
  ∑ q ∈ its.toFinset, ((s.thr (own q)).status q).cost (J.len q)

theorem sum_one {f g : Nat × Nat → Nat} {q : Nat × Nat} (hq : q ∈ its) (h : ∀ k ∈ its, k ≠ q → g k = f k)
    (h1 : g q + 1 = f q) : (∑ k ∈ its.toFinset, g k) + 1 = ∑ k ∈ its.toFinset, f k := by
  have e1 := Finset.add_sum_erase its.toFinset g (List.mem_toFinset.2 hq)
  have e2 := Finset.add_sum_erase its.toFinset f (List.mem_toFinset.2 hq)
  have e3 : ∑ x ∈ its.toFinset.erase q, g x = ∑ x ∈ its.toFinset.erase q, f x := by
    apply Finset.sum_congr rfl
    intro k hk
    rw [Finset.mem_erase, List.mem_toFinset] at hk
    exact h k hk.2 hk.1
  omega

/-- a step that changes one thread, the status of one iteration and at most its element -/
theorem inv_change {s : State R} (hinj : ∀ a ∈ its, ∀ b ∈ its, J.cell a = J.cell b → a = b)
    (h : Inv J its own mem0 s) {t : Nat} {th : Thread R} {mem : Nat → R} {q : Nat × Nat} (hq : q ∈ its) (ho : own q = t)
    (h1 : ∀ k ∈ th.todo, k ∈ (s.thr t).todo) (h2 : th.todo.Nodup)
    (h3 : ∀ k p, th.cur = some (k, p) → k = q ∧ k ∉ th.todo)
    (h4 : ∀ k, k ≠ q → th.status k = (s.thr t).status k)
    (h5 : Good J q (mem0 (J.cell q)) (mem (J.cell q)) (th.status q))
    (h6 : ∀ x, x ≠ J.cell q → mem x = s.mem x)
    (h7 : (th.status q).cost (J.len q) + 1 = ((s.thr t).status q).cost (J.len q)) :
    Inv J its own mem0 ⟨Function.update s.thr t th, mem⟩ ∧
    total J its own ⟨Function.update s.thr t th, mem⟩ + 1 = total J its own s := by
  have hst : ∀ k, k ≠ q → ((Function.update s.thr t th) (own k)).status k = (s.thr (own k)).status k := by
    intro k hk
    by_cases e : own k = t
    · rw [e, Function.update_self]; exact h4 k hk
    · rw [Function.update_of_ne e]
  refine ⟨⟨?_, ?_, ?_, ?_, ?_⟩, ?_⟩
  · intro t' k hk
    by_cases e : t' = t
    · subst e; simp only [Function.update_self] at hk; exact h.todo t' k (h1 k hk)
    · simp only [Function.update_of_ne e] at hk; exact h.todo t' k hk
  · intro t'
    by_cases e : t' = t
    · subst e; simp only [Function.update_self]; exact h2
    · simp only [Function.update_of_ne e]; exact h.nodup t'
  · intro t' k p hk
    by_cases e : t' = t
    · subst e
      simp only [Function.update_self] at hk ⊢
      obtain ⟨rfl, hn⟩ := h3 k p hk
      exact ⟨hq, ho, hn⟩
    · simp only [Function.update_of_ne e] at hk ⊢; exact h.cur t' k p hk
  · intro k hk
    by_cases e : k = q
    · subst e
      show Good J k _ _ ((Function.update s.thr t th (own k)).status k)
      rw [ho, Function.update_self]; exact h5
    · show Good J k _ _ ((Function.update s.thr t th (own k)).status k)
      rw [hst k e]
      have hne : J.cell k ≠ J.cell q := fun hc => e (hinj k hk q hq hc)
      show Good J k _ (mem (J.cell k)) _
      rw [h6 _ hne]
      exact h.good k hk
  · intro x hx
    show mem x = _
    rw [h6 x (fun e => hx q hq e.symm)]
    exact h.other x hx
  · refine sum_one hq ?_ ?_
    · intro k _ hk
      show (((Function.update s.thr t th) (own k)).status k).cost _ = _
      rw [hst k hk]
    · show (((Function.update s.thr t th) (own q)).status q).cost _ + 1 = _
      rw [ho, Function.update_self]; exact h7

theorem status_cur {th : Thread R} {q : Nat × Nat} {p : Phase R} (h : th.cur = some (q, p)) (hn : q ∉ th.todo) :
    th.status q = .running p := by
  rw [Thread.status, if_neg hn, h]; simp

theorem step_inv {s s' : State R} {t : Nat} (hinj : ∀ a ∈ its, ∀ b ∈ its, J.cell a = J.cell b → a = b)
    (h : Inv J its own mem0 s) (hs : step J s t = some s') :
    Inv J its own mem0 s' ∧ total J its own s' + 1 = total J its own s := by
  unfold step at hs
  split at hs
  · rename_i hc
    split at hs
    · exact absurd hs (by simp)
    · rename_i q rest ht
      cases hs
      obtain ⟨hq, ho⟩ := h.todo t q (by rw [ht]; simp)
      have hnd := h.nodup t
      rw [ht, List.nodup_cons] at hnd
      have hst : (s.thr t).status q = .waiting := by rw [Thread.status, if_pos (by rw [ht]; simp)]
      have hst' : (Thread.mk rest (some (q, Phase.adding 0 J.zero))).status q = .running (.adding 0 J.zero) :=
        status_cur rfl hnd.1
      have hg := h.good q hq
      rw [ho, hst] at hg
      refine inv_change hinj h hq ho ?_ hnd.2 ?_ ?_ ?_ (fun _ _ => rfl) ?_
      · intro k hk; rw [ht]; simp [hk]
      · intro k p hk
        simp only [Option.some.injEq, Prod.mk.injEq] at hk
        obtain ⟨rfl, -⟩ := hk
        exact ⟨rfl, hnd.1⟩
      · intro k hk
        simp only [Thread.status, ht, hc, List.mem_cons, hk, false_or, Ne.symm hk, if_false]
      · rw [hst']; exact ⟨hg, Nat.zero_le _, rfl⟩
      · rw [hst, hst']; simp only [Status.cost]; omega
  · rename_i q j av hc
    obtain ⟨hq, ho, hn⟩ := h.cur t q _ hc
    have hst := status_cur hc hn
    have hg := h.good q hq
    rw [ho, hst] at hg
    obtain ⟨g1, g2, g3⟩ := hg
    split at hs
    · rename_i hj
      cases hs
      have hst' : (Thread.mk (s.thr t).todo (some (q, Phase.adding (j + 1) (J.term q j av)))).status q =
          .running (.adding (j + 1) (J.term q j av)) := status_cur rfl hn
      refine inv_change hinj h hq ho (fun _ hk => hk) (h.nodup t) ?_ ?_ ?_ (fun _ _ => rfl) ?_
      · intro k p hk
        simp only [Option.some.injEq, Prod.mk.injEq] at hk
        obtain ⟨rfl, -⟩ := hk
        exact ⟨rfl, hn⟩
      · intro k hk
        simp only [Thread.status, hc, Ne.symm hk, if_false]
      · rw [hst']; exact ⟨g1, hj, by rw [g3]; rfl⟩
      · rw [hst, hst']; simp only [Status.cost]; omega
    · rename_i hj
      cases hs
      have hst' : (Thread.mk (s.thr t).todo (some (q, Phase.loaded av (s.mem (J.cell q))))).status q =
          .running (.loaded av (s.mem (J.cell q))) := status_cur rfl hn
      refine inv_change hinj h hq ho (fun _ hk => hk) (h.nodup t) ?_ ?_ ?_ (fun _ _ => rfl) ?_
      · intro k p hk
        simp only [Option.some.injEq, Prod.mk.injEq] at hk
        obtain ⟨rfl, -⟩ := hk
        exact ⟨rfl, hn⟩
      · intro k hk
        simp only [Thread.status, hc, Ne.symm hk, if_false]
      · have ej : j = J.len q := by omega
        rw [hst']; exact ⟨g1, by rw [g3, ej], g1⟩
      · rw [hst, hst']; simp only [Status.cost]; omega
  · rename_i q av old hc
    obtain ⟨hq, ho, hn⟩ := h.cur t q _ hc
    have hst := status_cur hc hn
    have hg := h.good q hq
    rw [ho, hst] at hg
    obtain ⟨g1, g2, g3⟩ := hg
    cases hs
    have hst' : (Thread.mk (s.thr t).todo (none : Option ((Nat × Nat) × Phase R))).status q = .done := by
      rw [Thread.status, if_neg hn]
    refine inv_change hinj h hq ho (fun _ hk => hk) (h.nodup t) ?_ ?_ ?_ ?_ ?_
    · intro k p hk; exact absurd hk (by simp)
    · intro k hk
      simp only [Thread.status, hc, Ne.symm hk, if_false]
    · rw [hst']
      show store s.mem (J.cell q) (J.fin q av old) (J.cell q) = _
      rw [store, if_pos rfl, g2, g3]
    · intro x hx; rw [store, if_neg hx]
    · rw [hst, hst']; rfl

theorem run_inv {s s' : State R} {n : Nat} (hinj : ∀ a ∈ its, ∀ b ∈ its, J.cell a = J.cell b → a = b)
    (hr : Run J n s s') : Inv J its own mem0 s →
    Inv J its own mem0 s' ∧ total J its own s' + n = total J its own s := by
  induction hr with
  | nil s => intro h; exact ⟨h, rfl⟩
  | cons t hs _ ih =>
    intro h
    obtain ⟨a, b⟩ := step_inv hinj h hs
    obtain ⟨c, d⟩ := ih a
    exact ⟨c, by omega⟩

theorem progress {s : State R} (h : ¬ Finished s) : ∃ t s', step J s t = some s' := by
  unfold Finished at h
  rw [not_forall] at h
  obtain ⟨t, ht⟩ := h
  refine ⟨t, ?_⟩
  unfold step
  cases hc : (s.thr t).cur with
  | some p =>
    obtain ⟨q, p⟩ := p
    cases p with
    | adding j av => dsimp only; split <;> exact ⟨_, rfl⟩
    | loaded av old => exact ⟨_, rfl⟩
  | none =>
    cases ht' : (s.thr t).todo with
    | nil => exact absurd ⟨ht', hc⟩ ht
    | cons q rest => exact ⟨_, rfl⟩

theorem finished_total {s : State R} (h : Inv J its own mem0 s) : Finished s ↔ total J its own s = 0 := by
  constructor
  · intro hf
    apply Finset.sum_eq_zero
    intro q _
    simp [Thread.status, Status.cost, (hf (own q)).1, (hf (own q)).2]
  · intro h0 t
    rw [total, Finset.sum_eq_zero_iff] at h0
    have h1 : (s.thr t).todo = [] := by
      cases ht : (s.thr t).todo with
      | nil => rfl
      | cons q rest =>
        obtain ⟨a, b⟩ := h.todo t q (by rw [ht]; simp)
        have := h0 q (List.mem_toFinset.2 a)
        simp [Thread.status, Status.cost, b, ht] at this
    refine ⟨h1, ?_⟩
    cases hc : (s.thr t).cur with
    | none => rfl
    | some p =>
      obtain ⟨q, p⟩ := p
      obtain ⟨a, b, c⟩ := h.cur t q p hc
      have := h0 q (List.mem_toFinset.2 a)
      rw [b, status_cur hc c] at this
      cases p <;> simp [Status.cost] at this

/-- Every loop whose iterations have different output elements: it always ends, without a data race, every element
holds what its iteration computes from the initial contents, and nothing else changed. -/
theorem loop_ends {s : State R} (hinj : ∀ a ∈ its, ∀ b ∈ its, J.cell a = J.cell b → a = b) (hs : Starts its s) :
    AlwaysEnds J s fun mem =>
      (∀ q ∈ its, mem (J.cell q) = J.fin q (partialSum J q (J.len q)) (s.mem (J.cell q))) ∧
      ∀ x, (∀ q ∈ its, J.cell q ≠ x) → mem x = s.mem x := by
  classical
  let own : Nat × Nat → Nat := fun q => if hq : q ∈ its then (hs.all q hq).choose else 0
  have hown : ∀ q ∈ its, q ∈ (s.thr (own q)).todo := by
    intro q hq
    simp only [own, dif_pos hq]
    exact (hs.all q hq).choose_spec
  have hinv : Inv J its own s.mem s := by
    refine ⟨?_, hs.once, ?_, ?_, fun _ _ => rfl⟩
    · intro t q hq
      have := hs.rows t q hq
      exact ⟨this, hs.disjoint _ _ q (hown q this) hq⟩
    · intro t q p hc; rw [hs.idle t] at hc; exact absurd hc (by simp)
    · intro q hq
      rw [Thread.status, if_pos (hown q hq)]
      rfl
  refine ⟨total J its own s, ?_⟩
  intro n s' hr
  obtain ⟨hi, hcost⟩ := run_inv hinj hr hinv
  have hfc := finished_total hi
  refine ⟨by omega, ?_, ?_, ?_⟩
  · intro hn
    apply progress
    rw [hfc]; omega
  · intro hn
    have hf : Finished s' := hfc.2 (by omega)
    refine ⟨hf, ?_, hi.other⟩
    intro q hq
    have := hi.good q hq
    rwa [show (s'.thr (own q)).status q = .done by
      rw [Thread.status, (hf (own q)).1, (hf (own q)).2]; simp] at this
  · intro t t' htt x hx hx'
    have key : ∀ t x, touching J s' t = some x → ∃ q p, (s'.thr t).cur = some (q, p) ∧ x = J.cell q := by
      intro t x hx
      unfold touching at hx
      split at hx
      · exact absurd hx (by simp)
      · rename_i q j av hc
        split at hx
        · exact absurd hx (by simp)
        · cases hx; exact ⟨q, _, hc, rfl⟩
      · rename_i q av old hc
        cases hx; exact ⟨q, _, hc, rfl⟩
    obtain ⟨q, p, c1, e1⟩ := key t x hx
    obtain ⟨q', p', c2, e2⟩ := key t' x hx'
    obtain ⟨a1, b1, -⟩ := hi.cur t q p c1
    obtain ⟨a2, b2, -⟩ := hi.cur t' q' p' c2
    have := hinj q a1 q' a2 (e1.symm.trans e2)
    subst this
    exact htt (b1.symm.trans b2)

theorem AlwaysEnds.mono {s : State R} {Q Q' : (Nat → R) → Prop} (h : AlwaysEnds J s Q)
    (hq : ∀ m, Q m → Q' m) : AlwaysEnds J s Q' := by
  obtain ⟨N, hN⟩ := h
  refine ⟨N, fun n s' hr => ?_⟩
  obtain ⟨a, b, c, d⟩ := hN n s' hr
  exact ⟨a, b, fun e => ⟨(c e).1, hq _ (c e).2⟩, d⟩

end Macis.OmpCell
