import Verif.Spec.Omp
import Mathlib.Algebra.BigOperators.Group.Finset.Basic
import Mathlib.Algebra.Order.BigOperators.Group.Finset
/-! Parallel loops over rows: invariant, progress, termination. -/
namespace Macis.Omp
open Spec.Omp
variable {R : Type}

/-- elements of row `i` written so far, if the row has been begun -/
def prog (J : RowJob R) (own : Nat → Nat) (s : State R) (i : Nat) : Nat :=
  match (s.thr (own i)).cur with
  | some (i', j) => if i' = i then j else J.ext i
  | none => J.ext i

/-- steps still to be taken for row `i` -/
def cost (J : RowJob R) (own : Nat → Nat) (s : State R) (i : Nat) : Nat :=
  if i ∈ (s.thr (own i)).todo then J.ext i + 2
  else match (s.thr (own i)).cur with
    | some (i', j) => if i' = i then J.ext i - j + 1 else 0
    | none => 0

structure Inv (J : RowJob R) (m : Nat) (own : Nat → Nat) (Q : List Nat → Prop) (s : State R) (ind : Nat → List Nat) :
    Prop where
  todo : ∀ t, ∀ i ∈ (s.thr t).todo, i < m ∧ own i = t
  nodup : ∀ t, (s.thr t).todo.Nodup
  cur : ∀ t i j, (s.thr t).cur = some (i, j) →
    i < m ∧ own i = t ∧ i ∉ (s.thr t).todo ∧ j ≤ J.ext i ∧ (s.thr t).ind = ind i
  q : ∀ t, Q (s.thr t).ind
  used : ∀ i < m, i ∉ (s.thr (own i)).todo → ∃ prev, Q prev ∧ ind i = J.prepare i prev
  done : ∀ i < m, i ∉ (s.thr (own i)).todo → ∀ j < prog J own s i,
    s.ci (J.dst i + j) = J.col i (ind i) j ∧ s.nz (J.dst i + j) = J.val i (ind i) j

variable {J : RowJob R} {m : Nat} {own : Nat → Nat} {Q : List Nat → Prop}

theorem prog_le {s : State R} {ind : Nat → List Nat} (h : Inv J m own Q s ind) (i : Nat) : prog J own s i ≤ J.ext i := by
  unfold prog
  split
  · rename_i i' j hc
    split
    · rename_i e; subst e; exact (h.cur _ _ _ hc).2.2.2.1
    · exact le_rfl
  · exact le_rfl

/-- the rows do not overlap -/
def Disjoint (J : RowJob R) (m : Nat) : Prop :=
  ∀ i < m, ∀ i' < m, ∀ j < J.ext i, ∀ j' < J.ext i', J.dst i + j = J.dst i' + j' → i = i' ∧ j = j'

theorem sum_cost_one {f g : Nat → Nat} {i : Nat} (hi : i < m) (h : ∀ k < m, k ≠ i → g k = f k) (h1 : g i + 1 = f i) :
    (Finset.range m).sum g + 1 = (Finset.range m).sum f := by
  have e1 := Finset.add_sum_erase (Finset.range m) g (Finset.mem_range.2 hi)
  have e2 := Finset.add_sum_erase (Finset.range m) f (Finset.mem_range.2 hi)
  have e3 : ∑ x ∈ (Finset.range m).erase i, g x = ∑ x ∈ (Finset.range m).erase i, f x := by
    apply Finset.sum_congr rfl
    intro k hk
    rw [Finset.mem_erase, Finset.mem_range] at hk
    exact h k hk.2 hk.1
  have e4 : ∑ x ∈ Finset.range m, g x + 1 = ∑ x ∈ Finset.range m, f x := by omega
  exact e4

theorem step_inv {s s' : State R} {t : Nat} {ind : Nat → List Nat} (hd : Disjoint J m)
    (hQ : ∀ i < m, ∀ l, Q l → Q (J.prepare i l)) (h : Inv J m own Q s ind) (hs : step J s t = some s') :
    (∃ ind', Inv J m own Q s' ind') ∧
    (Finset.range m).sum (cost J own s') + 1 = (Finset.range m).sum (cost J own s) := by
  unfold step at hs
  split at hs
  · rename_i hc
    split at hs
    · exact absurd hs (by simp)
    · rename_i i rest ht
      cases hs
      have hi := h.todo t i (by rw [ht]; simp)
      have hnd := h.nodup t
      rw [ht, List.nodup_cons] at hnd
      refine ⟨⟨Function.update ind i (J.prepare i (s.thr t).ind), ?_⟩, ?_⟩
      · refine ⟨?_, ?_, ?_, ?_, ?_, ?_⟩
        · intro t' k hk
          by_cases e : t' = t
          · subst e
            simp only [Function.update_self] at hk
            exact h.todo t' k (by rw [ht]; simp [hk])
          · simp only [Function.update_of_ne e] at hk
            exact h.todo t' k hk
        · intro t'
          by_cases e : t' = t
          · subst e; simp only [Function.update_self]; exact hnd.2
          · simp only [Function.update_of_ne e]; exact h.nodup t'
        · intro t' k j hk
          by_cases e : t' = t
          · subst e
            simp only [Function.update_self, Option.some.injEq, Prod.mk.injEq] at hk ⊢
            obtain ⟨rfl, rfl⟩ := hk
            exact ⟨hi.1, hi.2, hnd.1, Nat.zero_le _, by simp⟩
          · simp only [Function.update_of_ne e] at hk ⊢
            obtain ⟨a, b, c, d, f⟩ := h.cur t' k j hk
            refine ⟨a, b, c, d, ?_⟩
            have : k ≠ i := by rintro rfl; exact e (b.symm.trans hi.2)
            rw [Function.update_of_ne this, f]
        · intro t'
          by_cases e : t' = t
          · subst e; simp only [Function.update_self]; exact hQ i hi.1 _ (h.q t')
          · simp only [Function.update_of_ne e]; exact h.q t'
        · intro k hk hn
          by_cases e : k = i
          · subst e
            exact ⟨(s.thr t).ind, h.q t, by simp⟩
          · rw [Function.update_of_ne e]
            refine h.used k hk ?_
            by_cases e2 : own k = t
            · rw [e2] at hn ⊢
              simp only [Function.update_self] at hn
              rw [ht]; simp [e, hn]
            · simpa only [Function.update_of_ne e2] using hn
        · intro k hk hn j hj
          by_cases e : k = i
          · subst e
            simp only [prog, hi.2, Function.update_self, if_true] at hj
            omega
          · rw [Function.update_of_ne e]
            refine h.done k hk ?_ j ?_
            · by_cases e2 : own k = t
              · rw [e2] at hn ⊢
                simp only [Function.update_self] at hn
                rw [ht]; simp [e, hn]
              · simpa only [Function.update_of_ne e2] using hn
            · by_cases e2 : own k = t
              · simp only [prog, e2, Function.update_self, Ne.symm e, if_false] at hj
                simp only [prog, e2, hc]; exact hj
              · simpa only [prog, Function.update_of_ne e2] using hj
      · refine sum_cost_one hi.1 ?_ ?_
        · intro k hk e
          by_cases e2 : own k = t
          · simp only [cost, e2, Function.update_self, ht, hc, List.mem_cons, e, false_or, Ne.symm e, if_false]
          · simp only [cost, Function.update_of_ne e2]
        · simp only [cost, hi.2, Function.update_self, ht, hnd.1, List.mem_cons, true_or, if_true, if_false]
          omega
  · rename_i i j hc
    obtain ⟨hi, ho, hnt, hj, hind⟩ := h.cur t i j hc
    split at hs
    · rename_i hlt
      cases hs
      refine ⟨⟨ind, ?_⟩, ?_⟩
      · refine ⟨?_, ?_, ?_, ?_, ?_, ?_⟩
        · intro t' k hk
          by_cases e : t' = t
          · subst e; simp only [Function.update_self] at hk; exact h.todo t' k hk
          · simp only [Function.update_of_ne e] at hk; exact h.todo t' k hk
        · intro t'
          by_cases e : t' = t
          · subst e; simp only [Function.update_self]; exact h.nodup t'
          · simp only [Function.update_of_ne e]; exact h.nodup t'
        · intro t' k j' hk
          by_cases e : t' = t
          · subst e
            simp only [Function.update_self, Option.some.injEq, Prod.mk.injEq] at hk ⊢
            obtain ⟨rfl, rfl⟩ := hk
            exact ⟨hi, ho, hnt, hlt, hind⟩
          · simp only [Function.update_of_ne e] at hk ⊢
            exact h.cur t' k j' hk
        · intro t'
          by_cases e : t' = t
          · subst e; simp only [Function.update_self]; exact h.q t'
          · simp only [Function.update_of_ne e]; exact h.q t'
        · intro k hk hn
          refine h.used k hk ?_
          by_cases e2 : own k = t
          · rw [e2] at hn ⊢; simpa only [Function.update_self] using hn
          · simpa only [Function.update_of_ne e2] using hn
        · intro k hk hn j' hj'
          have hn' : k ∉ (s.thr (own k)).todo := by
            by_cases e2 : own k = t
            · rw [e2] at hn ⊢; simpa only [Function.update_self] using hn
            · simpa only [Function.update_of_ne e2] using hn
          by_cases e : k = i
          · subst e
            simp only [prog, ho, Function.update_self, if_true] at hj'
            by_cases e3 : j' = j
            · subst e3
              simp only [Function.update_self, hind, and_self]
            · have hne : J.dst k + j' ≠ J.dst k + j := by omega
              simp only [Function.update_of_ne hne]
              refine h.done k hk hn' j' ?_
              simp only [prog, ho, hc, if_true]; omega
          · have hj2 : j' < prog J own s k := by
              by_cases e2 : own k = t
              · simp only [prog, e2, Function.update_self, Ne.symm e, if_false] at hj'
                simp only [prog, e2, hc, Ne.symm e, if_false]; exact hj'
              · simpa only [prog, Function.update_of_ne e2] using hj'
            have hne : J.dst k + j' ≠ J.dst i + j := by
              intro hcon
              exact e (hd k hk i hi j' (lt_of_lt_of_le hj2 (prog_le h k)) j hlt hcon).1
            simp only [Function.update_of_ne hne]
            exact h.done k hk hn' j' hj2
      · refine sum_cost_one hi ?_ ?_
        · intro k hk e
          by_cases e2 : own k = t
          · simp only [cost, e2, Function.update_self, hc, Ne.symm e, if_false]
          · simp only [cost, Function.update_of_ne e2]
        · simp only [cost, ho, Function.update_self, hc, hnt, if_true, if_false]
          omega
    · rename_i hlt
      cases hs
      refine ⟨⟨ind, ?_⟩, ?_⟩
      · refine ⟨?_, ?_, ?_, ?_, ?_, ?_⟩
        · intro t' k hk
          by_cases e : t' = t
          · subst e; simp only [Function.update_self] at hk; exact h.todo t' k hk
          · simp only [Function.update_of_ne e] at hk; exact h.todo t' k hk
        · intro t'
          by_cases e : t' = t
          · subst e; simp only [Function.update_self]; exact h.nodup t'
          · simp only [Function.update_of_ne e]; exact h.nodup t'
        · intro t' k j' hk
          by_cases e : t' = t
          · subst e; simp only [Function.update_self] at hk; exact absurd hk (by simp)
          · simp only [Function.update_of_ne e] at hk ⊢
            exact h.cur t' k j' hk
        · intro t'
          by_cases e : t' = t
          · subst e; simp only [Function.update_self]; exact h.q t'
          · simp only [Function.update_of_ne e]; exact h.q t'
        · intro k hk hn
          refine h.used k hk ?_
          by_cases e2 : own k = t
          · rw [e2] at hn ⊢; simpa only [Function.update_self] using hn
          · simpa only [Function.update_of_ne e2] using hn
        · intro k hk hn j' hj'
          refine h.done k hk ?_ j' ?_
          · by_cases e2 : own k = t
            · rw [e2] at hn ⊢; simpa only [Function.update_self] using hn
            · simpa only [Function.update_of_ne e2] using hn
          · by_cases e2 : own k = t
            · simp only [prog, e2, Function.update_self] at hj'
              simp only [prog, e2, hc]
              split
              · rename_i e; subst e; omega
              · exact hj'
            · simpa only [prog, Function.update_of_ne e2] using hj'
      · refine sum_cost_one hi ?_ ?_
        · intro k hk e
          by_cases e2 : own k = t
          · simp only [cost, e2, Function.update_self, hc, Ne.symm e, if_false]
          · simp only [cost, Function.update_of_ne e2]
        · simp only [cost, ho, Function.update_self, hc, hnt, if_true, if_false]
          omega

theorem run_inv {s s' : State R} {n : Nat} (hd : Disjoint J m) (hQ : ∀ i < m, ∀ l, Q l → Q (J.prepare i l))
    (hr : Run J n s s') : (∃ ind, Inv J m own Q s ind) →
    (∃ ind, Inv J m own Q s' ind) ∧
    (Finset.range m).sum (cost J own s') + n = (Finset.range m).sum (cost J own s) := by
  induction hr with
  | nil s => intro h; exact ⟨h, rfl⟩
  | cons t hs _ ih =>
    rintro ⟨ind, h⟩
    obtain ⟨a, b⟩ := step_inv hd hQ h hs
    obtain ⟨c, d⟩ := ih a
    exact ⟨c, by omega⟩

theorem progress {s : State R} (h : ¬ Finished s) : ∃ t s', step J s t = some s' := by
  unfold Finished at h
  rw [not_forall] at h
  obtain ⟨t, ht⟩ := h
  refine ⟨t, ?_⟩
  unfold step
  cases hc : (s.thr t).cur with
  | some p =>
    obtain ⟨i, j⟩ := p
    dsimp only
    split <;> exact ⟨_, rfl⟩
  | none =>
    cases ht' : (s.thr t).todo with
    | nil => exact absurd ⟨ht', hc⟩ ht
    | cons i rest => exact ⟨_, rfl⟩

theorem finished_cost {s : State R} {ind : Nat → List Nat} (h : Inv J m own Q s ind) :
    Finished s ↔ (Finset.range m).sum (cost J own s) = 0 := by
  constructor
  · intro hf
    apply Finset.sum_eq_zero
    intro i _
    simp [cost, (hf (own i)).1, (hf (own i)).2]
  · intro h0 t
    rw [Finset.sum_eq_zero_iff] at h0
    have h1 : (s.thr t).todo = [] := by
      cases ht : (s.thr t).todo with
      | nil => rfl
      | cons i rest =>
        obtain ⟨a, b⟩ := h.todo t i (by rw [ht]; simp)
        have := h0 i (Finset.mem_range.2 a)
        simp [cost, b, ht] at this
    refine ⟨h1, ?_⟩
    cases hc : (s.thr t).cur with
    | none => rfl
    | some p =>
      obtain ⟨i, j⟩ := p
      obtain ⟨a, b, c, d, -⟩ := h.cur t i j hc
      have := h0 i (Finset.mem_range.2 a)
      simp [cost, b, c, hc] at this

/-- Every row job whose rows do not overlap: the loop always ends, without a data race, and every row was written
from an index array that the thread prepared for it out of an array satisfying `Q`. -/
theorem loop_ends {s : State R} (hd : Disjoint J m) (hQ : ∀ i < m, ∀ l, Q l → Q (J.prepare i l)) (h0 : Q [])
    (hs : Starts m s) :
    AlwaysEnds J s fun s' => ∃ ind : Nat → List Nat, (∀ i < m, ∃ prev, Q prev ∧ ind i = J.prepare i prev) ∧
      ∀ i < m, ∀ j < J.ext i, s'.ci (J.dst i + j) = J.col i (ind i) j ∧ s'.nz (J.dst i + j) = J.val i (ind i) j := by
  classical
  let own : Nat → Nat := fun i => if hi : i < m then (hs.all i hi).choose else 0
  have hown : ∀ i < m, i ∈ (s.thr (own i)).todo := by
    intro i hi
    simp only [own, dif_pos hi]
    exact (hs.all i hi).choose_spec
  have hinv : Inv J m own Q s (fun _ => []) := by
    refine ⟨?_, hs.once, ?_, ?_, ?_, ?_⟩
    · intro t i hi
      have := hs.rows t i hi
      exact ⟨this, hs.disjoint _ _ i (hown i this) hi⟩
    · intro t i j hc; rw [hs.idle t] at hc; exact absurd hc (by simp)
    · intro t; rw [hs.ind t]; exact h0
    · intro i hi hn; exact absurd (hown i hi) hn
    · intro i hi hn; exact absurd (hown i hi) hn
  refine ⟨(Finset.range m).sum (cost J own s), ?_⟩
  intro n s' hr
  obtain ⟨⟨ind, hi⟩, hcost⟩ := run_inv hd hQ hr ⟨_, hinv⟩
  have hfc := finished_cost hi
  refine ⟨by omega, ?_, ?_, ?_⟩
  · intro hn
    apply progress
    rw [hfc]; omega
  · intro hn
    have hf : Finished s' := hfc.2 (by omega)
    refine ⟨hf, ind, ?_, ?_⟩
    · intro i him; exact hi.used i him (by rw [(hf (own i)).1]; simp)
    · intro i him j hj
      refine hi.done i him (by rw [(hf (own i)).1]; simp) j ?_
      simpa only [prog, (hf (own i)).2] using hj
  · intro t t' htt x hx hx'
    have key : ∀ t, ∀ x, writing J s' t = some x → ∃ i j, (s'.thr t).cur = some (i, j) ∧ j < J.ext i ∧ x = J.dst i + j := by
      intro t x hx
      unfold writing at hx
      split at hx
      · exact absurd hx (by simp)
      · rename_i i j hc
        split at hx
        · rename_i hj; cases hx; exact ⟨i, j, hc, hj, rfl⟩
        · exact absurd hx (by simp)
    obtain ⟨i, j, c1, j1, e1⟩ := key t x hx
    obtain ⟨i', j', c2, j2, e2⟩ := key t' x hx'
    obtain ⟨a1, b1, -⟩ := hi.cur t i j c1
    obtain ⟨a2, b2, -⟩ := hi.cur t' i' j' c2
    have := (hd i a1 i' a2 j j1 j' j2 (by omega)).1
    subst this
    exact htt (b1.symm.trans b2)

end Macis.Omp
