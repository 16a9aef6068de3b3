import Verif.Spec.MpiFile
import Mathlib.Algebra.BigOperators.Group.Finset.Basic
import Mathlib.Algebra.BigOperators.Group.List.Lemmas
import Mathlib.Tactic.SplitIfs
import Mathlib.Data.Nat.Find
namespace Macis.MpiFile
open Spec.MpiFile

/-- what rank `r` still has to write of its blocks -/
def blockLeft (T : Texts) (pc : Nat) (left : List Char) (r : Nat) : List Char :=
  if pc ≤ 6 then T.diag r ++ T.off r else if pc = 7 then left ++ T.off r else if pc = 8 then left else []

/-- what is still to be written of the header, once the file exists -/
def headLeft (s : State) : List Char := if s.pc 0 = 3 then s.left 0 else []

def bodyLeft (T : Texts) (P : Nat) (s : State) : List Char :=
  (List.range P).flatMap fun r => blockLeft T (s.pc r) (s.left r) r

def final (T : Texts) (P : Nat) : List Char := T.header ++ (List.range P).flatMap fun r => T.diag r ++ T.off r

/-- steps left for one rank -/
def costOf (T : Texts) (pc : Nat) (left : List Char) (r : Nat) : Nat :=
  (13 - pc) + (if pc ≤ 2 then (if r = 0 then T.header.length else 0) else if pc = 3 then left.length else 0)
    + (blockLeft T pc left r).length

def cost (T : Texts) (P : Nat) (s : State) : Nat := ∑ r ∈ Finset.range P, costOf T (s.pc r) (s.left r) r

structure Inv (T : Texts) (P : Nat) (old : List Char) (s : State) : Prop where
  le : ∀ r < P, s.pc r ≤ 13
  red : 2 ≤ s.pc 0 → ∀ q < P, 1 ≤ s.pc q
  bar1 : ∀ r < P, 6 ≤ s.pc r → ∀ q < P, 5 ≤ s.pc q
  tok : ∀ r, r + 1 < P → 7 ≤ s.pc (r + 1) → 10 ≤ s.pc r
  bar2 : ∀ r < P, 13 ≤ s.pc r → ∀ q < P, 12 ≤ s.pc q
  hdr : ∀ r < P, r ≠ 0 → s.pc r = 3 → s.left r = []
  oldf : s.pc 0 ≤ 2 → s.file = old
  cont : 3 ≤ s.pc 0 → s.file ++ (headLeft s ++ bodyLeft T P s) = final T P

/-- what holds when rank `r` moves on -/
structure Guard (P : Nat) (s : State) (r : Nat) : Prop where
  lt : s.pc r < 13
  red : s.pc r = 1 → r = 0 → ∀ q < P, 1 ≤ s.pc q
  bar1 : s.pc r = 5 → ∀ q < P, 5 ≤ s.pc q
  tok : s.pc r = 6 → r = 0 ∨ 10 ≤ s.pc (r - 1)
  bar2 : s.pc r = 12 → ∀ q < P, 12 ≤ s.pc q
  wr : s.pc r = 3 ∨ s.pc r = 7 ∨ s.pc r = 8 → s.left r = []

/-- the text a rank starts to write when it moves on from `pc` -/
def nextText (T : Texts) (pc r : Nat) : List Char :=
  if pc = 2 then (if r = 0 then T.header else []) else if pc = 6 then T.diag r else if pc = 7 then T.off r else []

theorem step_cases {T : Texts} {P : Nat} {eager : Nat → Bool} {s s' : State} {r : Nat}
    (h : step T P eager s r = some s') : r < P ∧
    ((Guard P s r ∧ s' = { s.go r (nextText T (s.pc r) r) with
        file := if s.pc r = 2 ∧ r = 0 then [] else s.file }) ∨
     (∃ c cs, (s.pc r = 3 ∨ s.pc r = 7 ∨ s.pc r = 8) ∧ s.left r = c :: cs ∧
        s' = { s with left := Function.update s.left r cs, file := s.file ++ [c] })) := by
  unfold step at h
  split at h
  · rename_i hr
    refine ⟨hr, ?_⟩
    have hw : ∀ n, (s.pc r = 3 ∨ s.pc r = 7 ∨ s.pc r = 8) → some (s.write r n) = some s' → n = nextText T (s.pc r) r →
        ((Guard P s r ∧ s' = { s.go r (nextText T (s.pc r) r) with
          file := if s.pc r = 2 ∧ r = 0 then [] else s.file }) ∨
        (∃ c cs, (s.pc r = 3 ∨ s.pc r = 7 ∨ s.pc r = 8) ∧ s.left r = c :: cs ∧
        s' = { s with left := Function.update s.left r cs, file := s.file ++ [c] })) := by
      intro n hp hs hn
      unfold State.write at hs
      split at hs
      · rename_i hl
        left
        refine ⟨⟨by omega, by omega, by omega, by omega, by omega, fun _ => hl⟩, ?_⟩
        rw [if_neg (by omega), ← hn]
        exact (Option.some.inj hs).symm
      · rename_i c cs hl
        right
        exact ⟨c, cs, hp, hl, (Option.some.inj hs).symm⟩
    have hg : ∀ n, Guard P s r → some (s.go r n) = some s' → s.pc r ≠ 2 ∨ r ≠ 0 → n = nextText T (s.pc r) r →
        ((Guard P s r ∧ s' = { s.go r (nextText T (s.pc r) r) with
          file := if s.pc r = 2 ∧ r = 0 then [] else s.file }) ∨
        (∃ c cs, (s.pc r = 3 ∨ s.pc r = 7 ∨ s.pc r = 8) ∧ s.left r = c :: cs ∧
        s' = { s with left := Function.update s.left r cs, file := s.file ++ [c] })) := by
      intro n g hs h2 hn
      left
      refine ⟨g, ?_⟩
      rw [if_neg (by omega), ← hn]
      exact (Option.some.inj hs).symm
    split at h
    · rename_i e; exact hg _ ⟨by omega, by omega, by omega, by omega, by omega, by omega⟩ h (by omega) (by simp [nextText, e])
    · rename_i e
      split at h
      · rename_i c
        refine hg _ ⟨by omega, fun _ h0 => ?_, by omega, by omega, by omega, by omega⟩ h (by omega) (by simp [nextText, e])
        rcases c with c | c
        · exact c.2
        · omega
      · simp at h
    · rename_i e
      split at h
      · rename_i h0
        left
        refine ⟨⟨by omega, by omega, by omega, by omega, by omega, by omega⟩, ?_⟩
        rw [if_pos ⟨e, h0⟩, ← Option.some.inj h]
        have : nextText T (s.pc r) r = T.header := by rw [nextText, if_pos e, if_pos h0]
        rw [this]
      · rename_i h0
        exact hg _ ⟨by omega, by omega, by omega, by omega, by omega, by omega⟩ h (by omega) (by simp [nextText, e, h0])
    · rename_i e; exact hw _ (by omega) h (by simp [nextText, e])
    · rename_i e; exact hg _ ⟨by omega, by omega, by omega, by omega, by omega, by omega⟩ h (by omega) (by simp [nextText, e])
    · rename_i e
      split at h
      · rename_i c
        exact hg _ ⟨by omega, by omega, fun _ => c, by omega, by omega, by omega⟩ h (by omega) (by simp [nextText, e])
      · simp at h
    · rename_i e
      split at h
      · rename_i c
        exact hg _ ⟨by omega, by omega, by omega, fun _ => c, by omega, by omega⟩ h (by omega) (by simp [nextText, e])
      · simp at h
    · rename_i e; exact hw _ (by omega) h (by simp [nextText, e])
    · rename_i e; exact hw _ (by omega) h (by simp [nextText, e])
    · rename_i e; exact hg _ ⟨by omega, by omega, by omega, by omega, by omega, by omega⟩ h (by omega) (by simp [nextText, e])
    · rename_i e
      split at h
      · exact hg _ ⟨by omega, by omega, by omega, by omega, by omega, by omega⟩ h (by omega) (by simp [nextText, e])
      · simp at h
    · rename_i e; exact hg _ ⟨by omega, by omega, by omega, by omega, by omega, by omega⟩ h (by omega) (by simp [nextText, e])
    · rename_i e
      split at h
      · rename_i c
        exact hg _ ⟨by omega, by omega, by omega, by omega, fun _ => c, by omega⟩ h (by omega) (by simp [nextText, e])
      · simp at h
    · simp at h
  · simp at h

theorem range_flatMap_split {α : Type} (f : Nat → List α) {r P : Nat} (h : r < P) :
    (List.range P).flatMap f = (List.range r).flatMap f ++ (f r ++ (List.range' (r + 1) (P - r - 1)).flatMap f) := by
  have : List.range P = List.range r ++ (r :: List.range' (r + 1) (P - r - 1)) := by
    rw [List.range_eq_range', List.range_eq_range', show P = r + (P - r - 1 + 1) by omega,
      ← List.range'_append_1, Nat.zero_add]
    congr 1
    rw [show r + (P - r - 1 + 1) - r - 1 = P - r - 1 by omega, List.range'_succ]
  rw [this, List.flatMap_append, List.flatMap_cons]

/-- every earlier rank has passed the token on -/
theorem Inv.earlier {T : Texts} {P : Nat} {old : List Char} {s : State} (h : Inv T P old s) {r : Nat} (hr : r < P)
    (h7 : 7 ≤ s.pc r) : ∀ q < r, 10 ≤ s.pc q := by
  have : ∀ k, ∀ q, q + k + 1 = r → 10 ≤ s.pc q := by
    intro k
    induction k with
    | zero => intro q hq; exact h.tok q (by omega) (by rw [show q + 1 = r by omega]; exact h7)
    | succ k ih =>
      intro q hq
      have := ih (q + 1) (by omega)
      exact h.tok q (by omega) (by omega)
  intro q hq
  exact this (r - q - 1) q (by omega)

theorem inv_start (T : Texts) (P : Nat) (old : List Char) : Inv T P old (start old) where
  le := by simp [start]
  red := by simp [start]
  bar1 := by simp [start]
  tok := by simp [start]
  bar2 := by simp [start]
  hdr := by simp [start]
  oldf := by simp [start]
  cont := by simp [start]

theorem blockLeft_go {T : Texts} {P : Nat} {s : State} {r : Nat} (g : Guard P s r) :
    blockLeft T (s.pc r + 1) (nextText T (s.pc r) r) r = blockLeft T (s.pc r) (s.left r) r := by
  have w := g.wr
  by_cases h6 : s.pc r < 6
  · rw [blockLeft, if_pos (by omega), blockLeft, if_pos (by omega)]
  by_cases e6 : s.pc r = 6
  · simp [blockLeft, nextText, e6]
  by_cases e7 : s.pc r = 7
  · simp [blockLeft, nextText, e7, w (by omega)]
  by_cases e8 : s.pc r = 8
  · simp [blockLeft, e8, w (by omega)]
  · have a : ¬ s.pc r + 1 ≤ 6 := by omega
    have b : ¬ s.pc r + 1 = 7 := by omega
    have c : ¬ s.pc r + 1 = 8 := by omega
    have d : ¬ s.pc r ≤ 6 := by omega
    simp only [blockLeft, if_neg a, if_neg b, if_neg c, if_neg d, if_neg e7, if_neg e8]

theorem inv_step {T : Texts} {P : Nat} {old : List Char} {eager : Nat → Bool} {s s' : State} {r : Nat}
    (hi : Inv T P old s) (h : step T P eager s r = some s') : Inv T P old s' := by
  obtain ⟨hr, ⟨g, rfl⟩ | ⟨c, cs, hp, hl, rfl⟩⟩ := step_cases h
  · have pc' : ∀ q, ({ s.go r (nextText T (s.pc r) r) with
        file := if s.pc r = 2 ∧ r = 0 then [] else s.file } : State).pc q = if q = r then s.pc r + 1 else s.pc q := by
      intro q
      simp only [State.go, Function.update_apply]
    have left' : ∀ q, ({ s.go r (nextText T (s.pc r) r) with
        file := if s.pc r = 2 ∧ r = 0 then [] else s.file } : State).left q
          = if q = r then nextText T (s.pc r) r else s.left q := by
      intro q
      simp only [State.go, Function.update_apply]
    set s' : State := { s.go r (nextText T (s.pc r) r) with file := if s.pc r = 2 ∧ r = 0 then [] else s.file } with hs'
    have mono : ∀ q, s.pc q ≤ s'.pc q := by
      intro q; rw [pc' q]; split
      · rename_i e; subst e; omega
      · exact le_rfl
    refine ⟨?_, ?_, ?_, ?_, ?_, ?_, ?_, ?_⟩
    · intro q hq
      rw [pc' q]; split
      · have := g.lt; omega
      · exact hi.le q hq
    · intro h2 q hq
      refine le_trans ?_ (mono q)
      rw [pc' 0] at h2
      split at h2
      · rename_i e
        by_cases e1 : s.pc r = 1
        · exact g.red e1 e.symm q hq
        · exact hi.red (by rw [e]; omega) q hq
      · exact hi.red h2 q hq
    · intro p hp h6 q hq
      refine le_trans ?_ (mono q)
      rw [pc' p] at h6
      split at h6
      · rename_i e
        by_cases e1 : s.pc r = 5
        · exact g.bar1 e1 q hq
        · exact hi.bar1 r hr (by omega) q hq
      · exact hi.bar1 p hp h6 q hq
    · intro p hp h7
      refine le_trans ?_ (mono p)
      rw [pc' (p + 1)] at h7
      split at h7
      · rename_i e
        by_cases e1 : s.pc r = 6
        · rcases g.tok e1 with h0 | h0
          · omega
          · rwa [← e, Nat.add_sub_cancel] at h0
        · exact hi.tok p hp (by rw [e]; omega)
      · exact hi.tok p hp h7
    · intro p hp h13 q hq
      refine le_trans ?_ (mono q)
      rw [pc' p] at h13
      split at h13
      · rename_i e
        by_cases e1 : s.pc r = 12
        · exact g.bar2 e1 q hq
        · exact hi.bar2 r hr (by omega) q hq
      · exact hi.bar2 p hp h13 q hq
    · intro p hp h0 h3
      rw [left' p]
      rw [pc' p] at h3
      split at h3
      · rename_i e
        subst e
        simp [nextText, show s.pc p = 2 by omega, h0]
      · rename_i e
        rw [if_neg e]
        exact hi.hdr p hp h0 h3
    · intro h2
      rw [pc' 0] at h2
      show (if s.pc r = 2 ∧ r = 0 then [] else s.file) = old
      split at h2
      · rename_i e
        rw [if_neg (by omega)]
        exact hi.oldf (by rw [e]; omega)
      · rename_i e
        rw [if_neg (by omega)]
        exact hi.oldf h2
    · intro h3
      have hb : bodyLeft T P s' = bodyLeft T P s := by
        unfold bodyLeft
        apply List.flatMap_congr
        intro q _
        rw [pc' q, left' q]
        by_cases e : q = r
        · subst e
          rw [if_pos rfl, if_pos rfl]
          exact blockLeft_go g
        · rw [if_neg e, if_neg e]
      rw [hb]
      show (if s.pc r = 2 ∧ r = 0 then [] else s.file) ++ _ = _
      by_cases e : s.pc r = 2 ∧ r = 0
      · rw [if_pos e]
        obtain ⟨e2, rfl⟩ := e
        have hh : headLeft s' = T.header := by
          unfold headLeft
          rw [pc' 0, left' 0]
          simp [e2, nextText]
        have hb2 : bodyLeft T P s = (List.range P).flatMap fun r => T.diag r ++ T.off r := by
          unfold bodyLeft
          apply List.flatMap_congr
          intro q hq
          have hq' : q < P := by simpa using hq
          have : s.pc q ≤ 6 := by
            by_contra hc
            have := hi.bar1 q hq' (by omega) 0 hr
            omega
          simp only [blockLeft, if_pos this]
        rw [hh, hb2]; rfl
      · rw [if_neg e]
        have h3' : 3 ≤ s.pc 0 := by
          rw [pc' 0] at h3
          split at h3
          · rename_i e0
            rw [e0]
            by_contra hc
            exact e ⟨by omega, e0.symm⟩
          · exact h3
        have hh : headLeft s' = headLeft s := by
          unfold headLeft
          rw [pc' 0, left' 0]
          by_cases e0 : 0 = r
          · rw [if_pos e0, if_pos e0, if_neg (by rw [← e0]; omega)]
            by_cases e3 : s.pc 0 = 3
            · rw [if_pos e3]
              have := g.wr (.inl (by rw [← e0]; exact e3))
              rw [e0]; exact this.symm
            · rw [if_neg e3]
          · rw [if_neg e0, if_neg e0]
        rw [hh]
        exact hi.cont h3'
  · refine ⟨hi.le, hi.red, hi.bar1, hi.tok, hi.bar2, ?_, ?_, ?_⟩
    · intro p hp' h0 h3
      show Function.update s.left r cs p = []
      have : s.left p = [] := hi.hdr p hp' h0 h3
      by_cases e : p = r
      · subst e; rw [hl] at this; simp at this
      · rw [Function.update_of_ne e]; exact this
    · intro h2
      exfalso
      have h2 : s.pc 0 ≤ 2 := h2
      rcases hp with hp | hp
      · by_cases e : r = 0
        · subst e; omega
        · have := hi.hdr r hr e hp
          rw [hl] at this; simp at this
      · have := hi.bar1 r hr (by omega) 0 (by omega)
        omega
    · intro h3
      have h3 : 3 ≤ s.pc 0 := h3
      have hc := hi.cont h3
      show (s.file ++ [c]) ++ _ = _
      rcases hp with hp | hp
      · have e : r = 0 := by
          by_contra e
          have := hi.hdr r hr e hp
          rw [hl] at this; simp at this
        subst e
        have hh : headLeft { s with left := Function.update s.left 0 cs, file := s.file ++ [c] } = cs := by
          simp [headLeft, hp]
        have hb : bodyLeft T P { s with left := Function.update s.left 0 cs, file := s.file ++ [c] } = bodyLeft T P s := by
          unfold bodyLeft
          apply List.flatMap_congr
          intro q _
          by_cases e : q = 0
          · subst e; simp [blockLeft, hp]
          · simp only [Function.update_of_ne e]
        rw [hh, hb, ← hc]
        simp [headLeft, hp, hl]
      · have h5 := hi.bar1 r hr (by omega)
        have ear := hi.earlier hr (by omega)
        have e0 : s.pc 0 ≠ 3 := by have := h5 0 (by omega); omega
        have hh : headLeft { s with left := Function.update s.left r cs, file := s.file ++ [c] } = [] := by
          simp [headLeft, e0]
        have hh' : headLeft s = [] := by simp [headLeft, e0]
        have pre : ∀ q < r, ∀ l, blockLeft T (s.pc q) l q = [] := by
          intro q hq l
          have := ear q hq
          rw [blockLeft, if_neg (by omega), if_neg (by omega), if_neg (by omega)]
        rw [hh, ← hc, hh', List.nil_append, List.nil_append]
        unfold bodyLeft
        rw [range_flatMap_split _ hr, range_flatMap_split _ hr]
        have z1 : ∀ L : Nat → List Char, (List.range r).flatMap (fun q => blockLeft T (s.pc q) (L q) q) = [] := by
          intro L
          rw [List.flatMap_eq_nil_iff]
          intro q hq
          exact pre q (by simpa using hq) _
        have z2 : (List.range' (r + 1) (P - r - 1)).flatMap
              (fun q => blockLeft T (s.pc q) (Function.update s.left r cs q) q)
            = (List.range' (r + 1) (P - r - 1)).flatMap fun q => blockLeft T (s.pc q) (s.left q) q := by
          apply List.flatMap_congr
          intro q hq
          have : q ≠ r := by
            rw [List.mem_range'_1] at hq; omega
          rw [Function.update_of_ne this]
        have z3 : blockLeft T (s.pc r) (s.left r) r = c :: blockLeft T (s.pc r) cs r := by
          rw [hl]
          rcases hp with hp | hp <;> simp [blockLeft, hp]
        dsimp only
        rw [z1, z1, z2, z3, Function.update_self]
        simp

theorem cost_step {T : Texts} {P : Nat} {old : List Char} {eager : Nat → Bool} {s s' : State} {r : Nat}
    (hi : Inv T P old s) (h : step T P eager s r = some s') : cost T P s = cost T P s' + 1 := by
  have key : ∀ s' : State, r < P → (∀ q, q ≠ r → s'.pc q = s.pc q ∧ s'.left q = s.left q) →
      costOf T (s.pc r) (s.left r) r = costOf T (s'.pc r) (s'.left r) r + 1 → cost T P s = cost T P s' + 1 := by
    intro s' hr hq hc
    unfold cost
    rw [← Finset.add_sum_erase _ _ (Finset.mem_range.2 hr), ← Finset.add_sum_erase _ _ (Finset.mem_range.2 hr), hc]
    have : ∑ x ∈ (Finset.range P).erase r, costOf T (s.pc x) (s.left x) x
        = ∑ x ∈ (Finset.range P).erase r, costOf T (s'.pc x) (s'.left x) x := by
      apply Finset.sum_congr rfl
      intro q hq'
      obtain ⟨a, b⟩ := hq q (Finset.ne_of_mem_erase hq')
      rw [a, b]
    omega
  obtain ⟨hr, ⟨g, rfl⟩ | ⟨c, cs, hp, hl, rfl⟩⟩ := step_cases h
  · refine key _ hr (fun q hq => by simp [State.go, hq]) ?_
    simp only [State.go, Function.update_self]
    have hb := blockLeft_go (T := T) g
    have hlt := g.lt
    unfold costOf
    rw [hb]
    by_cases e2 : s.pc r = 2
    · have e2' : ¬ s.pc r + 1 ≤ 2 := by omega
      have e2'' : s.pc r + 1 = 3 := by omega
      rw [if_neg e2', if_pos e2'', if_pos (show s.pc r ≤ 2 by omega), nextText, if_pos e2]
      by_cases h0 : r = 0
      · rw [if_pos h0, if_pos h0]; omega
      · rw [if_neg h0, if_neg h0, List.length_nil]; omega
    by_cases e3 : s.pc r = 3
    · simp only [e3, g.wr (.inl e3)]; simp; try omega
    · by_cases hlt2 : s.pc r < 2
      · rw [if_pos (show s.pc r ≤ 2 by omega), if_pos (show s.pc r + 1 ≤ 2 by omega)]; omega
      · rw [if_neg (show ¬ s.pc r ≤ 2 by omega), if_neg (show ¬ s.pc r + 1 ≤ 2 by omega), if_neg e3,
          if_neg (show ¬ s.pc r + 1 = 3 by omega)]; omega
  · refine key _ hr (fun q hq => by simp [hq]) ?_
    simp only [Function.update_self, hl]
    rcases hp with hp | hp | hp <;> simp [costOf, blockLeft, hp] <;> omega

/-- somebody can always go on -/
theorem progress {T : Texts} {P : Nat} {old : List Char} (eager : Nat → Bool) {s : State} (hi : Inv T P old s)
    (hn : ∃ r < P, s.pc r < 13) : ∃ r s', step T P eager s r = some s' := by
  have en : ∀ r < P, s.pc r ∈ [0, 2, 3, 4, 7, 8, 9, 11] → ∃ r s', step T P eager s r = some s' := by
    intro r hr hm
    refine ⟨r, ?_⟩
    simp only [List.mem_cons, List.not_mem_nil, or_false] at hm
    rcases hm with e | e | e | e | e | e | e | e
    · exact ⟨_, by simp only [step, if_pos hr, e]; rfl⟩
    · by_cases h0 : r = 0
      · exact ⟨_, by simp only [step, if_pos hr, e, if_pos h0]; rfl⟩
      · exact ⟨_, by simp only [step, if_pos hr, e, if_neg h0]; rfl⟩
    · exact ⟨_, by simp only [step, if_pos hr, e]; rfl⟩
    · exact ⟨_, by simp only [step, if_pos hr, e]; rfl⟩
    · exact ⟨_, by simp only [step, if_pos hr, e]; rfl⟩
    · exact ⟨_, by simp only [step, if_pos hr, e]; rfl⟩
    · exact ⟨_, by simp only [step, if_pos hr, e]; rfl⟩
    · exact ⟨_, by simp only [step, if_pos hr, e]; rfl⟩
  by_cases h1 : ∃ r < P, s.pc r ∈ [0, 2, 3, 4, 7, 8, 9, 11]
  · obtain ⟨r, hr, hm⟩ := h1
    exact en r hr hm
  have h1' : ∀ r < P, s.pc r = 1 ∨ s.pc r = 5 ∨ s.pc r = 6 ∨ s.pc r = 10 ∨ s.pc r = 12 ∨ s.pc r = 13 := by
    intro r hr
    have hle := hi.le r hr
    have : s.pc r ∉ [0, 2, 3, 4, 7, 8, 9, 11] := fun hm => h1 ⟨r, hr, hm⟩
    simp only [List.mem_cons, List.not_mem_nil, or_false, not_or] at this
    omega
  clear h1 en
  obtain ⟨r0, hr0, hlt0⟩ := hn
  have hP : 0 < P := by omega
  by_cases c1 : ∃ r < P, s.pc r = 1
  · obtain ⟨r, hr, e⟩ := c1
    by_cases z : s.pc 0 = 1
    · refine ⟨0, s.go 0 [], ?_⟩
      simp only [step, if_pos hP, z]
      rw [if_pos (.inl ⟨trivial, fun q hq => by have := h1' q hq; omega⟩)]
    · have := h1' 0 hP
      refine ⟨r, s.go r [], ?_⟩
      simp only [step, if_pos hr, e]
      rw [if_pos (.inr ⟨fun h0 => by subst h0; omega, .inr (by omega)⟩)]
  have c1' : ∀ r < P, s.pc r ≠ 1 := fun r hr e => c1 ⟨r, hr, e⟩
  by_cases c5 : ∃ r < P, s.pc r = 5
  · obtain ⟨r, hr, e⟩ := c5
    refine ⟨r, s.go r [], ?_⟩
    simp only [step, if_pos hr, e]
    rw [if_pos (fun q hq => by have := h1' q hq; have := c1' q hq; omega)]
  have c5' : ∀ r < P, s.pc r ≠ 5 := fun r hr e => c5 ⟨r, hr, e⟩
  by_cases c6 : ∃ r, r < P ∧ s.pc r = 6
  · obtain ⟨hr, e⟩ := Nat.find_spec c6
    have hm : ∀ q < Nat.find c6, ¬ (q < P ∧ s.pc q = 6) := fun q hq => Nat.find_min c6 hq
    set r := Nat.find c6
    refine ⟨r, s.go r (T.diag r), ?_⟩
    simp only [step, if_pos hr, e]
    rw [if_pos]
    by_cases h0 : r = 0
    · exact .inl h0
    · right
      have a := hm (r - 1) (by omega)
      have b := h1' (r - 1) (by omega)
      have d := c1' (r - 1) (by omega)
      have e := c5' (r - 1) (by omega)
      omega
  have c6' : ∀ r < P, s.pc r ≠ 6 := fun r hr e => c6 ⟨r, hr, e⟩
  by_cases c10 : ∃ r < P, s.pc r = 10
  · obtain ⟨r, hr, e⟩ := c10
    refine ⟨r, s.go r [], ?_⟩
    simp only [step, if_pos hr, e]
    rw [if_pos]
    by_cases hl : r = P - 1
    · exact .inl hl
    · right; right
      have a := h1' (r + 1) (by omega)
      have b := c1' (r + 1) (by omega)
      have c := c5' (r + 1) (by omega)
      have d := c6' (r + 1) (by omega)
      omega
  have c10' : ∀ r < P, s.pc r ≠ 10 := fun r hr e => c10 ⟨r, hr, e⟩
  refine ⟨r0, s.go r0 [], ?_⟩
  have hall : ∀ q < P, 12 ≤ s.pc q := by
    intro q hq
    have a := h1' q hq
    have b := c1' q hq
    have c := c5' q hq
    have d := c6' q hq
    have e := c10' q hq
    omega
  have e : s.pc r0 = 12 := by have := hall r0 hr0; omega
  simp only [step, if_pos hr0, e]
  rw [if_pos hall]

theorem run_inv {T : Texts} {P : Nat} {old : List Char} {eager : Nat → Bool} {n : Nat} {s s' : State}
    (h : Spec.MpiFile.Run T P eager n s s') (hi : Inv T P old s) : Inv T P old s' ∧ cost T P s = cost T P s' + n := by
  induction h with
  | nil s => exact ⟨hi, rfl⟩
  | cons h1 _ ih =>
    obtain ⟨a, b⟩ := ih (inv_step hi h1)
    exact ⟨a, by rw [cost_step hi h1, b]; omega⟩

theorem cost_zero {T : Texts} {P : Nat} {old : List Char} {s : State} (hi : Inv T P old s) (h : cost T P s = 0) :
    ∀ r < P, s.pc r = 13 := by
  intro r hr
  unfold cost at h
  rw [Finset.sum_eq_zero_iff] at h
  have := h r (Finset.mem_range.2 hr)
  unfold costOf at this
  have hle := hi.le r hr
  omega

theorem cost_pos {T : Texts} {P : Nat} {s : State} (h : ∀ r < P, s.pc r = 13) : cost T P s = 0 := by
  unfold cost
  apply Finset.sum_eq_zero
  intro r hr
  simp [costOf, h r (Finset.mem_range.1 hr), blockLeft]

end Macis.MpiFile
