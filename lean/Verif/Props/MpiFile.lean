import Verif.Lemmas.MpiFile
import Verif.Props.SpIO
/-
C146: `write_dist_mm` under every schedule and at every crash point.
-/
namespace Macis
open Spec MpiFile
variable {R : Type}

theorem unlinesC_append (a b : List (List Char)) : unlinesC (a ++ b) = unlinesC a ++ unlinesC b := by
  simp [unlinesC]

theorem parts_text [Zero R] (io : NumIO R) (A : Nat → DistCsr R) (forced : Option Nat) (Q : Nat) : ∀ (P : Nat) (body : List (List Char)),
    distMmParts io A (match forced with | none => 0 | some f => f) P = some body →
    unlinesC body = (List.range P).flatMap fun r => (texts io Q A forced).diag r ++ (texts io Q A forced).off r := by
  intro P
  induction P with
  | zero => intro body h; simp [distMmParts] at h; subst h; rfl
  | succ P ih =>
    intro body h
    rw [distMmParts, Option.bind_eq_some_iff] at h
    obtain ⟨ls, h1, h2⟩ := h
    rw [Option.map_eq_some_iff] at h2
    obtain ⟨l, h2, rfl⟩ := h2
    rw [unlinesC_append, ih ls h1, List.range_succ, List.flatMap_append]
    congr 1
    rw [distMmPart, Option.map_eq_some_iff] at h2
    obtain ⟨D, hD, rfl⟩ := h2
    simp only [List.flatMap_cons, List.flatMap_nil, List.append_nil, texts, hD, unlinesC_append]
    cases (A P).offdiag <;> rfl

theorem final_text [Zero R] {io : NumIO R} {P : Nat} {A : Nat → DistCsr R} {forced : Option Nat} {text : List Char}
    (h : writeDistMm io P A forced = some text) : final (texts io P A forced) P = text := by
  unfold writeDistMm at h
  dsimp only at h
  rw [Option.map_eq_some_iff] at h
  obtain ⟨body, h1, rfl⟩ := h
  rw [unlinesC_append, parts_text io A forced P P body h1]
  rfl

/-- C146: `P` ranks call `write_dist_mm`.  Whatever order they run in, however the file system splits the writes and
whatever the MPI library buffers: no execution gets stuck, all end after the same number of steps; as soon as the
call has returned on any rank the file holds exactly the text of the serial description (`writeDistMm`, which C96
shows to be readable back); and at every moment, that is, wherever the job is killed, the file is either what it was
before the call or a prefix of that text. -/
theorem C146_dist_write_every_schedule [Zero R] (io : NumIO R) (P : Nat) (A : Nat → DistCsr R) (forced : Option Nat)
    (text old : List Char) (h : writeDistMm io P A forced = some text) :
    ∃ N, ∀ eager : Nat → Bool, ∀ n s, Spec.MpiFile.Run (texts io P A forced) P eager n (start old) s →
      n ≤ N ∧ (n < N → ∃ r s', step (texts io P A forced) P eager s r = some s') ∧
      (n = N → ∀ r < P, s.pc r = 13) ∧ (∀ r < P, s.pc r = 13 → s.file = text) ∧
      (s.file = old ∨ s.file <+: text) := by
  refine ⟨cost (texts io P A forced) P (start old), fun eager n s hr => ?_⟩
  obtain ⟨hi, hc⟩ := run_inv hr (inv_start (texts io P A forced) P old)
  have hf := final_text h
  refine ⟨by omega, ?_, ?_, ?_, ?_⟩
  · intro hn
    refine progress eager hi ?_
    by_contra hcon
    have : ∀ r < P, s.pc r = 13 := by
      intro r hr'
      have := hi.le r hr'
      by_contra h13
      exact hcon ⟨r, hr', by omega⟩
    have := cost_pos (T := texts io P A forced) this
    omega
  · intro hn
    exact cost_zero hi (by omega)
  · intro r hr' h13
    have h12 := hi.bar2 r hr' (by omega)
    have hcont := hi.cont (by have := h12 0 (by omega); omega)
    have h0 : headLeft s = [] := by
      have := h12 0 (by omega)
      rw [headLeft, if_neg (by omega)]
    have hb : bodyLeft (texts io P A forced) P s = [] := by
      unfold bodyLeft
      rw [List.flatMap_eq_nil_iff]
      intro q hq
      have := h12 q (by simpa using hq)
      rw [blockLeft, if_neg (by omega), if_neg (by omega), if_neg (by omega)]
    rw [h0, hb, List.append_nil, List.append_nil] at hcont
    rw [hcont, hf]
  · by_cases h3 : 3 ≤ s.pc 0
    · right
      have := hi.cont h3
      rw [hf] at this
      exact ⟨_, this⟩
    · left
      exact hi.oldf (by omega)

/-- Two ranks, each with a diagonal entry; rank 1 also has an off-diagonal one. -/
def exRing : Nat → DistCsr Nat := fun r => ⟨2, r, 2, 2, [(0, 1), (1, 2)], some ⟨1, 1, 0, [0, 1], [0], [5 + r]⟩,
  if r = 1 then some ⟨1, 2, 0, [0, 1], [0], [7]⟩ else none⟩

/-- the hypothesis of C146 is met by it -/
example : ((writeDistMm digitIO 2 exRing (some 1)).map String.ofList)
    = some "%%MatrixMarket matrix coordinate real general\n2 2 3\n1 1 5\n2 2 6\n2 1 7\n" := by decide +kernel

/-- What C146 excludes: without waiting for the token (`pc` 6 always enabled) rank 1 could write before rank 0.  Here
is a state that satisfies everything but the token invariant, from which the two blocks come out swapped. -/
example : let T : Texts := ⟨[], fun r => if r = 0 then ['a'] else ['b'], fun _ => []⟩
    let s : State := ⟨fun r => if r = 0 then 6 else 7, fun r => if r = 0 then [] else ['b'], []⟩
    ∃ s', Spec.MpiFile.Run T 2 (fun _ => true) 3 s s' ∧ s'.file = ['b', 'a'] :=
  ⟨_, .cons (r := 1) rfl (.cons (r := 0) rfl (.cons (r := 0) rfl (.nil _))), rfl⟩

end Macis
