import Verif.Model.MpiWrap
import Mathlib.Tactic.Common
import Mathlib.Data.List.Pairwise
import Mathlib.Algebra.Order.Group.Nat
/-
C150: the chunking wrappers around MPI reductions and broadcasts.
-/
namespace Macis
open MpiWrap
variable {T : Type}

/-- the value of a reduction over the ranks `0..P-1` -/
def Spec.reduced (P : Nat) (op : T → T → T) (x : Nat → T) : T :=
  (List.range (P - 1)).foldl (fun acc q => op acc (x (q + 1))) (x 0)

/-- every position below `count` lies in exactly one stretch, no other position in any; no stretch is longer than an
`int` can say, none is empty -/
theorem stretches_cover (intmax count : Nat) (h : 0 < intmax) :
    (∀ i < count, ∃ s ∈ stretches intmax count, s.1 ≤ i ∧ i < s.1 + s.2) ∧
    (∀ s ∈ stretches intmax count, 0 < s.2 ∧ s.2 ≤ intmax ∧ s.1 + s.2 ≤ count) ∧
    (stretches intmax count).Pairwise fun s t => s.1 + s.2 ≤ t.1 := by
  have hdm := Nat.div_add_mod' count intmax
  have hml := Nat.mod_lt count h
  have hmem : ∀ s, s ∈ stretches intmax count ↔ (∃ k < count / intmax, s = (k * intmax, intmax)) ∨
      (count % intmax ≠ 0 ∧ s = (count / intmax * intmax, count % intmax)) := by
    intro s
    unfold stretches
    rw [List.mem_append, List.mem_map]
    constructor
    · rintro (⟨k, hk, rfl⟩ | hs)
      · exact .inl ⟨k, List.mem_range.1 hk, rfl⟩
      · split at hs
        · rename_i h0; exact .inr ⟨h0, List.mem_singleton.1 hs⟩
        · exact absurd hs (by simp)
    · rintro (⟨k, hk, rfl⟩ | ⟨h0, rfl⟩)
      · exact .inl ⟨k, List.mem_range.2 hk, rfl⟩
      · exact .inr (by simp [h0])
  have hend : ∀ k < count / intmax, k * intmax + intmax ≤ count / intmax * intmax := by
    intro k hk
    have := Nat.mul_le_mul_right intmax (Nat.succ_le_of_lt hk)
    rwa [Nat.succ_mul] at this
  refine ⟨?_, ?_, ?_⟩
  · intro i hi
    by_cases hc : i < count / intmax * intmax
    · have hk : i / intmax < count / intmax := (Nat.div_lt_iff_lt_mul h).2 hc
      refine ⟨(i / intmax * intmax, intmax), (hmem _).2 (.inl ⟨_, hk, rfl⟩), ?_⟩
      have := Nat.div_add_mod' i intmax
      have := Nat.mod_lt i h
      dsimp only
      omega
    · exact ⟨(count / intmax * intmax, count % intmax), (hmem _).2 (.inr ⟨by omega, rfl⟩), by dsimp only; omega⟩
  · intro s hs
    rcases (hmem s).1 hs with ⟨k, hk, rfl⟩ | ⟨h0, rfl⟩
    · have := hend k hk
      dsimp only
      omega
    · dsimp only; omega
  · unfold stretches
    rw [List.pairwise_append]
    refine ⟨?_, ?_, ?_⟩
    · rw [List.pairwise_map]
      refine List.Pairwise.imp_of_mem ?_ (List.pairwise_lt_range (n := count / intmax))
      intro a b _ _ hab
      have := Nat.mul_le_mul_right intmax (Nat.succ_le_of_lt hab)
      rw [Nat.succ_mul] at this
      exact this
    · split <;> simp
    · intro s hs t ht
      rw [List.mem_map] at hs
      obtain ⟨k, hk, rfl⟩ := hs
      split at ht
      · rw [List.mem_singleton] at ht
        subst ht
        exact hend k (List.mem_range.1 hk)
      · exact absurd ht (by simp)

theorem foldl_reduce (P : Nat) (op : T → T → T) (send : Nat → Nat → T) (L : List (Nat × Nat)) : ∀ recv r i,
    L.foldl (reduceStretch P op send) recv r i =
      if r < P ∧ ∃ s ∈ L, s.1 ≤ i ∧ i < s.1 + s.2 then Spec.reduced P op (fun q => send q i) else recv r i := by
  induction L with
  | nil => intro recv r i; simp
  | cons a L ih =>
    intro recv r i
    rw [List.foldl_cons, ih]
    by_cases hr : r < P
    · by_cases h1 : ∃ s ∈ L, s.1 ≤ i ∧ i < s.1 + s.2
      · have h2 : ∃ s ∈ a :: L, s.1 ≤ i ∧ i < s.1 + s.2 := by
          obtain ⟨s, hs, hh⟩ := h1; exact ⟨s, by simp [hs], hh⟩
        rw [if_pos ⟨hr, h1⟩, if_pos ⟨hr, h2⟩]
      · rw [if_neg (fun h => h1 h.2)]
        unfold reduceStretch
        by_cases h3 : a.1 ≤ i ∧ i < a.1 + a.2
        · rw [if_pos ⟨hr, h3⟩, if_pos ⟨hr, a, by simp, h3⟩]; rfl
        · rw [if_neg (fun h => h3 h.2), if_neg]
          rintro ⟨-, s, hs, hh⟩
          rcases List.mem_cons.1 hs with rfl | hs
          · exact h3 hh
          · exact h1 ⟨s, hs, hh⟩
    · rw [if_neg (fun h => hr h.1), if_neg (fun h => hr h.1)]
      unfold reduceStretch
      rw [if_neg (fun h => hr h.1)]

theorem foldl_reduce_inplace (P : Nat) (hP : 0 < P) (op : T → T → T) (L : List (Nat × Nat))
    (hd : L.Pairwise fun s t => s.1 + s.2 ≤ t.1) : ∀ (b : Nat → Nat → T) r i,
    L.foldl (fun b s => reduceStretch P op b b s) b r i =
      if r < P ∧ ∃ s ∈ L, s.1 ≤ i ∧ i < s.1 + s.2 then Spec.reduced P op (fun q => b q i) else b r i := by
  induction L with
  | nil => intro b r i; simp
  | cons a L ih =>
    intro b r i
    obtain ⟨ha, hd⟩ := List.pairwise_cons.1 hd
    rw [List.foldl_cons, ih hd]
    by_cases h3 : a.1 ≤ i ∧ i < a.1 + a.2
    · have h1 : ¬ ∃ s ∈ L, s.1 ≤ i ∧ i < s.1 + s.2 := by
        rintro ⟨s, hs, hh⟩
        have := ha s hs
        omega
      rw [if_neg (fun h => h1 h.2)]
      unfold reduceStretch
      by_cases hr : r < P
      · rw [if_pos ⟨hr, h3⟩, if_pos ⟨hr, a, by simp, h3⟩]; rfl
      · rw [if_neg (fun h => hr h.1), if_neg (fun h => hr h.1)]
    · have e : ∀ q, reduceStretch P op b b a q i = b q i := by
        intro q; unfold reduceStretch; rw [if_neg (fun h => h3 h.2)]
      have e2 : (∃ s ∈ a :: L, s.1 ≤ i ∧ i < s.1 + s.2) ↔ ∃ s ∈ L, s.1 ≤ i ∧ i < s.1 + s.2 := by
        constructor
        · rintro ⟨s, hs, hh⟩
          rcases List.mem_cons.1 hs with rfl | hs
          · exact absurd hh h3
          · exact ⟨s, hs, hh⟩
        · rintro ⟨s, hs, hh⟩; exact ⟨s, by simp [hs], hh⟩
      simp only [e, e2]

theorem foldl_bcast (P root : Nat) (L : List (Nat × Nat)) : ∀ (b : Nat → Nat → T) r i,
    L.foldl (bcastStretch P root) b r i =
      if r < P ∧ ∃ s ∈ L, s.1 ≤ i ∧ i < s.1 + s.2 then b root i else b r i := by
  induction L with
  | nil => intro b r i; simp
  | cons a L ih =>
    intro b r i
    rw [List.foldl_cons, ih]
    have e : ∀ q, bcastStretch P root b a q i = if q < P ∧ a.1 ≤ i ∧ i < a.1 + a.2 then b root i else b q i := fun q => rfl
    have hroot : bcastStretch P root b a root i = b root i := by rw [e]; split <;> rfl
    rw [hroot]
    by_cases hr : r < P
    · by_cases h1 : ∃ s ∈ L, s.1 ≤ i ∧ i < s.1 + s.2
      · have h2 : ∃ s ∈ a :: L, s.1 ≤ i ∧ i < s.1 + s.2 := by
          obtain ⟨s, hs, hh⟩ := h1; exact ⟨s, by simp [hs], hh⟩
        rw [if_pos ⟨hr, h1⟩, if_pos ⟨hr, h2⟩]
      · rw [if_neg (fun h => h1 h.2), e]
        by_cases h3 : a.1 ≤ i ∧ i < a.1 + a.2
        · rw [if_pos ⟨hr, h3⟩, if_pos ⟨hr, a, by simp, h3⟩]
        · rw [if_neg (fun h => h3 h.2), if_neg]
          rintro ⟨-, s, hs, hh⟩
          rcases List.mem_cons.1 hs with rfl | hs
          · exact h3 hh
          · exact h1 ⟨s, hs, hh⟩
    · rw [if_neg (fun h => hr h.1), if_neg (fun h => hr h.1), e, if_neg (fun h => hr h.1)]

theorem covered_iff (intmax count : Nat) (h : 0 < intmax) (i : Nat) :
    (∃ s ∈ stretches intmax count, s.1 ≤ i ∧ i < s.1 + s.2) ↔ i < count := by
  obtain ⟨h1, h2, -⟩ := stretches_cover intmax count h
  constructor
  · rintro ⟨s, hs, hh⟩
    have := h2 s hs
    omega
  · exact h1 i

/-- C150: for every communicator and every `count` below `INT_MAX`, the wrappers combine (broadcast) exactly the first
`count` elements, on every rank, and touch nothing else. -/
theorem C150_wrappers (P root count : Nat) (hP : 0 < P) (hc : count < 2147483647) (op : T → T → T) (send recv : Nat → Nat → T) :
    (∃ b, allreduce intMax P op send recv count = some b ∧ ∀ r < P, ∀ i,
      b r i = if i < count then Spec.reduced P op (fun q => send q i) else recv r i) ∧
    (∃ b, allreduceInPlace intMax P op recv count = some b ∧ ∀ r < P, ∀ i,
      b r i = if i < count then Spec.reduced P op (fun q => recv q i) else recv r i) ∧
    (∃ b, bcast intMax P root recv count = some b ∧ ∀ r < P, ∀ i,
      b r i = if i < count then recv root i else recv r i) := by
  have hi : 0 < intMax := by decide
  have hcalls : calls intMax count = some (stretches intMax count) := by
    unfold calls
    rw [if_neg (by rw [not_not]; exact Nat.div_eq_of_lt (by unfold intMax; omega))]
  refine ⟨⟨_, by rw [allreduce, hcalls]; rfl, ?_⟩, ⟨_, by rw [allreduceInPlace, hcalls]; rfl, ?_⟩,
    ⟨_, by rw [bcast, hcalls]; rfl, ?_⟩⟩
  · intro r hr i
    dsimp only
    rw [foldl_reduce]
    simp only [hr, true_and, covered_iff intMax count hi]
  · intro r hr i
    dsimp only
    rw [foldl_reduce_inplace P hP op _ (stretches_cover intMax count hi).2.2]
    simp only [hr, true_and, covered_iff intMax count hi]
  · intro r hr i
    dsimp only
    rw [foldl_bcast]
    simp only [hr, true_and, covered_iff intMax count hi]

/-- C150 (scalars): the reduction of one number gives every rank the combined value, whatever the result variable held. -/
theorem C150_scalar (P : Nat) (hP : 0 < P) (op : T → T → T) (d : Nat → T) (r0 : T) (r : Nat) (hr : r < P) :
    allreduceScalar intMax P op d r0 r = some (Spec.reduced P op d) := by
  obtain ⟨⟨b, hb, h⟩, -⟩ := C150_wrappers P 0 1 hP (by decide) op (fun q _ => d q) (fun _ _ => r0)
  unfold allreduceScalar
  rw [hb]
  simp [h r hr 0]

/-- C150 (long buffers): from `INT_MAX` elements on (including exactly `INT_MAX`, which one call could carry) all three
throw, before anything is communicated. -/
theorem C150_long_buffers (P root count : Nat) (hc : 2147483647 ≤ count) (op : T → T → T) (send recv : Nat → Nat → T) :
    allreduce intMax P op send recv count = none ∧ allreduceInPlace intMax P op recv count = none ∧
    bcast intMax P root recv count = none := by
  have : calls intMax count = none := by
    unfold calls
    rw [if_pos]
    have := Nat.div_pos (show intMax ≤ count by unfold intMax; omega) (by decide : 0 < intMax)
    omega
  simp [allreduce, allreduceInPlace, bcast, this]

/-- C150 (the untested branch): the cutting into stretches that the exception guards is right for every length: every
element is communicated exactly once, in stretches an `int` can count. -/
theorem C150_chunks (count : Nat) :
    (∀ i < count, ∃! s, s ∈ stretches intMax count ∧ s.1 ≤ i ∧ i < s.1 + s.2) ∧
    ∀ s ∈ stretches intMax count, 0 < s.2 ∧ s.2 ≤ intMax ∧ s.1 + s.2 ≤ count := by
  obtain ⟨h1, h2, h3⟩ := stretches_cover intMax count (by decide)
  refine ⟨?_, h2⟩
  intro i hi
  obtain ⟨s, hs, hh⟩ := h1 i hi
  refine ⟨s, ⟨hs, hh⟩, ?_⟩
  rintro t ⟨ht, hh'⟩
  by_contra hne
  have key : ∀ {a b : Nat × Nat}, a ∈ stretches intMax count → b ∈ stretches intMax count → a ≠ b →
      a.1 + a.2 ≤ b.1 ∨ b.1 + b.2 ≤ a.1 := by
    intro a b ha hb hab
    have hpw : (stretches intMax count).Pairwise fun s t : Nat × Nat => s.1 + s.2 ≤ t.1 ∨ t.1 + t.2 ≤ s.1 :=
      h3.imp fun h => Or.inl h
    haveI : Std.Symm fun s t : Nat × Nat => s.1 + s.2 ≤ t.1 ∨ t.1 + t.2 ≤ s.1 := ⟨fun _ _ h => h.symm⟩
    exact List.Pairwise.forall hpw ha hb hab
  rcases key ht hs hne with h | h <;> omega

example : ∃ b, allreduce intMax 3 (· + ·) (fun r i => 10 * r + i) (fun _ _ => 77) 5 = some b ∧ b 1 4 = 42 ∧ b 2 5 = 77 := by
  obtain ⟨⟨b, h1, h2⟩, -⟩ := C150_wrappers 3 0 5 (by decide) (by decide) (· + ·) (fun r i => 10 * r + i) (fun _ _ => 77)
  exact ⟨b, h1, by rw [h2 1 (by decide)]; decide, by rw [h2 2 (by decide)]; decide⟩

end Macis
