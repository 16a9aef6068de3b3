import Verif.Lemmas.MpiQuick
import Verif.Props.AsciSelect
/-
C147: `dist_quickselect` rank by rank, under every schedule.
-/
namespace Macis
open Spec Spec.Mpi Mpi

/-- C147: `P` ranks call `dist_quickselect` with any local ranges (empty ones included) and the same `k` between one
and the total number of elements.  Each decides by itself how to go on, from what it has received; each may partition
and select in its own way.  Whatever order they run in and whatever the MPI library buffers: no execution gets stuck,
all end after the same number of steps, every message fits the collective it arrives in, no access is out of range,
and every rank returns the same value: the k-th largest of all elements.  (`fuel` bounds the rounds of the loop; any
bound above the number of elements will do.) -/
theorem C147_quickselect_every_schedule {α : Type} [LinearOrder α] (P : Nat) (draw : Nat → Nat)
    {part : Nat → Nat → List α → List α} (hp : ∀ r i, Rearranges (part r i))
    {nth : Nat → Nat → List α → List α} (hn : ∀ r, NthElement (id : α → α) (nth r))
    (locals : Nat → List α) (k fuel : Nat) (h1 : 1 ≤ k) (h2 : k ≤ ((List.range P).map locals).flatten.length)
    (hf : ((List.range P).map locals).flatten.length < fuel) :
    ∃ v st, AlwaysEnds (qsWorld P draw part nth fuel locals k) st ∧
      IsKthLargest ((List.range P).map locals).flatten k v ∧
      ∀ r < P, (st r).out = some v ∧ (st r).err = false := by
  obtain ⟨st', hreach, hres⟩ : ∃ st', Reach (ranks P (fun r => qsProg P r draw (part r) (nth r) fuel)
        (fun r => qsStart (locals r) k)) (ranks P (fun _ => []) st') ∧
      ∀ r < P, (st' r).err = false ∧ ∃ v, (st' r).out = some v ∧
        IsKthLargest ((List.range P).map locals).flatten k v := by
    by_cases e1 : P = 1
    · subst e1
      have r1 := ranks_comps (μ := QsMsg α) 1 (fun r => [fun m : QsMem α =>
        { m with out := quickFinish (nth r) [m.rng] m.k }]) (fun _ => []) (fun r => qsStart (locals r) k)
      refine ⟨_, r1, ?_⟩
      · intro r hr
        have : r = 0 := by omega
        subst this
        simp only [Nat.lt_irrefl, Nat.zero_lt_one, if_true, runComps, List.foldl_cons, List.foldl_nil, qsStart]
        refine ⟨trivial, ?_⟩
        have := quickFinish_spec (hn 0) [locals 0] k h1 (by simpa using h2)
        simpa using this
    · have hP : 2 ≤ P := by
        rcases P with _ | _ | P
        · simp at h2; omega
        · exact absurd rfl e1
        · omega
      have := loop_reach P hP draw hp hn fuel 0 (fun r => qsStart (locals r) k) k (fun _ _ => rfl) (fun _ _ => rfl) h1 h2 hf
      simp only [qsProg, e1, if_false]
      exact this
  have hP : 0 < P := by
    rcases P with _ | P
    · simp at h2; omega
    · omega
  obtain ⟨-, v, -, hv⟩ := hres 0 hP
  refine ⟨v, st', ?_, hv, ?_⟩
  · obtain ⟨N, hN⟩ := hreach
    refine always_ends hN ?_ ?_
    · intro r; simp [ranks]
    · intro q; rfl
  · intro r hr
    obtain ⟨a, v', b, c⟩ := hres r hr
    rw [C30_kth_unique _ k v v' hv c]
    exact ⟨b, a⟩

/-- three ranks, one with nothing, elements repeated across ranks -/
example : ∃ st, AlwaysEnds (qsWorld 3 (fun i => 7 * i + 3) (fun _ _ => id)
      (fun _ _ => List.insertionSort fun x y => y ≤ x) 7 (fun r => if r = 0 then [3, 1] else if r = 1 then [] else [9, 3, 5, (2 : Int)]) 3) st ∧
    ∀ r < 3, (st r).out = some 3 ∧ (st r).err = false := by
  obtain ⟨v, st, h1, h2, h3⟩ := C147_quickselect_every_schedule 3 (fun i => 7 * i + 3) (part := fun _ _ => id)
    (fun _ _ l => List.Perm.refl l) (nth := fun _ _ => List.insertionSort fun x y => y ≤ x)
    (fun _ => exNth_spec id _ rfl) (fun r => if r = 0 then [3, 1] else if r = 1 then [] else [9, 3, 5, (2 : Int)]) 3 7
    (by decide) (by decide) (by decide)
  have : v = 3 := C30_kth_unique _ 3 v 3 h2 ⟨by decide, by decide, by decide⟩
  subst this
  exact ⟨st, h1, h3⟩

end Macis
