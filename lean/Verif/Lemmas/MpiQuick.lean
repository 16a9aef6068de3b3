import Verif.Lemmas.MpiSpmv
import Verif.Lemmas.AsciSelect
import Verif.Model.MpiQuick
/-! `dist_quickselect` rank by rank: the execution in which all ranks proceed phase by phase. -/
namespace Macis.Mpi
open Spec Spec.Mpi
variable {σ μ α : Type}

/-- everyone tells everyone -/
theorem ranks_gather (P t : Nat) (m : Nat → σ → μ) (k : Nat → μ → σ → σ) (rest : Nat → List (Instr σ μ)) (st : Nat → σ) :
    Reach (ranks P (fun r => isends t ((List.range P).map fun d => (d, m r)) ++
      (recvs t ((List.range P).map fun s => (s, k s)) ++ rest r)) st)
     (ranks P rest fun r => if r < P then (List.range P).foldl (fun x s => k s (m s (st s)) x) (st r) else st r) := by
  have := ranks_superstep P t (fun _ => List.range P) (fun _ => List.range P) (fun _ => [])
    (fun r _ => m r) (fun _ s => k s) (fun _ => []) (fun _ => []) rest st
    (fun _ _ => List.nodup_range) (fun _ _ => List.nodup_range) (fun _ _ d hd => by simpa using hd)
    (fun _ _ s hs => by simpa using hs) (fun r hr d hd => by simp [hr, hd])
  simpa only [comps, wsends, List.map_nil, List.nil_append, runComps, List.foldl_nil] using this

/-- one tells everyone else -/
theorem ranks_bcast (P t o : Nat) (ho : o < P) (m : σ → μ) (k : μ → σ → σ) (rest : Nat → List (Instr σ μ)) (st : Nat → σ) :
    Reach (ranks P (fun r => isends t ((if r = o then (List.range P).filter fun d => d ≠ r else []).map fun d => (d, m)) ++
      (recvs t ((if r = o then [] else [o]).map fun s => (s, k)) ++
      (wsends t (if r = o then (List.range P).filter fun d => d ≠ r else []) ++ rest r))) st)
     (ranks P rest fun r => if r < P then (if r = o then st r else k (m (st o)) (st r)) else st r) := by
  have := ranks_superstep P t (fun r => if r = o then (List.range P).filter fun d => d ≠ r else [])
    (fun r => if r = o then [] else [o]) (fun r => if r = o then (List.range P).filter fun d => d ≠ r else [])
    (fun _ _ => m) (fun _ _ => k) (fun _ => []) (fun _ => []) rest st
    (fun r _ => by
      split
      · exact List.nodup_range.filter _
      · exact List.nodup_nil)
    (fun r _ => by split <;> simp)
    (fun r _ d hd => by
      split at hd
      · simpa using (List.mem_filter.1 hd).1
      · simp at hd)
    (fun r _ s hs => by
      split at hs
      · simp at hs
      · simp only [List.mem_singleton] at hs; omega)
    (fun r hr d hd => by
      by_cases e1 : r = o <;> by_cases e2 : d = o
      · subst e1; subst e2; simp
      · subst e1; simp [e2, hd]
      · simp [e1, e2]
      · simp only [e1, e2, if_false]
        simp [e1])
  refine cast ?_ this
  congr 2
  funext r
  by_cases hr : r < P
  · simp only [hr, if_true, runComps, List.foldl_nil]
    by_cases e : r = o <;> simp [e]
  · simp [hr]

theorem foldl_putSize (c : Nat → Nat) (L : List Nat) : ∀ m : QsMem α,
    L.foldl (fun x s => putSize s (.size (c s)) x) m = { m with sizes := fun i => if i ∈ L then c i else m.sizes i } := by
  induction L with
  | nil => intro m; simp
  | cons a L ih =>
    intro m
    rw [List.foldl_cons, ih]
    simp only [putSize, QsMem.mk.injEq, true_and, and_true]
    funext i
    by_cases e : i ∈ L
    · simp [e]
    · by_cases e2 : i = a
      · subst e2; simp [e]
      · simp [e, e2]

theorem foldl_putParts (c : Nat → Nat × Nat × Nat) (L : List Nat) : ∀ m : QsMem α,
    L.foldl (fun x s => putParts s (.counts (c s).1 (c s).2.1 (c s).2.2) x) m
      = { m with counts := fun i => if i ∈ L then c i else m.counts i } := by
  induction L with
  | nil => intro m; simp
  | cons a L ih =>
    intro m
    rw [List.foldl_cons, ih]
    simp only [putParts, QsMem.mk.injEq, true_and, and_true]
    funext i
    by_cases e : i ∈ L
    · simp [e]
    · by_cases e2 : i = a
      · subst e2; simp [e]
      · simp [e, e2]

theorem foldl_putData (c : Nat → List α) (L : List Nat) : ∀ m : QsMem α, (∀ s ∈ L, (c s).length = m.sizes s) →
    L.foldl (fun x s => putData s (.data (c s)) x) m = { m with data := fun i => if i ∈ L then c i else m.data i } := by
  induction L with
  | nil => intro m _; simp
  | cons a L ih =>
    intro m h
    rw [List.foldl_cons]
    have e : putData a (.data (c a)) m = { m with data := Function.update m.data a (c a) } := by
      simp only [putData, h a (by simp), bne_self_eq_false, Bool.or_false]
    rw [e, ih { m with data := Function.update m.data a (c a) } (fun s hs => h s (by simp [hs]))]
    simp only [QsMem.mk.injEq, true_and, and_true]
    funext i
    by_cases e : i ∈ L
    · simp [e]
    · by_cases e2 : i = a
      · subst e2; simp [e]
      · simp [e, e2]

theorem gather_reach (P : Nat) (rest : Nat → List (Instr (QsMem α) (QsMsg α))) (st : Nat → QsMem α) :
    Reach (ranks P (fun r => qsGather P ++ rest r) st)
      (ranks P rest fun r => if r < P then
        { st r with sizes := fun i => if i < P then (st i).rng.length else (st r).sizes i } else st r) := by
  have := ranks_gather P qsColl (fun _ m => QsMsg.size m.rng.length) putSize rest st
  refine cast ?_ this
  congr 1
  · simp only [qsGather, List.append_assoc]
  · congr 1
    funext r
    by_cases hr : r < P
    · simp only [hr, if_true, foldl_putSize, List.mem_range]
    · simp [hr]

section
variable [LinearOrder α]

theorem finish_reach (P : Nat) {nth : Nat → Nat → List α → List α} (hn : ∀ r, NthElement (id : α → α) (nth r))
    (st : Nat → QsMem α) (k : Nat) (hk : ∀ r < P, (st r).k = k) (he : ∀ r < P, (st r).err = false)
    (h1 : 1 ≤ k) (h2 : k ≤ ((List.range P).map fun r => (st r).rng).flatten.length) :
    ∃ st', Reach (ranks P (fun r => qsFinish P (nth r)) st) (ranks P (fun _ => []) st') ∧
      ∀ r < P, (st' r).err = false ∧ ∃ v, (st' r).out = some v ∧
        IsKthLargest ((List.range P).map fun r => (st r).rng).flatten k v := by
  set st1 : Nat → QsMem α := fun r => if r < P then
        { st r with sizes := fun i => if i < P then (st i).rng.length else (st r).sizes i } else st r with hst1
  have r1 := gather_reach P (fun r => isends qsColl ((List.range P).map fun d => (d, fun m : QsMem α => QsMsg.data m.rng)) ++
    (recvs qsColl ((List.range P).map fun s => (s, putData s)) ++
     (comps [fun m : QsMem α => { m with out := quickFinish (nth r) ((List.range P).map m.data) m.k }] ++ []))) st
  have r2 := ranks_gather P qsColl (fun _ m => QsMsg.data m.rng) putData
    (fun r => comps [fun m : QsMem α => { m with out := quickFinish (nth r) ((List.range P).map m.data) m.k }] ++ []) st1
  set st2 : Nat → QsMem α := fun r => if r < P then
    { st1 r with data := fun i => if i < P then (st i).rng else (st1 r).data i } else st1 r with hst2
  have e2 : (fun r => if r < P then (List.range P).foldl (fun x s => putData s (QsMsg.data (st1 s).rng) x) (st1 r) else st1 r)
      = st2 := by
    funext r
    by_cases hr : r < P
    · simp only [hr, if_true, hst2]
      rw [foldl_putData (fun s => (st1 s).rng) _ _ (by
        intro s hs
        have hs' : s < P := by simpa using hs
        simp only [hst1, hr, hs', if_true])]
      simp only [List.mem_range, QsMem.mk.injEq, true_and, and_true]
      funext i
      by_cases hi : i < P
      · simp only [hi, if_true, hst1]
      · simp only [hi, if_false]
    · simp only [hr, if_false, hst2]
  rw [e2] at r2
  have r3 := ranks_comps (μ := QsMsg α) P (fun r => [fun m : QsMem α => { m with out := quickFinish (nth r) ((List.range P).map m.data) m.k }])
    (fun _ => []) st2
  have e0 : ranks P (fun r => qsFinish P (nth r)) st = ranks P (fun r => qsGather P ++
      (isends qsColl ((List.range P).map fun d => (d, fun m : QsMem α => QsMsg.data m.rng)) ++
    (recvs qsColl ((List.range P).map fun s => (s, putData s)) ++
     (comps [fun m : QsMem α => { m with out := quickFinish (nth r) ((List.range P).map m.data) m.k }] ++ [])))) st := by
    apply ranks_congr
    intro r _
    simp only [qsFinish, List.append_nil]
  rw [e0]
  refine ⟨_, r1.trans (r2.trans r3), ?_⟩
  · intro r hr
    have hd : (List.range P).map (st2 r).data = (List.range P).map fun r => (st r).rng := by
      apply List.map_congr_left
      intro i hi
      have hi' : i < P := by simpa using hi
      simp only [hst2, hr, hi', if_true]
    have hk2 : (st2 r).k = k := by simp only [hst2, hst1, hr, if_true]; exact hk r hr
    simp only [hr, if_true, runComps, List.foldl_cons, List.foldl_nil, hd, hk2]
    refine ⟨by simp only [hst2, hst1, hr, if_true]; exact he r hr, ?_⟩
    exact quickFinish_spec (hn r) _ k h1 h2

theorem pivotOwner_lt (sizes : List Nat) (i : Nat) (h : 0 < sizes.length) : pivotOwner (qsStarts sizes) i < sizes.length := by
  unfold pivotOwner
  have : (qsStarts sizes).findIdx (fun s => i < s) ≤ (qsStarts sizes).length := List.findIdx_le_length
  have e : (qsStarts sizes).length = sizes.length := by simp [qsStarts]
  omega

/-- one round up to the exchange of the partition sizes: all ranks have the same pivot and the same sizes -/
theorem round_reach (P : Nat) (draw : Nat → Nat) (part : Nat → Nat → List α → List α) (step : Nat)
    (rest : Nat → List (Instr (QsMem α) (QsMsg α))) (st : Nat → QsMem α) (he : ∀ r < P, (st r).err = false)
    (o idx : Nat) (starts : List Nat) (ho : o < P) (v : α)
    (hv : (st o).rng[idx - starts.getD o 0]? = some v) :
    ∃ st', Reach (ranks P (fun r =>
        comps (if r = o then [fun m : QsMem α =>
          { m with pivot := m.rng[idx - starts.getD r 0]?,
                   err := m.err || (m.rng[idx - starts.getD r 0]?).isNone }] else []) ++
        (qsBcast P o r ++
        (comps [fun m => { m with parts := match m.pivot with
            | some v => legPartition (part r step) id v m.rng
            | none => m.parts }] ++
        (isends qsColl ((List.range P).map fun d => (d, fun m =>
          .counts m.parts.1.length m.parts.2.1.length m.parts.2.2.length)) ++
        (recvs qsColl ((List.range P).map fun s => (s, putParts s)) ++ rest r))))) st) (ranks P rest st') ∧
      ∀ r < P, (st' r).k = (st r).k ∧ (st' r).err = false ∧ (st' r).pivot = some v ∧
        (st' r).parts = legPartition (part r step) id v (st r).rng ∧
        ∀ s < P, (st' r).counts s = ((legPartition (part s step) id v (st s).rng).1.length,
          (legPartition (part s step) id v (st s).rng).2.1.length,
          (legPartition (part s step) id v (st s).rng).2.2.length) := by
  have r3 := ranks_comps (μ := QsMsg α) P (fun r => if r = o then [fun m : QsMem α =>
          { m with pivot := m.rng[idx - starts.getD r 0]?,
                   err := m.err || (m.rng[idx - starts.getD r 0]?).isNone }] else [])
    (fun r => qsBcast P o r ++
        (comps [fun m => { m with parts := match m.pivot with
            | some v => legPartition (part r step) id v m.rng
            | none => m.parts }] ++
        (isends qsColl ((List.range P).map fun d => (d, fun m =>
          .counts m.parts.1.length m.parts.2.1.length m.parts.2.2.length)) ++
        (recvs qsColl ((List.range P).map fun s => (s, putParts s)) ++ rest r)))) st
  set st2 : Nat → QsMem α := fun r => if r < P then runComps (if r = o then [fun m : QsMem α =>
          { m with pivot := m.rng[idx - starts.getD r 0]?,
                   err := m.err || (m.rng[idx - starts.getD r 0]?).isNone }] else []) (st r) else st r with hst2
  have f2 : ∀ r < P, (st2 r).rng = (st r).rng ∧ (st2 r).k = (st r).k ∧ (st2 r).err = false ∧
      (r = o → (st2 r).pivot = some v) := by
    intro r hr
    simp only [hst2, hr, if_true]
    by_cases e : r = o
    · subst e
      simp only [if_true, runComps, List.foldl_cons, List.foldl_nil, hv, he r hr]
      simp
    · simp only [e, if_false, runComps, List.foldl_nil, he r hr]
      simp
  have r4 := ranks_bcast P qsColl o ho (fun m : QsMem α => QsMsg.pivot m.pivot) putPivot (fun r =>
        comps [fun m => { m with parts := match m.pivot with
            | some v => legPartition (part r step) id v m.rng
            | none => m.parts }] ++
        (isends qsColl ((List.range P).map fun d => (d, fun m =>
          .counts m.parts.1.length m.parts.2.1.length m.parts.2.2.length)) ++
        (recvs qsColl ((List.range P).map fun s => (s, putParts s)) ++ rest r))) st2
  set st3 : Nat → QsMem α := fun r => if r < P then
    (if r = o then st2 r else putPivot (QsMsg.pivot (st2 o).pivot) (st2 r)) else st2 r with hst3
  have f3 : ∀ r < P, (st3 r).rng = (st r).rng ∧ (st3 r).k = (st r).k ∧ (st3 r).err = false ∧
      (st3 r).pivot = some v := by
    intro r hr
    obtain ⟨a, b, c, d⟩ := f2 r hr
    simp only [hst3, hr, if_true]
    by_cases e : r = o
    · simp only [e, if_true]; rw [← e]; exact ⟨a, b, c, d e⟩
    · simp only [e, if_false, putPivot, (f2 o ho).2.2.2 rfl, c]
      exact ⟨a, b, by simp⟩
  have r5 := ranks_comps (μ := QsMsg α) P (fun r => [fun m : QsMem α => { m with parts := match m.pivot with
            | some v => legPartition (part r step) id v m.rng
            | none => m.parts }])
      (fun r => isends qsColl ((List.range P).map fun d => (d, fun m =>
          .counts m.parts.1.length m.parts.2.1.length m.parts.2.2.length)) ++
        (recvs qsColl ((List.range P).map fun s => (s, putParts s)) ++ rest r)) st3
  set st4 : Nat → QsMem α := fun r => if r < P then runComps [fun m : QsMem α => { m with parts := match m.pivot with
            | some v => legPartition (part r step) id v m.rng
            | none => m.parts }] (st3 r) else st3 r with hst4
  have f4 : ∀ r < P, (st4 r).k = (st r).k ∧ (st4 r).err = false ∧ (st4 r).pivot = some v ∧
      (st4 r).parts = legPartition (part r step) id v (st r).rng := by
    intro r hr
    obtain ⟨a, b, c, d⟩ := f3 r hr
    simp only [hst4, hr, if_true, runComps, List.foldl_cons, List.foldl_nil, d, a, b, c]
    simp
  have r6 := ranks_gather P qsColl (fun _ m => QsMsg.counts m.parts.1.length m.parts.2.1.length m.parts.2.2.length)
    putParts rest st4
  have e0 : ∀ r, qsBcast (α := α) P o r ++ (comps [fun m => { m with parts := match m.pivot with
            | some v => legPartition (part r step) id v m.rng
            | none => m.parts }] ++
        (isends qsColl ((List.range P).map fun d => (d, fun m =>
          .counts m.parts.1.length m.parts.2.1.length m.parts.2.2.length)) ++
        (recvs qsColl ((List.range P).map fun s => (s, putParts s)) ++ rest r))) =
      isends qsColl ((if r = o then (List.range P).filter fun d => d ≠ r else []).map fun d => (d, fun m => .pivot m.pivot)) ++
      (recvs qsColl ((if r = o then [] else [o]).map fun s => (s, putPivot)) ++
      (wsends qsColl (if r = o then (List.range P).filter fun d => d ≠ r else []) ++ (comps [fun m => { m with parts := match m.pivot with
            | some v => legPartition (part r step) id v m.rng
            | none => m.parts }] ++
        (isends qsColl ((List.range P).map fun d => (d, fun m =>
          .counts m.parts.1.length m.parts.2.1.length m.parts.2.2.length)) ++
        (recvs qsColl ((List.range P).map fun s => (s, putParts s)) ++ rest r))))) := by
    intro r
    simp only [qsBcast, List.append_assoc]
  simp only [e0] at r3 ⊢
  refine ⟨_, r3.trans (r4.trans (r5.trans r6)), ?_⟩
  intro r hr
  obtain ⟨a, b, c, d⟩ := f4 r hr
  simp only [hr, if_true]
  rw [foldl_putParts (fun s => ((st4 s).parts.1.length, (st4 s).parts.2.1.length, (st4 s).parts.2.2.length))]
  refine ⟨a, b, c, d, ?_⟩
  intro s hs
  simp only [List.mem_range, hs, if_true, (f4 s hs).2.2.2]

theorem filter_flatten_range (P : Nat) (f : Nat → List α) (g : Nat → List α) (q : α → Bool)
    (h : ∀ r < P, (g r).Perm ((f r).filter q)) :
    (((List.range P).map g).flatten).Perm ((((List.range P).map f).flatten).filter q) := by
  induction P with
  | zero => simp
  | succ P ih =>
    rw [List.range_succ, List.map_append, List.map_append, List.flatten_append, List.flatten_append, List.filter_append]
    refine (ih fun r hr => h r (by omega)).append ?_
    simpa using h P (by omega)

theorem length_flatten_range (P : Nat) (f : Nat → List α) :
    ((List.range P).map f).flatten.length = ((List.range P).map fun r => (f r).length).sum := by
  rw [List.length_flatten, List.map_map]; rfl

theorem loop_reach (P : Nat) (hP : 2 ≤ P) (draw : Nat → Nat) {part : Nat → Nat → List α → List α}
    (hp : ∀ r i, Rearranges (part r i)) {nth : Nat → Nat → List α → List α} (hn : ∀ r, NthElement (id : α → α) (nth r))
    (fuel : Nat) : ∀ (step : Nat) (st : Nat → QsMem α) (k : Nat), (∀ r < P, (st r).k = k) → (∀ r < P, (st r).err = false) →
    1 ≤ k → k ≤ ((List.range P).map fun r => (st r).rng).flatten.length →
    ((List.range P).map fun r => (st r).rng).flatten.length < fuel →
    ∃ st', Reach (ranks P (fun r => qsLoop P r draw (part r) (nth r) fuel step) st) (ranks P (fun _ => []) st') ∧
      ∀ r < P, (st' r).err = false ∧ ∃ v, (st' r).out = some v ∧
        IsKthLargest ((List.range P).map fun r => (st r).rng).flatten k v := by
  induction fuel with
  | zero => intro _ _ _ _ _ _ _ h; exact absurd h (Nat.not_lt_zero _)
  | succ fuel ih =>
    intro step st k hk he h1 h2 hf
    simp only [qsLoop]
    set f : Nat → QsMem α → List (Instr (QsMem α) (QsMsg α)) := fun r m =>
      if ((List.range P).map m.sizes).sum < P then qsFinish P (nth r)
      else
        comps (if r = pivotOwner (qsStarts ((List.range P).map m.sizes)) (draw step % (((List.range P).map m.sizes).sum - 1))
            then [fun m' =>
          { m' with pivot := m'.rng[draw step % (((List.range P).map m.sizes).sum - 1) - (qsStarts ((List.range P).map m.sizes)).getD r 0]?,
                     err := m'.err || (m'.rng[draw step % (((List.range P).map m.sizes).sum - 1) - (qsStarts ((List.range P).map m.sizes)).getD r 0]?).isNone }] else []) ++
        (qsBcast P (pivotOwner (qsStarts ((List.range P).map m.sizes)) (draw step % (((List.range P).map m.sizes).sum - 1))) r ++
        (comps [fun m => { m with parts := match m.pivot with
            | some v => legPartition (part r step) id v m.rng
            | none => m.parts }] ++
        (isends qsColl ((List.range P).map fun d => (d, fun m =>
          .counts m.parts.1.length m.parts.2.1.length m.parts.2.2.length)) ++
        (recvs qsColl ((List.range P).map fun s => (s, putParts s)) ++
        [.dyn fun m =>
          if m.k ≤ ((List.range P).map fun s => (m.counts s).1).sum then
            comps [fun m => { m with rng := m.parts.1 }] ++ qsLoop P r draw (part r) (nth r) fuel (step + 1)
          else if m.k ≤ ((List.range P).map fun s => (m.counts s).1).sum + ((List.range P).map fun s => (m.counts s).2.1).sum
            then comps [fun m => { m with out := m.pivot }]
          else
            comps [fun m' => { m' with rng := m'.parts.2.2, k := m'.k - (((List.range P).map fun s => (m.counts s).1).sum +
              ((List.range P).map fun s => (m.counts s).2.1).sum) }] ++
            qsLoop P r draw (part r) (nth r) fuel (step + 1)])))) with hfd
    set B : Nat → QsMem α → List (Instr (QsMem α) (QsMsg α)) := fun r m =>
          if m.k ≤ ((List.range P).map fun s => (m.counts s).1).sum then
            comps [fun m => { m with rng := m.parts.1 }] ++ qsLoop P r draw (part r) (nth r) fuel (step + 1)
          else if m.k ≤ ((List.range P).map fun s => (m.counts s).1).sum + ((List.range P).map fun s => (m.counts s).2.1).sum
            then comps [fun m => { m with out := m.pivot }]
          else
            comps [fun m' => { m' with rng := m'.parts.2.2, k := m'.k - (((List.range P).map fun s => (m.counts s).1).sum +
              ((List.range P).map fun s => (m.counts s).2.1).sum) }] ++
            qsLoop P r draw (part r) (nth r) fuel (step + 1) with hB
    have r1 := gather_reach P (fun r => [Instr.dyn (f r)]) st
    set st1 : Nat → QsMem α := fun r => if r < P then
        { st r with sizes := fun i => if i < P then (st i).rng.length else (st r).sizes i } else st r with hst1
    have r2 := ranks_dyn P f (fun _ => []) st1
    set sz := (List.range P).map fun r => (st r).rng.length with hsz
    have hs : ∀ r < P, (List.range P).map (st1 r).sizes = sz := by
      intro r hr
      apply List.map_congr_left
      intro i hi
      have hi' : i < P := by simpa using hi
      simp only [hst1, hr, hi', if_true]
    have hrng : ∀ r, (st1 r).rng = (st r).rng := by
      intro r; simp only [hst1]; split <;> rfl
    have hk1 : ∀ r < P, (st1 r).k = k := by
      intro r hr; simp only [hst1, hr, if_true]; exact hk r hr
    have he1 : ∀ r < P, (st1 r).err = false := by
      intro r hr; simp only [hst1, hr, if_true]; exact he r hr
    set L := ((List.range P).map fun r => (st r).rng).flatten with hL
    have hLlen : L.length = sz.sum := length_flatten_range P _
    have r12 := r1.trans r2
    by_cases ht : sz.sum < P
    · obtain ⟨st', h3, h4⟩ := finish_reach P hn st1 k hk1 he1 h1 (by simp only [hrng]; exact h2)
      refine ⟨st', ?_, ?_⟩
      · refine r12.trans (cast ?_ h3)
        congr 1
        apply ranks_congr
        intro r hr
        simp only [hfd, hs r hr, ht, if_true, List.append_nil]
      · simpa only [hrng] using h4
    obtain ⟨pv, hpv, hmem⟩ := pivot_exists ((List.range P).map fun r => (st r).rng) (draw step % (sz.sum - 1)) (by
      have e : ((List.range P).map fun r => (st r).rng).map List.length = sz := by rw [List.map_map]; rfl
      rw [e]
      have : draw step % (sz.sum - 1) < sz.sum - 1 := Nat.mod_lt _ (by omega)
      omega)
    have eS : ((List.range P).map fun r => (st r).rng).map List.length = sz := by rw [List.map_map]; rfl
    rw [eS] at hpv
    set o := pivotOwner (qsStarts sz) (draw step % (sz.sum - 1)) with hodef
    have ho : o < P := by
      have := pivotOwner_lt sz (draw step % (sz.sum - 1)) (by simp [hsz]; omega)
      simpa [hsz] using this
    rw [List.getD_eq_getElem _ _ (by simpa using ho)] at hpv
    simp only [List.getElem_map, List.getElem_range] at hpv
    obtain ⟨st5, r3, f5⟩ := round_reach P draw part step (fun r => [Instr.dyn (B r)]) st1 he1 o
      (draw step % (sz.sum - 1)) (qsStarts sz) ho pv (by rw [hrng]; exact hpv)
    have r123 := r12.trans (cast (by
      congr 1
      apply ranks_congr
      intro r hr
      simp only [hfd, hs r hr, ht, if_false, List.append_nil]
      rfl) r3)
    have r4 := r123.trans (ranks_dyn P B (fun _ => []) st5)
    simp only [hrng] at f5
    have hL1 := filter_flatten_range P (fun r => (st r).rng) (fun r => (legPartition (part r step) id pv (st r).rng).1)
      (fun x => decide (pv < x)) (fun r _ => (legPartition_spec (hp r step) id pv _).1)
    have hE1 := filter_flatten_range P (fun r => (st r).rng) (fun r => (legPartition (part r step) id pv (st r).rng).2.1)
      (fun x => decide (x = pv)) (fun r _ => (legPartition_spec (hp r step) id pv _).2.1)
    have hG1 := filter_flatten_range P (fun r => (st r).rng) (fun r => (legPartition (part r step) id pv (st r).rng).2.2)
      (fun x => decide (x < pv)) (fun r _ => (legPartition_spec (hp r step) id pv _).2.2)
    have eL : ∀ r < P, ((List.range P).map fun s => ((st5 r).counts s).1).sum = (L.filter fun x => decide (pv < x)).length := by
      intro r hr
      rw [← hL1.length_eq, length_flatten_range]
      congr 1
      apply List.map_congr_left
      intro s hs'
      rw [(f5 r hr).2.2.2.2 s (by simpa using hs')]
    have eE : ∀ r < P, ((List.range P).map fun s => ((st5 r).counts s).2.1).sum = (L.filter fun x => decide (x = pv)).length := by
      intro r hr
      rw [← hE1.length_eq, length_flatten_range]
      congr 1
      apply List.map_congr_left
      intro s hs'
      rw [(f5 r hr).2.2.2.2 s (by simpa using hs')]
    have hsplit := length_split L pv
    have hEpos : 0 < (L.filter fun x => decide (x = pv)).length :=
      List.length_pos_of_mem (List.mem_filter.2 ⟨hmem, by simp⟩)
    have hk5 : ∀ r < P, (st5 r).k = k := fun r hr => by rw [(f5 r hr).1, hk1 r hr]
    set nL := (L.filter fun x => decide (pv < x)).length with hnL
    set nE := (L.filter fun x => decide (x = pv)).length with hnE
    by_cases c1 : k ≤ nL
    · have r5 := ranks_comps (μ := QsMsg α) P (fun _ => [fun m : QsMem α => { m with rng := m.parts.1 }])
        (fun r => qsLoop P r draw (part r) (nth r) fuel (step + 1)) st5
      set st6 : Nat → QsMem α := fun r => if r < P then runComps [fun m : QsMem α => { m with rng := m.parts.1 }] (st5 r)
        else st5 r with hst6
      have hr6 : (List.range P).map (fun r => (st6 r).rng) =
          (List.range P).map fun r => (legPartition (part r step) id pv (st r).rng).1 := by
        apply List.map_congr_left
        intro r hr
        have hr' : r < P := by simpa using hr
        simp only [hst6, hr', if_true, runComps, List.foldl_cons, List.foldl_nil, (f5 r hr').2.2.2.1]
      obtain ⟨st', h6, h7⟩ := ih (step + 1) st6 k (by
          intro r hr
          simp only [hst6, hr, if_true, runComps, List.foldl_cons, List.foldl_nil]
          exact hk5 r hr) (by
          intro r hr
          simp only [hst6, hr, if_true, runComps, List.foldl_cons, List.foldl_nil]
          exact (f5 r hr).2.1) h1 (by rw [hr6, hL1.length_eq]; exact c1) (by rw [hr6, hL1.length_eq, ← hL]; omega)
      refine ⟨st', r4.trans (cast ?_ (r5.trans h6)), ?_⟩
      · congr 1
        apply ranks_congr
        intro r hr
        simp only [hB, eL r hr, hk5 r hr, c1, if_true, List.append_nil]
      · intro r hr
        obtain ⟨a, v, b, c⟩ := h7 r hr
        rw [hr6] at c
        exact ⟨a, v, b, isKth_greater (isKth_perm hL1 c)⟩
    · by_cases c2 : k ≤ nL + nE
      · have r5 := ranks_comps (μ := QsMsg α) P (fun _ => [fun m : QsMem α => { m with out := m.pivot }])
          (fun _ => []) st5
        set st6 : Nat → QsMem α := fun r => if r < P then runComps [fun m : QsMem α => { m with out := m.pivot }] (st5 r)
          else st5 r with hst6
        refine ⟨st6, r4.trans (cast ?_ r5), ?_⟩
        · congr 1
          apply ranks_congr
          intro r hr
          simp only [hB, eL r hr, eE r hr, hk5 r hr, c1, c2, if_true, if_false]
        · intro r hr
          simp only [hst6, hr, if_true, runComps, List.foldl_cons, List.foldl_nil]
          refine ⟨(f5 r hr).2.1, pv, (f5 r hr).2.2.1, hmem, by omega, ?_⟩
          rw [length_ge_split]; omega
      · have r5 := ranks_comps (μ := QsMsg α) P (fun _ => [fun m : QsMem α =>
            { m with rng := m.parts.2.2, k := m.k - (nL + nE) }])
          (fun r => qsLoop P r draw (part r) (nth r) fuel (step + 1)) st5
        set st6 : Nat → QsMem α := fun r => if r < P then runComps [fun m : QsMem α =>
            { m with rng := m.parts.2.2, k := m.k - (nL + nE) }] (st5 r) else st5 r with hst6
        have hr6 : (List.range P).map (fun r => (st6 r).rng) =
            (List.range P).map fun r => (legPartition (part r step) id pv (st r).rng).2.2 := by
          apply List.map_congr_left
          intro r hr
          have hr' : r < P := by simpa using hr
          simp only [hst6, hr', if_true, runComps, List.foldl_cons, List.foldl_nil, (f5 r hr').2.2.2.1]
        obtain ⟨st', h6, h7⟩ := ih (step + 1) st6 (k - (nL + nE)) (by
            intro r hr
            simp only [hst6, hr, if_true, runComps, List.foldl_cons, List.foldl_nil]
            rw [hk5 r hr]) (by
            intro r hr
            simp only [hst6, hr, if_true, runComps, List.foldl_cons, List.foldl_nil]
            exact (f5 r hr).2.1) (by omega) (by rw [hr6, hG1.length_eq, ← hL]; omega) (by rw [hr6, hG1.length_eq, ← hL]; omega)
        refine ⟨st', r4.trans (cast ?_ (r5.trans h6)), ?_⟩
        · congr 1
          apply ranks_congr
          intro r hr
          simp only [hB, eL r hr, eE r hr, hk5 r hr, c1, c2, if_false, List.append_nil]
        · intro r hr
          obtain ⟨a, v, b, c⟩ := h7 r hr
          rw [hr6] at c
          have := isKth_less (isKth_perm hG1 c)
          rw [← hnL, ← hnE, Nat.sub_add_cancel (by omega)] at this
          exact ⟨a, v, b, this⟩

end
end Macis.Mpi
