import Verif.Lemmas.MpiPhase
import Verif.Lemmas.PSpmv
import Verif.Model.MpiSpmv
/-! The distributed product as a message-passing program: the execution in which all ranks proceed phase by phase. -/
namespace Macis.Mpi
open Spec Spec.Mpi
variable {σ μ R : Type}

/-- `P` ranks with the given programs and memories and no message under way -/
def ranks (P : Nat) (p : Nat → List (Instr σ μ)) (st : Nat → σ) : World σ μ :=
  ⟨fun r => if r < P then p r else [], st, fun _ => []⟩

theorem ranks_congr {P : Nat} {p p' : Nat → List (Instr σ μ)} {st : Nat → σ} (h : ∀ r < P, p r = p' r) :
    ranks P p st = ranks P p' st := by
  unfold ranks
  congr 1
  funext r
  by_cases hr : r < P
  · rw [if_pos hr, if_pos hr, h r hr]
  · rw [if_neg hr, if_neg hr]

theorem ranks_comps (P : Nat) (F : Nat → List (σ → σ)) (rest : Nat → List (Instr σ μ)) (st : Nat → σ) :
    Reach (ranks P (fun r => comps (F r) ++ rest r) st)
      (ranks P rest fun r => if r < P then runComps (F r) (st r) else st r) := by
  refine cast ?_ (all_comps (ranks P (fun r => comps (F r) ++ rest r) st) P F rest (by
    intro r hr; simp [ranks, hr]))
  congr 1
  simp only [ranks, World.mk.injEq, and_true]
  funext r
  by_cases hr : r < P <;> simp [hr]

theorem ranks_dyn (P : Nat) (f : Nat → σ → List (Instr σ μ)) (rest : Nat → List (Instr σ μ)) (st : Nat → σ) :
    Reach (ranks P (fun r => .dyn (f r) :: rest r) st) (ranks P (fun r => f r (st r) ++ rest r) st) := by
  refine cast ?_ (all_dyn (ranks P (fun r => .dyn (f r) :: rest r) st) P f rest (by
    intro r hr; simp [ranks, hr]))
  congr 1
  simp only [ranks, World.mk.injEq, and_true]
  funext r
  by_cases hr : r < P <;> simp [hr]

theorem ranks_superstep (P t : Nat) (dsts srcs D : Nat → List Nat) (m : Nat → Nat → σ → μ)
    (k : Nat → Nat → μ → σ → σ) (F G : Nat → List (σ → σ)) (rest : Nat → List (Instr σ μ)) (st : Nat → σ)
    (ndd : ∀ r < P, (dsts r).Nodup) (nds : ∀ r < P, (srcs r).Nodup)
    (hd : ∀ r < P, ∀ d ∈ dsts r, d < P) (hs : ∀ r < P, ∀ s ∈ srcs r, s < P)
    (hm : ∀ r < P, ∀ d < P, d ∈ dsts r ↔ r ∈ srcs d) :
    Reach (ranks P (fun r => isends t ((dsts r).map fun d => (d, m r d)) ++ (comps (F r) ++
      (recvs t ((srcs r).map fun s => (s, k r s)) ++ (comps (G r) ++ (wsends t (D r) ++ rest r))))) st)
     (ranks P rest fun r => if r < P then
        runComps (G r) ((srcs r).foldl (fun x s => k r s (m s r (st s)) x) (runComps (F r) (st r))) else st r) := by
  refine cast ?_ (superstep (ranks P (fun r => isends t ((dsts r).map fun d => (d, m r d)) ++ (comps (F r) ++
      (recvs t ((srcs r).map fun s => (s, k r s)) ++ (comps (G r) ++ (wsends t (D r) ++ rest r))))) st)
      P t dsts srcs D m k F G rest (by intro r hr; simp [ranks, hr]) (by intro s d; rfl) ndd nds hd hs hm)
  congr 1
  simp only [ranks, World.mk.injEq, and_true]
  funext r
  by_cases hr : r < P <;> simp [hr]

theorem foldl_putCounts (P : Nat) (c : Nat → List Nat) (L : List Nat) (h : ∀ s ∈ L, (c s).length = P) :
    ∀ m : SpmvMem R, L.foldl (fun x s => putCounts P s (.counts (c s)) x) m
      = { m with gathered := fun i => if i ∈ L then c i else m.gathered i } := by
  induction L with
  | nil => intro m; simp
  | cons a L ih =>
    intro m
    rw [List.foldl_cons, ih (fun s hs => h s (by simp [hs]))]
    simp only [putCounts, h a (by simp), bne_self_eq_false, Bool.or_false, SpmvMem.mk.injEq, and_true]
    funext i
    by_cases e : i ∈ L
    · simp [e]
    · by_cases e2 : i = a
      · subst e2; simp [e]
      · simp [e, e2]

theorem foldl_putIndices (n : Nat → Nat) (c : Nat → List Nat) (L : List Nat) (h : ∀ s ∈ L, (c s).length = n s) :
    ∀ m : SpmvMem R, L.foldl (fun x s => putIndices (n s) s (.indices (c s)) x) m
      = { m with sendBy := fun i => if i ∈ L then c i else m.sendBy i } := by
  induction L with
  | nil => intro m; simp
  | cons a L ih =>
    intro m
    rw [List.foldl_cons, ih (fun s hs => h s (by simp [hs]))]
    simp only [putIndices, h a (by simp), bne_self_eq_false, Bool.or_false, SpmvMem.mk.injEq, true_and, and_true]
    funext i
    by_cases e : i ∈ L
    · simp [e]
    · by_cases e2 : i = a
      · subst e2; simp [e]
      · simp [e, e2]

theorem foldl_putValues (c : Nat → List R) (L : List Nat) :
    ∀ m : SpmvMem R, (∀ s ∈ L, (c s).length = m.info.recvCounts.getD s 0) →
      L.foldl (fun x s => putValues s (.values (c s)) x) m
      = { m with recvPack := L.foldl (fun d s => writeAt d (m.info.recvOffsets.getD s 0) (c s)) m.recvPack } := by
  induction L with
  | nil => intro m _; simp
  | cons a L ih =>
    intro m h
    rw [List.foldl_cons, List.foldl_cons]
    have e : putValues a (.values (c a)) m
        = { m with recvPack := writeAt m.recvPack (m.info.recvOffsets.getD a 0) (c a) } := by
      simp only [putValues, h a (by simp), bne_self_eq_false, Bool.or_false]
    rw [e]
    exact ih _ (fun s hs => h s (by simp [hs]))

theorem foldl_filter_skip {α β : Type} (f : β → α → β) (p : α → Bool) (L : List α) (h : ∀ a ∈ L, p a = false → ∀ b, f b a = b) :
    ∀ b, (L.filter p).foldl f b = L.foldl f b := by
  induction L with
  | nil => intro b; rfl
  | cons a L ih =>
    intro b
    rw [List.filter_cons]
    cases hp : p a with
    | true => simp only [if_true, List.foldl_cons]; exact ih (fun x hx => h x (by simp [hx])) _
    | false =>
      simp only [Bool.false_eq_true, if_false, List.foldl_cons]
      rw [h a (by simp) hp]
      exact ih (fun x hx => h x (by simp [hx])) _

theorem writeAt_nil (l : List R) (p : Nat) : writeAt l p [] = l := by simp [writeAt]

section
variable {A : Nat → DistCsr R} {P N : Nat} {ext : List (Nat × Nat)}

theorem hpart (h : DistributedMatrix A P N ext) : ∀ q < P, RowPartition N (A q).size (A q).extents := by
  intro q hq; rw [h.size_eq q hq, h.extents_eq q hq]; exact h.partition

theorem recvByRank_length (h : DistributedMatrix A P N ext) : ∀ q < P, (recvByRank (A q)).length = P := by
  intro q hq; rw [recvByRank_eq _ (hpart h q hq)]; simp [h.size_eq q hq]

/-- no rank needs its own elements from elsewhere -/
theorem recvByRank_self (h : DistributedMatrix A P N ext) : ∀ d < P, (recvByRank (A d)).getD d [] = [] := by
  intro d hd
  have hb : ext[d]? = some ((A d).rowBounds d) := by
    unfold DistCsr.rowBounds
    rw [h.extents_eq d hd, List.getD_eq_getElem _ _ (by rw [h.partition.length_eq]; exact hd)]
    exact List.getElem?_eq_getElem _
  rw [List.getD_eq_getElem _ _ (by rw [recvByRank_length h d hd]; exact hd)]
  simp only [recvByRank_eq _ (hpart h d hd), List.getElem_map, List.getElem_range]
  rw [List.filter_eq_nil_iff]
  intro c hc
  unfold DistCsr.neededCols at hc
  split at hc
  · rename_i O hO
    rw [mem_stdSet] at hc
    obtain ⟨-, -, -, -, hno⟩ := h.offdiag_ok d hd _ _ hb O hO
    have := hno c hc
    simp only [decide_eq_true_eq]
    exact this
  · simp at hc

/-- the indices rank `q` is asked for -/
theorem sendBy_eq (h : DistributedMatrix A P N ext) {q : Nat} (_hq : q < P) : ∀ d < P,
    (if d ≠ q then (recvByRank (A d)).getD q [] else []) = (recvByRank (A d)).getD q [] := by
  intro d hd
  by_cases e : d = q
  · subst e; rw [recvByRank_self h d hd]; simp
  · rw [if_pos e]

theorem getD_map_length (l : List (List Nat)) (i : Nat) : (l.map List.length).getD i 0 = (l.getD i []).length := by
  rw [List.getD_eq_getElem?_getD, List.getD_eq_getElem?_getD, List.getElem?_map]
  cases l[i]? <;> rfl

theorem sendCounts_getD (h : DistributedMatrix A P N ext) {q : Nat} (hq : q < P) {d : Nat} (hd : d < P) :
    (spmvInfo A q).sendCounts.getD d 0 = ((recvByRank (A d)).getD q []).length := by
  unfold spmvInfo
  dsimp only
  rw [getD_map_length, h.size_eq q hq, List.getD_eq_getElem _ _ (by simpa using hd)]
  simp only [List.getElem_map, List.getElem_range]
  rw [sendBy_eq h hq d hd]

theorem recvCounts_getD (q d : Nat) :
    (spmvInfo A q).recvCounts.getD d 0 = ((recvByRank (A q)).getD d []).length := getD_map_length _ _

theorem sendOffsets_length (h : DistributedMatrix A P N ext) {q : Nat} (hq : q < P) :
    (spmvInfo A q).sendOffsets.length = P := by
  unfold spmvInfo
  dsimp only
  rw [exclusiveScan_eq]; simp [h.size_eq q hq]

theorem recvOffsets_length (h : DistributedMatrix A P N ext) {q : Nat} (hq : q < P) :
    (spmvInfo A q).recvOffsets.length = P := by
  unfold spmvInfo
  dsimp only
  rw [exclusiveScan_eq]; simp [recvByRank_length h q hq]

theorem spmvMessage_length [Zero R] (h : DistributedMatrix A P N ext) (V : Nat → Nat → R) {q d : Nat} (hq : q < P) (hd : d < P) :
    (spmvMessage (spmvInfo A) V q d).length = ((recvByRank (A d)).getD q []).length := by
  unfold spmvMessage spmvInfo
  dsimp only
  rw [h.size_eq q hq]
  set sendBy := (List.range P).map fun i =>
    if i ≠ q then (recvByRank (A i)).getD q [] else [] with hsb
  have hsl : sendBy.length = P := by simp [hsb]
  rw [exclusiveScan_getD _ (by simpa [hsl] using hd),
    List.getD_eq_getElem _ _ (by simpa [hsl] using hd), List.getElem_map,
    ← List.map_drop, ← List.map_take, ← List.map_drop, ← List.map_take,
    flatten_slice sendBy (by omega), List.length_map, List.length_map]
  have hd' : sendBy[d]'(by omega) = (recvByRank (A d)).getD q [] := by
    simp only [hsb, List.getElem_map, List.getElem_range]
    exact sendBy_eq h hq d hd
  rw [hd']

/-- `generate_spmv_comm_info`, all ranks together -/
theorem gen_reach (h : DistributedMatrix A P N ext) (rest : Nat → List (Instr (SpmvMem R) (SpmvMsg R)))
    (st : Nat → SpmvMem R) :
    ∃ st', Reach (ranks P (fun r => genProg (A r) r ++ rest r) st) (ranks P rest st') ∧
      (∀ r < P, (st' r).info = spmvInfo A r ∧ (st' r).V = (st r).V ∧ (st' r).AV = (st r).AV ∧
        (st' r).err = (st r).err) ∧ ∀ r, P ≤ r → st' r = st r := by
  set dynf : Nat → SpmvMem R → List (Instr (SpmvMem R) (SpmvMsg R)) := fun r m =>
    let srcs := (List.range P).filter fun i => decide (i ≠ r) && (m.gathered i).getD r 0 != 0
    let dsts := (List.range P).filter fun i => ((recvByRank (A r)).map List.length).getD i 0 != 0
    isends p2p (dsts.map fun i => (i, fun _ => .indices ((recvByRank (A r)).getD i []))) ++
    (recvs p2p (srcs.map fun i => (i, putIndices ((m.gathered i).getD r 0) i)) ++
    (comps [fun m =>
      let sendBy := (List.range P).map m.sendBy
      let sendCounts := sendBy.map List.length
      { m with info :=
        { sendIndices := sendBy.flatten.map fun i => i - (A r).localRowStart
          recvIndices := (recvByRank (A r)).flatten
          sendOffsets := exclusiveScan sendCounts
          recvOffsets := exclusiveScan ((recvByRank (A r)).map List.length)
          sendCounts := sendCounts
          recvCounts := (recvByRank (A r)).map List.length } }] ++
    wsends p2p dsts)) with hdyn
  have e0 : ranks P (fun r => genProg (A r) r ++ rest r) st
      = ranks P (fun r => comps [fun m : SpmvMem R => { m with sendBy := fun _ => [] }] ++
        (isends coll ((List.range P).map fun d => (d, fun _ => .counts ((recvByRank (A r)).map List.length))) ++
        (comps [] ++ (recvs coll ((List.range P).map fun s => (s, putCounts P s)) ++
        (comps [] ++ (wsends coll [] ++ (.dyn (dynf r) :: rest r))))))) st := by
    apply ranks_congr
    intro r hr
    simp only [genProg, h.size_eq r hr, comps, wsends, List.map_nil, List.nil_append, List.append_assoc,
      List.singleton_append, List.cons_append, List.map_cons, hdyn]
  rw [e0]
  have r1 := ranks_comps P (fun _ => [fun m : SpmvMem R => { m with sendBy := fun _ => [] }])
    (fun r => isends coll ((List.range P).map fun d => (d, fun _ => SpmvMsg.counts ((recvByRank (A r)).map List.length))) ++
        (comps [] ++ (recvs coll ((List.range P).map fun s => (s, putCounts P s)) ++
        (comps [] ++ (wsends coll [] ++ (.dyn (dynf r) :: rest r)))))) st
  set st1 : Nat → SpmvMem R := fun r => if r < P then
    runComps [fun m : SpmvMem R => { m with sendBy := fun _ => [] }] (st r) else st r with hst1
  have r2 := ranks_superstep P coll (fun _ => List.range P) (fun _ => List.range P) (fun _ => [])
    (fun r _ _ => SpmvMsg.counts ((recvByRank (A r)).map List.length)) (fun _ s => putCounts P s)
    (fun _ => []) (fun _ => []) (fun r => .dyn (dynf r) :: rest r) st1
    (fun _ _ => List.nodup_range) (fun _ _ => List.nodup_range) (fun _ _ d hd => by simpa using hd)
    (fun _ _ s hs => by simpa using hs) (fun r hr d hd => by simp [hr, hd])
  set st2 : Nat → SpmvMem R := fun r => if r < P then { st1 r with
      gathered := fun i => if i ∈ List.range P then (recvByRank (A i)).map List.length else (st1 r).gathered i }
    else st1 r with hst2
  have e2 : (fun r => if r < P then runComps [] ((List.range P).foldl
      (fun x s => putCounts P s (SpmvMsg.counts ((recvByRank (A s)).map List.length)) x) (runComps [] (st1 r))) else st1 r)
      = st2 := by
    funext r
    by_cases hr : r < P
    · simp only [if_pos hr, hst2, runComps, List.foldl_nil]
      exact foldl_putCounts P _ _ (by
        intro s hs
        rw [List.length_map, recvByRank_length h s (by simpa using hs)]) _
    · simp only [if_neg hr, hst2]
  rw [e2] at r2
  have r3 := ranks_dyn P dynf rest st2
  have hg : ∀ r < P, ∀ i < P, ((st2 r).gathered i).getD r 0 = ((recvByRank (A i)).getD r []).length := by
    intro r hr i hi
    simp only [hst2, if_pos hr, List.mem_range, if_pos hi]
    exact getD_map_length _ _
  set srcs : Nat → List Nat := fun r => (List.range P).filter fun i =>
    decide (i ≠ r) && ((st2 r).gathered i).getD r 0 != 0 with hsrcs
  set dsts : Nat → List Nat := fun r => (List.range P).filter fun i =>
    ((recvByRank (A r)).map List.length).getD i 0 != 0 with hdsts
  set fin : Nat → SpmvMem R → SpmvMem R := fun r m =>
      let sendBy := (List.range P).map m.sendBy
      let sendCounts := sendBy.map List.length
      { m with info :=
        { sendIndices := sendBy.flatten.map fun i => i - (A r).localRowStart
          recvIndices := (recvByRank (A r)).flatten
          sendOffsets := exclusiveScan sendCounts
          recvOffsets := exclusiveScan ((recvByRank (A r)).map List.length)
          sendCounts := sendCounts
          recvCounts := (recvByRank (A r)).map List.length } } with hfin
  have r4 := ranks_superstep P p2p dsts srcs dsts
    (fun r i _ => SpmvMsg.indices ((recvByRank (A r)).getD i []))
    (fun r i => putIndices (((st2 r).gathered i).getD r 0) i)
    (fun _ => []) (fun r => [fin r]) rest st2
    (fun _ _ => List.nodup_range.filter _) (fun _ _ => List.nodup_range.filter _)
    (fun r _ d hd => by rw [hdsts] at hd; simpa using (List.mem_filter.1 hd).1)
    (fun r _ d hd => by rw [hsrcs] at hd; simpa using (List.mem_filter.1 hd).1)
    (fun r hr d hd => by
      simp only [hdsts, hsrcs, List.mem_filter, List.mem_range, hr, hd, true_and]
      rw [hg d hd r hr, getD_map_length]
      by_cases e : r = d
      · subst e; rw [recvByRank_self h r hr]; simp
      · simp [e])
  have e3 : ranks P (fun r => dynf r (st2 r) ++ rest r) st2
      = ranks P (fun r => isends p2p ((dsts r).map fun i => (i, fun _ => SpmvMsg.indices ((recvByRank (A r)).getD i []))) ++
        (comps [] ++ (recvs p2p ((srcs r).map fun i => (i, putIndices (((st2 r).gathered i).getD r 0) i)) ++
        (comps [fin r] ++ (wsends p2p (dsts r) ++ rest r))))) st2 := by
    apply ranks_congr
    intro r hr
    simp only [hdyn, hdsts, hsrcs, hfin, comps, List.append_assoc, List.map_nil, List.nil_append]
  rw [e3] at r3
  refine ⟨_, r1.trans (r2.trans (r3.trans r4)), ?_, ?_⟩
  · intro r hr
    simp only [if_pos hr, runComps, List.foldl_cons, List.foldl_nil]
    rw [foldl_putIndices (fun i => ((st2 r).gathered i).getD r 0) (fun s => (recvByRank (A s)).getD r []) _ (by
      intro s hs
      have : s < P := by rw [hsrcs] at hs; simpa using (List.mem_filter.1 hs).1
      rw [hg r hr s this])]
    have hsb : (List.range P).map (fun i => if i ∈ srcs r then (recvByRank (A i)).getD r [] else (st2 r).sendBy i)
        = (List.range P).map fun i => if i ≠ r then (recvByRank (A i)).getD r [] else [] := by
      apply List.map_congr_left
      intro i hi
      have hi' : i < P := by simpa using hi
      rw [sendBy_eq h hr i hi']
      split
      · rfl
      · rename_i hn
        have e1 : (st2 r).sendBy i = [] := by
          simp only [hst2, if_pos hr, hst1, runComps, List.foldl_cons, List.foldl_nil]
        rw [e1]
        simp only [hsrcs, List.mem_filter, List.mem_range, hi', true_and, hg r hr i hi'] at hn
        by_cases e : i = r
        · subst e; exact (recvByRank_self h i hi').symm
        · simp [e] at hn; exact hn.symm
    refine ⟨?_, ?_, ?_, ?_⟩
    · simp only [hfin, hsb, spmvInfo, h.size_eq r hr]
    all_goals simp only [hfin, hst2, hst1, if_pos hr, runComps, List.foldl_cons, List.foldl_nil]
  · intro r hr
    simp only [if_neg (Nat.not_lt.2 hr), hst2, hst1]

/-- `pgespmv`, all ranks together -/
theorem spmv_reach [Semiring R] (h : DistributedMatrix A P N ext) (alpha beta : R) (garbage : Nat → Nat → R)
    (rest : Nat → List (Instr (SpmvMem R) (SpmvMsg R))) (st : Nat → SpmvMem R)
    (hinfo : ∀ r < P, (st r).info = spmvInfo A r) :
    ∃ st', Reach (ranks P (fun r => spmvProg (A r) alpha beta (garbage r) ++ rest r) st) (ranks P rest st') ∧
      (∀ r < P, (st' r).info = spmvInfo A r ∧ (st' r).V = (st r).V ∧
        (st' r).AV = pgespmv A (spmvInfo A) alpha (fun q => (st q).V) beta (st r).AV (garbage r) r ∧
        (st' r).err = (st r).err) ∧ ∀ r, P ≤ r → st' r = st r := by
  set f1 : SpmvMem R → SpmvMem R := fun m => { m with
    recvPack := List.replicate m.info.recvIndices.length 0, sendPack := m.info.sendIndices.map m.V } with hf1
  set F : Nat → SpmvMem R → SpmvMem R := fun r m => { m with AV := match (A r).diag with
        | some D => gespmbv 1 alpha D m.V (A r).n beta m.AV (A r).n
        | none => m.AV } with hF
  set G : Nat → SpmvMem R → SpmvMem R := fun r m => { m with AV := match (A r).offdiag with
        | some O => gespmbv 1 alpha O ((List.range m.info.recvIndices.length).foldl
            (fun mem k => store mem (m.info.recvIndices.getD k 0) (m.recvPack.getD k 0)) (garbage r)) (A r).n 1 m.AV (A r).n
        | none => m.AV } with hG
  set msg : Nat → Nat → SpmvMem R → SpmvMsg R := fun _ i m =>
    .values ((m.sendPack.drop (m.info.sendOffsets.getD i 0)).take (m.info.sendCounts.getD i 0)) with hmsg
  set dynf : Nat → SpmvMem R → List (Instr (SpmvMem R) (SpmvMsg R)) := fun r m =>
    let dsts := (List.range m.info.sendOffsets.length).filter fun i => m.info.sendCounts.getD i 0 != 0
    let srcs := (List.range m.info.recvOffsets.length).filter fun i => m.info.recvCounts.getD i 0 != 0
    isends p2p (dsts.map fun i => (i, msg r i)) ++ (comps [F r] ++
    (recvs p2p (srcs.map fun i => (i, putValues i)) ++ (comps [G r] ++ wsends p2p dsts))) with hdyn
  have e0 : ranks P (fun r => spmvProg (A r) alpha beta (garbage r) ++ rest r) st
      = ranks P (fun r => comps [f1] ++ (.dyn (dynf r) :: rest r)) st := by
    apply ranks_congr
    intro r hr
    simp only [spmvProg, List.append_assoc, List.singleton_append]
    rfl
  rw [e0]
  have r1 := ranks_comps P (fun _ => [f1]) (fun r => .dyn (dynf r) :: rest r) st
  set st1 : Nat → SpmvMem R := fun r => if r < P then runComps [f1] (st r) else st r with hst1
  have r2 := ranks_dyn P dynf rest st1
  set dsts : Nat → List Nat := fun r => (List.range P).filter fun i => (spmvInfo A r).sendCounts.getD i 0 != 0 with hdsts
  set srcs : Nat → List Nat := fun r => (List.range P).filter fun i => (spmvInfo A r).recvCounts.getD i 0 != 0 with hsrcs
  have hst1' : ∀ r < P, st1 r = SpmvMem.mk (st r).gathered (st r).sendBy (spmvInfo A r)
      ((spmvInfo A r).sendIndices.map (st r).V) (List.replicate (spmvInfo A r).recvIndices.length 0)
      (st r).V (st r).AV (st r).err := by
    intro r hr
    simp only [hst1, if_pos hr, runComps, List.foldl_cons, List.foldl_nil, hf1, hinfo r hr]
  have e2 : ranks P (fun r => dynf r (st1 r) ++ rest r) st1
      = ranks P (fun r => isends p2p ((dsts r).map fun i => (i, msg r i)) ++ (comps [F r] ++
        (recvs p2p ((srcs r).map fun i => (i, putValues i)) ++ (comps [G r] ++ (wsends p2p (dsts r) ++ rest r))))) st1 := by
    apply ranks_congr
    intro r hr
    simp only [hdyn, hst1' r hr, sendOffsets_length h hr, recvOffsets_length h hr, List.append_assoc, hdsts, hsrcs]
  rw [e2] at r2
  have r3 := ranks_superstep P p2p dsts srcs dsts msg (fun _ i => putValues i) (fun r => [F r]) (fun r => [G r]) rest st1
    (fun _ _ => List.nodup_range.filter _) (fun _ _ => List.nodup_range.filter _)
    (fun r _ d hd => by rw [hdsts] at hd; simpa using (List.mem_filter.1 hd).1)
    (fun r _ d hd => by rw [hsrcs] at hd; simpa using (List.mem_filter.1 hd).1)
    (fun r hr d hd => by
      simp only [hdsts, hsrcs, List.mem_filter, List.mem_range, hr, hd, true_and]
      rw [sendCounts_getD h hr hd, recvCounts_getD])
  refine ⟨_, r1.trans (r2.trans r3), ?_, ?_⟩
  · intro r hr
    have hm : ∀ q < P, msg q r (st1 q) = .values (spmvMessage (spmvInfo A) (fun q => (st q).V) q r) := by
      intro q hq
      simp only [hmsg, hst1' q hq, spmvMessage]
    simp only [if_pos hr, runComps, List.foldl_cons, List.foldl_nil]
    have e4 : (srcs r).foldl (fun x s => putValues s (msg s r (st1 s)) x) (F r (st1 r))
        = (srcs r).foldl (fun x s => putValues s (.values (spmvMessage (spmvInfo A) (fun q => (st q).V) s r)) x) (F r (st1 r)) := by
      apply List.foldl_ext
      intro a s hs
      have : s < P := by rw [hsrcs] at hs; simpa using (List.mem_filter.1 hs).1
      rw [hm s this]
    rw [e4, foldl_putValues _ _ _ (by
      intro s hs
      have hs' : s < P := by rw [hsrcs] at hs; simpa using (List.mem_filter.1 hs).1
      rw [spmvMessage_length h _ hs' hr]
      simp only [hF, hst1' r hr]
      rw [recvCounts_getD])]
    have hpack : (srcs r).foldl (fun d s => writeAt d ((spmvInfo A r).recvOffsets.getD s 0)
        (spmvMessage (spmvInfo A) (fun q => (st q).V) s r)) (List.replicate (spmvInfo A r).recvIndices.length 0)
        = spmvRecvPack (spmvInfo A) (fun q => (st q).V) r := by
      unfold spmvRecvPack writeRows
      rw [recvOffsets_length h hr, hsrcs]
      dsimp only
      rw [foldl_filter_skip _ _ _ (by
        intro s hs hz b
        have hs' : s < P := by simpa using hs
        have hz' : (spmvInfo A r).recvCounts.getD s 0 = 0 := by simpa using hz
        rw [recvCounts_getD] at hz'
        have : spmvMessage (spmvInfo A) (fun q => (st q).V) s r = [] := by
          apply List.length_eq_zero_iff.1
          rw [spmvMessage_length h _ hs' hr, hz']
        rw [this, writeAt_nil])]
      apply List.foldl_ext
      intro b s hs
      have hs' : s < P := by simpa using hs
      by_cases hz : (spmvInfo A r).recvCounts.getD s 0 = 0
      · have : spmvMessage (spmvInfo A) (fun q => (st q).V) s r = [] := by
          apply List.length_eq_zero_iff.1
          rw [spmvMessage_length h _ hs' hr, ← hz, recvCounts_getD]
        rw [this]; simp
      · rw [if_pos hz]
    refine ⟨?_, ?_, ?_, ?_⟩
    · simp only [hG, hF, hst1' r hr]
    · simp only [hG, hF, hst1' r hr]
    · simp only [hG, hF, hst1' r hr, hpack, pgespmv]
      rfl
    · simp only [hG, hF, hst1' r hr]
  · intro r hr
    simp only [if_neg (Nat.not_lt.2 hr), hst1]

end
end Macis.Mpi
