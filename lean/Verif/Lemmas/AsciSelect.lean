import Verif.Lemmas.AsciSort
namespace Macis
open Spec
variable {N : Nat} {R : Type} [AddCommGroup R] [LinearOrder R] [IsOrderedAddMonoid R]

/-- the candidates of the search: non-zero score, not in the core -/
theorem mem_searchCandidates {srt part : List (Contrib N R) → List (Contrib N R)}
    (hs : SortsBy (fun x y => bitsetLess x.state y.state) srt) (hp : Rearranges part)
    {cdets : List (BitVec N)} {C : List R} (hC : cdets.length ≤ C.length) {pairs : List (Contrib N R)}
    (hnd : (pairs.map (·.state)).Nodup) (x : Contrib N R) :
    x ∈ searchCandidates srt part cdets C pairs ↔
      ∃ p ∈ pairs, p.rv ≠ 0 ∧ p.state ∉ cdets ∧ x = ⟨p.state, -|p.rv|⟩ := by
  unfold searchCandidates
  dsimp only
  rw [List.mem_filter, (hp _).mem_iff]
  obtain ⟨-, k2, k3⟩ := keepLargest_spec hs
    ((pairs.map fun x => { x with rv := -|x.rv| }) ++ (cdets.zip C).map fun x => (⟨x.1, |x.2|⟩ : Contrib N R))
  generalize hl : ((pairs.map fun x => { x with rv := -|x.rv| }) ++
    (cdets.zip C).map fun x => (⟨x.1, |x.2|⟩ : Contrib N R)) = l at k2 k3 ⊢
  have hcd : ∀ s ∈ cdets, ∃ v : R, 0 ≤ v ∧ (⟨s, v⟩ : Contrib N R) ∈ l := by
    intro s hsm
    obtain ⟨i, hi, rfl⟩ := List.mem_iff_getElem.1 hsm
    have hz : i < (cdets.zip C).length := by rw [List.length_zip]; omega
    refine ⟨|C[i]|, abs_nonneg _, ?_⟩
    rw [← hl, List.mem_append]
    right
    rw [List.mem_map]
    refine ⟨(cdets.zip C)[i], List.getElem_mem hz, ?_⟩
    rw [List.getElem_zip]
  constructor
  · rintro ⟨hx, hneg⟩
    have hneg' : x.rv < 0 := by simpa using hneg
    obtain ⟨hxl, hmax⟩ := k3 x hx
    have hxnc : x.state ∉ cdets := by
      intro hc
      obtain ⟨v, hv, hm⟩ := hcd _ hc
      have := hmax _ hm rfl
      exact absurd (hv.trans this) (not_le.2 hneg')
    rw [← hl, List.mem_append, List.mem_map, List.mem_map] at hxl
    rcases hxl with ⟨p, hpm, rfl⟩ | ⟨c, hc, rfl⟩
    · refine ⟨p, hpm, ?_, hxnc, rfl⟩
      rintro h0
      dsimp only at hneg'
      rw [h0, abs_zero, neg_zero] at hneg'
      exact lt_irrefl _ hneg'
    · exact absurd hneg' (not_lt.2 (abs_nonneg _))
  · rintro ⟨p, hpm, h0, hnc, rfl⟩
    have hneg : -|p.rv| < 0 := neg_lt_zero.2 (abs_pos.2 h0)
    have hpl : (⟨p.state, -|p.rv|⟩ : Contrib N R) ∈ l := by
      rw [← hl, List.mem_append, List.mem_map]
      exact Or.inl ⟨p, hpm, rfl⟩
    refine ⟨?_, by simpa using hneg⟩
    obtain ⟨q, hq, he⟩ := (k2 p.state).2 ⟨_, hpl, rfl⟩
    obtain ⟨hql, -⟩ := k3 q hq
    rw [← hl, List.mem_append, List.mem_map, List.mem_map] at hql
    rcases hql with ⟨p', hp', rfl⟩ | ⟨c, hc, rfl⟩
    · dsimp only at he hq
      have : p' = p := List.inj_on_of_nodup_map hnd hp' hpm he
      rw [← this]; exact hq
    · exfalso
      apply hnc
      rw [← he]
      exact (List.of_mem_zip hc).1

theorem nodup_searchCandidates {srt part : List (Contrib N R) → List (Contrib N R)}
    (hs : SortsBy (fun x y => bitsetLess x.state y.state) srt) (hp : Rearranges part)
    (cdets : List (BitVec N)) (C : List R) (pairs : List (Contrib N R)) :
    ((searchCandidates srt part cdets C pairs).map (·.state)).Nodup := by
  unfold searchCandidates
  dsimp only
  generalize ((pairs.map fun x => { x with rv := -|x.rv| }) ++
    (cdets.zip C).map fun x => (⟨x.1, |x.2|⟩ : Contrib N R)) = l
  refine List.Nodup.sublist (List.Sublist.map _ List.filter_sublist) ?_
  rw [((hp _).map _).nodup_iff]
  exact nodup_of_lt (keepLargest_spec hs l).1

theorem topK_eq {m n : Nat} (h : n ≤ m) (hm : m < 2 ^ 64) : topKElements m n = m - n := by
  unfold topKElements
  rw [show m + 2 ^ 64 - n = (m - n) + 2 ^ 64 by omega, Nat.add_mod_right, Nat.mod_eq_of_lt (by omega)]

/-- A best choice from a list of candidates with distinct states. -/
theorem bestOf_take {nth : Nat → List (Contrib N R) → List (Contrib N R)}
    (hn : NthElement (fun p : Contrib N R => |p.rv|) nth) (k : Nat) (l : List (Contrib N R))
    (hnd : (l.map (·.state)).Nodup) (cand : BitVec N → Prop) (score : BitVec N → R)
    (hc : ∀ s, cand s ↔ ∃ p ∈ l, p.state = s) (hsc : ∀ p ∈ l, |p.rv| = score p.state) :
    BestOf cand score k ((if l.length > k then (nth k l).take k else l).map (·.state)) := by
  by_cases hk : l.length > k
  · rw [if_pos hk]
    obtain ⟨hp, hb⟩ := hn k l
    have hnd' : ((nth k l).map (·.state)).Nodup := ((hp.map _).nodup_iff).2 hnd
    have hlen : ((nth k l).take k).length = k := by
      rw [List.length_take, hp.length_eq]; omega
    have hsplit := List.take_append_drop k (nth k l)
    refine ⟨?_, ?_, ?_, ?_, ?_⟩
    · exact List.Nodup.sublist (List.Sublist.map _ (List.take_sublist _ _)) hnd'
    · intro s hs
      obtain ⟨p, hpm, rfl⟩ := List.mem_map.1 hs
      exact (hc _).2 ⟨p, hp.mem_iff.1 (List.mem_of_mem_take hpm), rfl⟩
    · rw [List.length_map, hlen]
    · intro h; rw [List.length_map, hlen] at h; omega
    · intro s hs t ht htn
      obtain ⟨p, hpm, rfl⟩ := List.mem_map.1 hs
      obtain ⟨q, hq, rfl⟩ := (hc t).1 ht
      have hq' : q ∈ nth k l := hp.mem_iff.2 hq
      rw [← hsplit, List.mem_append] at hq'
      rcases hq' with hq' | hq'
      · exact absurd (List.mem_map.2 ⟨q, hq', rfl⟩) htn
      · have := hb p hpm q hq'
        rw [← hsc p (hp.mem_iff.1 (List.mem_of_mem_take hpm)), ← hsc q hq]
        exact not_lt.1 this
  · rw [if_neg hk]
    refine ⟨hnd, ?_, by rw [List.length_map]; omega, ?_, ?_⟩
    · intro s hs
      obtain ⟨p, hpm, rfl⟩ := List.mem_map.1 hs
      exact (hc _).2 ⟨p, hpm, rfl⟩
    · intro _ s hs
      obtain ⟨p, hpm, rfl⟩ := (hc s).1 hs
      exact List.mem_map.2 ⟨p, hpm, rfl⟩
    · intro s _ t ht htn
      obtain ⟨q, hq, rfl⟩ := (hc t).1 ht
      exact absurd (List.mem_map.2 ⟨q, hq, rfl⟩) htn

/-! ### quickselect -/

section quick
variable {α : Type} [LinearOrder α]

omit [LinearOrder α] in
theorem legPartition_spec {β : Type} [LinearOrder β] {part : List α → List α} (hp : Rearranges part) (f : α → β)
    (pivot : β) (l : List α) :
    (legPartition part f pivot l).1.Perm (l.filter fun x => pivot < f x) ∧
    (legPartition part f pivot l).2.1.Perm (l.filter fun x => f x = pivot) ∧
    (legPartition part f pivot l).2.2.Perm (l.filter fun x => f x < pivot) := by
  unfold legPartition
  dsimp only
  refine ⟨(hp l).filter _, ?_, ?_⟩
  · refine (((hp _).trans ((hp l).filter _)).filter _).trans ?_
    rw [List.filter_filter]
    refine List.Perm.of_eq (List.filter_congr ?_)
    intro x _
    rcases lt_trichotomy (f x) pivot with h | h | h
    · simp [h.ne]
    · simp [h]
    · simp [h.ne']
  · refine (((hp _).trans ((hp l).filter _)).filter _).trans ?_
    rw [List.filter_filter]
    refine List.Perm.of_eq (List.filter_congr ?_)
    intro x _
    rcases lt_trichotomy (f x) pivot with h | h | h
    · simp [h, h.ne, h.le]
    · simp [h]
    · simp [h, h.not_gt]

theorem sum_length_flatten (ls : List (List α)) : (ls.map List.length).sum = ls.flatten.length := by
  rw [List.length_flatten]

theorem filter_flatten_length (ls : List (List α)) (g : List α → List α) (p : α → Bool)
    (h : ∀ l ∈ ls, (g l).Perm (l.filter p)) : ((ls.map g).flatten).Perm (ls.flatten.filter p) := by
  induction ls with
  | nil => simp
  | cons a ls ih =>
    rw [List.map_cons, List.flatten_cons, List.flatten_cons, List.filter_append]
    exact (h a List.mem_cons_self).append (ih (fun l hl => h l (List.mem_cons_of_mem _ hl)))

theorem isKth_perm {l l' : List α} (h : l.Perm l') {k : Nat} {v : α} (hv : IsKthLargest l k v) : IsKthLargest l' k v := by
  obtain ⟨h1, h2, h3⟩ := hv
  exact ⟨h.mem_iff.1 h1, by rwa [← (h.filter _).length_eq], by rwa [← (h.filter _).length_eq]⟩

theorem length_filter_le_of_imp {l : List α} {p q : α → Bool} (h : ∀ x ∈ l, p x = true → q x = true) :
    (l.filter p).length ≤ (l.filter q).length := by
  rw [← List.countP_eq_length_filter, ← List.countP_eq_length_filter]
  exact List.countP_mono_left h

theorem length_split (l : List α) (v : α) :
    (l.filter fun x => v < x).length + (l.filter fun x => x = v).length + (l.filter fun x => x < v).length
      = l.length := by
  induction l with
  | nil => rfl
  | cons a l ih =>
    simp only [List.filter_cons, List.length_cons]
    rcases lt_trichotomy a v with h | h | h
    · simp only [h, h.ne, h.not_gt, decide_true, decide_false, if_true, Bool.false_eq_true, if_false, List.length_cons]; omega
    · simp only [h, lt_irrefl, decide_true, decide_false, if_true, Bool.false_eq_true, if_false, List.length_cons]; omega
    · simp only [h, h.ne', h.not_gt, decide_true, decide_false, if_true, Bool.false_eq_true, if_false, List.length_cons]; omega

theorem length_ge_split (l : List α) (v : α) :
    (l.filter fun x => v ≤ x).length = (l.filter fun x => v < x).length + (l.filter fun x => x = v).length := by
  induction l with
  | nil => rfl
  | cons a l ih =>
    simp only [List.filter_cons]
    rcases lt_trichotomy a v with h | h | h
    · simp only [h.not_ge, h.ne, h.not_gt, decide_false, Bool.false_eq_true, if_false]; omega
    · subst h
      simp only [le_refl, lt_irrefl, decide_true, decide_false, if_true, Bool.false_eq_true, if_false, List.length_cons]; omega
    · simp only [h.le, h.ne', h, decide_true, decide_false, if_true, Bool.false_eq_true, if_false, List.length_cons]; omega

/-- k-th largest among the elements above the pivot -/
theorem isKth_greater {l : List α} {k : Nat} {v p : α} (h : IsKthLargest (l.filter fun x => p < x) k v) :
    IsKthLargest l k v := by
  obtain ⟨h1, h2, h3⟩ := h
  rw [List.mem_filter] at h1
  have hpv : p < v := by simpa using h1.2
  refine ⟨h1.1, ?_, ?_⟩
  · rw [List.filter_filter] at h2
    refine lt_of_le_of_lt (length_filter_le_of_imp ?_) h2
    intro x _ hx
    have : v < x := by simpa using hx
    simp [this, hpv.trans this]
  · refine h3.trans ?_
    rw [List.filter_filter]
    apply length_filter_le_of_imp
    intro x _ hx
    simp only [Bool.and_eq_true, decide_eq_true_eq] at hx ⊢
    exact hx.1

theorem length_filter_above (p : α) (q : α → Bool) (hq : ∀ x, p ≤ x → q x = true) (l : List α) :
    (l.filter q).length = ((l.filter fun x => x < p).filter q).length + (l.filter fun x => p ≤ x).length := by
  induction l with
  | nil => rfl
  | cons a l ih =>
    rcases lt_or_ge a p with h | h
    · rw [List.filter_cons_of_pos (p := fun x => decide (x < p)) (by simpa using h),
        List.filter_cons_of_neg (p := fun x => decide (p ≤ x)) (by simpa using h), List.filter_cons (p := q) (xs := l),
        List.filter_cons (p := q)]
      by_cases hqa : q a = true <;> simp only [hqa, if_true, Bool.false_eq_true, if_false, List.length_cons] <;> omega
    · rw [List.filter_cons, if_pos (hq a h), List.filter_cons (p := fun x => decide (x < p)),
        if_neg (by simpa using h), List.filter_cons (p := fun x => decide (p ≤ x)), if_pos (by simpa using h)]
      simp only [List.length_cons]; omega

/-- k-th largest among the elements below the pivot -/
theorem isKth_less {l : List α} {k : Nat} {v p : α} (h : IsKthLargest (l.filter fun x => x < p) k v) :
    IsKthLargest l (k + ((l.filter fun x => p < x).length + (l.filter fun x => x = p).length)) v := by
  obtain ⟨h1, h2, h3⟩ := h
  rw [List.mem_filter] at h1
  have hpv : v < p := by simpa using h1.2
  refine ⟨h1.1, ?_, ?_⟩
  · rw [length_filter_above p (fun x => v < x) (fun x hx => by simpa using lt_of_lt_of_le hpv hx), length_ge_split l p]
    omega
  · rw [length_filter_above p (fun x => v ≤ x) (fun x hx => by simpa using (hpv.trans_le hx).le), length_ge_split l p]
    omega

theorem quickFinish_spec {nth : Nat → List α → List α} (hn : NthElement (id : α → α) nth)
    (locals : List (List α)) (k : Nat) (h1 : 1 ≤ k) (h2 : k ≤ locals.flatten.length) :
    ∃ v, quickFinish nth locals k = some v ∧ IsKthLargest locals.flatten k v := by
  unfold quickFinish
  dsimp only
  generalize locals.flatten = l at h2 ⊢
  rw [if_neg (by omega), if_neg (by omega)]
  obtain ⟨hp, hb⟩ := hn k l
  have hlen : ((nth k l).take k).length = k := by rw [List.length_take, hp.length_eq]; omega
  cases hm : ((nth k l).take k).min? with
  | none => rw [List.min?_eq_none_iff] at hm; rw [hm] at hlen; simp at hlen; omega
  | some v =>
    refine ⟨v, rfl, ?_⟩
    rw [List.min?_eq_some_iff] at hm
    obtain ⟨m1, m2⟩ := hm
    refine isKth_perm hp ?_
    have hsplit := List.take_append_drop k (nth k l)
    refine ⟨List.mem_of_mem_take m1, ?_, ?_⟩
    · conv_lhs => rw [← hsplit]
      rw [List.filter_append, List.length_append]
      have hd : (((nth k l).drop k).filter fun x => v < x) = [] := by
        rw [List.filter_eq_nil_iff]
        intro y hy
        simpa using hb v m1 y hy
      rw [hd, List.length_nil, Nat.add_zero]
      calc _ < ((nth k l).take k).length := by
            rw [← List.countP_eq_length_filter]
            rcases Nat.lt_or_ge (List.countP (fun x => decide (v < x)) ((nth k l).take k)) ((nth k l).take k).length with h | h
            · exact h
            · have := List.countP_eq_length.1 (le_antisymm List.countP_le_length h) v m1
              simp at this
        _ = k := hlen
    · conv_rhs => rw [← hsplit]
      rw [List.filter_append, List.length_append]
      have ht : (((nth k l).take k).filter fun x => v ≤ x) = (nth k l).take k := by
        rw [List.filter_eq_self]
        intro y hy
        simpa using m2 y hy
      rw [ht, hlen]; omega

theorem qsStarts_getD (sizes : List Nat) {r : Nat} (h : r < sizes.length) :
    (qsStarts sizes).getD r 0 = (sizes.take r).sum := by
  unfold qsStarts
  rw [List.getD_eq_getElem?_getD, List.getElem?_map, List.getElem?_range h]; rfl

theorem sum_take_succ' (sizes : List Nat) {r : Nat} (h : r < sizes.length) :
    (sizes.take (r + 1)).sum = (sizes.take r).sum + sizes[r] := by
  rw [List.take_succ_eq_append_getElem h, List.sum_append]; simp

/-- the pivot read by its owner is in range -/
theorem pivot_exists (locals : List (List α)) (i : Nat) (h : i < (locals.map List.length).sum) :
    let starts := qsStarts (locals.map List.length)
    let owner := pivotOwner starts i
    ∃ v, (locals.getD owner [])[i - starts.getD owner 0]? = some v ∧ v ∈ locals.flatten := by
  intro starts owner
  let sizes := locals.map List.length
  have hlen : starts.length = sizes.length := by simp [starts, qsStarts, sizes]
  have hpos : 0 < sizes.length := by
    rcases Nat.eq_zero_or_pos sizes.length with h0 | h0
    · have : sizes = [] := List.length_eq_zero_iff.1 h0
      change i < sizes.sum at h
      rw [this] at h; simp at h
    · exact h0
  have hget : ∀ r (hr : r < sizes.length), starts.getD r 0 = (sizes.take r).sum := fun r hr =>
    qsStarts_getD sizes hr
  let j := starts.findIdx fun s => i < s
  have hj0 : 0 < j := by
    rcases Nat.eq_zero_or_pos j with h0 | h0
    · exfalso
      have hlt : j < starts.length := by rw [h0, hlen]; exact hpos
      have := List.findIdx_getElem (w := hlt)
      have e := hget 0 hpos
      rw [List.getD_eq_getElem _ _ (by rw [hlen]; exact hpos)] at e
      simp only [j] at h0
      simp only [h0, e] at this
      simp at this
    · exact h0
  have hjle : j ≤ starts.length := List.findIdx_le_length
  have ho : owner = j - 1 := rfl
  have hol : owner < sizes.length := by omega
  have hlo : (sizes.take owner).sum ≤ i := by
    have hlt : owner < starts.length := by omega
    have := List.not_of_lt_findIdx (p := fun s => decide (i < s)) (xs := starts) (i := owner) (by omega)
    rw [← hget owner hol, List.getD_eq_getElem _ _ hlt]
    simpa using this
  have hhi : i < (sizes.take (owner + 1)).sum := by
    rcases Nat.lt_or_ge j starts.length with hjl | hjl
    · have := List.findIdx_getElem (w := hjl)
      have e := hget j (by omega)
      rw [List.getD_eq_getElem _ _ hjl] at e
      rw [show owner + 1 = j by omega, ← e]
      simpa using this
    · rw [List.take_of_length_le (by omega)]; exact h
  rw [sum_take_succ' sizes hol] at hhi
  have holen : owner < locals.length := by simpa [sizes] using hol
  rw [List.getD_eq_getElem _ _ holen, hget owner hol]
  have hs : sizes[owner] = locals[owner].length := by simp [sizes]
  have hin : i - (sizes.take owner).sum < locals[owner].length := by omega
  refine ⟨locals[owner][i - (sizes.take owner).sum], List.getElem?_eq_getElem hin, ?_⟩
  rw [List.mem_flatten]
  exact ⟨locals[owner], List.getElem_mem _, List.getElem_mem _⟩

theorem quickLoop_spec {W : Nat} (hW : 2 ≤ W) (draw : Nat → Nat) {part : Nat → List α → List α}
    (hp : ∀ i, Rearranges (part i)) {nth : Nat → List α → List α} (hn : NthElement (id : α → α) nth) (fuel : Nat) :
    ∀ (step : Nat) (locals : List (List α)) (k : Nat), 1 ≤ k → k ≤ locals.flatten.length →
    locals.flatten.length < fuel →
    ∃ v, quickLoop W draw part nth fuel step locals k = some v ∧ IsKthLargest locals.flatten k v := by
  induction fuel with
  | zero => intro _ _ _ _ _ h; exact absurd h (Nat.not_lt_zero _)
  | succ fuel ih =>
    intro step locals k h1 h2 hf
    rw [quickLoop]
    dsimp only
    by_cases ht : (locals.map List.length).sum < W
    · rw [if_pos ht]; exact quickFinish_spec hn locals k h1 h2
    rw [if_neg ht]
    have htot := sum_length_flatten locals
    obtain ⟨pv, hpv, hmem⟩ := pivot_exists locals (draw step % ((locals.map List.length).sum - 1)) (by
      have : draw step % ((locals.map List.length).sum - 1) < (locals.map List.length).sum - 1 :=
        Nat.mod_lt _ (by omega)
      omega)
    rw [hpv]
    dsimp only
    have hL := filter_flatten_length locals (fun l => (legPartition (part step) id pv l).1) (fun x => decide (pv < x))
      (fun l _ => (legPartition_spec (hp step) id pv l).1)
    have hE := filter_flatten_length locals (fun l => (legPartition (part step) id pv l).2.1) (fun x => decide (x = pv))
      (fun l _ => (legPartition_spec (hp step) id pv l).2.1)
    have hG := filter_flatten_length locals (fun l => (legPartition (part step) id pv l).2.2) (fun x => decide (x < pv))
      (fun l _ => (legPartition_spec (hp step) id pv l).2.2)
    have eL : ((locals.map fun l => legPartition (part step) id pv l).map fun p => p.1.length).sum
        = (locals.flatten.filter fun x => decide (pv < x)).length := by
      rw [← hL.length_eq, List.length_flatten, List.map_map, List.map_map]; rfl
    have eE : ((locals.map fun l => legPartition (part step) id pv l).map fun p => p.2.1.length).sum
        = (locals.flatten.filter fun x => decide (x = pv)).length := by
      rw [← hE.length_eq, List.length_flatten, List.map_map, List.map_map]; rfl
    have eG : (locals.map fun l => legPartition (part step) id pv l).map (·.2.2)
        = locals.map fun l => (legPartition (part step) id pv l).2.2 := by rw [List.map_map]; rfl
    have eL' : (locals.map fun l => legPartition (part step) id pv l).map (·.1)
        = locals.map fun l => (legPartition (part step) id pv l).1 := by rw [List.map_map]; rfl
    rw [eL, eE, eG, eL']
    have hsplit := length_split locals.flatten pv
    have hEpos : 0 < (locals.flatten.filter fun x => decide (x = pv)).length :=
      List.length_pos_of_mem (List.mem_filter.2 ⟨hmem, by simp⟩)
    split
    · rename_i hk
      obtain ⟨v, hv, hkth⟩ := ih (step + 1) (locals.map fun l => (legPartition (part step) id pv l).1) k h1
        (by rw [hL.length_eq]; exact hk) (by rw [hL.length_eq]; omega)
      exact ⟨v, hv, isKth_greater (isKth_perm hL hkth)⟩
    · rename_i hk
      split
      · rename_i hk2
        refine ⟨pv, rfl, hmem, by omega, ?_⟩
        rw [length_ge_split]; omega
      · rename_i hk2
        obtain ⟨v, hv, hkth⟩ := ih (step + 1) (locals.map fun l => (legPartition (part step) id pv l).2.2)
          (k - ((locals.flatten.filter fun x => decide (pv < x)).length
            + (locals.flatten.filter fun x => decide (x = pv)).length)) (by omega)
          (by rw [hG.length_eq]; omega) (by rw [hG.length_eq]; omega)
        refine ⟨v, hv, ?_⟩
        have := isKth_less (isKth_perm hG hkth)
        rwa [Nat.sub_add_cancel (by omega)] at this

theorem distQuickselect_spec (draw : Nat → Nat) {part : Nat → List α → List α}
    (hp : ∀ i, Rearranges (part i)) {nth : Nat → List α → List α} (hn : NthElement (id : α → α) nth)
    (locals : List (List α)) (k : Nat) (h1 : 1 ≤ k) (h2 : k ≤ locals.flatten.length) :
    ∃ v, distQuickselect draw part nth locals k = some v ∧ IsKthLargest locals.flatten k v := by
  unfold distQuickselect
  split
  · exact quickFinish_spec hn locals k h1 h2
  · rename_i hl
    refine quickLoop_spec ?_ draw hp hn _ 0 locals k h1 h2 (Nat.lt_succ_self _)
    cases locals with
    | nil => simp at h2; omega
    | cons a l =>
      cases l with
      | nil => simp at hl
      | cons b l => simp
end quick

end Macis
