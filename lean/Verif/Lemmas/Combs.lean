import Verif.Lemmas.SD
import Mathlib.Data.Nat.Choose.Basic
import Mathlib.Data.Nat.Choose.Bounds

namespace Macis

/-- All boolean vectors of length `n` with `k` trues, in decreasing lexicographic order. -/
def combsDesc : Nat → Nat → List (List Bool)
  | 0, 0 => [[]]
  | 0, _ + 1 => []
  | n + 1, 0 => (combsDesc n 0).map (false :: ·)
  | n + 1, k + 1 => (combsDesc n k).map (true :: ·) ++ (combsDesc n (k + 1)).map (false :: ·)

theorem mem_combsDesc (n k : Nat) (v : List Bool) :
    v ∈ combsDesc n k ↔ v.length = n ∧ v.count true = k := by
  induction n generalizing k v with
  | zero =>
    cases k with
    | zero => simp [combsDesc]; rintro rfl; simp
    | succ k => simp [combsDesc]; rintro rfl; simp
  | succ n ih =>
    cases k with
    | zero =>
      simp only [combsDesc, List.mem_map, ih]
      constructor
      · rintro ⟨w, ⟨h1, h2⟩, rfl⟩; simp [h1, h2]
      · rintro ⟨h1, h2⟩
        cases v with
        | nil => simp at h1
        | cons x xs =>
          cases x
          · exact ⟨xs, ⟨by simpa using h1, by simpa using h2⟩, rfl⟩
          · simp at h2
    | succ k =>
      simp only [combsDesc, List.mem_append, List.mem_map, ih]
      constructor
      · rintro (⟨w, ⟨h1, h2⟩, rfl⟩ | ⟨w, ⟨h1, h2⟩, rfl⟩) <;> simp [h1, h2]
      · rintro ⟨h1, h2⟩
        cases v with
        | nil => simp at h1
        | cons x xs =>
          cases x
          · exact Or.inr ⟨xs, ⟨by simpa using h1, by simpa using h2⟩, rfl⟩
          · exact Or.inl ⟨xs, ⟨by simpa using h1, by simpa using h2⟩, rfl⟩

theorem combsDesc_nodup (n k : Nat) : (combsDesc n k).Nodup := by
  induction n generalizing k with
  | zero => cases k <;> simp [combsDesc]
  | succ n ih =>
    cases k with
    | zero =>
      exact List.Nodup.map (fun a b h => by simpa using h) (ih 0)
    | succ k =>
      simp only [combsDesc]
      apply List.Nodup.append
      · exact List.Nodup.map (fun a b h => by simpa using h) (ih k)
      · exact List.Nodup.map (fun a b h => by simpa using h) (ih (k + 1))
      · intro x h1 h2
        simp only [List.mem_map] at h1 h2
        obtain ⟨_, _, rfl⟩ := h1
        obtain ⟨_, _, h⟩ := h2
        simp at h

theorem combsDesc_length (n k : Nat) : (combsDesc n k).length = n.choose k := by
  induction n generalizing k with
  | zero => cases k <;> simp [combsDesc]
  | succ n ih =>
    cases k with
    | zero => simp [combsDesc, ih]
    | succ k => simp [combsDesc, ih, Nat.choose_succ_succ]

theorem combsDesc_eq_nil {n k : Nat} (h : n < k) : combsDesc n k = [] := by
  rw [← List.length_eq_zero_iff, combsDesc_length, Nat.choose_eq_zero_of_lt h]

/-- largest / smallest vector -/
def topVec (n k : Nat) : List Bool := List.replicate k true ++ List.replicate (n - k) false
def botVec (n k : Nat) : List Bool := List.replicate (n - k) false ++ List.replicate k true

theorem prevPermutation_bot (m k : Nat) :
    prevPermutation (List.replicate m false ++ List.replicate k true) = none := by
  induction m with
  | zero =>
    induction k with
    | zero => rfl
    | succ k ih =>
      simp only [List.replicate_zero, List.nil_append] at ih ⊢
      simp [List.replicate_succ, prevPermutation, ih]
  | succ m ih => simp [List.replicate_succ, prevPermutation, ih]

theorem replaceLastFalse_replicate (m k : Nat) :
    replaceLastFalse (List.replicate (m + 1) false ++ List.replicate k true)
      = List.replicate m false ++ List.replicate (k + 1) true := by
  induction m with
  | zero =>
    simp [replaceLastFalse, List.replicate_succ]
  | succ m ih =>
    rw [List.replicate_succ, List.cons_append, replaceLastFalse]
    have : false ∈ List.replicate (m + 1) false ++ List.replicate k true := by simp
    rw [if_pos this, ih]; simp [List.replicate_succ]

/-- the junction between the two halves of the enumeration -/
theorem prevPermutation_junction (m k : Nat) :
    prevPermutation (true :: (List.replicate (m + 1) false ++ List.replicate k true))
      = some (false :: (List.replicate (k + 1) true ++ List.replicate m false)) := by
  rw [prevPermutation, prevPermutation_bot]
  simp [replaceLastFalse_replicate]

theorem combsDesc_head {n k : Nat} (h : k ≤ n) : ∃ t, combsDesc n k = topVec n k :: t := by
  induction n generalizing k with
  | zero =>
    have : k = 0 := by omega
    subst this; exact ⟨[], rfl⟩
  | succ n ih =>
    cases k with
    | zero =>
      obtain ⟨t, ht⟩ := ih (k := 0) (by omega)
      exact ⟨t.map (false :: ·), by simp [combsDesc, ht, topVec, List.replicate_succ]⟩
    | succ k =>
      obtain ⟨t, ht⟩ := ih (k := k) (by omega)
      exact ⟨t.map (true :: ·) ++ (combsDesc n (k + 1)).map (false :: ·), by
        simp [combsDesc, ht, topVec, List.replicate_succ, Nat.add_sub_add_right]⟩

/-- `l` is the complete run of `prev_permutation` from its head. -/
def IsRun : List (List Bool) → Prop
  | [] => True
  | [v] => prevPermutation v = none
  | v :: w :: t => prevPermutation v = some w ∧ IsRun (w :: t)

theorem isRun_map (x : Bool) (l : List (List Bool)) :
    ∀ (v : List Bool) (t : List (List Bool)), l = v :: t → IsRun l →
    ∀ (w : List Bool) (rest : List (List Bool)),
      (∀ u, l.getLast? = some u → prevPermutation (x :: u) = some w) →
      IsRun (w :: rest) → IsRun (l.map (x :: ·) ++ w :: rest) := by
  induction l with
  | nil => intro v t h; simp at h
  | cons a l ih =>
    intro v t _ hr w rest hw hrest
    cases l with
    | nil =>
      simp only [List.map_cons, List.map_nil, List.singleton_append, IsRun]
      exact ⟨hw a (by simp), hrest⟩
    | cons b l =>
      obtain ⟨h1, h2⟩ := hr
      have := ih b l rfl h2 w rest (fun u hu => hw u (by simpa using hu)) hrest
      simp only [List.map_cons, List.cons_append, IsRun] at this ⊢
      exact ⟨by simp [prevPermutation, h1], this⟩

theorem isRun_map_false (l : List (List Bool)) (hr : IsRun l) : IsRun (l.map (false :: ·)) := by
  induction l with
  | nil => trivial
  | cons a l ih =>
    cases l with
    | nil =>
      simp only [List.map_cons, List.map_nil, IsRun] at hr ⊢
      simp [prevPermutation, hr]
    | cons b l =>
      obtain ⟨h1, h2⟩ := hr
      have := ih h2
      simp only [List.map_cons, IsRun] at this ⊢
      exact ⟨by simp [prevPermutation, h1], this⟩

theorem isRun_map_true (l : List (List Bool)) (hr : IsRun l)
    (hl : ∀ u, l.getLast? = some u → false ∉ u) : IsRun (l.map (true :: ·)) := by
  induction l with
  | nil => trivial
  | cons a l ih =>
    cases l with
    | nil =>
      simp only [List.map_cons, List.map_nil, IsRun] at hr ⊢
      have := hl a (by simp)
      simp [prevPermutation, hr, this]
    | cons b l =>
      obtain ⟨h1, h2⟩ := hr
      have := ih h2 (fun u hu => hl u (by simpa using hu))
      simp only [List.map_cons, IsRun] at this ⊢
      exact ⟨by simp [prevPermutation, h1], this⟩

theorem combsDesc_last {n k : Nat} (h : k ≤ n) : (combsDesc n k).getLast? = some (botVec n k) := by
  induction n generalizing k with
  | zero =>
    have : k = 0 := by omega
    subst this; rfl
  | succ n ih =>
    cases k with
    | zero =>
      simp [combsDesc, ih (k := 0) (by omega), botVec, List.replicate_succ]
    | succ k =>
      simp only [combsDesc, List.getLast?_append, List.getLast?_map]
      by_cases hk : k + 1 ≤ n
      · rw [ih hk]
        simp [botVec, show n + 1 - (k + 1) = (n - (k + 1)) + 1 by omega, List.replicate_succ]
      · have : k = n := by omega
        subst this
        rw [combsDesc_eq_nil (by omega), ih (le_refl k)]
        simp [botVec, List.replicate_succ]

theorem combsDesc_isRun (n k : Nat) : IsRun (combsDesc n k) := by
  induction n generalizing k with
  | zero => cases k <;> simp [combsDesc, IsRun, prevPermutation]
  | succ n ih =>
    cases k with
    | zero => exact isRun_map_false _ (ih 0)
    | succ k =>
      simp only [combsDesc]
      by_cases hk : k + 1 ≤ n
      · obtain ⟨t, ht⟩ := combsDesc_head hk
        obtain ⟨t', ht'⟩ := combsDesc_head (show k ≤ n by omega)
        have hr := isRun_map_false _ (ih (k + 1))
        rw [ht] at hr ⊢
        simp only [List.map_cons] at hr ⊢
        apply isRun_map true _ _ _ ht' (ih k) _ _ _ hr
        intro u hu
        rw [combsDesc_last (by omega)] at hu
        simp only [Option.some.injEq] at hu
        subst hu
        rw [botVec, show n - k = (n - (k + 1)) + 1 by omega, prevPermutation_junction]
        rfl
      · rw [combsDesc_eq_nil (show n < k + 1 by omega)]
        simp only [List.map_nil, List.append_nil]
        apply isRun_map_true _ (ih k)
        intro u hu
        by_cases hk' : k ≤ n
        · rw [combsDesc_last hk'] at hu
          have : k = n := by omega
          subst this
          simp only [Option.some.injEq] at hu
          subst hu
          simp [botVec]
        · rw [combsDesc_eq_nil (by omega)] at hu; simp at hu

theorem combsLoop_run (N : Nat) (l : List (List Bool)) :
    ∀ (v : List Bool) (t : List (List Bool)) (fuel : Nat), l = v :: t → IsRun l →
      l.length ≤ fuel + 1 → combsLoop N fuel v = l.map (bitsOfBools N) := by
  induction l with
  | nil => intro v t f h; simp at h
  | cons a l ih =>
    intro v t fuel hvt hr hf
    simp only [List.cons.injEq] at hvt
    obtain ⟨rfl, rfl⟩ := hvt
    cases l with
    | nil =>
      simp only [IsRun] at hr
      cases fuel with
      | zero => simp [combsLoop]
      | succ f => simp [combsLoop, hr]
    | cons b l =>
      obtain ⟨h1, h2⟩ := hr
      cases fuel with
      | zero => simp at hf
      | succ f =>
        simp only [combsLoop, h1, List.map_cons]
        rw [ih b l f rfl h2 (by simpa using hf)]
        rfl


theorem one_shl_eq_twoPow (N i : Nat) : (BitVec.ofNat N 1) <<< i = BitVec.twoPow N i := rfl

theorem getLsbD_bitsOfBools (N : Nat) (v : List Bool) (j : Nat) :
    (bitsOfBools N v).getLsbD j = (decide (j < N) && v.getD j false) := by
  have key : ∀ (l : List Nat) (acc : BitVec N),
      (l.foldl (fun temp i => if v.getD i false then temp ||| ((BitVec.ofNat N 1) <<< i) else temp)
        acc).getLsbD j = (acc.getLsbD j || (decide (j < N) && decide (j ∈ l) && v.getD j false)) := by
    intro l
    induction l with
    | nil => simp
    | cons a l ih =>
      intro acc
      rw [List.foldl_cons, ih]
      by_cases hja : j = a
      · subst hja
        cases h : v.getD j false <;> simp only [one_shl_eq_twoPow]
        · simp
        · simp only [if_true, BitVec.getLsbD_or, BitVec.getLsbD_twoPow]
          cases acc.getLsbD j <;> simp; tauto
      · cases h : v.getD a false
        · simp [hja]
        · simp only [if_true, BitVec.getLsbD_or, one_shl_eq_twoPow, BitVec.getLsbD_twoPow]
          have : a ≠ j := fun h => hja h.symm
          simp [hja, this]
  rw [bitsOfBools, key]
  by_cases hj : j < v.length
  · simp [hj]
  · simp [hj]

theorem generateCombs_eq {N nbits nset : Nat} (h : nset ≤ nbits) :
    generateCombs N nbits nset = some ((combsDesc nbits nset).map (bitsOfBools N)) := by
  unfold generateCombs
  rw [if_pos h]
  obtain ⟨t, ht⟩ := combsDesc_head h
  congr 1
  apply combsLoop_run N _ _ t _ ht (combsDesc_isRun _ _)
  rw [combsDesc_length]
  exact le_trans (Nat.choose_le_two_pow nbits nset) (Nat.le_succ _)

/-- fuel never matters once it reaches the number of combinations -/
theorem combsLoop_fuel {N nbits nset : Nat} (h : nset ≤ nbits) (fuel : Nat)
    (hf : nbits.choose nset ≤ fuel + 1) :
    combsLoop N fuel (topVec nbits nset) = (combsDesc nbits nset).map (bitsOfBools N) := by
  obtain ⟨t, ht⟩ := combsDesc_head h
  apply combsLoop_run N _ _ t _ ht (combsDesc_isRun _ _)
  rw [combsDesc_length]; exact hf

theorem bitsOfBools_inj {N n : Nat} (hn : n ≤ N) {v w : List Bool} (hv : v.length = n)
    (hw : w.length = n) (h : bitsOfBools N v = bitsOfBools N w) : v = w := by
  apply List.ext_getElem (by omega)
  intro i h1 h2
  have := congrArg (fun x => BitVec.getLsbD x i) h
  simp only [getLsbD_bitsOfBools] at this
  have hi : i < N := by omega
  simpa [hi, h1, h2] using this

theorem countP_getD (v : List Bool) :
    ((List.range v.length).filter (fun i => v.getD i false)).length = v.count true := by
  induction v with
  | nil => rfl
  | cons x xs ih =>
    rw [List.length_cons, List.range_succ_eq_map, List.filter_cons]
    have : ((List.map Nat.succ (List.range xs.length)).filter
        (fun i => (x :: xs).getD i false)).length = xs.count true := by
      rw [List.filter_map, List.length_map, ← ih]
      rfl
    cases x
    · simpa using this
    · simpa using this

theorem occ_bitsOfBools {N : Nat} {v : List Bool} (hv : v.length ≤ N) :
    (occ (bitsOfBools N v)).length = v.count true := by
  rw [← countP_getD]
  congr 1
  apply eq_of_sorted_of_mem_iff (occ_sorted _) (List.Pairwise.filter _ List.pairwise_lt_range)
  intro x
  rw [mem_occ, getLsbD_bitsOfBools]
  simp only [List.mem_filter, List.mem_range, Bool.and_eq_true, decide_eq_true_eq]
  constructor
  · rintro ⟨_, h⟩
    refine ⟨?_, h⟩
    by_contra hc
    rw [List.getD_eq_default _ _ (by omega)] at h; simp at h
  · rintro ⟨h1, h2⟩; exact ⟨by omega, h2⟩

/-- membership in the generated combinations -/
theorem mem_combs_map {N n k : Nat} (hn : n ≤ N) (s : BitVec N) :
    s ∈ (combsDesc n k).map (bitsOfBools N) ↔ Spec.SupportedOn n s ∧ (occ s).length = k := by
  simp only [List.mem_map, mem_combsDesc]
  constructor
  · rintro ⟨v, ⟨h1, h2⟩, rfl⟩
    refine ⟨fun i hi => ?_, by rw [occ_bitsOfBools (by omega), h2]⟩
    rw [getLsbD_bitsOfBools] at hi
    by_contra hc
    rw [List.getD_eq_default _ _ (by omega)] at hi; simp at hi
  · rintro ⟨h1, h2⟩
    refine ⟨(List.range n).map (fun i => s.getLsbD i), ⟨by simp, ?_⟩, ?_⟩
    · rw [← h2, occ_eq_filter_norb h1 hn, ← countP_getD]
      simp only [List.length_map, List.length_range]
      congr 1
      apply List.filter_congr
      intro x hx
      simp at hx
      simp [hx]
    · apply BitVec.eq_of_getLsbD_eq
      intro i hi
      rw [getLsbD_bitsOfBools]
      by_cases hin : i < n
      · simp [hi, hin]
      · rw [List.getD_eq_default _ _ (by simpa using hin)]
        simp only [Bool.and_false]
        cases hb : s.getLsbD i
        · rfl
        · exact absurd (h1 i hb) hin

theorem combs_map_nodup {N n k : Nat} (hn : n ≤ N) :
    ((combsDesc n k).map (bitsOfBools N)).Nodup := by
  apply List.Nodup.map_on _ (combsDesc_nodup n k)
  intro v hv w hw h
  rw [mem_combsDesc] at hv hw
  exact bitsOfBools_inj hn hv.1 hw.1 h

end Macis
