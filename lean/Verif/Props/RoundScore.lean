import Verif.Model.RoundScore
import Verif.Lemmas.Rounding
import Verif.Lemmas.Chop
import Verif.Props.AsciSelect
import Verif.Props.RoundRdm
/-! Property C174: ASCI scores and the selection in floating point. -/
namespace Macis
open Spec

variable {N : Nat} {rnd : ℝ → ℝ} {u : ℝ}

/-- bound on the rounding error of the score of determinant `s`: it is the sum of its `m` contributions, with `m - 1`
roundings -/
noncomputable def Spec.scoreErr (u : ℝ) (l : List (Contrib N ℝ)) (s : BitVec N) : ℝ :=
  ((1 + u) ^ ((l.filter fun p => p.state = s).length - 1) - 1) * ((l.filter fun p => p.state = s).map fun p => |p.rv|).sum

theorem scoreErr_nonneg (hu : 0 ≤ u) (l : List (Contrib N ℝ)) (s : BitVec N) : 0 ≤ scoreErr u l s := by
  refine mul_nonneg (grow_nonneg hu _) (List.sum_nonneg ?_)
  intro x hx
  obtain ⟨p, -, rfl⟩ := List.mem_map.1 hx
  exact abs_nonneg _

theorem near_sum (hr : RoundsTo rnd u) (r : List (Contrib N ℝ)) : ∀ {k : Nat} {A h H : ℝ}, Near u k A h H →
    Near u (k + r.length) (A + (r.map fun p => |p.rv|).sum) (r.foldl (fun a q => rnd (a + q.rv)) h)
      (H + (r.map (·.rv)).sum) := by
  induction r with
  | nil => intro k A h H n; simpa using n
  | cons x r ih =>
    intro k A h H n
    have nx : Near u k |x.rv| x.rv x.rv := (Near.exact le_rfl).mono hr.nonneg (Nat.zero_le _) le_rfl
    have := ih ((n.add' hr.nonneg nx).round hr)
    rw [List.foldl_cons, List.map_cons, List.sum_cons, List.map_cons, List.sum_cons, List.length_cons,
      show k + (r.length + 1) = k + 1 + r.length by ring, ← add_assoc A, ← add_assoc H]
    exact this

/-- C174: whatever order the sort leaves the contributions of one determinant in, accumulating gives strictly increasing
determinants, the same set, and for each its exact score up to the rounding of the sum. -/
theorem C174_accumulate (hr : RoundsTo rnd u) {srt : List (Contrib N ℝ) → List (Contrib N ℝ)}
    (h : SortsBy (fun x y => bitsetLess x.state y.state) srt) (l : List (Contrib N ℝ)) :
    (sortAccumulateR rnd srt l).Pairwise (fun x y => x.state.toNat < y.state.toNat) ∧
    (∀ s, (∃ p ∈ sortAccumulateR rnd srt l, p.state = s) ↔ ∃ p ∈ l, p.state = s) ∧
    ∀ p ∈ sortAccumulateR rnd srt l, |p.rv - totalScore l p.state| ≤ scoreErr u l p.state := by
  unfold sortAccumulateR
  rw [sortCombine_of_ne l _ (by rw [sortCombine_nil _ _ h])]
  obtain ⟨h1, h2, h3⟩ := sortCombine_spec (fun a b => rnd (a + b)) (fun x : Contrib N ℝ => { x with rv := 0 })
    (fun _ => rfl) h l
  refine ⟨h1, h2, fun p hp => ?_⟩
  obtain ⟨f, r, e1, e2⟩ := h3 p hp
  have n := (near_sum hr r (Near.exact (u := u) (le_refl |f.rv|))).1
  unfold scoreErr totalScore
  rw [e2, ← (e1.map (·.rv)).sum_eq, ← (e1.map fun p => |p.rv|).sum_eq, ← e1.length_eq, List.map_cons, List.sum_cons,
    List.map_cons, List.sum_cons, List.length_cons, Nat.add_sub_cancel]
  rw [zero_add] at n
  exact n

theorem srt_self {srt : List (Contrib N ℝ) → List (Contrib N ℝ)}
    (h : SortsBy (fun x y => bitsetLess x.state y.state) srt) {l : List (Contrib N ℝ)}
    (hl : l.Pairwise fun x y => x.state.toNat < y.state.toNat) : srt l = l := by
  have hs := sorted_of_sortsBy h l
  have nd := nodup_of_lt hl
  refine (h l).1.eq_of_pairwise (le := fun x y : Contrib N ℝ => x.state.toNat ≤ y.state.toNat) ?_ hs
    (hl.imp fun h => Nat.le_of_lt h)
  intro a b ha hb hab hba
  exact List.inj_on_of_nodup_map nd ((h l).1.mem_iff.1 ha) hb (BitVec.eq_of_toNat_eq (Nat.le_antisymm hab hba))

theorem runs_self (op : ℝ → ℝ → ℝ) (xs : List (Contrib N ℝ)) : ∀ x,
    (x :: xs).Pairwise (fun x y => x.state.toNat < y.state.toNat) → runs op x xs = x :: xs := by
  induction xs with
  | nil => intro _ _; rfl
  | cons y xs ih =>
    intro x hx
    obtain ⟨h1, h2⟩ := List.pairwise_cons.1 hx
    have := h1 y (by simp)
    rw [runs, if_pos (by intro e; rw [e] at this; omega), ih y h2]

theorem accumulate_self {srt : List (Contrib N ℝ) → List (Contrib N ℝ)}
    (h : SortsBy (fun x y => bitsetLess x.state y.state) srt) {l : List (Contrib N ℝ)}
    (hl : l.Pairwise fun x y => x.state.toNat < y.state.toNat) : sortAccumulate srt l = l := by
  unfold sortAccumulate
  rw [sortCombine_of_ne l _ (by rw [sortCombine_nil _ _ h]), sortCombine, srt_self h hl]
  cases l with
  | nil => rfl
  | cons x xs =>
    dsimp only
    rw [combineRun_runs _ (fun x : Contrib N ℝ => { x with rv := 0 }) (fun _ => rfl)]
    exact runs_self _ _ _ hl

theorem totalScore_unique {l : List (Contrib N ℝ)} (hl : l.Pairwise fun x y => x.state.toNat < y.state.toNat)
    {p : Contrib N ℝ} (hp : p ∈ l) : totalScore l p.state = p.rv := by
  have := (sortAccumulate_spec exSort_sorts l).2.2 p (by rw [accumulate_self exSort_sorts hl]; exact hp)
  exact this.symm

/-- C174: the search on one rank in floating point.  It returns at most `ndets_max - ncdets` determinants, without
repetitions, followed by the core; nothing left out has an exact score above that of something taken by more than the
rounding errors of the two, and if there was room left, what was left out has an exact score within its rounding error. -/
theorem C174_search (hr : RoundsTo rnd u) {srt part : List (Contrib N ℝ) → List (Contrib N ℝ)}
    {nth : Nat → List (Contrib N ℝ) → List (Contrib N ℝ)}
    (hs : SortsBy (fun x y => bitsetLess x.state y.state) srt) (hp : Rearranges part)
    (hn : NthElement (fun p : Contrib N ℝ => |p.rv|) nth)
    (ndetsMax : Nat) (cdets : List (BitVec N)) (C : List ℝ) (contribs : List (Contrib N ℝ))
    (hC : cdets.length ≤ C.length) (hm : cdets.length ≤ ndetsMax) (h64 : ndetsMax < 2 ^ 64) (hcd : cdets.Nodup) :
    ∃ K, asciSelectSerialR rnd srt part nth ndetsMax cdets C contribs = some (K ++ cdets) ∧
      (K ++ cdets).Nodup ∧ (K ++ cdets).length ≤ ndetsMax ∧
      (∀ s ∈ K, ∃ p ∈ contribs, p.state = s) ∧
      (∀ s ∈ K, ∀ t, t ∉ K → t ∉ cdets →
        |totalScore contribs t| ≤ |totalScore contribs s| + scoreErr u contribs s + scoreErr u contribs t) ∧
      ((K ++ cdets).length < ndetsMax → ∀ t, t ∉ K → t ∉ cdets →
        |totalScore contribs t| ≤ scoreErr u contribs t) := by
  obtain ⟨a1, a2, a3⟩ := C174_accumulate hr hs contribs
  generalize hacc : sortAccumulateR rnd srt contribs = acc at a1 a2 a3
  have e : asciSelectSerialR rnd srt part nth ndetsMax cdets C contribs
      = asciSelectSerial srt part nth ndetsMax cdets C acc := by
    unfold asciSelectSerialR asciSelectSerial
    rw [hacc, accumulate_self hs a1]
  obtain ⟨K, k1, k2, k3, k4⟩ := C28_search hs hp hn ndetsMax cdets C acc hC hm h64 hcd
  have none : ∀ (l : List (Contrib N ℝ)) s, (¬ ∃ p ∈ l, p.state = s) → totalScore l s = 0 := by
    intro l s hne
    have : l.filter (fun p => p.state = s) = [] := by
      rw [List.filter_eq_nil_iff]
      intro p hpm
      simp only [decide_eq_true_eq]
      exact fun e => hne ⟨p, hpm, e⟩
    unfold totalScore
    rw [this]; rfl
  -- computed and exact score
  have near : ∀ s, |totalScore acc s - totalScore contribs s| ≤ scoreErr u contribs s := by
    intro s
    by_cases hx : ∃ p ∈ acc, p.state = s
    · obtain ⟨p, hpm, rfl⟩ := hx
      rw [totalScore_unique a1 hpm]
      exact a3 p hpm
    · rw [none acc s hx, none contribs s (fun h => hx ((a2 s).2 h)), sub_zero, abs_zero]
      exact scoreErr_nonneg hr.nonneg _ _
  have up : ∀ s, |totalScore acc s| ≤ |totalScore contribs s| + scoreErr u contribs s := fun s => by
    have := abs_sub_abs_le_abs_sub (totalScore acc s) (totalScore contribs s)
    linarith [near s]
  have down : ∀ s, |totalScore contribs s| ≤ |totalScore acc s| + scoreErr u contribs s := fun s => by
    have := abs_sub_abs_le_abs_sub (totalScore contribs s) (totalScore acc s)
    rw [abs_sub_comm] at this
    linarith [near s]
  refine ⟨K, e.trans k1, k3, k4, ?_, ?_, ?_⟩
  · intro s hsK
    have := (k2.sub s hsK).1
    by_contra hc
    exact this (none acc s fun h => hc ((a2 s).1 h))
  · intro s hsK t ht htc
    have : |totalScore acc t| ≤ |totalScore acc s| := by
      by_cases h0 : totalScore acc t = 0
      · rw [h0, abs_zero]; exact abs_nonneg _
      · exact k2.best s hsK t ⟨h0, htc⟩ ht
    linarith [down t, up s]
  · intro hlt t ht htc
    have h0 : totalScore acc t = 0 := by
      by_contra h0
      refine ht (k2.full ?_ t ⟨h0, htc⟩)
      rw [List.length_append] at hlt
      omega
    have := down t
    rwa [h0, abs_zero, zero_add] at this

/-- C174: a choice that is clear - `S` has the requested size and its scores exceed those of all other determinants by more
than the rounding errors - is made, whatever the library's sort, partition and nth_element do. -/
theorem C174_clear_choice (hr : RoundsTo rnd u) {srt part : List (Contrib N ℝ) → List (Contrib N ℝ)}
    {nth : Nat → List (Contrib N ℝ) → List (Contrib N ℝ)}
    (hs : SortsBy (fun x y => bitsetLess x.state y.state) srt) (hp : Rearranges part)
    (hn : NthElement (fun p : Contrib N ℝ => |p.rv|) nth)
    (ndetsMax : Nat) (cdets : List (BitVec N)) (C : List ℝ) (contribs : List (Contrib N ℝ))
    (hC : cdets.length ≤ C.length) (hm : cdets.length ≤ ndetsMax) (h64 : ndetsMax < 2 ^ 64) (hcd : cdets.Nodup)
    (S : Finset (BitVec N)) (hS : S.card = ndetsMax - cdets.length) (hSc : ∀ s ∈ S, s ∉ cdets)
    (hpos : ∀ s ∈ S, scoreErr u contribs s < |totalScore contribs s|)
    (hgap : ∀ s ∈ S, ∀ t, t ∉ S → t ∉ cdets →
      |totalScore contribs t| + scoreErr u contribs t + scoreErr u contribs s < |totalScore contribs s|) :
    ∃ K, asciSelectSerialR rnd srt part nth ndetsMax cdets C contribs = some (K ++ cdets) ∧ K.Nodup ∧
      ∀ s, s ∈ K ↔ s ∈ S := by
  obtain ⟨K, k1, k2, k3, -, k5, k6⟩ := C174_search hr hs hp hn ndetsMax cdets C contribs hC hm h64 hcd
  obtain ⟨nd, -, disj⟩ := List.nodup_append.1 k2
  rw [List.length_append] at k3
  have hK : K.toFinset.card = K.length := List.toFinset_card_of_nodup nd
  have sub : S ⊆ K.toFinset := by
    intro s hsS
    rw [List.mem_toFinset]
    by_contra hsK
    by_cases full : (K ++ cdets).length < ndetsMax
    · have := k6 full s hsK (hSc s hsS)
      linarith [hpos s hsS]
    · rw [List.length_append] at full
      obtain ⟨t, htK, htS⟩ : ∃ t ∈ K, t ∉ S := by
        by_contra hc
        push Not at hc
        have h1 : K.toFinset ⊆ S := fun t ht => hc t (List.mem_toFinset.1 ht)
        have h2 : K.toFinset = S := Finset.eq_of_subset_of_card_le h1 (by omega)
        rw [← h2, List.mem_toFinset] at hsS
        exact hsK hsS
      have h1 := k5 t htK s hsK (hSc s hsS)
      have h2 := hgap s hsS t htS (fun h => disj t htK t h rfl)
      linarith [scoreErr_nonneg hr.nonneg contribs t]
  have eq : S = K.toFinset := Finset.eq_of_subset_of_card_le sub (by omega)
  refine ⟨K, k1, nd, fun s => ?_⟩
  rw [eq, List.mem_toFinset]

/-! ### the order of the contributions matters -/

/-- one determinant with contributions `1` and four times `2^-53`, another with `1 + 2^-52` -/
noncomputable def orderContribs : List (Contrib 4 ℝ) :=
  [⟨1, 1⟩, ⟨1, 2 ^ (-53 : ℤ)⟩, ⟨1, 2 ^ (-53 : ℤ)⟩, ⟨1, 2 ^ (-53 : ℤ)⟩, ⟨1, 2 ^ (-53 : ℤ)⟩, ⟨2, 1 + 2 ^ (-52 : ℤ)⟩]

theorem reverse_sorts : SortsBy (fun x y : Contrib N ℝ => bitsetLess x.state y.state) (fun l => exSort l.reverse) :=
  fun l => ⟨(exSort_sorts l.reverse).1.trans (List.reverse_perm l), (exSort_sorts l.reverse).2⟩

theorem pick_one {x y : ℝ} (hx : 0 < x) (hxy : x < y) {a b : BitVec 4} (hab : a ≠ b) {l : List (Contrib 4 ℝ)}
    (hl : ∀ s, totalScore l s = if s = a then x else if s = b then y else 0)
    {srt part : List (Contrib 4 ℝ) → List (Contrib 4 ℝ)} {nth : Nat → List (Contrib 4 ℝ) → List (Contrib 4 ℝ)}
    (hs : SortsBy (fun x y => bitsetLess x.state y.state) srt) (hp : Rearranges part)
    (hn : NthElement (fun p : Contrib 4 ℝ => |p.rv|) nth) :
    asciSelectSerial srt part nth 1 [] [] l = some [b] := by
  obtain ⟨K, k1, k2, -, k4⟩ := C28_search hs hp hn 1 [] [] l le_rfl (by simp) (by norm_num) List.nodup_nil
  rw [List.append_nil] at k1 k4
  have ca : Candidate l [] a := ⟨by rw [hl, if_pos rfl]; exact hx.ne', by simp⟩
  have cb : Candidate l [] b := ⟨by rw [hl, if_neg hab.symm, if_pos rfl]; exact (hx.trans hxy).ne', by simp⟩
  have hb : b ∈ K := by
    by_contra hb
    match K, k1, k2, k4, hb with
    | [], _, k2, _, hb => exact hb (k2.full (by simp) b cb)
    | [c], _, k2, _, hb =>
      have := k2.best c (by simp) b cb hb
      rw [hl, hl, if_neg hab.symm, if_pos rfl, abs_of_pos (hx.trans hxy)] at this
      split_ifs at this with h1 h2
      · rw [abs_of_pos hx] at this; linarith
      · exact hb (by simp [h2])
      · rw [abs_zero] at this; linarith
    | _ :: _ :: _, _, _, k4, _ => simp at k4
  rw [k1]
  match K, k4, hb with
  | [c], _, hb => rw [List.mem_singleton] at hb; rw [hb]
  | _ :: _ :: _, k4, _ => simp at k4

/-- C174: the scores, and with them the determinants selected, can depend on the order in which the library's (unstable)
sort leaves the contributions of one determinant: here one sort leads to determinant 2 and another to determinant 1, with
whatever partition and nth_element. -/
theorem C174_order_matters {rnd : ℝ → ℝ} (h : DoubleLike rnd) :
    ∃ (l : List (Contrib 4 ℝ)) (srt1 srt2 : List (Contrib 4 ℝ) → List (Contrib 4 ℝ)),
      SortsBy (fun x y => bitsetLess x.state y.state) srt1 ∧ SortsBy (fun x y => bitsetLess x.state y.state) srt2 ∧
      ∀ part nth, Rearranges part → NthElement (fun p : Contrib 4 ℝ => |p.rv|) nth →
        asciSelectSerialR rnd srt1 part nth 1 [] [] l = some [2#4] ∧
        asciSelectSerialR rnd srt2 part nth 1 [] [] l = some [1#4] := by
  refine ⟨orderContribs, exSort, fun l => exSort l.reverse, exSort_sorts, reverse_sorts, fun part nth hp hn => ?_⟩
  have r2 : rnd (2 ^ (-52 : ℤ)) = 2 ^ (-52 : ℤ) := by simpa using h.keep 1 (-52) (by norm_num)
  have r3 : rnd (3 * 2 ^ (-53 : ℤ)) = 3 * 2 ^ (-53 : ℤ) := by simpa using h.keep 3 (-53) (by norm_num)
  have r4 : rnd (2 ^ (-51 : ℤ)) = 2 ^ (-51 : ℤ) := by simpa using h.keep 1 (-51) (by norm_num)
  have r5 : rnd (2 ^ (-51 : ℤ) + 1) = 2 ^ (-51 : ℤ) + 1 := by
    have := h.keep (2 ^ 51 + 1) (-51) (by norm_num)
    rw [show (((2 ^ 51 + 1 : Nat) : ℝ) * 2 ^ (-51 : ℤ)) = 2 ^ (-51 : ℤ) + 1 by norm_num] at this
    exact this
  have s1 : exSort orderContribs = orderContribs := by
    simp [orderContribs, exSort]
  have s2 : exSort orderContribs.reverse = [⟨1, 2 ^ (-53 : ℤ)⟩, ⟨1, 2 ^ (-53 : ℤ)⟩, ⟨1, 2 ^ (-53 : ℤ)⟩,
      ⟨1, 2 ^ (-53 : ℤ)⟩, ⟨1, 1⟩, ⟨2, 1 + 2 ^ (-52 : ℤ)⟩] := by
    simp [orderContribs, exSort]
  have a1 : sortAccumulateR rnd exSort orderContribs = [⟨1, 1⟩, ⟨2, 1 + 2 ^ (-52 : ℤ)⟩] := by
    unfold sortAccumulateR sortCombine
    rw [s1]
    simp only [orderContribs, List.isEmpty_cons, combineRun]
    simp only [h.down, ne_eq, not_true_eq_false, if_false, Bool.false_eq_true]
    simp [uniqueFrom]
  have a2 : sortAccumulateR rnd (fun l => exSort l.reverse) orderContribs
      = [⟨1, 2 ^ (-51 : ℤ) + 1⟩, ⟨2, 1 + 2 ^ (-52 : ℤ)⟩] := by
    unfold sortAccumulateR sortCombine
    dsimp only
    rw [s2]
    simp only [orderContribs, List.isEmpty_cons, combineRun]
    simp only [ne_eq, not_true_eq_false, if_false, Bool.false_eq_true]
    rw [show (2 : ℝ) ^ (-53 : ℤ) + 2 ^ (-53 : ℤ) = 2 ^ (-52 : ℤ) by norm_num, r2,
      show (2 : ℝ) ^ (-52 : ℤ) + 2 ^ (-53 : ℤ) = 3 * 2 ^ (-53 : ℤ) by norm_num, r3,
      show 3 * (2 : ℝ) ^ (-53 : ℤ) + 2 ^ (-53 : ℤ) = 2 ^ (-51 : ℤ) by norm_num, r4, r5]
    simp [uniqueFrom]
  have key : ∀ srt, SortsBy (fun x y => bitsetLess x.state y.state) srt → ∀ x y : ℝ,
      sortAccumulateR rnd srt orderContribs = [⟨1, x⟩, ⟨2, y⟩] →
      asciSelectSerialR rnd srt part nth 1 [] [] orderContribs
        = asciSelectSerial srt part nth 1 [] [] [⟨1, x⟩, ⟨2, y⟩] := by
    intro srt hs x y e
    unfold asciSelectSerialR asciSelectSerial
    rw [e, accumulate_self hs]
    simp
  have ts : ∀ (x y : ℝ) (s : BitVec 4), totalScore [⟨1, x⟩, ⟨2, y⟩] s = if s = 1#4 then x else if s = 2#4 then y else 0 := by
    intro x y s
    unfold totalScore
    by_cases h1 : s = 1#4
    · subst h1; simp
    · by_cases h2 : s = 2#4
      · subst h2; simp
      · have e1 : ¬ (1#4 = s) := fun e => h1 e.symm
        have e2 : ¬ (2#4 = s) := fun e => h2 e.symm
        simp [h1, h2, e1, e2]
  constructor
  · rw [key _ exSort_sorts _ _ a1]
    refine pick_one (x := 1) (y := 1 + 2 ^ (-52 : ℤ)) (by norm_num) (by norm_num) (a := 1#4) (b := 2#4) (by decide) (ts _ _)
      exSort_sorts hp hn
  · rw [key _ reverse_sorts _ _ a2]
    refine pick_one (x := 1 + 2 ^ (-52 : ℤ)) (y := 2 ^ (-51 : ℤ) + 1) (by norm_num) (by norm_num) (a := 2#4) (b := 1#4)
      (by decide) (fun s => ?_) reverse_sorts hp hn
    rw [ts]
    by_cases h1 : s = 1#4
    · subst h1; simp
    · by_cases h2 : s = 2#4 <;> simp [h1, h2]

/-- example: `double` rounded towards zero; determinants 3 and 9 are a clear choice over 5 -/
example : ∃ K, asciSelectSerialR (N := 4) (chop 52) exSort id (fun _ => List.insertionSort fun x y => |y.rv| ≤ |x.rv|) 3
      [1#4] [1] [⟨5, 1⟩, ⟨3, 10⟩, ⟨5, 2⟩, ⟨9, -4⟩] = some (K ++ [1#4]) ∧ K.Nodup ∧
      ∀ s, s ∈ K ↔ s ∈ ({3#4, 9#4} : Finset (BitVec 4)) := by
  have hf : ∀ s : BitVec 4, ([⟨5, 1⟩, ⟨3, 10⟩, ⟨5, 2⟩, ⟨9, -4⟩] : List (Contrib 4 ℝ)).filter (fun p => p.state = s)
      = if s = 3#4 then [⟨3, 10⟩] else if s = 9#4 then [⟨9, -4⟩] else if s = 5#4 then [⟨5, 1⟩, ⟨5, 2⟩] else [] := by
    intro s
    have t : ∀ {a : BitVec 4}, (a = s) = (s = a) := fun {a} => propext eq_comm
    by_cases h1 : s = 3#4
    · subst h1; simp
    · by_cases h2 : s = 9#4
      · subst h2; simp
      · by_cases h3 : s = 5#4
        · subst h3; simp
        · simp [h1, h2, h3, t]
  have sc : ∀ s : BitVec 4, totalScore ([⟨5, 1⟩, ⟨3, 10⟩, ⟨5, 2⟩, ⟨9, -4⟩] : List (Contrib 4 ℝ)) s
      = if s = 3#4 then 10 else if s = 9#4 then -4 else if s = 5#4 then 3 else 0 := by
    intro s
    unfold totalScore
    rw [hf]
    split_ifs <;> norm_num
  have er : ∀ s : BitVec 4, scoreErr (2 ^ (-((52 : Nat) : ℤ))) ([⟨5, 1⟩, ⟨3, 10⟩, ⟨5, 2⟩, ⟨9, -4⟩] : List (Contrib 4 ℝ)) s
      = if s = 5#4 then 3 * 2 ^ (-((52 : Nat) : ℤ)) else 0 := by
    intro s
    unfold scoreErr
    rw [hf]
    by_cases h1 : s = 3#4
    · subst h1; simp
    · by_cases h2 : s = 9#4
      · subst h2; simp
      · by_cases h3 : s = 5#4
        · subst h3
          rw [if_neg h1, if_neg h2, if_pos rfl, if_pos rfl]
          norm_num
        · simp [h1, h2, h3]
  refine C174_clear_choice (chop_rounds 52) exSort_sorts (fun l => List.Perm.refl l) (exNth_spec _ _ rfl) 3 [1#4] [1] _
    le_rfl (by simp) (by norm_num) (by simp) {3#4, 9#4} (by decide) (by decide) ?_ ?_
  · intro s hs
    rw [er, sc]
    rw [Finset.mem_insert, Finset.mem_singleton] at hs
    have e1 : ¬ (3#4 = 5#4) := by decide
    have e2 : ¬ (9#4 = 5#4) := by decide
    have e3 : ¬ (9#4 = 3#4) := by decide
    rcases hs with rfl | rfl
    · rw [if_neg e1, if_pos rfl]; norm_num
    · rw [if_neg e2, if_neg e3, if_pos rfl]; norm_num
  · intro s hs t ht htc
    rw [er, er, sc, sc]
    rw [Finset.mem_insert, Finset.mem_singleton] at hs
    rw [Finset.mem_insert, Finset.mem_singleton, not_or] at ht
    rw [if_neg ht.1, if_neg ht.2]
    have e1 : ¬ (3#4 = 5#4) := by decide
    have e2 : ¬ (9#4 = 5#4) := by decide
    have e3 : ¬ (9#4 = 3#4) := by decide
    rcases hs with rfl | rfl
    · rw [if_neg e1, if_pos rfl]
      by_cases h5 : t = 5#4
      · rw [if_pos h5, if_pos h5]; norm_num
      · rw [if_neg h5, if_neg h5]; norm_num
    · rw [if_neg e2, if_neg e3, if_pos rfl]
      by_cases h5 : t = 5#4
      · rw [if_pos h5, if_pos h5]; norm_num
      · rw [if_neg h5, if_neg h5]; norm_num

end Macis
