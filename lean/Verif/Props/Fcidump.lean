import Verif.Lemmas.Fcidump
import Verif.Props.WfnIO

/-! Properties C35, C36, C76, C77: FCIDUMP files. -/
namespace Macis
open Spec

/-! ### C36: what reading a file means -/

/-- C36: a line that shows four indices and a number, in either order and with any spacing, is read
as that entry. -/
theorem C36_line {R : Type} (io : NumIO R) (l : List Char) (p q r s : Nat) (v : R)
    (h : Shows io l p q r s v) (hp : p < 2147483648) (hq : q < 2147483648) (hr : r < 2147483648)
    (hs : s < 2147483648) : fcidumpRow io l = some (some ⟨p, q, r, s, v⟩) :=
  fcidumpRow_shows h hp hq hr hs

/-- C36: index classification: all zero is the core energy, all non-zero is a two-electron integral,
everything else (in particular `p q 0 0`) counts as a one-electron integral. -/
theorem C36_classification (p q r s : Nat) :
    (lineClassification p q r s = .core ↔ p = 0 ∧ q = 0 ∧ r = 0 ∧ s = 0) ∧
    (lineClassification p q r s = .twoBody ↔ 0 < p ∧ 0 < q ∧ 0 < r ∧ 0 < s) ∧
    (lineClassification (p + 1) (q + 1) 0 0 = .oneBody) := by
  refine ⟨?_, ?_, by simp [lineClassification]⟩
  · rw [lineClassification]
    split
    · simp; assumption
    · rename_i h; split <;> simp <;> omega
  · rw [lineClassification]
    split
    · simp; omega
    · split
      · simp; omega
      · simp; omega

/-- C36: the orbital count is the largest index in the file. -/
theorem C36_norb {R : Type} (io : NumIO R) (file : List Char) (es : List (FciEntry R))
    (h : Entries io (fileLines file) es) :
    ∃ n, readFcidumpNorb io file = .ok n ∧
      (∀ e ∈ es, e.p ≤ n ∧ e.q ≤ n ∧ e.r ≤ n ∧ e.s ≤ n) ∧
      (n = 0 ∨ ∃ e ∈ es, e.p = n ∨ e.q = n ∨ e.r = n ∨ e.s = n) := by
  refine ⟨maxIdx es, readNorb_entries h, fun e he => maxIdx_ge he, ?_⟩
  rw [maxIdx]
  have key : ∀ (l : List Nat) (a : Nat), l.foldl max a = a ∨ l.foldl max a ∈ l := by
    intro l
    induction l with
    | nil => intro a; simp
    | cons b l ih =>
      intro a
      rw [List.foldl_cons]
      rcases ih (max a b) with h | h
      · rw [h]
        rcases max_choice a b with h' | h' <;> simp [h']
      · simp [h]
  rcases key (es.flatMap fun e => [e.p, e.q, e.r, e.s]) 0 with h | h
  · left; exact h
  · right
    generalize (List.foldl max 0 (es.flatMap fun e => [e.p, e.q, e.r, e.s])) = n at h ⊢
    obtain ⟨e, he, hm⟩ := List.mem_flatMap.mp h
    refine ⟨e, he, ?_⟩
    simp at hm; omega

/-- C36: the core energy is the value of the first `0 0 0 0` line, or zero. -/
theorem C36_core {R : Type} [Zero R] (io : NumIO R) (file : List Char) (es : List (FciEntry R))
    (h : Entries io (fileLines file) es) :
    readFcidumpCore io file = .ok (((es.find? fun e =>
      e.p = 0 ∧ e.q = 0 ∧ e.r = 0 ∧ e.s = 0).map FciEntry.val).getD 0) := by
  rw [readFcidumpCore, readCore_entries h]
  congr 4
  funext e
  rw [decide_eq_decide]
  exact (C36_classification e.p e.q e.r e.s).1

/-- C36: after reading the one-body integrals, element `(p,q)` holds the value of the last line that
gives `h_pq` or `h_qp`, or what it held before; nothing outside the `norb x norb` block changes. -/
theorem C36_one_body {R : Type} (io : NumIO R) (file : List Char) (es : List (FciEntry R))
    (h : Entries io (fileLines file) es) (hst : ∀ e ∈ es, Standard e) (norb ldt : Nat)
    (hn : readFcidumpNorb io file = .ok norb) (hld : norb ≤ ldt) (T : Nat → R) :
    ∃ T', readFcidump1body io file ldt T = .ok T' ∧
      (∀ p q, p < norb → q < norb →
        T' (p + q * ldt) =
          ((lastSuch (givesOne p q) es).map FciEntry.val).getD (T (p + q * ldt))) ∧
      (∀ a, (∀ p q, p < norb → q < norb → a ≠ p + q * ldt) → T' a = T a) := by
  have hn' : norb = maxIdx es := by
    rw [readNorb_entries h, Run.ok.injEq] at hn; exact hn.symm
  refine ⟨_, by
    rw [readFcidump1body, hn, Run.bind, readFcidump1bodySpan, if_neg (by simp), hn, Run.bind,
      if_neg (by simp), fciLoop_entries _ h, run1_entries ldt es hst], ?_, ?_⟩
  · intro p q hp hq
    rw [storeAll_groups (writes1 ldt) FciEntry.val (writes1_val ldt)]
    congr 2
    apply lastSuch_congr
    intro e he
    obtain ⟨h1, h2, _, _⟩ := maxIdx_ge he
    exact writes1_hit (hst e he) hld (by omega) (by omega) hp
  · intro a ha
    rw [storeAll_groups (writes1 ldt) FciEntry.val (writes1_val ldt), lastSuch_none]
    · rfl
    · intro e he
      obtain ⟨h1, h2, _, _⟩ := maxIdx_ge he
      rw [List.any_eq_false]
      intro w hw
      rw [writes1] at hw
      split at hw
      · rename_i hc
        obtain ⟨b1, b2, _, _⟩ := (standard_class (hst e he)).2.mp hc
        simp only [List.mem_cons, List.not_mem_nil, or_false] at hw
        rcases hw with rfl | rfl
        · have := ha (e.p - 1) (e.q - 1) (by omega) (by omega)
          simpa using fun h => this h.symm
        · have := ha (e.q - 1) (e.p - 1) (by omega) (by omega)
          simpa using fun h => this h.symm
      · simp at hw

theorem givesOne_comm {R : Type} (p q : Nat) (e : FciEntry R) : givesOne p q e = givesOne q p e := by
  rw [Bool.eq_iff_iff]; simp [givesOne]; tauto

/-- C36: symmetric storage in, symmetric one-body integrals out, whatever the lines. -/
theorem C36_one_body_symmetric {R : Type} (io : NumIO R) (file : List Char) (es : List (FciEntry R))
    (h : Entries io (fileLines file) es) (hst : ∀ e ∈ es, Standard e) (norb ldt : Nat)
    (hn : readFcidumpNorb io file = .ok norb) (hld : norb ≤ ldt) (T : Nat → R)
    (hT : Sym2 norb ldt T) :
    ∃ T', readFcidump1body io file ldt T = .ok T' ∧ Sym2 norb ldt T' := by
  obtain ⟨T', h1, h2, _⟩ := C36_one_body io file es h hst norb ldt hn hld T
  refine ⟨T', h1, fun p q hp hq => ?_⟩
  rw [h2 p q hp hq, h2 q p hq hp, hT p q hp hq,
    show (givesOne (R := R) p q) = givesOne q p from funext (givesOne_comm p q)]

/-- C36: after reading the two-body integrals, element `(p,q,r,s)` holds the value of the last line
that gives `(pq|rs)` up to the eight permutations, or what it held before; nothing outside the block
changes. -/
theorem C36_two_body {R : Type} (io : NumIO R) (file : List Char) (es : List (FciEntry R))
    (h : Entries io (fileLines file) es) (norb ldv : Nat)
    (hn : readFcidumpNorb io file = .ok norb) (hld : norb ≤ ldv) (V : Nat → R) :
    ∃ V', readFcidump2body io file ldv V = .ok V' ∧
      (∀ p q r s, p < norb → q < norb → r < norb → s < norb →
        V' (addr4 ldv p q r s) =
          ((lastSuch (givesTwo p q r s) es).map FciEntry.val).getD (V (addr4 ldv p q r s))) ∧
      (∀ a, (∀ p q r s, p < norb → q < norb → r < norb → s < norb → a ≠ addr4 ldv p q r s) →
        V' a = V a) := by
  have hn' : norb = maxIdx es := by
    rw [readNorb_entries h, Run.ok.injEq] at hn; exact hn.symm
  refine ⟨_, by
    rw [readFcidump2body, hn, Run.bind, readFcidump2bodySpan, if_neg (by simp), if_neg (by simp),
      if_neg (by simp), hn, Run.bind, if_neg (by simp), fciLoop_entries _ h, run2_entries ldv es],
    ?_, ?_⟩
  · intro p q r s hp hq hr hs
    rw [storeAll_groups (writes2 ldv) FciEntry.val (writes2_val ldv)]
    congr 2
    apply lastSuch_congr
    intro e he
    obtain ⟨h1, h2, h3, h4⟩ := maxIdx_ge he
    exact writes2_hit hld (by omega) (by omega) (by omega) (by omega) hp hq hr
  · intro a ha
    rw [storeAll_groups (writes2 ldv) FciEntry.val (writes2_val ldv), lastSuch_none]
    · rfl
    · intro e he
      obtain ⟨h1, h2, h3, h4⟩ := maxIdx_ge he
      rw [List.any_eq_false]
      intro w hw
      rw [writes2] at hw
      split at hw
      · rename_i hc
        obtain ⟨b1, b2, b3, b4⟩ := (C36_classification e.p e.q e.r e.s).2.1.mp hc
        simp only [List.mem_cons, List.not_mem_nil, or_false] at hw
        rcases hw with rfl | rfl | rfl | rfl | rfl | rfl | rfl | rfl <;>
        · rw [beq_iff_eq]
          intro hh
          refine ha _ _ _ _ ?_ ?_ ?_ ?_ (Eq.symm hh) <;> omega
      · simp at hw

theorem givesTwo_swap {R : Type} (p q r s : Nat) (e : FciEntry R) :
    givesTwo p q r s e = givesTwo q p r s e ∧ givesTwo p q r s e = givesTwo p q s r e ∧
    givesTwo p q r s e = givesTwo r s p q e := by
  refine ⟨?_, ?_, ?_⟩ <;>
  · simp only [givesTwo]
    generalize (e.p, e.q, e.r, e.s) = t
    ac_rfl

/-- C36: symmetric storage in, eight-fold symmetric two-body integrals out, whatever the lines. -/
theorem C36_two_body_symmetric {R : Type} (io : NumIO R) (file : List Char) (es : List (FciEntry R))
    (h : Entries io (fileLines file) es) (norb ldv : Nat)
    (hn : readFcidumpNorb io file = .ok norb) (hld : norb ≤ ldv) (V : Nat → R)
    (hV : Sym8 norb ldv V) :
    ∃ V', readFcidump2body io file ldv V = .ok V' ∧ Sym8 norb ldv V' := by
  obtain ⟨V', h1, h2, _⟩ := C36_two_body io file es h norb ldv hn hld V
  refine ⟨V', h1, fun p q r s hp hq hr hs => ?_⟩
  obtain ⟨s1, s2, s3⟩ := hV p q r s hp hq hr hs
  rw [h2 p q r s hp hq hr hs, h2 q p r s hq hp hr hs, h2 p q s r hp hq hs hr,
    h2 r s p q hr hs hp hq, ← s1, ← s2, ← s3,
    show (givesTwo (R := R) q p r s) = givesTwo p q r s from
      funext fun e => (givesTwo_swap p q r s e).1.symm,
    show (givesTwo (R := R) p q s r) = givesTwo p q r s from
      funext fun e => (givesTwo_swap p q r s e).2.1.symm,
    show (givesTwo (R := R) r s p q) = givesTwo p q r s from
      funext fun e => (givesTwo_swap p q r s e).2.2.symm]
  exact ⟨rfl, rfl, rfl⟩

/-- C36: views that are not square, or whose size is not the orbital count of the file, are
rejected before anything is stored. -/
theorem C36_dimension_checks {R : Type} (io : NumIO R) (file : List Char) (norb : Nat)
    (hn : readFcidumpNorb io file = .ok norb) (T V : Nat → R) (ld e0 e1 e2 e3 : Nat) :
    ((e0 ≠ norb ∨ e1 ≠ norb) → readFcidump1bodySpan io file e0 e1 ld T = .throw) ∧
    ((e0 ≠ norb ∨ e1 ≠ norb ∨ e2 ≠ norb ∨ e3 ≠ norb) →
      readFcidump2bodySpan io file e0 e1 e2 e3 ld V = .throw) := by
  constructor
  · intro h
    rw [readFcidump1bodySpan]
    split
    · rfl
    · rw [hn, Run.bind, if_pos (by omega)]
  · intro h
    rw [readFcidump2bodySpan]
    split
    · rfl
    split
    · rfl
    split
    · rfl
    · rw [hn, Run.bind, if_pos (by omega)]

theorem stoi_neg {n : Nat} : stoi ('-' :: showNat (n + 1)) = none ∨
    ∃ v, stoi ('-' :: showNat (n + 1)) = some v ∧ v < 0 := by
  have hd : ∀ x ∈ showNat (n + 1), x.isDigit = true := fun x hx => showNat_digit hx
  have e1 : ('-' :: showNat (n + 1)).dropWhile isSpaceC = '-' :: showNat (n + 1) := by
    rw [List.dropWhile_cons_of_neg (by decide)]
  have e2 : (showNat (n + 1)).takeWhile Char.isDigit = showNat (n + 1) := by
    rw [List.takeWhile_eq_self_iff]; exact hd
  have e4 : (showNat (n + 1)).isEmpty = false := by
    obtain ⟨c, cs, hc⟩ := List.exists_cons_of_ne_nil (showNat_ne_nil (n + 1))
    rw [hc]; rfl
  have e5 : Nat.ofDigitChars 10 (showNat (n + 1)) 0 = n + 1 := Nat.ofDigitChars_ten_toDigits
  simp only [stoi, e1, List.head?_cons, if_true, List.tail_cons, decide_true, Bool.true_or, e2, e4,
    Bool.false_eq_true, if_false, e5]
  split
  · right; exact ⟨_, rfl, by omega⟩
  · left; rfl

/-- C36: a line with a negative index, wherever it stands, is rejected. -/
theorem C36_negative_index_rejected {R : Type} (io : NumIO R) (a b c d x : List Char) (n : Nat)
    (hx : isFloat x = true) (h : '-' :: showNat (n + 1) ∈ [a, b, c, d])
    (hf : ∀ t ∈ [a, b, c, d], isFloat t = false) :
    fcidumpLine io a b c d x = none ∧ fcidumpLine io x a b c d = none := by
  have key : ∀ (v : Option R), (match stoi a, stoi b, stoi c, stoi d, v with
      | some p, some q, some r, some s, some v =>
        if p < 0 ∨ q < 0 ∨ r < 0 ∨ s < 0 then none
        else some (⟨p.toNat, q.toNat, r.toNat, s.toNat, v⟩ : FciEntry R)
      | _, _, _, _, _ => none) = none := by
    intro v
    split
    · rename_i p q r s v h1 h2 h3 h4
      rw [if_pos]
      rcases stoi_neg (n := n) with hn | ⟨w, hw, hlt⟩ <;>
      · simp only [List.mem_cons, List.not_mem_nil, or_false] at h
        rcases h with rfl | rfl | rfl | rfl <;> simp_all
    · rfl
  have ha := hf a (by simp)
  have hd := hf d (by simp)
  constructor
  · simp only [fcidumpLine, hx, ha, Bool.and_false, Bool.false_eq_true, if_false, if_true]
    exact key _
  · simp only [fcidumpLine, hx, hd, Bool.false_and, Bool.false_eq_true, if_false]
    exact key _

/-! ### C35: round trip -/

theorem blank0_replicate (n : Nat) : Blank0 (List.replicate n ' ') := by
  intro c hc; exact (List.mem_replicate.mp hc).2

theorem blank_cons {s : List Char} (h : Blank0 s) : Blank (' ' :: s) :=
  ⟨by simp, by intro c hc; rw [List.mem_cons] at hc; rcases hc with rfl | hc; rfl; exact h c hc⟩

theorem Spec.NumIO.Faithful.at {R : Type} {io : NumIO R} (h : NumIO.Faithful io) (x : R) : NumIO.FaithfulAt io x :=
  ⟨h.roundTrip x, h.oneWord x, h.floatLike x⟩

theorem fmt_ne_nil_at {R : Type} {io : NumIO R} {x : R} (h : NumIO.FaithfulAt io x) : io.fmt x ≠ [] := by
  obtain ⟨c, hc, -⟩ := h.floatLike
  exact List.ne_nil_of_mem hc

theorem fciFmt_shows {R : Type} {io : NumIO R} (p q r s : Nat) {x : R} (hio : NumIO.FaithfulAt io x) :
    Shows io (fciFmt io p q r s x) p q r s x := by
  refine ⟨io.fmt x, List.replicate (8 - (showNat p).length) ' ',
    ' ' :: List.replicate (8 - (showNat q).length) ' ',
    ' ' :: List.replicate (8 - (showNat r).length) ' ',
    ' ' :: List.replicate (8 - (showNat s).length) ' ',
    ' ' :: List.replicate (25 - (io.fmt x).length) ' ', [], hio.roundTrip, ?_, fmt_ne_nil_at hio,
    hio.floatLike, blank0_replicate _, blank_cons (blank0_replicate _),
    blank_cons (blank0_replicate _), blank_cons (blank0_replicate _),
    blank_cons (blank0_replicate _), by intro c hc; simp at hc, Or.inl ?_⟩
  · intro c hc h
    have := hio.oneWord c hc
    subst h; revert this; decide
  · simp [fciFmt, padLeft]

theorem fciFmt_no_newline {R : Type} {io : NumIO R} (p q r s : Nat)
    {x : R} (hio : NumIO.FaithfulAt io x) : ∀ c ∈ fciFmt io p q r s x, c ≠ '\n' := by
  intro c hc
  have hd : ∀ {n : Nat}, c ∈ showNat n → c ≠ '\n' := fun h =>
    not_space_ne_newline (showNat_not_space h)
  have hr : ∀ {n : Nat}, (n ≠ 0 ∧ c = ' ') → c ≠ '\n' := by
    intro n h; rw [h.2]; decide
  simp only [fciFmt, padLeft, List.mem_append, List.mem_cons, List.mem_replicate] at hc
  rcases hc with ((((h | h) | h | h | h) | h | h | h) | h | h | h) | h | h | h <;>
  first
    | exact hr h
    | exact hd h
    | (rw [h]; decide)
    | exact not_space_ne_newline (hio.oneWord c h)

/-- the entries of a written file -/
def dumpEntries {R : Type} (norb : Nat) (T : Nat → R) (ldt : Nat) (V : Nat → R) (ldv : Nat)
    (ecore : R) : List (FciEntry R) :=
  ((List.range norb).flatMap fun i => (List.range norb).flatMap fun j =>
    (List.range norb).flatMap fun k => (List.range norb).map fun l =>
      ⟨i + 1, j + 1, k + 1, l + 1, V (addr4 ldv i j k l)⟩) ++
  ((List.range norb).flatMap fun i => (List.range norb).map fun j =>
    ⟨i + 1, j + 1, 0, 0, T (i + j * ldt)⟩) ++
  [⟨0, 0, 0, 0, ecore⟩]

theorem fcidumpLines_eq {R : Type} (io : NumIO R) (norb : Nat) (T : Nat → R) (ldt : Nat)
    (V : Nat → R) (ldv : Nat) (ecore : R) :
    fcidumpLines io norb T ldt V ldv ecore =
      (dumpEntries norb T ldt V ldv ecore).map fun e => fciFmt io e.p e.q e.r e.s e.val := by
  simp only [fcidumpLines, dumpEntries, List.map_append, List.map_flatMap, List.map_map,
    Function.comp_def, List.map_cons, List.map_nil, addr4]

theorem dump_mem {R : Type} {norb : Nat} {T : Nat → R} {ldt : Nat} {V : Nat → R} {ldv : Nat}
    {ecore : R} {e : FciEntry R} : e ∈ dumpEntries norb T ldt V ldv ecore ↔
      (∃ i j k l, i < norb ∧ j < norb ∧ k < norb ∧ l < norb ∧
        e = ⟨i + 1, j + 1, k + 1, l + 1, V (addr4 ldv i j k l)⟩) ∨
      (∃ i j, i < norb ∧ j < norb ∧ e = ⟨i + 1, j + 1, 0, 0, T (i + j * ldt)⟩) ∨
      e = ⟨0, 0, 0, 0, ecore⟩ := by
  simp only [dumpEntries, List.mem_append, List.mem_flatMap, List.mem_map, List.mem_range,
    List.mem_singleton]
  constructor
  · rintro ((⟨i, hi, j, hj, k, hk, l, hl, rfl⟩ | ⟨i, hi, j, hj, rfl⟩) | rfl)
    · exact Or.inl ⟨i, j, k, l, hi, hj, hk, hl, rfl⟩
    · exact Or.inr (Or.inl ⟨i, j, hi, hj, rfl⟩)
    · exact Or.inr (Or.inr rfl)
  · rintro (⟨i, j, k, l, hi, hj, hk, hl, rfl⟩ | ⟨i, j, hi, hj, rfl⟩ | rfl)
    · exact Or.inl (Or.inl ⟨i, hi, j, hj, k, hk, l, hl, rfl⟩)
    · exact Or.inl (Or.inr ⟨i, hi, j, hj, rfl⟩)
    · exact Or.inr rfl

theorem entries_map {R : Type} {io : NumIO R} (es : List (FciEntry R)) (hio : ∀ e ∈ es, NumIO.FaithfulAt io e.val)
    (h : ∀ e ∈ es, e.p < 2147483648 ∧ e.q < 2147483648 ∧ e.r < 2147483648 ∧ e.s < 2147483648) :
    Entries io (es.map fun e => fciFmt io e.p e.q e.r e.s e.val) es := by
  induction es with
  | nil => exact .nil
  | cons e es ih =>
    obtain ⟨h1, h2, h3, h4⟩ := h e (by simp)
    exact .entry (fciFmt_shows _ _ _ _ (hio e (by simp))) h1 h2 h3 h4
      (ih (fun e he => hio e (by simp [he])) (fun e he => h e (by simp [he])))

/-- the value found by the last matching entry, when all matching entries agree and one exists -/
theorem lastSuch_value {α R : Type} {P : α → Bool} {l : List α} {val : α → R} {v d : R}
    (hex : ∃ a ∈ l, P a = true) (hall : ∀ a ∈ l, P a = true → val a = v) :
    ((lastSuch P l).map val).getD d = v := by
  rw [lastSuch]
  cases hf : l.reverse.find? P with
  | none =>
    rw [List.find?_eq_none] at hf
    obtain ⟨a, ha, hP⟩ := hex
    exact absurd hP (hf a (List.mem_reverse.mpr ha))
  | some a =>
    have h1 := List.find?_some hf
    have h2 := List.mem_of_find?_eq_some hf
    exact hall a (List.mem_reverse.mp h2) h1

/-- C35: a file newly written by `write_fcidump` from symmetric integrals reads back to the same
orbital count, core energy, one- and two-electron integrals, for any leading dimensions on both
sides and whatever the destination arrays held before. -/
theorem C35_round_trip {R : Type} [Zero R] (io : NumIO R) (hio : NumIO.Faithful io) (norb : Nat)
    (hnorb : norb < 2147483647) (T V : Nat → R) (ldt ldv : Nat)
    (ecore : R) (hT : Sym2 norb ldt T) (hV : Sym8 norb ldv V) :
    ∃ file, writeFcidump io norb T ldt V ldv ecore ⟨false, []⟩ = .ok ⟨true, file⟩ ∧
      readFcidumpNorb io file = .ok norb ∧
      readFcidumpCore io file = .ok ecore ∧
      (∀ (T0 : Nat → R) (ld : Nat), norb ≤ ld → ∃ T', readFcidump1body io file ld T0 = .ok T' ∧
        ∀ p q, p < norb → q < norb → T' (p + q * ld) = T (p + q * ldt)) ∧
      (∀ (V0 : Nat → R) (ld : Nat), norb ≤ ld → ∃ V', readFcidump2body io file ld V0 = .ok V' ∧
        ∀ p q r s, p < norb → q < norb → r < norb → s < norb →
          V' (addr4 ld p q r s) = V (addr4 ldv p q r s)) := by
  set es := dumpEntries norb T ldt V ldv ecore with hes
  set file := (fcidumpLines io norb T ldt V ldv ecore).flatMap fun l => l ++ ['\n'] with hfile
  have hlines : fileLines file = es.map fun e => fciFmt io e.p e.q e.r e.s e.val := by
    rw [hfile, fileLines_unlines, fcidumpLines_eq]
    intro l hl
    rw [fcidumpLines_eq, List.mem_map] at hl
    obtain ⟨e, _, rfl⟩ := hl
    exact fciFmt_no_newline _ _ _ _ (hio.at _)
  have hbound : ∀ e ∈ es, e.p ≤ norb ∧ e.q ≤ norb ∧ e.r ≤ norb ∧ e.s ≤ norb := by
    intro e he
    rcases dump_mem.mp he with ⟨i, j, k, l, hi, hj, hk, hl, rfl⟩ | ⟨i, j, hi, hj, rfl⟩ | rfl
    · exact ⟨hi, hj, hk, hl⟩
    · exact ⟨hi, hj, Nat.zero_le _, Nat.zero_le _⟩
    · exact ⟨Nat.zero_le _, Nat.zero_le _, Nat.zero_le _, Nat.zero_le _⟩
  have hent : Entries io (fileLines file) es := by
    rw [hlines]
    refine entries_map es (fun e _ => hio.at _) (fun e he => ?_)
    obtain ⟨h1, h2, h3, h4⟩ := hbound e he
    omega
  have hst : ∀ e ∈ es, Standard e := by
    intro e he
    rcases dump_mem.mp he with ⟨i, j, k, l, hi, hj, hk, hl, rfl⟩ | ⟨i, j, hi, hj, rfl⟩ | rfl
    · exact Or.inl ⟨by simp, by simp, by simp, by simp⟩
    · exact Or.inr (Or.inl ⟨by simp, by simp, rfl, rfl⟩)
    · exact Or.inr (Or.inr ⟨rfl, rfl, rfl, rfl⟩)
  have hread : readFcidumpNorb io file = .ok norb := by
    rw [readNorb_entries hent]
    congr 1
    apply le_antisymm
    · rw [maxIdx]
      refine foldl_max_le _ _ _ (Nat.zero_le _) ?_
      intro x hx
      obtain ⟨e, he, hx⟩ := List.mem_flatMap.mp hx
      obtain ⟨h1, h2, h3, h4⟩ := hbound e he
      simp only [List.mem_cons, List.not_mem_nil, or_false] at hx
      omega
    · by_cases h0 : norb = 0
      · omega
      · have hm : (⟨norb - 1 + 1, 0 + 1, 0, 0, T (norb - 1 + 0 * ldt)⟩ : FciEntry R) ∈ es :=
          dump_mem.mpr (Or.inr (Or.inl ⟨norb - 1, 0, by omega, by omega, rfl⟩))
        have := (maxIdx_ge hm).1
        simp only at this
        omega
  refine ⟨file, by rw [writeFcidump, if_neg (by simp), List.nil_append], hread, ?_, ?_, ?_⟩
  · rw [C36_core io file es hent]
    congr 1
    have hnone : ∀ e ∈ ((List.range norb).flatMap fun i => (List.range norb).flatMap fun j =>
        (List.range norb).flatMap fun k => (List.range norb).map fun l =>
          (⟨i + 1, j + 1, k + 1, l + 1, V (addr4 ldv i j k l)⟩ : FciEntry R)) ++
        ((List.range norb).flatMap fun i => (List.range norb).map fun j =>
          (⟨i + 1, j + 1, 0, 0, T (i + j * ldt)⟩ : FciEntry R)),
        ¬ ((decide (e.p = 0 ∧ e.q = 0 ∧ e.r = 0 ∧ e.s = 0)) = true) := by
      intro e he
      simp only [List.mem_append, List.mem_flatMap, List.mem_map, List.mem_range] at he
      rcases he with ⟨i, hi, j, hj, k, hk, l, hl, rfl⟩ | ⟨i, hi, j, hj, rfl⟩ <;> simp
    rw [hes, dumpEntries, List.find?_append, List.find?_eq_none.mpr hnone]
    simp
  · intro T0 ld hld
    obtain ⟨T', h1, h2, _⟩ := C36_one_body io file es hent hst norb ld hread hld T0
    refine ⟨T', h1, fun p q hp hq => ?_⟩
    rw [h2 p q hp hq]
    apply lastSuch_value
    · exact ⟨_, dump_mem.mpr (Or.inr (Or.inl ⟨p, q, hp, hq, rfl⟩)), by simp [givesOne]⟩
    · intro e he hg
      rcases dump_mem.mp he with ⟨i, j, k, l, hi, hj, hk, hl, rfl⟩ | ⟨i, j, hi, hj, rfl⟩ | rfl
      · simp [givesOne] at hg
      · simp only [givesOne, beq_iff_eq, Bool.and_eq_true, Bool.or_eq_true,
          Nat.add_right_cancel_iff] at hg
        rcases hg.2 with ⟨rfl, rfl⟩ | ⟨rfl, rfl⟩
        · rfl
        · exact hT _ _ hi hj
      · simp [givesOne] at hg
  · intro V0 ld hld
    obtain ⟨V', h1, h2, _⟩ := C36_two_body io file es hent norb ld hread hld V0
    refine ⟨V', h1, fun p q r s hp hq hr hs => ?_⟩
    rw [h2 p q r s hp hq hr hs]
    apply lastSuch_value
    · exact ⟨_, dump_mem.mpr (Or.inl ⟨p, q, r, s, hp, hq, hr, hs, rfl⟩), by simp [givesTwo]⟩
    · intro e he hg
      rcases dump_mem.mp he with ⟨i, j, k, l, hi, hj, hk, hl, rfl⟩ | ⟨i, j, hi, hj, rfl⟩ | rfl
      · simp only [givesTwo, beq_iff_eq, Bool.or_eq_true, Prod.mk.injEq,
          Nat.add_right_cancel_iff] at hg
        have s1 := fun a b c d ha hb hc hd => (hV a b c d ha hb hc hd).1
        have s2 := fun a b c d ha hb hc hd => (hV a b c d ha hb hc hd).2.1
        have s3 := fun a b c d ha hb hc hd => (hV a b c d ha hb hc hd).2.2
        rcases hg with ((((((h | h) | h) | h) | h) | h) | h) | h <;> obtain ⟨rfl, rfl, rfl, rfl⟩ := h
        · rfl
        · exact s2 _ _ _ _ hi hj hk hl
        · exact s1 _ _ _ _ hi hj hk hl
        · exact (s1 _ _ _ _ hi hj hk hl).trans (s2 _ _ _ _ hj hi hk hl)
        · exact s3 _ _ _ _ hi hj hk hl
        · exact (s1 _ _ _ _ hi hj hk hl).trans (s3 _ _ _ _ hj hi hk hl)
        · exact (s2 _ _ _ _ hi hj hk hl).trans (s3 _ _ _ _ hi hj hl hk)
        · exact ((s1 _ _ _ _ hi hj hk hl).trans (s2 _ _ _ _ hj hi hk hl)).trans
            (s3 _ _ _ _ hj hi hl hk)
      · simp [givesTwo] at hg
      · simp [givesTwo] at hg

/-- C35: no entry is dropped: whatever the integrals, the file has exactly `norb^4 + norb^2 + 1`
lines, one for each integral and one for the core energy. -/
theorem C35_all_lines_written {R : Type} (io : NumIO R) (hio : NumIO.Faithful io) (norb : Nat)
    (T V : Nat → R) (ldt ldv : Nat) (ecore : R) :
    ∃ file, writeFcidump io norb T ldt V ldv ecore ⟨false, []⟩ = .ok ⟨true, file⟩ ∧
      (fileLines file).length = norb ^ 4 + norb ^ 2 + 1 := by
  refine ⟨_, by rw [writeFcidump, if_neg (by simp), List.nil_append], ?_⟩
  rw [fileLines_unlines]
  · have : ∀ {β : Type} (n c : Nat) (f : Nat → List β), (∀ i, (f i).length = c) →
        ((List.range n).flatMap f).length = n * c := by
      intro β n c f hf
      rw [List.length_flatMap]
      induction n with
      | zero => simp
      | succ n ih => rw [List.range_succ, List.map_append, List.sum_append, ih]; simp [hf]; ring
    rw [fcidumpLines, List.length_append, List.length_append,
      this norb (norb * (norb * norb)) _ (fun i => this norb (norb * norb) _ (fun j =>
        this norb norb _ (fun k => by simp))), this norb norb _ (fun i => by simp)]
    simp only [List.length_singleton]; ring
  · intro l hl
    rw [fcidumpLines_eq, List.mem_map] at hl
    obtain ⟨e, _, rfl⟩ := hl
    exact fciFmt_no_newline _ _ _ _ (hio.at _)

/-- The hypotheses of the round trip are met by a two-orbital case. -/
example : ∃ file, writeFcidump toyNum 2 (fun a => if a = 0 then 5 else if a = 3 then 7 else 2) 2
      (fun _ => 3) 2 11 ⟨false, []⟩ = .ok ⟨true, file⟩ ∧ readFcidumpNorb toyNum file = .ok 2 ∧
      readFcidumpCore toyNum file = .ok 11 := by
  obtain ⟨f, h1, h2, h3, _⟩ := C35_round_trip toyNum toyNum_faithful 2 (by decide)
    (fun a => if a = 0 then 5 else if a = 3 then 7 else 2) (fun _ => 3) 2 2 11
    (by intro p q hp hq; interval_cases p <;> interval_cases q <;> rfl)
    (by intro p q r s _ _ _ _; exact ⟨rfl, rfl, rfl⟩)
  exact ⟨f, h1, h2, h3⟩

/-- A concrete file meets the hypotheses of C36: value first, two spaces, a comment line. -/
example : Entries toyNum (fileLines "# comment\n 7e  1 2 0 0\n".toList) [⟨1, 2, 0, 0, 7⟩] := by
  have e : fileLines "# comment\n 7e  1 2 0 0\n".toList =
      ["# comment".toList, " 7e  1 2 0 0".toList] := by decide +kernel
  rw [e]
  refine .other (by decide +kernel) (.entry ?_ (by decide) (by decide) (by decide) (by decide) .nil)
  exact ⟨"7e".toList, [' '], [' ', ' '], [' '], [' '], [' '], [], by decide +kernel, by decide,
    by decide, ⟨'e', by decide, by decide⟩, by unfold Blank0; decide, ⟨by decide, by decide⟩,
    ⟨by decide, by decide⟩, ⟨by decide, by decide⟩, ⟨by decide, by decide⟩,
    by unfold Blank0; decide, Or.inr (by decide +kernel)⟩

/-! ### C76: non-standard lines -/

/-- C76 (refuted): the orbital-energy lines `p 0 0 0` that other programs write are taken for
one-electron integrals and stored out of range: reading such a file with `read_fcidump_1body` is
undefined behaviour. -/
theorem C76_orbital_energy_line_refuted {R : Type} (io : NumIO R) (file : List Char)
    (es es' : List (FciEntry R)) (p : Nat) (hp : 0 < p) (v : R)
    (h : Entries io (fileLines file) (es ++ ⟨p, 0, 0, 0, v⟩ :: es'))
    (hst : ∀ e ∈ es, Standard e) (ldt : Nat) (T : Nat → R) :
    readFcidump1body io file ldt T = .ub := by
  have hn := readNorb_entries h
  rw [readFcidump1body, hn, Run.bind, readFcidump1bodySpan, if_neg (by simp), hn, Run.bind,
    if_neg (by simp), fciLoop_entries _ h]
  have app : ∀ (a b : List (FciEntry R)) (T : Nat → R),
      runFold (oneBodyStep ldt) (a ++ b) T =
        (runFold (oneBodyStep ldt) a T).bind (runFold (oneBodyStep ldt) b) := by
    intro a
    induction a with
    | nil => intro b T; rfl
    | cons e a ih =>
      intro b T
      rw [List.cons_append, runFold, runFold]
      cases oneBodyStep ldt T e with
      | ok T' => simp only [Run.bind]; rw [ih]; rfl
      | throw => rfl
      | ub => rfl
      | timeout => rfl
  rw [app, run1_entries ldt es hst, Run.bind, runFold, oneBodyStep, if_pos, if_pos (by simp)]
  · rfl
  · simp [lineClassification]; omega

/-- a concrete file of that kind: one integral and one orbital energy -/
example : (match readFcidump1body toyNum "7e 1 1 0 0\n5e 1 0 0 0\n".toList 1 (fun _ => 0) with
    | .ub => true
    | _ => false) = true := by
  decide +kernel

/-- C76 (refuted): a line whose number is printed without a decimal point or exponent is silently
misread: `1 1 1 1 2` (indices first) is taken as the integral `(11|12)` with value 1. -/
theorem C76_integer_value_misread_refuted :
    fcidumpRow (⟨showNat, fun s => (stoi s).map Int.toNat⟩ : NumIO Nat) "1 1 1 1 2".toList =
      some (some ⟨1, 1, 1, 2, 1⟩) := by
  decide +kernel

/-- C76 (refuted): a header line that happens to have five words makes every reader throw. -/
theorem C76_header_throws_refuted :
    readFcidumpNorb toyNum "&FCI NORB= 1 NELEC= 2\n7e 1 1 0 0\n".toList = .throw := by
  decide +kernel

/-! ### C77: repeated writes -/

/-- C77 (refuted): a second `write_fcidump` in the same process throws, whatever its arguments. -/
theorem C77_second_write_refuted {R : Type} (io : NumIO R) (norb norb' : Nat)
    (T V T' V' : Nat → R) (ldt ldv ldt' ldv' : Nat) (e e' : R) (w w1 : LogWorld)
    (h : writeFcidump io norb T ldt V ldv e w = .ok w1) (file' : List Char) :
    writeFcidump io norb' T' ldt' V' ldv' e' { w1 with file := file' } = .throw := by
  rw [writeFcidump] at h
  split at h
  · cases h
  · rw [Run.ok.injEq] at h
    subst h
    rw [writeFcidump, if_pos rfl]

/-- C77 (refuted): writing over an existing file appends to it, and the old core energy is the one
read back. -/
theorem C77_append_refuted :
    ∃ w, writeFcidump toyNum 0 (fun _ => 0) 0 (fun _ => 0) 0 9 ⟨false, "0 0 0 0 4e\n".toList⟩ = .ok w ∧
      readFcidumpCore toyNum w.file = .ok 4 := by
  exact ⟨_, rfl, by decide +kernel⟩

end Macis
