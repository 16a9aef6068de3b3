import Verif.Props.Ini
/-! What the input-file reader does with every line of the kinds refuted in C139, C140 and C142. -/
namespace Macis.Ini
open Spec.Ini (Line Read Tight spaces noteText up file meaning)

/-- what has been read after these lines -/
def readAll (ls : List Line) : Read := ls.foldl Read.line ⟨fun _ => none, none, none⟩

theorem rel_init : Rel ⟨fun _ => none, false, false, [], []⟩ ⟨fun _ => none, none, none⟩ :=
  ⟨rfl, fun _ => ⟨rfl, rfl⟩, fun _ h => absurd h (by simp), fun _ => rfl, fun _ h => absurd h (by simp)⟩

theorem lines_prefix (a : List Line) (wf : ∀ l ∈ a, l.WF) (s : Str) :
    lines (file a ++ s) = a.map Line.text ++ lines s := by
  induction a with
  | nil => rfl
  | cons l ls ih =>
    have : file (l :: ls) ++ s = l.text ++ '\n' :: (file ls ++ s) := by simp [file]
    rw [this, lines_cons (text_no_newline l (wf l (List.mem_cons_self ..))),
      ih fun l hl => wf l (List.mem_cons_of_mem _ hl)]
    rfl

/-- one unusual line between well-formed ones -/
theorem parse_insert {a b : List Line} (wa : ∀ l ∈ a, l.WF) (wb : ∀ l ∈ b, l.WF) {L : Str} (hn : '\n' ∉ L)
    {r' : Read} (h : ∀ st, Rel st (readAll a) → ∃ st', parseLine st L = .ok st' ∧ Rel st' r') :
    parse (file a ++ (L ++ '\n' :: file b)) = .ok (b.foldl Read.line r').value := by
  obtain ⟨st1, e1, h1⟩ := parse_lines a wa rel_init
  obtain ⟨st2, e2, h2⟩ := h st1 h1
  obtain ⟨st3, e3, h3⟩ := parse_lines b wb h2
  rw [parse, lines_prefix a wa, lines_cons hn, lines_file b wb, List.foldlM_append, e1]
  show (do let st ← (L :: (b.map Line.text ++ [[]])).foldlM parseLine st1; _) = _
  rw [List.foldlM_cons, e2]
  show (do let st ← (b.map Line.text ++ [[]]).foldlM parseLine st2; _) = _
  rw [List.foldlM_append, e3]
  show Except.ok st3.dict = _
  rw [h3.1]

theorem parse_insert_err {a b : List Line} (wa : ∀ l ∈ a, l.WF) {L : Str} (hn : '\n' ∉ L) {e : Err}
    (h : ∀ st, Rel st (readAll a) → parseLine st L = .error e) :
    parse (file a ++ (L ++ '\n' :: file b)) = .error e := by
  obtain ⟨st1, e1, h1⟩ := parse_lines a wa rel_init
  rw [parse, lines_prefix a wa, lines_cons hn, List.foldlM_append, e1]
  show (do let st ← (L :: lines (file b)).foldlM parseLine st1; _) = _
  rw [List.foldlM_cons, h st1 h1]
  rfl

theorem meaning_mid (a b : List Line) (c : List Line) :
    meaning (a ++ (c ++ b)) = (b.foldl Read.line (c.foldl Read.line (readAll a))).value := by
  rw [meaning, List.foldl_append, List.foldl_append]
  rfl

theorem lastNonSpace_append {p q : Str} (h : ∃ c ∈ q, c ≠ ' ') :
    ∃ j, lastNonSpace (p ++ q) = some j ∧ p.length ≤ j := by
  obtain ⟨c, hc, hne⟩ := h
  have h1 : ∃ k, q.reverse.findIdx? (fun c => c != ' ') = some k ∧ k < q.length := by
    cases e : q.reverse.findIdx? (fun c => c != ' ') with
    | none =>
      rw [List.findIdx?_eq_none_iff] at e
      have := e c (by simpa using hc)
      simp [hne] at this
    | some k =>
      refine ⟨k, rfl, ?_⟩
      have := (List.findIdx?_eq_some_iff_getElem.1 e).1
      simpa using this
  obtain ⟨k, hk, hlt⟩ := h1
  refine ⟨(p ++ q).length - 1 - k, ?_, ?_⟩
  · rw [lastNonSpace, List.reverse_append, List.findIdx?_append, hk]
    rfl
  · simp only [List.length_append]; omega

/-- the trimmed line starts with what precedes a character that is kept -/
theorem trimRight_keep {p : Str} {c : Char} (hc : ¬ Spec.Ini.Space c) (q : Str) :
    ∃ q', trimRight (p ++ c :: q) = p ++ c :: q' ∧ ∀ x ∈ q', x ∈ q := by
  refine ⟨trimRight q, ?_, ?_⟩
  · have hb : isSpace c = false := by
      rw [← Bool.not_eq_true, isSpace_iff]; exact hc
    have key : ∀ (l s : Str), (l ++ c :: s).dropWhile isSpace = l.dropWhile isSpace ++ c :: s := by
      intro l s
      induction l with
      | nil => simp [List.dropWhile_cons, hb]
      | cons x l ih =>
        rw [List.cons_append, List.dropWhile_cons, List.dropWhile_cons]
        split
        · exact ih
        · rfl
    unfold trimRight
    rw [List.reverse_append, List.reverse_cons, List.append_assoc, List.singleton_append, key]
    simp
  · intro x hx
    unfold trimRight at hx
    rw [List.mem_reverse] at hx
    exact List.mem_reverse.1 ((List.dropWhile_sublist _).mem hx)

theorem cut_note {u : Str} (hu : ∀ c ∈ u, c ≠ '#') (note : Option Str) :
    cutComment (u ++ noteText note) (findIdx (fun c => c == '#') (u ++ noteText note)) = u ∧
    (findIdx (fun c => c == '#') (u ++ noteText note) = none ∨
      findIdx (fun c => c == '#') (u ++ noteText note) = some u.length) := by
  have hs : ∀ x ∈ u, (x == '#') = false := fun x hx => beq_false_of_ne (hu x hx)
  cases note with
  | none =>
    have : findIdx (fun c => c == '#') (u ++ noteText none) = none :=
      findIdx_miss fun x hx => hs x (by simpa [noteText] using hx)
    rw [this]
    exact ⟨by simp [cutComment, noteText], .inl rfl⟩
  | some t =>
    have : findIdx (fun c => c == '#') (u ++ noteText (some t)) = some u.length := findIdx_hit hs rfl
    rw [this]
    exact ⟨by simp [cutComment, noteText], .inr rfl⟩

/-- C140, in general: a section header at the start of a line that is followed by anything but spaces, be
it a comment, a carriage return or text, has no effect at all: what follows is read as if the line were not
there, so it lands in the previous section or is lost. -/
theorem C140_header_dropped (a b : List Line) (wa : ∀ l ∈ a, l.WF) (wb : ∀ l ∈ b, l.WF) (name u : Str)
    (note : Option Str) (hname : ∀ c ∈ name, c ∉ [']', '=', ':', '#', '\n'])
    (hu : ∀ c ∈ u, c ∉ ['=', ':', '#', '\n']) (hnote : ∀ t, note = some t → '\n' ∉ t)
    (hmore : ∃ c ∈ u ++ noteText note, c ≠ ' ') :
    parse (file a ++ (('[' :: (name ++ ']' :: u)) ++ noteText note ++ '\n' :: file b)) =
      .ok (meaning (a ++ b)) := by
  have e : meaning (a ++ b) = (b.foldl Read.line (readAll a)).value := meaning_mid a b []
  rw [e]
  set core := '[' :: (name ++ ']' :: u) with hcore
  have hin : ∀ c ∈ core, c ≠ '=' ∧ c ≠ ':' ∧ c ≠ '#' ∧ c ≠ '\n' := by
    intro c hc
    simp only [hcore, List.mem_cons, List.mem_append] at hc
    rcases hc with rfl | hc | rfl | hc
    · decide
    · have := hname c hc; simp only [List.mem_cons, List.not_mem_nil, or_false, not_or] at this
      exact this.2
    · decide
    · have := hu c hc; simpa only [List.mem_cons, List.not_mem_nil, or_false, not_or] using this
  refine parse_insert wa wb ?_ ?_
  · intro h
    rcases List.mem_append.1 h with h | h
    · exact (hin _ h).2.2.2 rfl
    · cases note with
      | none => simp [noteText] at h
      | some t =>
        have := hnote t rfl
        simp [noteText, this] at h
  intro st hr
  refine ⟨st, ?_, hr⟩
  obtain ⟨c1, c2⟩ := cut_note (fun c hc => (hin c hc).2.2.1) note
  set L := core ++ noteText note with hL
  have e1 : findIdx (fun c => c != ' ') L = some 0 := findIdx_hit (a := []) (by simp) rfl
  have e2 : findIdx (fun c => c == '#') L ≠ some 0 := by
    intro e'
    rcases c2 with e | e
    · rw [e] at e'; simp at e'
    · rw [e] at e'; simp [hcore] at e'
  have e3 : ¬ L.length < 1 := by simp [hL, hcore]
  obtain ⟨q, hq, hqs⟩ := trimRight_keep (p := '[' :: name) (c := ']') (by decide) u
  have hcore' : core = '[' :: name ++ ']' :: u := by simp [hcore]
  rw [← hcore'] at hq
  have e6 : findIdx (fun c => c == ']') ('[' :: name ++ ']' :: q) = some ('[' :: name).length := by
    refine findIdx_hit (fun x hx => ?_) rfl
    rcases List.mem_cons.1 hx with rfl | hx
    · rfl
    · refine beq_false_of_ne fun h => hname x hx (by simp [h])
  obtain ⟨j, hj, hle⟩ : ∃ j, lastNonSpace L = some j ∧ ('[' :: (name ++ [']'])).length ≤ j := by
    have : L = '[' :: (name ++ [']']) ++ (u ++ noteText note) := by simp [hL, hcore]
    rw [this]; exact lastNonSpace_append hmore
  have hq' : ∀ x ∈ '[' :: name ++ ']' :: q, x ≠ '=' ∧ x ≠ ':' := by
    intro x hx
    have : x ∈ core := by
      rw [hcore']
      rcases List.mem_append.1 hx with hx | hx
      · exact List.mem_append_left _ hx
      · refine List.mem_append_right _ ?_
        rcases List.mem_cons.1 hx with rfl | hx
        · simp
        · exact List.mem_cons_of_mem _ (hqs x hx)
    exact ⟨(hin x this).1, (hin x this).2.1⟩
  have e7 : findIdx (fun c => c == '=') ('[' :: name ++ ']' :: q) = none :=
    findIdx_miss fun x hx => beq_false_of_ne (hq' x hx).1
  have e8 : findIdx (fun c => c == ':') ('[' :: name ++ ']' :: q) = none :=
    findIdx_miss fun x hx => beq_false_of_ne (hq' x hx).2
  have e9 : ¬ ((some ('[' :: name).length : Option Nat) = some j) := by
    rw [Option.some.injEq]; simp at hle ⊢; omega
  have e10 : ('[' :: name ++ ']' :: q).head? ≠ some ' ' := by simp
  simp only [parseLine, e1, if_neg e3, if_neg e2, c1, hq, e6, e7, e8, hj, e9, e10, and_false, if_false,
    ne_eq, not_true_eq_false, or_self]
  rfl

example : parse "[X]\nA = 0\n[CI] # comment\nA = 1\n".toList =
    .ok (meaning [.header 0 ['X'] 0, .option ['A'] 1 '=' 1 ['0'] 0 none, .option ['A'] 1 '=' 1 ['1'] 0 none]) :=
  C140_header_dropped [.header 0 ['X'] 0, .option ['A'] 1 '=' 1 ['0'] 0 none]
    [.option ['A'] 1 '=' 1 ['1'] 0 none]
    (by
      intro l hl
      simp only [List.mem_cons, List.not_mem_nil, or_false] at hl
      rcases hl with rfl | rfl
      · exact ⟨by decide, by decide, by decide⟩
      · exact ⟨⟨by decide, by simp; decide, by simp; decide⟩, by decide, by decide, by decide,
          ⟨by decide, by simp; decide, by simp; decide⟩, by decide, by simp⟩)
    (by
      intro l hl
      simp only [List.mem_cons, List.not_mem_nil, or_false] at hl
      rcases hl with rfl
      exact ⟨⟨by decide, by simp; decide, by simp; decide⟩, by decide, by decide, by decide,
        ⟨by decide, by simp; decide, by simp; decide⟩, by decide, by simp⟩)
    "CI".toList " ".toList (some " comment".toList) (by decide) (by decide) (by rintro t ⟨⟩; decide)
    ⟨'#', by decide, by decide⟩

theorem mem_takeWhile_pos {p : Char → Bool} {l : Str} {c : Char} (h : c ∈ l.takeWhile p) : p c = true := by
  induction l with
  | nil => simp at h
  | cons x l ih =>
    rw [List.takeWhile_cons] at h
    split at h
    · rename_i hx
      rcases List.mem_cons.1 h with rfl | h
      · exact hx
      · exact ih h
    · simp at h

theorem trimRight_blank (a : Str) {t : Str} (h : ∀ c ∈ t, isSpace c = true) : trimRight (a ++ t) = trimRight a := by
  unfold trimRight
  rw [List.reverse_append]
  congr 1
  have : ∀ (l s : Str), (∀ c ∈ l, isSpace c = true) → (l ++ s).dropWhile isSpace = s.dropWhile isSpace := by
    intro l s hl
    induction l with
    | nil => rfl
    | cons x l ih =>
      rw [List.cons_append, List.dropWhile_cons_of_pos (hl x (by simp))]
      exact ih fun c hc => hl c (by simp [hc])
  exact this _ _ fun c hc => h c (List.mem_reverse.1 hc)

/-- every text is its trimmed version and white space -/
theorem trimRight_split (u : Str) : ∃ t, u = trimRight u ++ t ∧ (∀ c ∈ t, isSpace c = true) := by
  refine ⟨(u.reverse.takeWhile isSpace).reverse, ?_, ?_⟩
  · unfold trimRight
    rw [← List.reverse_append, List.takeWhile_append_dropWhile, List.reverse_reverse]
  · intro c hc
    rw [List.mem_reverse] at hc
    exact mem_takeWhile_pos hc

theorem trimRight_idem (u : Str) : trimRight (trimRight u) = trimRight u := by
  obtain ⟨t, h1, h2⟩ := trimRight_split u
  conv_rhs => rw [h1]
  exact (trimRight_blank _ h2).symm

/-- an option line whose trimmed text starts with `key sep value` and goes on after the value with a
separator or not at all -/
theorem parse_cut {st : State} {r : Read} (h : Rel st r) (ind : Nat) (key : Str) (s1 : Nat) (sep : Char) (s2 : Nat)
    (value : Str) (s3 : Nat) (more : Str) (note : Option Str)
    (wf : (Line.option key s1 sep s2 value s3 note).WF)
    (hmore : more = [] ∧ s3 = 0 ∨ ∃ c q, more = c :: q ∧ (c = '=' ∨ c = ':') ∧ (∀ x ∈ q, x ≠ '#'))
    (tail : Str) (htail : ∀ c ∈ tail, isSpace c = true) (hcore' : trimRight (key ++ (spaces s1 ++ sep :: (spaces s2 ++ (value ++ (spaces s3 ++ more))))) =
      key ++ (spaces s1 ++ sep :: (spaces s2 ++ (value ++ (spaces s3 ++ more))))) :
    let core := key ++ (spaces s1 ++ sep :: (spaces s2 ++ (value ++ (spaces s3 ++ more))))
    let L := spaces ind ++ core ++ tail ++ noteText note
    (ind = 0 ∨ r.current = none ∨ r.extend = none →
      ∃ st', parseLine st L = .ok st' ∧ Rel st' (r.line (.option key s1 sep s2 value s3 note))) ∧
    (ind ≠ 0 → r.current ≠ none → r.extend ≠ none →
      (core.length < ind → parseLine st L = .error .outOfRange) ∧
      (ind ≤ core.length → ∃ st', parseLine st L = .ok st' ∧
        Rel st' ((r.line (.option key s1 sep s2 value s3 note)).line (.continuation 0 (core.drop ind) 0 none)))) := by
  intro core L
  obtain ⟨tk, ck, hk, hsep, tv, cv, -⟩ := wf
  obtain ⟨k0, kt, rfl⟩ : ∃ a b, key = a :: b := List.exists_cons_of_ne_nil tk.1
  have k0s : ¬ Spec.Ini.Space k0 := tk.2.1 k0 rfl
  have k0n : k0 ≠ ' ' := fun e => k0s (by rw [e]; decide)
  have hsepc : sep = '=' ∨ sep = ':' := by simpa using hsep
  have hh : ∀ c ∈ spaces ind ++ core ++ tail, c ≠ '#' := by
    intro c hc
    rcases List.mem_append.1 hc with hc | hc
    swap
    · rintro rfl; exact absurd (htail _ hc) (by decide)
    rcases List.mem_append.1 hc with hc | hc
    · rw [mem_spaces hc]; decide
    simp only [core, List.mem_append, List.mem_cons] at hc
    rcases hc with hc | hc | rfl | hc | hc | hc | hc
    · have := ck c (by simpa using hc); simp at this; exact this.2.2.1
    · rw [mem_spaces hc]; decide
    · rcases hsepc with rfl | rfl <;> decide
    · rw [mem_spaces hc]; decide
    · have := cv c hc; simp at this; exact this.2.2.1
    · rw [mem_spaces hc]; decide
    · rcases hmore with ⟨e, -⟩ | ⟨d, q, e, hd, hq⟩
      · rw [e] at hc; simp at hc
      · rw [e] at hc
        rcases List.mem_cons.1 hc with rfl | hc
        · rcases hd with rfl | rfl <;> decide
        · exact hq c hc
  obtain ⟨n1, n2⟩ := cut_note hh note
  have hL : L = spaces ind ++ core ++ tail ++ noteText note := rfl
  rw [← hL] at n1 n2
  set M := spaces ind ++ core with hM
  have n3 : trimRight (M ++ tail) = M := by
    rw [trimRight_blank M htail, hM]
    refine trimRight_tight fun c hc => ?_
    rw [getLast?_tail (by simp [core])] at hc
    intro hsp
    rw [← isSpace_iff] at hsp
    have hl : core = core.dropLast ++ [c] := by
      conv_lhs => rw [← List.dropLast_append_getLast (l := core) (by simp [core])]
      rw [List.getLast?_eq_getLast (by simp [core])] at hc
      rw [Option.some.inj hc]
    have hc2 : trimRight core = core := hcore'
    rw [hl, trimRight, List.reverse_append] at hc2
    simp only [List.reverse_cons, List.reverse_nil, List.nil_append, List.singleton_append] at hc2
    rw [List.dropWhile_cons_of_pos hsp] at hc2
    have hlen := congrArg List.length hc2
    simp only [List.length_reverse, List.length_append, List.length_cons, List.length_nil] at hlen
    have := (List.dropWhile_sublist isSpace (l := core.dropLast.reverse)).length_le
    simp only [List.length_reverse] at this
    omega
  have e1 : findIdx (fun c => c != ' ') L = some ind := by
    have : L = spaces ind ++ k0 :: (kt ++ (spaces s1 ++ sep :: (spaces s2 ++ (value ++ (spaces s3 ++ more)))) ++
        (tail ++ noteText note)) := by
      simp [L, core, M]
    rw [this]
    have := findIdx_hit (p := fun c => c != ' ') (a := spaces ind) (c := k0)
      (b := kt ++ (spaces s1 ++ sep :: (spaces s2 ++ (value ++ (spaces s3 ++ more)))) ++
        (tail ++ noteText note))
      (fun x hx => by rw [mem_spaces hx]; rfl) (by simpa using k0n)
    rw [spaces_len] at this
    exact this
  have hclen : 0 < core.length := by simp [core]
  have e2 : findIdx (fun c => c == '#') L ≠ some ind := by
    intro e'
    rcases n2 with e | e
    · rw [e] at e'; simp at e'
    · rw [e, Option.some.injEq] at e'
      simp only [hM, List.length_append, spaces_len] at e'
      omega
  have e3 : ¬ L.length < 1 := by
    simp only [L, List.length_append, hM]; omega
  have e5 : findIdx (fun c => c == '[') M ≠ some ind := by
    intro e
    have hk0 : k0 ≠ '[' := fun e => hk (by simp [e])
    rw [findIdx, List.findIdx?_eq_some_iff_getElem] at e
    obtain ⟨hlt, he, -⟩ := e
    have : M[ind] = k0 := by
      simp only [hM, core]
      rw [List.getElem_append_right (by simp [spaces_len])]
      simp [spaces_len]
    rw [this] at he
    simp [hk0] at he
  have hsepM : sep ∈ M := by simp [hM, core]
  have e6 : findIdx (fun c => c == '=') M ≠ none ∨ findIdx (fun c => c == ':') M ≠ none := by
    rcases hsepc with rfl | rfl
    · left; rw [findIdx, Ne, List.findIdx?_eq_none_iff]
      intro hc; have := hc '=' hsepM; simp at this
    · right; rw [findIdx, Ne, List.findIdx?_eq_none_iff]
      intro hc; have := hc ':' hsepM; simp at this
  have e8 : substr M ind (M.length - ind) = .ok core := by
    rw [substr, if_neg (by simp [hM, spaces_len])]
    congr 1
    have : M.drop ind = core := by
      rw [hM, List.drop_left' (spaces_len ind)]
    rw [this, List.take_of_length_le]
    simp [hM, spaces_len]
  have dk : ∀ x ∈ k0 :: kt ++ spaces s1, (x == '=' || x == ':') = false := by
    intro x hx
    rcases List.mem_append.1 hx with hx | hx
    · have := ck x hx; simp at this; simp [this.1, this.2.1]
    · rw [mem_spaces hx]; rfl
  have dv : ∀ x ∈ spaces s2 ++ value ++ spaces s3, (x == '=' || x == ':') = false := by
    intro x hx
    rcases List.mem_append.1 hx with hx | hx
    · rcases List.mem_append.1 hx with hx | hx
      · rw [mem_spaces hx]; rfl
      · have := cv x hx; simp at this; simp [this.1, this.2.1]
    · rw [mem_spaces hx]; rfl
  have e9 : ∃ ws, (split (fun c => c == '=' || c == ':') core).map trim = (k0 :: kt) :: value :: ws := by
    have hc : core = (k0 :: kt ++ spaces s1) ++ sep :: ((spaces s2 ++ value ++ spaces s3) ++ more) := by
      simp [core]
    have t1 := trim_pad tk 0 s1
    have t2 := trim_pad tv s2 s3
    simp only [spaces, List.replicate_zero, List.nil_append] at t1
    rw [hc, split_run_cons dk (by simp) (by rcases hsepc with rfl | rfl <;> rfl)]
    rcases hmore with ⟨rfl, rfl⟩ | ⟨d, q, rfl, hd, -⟩
    · rw [List.append_nil, split_run dv (by simp [tv.1])]
      refine ⟨[], ?_⟩
      have t3 : trim (spaces s2 ++ value ++ spaces 0) = value := by rw [List.append_assoc]; exact t2
      simp only [List.map_cons, List.map_nil, t3]
      rw [show trim (k0 :: kt ++ spaces s1) = k0 :: kt from t1]
    · rw [split_run_cons dv (by simp [tv.1]) (by rcases hd with rfl | rfl <;> rfl)]
      refine ⟨(split (fun c => c == '=' || c == ':') q).map trim, ?_⟩
      have t3 : trim (spaces s2 ++ value ++ spaces s3) = value := by rw [List.append_assoc]; exact t2
      simp only [List.map_cons, t3]
      rw [show trim (k0 :: kt ++ spaces s1) = k0 :: kt from t1]
  obtain ⟨ws, e9⟩ := e9
  have hhead : M.head? = some ' ' ↔ ind ≠ 0 := by
    cases ind with
    | zero => simpa [hM, spaces, core] using k0n
    | succ i => simp [hM, spaces, List.replicate_succ]
  have step : ∀ (sec : Str), r.current = some sec →
      Rel { st with dict := st.dict.set st.sectionHeader (upper (k0 :: kt)) value,
                    dataHeader := upper (k0 :: kt), prevLineData := true }
        (r.line (.option (k0 :: kt) s1 sep s2 value s3 note)) := by
    intro sec hcur
    obtain ⟨hp, hsec⟩ := h.2.2.1 sec hcur
    refine ⟨?_, ?_, ?_, ?_, ?_⟩
    · funext s
      simp only [Dict.set, Read.line, Read.assign, hcur, h.1, hsec]
      by_cases e : s = sec
      · subst e
        simp only [if_true]
        congr 1
        funext k
        rw [show upper (k0 :: kt) = up (k0 :: kt) from rfl]
        split
        · rfl
        · cases r.value s <;> rfl
      · simp only [if_neg e]
    · intro e; simp [Read.line, Read.assign, hcur] at e
    · intro s hs
      have : sec = s := by simpa [Read.line, Read.assign, hcur] using hs
      exact ⟨hp, by rw [← this]; exact hsec⟩
    · intro e; simp [Read.line, Read.assign, hcur] at e
    · intro k hk
      have : up (k0 :: kt) = k := by simpa [Read.line, Read.assign, hcur] using hk
      exact ⟨rfl, this⟩
  refine ⟨?_, ?_⟩
  · intro hcase
    cases hcur : r.current with
    | none =>
      have hp := (h.2.1 hcur).1
      refine ⟨st, ?_, ?_⟩
      · simp only [parseLine, e1, if_neg e3, if_neg e2, n1, n3,
          if_neg (fun hh : _ ∧ _ => e5 hh.1), hp, Bool.false_eq_true, false_and, if_false]
        simp only [bind, Except.bind, pure, Except.pure, hp, Bool.false_eq_true, false_and, if_false]
      · simp only [Read.line, Read.assign, hcur]; exact h
    | some sec =>
      obtain ⟨hp, hsec⟩ := h.2.2.1 sec hcur
      refine ⟨_, ?_, step sec hcur⟩
      have e7 : ¬ (st.prevLineData = true ∧ M.head? = some ' ') := by
        rintro ⟨h1, h2⟩
        rw [hhead] at h2
        rcases hcase with hc | hc | hc
        · exact h2 hc
        · rw [hcur] at hc; simp at hc
        · rw [h.2.2.2.1 hc] at h1; simp at h1
      simp only [parseLine, e1, if_neg e3, if_neg e2, n1, n3,
        if_neg (fun hh : _ ∧ _ => e5 hh.1), hp, true_and, if_pos e6, Option.getD_some, e8, e9, e7,
        if_false]
      simp only [bind, Except.bind, pure, Except.pure, e8, e9]
      rfl
  · intro hi hc he
    obtain ⟨sec, hcur⟩ := Option.ne_none_iff_exists'.1 hc
    obtain ⟨k, hext⟩ := Option.ne_none_iff_exists'.1 he
    obtain ⟨hp, hsec⟩ := h.2.2.1 sec hcur
    obtain ⟨hprev, hdh⟩ := h.2.2.2.2 k hext
    have e7 : (st.prevLineData = true ∧ M.head? = some ' ') := ⟨hprev, hhead.2 hi⟩
    refine ⟨?_, ?_⟩
    · intro hlt
      have e10 : substr core ind (core.length - ind) = .error .outOfRange := by
        rw [substr, if_pos hlt]
      simp only [parseLine, e1, if_neg e3, if_neg e2, n1, n3,
        if_neg (fun hh : _ ∧ _ => e5 hh.1), hp, true_and, if_pos e6, Option.getD_some, e8, e9, e7,
        if_true]
      simp only [bind, Except.bind, pure, Except.pure, e8, e9, hp, e10, e7, and_self, if_true]
    · intro hle
      have e10 : substr core ind (core.length - ind) = .ok (core.drop ind) := by
        rw [substr, if_neg (by omega), List.take_of_length_le (by simp)]
      refine ⟨{ st with dict := (st.dict.set st.sectionHeader (upper (k0 :: kt)) value).set st.sectionHeader
                          (upper (k0 :: kt)) (value ++ '\n' :: core.drop ind),
                        dataHeader := upper (k0 :: kt), prevLineData := true }, ?_, ?_⟩
      · simp only [parseLine, e1, if_neg e3, if_neg e2, n1, n3,
          if_neg (fun hh : _ ∧ _ => e5 hh.1), hp, true_and, if_pos e6, Option.getD_some, e8, e9, e7,
          if_true]
        simp only [bind, Except.bind, pure, Except.pure, e8, e9, hp, e10, e7, and_self, if_true]
        simp [Dict.set]
      · have hs := step sec hcur
        have hval : ((r.line (.option (k0 :: kt) s1 sep s2 value s3 note)).value sec).bind (fun m => m (up (k0 :: kt))) =
            some value := by simp [Read.line, Read.assign, hcur]
        have hcur' : (r.line (.option (k0 :: kt) s1 sep s2 value s3 note)).current = some sec := by
          simp [Read.line, Read.assign, hcur]
        have hext' : (r.line (.option (k0 :: kt) s1 sep s2 value s3 note)).extend = some (up (k0 :: kt)) := by
          simp [Read.line, Read.assign, hcur]
        generalize (r.line (.option (k0 :: kt) s1 sep s2 value s3 note)) = r1 at hs hval hcur' hext'
        refine ⟨?_, ?_, ?_, ?_, ?_⟩
        · have hd := hs.1
          simp only at hd
          funext s
          show ((st.dict.set st.sectionHeader (upper (k0 :: kt)) value).set _ _ _) s = _
          rw [hd]
          simp only [Dict.set, Read.line, Read.assign, hcur', hext', hsec]
          by_cases e : s = sec
          · subst e
            simp only [if_true]
            congr 1
            funext k'
            rw [show upper (k0 :: kt) = up (k0 :: kt) from rfl]
            by_cases ek : k' = up (k0 :: kt)
            · subst ek; simp [hval]
            · simp only [if_neg ek]
              cases r1.value s <;> rfl
          · simp only [if_neg e]
        · intro e; simp [Read.line, Read.assign, hcur', hext'] at e
        · intro s hs'
          have : sec = s := by simpa [Read.line, Read.assign, hcur', hext'] using hs'
          exact ⟨hp, by rw [← this]; exact hsec⟩
        · intro e; simp [Read.line, Read.assign, hcur', hext'] at e
        · intro k' hk'
          have : up (k0 :: kt) = k' := by simpa [Read.line, Read.assign, hcur', hext'] using hk'
          exact ⟨rfl, this⟩

/-- C139, in general: an option line moved to the right by `ind` columns.  In the first column, outside any
section, or when no option precedes it (only its section header, or an empty line in between), the
indentation has no effect.  Otherwise, with `text` the option without its comment and trailing blanks, the
reader throws when the indentation is wider than `text`, and else it appends a line break and
`text` without its first `ind` characters to the value. -/
theorem C139_indented (a b : List Line) (wa : ∀ l ∈ a, l.WF) (wb : ∀ l ∈ b, l.WF) (ind : Nat) (key : Str)
    (s1 : Nat) (sep : Char) (s2 : Nat) (value : Str) (s3 : Nat) (note : Option Str)
    (wf : (Line.option key s1 sep s2 value s3 note).WF) :
    let o := Line.option key s1 sep s2 value s3 note
    let text := key ++ (spaces s1 ++ sep :: (spaces s2 ++ value))
    parse (file a ++ (spaces ind ++ o.text ++ '\n' :: file b)) =
      if ind = 0 ∨ (readAll a).current = none ∨ (readAll a).extend = none then .ok (meaning (a ++ o :: b))
      else if text.length < ind then .error .outOfRange
      else .ok (meaning (a ++ o :: .continuation 0 (text.drop ind) 0 none :: b)) := by
  intro o text
  have hn : '\n' ∉ spaces ind ++ o.text := by
    intro h
    rcases List.mem_append.1 h with h | h
    · exact absurd (mem_spaces h) (by decide)
    · exact text_no_newline o wf h
  have wf0 : (Line.option key s1 sep s2 value 0 note).WF := wf
  have ht : text = key ++ (spaces s1 ++ sep :: (spaces s2 ++ (value ++ (spaces 0 ++ [])))) := by
    simp [text, spaces]
  have hcore : trimRight text = text := by
    refine trimRight_tight fun c hc => ?_
    obtain ⟨-, -, -, -, tv, -, -⟩ := wf
    have : text = (key ++ (spaces s1 ++ sep :: spaces s2)) ++ value := by simp [text]
    rw [this, getLast?_tail tv.1] at hc
    exact tv.2.2 c hc
  have hL : spaces ind ++ o.text = spaces ind ++ text ++ spaces s3 ++ noteText note := by
    simp [o, Line.text, text]
  have main : ∀ st, Rel st (readAll a) → _ := fun st h =>
    parse_cut h ind key s1 sep s2 value 0 [] note wf0 (.inl ⟨rfl, rfl⟩) (spaces s3)
      (fun c hc => by rw [mem_spaces hc]; rfl) (by rw [← ht]; exact hcore)
  simp only [← ht, ← hL] at main
  have eo : ∀ r : Read, r.line (.option key s1 sep s2 value 0 note) = r.line o := fun _ => rfl
  simp only [eo] at main
  by_cases hc : ind = 0 ∨ (readAll a).current = none ∨ (readAll a).extend = none
  · rw [if_pos hc, show a ++ o :: b = a ++ ([o] ++ b) from rfl, meaning_mid a b [o]]
    exact parse_insert wa wb hn fun st h => (main st h).1 hc
  · rw [if_neg hc]
    push Not at hc
    by_cases hl : text.length < ind
    · rw [if_pos hl]
      exact parse_insert_err wa hn fun st h => ((main st h).2 hc.1 hc.2.1 hc.2.2).1 hl
    · rw [if_neg hl, show a ++ o :: .continuation 0 (text.drop ind) 0 none :: b =
          a ++ ([o, .continuation 0 (text.drop ind) 0 none] ++ b) from rfl,
        meaning_mid a b [o, .continuation 0 (text.drop ind) 0 none]]
      exact parse_insert wa wb hn fun st h => ((main st h).2 hc.1 hc.2.1 hc.2.2).2 (by omega)

/-- `[CI]`, `A = 1` -/
def exLines : List Line := [.header 0 ['C', 'I'] 0, .option ['A'] 1 '=' 1 ['1'] 0 none]

theorem exOption_wf (c d : Char) (hc : c ∈ ['A', 'B']) (hd : d ∈ ['1', '2', 'x']) :
    (Line.option [c] 1 '=' 1 [d] 0 none).WF := by
  simp only [List.mem_cons, List.not_mem_nil, or_false] at hc hd
  rcases hc with rfl | rfl <;> rcases hd with rfl | rfl | rfl <;>
    exact ⟨⟨by decide, by simp; decide, by simp; decide⟩, by decide, by decide, by decide,
      ⟨by decide, by simp; decide, by simp; decide⟩, by decide, by simp⟩

theorem exLines_wf : ∀ l ∈ exLines, l.WF := by
  intro l hl
  simp only [exLines, List.mem_cons, List.not_mem_nil, or_false] at hl
  rcases hl with rfl | rfl
  · exact ⟨by decide, by decide, by decide⟩
  · exact exOption_wf _ _ (by decide) (by decide)

example (n : Nat) : parse (file exLines ++ (spaces (n + 6) ++ "B = x".toList ++ '\n' :: [])) = .error .outOfRange := by
  have := C139_indented exLines [] exLines_wf (by simp) (n + 6) ['B'] 1 '=' 1 ['x'] 0 none
    (exOption_wf _ _ (by decide) (by decide))
  dsimp only at this
  rw [if_neg (by simp [readAll, exLines, Read.line, Read.assign]), if_pos (by simp [spaces])] at this
  exact this

/-- C140, in general: a value that contains a separator is cut there: the rest of the line, whatever it is,
has no effect. -/
theorem C140_value_cut (a b : List Line) (wa : ∀ l ∈ a, l.WF) (wb : ∀ l ∈ b, l.WF) (key : Str)
    (s1 : Nat) (sep : Char) (s2 : Nat) (value : Str) (s3 : Nat)
    (wf : (Line.option key s1 sep s2 value s3 none).WF) (sep' : Char) (hsep' : sep' ∈ ['=', ':'])
    (rest : Str) (hrest : '\n' ∉ rest) :
    let o := Line.option key s1 sep s2 value s3 none
    parse (file a ++ (o.text ++ sep' :: rest ++ '\n' :: file b)) = .ok (meaning (a ++ o :: b)) := by
  intro o
  have hs' : sep' = '=' ∨ sep' = ':' := by simpa using hsep'
  have hnn : sep' ≠ '\n' := by rcases hs' with rfl | rfl <;> decide
  have hns : ¬ Spec.Ini.Space sep' := by rcases hs' with rfl | rfl <;> decide
  have hn : '\n' ∉ o.text ++ sep' :: rest := by
    intro h
    rcases List.mem_append.1 h with h | h
    · exact text_no_newline o wf h
    · rcases List.mem_cons.1 h with h | h
      · exact hnn h.symm
      · exact hrest h
  -- the comment
  obtain ⟨u, note, hu, hr⟩ : ∃ u note, (∀ c ∈ u, c ≠ '#') ∧ rest = u ++ noteText note := by
    refine ⟨rest.takeWhile (fun c => c != '#'), (rest.dropWhile (fun c => c != '#')).tail? , ?_, ?_⟩
    · intro c hc; simpa using mem_takeWhile_pos hc
    · cases hd : rest.dropWhile (fun c => c != '#') with
      | nil =>
        have := List.takeWhile_append_dropWhile (p := fun c => c != '#') (l := rest)
        rw [hd] at this
        simpa [noteText] using this.symm
      | cons x q =>
        have h1 := List.takeWhile_append_dropWhile (p := fun c => c != '#') (l := rest)
        have hx : x = '#' := by
          have := List.head?_dropWhile_not (fun c => c != '#') rest
          rw [hd] at this
          simpa using this
        rw [hd, hx] at h1
        simpa [noteText] using h1.symm
  have wfn : (Line.option key s1 sep s2 value s3 note).WF := by
    obtain ⟨h1, h2, h3, h4, h5, h6, -⟩ := wf
    refine ⟨h1, h2, h3, h4, h5, h6, ?_⟩
    intro t ht hnl
    subst ht
    exact hrest (by rw [hr]; simp [noteText, hnl])
  -- trailing blanks
  obtain ⟨t, ht, htb⟩ := trimRight_split (sep' :: u)
  obtain ⟨q, hq, hqs⟩ := trimRight_keep (p := []) hns u
  simp only [List.nil_append] at hq
  rw [hq] at ht
  have hcore : trimRight (key ++ (spaces s1 ++ sep :: (spaces s2 ++ (value ++ (spaces s3 ++ sep' :: q))))) =
      key ++ (spaces s1 ++ sep :: (spaces s2 ++ (value ++ (spaces s3 ++ sep' :: q)))) := by
    have hl : ∀ c, (sep' :: q).getLast? = some c → ¬ Spec.Ini.Space c := by
      intro c hc hsp
      have h1 : trimRight (sep' :: q) = sep' :: q := by
        rw [← hq]; exact trimRight_idem _
      rw [← isSpace_iff] at hsp
      have hl : (sep' :: q) = (sep' :: q).dropLast ++ [c] := by
        conv_lhs => rw [← List.dropLast_append_getLast (l := sep' :: q) (by simp)]
        rw [List.getLast?_eq_getLast (by simp)] at hc
        rw [Option.some.inj hc]
      rw [hl, trimRight_blank _ (t := [c]) (by simpa using hsp)] at h1
      have h2 := congrArg List.length h1
      have h3 : (trimRight (sep' :: q).dropLast).length ≤ (sep' :: q).dropLast.length := by
        unfold trimRight
        rw [List.length_reverse]
        have := (List.dropWhile_sublist isSpace (l := (sep' :: q).dropLast.reverse)).length_le
        simpa only [List.length_reverse] using this
      simp only [List.length_append, List.length_singleton] at h2
      omega
    refine trimRight_tight fun c hc => hl c ?_
    have : key ++ (spaces s1 ++ sep :: (spaces s2 ++ (value ++ (spaces s3 ++ sep' :: q)))) =
        (key ++ (spaces s1 ++ sep :: (spaces s2 ++ (value ++ spaces s3)))) ++ sep' :: q := by simp
    rw [this, getLast?_tail (by simp)] at hc
    exact hc
  rw [show a ++ o :: b = a ++ ([o] ++ b) from rfl, meaning_mid a b [o]]
  refine parse_insert wa wb hn fun st h => ?_
  have := (parse_cut h 0 key s1 sep s2 value s3 (sep' :: q) note wfn
    (.inr ⟨sep', q, rfl, hs', fun x hx => hu x (hqs x hx)⟩) t htb hcore).1 (.inl rfl)
  have e : spaces 0 ++ (key ++ (spaces s1 ++ sep :: (spaces s2 ++ (value ++ (spaces s3 ++ sep' :: q))))) ++ t ++
      noteText note = o.text ++ sep' :: rest := by
    rw [hr, show sep' :: (u ++ noteText note) = (sep' :: u) ++ noteText note from rfl, ht]
    simp [o, Line.text, spaces, noteText]
  rw [e] at this
  exact this

example (rest : Str) (h : '\n' ∉ rest) :
    parse (file exLines ++ ("B = x".toList ++ ':' :: rest ++ '\n' :: [])) =
      .ok (meaning (exLines ++ [.option ['B'] 1 '=' 1 ['x'] 0 none])) :=
  C140_value_cut exLines [] exLines_wf (by simp) ['B'] 1 '=' 1 ['x'] 0
    (exOption_wf _ _ (by decide) (by decide)) ':' (by decide) rest h

/-- C142, for every value: what counts is an optional sign and the decimal digits that follow it; anything
behind them is ignored, `-` wraps around modulo `2^64`. -/
theorem C142_any_text (ls : List Line) (wf : ∀ l ∈ ls, l.WF) {sec key : Str} (hs : Tight sec)
    (hk : Tight key) (ds : '.' ∉ sec) (dk : '.' ∉ key) {m : Str → Option Str}
    (hm : meaning ls (up sec) = some m) (sign dig rest : Str) (hsign : sign ∈ [[], ['+'], ['-']])
    (hdig : ∀ c ∈ dig, c.isDigit = true) (hrest : ∀ c, rest.head? = some c → c.isDigit = false)
    (hfirst : dig = [] → sign = [] → ∀ c, rest.head? = some c → ¬ Spec.Ini.Space c ∧ c ≠ '+' ∧ c ≠ '-')
    (hv : m (up key) = some (sign ++ (dig ++ rest))) :
    (parse (file ls) >>= fun d => getSize d (query sec key)) =
      if dig = [] then .error .invalidArgument
      else if 2 ^ 64 ≤ Nat.ofDigitChars 10 dig 0 then .error .outOfRange
      else .ok (if sign = ['-'] then (2 ^ 64 - Nat.ofDigitChars 10 dig 0) % 2 ^ 64 else Nat.ofDigitChars 10 dig 0) := by
  rw [C138_read ls wf]
  show getSize (meaning ls) _ = _
  rw [getSize, ask_query ls wf hs hk ds dk hm hv]
  show stoul _ = _
  have htw : (dig ++ rest).takeWhile Char.isDigit = dig := by
    rw [List.takeWhile_append_of_pos hdig]
    cases rest with
    | nil => simp
    | cons r rs => rw [List.takeWhile_cons_of_neg (by simp [hrest r rfl]), List.append_nil]
  have hdd : digits dig = Nat.ofDigitChars 10 dig 0 := rfl
  simp only [List.mem_cons, List.not_mem_nil, or_false] at hsign
  rcases hsign with rfl | rfl | rfl
  · have hhead : ∀ c, (dig ++ rest).head? = some c → isSpace c = false ∧ c ≠ '+' ∧ c ≠ '-' := by
      intro c hc
      cases dig with
      | nil =>
        obtain ⟨h1, h2, h3⟩ := hfirst rfl rfl c hc
        refine ⟨?_, h2, h3⟩
        rw [← Bool.not_eq_true, isSpace_iff]; exact h1
      | cons x q =>
        have hx : x = c := by simpa using hc
        have hd := hdig x (by simp)
        rw [hx] at hd
        refine ⟨?_, ?_, ?_⟩
        · by_contra hn
          rw [Bool.not_eq_false, isSpace_iff] at hn
          simp only [Spec.Ini.Space, List.mem_cons, List.not_mem_nil, or_false] at hn
          rcases hn with rfl | rfl | rfl | rfl | rfl | rfl <;> revert hd <;> decide
        · rintro rfl; revert hd; decide
        · rintro rfl; revert hd; decide
    have h5 : (dig ++ rest).dropWhile isSpace = dig ++ rest := by
      cases e : dig ++ rest with
      | nil => rfl
      | cons x q => rw [List.dropWhile_cons_of_neg (by simp [(hhead x (by simp [e])).1])]
    unfold stoul
    rw [List.nil_append, h5]
    dsimp only
    split
    · rename_i heq; exact absurd rfl (hhead '-' (by simp [heq])).2.2
    · rename_i heq; exact absurd rfl (hhead '+' (by simp [heq])).2.1
    simp only [htw, hdd]
    simp
  · unfold stoul
    rw [show (['+'] ++ (dig ++ rest)).dropWhile isSpace = '+' :: (dig ++ rest) from rfl]
    simp only [htw, hdd]
    simp
  · unfold stoul
    rw [show (['-'] ++ (dig ++ rest)).dropWhile isSpace = '-' :: (dig ++ rest) from rfl]
    simp only [htw, hdd]

example : (parse (file [.header 0 "ASCI".toList 0, .option ['A'] 1 '=' 1 "12e3".toList 0 none]) >>=
    fun d => getSize d (query "ASCI".toList ['A'])) = .ok 12 := by
  have := C142_any_text [.header 0 "ASCI".toList 0, .option ['A'] 1 '=' 1 "12e3".toList 0 none]
    (by
      intro l hl
      simp only [List.mem_cons, List.not_mem_nil, or_false] at hl
      rcases hl with rfl | rfl
      · exact ⟨by decide, by decide, by decide⟩
      · exact ⟨⟨by decide, by simp; decide, by simp; decide⟩, by decide, by decide, by decide,
          ⟨by decide, by simp; decide, by simp; decide⟩, by decide, by simp⟩)
    (sec := "ASCI".toList) (key := ['A'])
    ⟨by decide, by simp; decide, by simp; decide⟩ ⟨by decide, by simp; decide, by simp; decide⟩ (by decide) (by decide)
    (m := fun k => if k = ['A'] then some "12e3".toList else none)
    (by simp only [meaning, List.foldl_cons, List.foldl_nil, Read.line, Read.assign]
        simp [show up "ASCI".toList = "ASCI".toList from by decide, show up ['A'] = ['A'] by decide])
    [] "12".toList "e3".toList (by decide) (by decide) (by simp) (by simp)
    (by simp [show up ['A'] = ['A'] by decide])
  rw [this]
  decide

end Macis.Ini
