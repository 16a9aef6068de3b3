import Verif.Lemmas.Ini
/-! Properties C138-C143: the driver's input file. -/
namespace Macis.Ini
open Spec.Ini (Line Read Tight spaces noteText up file meaning)

/-- model state and reference state agree -/
def Rel (st : State) (r : Read) : Prop :=
  st.dict = r.value ∧
  (r.current = none → st.parseSection = false ∧ r.extend = none) ∧
  (∀ s, r.current = some s → st.parseSection = true ∧ st.sectionHeader = s) ∧
  (r.extend = none → st.prevLineData = false) ∧
  (∀ k, r.extend = some k → st.prevLineData = true ∧ st.dataHeader = k)

theorem spaces_len (n : Nat) : (spaces n).length = n := List.length_replicate

theorem parse_blank {st : State} {r : Read} (h : Rel st r) (n : Nat) :
    ∃ st', parseLine st (Line.blank n).text = .ok st' ∧ Rel st' (r.line (.blank n)) := by
  cases n with
  | zero =>
    refine ⟨{ st with prevLineData := false }, rfl, h.1, fun e => ⟨(h.2.1 e).1, rfl⟩, h.2.2.1, fun _ => rfl, ?_⟩
    intro k hk; exact absurd hk (by simp [Read.line])
  | succ n =>
    refine ⟨st, ?_, h⟩
    have e1 : findIdx (fun c => c != ' ') (spaces (n + 1)) = none :=
      findIdx_miss fun x hx => by rw [mem_spaces hx]; rfl
    have e2 : findIdx (fun c => c == '#') (spaces (n + 1)) = none :=
      findIdx_miss fun x hx => by rw [mem_spaces hx]; rfl
    simp only [Line.text, parseLine, e1, e2, spaces_len]
    rfl

theorem parse_comment {st : State} {r : Read} (h : Rel st r) (n : Nat) (t : Str) :
    ∃ st', parseLine st (Line.comment n t).text = .ok st' ∧ Rel st' (r.line (.comment n t)) := by
  refine ⟨st, ?_, h⟩
  have e1 : findIdx (fun c => c != ' ') (spaces n ++ '#' :: t) = some (spaces n).length :=
    findIdx_hit (fun x hx => by rw [mem_spaces hx]; rfl) rfl
  have e2 : findIdx (fun c => c == '#') (spaces n ++ '#' :: t) = some (spaces n).length :=
    findIdx_hit (fun x hx => by rw [mem_spaces hx]; rfl) rfl
  have e3 : ¬ (spaces n ++ '#' :: t).length < 1 := by simp
  simp only [Line.text, parseLine, e1, e2, if_neg e3]
  rfl

theorem parse_header {st : State} {r : Read} (h : Rel st r) (n : Nat) (name : Str) (m : Nat)
    (wf : (Line.header n name m).WF) :
    ∃ st', parseLine st (Line.header n name m).text = .ok st' ∧ Rel st' (r.line (.header n name m)) := by
  obtain ⟨w1, w2, w3⟩ := wf
  set L := spaces n ++ '[' :: (name ++ ']' :: spaces m) with hL
  have e1 : findIdx (fun c => c != ' ') L = some (spaces n).length :=
    findIdx_hit (fun x hx => by rw [mem_spaces hx]; rfl) rfl
  have e2 : findIdx (fun c => c == '#') L = none := by
    refine findIdx_miss fun x hx => ?_
    simp only [hL, List.mem_append, List.mem_cons] at hx
    rcases hx with hx | rfl | hx | rfl | hx
    · rw [mem_spaces hx]; rfl
    · rfl
    · exact beq_false_of_ne fun e => w2 (e ▸ hx)
    · rfl
    · rw [mem_spaces hx]; rfl
  have e3 : ¬ L.length < 1 := by simp [hL]
  set M := spaces n ++ '[' :: (name ++ [']']) with hM
  have hM' : M = (spaces n ++ '[' :: name) ++ [']'] := by simp [hM]
  have hLM : L = M ++ spaces m := by simp [hL, hM]
  have e4 : trimRight L = M := by
    rw [hLM, trimRight_spaces]
    refine trimRight_tight fun c hc => ?_
    rw [hM', getLast?_tail (by simp)] at hc
    obtain rfl : ']' = c := by simpa using hc
    decide
  have e5 : findIdx (fun c => c == '[') M = some (spaces n).length :=
    findIdx_hit (fun x hx => by rw [mem_spaces hx]; rfl) rfl
  have e6 : findIdx (fun c => c == ']') M = some (spaces n ++ '[' :: name).length := by
    rw [hM']
    refine findIdx_hit (fun x hx => ?_) rfl
    simp only [List.mem_append, List.mem_cons] at hx
    rcases hx with hx | rfl | hx
    · rw [mem_spaces hx]; rfl
    · rfl
    · exact beq_false_of_ne fun e => w1 (e ▸ hx)
  have e7 : lastNonSpace L = some (spaces n ++ '[' :: name).length := by
    have hr : L.reverse = spaces m ++ ']' :: (spaces n ++ '[' :: name).reverse := by
      rw [hLM, hM']; simp [spaces]
    have : findIdx (fun c => c != ' ') L.reverse = some (spaces m).length := by
      rw [hr]
      exact findIdx_hit (fun x hx => by rw [mem_spaces hx]; rfl) rfl
    rw [findIdx] at this
    rw [lastNonSpace, this, hLM, hM']
    simp only [Option.map_some, List.length_append, List.length_cons, List.length_nil, spaces_len]
    congr 1
    omega
  have e8 : substr M (spaces n).length M.length = .ok ('[' :: (name ++ [']'])) := by
    have hle : ¬ M.length < (spaces n).length := by rw [hM]; simp
    rw [substr, if_neg hle, hM, List.drop_left]
    rw [List.take_of_length_le (by simp)]
  have e9 : substr ('[' :: (name ++ [']'])) 1 (('[' :: (name ++ [']'])).length - 2) = .ok name := by
    have : ('[' :: (name ++ [']'])).length - 2 = name.length := by simp
    rw [this, substr, if_neg (by simp)]
    simp
  refine ⟨{ st with dict := st.dict.reset (upper name), parseSection := true, prevLineData := false,
                    sectionHeader := upper name }, ?_, ?_⟩
  · simp only [Line.text, parseLine, ← hL, e1, e2, cutComment, e4, e5, e6, e7, if_neg e3, Option.getD_some, e8,
      and_self, if_true]
    simp only [bind, Except.bind, pure, Except.pure, e9, reduceCtorEq, if_false]
  · refine ⟨?_, fun e => absurd e (by simp [Read.line]), ?_, fun _ => rfl, fun k hk => absurd hk (by simp [Read.line])⟩
    · funext s
      simp only [Dict.reset, Read.line, h.1]
      rfl
    · intro s hs
      have : up name = s := by simpa [Read.line] using hs
      exact ⟨rfl, this⟩

/-- removal of the comment and of trailing spaces -/
theorem strip_note {core : Str} (hne : core ≠ []) (hh : ∀ c ∈ core, c ≠ '#')
    (hl : ∀ c, core.getLast? = some c → ¬ Spec.Ini.Space c) (m : Nat) (note : Option Str) :
    let L := core ++ (spaces m ++ noteText note)
    trimRight (cutComment L (findIdx (fun c => c == '#') L)) = core ∧
    (findIdx (fun c => c == '#') L = none ∨ findIdx (fun c => c == '#') L = some (core.length + m)) := by
  intro L
  have hs : ∀ x ∈ core ++ spaces m, (x == '#') = false := by
    intro x hx
    rcases List.mem_append.1 hx with hx | hx
    · exact beq_false_of_ne (hh x hx)
    · rw [mem_spaces hx]; rfl
  cases note with
  | none =>
    have e : findIdx (fun c => c == '#') L = none := findIdx_miss fun x hx => hs x (by simpa [L, noteText] using hx)
    rw [e]
    refine ⟨?_, .inl rfl⟩
    show trimRight L = core
    rw [show L = core ++ spaces m by simp [L, noteText], trimRight_spaces, trimRight_tight hl]
  | some t =>
    have e : findIdx (fun c => c == '#') L = some (core ++ spaces m).length := by
      rw [show L = (core ++ spaces m) ++ '#' :: t by simp [L, noteText]]
      exact findIdx_hit hs rfl
    rw [e]
    refine ⟨?_, .inr (by simp [spaces_len])⟩
    show trimRight (L.take (core ++ spaces m).length) = core
    rw [show L = (core ++ spaces m) ++ '#' :: t by simp [L, noteText], List.take_left, trimRight_spaces,
      trimRight_tight hl]

theorem parse_option {st : State} {r : Read} (h : Rel st r) (key : Str) (s1 : Nat) (sep : Char) (s2 : Nat)
    (value : Str) (s3 : Nat) (note : Option Str) (wf : (Line.option key s1 sep s2 value s3 note).WF) :
    ∃ st', parseLine st (Line.option key s1 sep s2 value s3 note).text = .ok st' ∧
      Rel st' (r.line (.option key s1 sep s2 value s3 note)) := by
  obtain ⟨tk, ck, hk, hsep, tv, cv, -⟩ := wf
  set core := key ++ (spaces s1 ++ sep :: (spaces s2 ++ value)) with hcore
  set L := core ++ (spaces s3 ++ noteText note) with hL
  have hL' : (Line.option key s1 sep s2 value s3 note).text = L := by simp [Line.text, hL, hcore]
  obtain ⟨k0, kt, rfl⟩ : ∃ a b, key = a :: b := List.exists_cons_of_ne_nil tk.1
  have k0s : ¬ Spec.Ini.Space k0 := tk.2.1 k0 rfl
  have k0n : k0 ≠ ' ' := fun e => k0s (by rw [e]; decide)
  have hne : core ≠ [] := by simp [hcore]
  have hlast : core.getLast? = value.getLast? := by
    rw [hcore, getLast?_tail (by simp), getLast?_tail (by simp)]
    rw [show sep :: (spaces s2 ++ value) = (sep :: spaces s2) ++ value by simp, getLast?_tail tv.1]
  have hsepc : sep = '=' ∨ sep = ':' := by simpa using hsep
  have hh : ∀ c ∈ core, c ≠ '#' := by
    intro c hc
    simp only [hcore, List.mem_append, List.mem_cons] at hc
    rcases hc with hc | hc | rfl | hc | hc
    · have := ck c (by simpa using hc); simp at this; exact this.2.2.1
    · rw [mem_spaces hc]; decide
    · rcases hsepc with rfl | rfl <;> decide
    · rw [mem_spaces hc]; decide
    · have := cv c hc; simp at this; exact this.2.2.1
  obtain ⟨n1, n2⟩ := strip_note hne hh (by rw [hlast]; exact tv.2.2) s3 note
  rw [← hL] at n1 n2
  have e1 : findIdx (fun c => c != ' ') L = some 0 := by
    have : L = [] ++ k0 :: (kt ++ (spaces s1 ++ sep :: (spaces s2 ++ value)) ++ (spaces s3 ++ noteText note)) := by
      simp [hL, hcore]
    rw [this]
    exact findIdx_hit (by simp) (by simpa using k0n)
  have e2 : findIdx (fun c => c == '#') L ≠ some 0 := by
    have hpos : core.length ≠ 0 := by simpa using hne
    intro e'
    rcases n2 with e | e
    · rw [e] at e'; simp at e'
    · rw [e, Option.some.injEq] at e'; omega
  have e3 : ¬ L.length < 1 := by simp [hL, hcore]
  have e5 : findIdx (fun c => c == '[') core ≠ some 0 := by
    intro e
    have : k0 ≠ '[' := fun e => hk (by simp [e])
    rw [findIdx, hcore, List.cons_append, List.findIdx?_cons] at e
    simp [this] at e
  have e6 : findIdx (fun c => c == '=') core ≠ none ∨ findIdx (fun c => c == ':') core ≠ none := by
    rcases hsepc with rfl | rfl
    · left; rw [findIdx, Ne, List.findIdx?_eq_none_iff]
      intro hc; have := hc '=' (by simp [hcore]); simp at this
    · right; rw [findIdx, Ne, List.findIdx?_eq_none_iff]
      intro hc; have := hc ':' (by simp [hcore]); simp at this
  have e7 : core.head? ≠ some ' ' := by simpa [hcore] using k0n
  have e8 : substr core 0 (core.length - 0) = .ok core := by simp [substr]
  have dk : ∀ x ∈ k0 :: kt ++ spaces s1, (x == '=' || x == ':') = false := by
    intro x hx
    rcases List.mem_append.1 hx with hx | hx
    · have := ck x hx; simp at this; simp [this.1, this.2.1]
    · rw [mem_spaces hx]; rfl
  have dv : ∀ x ∈ spaces s2 ++ value, (x == '=' || x == ':') = false := by
    intro x hx
    rcases List.mem_append.1 hx with hx | hx
    · rw [mem_spaces hx]; rfl
    · have := cv x hx; simp at this; simp [this.1, this.2.1]
  have e9 : (split (fun c => c == '=' || c == ':') core).map trim = [k0 :: kt, value] := by
    have hc : core = (k0 :: kt ++ spaces s1) ++ sep :: (spaces s2 ++ value) := by simp [hcore]
    rw [hc, split_run_cons dk (by simp) (by rcases hsepc with rfl | rfl <;> rfl),
      split_run dv (by simp [tv.1])]
    have t1 := trim_pad tk 0 s1
    have t2 := trim_pad tv s2 0
    simp only [spaces, List.replicate_zero, List.nil_append, List.append_nil] at t1 t2
    simp only [List.map_cons, List.map_nil, spaces, t1, t2]
  cases hcur : r.current with
  | none =>
    have hp := (h.2.1 hcur).1
    refine ⟨st, ?_, ?_⟩
    · rw [hL']
      simp only [parseLine, e1, if_neg e3, if_neg e2, n1,
        if_neg (fun hh : _ ∧ _ => e5 hh.1), hp, Bool.false_eq_true, false_and, if_false]
      simp only [bind, Except.bind, pure, Except.pure, hp, Bool.false_eq_true, false_and, if_false]
    · simp only [Read.line, Read.assign, hcur]; exact h
  | some sec =>
    obtain ⟨hp, hsec⟩ := h.2.2.1 sec hcur
    refine ⟨{ st with dict := st.dict.set st.sectionHeader (upper (k0 :: kt)) value,
                      dataHeader := upper (k0 :: kt), prevLineData := true }, ?_, ?_⟩
    · rw [hL']
      simp only [parseLine, e1, if_neg e3, if_neg e2, n1,
        if_neg (fun hh : _ ∧ _ => e5 hh.1), hp, true_and, if_pos e6, Option.getD_some, e8, e9, e7,
        and_false, if_false]
      simp only [bind, Except.bind, pure, Except.pure, e8, e9]
    · refine ⟨?_, ?_, ?_, ?_, ?_⟩
      · funext s
        simp only [Dict.set, Read.line, Read.assign, hcur, h.1, hsec]
        by_cases e : s = sec
        · subst e
          simp only [if_true]
          congr 1
          funext k
          rw [show upper (k0 :: kt) = up (k0 :: kt) from rfl]
          split
          · rfl
          · cases r.value s <;> rfl
        · simp only [if_neg e]
      · intro e; simp [Read.line, Read.assign, hcur] at e
      · intro s hs
        have : sec = s := by simpa [Read.line, Read.assign, hcur] using hs
        exact ⟨hp, by rw [← this]; exact hsec⟩
      · intro e; simp [Read.line, Read.assign, hcur] at e
      · intro k hk
        have : up (k0 :: kt) = k := by simpa [Read.line, Read.assign, hcur] using hk
        exact ⟨rfl, this⟩

theorem parse_bare {st : State} {r : Read} (h : Rel st r) (key : Str) (s1 : Nat) (sep : Char) (s2 : Nat)
    (note : Option Str) (wf : (Line.bare key s1 sep s2 note).WF) :
    ∃ st', parseLine st (Line.bare key s1 sep s2 note).text = .ok st' ∧
      Rel st' (r.line (.bare key s1 sep s2 note)) := by
  obtain ⟨tk, ck, hk, hsep, -⟩ := wf
  set core := key ++ (spaces s1 ++ [sep]) with hcore
  set L := core ++ (spaces s2 ++ noteText note) with hL
  have hL' : (Line.bare key s1 sep s2 note).text = L := by simp [Line.text, hL, hcore]
  obtain ⟨k0, kt, rfl⟩ : ∃ a b, key = a :: b := List.exists_cons_of_ne_nil tk.1
  have k0s : ¬ Spec.Ini.Space k0 := tk.2.1 k0 rfl
  have k0n : k0 ≠ ' ' := fun e => k0s (by rw [e]; decide)
  have hne : core ≠ [] := by simp [hcore]
  have hsepc : sep = '=' ∨ sep = ':' := by simpa using hsep
  have hlast : core.getLast? = some sep := by
    rw [hcore, getLast?_tail (by simp), getLast?_tail (by simp)]; rfl
  have hh : ∀ c ∈ core, c ≠ '#' := by
    intro c hc
    simp only [hcore, List.mem_append, List.mem_cons] at hc
    rcases hc with hc | hc | hc
    · have := ck c (by simpa using hc); simp at this; exact this.2.2.1
    · rw [mem_spaces hc]; decide
    · rcases hc with rfl | hc
      · rcases hsepc with rfl | rfl <;> decide
      · simp at hc
  obtain ⟨n1, n2⟩ := strip_note hne hh (by
    rw [hlast]
    intro c hc
    obtain rfl : sep = c := Option.some.inj hc
    rcases hsepc with rfl | rfl <;> decide) s2 note
  rw [← hL] at n1 n2
  have e1 : findIdx (fun c => c != ' ') L = some 0 := by
    have : L = [] ++ k0 :: (kt ++ (spaces s1 ++ [sep]) ++ (spaces s2 ++ noteText note)) := by
      simp [hL, hcore]
    rw [this]
    exact findIdx_hit (by simp) (by simpa using k0n)
  have e2 : findIdx (fun c => c == '#') L ≠ some 0 := by
    have hpos : core.length ≠ 0 := by simpa using hne
    intro e'
    rcases n2 with e | e
    · rw [e] at e'; simp at e'
    · rw [e, Option.some.injEq] at e'; omega
  have e3 : ¬ L.length < 1 := by simp [hL, hcore]
  have e5 : findIdx (fun c => c == '[') core ≠ some 0 := by
    intro e
    have : k0 ≠ '[' := fun e => hk (by simp [e])
    rw [findIdx, hcore, List.cons_append, List.findIdx?_cons] at e
    simp [this] at e
  have e6 : findIdx (fun c => c == '=') core ≠ none ∨ findIdx (fun c => c == ':') core ≠ none := by
    rcases hsepc with rfl | rfl
    · left; rw [findIdx, Ne, List.findIdx?_eq_none_iff]
      intro hc; have := hc '=' (by simp [hcore]); simp at this
    · right; rw [findIdx, Ne, List.findIdx?_eq_none_iff]
      intro hc; have := hc ':' (by simp [hcore]); simp at this
  have e7 : core.head? ≠ some ' ' := by simpa [hcore] using k0n
  have e8 : substr core 0 (core.length - 0) = .ok core := by simp [substr]
  have dk : ∀ x ∈ k0 :: kt ++ spaces s1, (x == '=' || x == ':') = false := by
    intro x hx
    rcases List.mem_append.1 hx with hx | hx
    · have := ck x hx; simp at this; simp [this.1, this.2.1]
    · rw [mem_spaces hx]; rfl
  have e9 : (split (fun c => c == '=' || c == ':') core).map trim = [k0 :: kt] := by
    have hc : core = (k0 :: kt ++ spaces s1) ++ sep :: [] := by simp [hcore]
    rw [hc, split_run_cons dk (by simp) (by rcases hsepc with rfl | rfl <;> rfl)]
    have t1 := trim_pad tk 0 s1
    simp only [spaces, List.replicate_zero, List.nil_append] at t1
    simp only [List.map_cons, spaces, t1]
    rfl
  cases hcur : r.current with
  | none =>
    have hp := (h.2.1 hcur).1
    refine ⟨st, ?_, ?_⟩
    · rw [hL']
      simp only [parseLine, e1, if_neg e3, if_neg e2, n1,
        if_neg (fun hh : _ ∧ _ => e5 hh.1), hp, Bool.false_eq_true, false_and, if_false]
      simp only [bind, Except.bind, pure, Except.pure, hp, Bool.false_eq_true, false_and, if_false]
    · simp only [Read.line, Read.assign, hcur]; exact h
  | some sec =>
    obtain ⟨hp, hsec⟩ := h.2.2.1 sec hcur
    refine ⟨{ st with dict := st.dict.set st.sectionHeader (upper (k0 :: kt)) [' '],
                      dataHeader := upper (k0 :: kt), prevLineData := true }, ?_, ?_⟩
    · rw [hL']
      simp only [parseLine, e1, if_neg e3, if_neg e2, n1,
        if_neg (fun hh : _ ∧ _ => e5 hh.1), hp, true_and, if_pos e6, Option.getD_some, e8, e9, e7,
        and_false, if_false]
      simp only [bind, Except.bind, pure, Except.pure, e8, e9]
    · refine ⟨?_, ?_, ?_, ?_, ?_⟩
      · funext s
        simp only [Dict.set, Read.line, Read.assign, hcur, h.1, hsec]
        by_cases e : s = sec
        · subst e
          simp only [if_true]
          congr 1
          funext k
          rw [show upper (k0 :: kt) = up (k0 :: kt) from rfl]
          split
          · rfl
          · cases r.value s <;> rfl
        · simp only [if_neg e]
      · intro e; simp [Read.line, Read.assign, hcur] at e
      · intro s hs
        have : sec = s := by simpa [Read.line, Read.assign, hcur] using hs
        exact ⟨hp, by rw [← this]; exact hsec⟩
      · intro e; simp [Read.line, Read.assign, hcur] at e
      · intro k hk
        have : up (k0 :: kt) = k := by simpa [Read.line, Read.assign, hcur] using hk
        exact ⟨rfl, this⟩

theorem parse_continuation {st : State} {r : Read} (h : Rel st r) (n : Nat) (t : Str) (m : Nat)
    (note : Option Str) (wf : (Line.continuation n t m note).WF) :
    ∃ st', parseLine st (Line.continuation n t m note).text = .ok st' ∧
      Rel st' (r.line (.continuation n t m note)) := by
  obtain ⟨tt, ct, hb, -⟩ := wf
  set core := spaces (n + 1) ++ t with hcore
  set L := core ++ (spaces m ++ noteText note) with hL
  have hL' : (Line.continuation n t m note).text = L := by simp [Line.text, hL, hcore]
  obtain ⟨k0, kt, rfl⟩ : ∃ a b, t = a :: b := List.exists_cons_of_ne_nil tt.1
  have k0s : ¬ Spec.Ini.Space k0 := tt.2.1 k0 rfl
  have k0n : k0 ≠ ' ' := fun e => k0s (by rw [e]; decide)
  have hne : core ≠ [] := by simp [hcore]
  have hlast : core.getLast? = (k0 :: kt).getLast? := by rw [hcore, getLast?_tail (by simp)]
  have hcc : ∀ c ∈ core, c ≠ '#' ∧ c ≠ '=' ∧ c ≠ ':' := by
    intro c hc
    rcases List.mem_append.1 hc with hc | hc
    · rw [mem_spaces hc]; decide
    · have := ct c hc; simp at this; exact ⟨this.2.2.1, this.1, this.2.1⟩
  obtain ⟨n1, n2⟩ := strip_note hne (fun c hc => (hcc c hc).1) (by rw [hlast]; exact tt.2.2) m note
  rw [← hL] at n1 n2
  have e1 : findIdx (fun c => c != ' ') L = some (n + 1) := by
    have : L = spaces (n + 1) ++ k0 :: (kt ++ (spaces m ++ noteText note)) := by simp [hL, hcore]
    rw [this, findIdx_hit (fun x hx => by rw [mem_spaces hx]; rfl) (by simpa using k0n), spaces_len]
  have hlen : core.length = n + 1 + (kt.length + 1) := by simp [hcore, spaces_len]
  have e2 : findIdx (fun c => c == '#') L ≠ some (n + 1) := by
    intro e'
    rcases n2 with e | e
    · rw [e] at e'; simp at e'
    · rw [e, Option.some.injEq] at e'; omega
  have e3 : ¬ L.length < 1 := by rw [hL, List.length_append]; omega
  have e5 : findIdx (fun c => c == '[') core ≠ some (n + 1) := by
    intro e
    have hk0 : k0 ≠ '[' := fun e => hb (by simp [e])
    rw [findIdx, List.findIdx?_eq_some_iff_getElem] at e
    obtain ⟨hlt, hp, -⟩ := e
    have : core[n + 1] = k0 := by
      simp only [hcore]
      rw [List.getElem_append_right (by simp [spaces_len])]
      simp [spaces_len]
    rw [this] at hp
    exact hk0 (by simpa using hp)
  have e6 : ¬ (findIdx (fun c => c == '=') core ≠ none ∨ findIdx (fun c => c == ':') core ≠ none) := by
    rw [findIdx_miss fun x hx => beq_false_of_ne (hcc x hx).2.1,
      findIdx_miss fun x hx => beq_false_of_ne (hcc x hx).2.2]
    simp
  have e7 : core.head? = some ' ' := by simp [hcore, spaces, List.replicate_succ]
  have e8 : substr core (n + 1) (core.length - (n + 1)) = .ok (k0 :: kt) := by
    rw [substr, if_neg (by omega), hcore]
    have : (spaces (n + 1) ++ k0 :: kt).drop (n + 1) = k0 :: kt := by
      have := List.drop_left (l₁ := spaces (n + 1)) (l₂ := k0 :: kt)
      rwa [spaces_len] at this
    rw [this, List.take_of_length_le (by simp [spaces_len])]
  cases hcur : r.current with
  | none =>
    have hp := (h.2.1 hcur).1
    refine ⟨st, ?_, ?_⟩
    · rw [hL']
      simp only [parseLine, e1, if_neg e3, if_neg e2, n1,
        if_neg (fun hh : _ ∧ _ => e5 hh.1), hp, Bool.false_eq_true, false_and, if_false]
      simp only [bind, Except.bind, pure, Except.pure, hp, Bool.false_eq_true, false_and, if_false]
    · simp only [Read.line, hcur]; exact h
  | some sec =>
    obtain ⟨hp, hsec⟩ := h.2.2.1 sec hcur
    cases hext : r.extend with
    | none =>
      have hprev := h.2.2.2.1 hext
      refine ⟨st, ?_, ?_⟩
      · rw [hL']
        simp only [parseLine, e1, if_neg e3, if_neg e2, n1,
          if_neg (fun hh : _ ∧ _ => e5 hh.1), hp, true_and, if_neg e6, hprev, Bool.false_eq_true,
          false_and, if_false]
        simp only [bind, Except.bind, pure, Except.pure, hp, Bool.false_eq_true, false_and, and_false, if_false]
      · simp only [Read.line, hcur, hext]; exact h
    | some key =>
      obtain ⟨hprev, hdh⟩ := h.2.2.2.2 key hext
      refine ⟨{ st with
        dict := st.dict.set st.sectionHeader st.dataHeader
          ((((st.dict st.sectionHeader).getD fun _ => none) st.dataHeader).getD [] ++ '\n' :: k0 :: kt) }, ?_, ?_⟩
      · rw [hL']
        simp only [parseLine, e1, if_neg e3, if_neg e2, n1,
          if_neg (fun hh : _ ∧ _ => e5 hh.1), hp, true_and, if_neg e6, hprev, Option.getD_some,
          e7, and_self, if_true]
        simp only [bind, Except.bind, pure, Except.pure, hp, true_and, if_true, e8, hprev]
      · refine ⟨?_, ?_, ?_, ?_, ?_⟩
        · funext s
          simp only [Dict.set, Read.line, hcur, hext, h.1, hsec, hdh]
          by_cases e : s = sec
          · subst e
            simp only [if_true]
            congr 1
            funext k
            split
            · rename_i ek
              subst ek
              cases r.value s <;> rfl
            · cases r.value s <;> rfl
          · simp only [if_neg e]
        · intro e; simp [Read.line, hcur, hext] at e
        · intro s hs
          have : sec = s := by simpa [Read.line, hcur, hext] using hs
          exact ⟨hp, by rw [← this]; exact hsec⟩
        · intro e; simp [Read.line, hcur, hext] at e
        · intro k hk
          have : key = k := by simpa [Read.line, hcur, hext] using hk
          exact ⟨hprev, by rw [← this]; exact hdh⟩

theorem text_no_newline (l : Line) (wf : l.WF) : '\n' ∉ l.text := by
  have sp : ∀ n, '\n' ∉ spaces n := fun n h => absurd (mem_spaces h) (by decide)
  have nt : ∀ note : Option Str, (∀ t, note = some t → '\n' ∉ t) → '\n' ∉ noteText note := by
    intro note h
    cases note with
    | none => simp [noteText]
    | some t => simp [noteText, h t rfl]
  cases l with
  | blank n => exact sp n
  | comment n t =>
    have h : '\n' ∉ t := wf
    simpa [Line.text, sp] using h
  | header n name m => simpa [Line.text, sp] using wf.2.2
  | option key s1 sep s2 value s3 note =>
    obtain ⟨-, ck, -, hsep, -, cv, hn⟩ := wf
    have h1 : '\n' ∉ key := fun h => ck _ h (by simp)
    have h2 : '\n' ∉ value := fun h => cv _ h (by simp)
    have h3 : '\n' ≠ sep := fun h => by subst h; simp at hsep
    simp [Line.text, sp, h1, h2, h3, nt note hn]
  | bare key s1 sep s2 note =>
    obtain ⟨-, ck, -, hsep, hn⟩ := wf
    have h1 : '\n' ∉ key := fun h => ck _ h (by simp)
    have h3 : '\n' ≠ sep := fun h => by subst h; simp at hsep
    simp [Line.text, sp, h1, h3, nt note hn]
  | continuation n t m note =>
    obtain ⟨-, ct, -, hn⟩ := wf
    have h1 : '\n' ∉ t := fun h => ct _ h (by simp)
    simp [Line.text, sp, h1, nt note hn]

theorem parse_line {st : State} {r : Read} (h : Rel st r) (l : Line) (wf : l.WF) :
    ∃ st', parseLine st l.text = .ok st' ∧ Rel st' (r.line l) := by
  cases l with
  | blank n => exact parse_blank h n
  | comment n t => exact parse_comment h n t
  | header n name m => exact parse_header h n name m wf
  | option key s1 sep s2 value s3 note => exact parse_option h key s1 sep s2 value s3 note wf
  | bare key s1 sep s2 note => exact parse_bare h key s1 sep s2 note wf
  | continuation n t m note => exact parse_continuation h n t m note wf

theorem lines_file (ls : List Line) (wf : ∀ l ∈ ls, l.WF) : lines (file ls) = ls.map Line.text ++ [[]] := by
  induction ls with
  | nil => rfl
  | cons l ls ih =>
    have : file (l :: ls) = l.text ++ '\n' :: file ls := by simp [file]
    rw [this, lines_cons (text_no_newline l (wf l (List.mem_cons_self ..))),
      ih fun l hl => wf l (List.mem_cons_of_mem _ hl)]
    rfl

theorem parse_lines (ls : List Line) (wf : ∀ l ∈ ls, l.WF) : ∀ {st : State} {r : Read}, Rel st r →
    ∃ st', (ls.map Line.text).foldlM parseLine st = .ok st' ∧ Rel st' (ls.foldl Read.line r) := by
  induction ls with
  | nil => intro st r h; exact ⟨st, rfl, h⟩
  | cons l ls ih =>
    intro st r h
    obtain ⟨st1, e1, h1⟩ := parse_line h l (wf l (List.mem_cons_self ..))
    obtain ⟨st2, e2, h2⟩ := ih (fun l hl => wf l (List.mem_cons_of_mem _ hl)) h1
    refine ⟨st2, ?_, h2⟩
    rw [List.map_cons, List.foldlM_cons, e1]
    exact e2

/-- C138: every file of well-formed lines is read without error, and what is read is what the lines mean:
sections and option names without regard to case, later options overriding earlier ones, options without a
value reading as one space, blank lines,
comments and spacing without effect, continuations appended. -/
theorem C138_read (ls : List Line) (wf : ∀ l ∈ ls, l.WF) : parse (file ls) = .ok (meaning ls) := by
  have h0 : Rel ⟨fun _ => none, false, false, [], []⟩ ⟨fun _ => none, none, none⟩ :=
    ⟨rfl, fun _ => ⟨rfl, rfl⟩, fun _ h => absurd h (by simp), fun _ => rfl, fun _ h => absurd h (by simp)⟩
  obtain ⟨st, e, h⟩ := parse_lines ls wf h0
  rw [parse, lines_file ls wf, List.foldlM_append, e]
  show Except.ok st.dict = _
  rw [h.1]
  rfl

/-- C138: asking for an option of a section, in any case and with any white space around the names, gives
its value, and says whether the section or the option is missing. -/
theorem C138_query (ls : List Line) (wf : ∀ l ∈ ls, l.WF) (sec key : Str) (n1 n2 n3 n4 : Nat)
    (hs : Tight sec) (hk : Tight key) (ds : '.' ∉ sec) (dk : '.' ∉ key) :
    (parse (file ls) >>= fun d => getString d
      (spaces n1 ++ (sec ++ spaces n2) ++ '.' :: (spaces n3 ++ (key ++ spaces n4)))) =
      match meaning ls (up sec) with
      | none => .error .sectionNotFound
      | some m => match m (up key) with
        | none => .error .dataNotFound
        | some v => .ok v := by
  rw [C138_read ls wf]
  show getString (meaning ls) _ = _
  have nd : ∀ {a : Str} (m n : Nat), '.' ∉ a → ∀ x ∈ spaces m ++ (a ++ spaces n), (x == '.') = false := by
    intro a m n h x hx
    simp only [List.mem_append] at hx
    rcases hx with hx | hx | hx
    · rw [mem_spaces hx]; rfl
    · exact beq_false_of_ne fun e => h (e ▸ hx)
    · rw [mem_spaces hx]; rfl
  have q : splitQuery (spaces n1 ++ (sec ++ spaces n2) ++ '.' :: (spaces n3 ++ (key ++ spaces n4))) =
      .ok (up sec, up key) := by
    rw [splitQuery, split_run_cons (nd n1 n2 ds) (by simp [hs.1]) (by rfl),
      split_run (nd n3 n4 dk) (by simp [hk.1])]
    simp only [List.map_cons, List.map_nil, trim_pad hs, trim_pad hk]
    rfl
  rw [getString, q]
  show (match meaning ls (up sec) with
    | none => Except.error Err.sectionNotFound
    | some m => match m (up key) with
      | none => Except.error Err.dataNotFound
      | some v => Except.ok v) = _
  rfl

instance (s : Str) : Decidable (Tight s) :=
  decidable_of_iff (s ≠ [] ∧ (s.head?.all fun c => !decide (Spec.Ini.Space c)) = true ∧
      (s.getLast?.all fun c => !decide (Spec.Ini.Space c)) = true) <| by
    unfold Tight
    refine and_congr Iff.rfl (and_congr ?_ ?_)
    · cases s.head? <;> simp
    · cases s.getLast? <;> simp

/-- A file with every kind of line, options overridden and continued, whatever case. -/
def sample : List Line :=
  [.comment 2 " driver input".toList, .option "Lost".toList 0 '=' 0 "1".toList 0 none,
   .header 0 "Ci".toList 3, .option "fcidump".toList 1 '=' 1 "h2o.dat".toList 0 none, .blank 0,
   .option "nalpha".toList 0 ':' 2 "5".toList 1 (some " five".toList), .blank 3,
   .option "NAlpha".toList 1 '=' 1 "6".toList 0 none, .comment 0 [],
   .continuation 2 "more words".toList 1 (some []), .header 1 "MCSCF".toList 0,
   .bare "orbs".toList 1 '=' 2 none, .continuation 1 "1 2".toList 0 none, .bare "none".toList 0 ':' 0 (some [])]

example : (∀ l ∈ sample, l.WF) ∧
    String.ofList (file sample) = "  # driver input\nLost=1\n[Ci]   \nfcidump = h2o.dat\n\nnalpha:  5 # five\n" ++
      "   \nNAlpha = 6\n#\n   more words #\n [MCSCF]\norbs =  \n  1 2\nnone:#\n" ∧
    ((meaning sample "CI".toList).bind fun m => m "NALPHA".toList) = some "6\nmore words".toList ∧
    ((meaning sample "CI".toList).bind fun m => m "FCIDUMP".toList) = some "h2o.dat".toList ∧
    ((meaning sample "MCSCF".toList).bind fun m => m "ORBS".toList) = some " \n1 2".toList ∧
    ((meaning sample "MCSCF".toList).bind fun m => m "NONE".toList) = some " ".toList ∧ (meaning sample "ASCI".toList).isNone := by
  refine ⟨?_, by decide +kernel, by decide +kernel, by decide +kernel, by decide +kernel, by decide +kernel,
    by decide +kernel⟩
  intro l hl
  simp only [sample, List.mem_cons, List.not_mem_nil, or_false] at hl
  rcases hl with rfl | rfl | rfl | rfl | rfl | rfl | rfl | rfl | rfl | rfl | rfl | rfl | rfl | rfl <;>
    first
    | trivial
    | (refine ⟨by decide +kernel, by decide +kernel, by decide +kernel, by decide +kernel, by decide +kernel,
        by decide +kernel, ?_⟩; intro t ht; cases ht <;> decide +kernel)
    | (refine ⟨by decide +kernel, by decide +kernel, by decide +kernel, by decide +kernel, ?_⟩; intro t ht
       cases ht <;> decide +kernel)
    | (refine ⟨by decide +kernel, by decide +kernel, by decide +kernel, ?_⟩; intro t ht; cases ht <;> decide +kernel)
    | (show _ ∧ _ ∧ _; decide +kernel)
    | (show ¬ _; decide +kernel)

/-- value of `q` in the file `s` -/
def ask (s q : String) : Except Err Str := parse s.toList >>= fun d => getString d q.toList

instance {α β : Type} [DecidableEq α] [DecidableEq β] : DecidableEq (Except α β)
  | .ok a, .ok b => if h : a = b then isTrue (by rw [h]) else isFalse (by simpa using h)
  | .error a, .error b => if h : a = b then isTrue (by rw [h]) else isFalse (by simpa using h)
  | .ok _, .error _ => isFalse (by simp)
  | .error _, .ok _ => isFalse (by simp)

/-- C139 is false: indenting an option that follows another option by one space corrupts its value, by more
it makes the reader throw; after a blank line the indentation has no effect. -/
theorem C139_indentation_refuted :
    ask "[CI]\nA = 1\nB = x" "CI.B" = .ok "x".toList ∧
    ask "[CI]\nA = 1\n B = x" "CI.B" = .ok "x\n = x".toList ∧
    ask "[CI]\nA = 1\n      B = x" "CI.B" = .error .outOfRange ∧
    ask "[CI]\nA = 1\n\n      B = x" "CI.B" = .ok "x".toList := by
  refine ⟨?_, ?_, ?_, ?_⟩ <;> decide +kernel

/-- C140 is false: a comment behind a section header makes the header, and with it the whole section,
disappear; so does a carriage return at the end of the line. -/
theorem C140_header_refuted :
    ask "[CI]\nA = 1" "CI.A" = .ok "1".toList ∧
    ask "[CI] # comment\nA = 1" "CI.A" = .error .sectionNotFound ∧
    ask "[CI]\r\nA = 1\r\n" "CI.A" = .error .sectionNotFound ∧
    ask "[X]\nA = 0\n[CI] # comment\nA = 1" "X.A" = .ok "1".toList := by
  refine ⟨?_, ?_, ?_, ?_⟩ <;> decide +kernel

/-- C140 is false: a value is cut at its first `=`, `:` or `#`. -/
theorem C140_value_refuted :
    ask "[CI]\nFCIDUMP = C:/a=b/dump" "CI.FCIDUMP" = .ok "C".toList ∧
    ask "[CI]\nFCIDUMP = dump#1" "CI.FCIDUMP" = .ok "dump".toList := by
  refine ⟨?_, ?_⟩ <;> decide +kernel

/-- C140 is false: a line with nothing but separators makes the reader index an empty vector, and so does
a query without a dot. -/
theorem C140_defined_refuted :
    parse "[CI]\n=".toList = .error .undefined ∧ ask "[CI]\nA = 1" "A" = .error .undefined := by
  refine ⟨?_, ?_⟩
  · rfl
  · decide +kernel

/-! ### Typed options -/

/-- `SECTION.KEY` -/
def query (sec key : Str) : Str := sec ++ '.' :: key

theorem ask_query (ls : List Line) (wf : ∀ l ∈ ls, l.WF) {sec key : Str} (hs : Tight sec) (hk : Tight key)
    (ds : '.' ∉ sec) (dk : '.' ∉ key) {m : Str → Option Str} (hm : meaning ls (up sec) = some m)
    {v : Str} (hv : m (up key) = some v) : getString (meaning ls) (query sec key) = .ok v := by
  have := C138_query ls wf sec key 0 0 0 0 hs hk ds dk
  rw [C138_read ls wf, hm] at this
  simp only [hv, spaces, List.replicate_zero, List.nil_append, List.append_nil] at this
  exact this

theorem contains_query (d : Dict) {sec key : Str} (hs : Tight sec) (hk : Tight key)
    (ds : '.' ∉ sec) (dk : '.' ∉ key) : splitQuery (query sec key) = .ok (up sec, up key) := by
  have nd : ∀ {a : Str}, '.' ∉ a → ∀ x ∈ a, (x == '.') = false :=
    fun h x hx => beq_false_of_ne fun e => h (e ▸ hx)
  have t : ∀ {a : Str}, Tight a → trim a = a := fun h => by
    have := trim_pad h 0 0
    simpa [spaces] using this
  rw [splitQuery, query, split_run_cons (nd ds) hs.1 (by rfl), split_run (nd dk) hk.1]
  simp only [List.map_cons, List.map_nil, t hs, t hk]
  rfl

/-- C141 in part: a switch that is written as `TRUE` or `ON` is on, and no other text turns it on. -/
theorem C141_switch_partial (ls : List Line) (wf : ∀ l ∈ ls, l.WF) {sec key : Str} (hs : Tight sec)
    (hk : Tight key) (ds : '.' ∉ sec) (dk : '.' ∉ key) {m : Str → Option Str}
    (hm : meaning ls (up sec) = some m) {v : Str} (hv : m (up key) = some v) :
    ∃ b, (parse (file ls) >>= fun d => getBool d (query sec key)) = .ok b ∧
      (b = true ↔ v = "TRUE".toList ∨ v = "ON".toList) := by
  refine ⟨v == "TRUE".toList || v == "ON".toList, ?_, by simp only [Bool.or_eq_true, beq_iff_eq]⟩
  rw [C138_read ls wf]
  show getBool (meaning ls) _ = _
  rw [getBool, ask_query ls wf hs hk ds dk hm hv]
  rfl

/-- C141 is false: `true`, `On` and `yes` silently turn a switch off. -/
theorem C141_switch_refuted :
    (parse "[MCSCF]\nENABLE_DIIS = true".toList >>= fun d => getBool d "MCSCF.ENABLE_DIIS".toList) = .ok false ∧
    (parse "[MCSCF]\nENABLE_DIIS = On".toList >>= fun d => getBool d "MCSCF.ENABLE_DIIS".toList) = .ok false ∧
    (parse "[MCSCF]\nENABLE_DIIS = yes".toList >>= fun d => getBool d "MCSCF.ENABLE_DIIS".toList) = .ok false ∧
    (parse "[MCSCF]\nENABLE_DIIS = TRUE".toList >>= fun d => getBool d "MCSCF.ENABLE_DIIS".toList) = .ok true := by
  refine ⟨?_, ?_, ?_, ?_⟩ <;> decide +kernel

theorem digits_toDigits (n : Nat) : digits (Nat.toDigits 10 n) = n := Nat.ofDigitChars_toDigits (by decide) (by decide)

/-- the decimal digits of `n`, then anything that does not go on with a digit -/
theorem stoul_digits (n : Nat) (rest : Str) (hr : ∀ c, rest.head? = some c → c.isDigit = false) :
    stoul (Nat.toDigits 10 n ++ rest) = if n < 2 ^ 64 then .ok n else .error .outOfRange := by
  obtain ⟨c, cs, e⟩ : ∃ c cs, Nat.toDigits 10 n = c :: cs := by
    cases h : Nat.toDigits 10 n with
    | nil => exact absurd h Nat.toDigits_ne_nil
    | cons c cs => exact ⟨c, cs, rfl⟩
  have hd : ∀ x ∈ Nat.toDigits 10 n, x.isDigit = true := fun x hx =>
    Nat.isDigit_of_mem_toDigits (by decide) (by decide) hx
  have hc : c.isDigit = true := hd c (by simp [e])
  have h1 : isSpace c = false := by
    by_contra hn
    rw [Bool.not_eq_false, isSpace_iff] at hn
    simp only [Spec.Ini.Space, List.mem_cons, List.not_mem_nil, or_false] at hn
    rcases hn with rfl | rfl | rfl | rfl | rfl | rfl <;> revert hc <;> decide
  have h2 : c ≠ '-' := fun h => by rw [h] at hc; revert hc; decide
  have h3 : c ≠ '+' := fun h => by rw [h] at hc; revert hc; decide
  have h4 : (Nat.toDigits 10 n ++ rest).takeWhile Char.isDigit = Nat.toDigits 10 n := by
    rw [List.takeWhile_append_of_pos hd]
    cases rest with
    | nil => simp
    | cons r rs => rw [List.takeWhile_cons_of_neg (by simp [hr r rfl]), List.append_nil]
  have h5 : (Nat.toDigits 10 n ++ rest).dropWhile isSpace = Nat.toDigits 10 n ++ rest := by
    rw [e, List.cons_append, List.dropWhile_cons_of_neg (by simp [h1])]
  unfold stoul
  rw [h5]
  dsimp only
  split
  · rename_i heq; rw [e, List.cons_append] at heq; exact absurd (List.cons.inj heq).1 h2
  · rename_i heq; rw [e, List.cons_append] at heq; exact absurd (List.cons.inj heq).1 h3
  simp only [h4, digits_toDigits]
  rw [if_neg (by rw [e]; simp)]
  by_cases h : n < 2 ^ 64
  · rw [if_pos h, if_neg (by omega)]; rfl
  · rw [if_neg h, if_pos (by omega)]

/-- C142 in part: a count written in decimal is read as that number, and refused when it does not fit in
64 bits. -/
theorem C142_count_partial (ls : List Line) (wf : ∀ l ∈ ls, l.WF) {sec key : Str} (hs : Tight sec)
    (hk : Tight key) (ds : '.' ∉ sec) (dk : '.' ∉ key) {m : Str → Option Str}
    (hm : meaning ls (up sec) = some m) (n : Nat) (hv : m (up key) = some (Nat.toDigits 10 n)) :
    (parse (file ls) >>= fun d => getSize d (query sec key)) =
      if n < 2 ^ 64 then .ok n else .error .outOfRange := by
  rw [C138_read ls wf]
  show getSize (meaning ls) _ = _
  rw [getSize, ask_query ls wf hs hk ds dk hm hv]
  show stoul _ = _
  have := stoul_digits n [] (by simp)
  rwa [List.append_nil] at this

/-- C142 is false: a negative count, a fraction, a number with an exponent and trailing text are all
accepted, and mean something else. -/
theorem C142_count_refuted :
    (parse "[ASCI]\nNTDETS_MAX = -1".toList >>= fun d => getSize d "ASCI.NTDETS_MAX".toList) = .ok (2 ^ 64 - 1) ∧
    (parse "[ASCI]\nNTDETS_MAX = 1e6".toList >>= fun d => getSize d "ASCI.NTDETS_MAX".toList) = .ok 1 ∧
    (parse "[ASCI]\nNTDETS_MAX = 100,000".toList >>= fun d => getSize d "ASCI.NTDETS_MAX".toList) = .ok 100 ∧
    (parse "[ASCI]\nNTDETS_MAX = all".toList >>= fun d => getSize d "ASCI.NTDETS_MAX".toList) =
      .error .invalidArgument := by
  refine ⟨?_, ?_, ?_, ?_⟩ <;> decide +kernel

/-- C143: an active space that the driver accepts partitions the orbitals of the FCIDUMP file into inactive,
active and virtual ones, has at least one orbital that is not inactive, fits its bit strings, and has as
many alpha as beta electrons. -/
theorem C143_space_partial (d : Dict) (norb : Nat) (hn : norb + 32 < 2 ^ 64) (s : Space)
    (h : readSpace d norb = .ok s) :
    s.ninactive + s.nactive + s.nvirtual = norb ∧ s.ninactive < norb ∧ s.nactive ≤ 32 ∧ s.nalpha = s.nbeta := by
  unfold readSpace at h
  simp only [bind, Except.bind, pure, Except.pure] at h
  split at h
  · simp at h
  rename_i na _
  split at h
  · simp at h
  rename_i nb _
  by_cases e1 : na = nb
  swap
  · simp [e1] at h
  simp only [e1, ne_eq, not_true_eq_false, if_false] at h
  split at h
  · simp at h
  rename_i ni _
  by_cases e2 : norb ≤ ni
  · simp [e2] at h
  simp only [e2, if_false] at h
  split at h
  · simp at h
  rename_i nact _
  by_cases e3 : norb < (ni + nact) % 2 ^ 64
  · simp [e3] at h
  simp only [e3, if_false] at h
  by_cases e4 : 64 / 2 < nact
  · simp [e4] at h
  simp only [e4, if_false, Except.ok.injEq] at h
  subst h
  have e5 : (ni + nact) % 2 ^ 64 = ni + nact := Nat.mod_eq_of_lt (by omega)
  rw [e5] at e3
  dsimp only
  refine ⟨?_, by omega, by omega, rfl⟩
  omega

/-- C143: what the driver asks of the file, when the file says so in decimal, is what it uses. -/
theorem C143_accepts (d : Dict) (norb n ni nact : Nat) (hn : norb < 2 ^ 64)
    (ha : getString d "CI.NALPHA".toList = .ok (Nat.toDigits 10 n))
    (hb : getString d "CI.NBETA".toList = .ok (Nat.toDigits 10 n))
    (hi : getString d "CI.NINACTIVE".toList = .ok (Nat.toDigits 10 ni))
    (hc : getString d "CI.NACTIVE".toList = .ok (Nat.toDigits 10 nact))
    (h1 : n < 2 ^ 64) (h2 : ni + nact ≤ norb) (h3 : ni < norb) (h4 : nact ≤ 32) :
    readSpace d norb = .ok ⟨n, n, ni, nact, norb - ni - nact⟩ := by
  have st : ∀ m, m < 2 ^ 64 → stoul (Nat.toDigits 10 m) = .ok m := by
    intro m hm
    have := stoul_digits m [] (by simp)
    rwa [List.append_nil, if_pos hm] at this
  have gs : ∀ {q : Str} {m : Nat}, m < 2 ^ 64 → getString d q = .ok (Nat.toDigits 10 m) → getSize d q = .ok m := by
    intro q m hm h
    rw [getSize, h]
    exact st m hm
  have ct : ∀ {q v : Str}, getString d q = .ok v → containsData d q = .ok true := by
    intro q v h
    unfold getString at h
    unfold containsData
    cases hq : splitQuery q with
    | error e => rw [hq] at h; simp [bind, Except.bind] at h
    | ok p =>
      obtain ⟨a, b⟩ := p
      rw [hq] at h
      simp only [bind, Except.bind, pure, Except.pure] at h ⊢
      cases hd : d a with
      | none => simp [hd] at h
      | some m =>
        simp only [hd] at h ⊢
        cases hm : m b with
        | none => simp [hm] at h
        | some w => rfl
  have os : ∀ {q : Str} {m k : Nat}, m < 2 ^ 64 → getString d q = .ok (Nat.toDigits 10 m) → optSize d q k = .ok m := by
    intro q m k hm h
    rw [optSize, ct h]
    exact gs hm h
  have e1 : ¬ norb ≤ ni := by omega
  have e2 : ¬ norb < (ni + nact) % 2 ^ 64 := by rw [Nat.mod_eq_of_lt (by omega)]; omega
  have e3 : ¬ 64 / 2 < nact := by omega
  have e4 : (norb + (2 ^ 64 - nact) + (2 ^ 64 - ni)) % 2 ^ 64 = norb - ni - nact := by omega
  unfold readSpace
  simp only [bind, Except.bind, pure, Except.pure, gs h1 ha, gs h1 hb, ne_eq, not_true_eq_false, if_false,
    os (show ni < 2 ^ 64 by omega) hi, os (show nact < 2 ^ 64 by omega) hc, if_neg e1, if_neg e2, if_neg e3, e4]

/-- C143 is false: more electrons than the active space can hold are accepted. -/
theorem C143_electrons_refuted :
    (parse "[CI]\nNALPHA = 7\nNBETA = 7\nNINACTIVE = 1\nNACTIVE = 4".toList >>= fun d => readSpace d 10) =
      .ok ⟨7, 7, 1, 4, 5⟩ := by
  decide +kernel

example : (parse "[CI]\nNALPHA = 2\nNBETA = 2\nNINACTIVE = 1".toList >>= fun d => readSpace d 10) =
      .ok ⟨2, 2, 1, 9, 0⟩ ∧
    (parse "[CI]\nNALPHA = 2\nNBETA = 2\nNINACTIVE = 10".toList >>= fun d => readSpace d 10) = .error .rejected ∧
    (parse "[CI]\nNALPHA = 2\nNBETA = 1".toList >>= fun d => readSpace d 10) = .error .rejected ∧
    (parse "[CI]\nNALPHA = 2\nNBETA = 2\nNACTIVE = -5\nNINACTIVE = 6".toList >>= fun d => readSpace d 10) =
      .error .rejected := by
  refine ⟨?_, ?_, ?_, ?_⟩ <;> decide +kernel

end Macis.Ini
