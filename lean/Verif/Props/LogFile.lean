import Verif.Spec.LogFile
import Verif.Props.ExactDump
/-!
C164: an FCIDUMP file written by several ranks of the standalone program at the same time, or by a process that stops
before the end.
-/
namespace Macis
open Spec

variable {R : Type}

theorem wholeLines_unlines (n : Nat) : ∀ c : List Char, c.length ≤ n → WholeLines c →
    ∃ ls : List (List Char), (∀ l ∈ ls, ∀ x ∈ l, x ≠ '\n') ∧ c = ls.flatMap fun l => l ++ ['\n'] := by
  induction n with
  | zero =>
    intro c hc _
    obtain rfl : c = [] := List.length_eq_zero_iff.1 (by omega)
    exact ⟨[], by simp, rfl⟩
  | succ n ih =>
    intro c hc hw
    rcases hw with rfl | hw
    · exact ⟨[], by simp, rfl⟩
    have hmem : '\n' ∈ c := List.mem_of_getLast? hw
    obtain ⟨a, b, rfl, ha⟩ : ∃ a b, c = a ++ '\n' :: b ∧ '\n' ∉ a := by
      obtain ⟨a, b, h1, h2⟩ := List.append_of_mem hmem |>.elim fun _ _ => List.eq_append_cons_of_mem hmem
      exact ⟨a, b, h1, h2⟩
    have hb : WholeLines b := by
      by_cases hb : b = []
      · exact Or.inl hb
      · right
        rw [List.getLast?_append, List.getLast?_cons] at hw
        cases hl : b.getLast? with
        | none => exact absurd (List.getLast?_eq_none_iff.1 hl) hb
        | some x => simp [hl] at hw; rw [hw]
    obtain ⟨ls, h1, rfl⟩ := ih b (by simp at hc; omega) hb
    refine ⟨a :: ls, ?_, by simp⟩
    intro l hl x hx e
    rcases List.mem_cons.1 hl with rfl | hl
    · rw [e] at hx; exact ha hx
    · exact h1 l hl x hx e

/-- the lines of a whole piece sequence -/
theorem pieces_lines (cs : List (List Char)) (hw : ∀ c ∈ cs, WholeLines c) :
    ∃ lss : List (List (List Char)), (∀ ls ∈ lss, ∀ l ∈ ls, ∀ x ∈ l, x ≠ '\n') ∧
      cs = lss.map fun ls => ls.flatMap fun l => l ++ ['\n'] := by
  induction cs with
  | nil => exact ⟨[], by simp, rfl⟩
  | cons c cs ih =>
    obtain ⟨ls, h1, rfl⟩ := wholeLines_unlines _ c le_rfl (hw c (by simp))
    obtain ⟨lss, h2, rfl⟩ := ih fun c hc => hw c (by simp [hc])
    exact ⟨ls :: lss, by simpa using ⟨h1, h2⟩, rfl⟩

/-- the invariant of whole pieces: the file consists of lines of the text, and each process has its remaining lines
before it -/
theorem log_invariant {P : Nat} {L : List (List Char)} (hL : ∀ l ∈ L, ∀ x ∈ l, x ≠ '\n') {s0 s : LogState}
    (h0 : s0.file = []) (hp : ∀ r < P, (s0.pending r).flatten = L.flatMap fun l => l ++ ['\n'])
    (hw : ∀ r < P, ∀ c ∈ s0.pending r, WholeLines c) (h : LogReach P s0 s) :
    ∃ ls : List (List Char), s.file = (ls.flatMap fun l => l ++ ['\n']) ∧ (∀ l ∈ ls, l ∈ L) ∧
      ∀ r < P, ∃ lss : List (List (List Char)), s.pending r = (lss.map fun ls => ls.flatMap fun l => l ++ ['\n']) ∧
        (∀ l ∈ lss.flatten, l ∈ L) ∧ ∀ l ∈ L, l ∈ ls ∨ l ∈ lss.flatten := by
  induction h with
  | refl =>
    refine ⟨[], by simp [h0], by simp, fun r hr => ?_⟩
    obtain ⟨lss, h1, h2⟩ := pieces_lines _ (hw r hr)
    have h3 := hp r hr
    rw [h2] at h3
    have h4 : (lss.flatten).flatMap (fun l => l ++ ['\n']) = L.flatMap fun l => l ++ ['\n'] := by
      rw [← h3]
      simp [List.flatMap_def, List.map_flatten, List.flatten_flatten, List.map_map, Function.comp_def]
    have h5 := congrArg fileLines h4
    rw [fileLines_unlines _ hL, fileLines_unlines _ (by
      intro l hl
      obtain ⟨ls, hls, hl⟩ := List.mem_flatten.1 hl
      exact h1 ls hls l hl)] at h5
    exact ⟨lss, h2, by rw [h5]; exact fun l hl => hl, by rw [h5]; exact fun l hl => Or.inr hl⟩
  | tail _ hstep ih =>
    obtain ⟨ls, i1, i2, i3⟩ := ih
    cases hstep with
    | @append r c cs hr hc =>
      obtain ⟨lss, j1, j2, j3⟩ := i3 r hr
      rw [hc] at j1
      cases lss with
      | nil => cases j1
      | cons l0 lss =>
        obtain ⟨e1, e2⟩ := List.cons.inj j1
        refine ⟨ls ++ l0, by simp [i1, e1], ?_, ?_⟩
        · intro l hl
          rcases List.mem_append.1 hl with h | h
          · exact i2 l h
          · exact j2 l (by simp [h])
        · intro r' hr'
          by_cases e : r' = r
          · subst e
            refine ⟨lss, by simp [e2], fun l hl => j2 l (by rw [List.flatten_cons]; exact List.mem_append_right _ hl), ?_⟩
            intro l hl
            rcases j3 l hl with h | h
            · exact Or.inl (List.mem_append_left _ h)
            · rw [List.flatten_cons] at h
              rcases List.mem_append.1 h with h | h
              · exact Or.inl (List.mem_append_right _ h)
              · exact Or.inr h
          · obtain ⟨m, k1, k2, k3⟩ := i3 r' hr'
            refine ⟨m, by simp [Function.update_of_ne e, k1], k2, fun l hl => ?_⟩
            rcases k3 l hl with h | h
            · exact Or.inl (List.mem_append_left _ h)
            · exact Or.inr h

/-- lines of a written file are lines of entries -/
theorem lines_entries {io : NumIO R} (hio : NumIO.Faithful io) {norb : Nat} (hnorb : norb < 2147483647) {T : Nat → R} {ldt : Nat}
    {V : Nat → R} {ldv : Nat} {ecore : R} {ls : List (List Char)} (h : ∀ l ∈ ls, l ∈ fcidumpLines io norb T ldt V ldv ecore) :
    ∃ es : List (FciEntry R), Entries io (fileLines (ls.flatMap fun l => l ++ ['\n'])) es ∧
      (∀ e ∈ es, e ∈ dumpEntries norb T ldt V ldv ecore) ∧
      ∀ e ∈ dumpEntries norb T ldt V ldv ecore, fciFmt io e.p e.q e.r e.s e.val ∈ ls → e ∈ es := by
  have hnl : ∀ l ∈ ls, ∀ c ∈ l, c ≠ '\n' := by
    intro l hl
    have := h l hl
    rw [fcidumpLines_eq, List.mem_map] at this
    obtain ⟨e, -, rfl⟩ := this
    exact fciFmt_no_newline _ _ _ _ (hio.at _)
  rw [fileLines_unlines _ hnl]
  have hex : ∃ es : List (FciEntry R), ls = (es.map fun e => fciFmt io e.p e.q e.r e.s e.val) ∧
      ∀ e ∈ es, e ∈ dumpEntries norb T ldt V ldv ecore := by
    clear hnl
    induction ls with
    | nil => exact ⟨[], rfl, by simp⟩
    | cons l ls ih =>
      obtain ⟨es, e1, e2⟩ := ih fun l hl => h l (by simp [hl])
      have := h l (by simp)
      rw [fcidumpLines_eq, List.mem_map] at this
      obtain ⟨e, he, rfl⟩ := this
      exact ⟨e :: es, by rw [e1]; rfl, by simpa using ⟨he, e2⟩⟩
  obtain ⟨es, e1, e2⟩ := hex
  have hb : ∀ e ∈ dumpEntries norb T ldt V ldv ecore, e.p < 2147483648 ∧ e.q < 2147483648 ∧ e.r < 2147483648 ∧ e.s < 2147483648 := by
    intro e he
    have := dump_bound he
    omega
  refine ⟨es, ?_, e2, ?_⟩
  · rw [e1]
    exact entries_map es (fun e _ => hio.at _) fun e he => hb e (e2 e he)
  · intro e he hmem
    rw [e1, List.mem_map] at hmem
    obtain ⟨e', he', heq⟩ := hmem
    have r1 := C36_line io _ e.p e.q e.r e.s e.val (fciFmt_shows _ _ _ _ (hio.at _)) (hb e he).1 (hb e he).2.1 (hb e he).2.2.1 (hb e he).2.2.2
    have h' := hb e' (e2 e' he')
    have r2 := C36_line io _ e'.p e'.q e'.r e'.s e'.val (fciFmt_shows _ _ _ _ (hio.at _)) h'.1 h'.2.1 h'.2.2.1 h'.2.2.2
    rw [heq, r1] at r2
    have : e = e' := Option.some.inj (Option.some.inj r2)
    rw [this]; exact he'

theorem dump_one_all {norb : Nat} {T : Nat → R} {ldt : Nat} {V : Nat → R} {ldv : Nat} {ecore : R} (hT : Sym2 norb ldt T)
    {e : FciEntry R} (he : e ∈ dumpEntries norb T ldt V ldv ecore) {p q : Nat} (hg : givesOne p q e = true) :
    e.val = T (p + q * ldt) := by
  rcases dump_mem.mp he with ⟨i, j, k, l, hi, hj, hk, hl, rfl⟩ | ⟨i, j, hi, hj, rfl⟩ | rfl
  · simp [givesOne] at hg
  · simp only [givesOne, beq_iff_eq, Bool.and_eq_true, Bool.or_eq_true, Nat.add_right_cancel_iff] at hg
    rcases hg.2 with ⟨rfl, rfl⟩ | ⟨rfl, rfl⟩
    · rfl
    · exact hT _ _ hi hj
  · simp [givesOne] at hg

theorem dump_two_all {norb : Nat} {T : Nat → R} {ldt : Nat} {V : Nat → R} {ldv : Nat} {ecore : R} (hV : Sym8 norb ldv V)
    {e : FciEntry R} (he : e ∈ dumpEntries norb T ldt V ldv ecore) {p q r s : Nat} (hg : givesTwo p q r s e = true) :
    e.val = V (addr4 ldv p q r s) := by
  rcases dump_mem.mp he with ⟨i, j, k, l, hi, hj, hk, hl, rfl⟩ | ⟨i, j, hi, hj, rfl⟩ | rfl
  · simp only [givesTwo, beq_iff_eq, Bool.or_eq_true, Prod.mk.injEq, Nat.add_right_cancel_iff] at hg
    have s1 := fun a b c d ha hb hc hd => (hV a b c d ha hb hc hd).1
    have s2 := fun a b c d ha hb hc hd => (hV a b c d ha hb hc hd).2.1
    have s3 := fun a b c d ha hb hc hd => (hV a b c d ha hb hc hd).2.2
    rcases hg with ((((((h | h) | h) | h) | h) | h) | h) | h <;> obtain ⟨rfl, rfl, rfl, rfl⟩ := h
    · rfl
    · exact s2 _ _ _ _ hi hj hk hl
    · exact s1 _ _ _ _ hi hj hk hl
    · exact (s1 _ _ _ _ hi hj hk hl).trans (s2 _ _ _ _ hj hi hk hl)
    · exact s3 _ _ _ _ hi hj hk hl
    · exact (s1 _ _ _ _ hi hj hk hl).trans (s3 _ _ _ _ hj hi hk hl)
    · exact (s2 _ _ _ _ hi hj hk hl).trans (s3 _ _ _ _ hi hj hl hk)
    · exact ((s1 _ _ _ _ hi hj hk hl).trans (s2 _ _ _ _ hj hi hk hl)).trans
        (s3 _ _ _ _ hj hi hl hk)
  · simp [givesTwo] at hg
  · simp [givesTwo] at hg

/-- what a file with some of the entries of the text is read as: nothing wrong, only missing elements -/
theorem subset_reads [Zero R] {io : NumIO R} {norb : Nat} {T : Nat → R} {ldt : Nat} {V : Nat → R} {ldv : Nat} {ecore : R}
    (hT : Sym2 norb ldt T) (hV : Sym8 norb ldv V) {file : List Char} {es : List (FciEntry R)}
    (he : Entries io (fileLines file) es) (hs : ∀ e ∈ es, e ∈ dumpEntries norb T ldt V ldv ecore) :
    ∃ n ≤ norb, readFcidumpNorb io file = .ok n ∧ (readFcidumpCore io file = .ok ecore ∨ readFcidumpCore io file = .ok 0) ∧
      (∀ (T0 : Nat → R) (ld : Nat), n ≤ ld → ∃ T', readFcidump1body io file ld T0 = .ok T' ∧
        ∀ p q, p < n → q < n → T' (p + q * ld) = T (p + q * ldt) ∨ T' (p + q * ld) = T0 (p + q * ld)) ∧
      (∀ (V0 : Nat → R) (ld : Nat), n ≤ ld → ∃ V', readFcidump2body io file ld V0 = .ok V' ∧
        ∀ p q r s, p < n → q < n → r < n → s < n →
          V' (addr4 ld p q r s) = V (addr4 ldv p q r s) ∨ V' (addr4 ld p q r s) = V0 (addr4 ld p q r s)) := by
  have hn : maxIdx es ≤ norb := by
    rw [maxIdx]
    refine foldl_max_le _ _ _ (Nat.zero_le _) ?_
    intro x hx
    obtain ⟨e, hm, hx⟩ := List.mem_flatMap.mp hx
    have := dump_bound (hs e hm)
    simp only [List.mem_cons, List.not_mem_nil, or_false] at hx
    omega
  have hread := readNorb_entries he
  refine ⟨maxIdx es, hn, hread, ?_, ?_, ?_⟩
  · rw [C36_core io file es he]
    cases hf : es.find? fun e => decide (e.p = 0 ∧ e.q = 0 ∧ e.r = 0 ∧ e.s = 0) with
    | none => right; rfl
    | some e =>
      left
      have h1 := List.find?_some hf
      have h2 := hs e (List.mem_of_find?_eq_some hf)
      simp only [decide_eq_true_eq] at h1
      rcases dump_mem.mp h2 with ⟨i, j, k, l, hi, hj, hk, hl, rfl⟩ | ⟨i, j, hi, hj, rfl⟩ | rfl
      · simp at h1
      · simp at h1
      · rfl
  · intro T0 ld hld
    obtain ⟨T', h1, h2, -⟩ := C36_one_body io file es he (fun e h => dump_standard (hs e h)) _ ld hread hld T0
    refine ⟨T', h1, fun p q hp hq => ?_⟩
    rw [h2 p q hp hq]
    cases hf : lastSuch (givesOne p q) es with
    | none => right; rfl
    | some e =>
      left
      have hm : e ∈ es := List.mem_reverse.1 (List.mem_of_find?_eq_some hf)
      have hg : givesOne p q e = true := List.find?_some hf
      show e.val = _
      exact dump_one_all hT (hs e hm) hg
  · intro V0 ld hld
    obtain ⟨V', h1, h2, -⟩ := C36_two_body io file es he _ ld hread hld V0
    refine ⟨V', h1, fun p q r s hp hq hr hss => ?_⟩
    rw [h2 p q r s hp hq hr hss]
    cases hf : lastSuch (givesTwo p q r s) es with
    | none => right; rfl
    | some e =>
      left
      have hm : e ∈ es := List.mem_reverse.1 (List.mem_of_find?_eq_some hf)
      have hg : givesTwo p q r s e = true := List.find?_some hf
      show e.val = _
      exact dump_two_all hV (hs e hm) hg

theorem full_reads [Zero R] {io : NumIO R} {norb : Nat} {T : Nat → R} {ldt : Nat} {V : Nat → R} {ldv : Nat} {ecore : R}
    (hT : Sym2 norb ldt T) (hV : Sym8 norb ldv V) {file : List Char} {es : List (FciEntry R)}
    (he : Entries io (fileLines file) es) (hs : ∀ e, e ∈ es ↔ e ∈ dumpEntries norb T ldt V ldv ecore) :
    readFcidumpNorb io file = .ok norb ∧ readFcidumpCore io file = .ok ecore ∧
      (∀ (T0 : Nat → R) (ld : Nat), norb ≤ ld → ∃ T', readFcidump1body io file ld T0 = .ok T' ∧
        ∀ p q, p < norb → q < norb → T' (p + q * ld) = T (p + q * ldt)) ∧
      (∀ (V0 : Nat → R) (ld : Nat), norb ≤ ld → ∃ V', readFcidump2body io file ld V0 = .ok V' ∧
        ∀ p q r s, p < norb → q < norb → r < norb → s < norb → V' (addr4 ld p q r s) = V (addr4 ldv p q r s)) := by
  have hn : maxIdx es = norb := by
    apply le_antisymm
    · rw [maxIdx]
      refine foldl_max_le _ _ _ (Nat.zero_le _) ?_
      intro x hx
      obtain ⟨e, hm, hx⟩ := List.mem_flatMap.mp hx
      have := dump_bound ((hs e).1 hm)
      simp only [List.mem_cons, List.not_mem_nil, or_false] at hx
      omega
    · by_cases h0 : norb = 0
      · omega
      · have hm : (⟨norb - 1 + 1, 0 + 1, 0, 0, T (norb - 1 + 0 * ldt)⟩ : FciEntry R) ∈ es :=
          (hs _).2 (dump_mem.mpr (Or.inr (Or.inl ⟨norb - 1, 0, by omega, by omega, rfl⟩)))
        have := (maxIdx_ge hm).1
        simp only at this
        omega
  have hread := readNorb_entries he
  rw [hn] at hread
  refine ⟨hread, ?_, ?_, ?_⟩
  · rw [C36_core io file es he]
    cases hf : es.find? fun e => decide (e.p = 0 ∧ e.q = 0 ∧ e.r = 0 ∧ e.s = 0) with
    | none =>
      have := List.find?_eq_none.1 hf _ ((hs _).2 (dump_mem.mpr (Or.inr (Or.inr rfl))))
      simp at this
    | some e =>
      have h1 := List.find?_some hf
      have h2 := (hs e).1 (List.mem_of_find?_eq_some hf)
      simp only [decide_eq_true_eq] at h1
      rcases dump_mem.mp h2 with ⟨i, j, k, l, hi, hj, hk, hl, rfl⟩ | ⟨i, j, hi, hj, rfl⟩ | rfl
      · simp at h1
      · simp at h1
      · rfl
  · intro T0 ld hld
    obtain ⟨T', h1, h2, -⟩ := C36_one_body io file es he (fun e h => dump_standard ((hs e).1 h)) _ ld hread hld T0
    refine ⟨T', h1, fun p q hp hq => ?_⟩
    rw [h2 p q hp hq]
    apply lastSuch_value
    · exact ⟨_, (hs _).2 (dump_mem.mpr (Or.inr (Or.inl ⟨p, q, hp, hq, rfl⟩))), by simp [givesOne]⟩
    · exact fun e hm hg => dump_one_all hT ((hs e).1 hm) hg
  · intro V0 ld hld
    obtain ⟨V', h1, h2, -⟩ := C36_two_body io file es he _ ld hread hld V0
    refine ⟨V', h1, fun p q r s hp hq hr hss => ?_⟩
    rw [h2 p q r s hp hq hr hss]
    apply lastSuch_value
    · exact ⟨_, (hs _).2 (dump_mem.mpr (Or.inl ⟨p, q, r, s, hp, hq, hr, hss, rfl⟩)), by simp [givesTwo]⟩
    · exact fun e hm hg => dump_two_all hV ((hs e).1 hm) hg

theorem dump_noNl {io : NumIO R} (hio : NumIO.Faithful io) {norb : Nat} {T : Nat → R} {ldt : Nat} {V : Nat → R} {ldv : Nat}
    {ecore : R} : ∀ l ∈ fcidumpLines io norb T ldt V ldv ecore, ∀ x ∈ l, x ≠ '\n' := by
  intro l hl
  rw [fcidumpLines_eq, List.mem_map] at hl
  obtain ⟨e, -, rfl⟩ := hl
  exact fciFmt_no_newline _ _ _ _ (hio.at _)

/-- C164 (writing): however many ranks write the same integrals to the same new file, however their texts are cut into
pieces at line ends and in whatever order the pieces of the ranks arrive: once all ranks have ended, the file reads
back to the same orbital count, core energy and integrals. -/
theorem C164_several_writers_partial [Zero R] (io : NumIO R) (hio : NumIO.Faithful io) (norb : Nat) (hnorb : norb < 2147483647)
    (T V : Nat → R) (ldt ldv : Nat) (ecore : R) (hT : Sym2 norb ldt T) (hV : Sym8 norb ldv V) (P : Nat) (hP : 0 < P)
    (pieces : Nat → List (List Char)) (hp : ∀ r < P, (pieces r).flatten = fcidumpText io norb T ldt V ldv ecore)
    (hw : ∀ r < P, ∀ c ∈ pieces r, WholeLines c) (s : LogState) (h : LogReach P ⟨[], pieces⟩ s) (hd : LogDone P s) :
    readFcidumpNorb io s.file = .ok norb ∧ readFcidumpCore io s.file = .ok ecore ∧
      (∀ (T0 : Nat → R) (ld : Nat), norb ≤ ld → ∃ T', readFcidump1body io s.file ld T0 = .ok T' ∧
        ∀ p q, p < norb → q < norb → T' (p + q * ld) = T (p + q * ldt)) ∧
      (∀ (V0 : Nat → R) (ld : Nat), norb ≤ ld → ∃ V', readFcidump2body io s.file ld V0 = .ok V' ∧
        ∀ p q r s, p < norb → q < norb → r < norb → s < norb → V' (addr4 ld p q r s) = V (addr4 ldv p q r s)) := by
  obtain ⟨ls, i1, i2, i3⟩ := log_invariant (dump_noNl hio) rfl hp hw h
  obtain ⟨es, e1, e2, e3⟩ := lines_entries hio hnorb i2
  rw [← i1] at e1
  refine full_reads hT hV e1 fun e => ⟨e2 e, fun he => e3 e he ?_⟩
  obtain ⟨lss, j1, -, j3⟩ := i3 0 hP
  rw [hd 0 hP] at j1
  obtain rfl : lss = [] := List.map_eq_nil_iff.1 j1.symm
  rcases j3 (fciFmt io e.p e.q e.r e.s e.val) (by rw [fcidumpLines_eq]; exact List.mem_map_of_mem he) with h | h
  · exact h
  · simp at h

/-- C164 (stopped anywhere): wherever the ranks are stopped, the readers accept what is there and deliver no wrong
integral: every element is the one written or is left as it was. -/
theorem C164_stopped_writers_partial [Zero R] (io : NumIO R) (hio : NumIO.Faithful io) (norb : Nat) (hnorb : norb < 2147483647)
    (T V : Nat → R) (ldt ldv : Nat) (ecore : R) (hT : Sym2 norb ldt T) (hV : Sym8 norb ldv V) (P : Nat)
    (pieces : Nat → List (List Char)) (hp : ∀ r < P, (pieces r).flatten = fcidumpText io norb T ldt V ldv ecore)
    (hw : ∀ r < P, ∀ c ∈ pieces r, WholeLines c) (s : LogState) (h : LogReach P ⟨[], pieces⟩ s) :
    ∃ n ≤ norb, readFcidumpNorb io s.file = .ok n ∧
      (readFcidumpCore io s.file = .ok ecore ∨ readFcidumpCore io s.file = .ok 0) ∧
      (∀ (T0 : Nat → R) (ld : Nat), n ≤ ld → ∃ T', readFcidump1body io s.file ld T0 = .ok T' ∧
        ∀ p q, p < n → q < n → T' (p + q * ld) = T (p + q * ldt) ∨ T' (p + q * ld) = T0 (p + q * ld)) ∧
      (∀ (V0 : Nat → R) (ld : Nat), n ≤ ld → ∃ V', readFcidump2body io s.file ld V0 = .ok V' ∧
        ∀ p q r s, p < n → q < n → r < n → s < n →
          V' (addr4 ld p q r s) = V (addr4 ldv p q r s) ∨ V' (addr4 ld p q r s) = V0 (addr4 ld p q r s)) := by
  obtain ⟨ls, i1, i2, -⟩ := log_invariant (dump_noNl hio) rfl hp hw h
  obtain ⟨es, e1, e2, -⟩ := lines_entries hio hnorb i2
  rw [← i1] at e1
  exact subset_reads hT hV e1 e2

theorem log_lines_reach (f : Nat → List (List Char)) (k : Nat) : ∀ (ls file : _) , f 0 = ls → k ≤ ls.length →
    LogReach 1 ⟨file, f⟩ ⟨file ++ (ls.take k).flatten, Function.update f 0 (ls.drop k)⟩ := by
  induction k generalizing f with
  | zero =>
    intro ls file h _
    subst h
    simp only [List.take_zero, List.flatten_nil, List.append_nil, List.drop_zero, Function.update_eq_self]
    exact Relation.ReflTransGen.refl
  | succ k ih =>
    intro ls file h hk
    cases ls with
    | nil => simp at hk
    | cons c ls =>
      have hs : LogStep 1 ⟨file, f⟩ ⟨file ++ c, Function.update f 0 ls⟩ :=
        LogStep.append (P := 1) (s := ⟨file, f⟩) (r := 0) (by norm_num) h
      have := ih (Function.update f 0 ls) ls (file ++ c) (by simp) (by simpa using hk)
      refine Relation.ReflTransGen.head hs ?_
      simpa [LogReach] using this

/-- C164 is violated (stopped writer): a process that stops after any number of lines from `norb` to all but the last
leaves a file that all readers accept with the right orbital count, and with core energy zero. -/
theorem C164_stop_undetected_refuted [Zero R] (io : NumIO R) (hio : NumIO.Faithful io) (norb : Nat) (h0 : 0 < norb)
    (hnorb : norb < 2147483647) (T V : Nat → R) (ldt ldv : Nat) (ecore : R) (k : Nat) (hk : norb ≤ k)
    (hk' : k ≤ norb ^ 4 + norb ^ 2) :
    ∃ s, LogReach 1 ⟨[], fun _ => (fcidumpLines io norb T ldt V ldv ecore).map (· ++ ['\n'])⟩ s ∧
      readFcidumpNorb io s.file = .ok norb ∧ readFcidumpCore io s.file = .ok 0 ∧
      (∀ T0, ∃ T', readFcidump1body io s.file norb T0 = .ok T') ∧ ∀ V0, ∃ V', readFcidump2body io s.file norb V0 = .ok V' := by
  set L := fcidumpLines io norb T ldt V ldv ecore with hL
  have hlen : L.length = norb ^ 4 + norb ^ 2 + 1 := by
    obtain ⟨file, w1, w2⟩ := C35_all_lines_written io hio norb T V ldt ldv ecore
    rw [writeFcidump, if_neg (by simp), List.nil_append] at w1
    cases w1
    rwa [fileLines_unlines _ (dump_noNl hio)] at w2
  have hr := log_lines_reach (fun _ => L.map (· ++ ['\n'])) k _ [] rfl (by rw [List.length_map]; omega)
  refine ⟨_, hr, ?_⟩
  have hfile : ([] ++ ((L.map (· ++ ['\n'])).take k).flatten : List Char) = (L.take k).flatMap fun l => l ++ ['\n'] := by
    rw [List.nil_append, ← List.map_take, List.flatMap_def]
  dsimp only
  rw [hfile]
  set D := dumpEntries norb T ldt V ldv ecore with hD
  have hLD : L = D.map fun e => fciFmt io e.p e.q e.r e.s e.val := fcidumpLines_eq io norb T ldt V ldv ecore
  have hDlen : D.length = norb ^ 4 + norb ^ 2 + 1 := by rw [← hlen, hLD, List.length_map]
  have hent : Entries io (fileLines ((L.take k).flatMap fun l => l ++ ['\n'])) (D.take k) := by
    rw [fileLines_unlines _ fun l hl => dump_noNl hio l (List.mem_of_mem_take hl), ← hL, hLD, ← List.map_take]
    refine entries_map _ (fun e _ => hio.at _) fun e he => ?_
    have := dump_bound (List.mem_of_mem_take he)
    omega
  have hmax : maxIdx (D.take k) = norb := by
    apply le_antisymm
    · rw [maxIdx]
      refine foldl_max_le _ _ _ (Nat.zero_le _) ?_
      intro x hx
      obtain ⟨e, hm, hx⟩ := List.mem_flatMap.mp hx
      have := dump_bound (List.mem_of_mem_take hm)
      simp only [List.mem_cons, List.not_mem_nil, or_false] at hx
      omega
    · have hm : (⟨1, 1, 1, norb, V (addr4 ldv 0 0 0 (norb - 1))⟩ : FciEntry R) ∈ D.take k := by
        obtain ⟨n, rfl⟩ : ∃ n, norb = n + 1 := ⟨norb - 1, by omega⟩
        rw [hD, dumpEntries]
        simp only [List.range_succ_eq_map, List.flatMap_cons, List.append_assoc]
        refine (List.take_prefix_take_left hk).subset ?_
        rw [List.take_append_of_le_length (by simp), List.take_of_length_le (by simp)]
        simp only [← List.range_succ_eq_map, List.mem_map, List.mem_range]
        exact ⟨n, by omega, by simp⟩
      exact (maxIdx_ge hm).2.2.2
  have hread := readNorb_entries hent
  rw [hmax] at hread
  refine ⟨hread, ?_, fun T0 => ?_, fun V0 => ?_⟩
  · rw [C36_core io _ _ hent, List.find?_eq_none.2]
    · rfl
    · intro e he
      have hpre : D.take k <+: D.take (norb ^ 4 + norb ^ 2) := List.take_prefix_take_left hk'
      have he' := hpre.subset he
      have hD' : D.take (norb ^ 4 + norb ^ 2) = D.dropLast := by rw [List.dropLast_eq_take, hDlen]; rfl
      rw [hD', hD, dumpEntries, List.dropLast_concat] at he'
      simp only [List.mem_append, List.mem_flatMap, List.mem_map, List.mem_range] at he'
      rcases he' with ⟨i, hi, j, hj, k, hk, l, hl, rfl⟩ | ⟨i, hi, j, hj, rfl⟩ <;> simp
  · obtain ⟨T', h, -⟩ := C36_one_body io _ _ hent (fun e h => dump_standard (List.mem_of_mem_take h)) norb norb hread le_rfl T0
    exact ⟨T', h⟩
  · obtain ⟨V', h, -⟩ := C36_two_body io _ _ hent norb norb hread le_rfl V0
    exact ⟨V', h⟩

theorem torn_reach (c0 c1 c2 : List Char) : ∃ f, LogReach 2 ⟨[], fun _ => [c0, c1, c2]⟩
    ⟨c0 ++ c0 ++ c1 ++ c1 ++ c2 ++ c2, f⟩ ∧ ∀ r < 2, f r = [] := by
  have go : ∀ (file : List Char) (a b : List (List Char)) (s : LogState),
      (∃ f, LogReach 2 s ⟨file, f⟩ ∧ f 0 = a ∧ f 1 = b) → (∀ c cs, a = c :: cs → ∃ f, LogReach 2 s ⟨file ++ c, f⟩ ∧ f 0 = cs ∧ f 1 = b) ∧
      (∀ c cs, b = c :: cs → ∃ f, LogReach 2 s ⟨file ++ c, f⟩ ∧ f 0 = a ∧ f 1 = cs) := by
    rintro file a b s ⟨f, h, ha, hb⟩
    constructor
    · intro c cs e
      refine ⟨_, h.tail (LogStep.append (r := 0) (by norm_num) (show f 0 = c :: cs by rw [ha, e])), by simp, ?_⟩
      rw [Function.update_of_ne (by norm_num)]; exact hb
    · intro c cs e
      refine ⟨_, h.tail (LogStep.append (r := 1) (by norm_num) (show f 1 = c :: cs by rw [hb, e])), ?_, by simp⟩
      rw [Function.update_of_ne (by norm_num)]; exact ha
  have t0 : ∃ f, LogReach 2 ⟨[], fun _ => [c0, c1, c2]⟩ ⟨[], f⟩ ∧ f 0 = [c0, c1, c2] ∧ f 1 = [c0, c1, c2] :=
    ⟨_, Relation.ReflTransGen.refl, rfl, rfl⟩
  have t1 := (go _ _ _ _ t0).1 _ _ rfl
  have t2 := (go _ _ _ _ t1).2 _ _ rfl
  have t3 := (go _ _ _ _ t2).1 _ _ rfl
  have t4 := (go _ _ _ _ t3).2 _ _ rfl
  have t5 := (go _ _ _ _ t4).1 _ _ rfl
  obtain ⟨f, h, h0, h1⟩ := (go _ _ _ _ t5).2 _ _ rfl
  refine ⟨f, h, fun r hr => ?_⟩
  have : r = 0 ∨ r = 1 := by omega
  rcases this with rfl | rfl
  · exact h0
  · exact h1

/-- Two-body integrals of two orbitals with the eightfold symmetry, one value per class. -/
def tornV (a : Nat) : Nat := [1, 2, 2, 3, 2, 4, 4, 5, 2, 4, 4, 5, 3, 5, 5, 6].getD a 0

/-- One-body integrals of two orbitals. -/
def tornT (a : Nat) : Nat := [7, 8, 8, 9].getD a 0

/-- C164 is violated (torn lines): two ranks write the same two orbitals (V(1,1,1,1) = 1) through equal buffers of 504
characters, a buffer in turn.  Both ranks end, and the file is read without complaint as V(1,1,1,1) = 2. -/
theorem C164_torn_lines_refuted : Sym2 2 2 tornT ∧ Sym8 2 2 tornV ∧ ∃ s,
    LogReach 2 ⟨[], fun _ => bufferPieces 504 9 (fcidumpText toyNum 2 tornT 2 tornV 2 11)⟩ s ∧ LogDone 2 s ∧
      (bufferPieces 504 9 (fcidumpText toyNum 2 tornT 2 tornV 2 11)).flatten =
        fcidumpText toyNum 2 tornT 2 tornV 2 11 ∧
      readFcidumpNorb toyNum s.file = .ok 2 ∧
      ∃ V', readFcidump2body toyNum s.file 2 (fun _ => 0) = .ok V' ∧ V' 0 = 2 ∧ tornV 0 = 1 := by
  refine ⟨fun p q hp hq => ?_, fun p q r s hp hq hr hs => ?_, ?_⟩
  · interval_cases p <;> interval_cases q <;> rfl
  · interval_cases p <;> interval_cases q <;> interval_cases r <;> interval_cases s <;> exact ⟨rfl, rfl, rfl⟩
  have hc : bufferPieces 504 9 (fcidumpText toyNum 2 tornT 2 tornV 2 11) =
      [(bufferPieces 504 9 (fcidumpText toyNum 2 tornT 2 tornV 2 11)).getD 0 [],
        (bufferPieces 504 9 (fcidumpText toyNum 2 tornT 2 tornV 2 11)).getD 1 [],
        (bufferPieces 504 9 (fcidumpText toyNum 2 tornT 2 tornV 2 11)).getD 2 []] := by decide +kernel
  obtain ⟨f, h1, h2⟩ := torn_reach ((bufferPieces 504 9 (fcidumpText toyNum 2 tornT 2 tornV 2 11)).getD 0 [])
    ((bufferPieces 504 9 (fcidumpText toyNum 2 tornT 2 tornV 2 11)).getD 1 [])
    ((bufferPieces 504 9 (fcidumpText toyNum 2 tornT 2 tornV 2 11)).getD 2 [])
  rw [← hc] at h1
  refine ⟨_, h1, h2, by decide +kernel, ?_, ?_⟩
  · dsimp only; clear h1 h2; decide +kernel
  dsimp only
  clear h1 h2 hc
  have hv : (match readFcidump2body toyNum
      ((bufferPieces 504 9 (fcidumpText toyNum 2 tornT 2 tornV 2 11)).getD 0 [] ++
        (bufferPieces 504 9 (fcidumpText toyNum 2 tornT 2 tornV 2 11)).getD 0 [] ++
        (bufferPieces 504 9 (fcidumpText toyNum 2 tornT 2 tornV 2 11)).getD 1 [] ++
        (bufferPieces 504 9 (fcidumpText toyNum 2 tornT 2 tornV 2 11)).getD 1 [] ++
        (bufferPieces 504 9 (fcidumpText toyNum 2 tornT 2 tornV 2 11)).getD 2 [] ++
        (bufferPieces 504 9 (fcidumpText toyNum 2 tornT 2 tornV 2 11)).getD 2 []) 2 (fun _ => 0) with
      | .ok V' => V' 0 == 2 | _ => false) = true := by decide +kernel
  split at hv
  · rename_i V' e
    exact ⟨V', e, by simpa using hv, rfl⟩
  · cases hv

/-- A number format with the point in front: like the digits of a mantissa, a part of a number is a number. -/
def pointNum : NumIO Nat where
  fmt n := '.' :: showNat n
  parse s := if (s.drop 1).isEmpty then none else some (Nat.ofDigitChars 10 ((s.drop 1).takeWhile Char.isDigit) 0)

theorem pointNum_faithful : NumIO.Faithful pointNum where
  roundTrip n := by
    have e : (showNat n).takeWhile Char.isDigit = showNat n := by
      rw [List.takeWhile_eq_self_iff]
      exact fun x hx => showNat_digit hx
    show (if (showNat n).isEmpty = true then none else some (Nat.ofDigitChars 10 ((showNat n).takeWhile Char.isDigit) 0)) = some n
    rw [e, if_neg]
    · exact congrArg some Nat.ofDigitChars_ten_toDigits
    · have := showNat_ne_nil n
      cases h : showNat n with
      | nil => exact absurd h this
      | cons => simp
  oneWord n c hc := by
    rw [pointNum, List.mem_cons] at hc
    rcases hc with rfl | hc
    · decide
    · exact showNat_not_space hc
  floatLike n := ⟨'.', by simp [pointNum], Or.inr rfl⟩

/-- C164 is violated (stopped inside a number): one process with a buffer that ends inside the last number stops after
that buffer: core energy 12 is read as 1. -/
theorem C164_cut_number_refuted : NumIO.Faithful pointNum ∧ ∃ s,
    LogReach 1 ⟨[], fun _ => bufferPieces 184 9 (fcidumpText pointNum 1 (fun _ => 7) 1 (fun _ => 5) 1 12)⟩ s ∧
      readFcidumpNorb pointNum s.file = .ok 1 ∧ readFcidumpCore pointNum s.file = .ok 1 := by
  have hc : bufferPieces 184 9 (fcidumpText pointNum 1 (fun _ => 7) 1 (fun _ => 5) 1 12) =
      (bufferPieces 184 9 (fcidumpText pointNum 1 (fun _ => 7) 1 (fun _ => 5) 1 12)).getD 0 [] ::
        (bufferPieces 184 9 (fcidumpText pointNum 1 (fun _ => 7) 1 (fun _ => 5) 1 12)).tail := by decide +kernel
  have step : ∀ (l : List (List Char)) c cs, l = c :: cs →
      LogReach 1 ⟨[], fun _ => l⟩ ⟨[] ++ c, Function.update (fun _ => l) 0 cs⟩ := by
    rintro _ c cs rfl
    exact Relation.ReflTransGen.single (LogStep.append (r := 0) (by norm_num) rfl)
  refine ⟨pointNum_faithful, _, step _ _ _ hc, ?_, ?_⟩
  · dsimp only; decide +kernel
  · dsimp only; decide +kernel

/-- The conditions of `C164_several_writers_partial` and `C164_stopped_writers_partial` are met by two ranks that write line by line. -/
example : ∃ s, LogReach 2 ⟨[], fun _ => (fcidumpLines toyNum 1 (fun _ => 7) 1 (fun _ => 5) 1 11).map (· ++ ['\n'])⟩ s ∧
    s.file ≠ [] ∧ (∀ c ∈ (fcidumpLines toyNum 1 (fun _ => 7) 1 (fun _ => 5) 1 11).map (· ++ ['\n']), WholeLines c) ∧
    ((fcidumpLines toyNum 1 (fun _ => 7) 1 (fun _ => 5) 1 11).map (· ++ ['\n'])).flatten =
      fcidumpText toyNum 1 (fun _ => 7) 1 (fun _ => 5) 1 11 ∧ Sym2 1 1 (fun _ => 7) ∧ Sym8 1 1 (fun _ => 5) := by
  refine ⟨_, Relation.ReflTransGen.single (LogStep.append (r := 1) (by norm_num) (by rfl)), ?_, ?_, ?_, ?_, ?_⟩
  · decide +kernel
  · intro c hc
    obtain ⟨l, -, rfl⟩ := List.mem_map.1 hc
    right; simp
  · rw [fcidumpText, List.flatMap_def]
  · intro _ _ _ _; rfl
  · intro _ _ _ _ _ _ _ _; exact ⟨rfl, rfl, rfl⟩

end Macis
