import Verif.Props.Fcidump

/-! Exact statement beside the refuted claim C77: what a reader finds in an FCIDUMP file that was
written over an existing one. -/
namespace Macis
open Spec

theorem lastSuch_concat {α R : Type} (P : α → Bool) (a b : List α) (val : α → R) (d : R) :
    ((lastSuch P (a ++ b)).map val).getD d =
      ((lastSuch P b).map val).getD (((lastSuch P a).map val).getD d) := by
  rw [lastSuch, lastSuch, lastSuch, List.reverse_append, List.find?_append]
  cases b.reverse.find? P <;> rfl

theorem lastSuch_absent {α R : Type} {P : α → Bool} {l : List α} {val : α → R} {d : R}
    (h : ∀ a ∈ l, P a = false) : ((lastSuch P l).map val).getD d = d := by
  rw [lastSuch, List.find?_eq_none.mpr]
  · rfl
  · intro x hx; rw [h x (List.mem_reverse.mp hx)]; simp

theorem dump_bound {R : Type} {norb : Nat} {T : Nat → R} {ldt : Nat} {V : Nat → R} {ldv : Nat}
    {ecore : R} {e : FciEntry R} (he : e ∈ dumpEntries norb T ldt V ldv ecore) :
    e.p ≤ norb ∧ e.q ≤ norb ∧ e.r ≤ norb ∧ e.s ≤ norb := by
  rcases dump_mem.mp he with ⟨i, j, k, l, hi, hj, hk, hl, rfl⟩ | ⟨i, j, hi, hj, rfl⟩ | rfl
  · exact ⟨hi, hj, hk, hl⟩
  · exact ⟨hi, hj, Nat.zero_le _, Nat.zero_le _⟩
  · exact ⟨Nat.zero_le _, Nat.zero_le _, Nat.zero_le _, Nat.zero_le _⟩

theorem dump_standard {R : Type} {norb : Nat} {T : Nat → R} {ldt : Nat} {V : Nat → R} {ldv : Nat}
    {ecore : R} {e : FciEntry R} (he : e ∈ dumpEntries norb T ldt V ldv ecore) : Standard e := by
  rcases dump_mem.mp he with ⟨i, j, k, l, hi, hj, hk, hl, rfl⟩ | ⟨i, j, hi, hj, rfl⟩ | rfl
  · exact Or.inl ⟨by simp, by simp, by simp, by simp⟩
  · exact Or.inr (Or.inl ⟨by simp, by simp, rfl, rfl⟩)
  · exact Or.inr (Or.inr ⟨rfl, rfl, rfl, rfl⟩)

/-- what the one-body lines of a written file give -/
theorem dump_one {R : Type} {norb : Nat} {T : Nat → R} {ldt : Nat} (V : Nat → R) (ldv : Nat)
    (ecore : R) (hT : Sym2 norb ldt T) (p q : Nat) (d : R) :
    ((lastSuch (givesOne p q) (dumpEntries norb T ldt V ldv ecore)).map FciEntry.val).getD d =
      if p < norb ∧ q < norb then T (p + q * ldt) else d := by
  split
  · rename_i h
    apply lastSuch_value
    · exact ⟨_, dump_mem.mpr (Or.inr (Or.inl ⟨p, q, h.1, h.2, rfl⟩)), by simp [givesOne]⟩
    · intro e he hg
      rcases dump_mem.mp he with ⟨i, j, k, l, hi, hj, hk, hl, rfl⟩ | ⟨i, j, hi, hj, rfl⟩ | rfl
      · simp [givesOne] at hg
      · simp only [givesOne, beq_iff_eq, Bool.and_eq_true, Bool.or_eq_true,
          Nat.add_right_cancel_iff] at hg
        rcases hg.2 with ⟨rfl, rfl⟩ | ⟨rfl, rfl⟩
        · rfl
        · exact hT _ _ hi hj
      · simp [givesOne] at hg
  · rename_i h
    apply lastSuch_absent
    intro e he
    rw [← Bool.not_eq_true]
    intro hg
    rcases dump_mem.mp he with ⟨i, j, k, l, hi, hj, hk, hl, rfl⟩ | ⟨i, j, hi, hj, rfl⟩ | rfl
    · simp [givesOne] at hg
    · simp only [givesOne, beq_iff_eq, Bool.and_eq_true, Bool.or_eq_true,
        Nat.add_right_cancel_iff] at hg
      rcases hg.2 with ⟨rfl, rfl⟩ | ⟨rfl, rfl⟩ <;> omega
    · simp [givesOne] at hg

/-- what the two-body lines of a written file give -/
theorem dump_two {R : Type} {norb : Nat} (T : Nat → R) (ldt : Nat) {V : Nat → R} {ldv : Nat}
    (ecore : R) (hV : Sym8 norb ldv V) (p q r s : Nat) (d : R) :
    ((lastSuch (givesTwo p q r s) (dumpEntries norb T ldt V ldv ecore)).map FciEntry.val).getD d =
      if p < norb ∧ q < norb ∧ r < norb ∧ s < norb then V (addr4 ldv p q r s) else d := by
  split
  · rename_i h
    apply lastSuch_value
    · exact ⟨_, dump_mem.mpr (Or.inl ⟨p, q, r, s, h.1, h.2.1, h.2.2.1, h.2.2.2, rfl⟩), by simp [givesTwo]⟩
    · intro e he hg
      rcases dump_mem.mp he with ⟨i, j, k, l, hi, hj, hk, hl, rfl⟩ | ⟨i, j, hi, hj, rfl⟩ | rfl
      · simp only [givesTwo, beq_iff_eq, Bool.or_eq_true, Prod.mk.injEq,
          Nat.add_right_cancel_iff] at hg
        have s1 := fun a b c d ha hb hc hd => (hV a b c d ha hb hc hd).1
        have s2 := fun a b c d ha hb hc hd => (hV a b c d ha hb hc hd).2.1
        have s3 := fun a b c d ha hb hc hd => (hV a b c d ha hb hc hd).2.2
        rcases hg with ((((((h | h) | h) | h) | h) | h) | h) | h <;> obtain ⟨rfl, rfl, rfl, rfl⟩ := h
        · rfl
        · exact s2 _ _ _ _ hi hj hk hl
        · exact s1 _ _ _ _ hi hj hk hl
        · exact (s1 _ _ _ _ hi hj hk hl).trans (s2 _ _ _ _ hj hi hk hl)
        · exact s3 _ _ _ _ hi hj hk hl
        · exact (s1 _ _ _ _ hi hj hk hl).trans (s3 _ _ _ _ hj hi hk hl)
        · exact (s2 _ _ _ _ hi hj hk hl).trans (s3 _ _ _ _ hi hj hl hk)
        · exact ((s1 _ _ _ _ hi hj hk hl).trans (s2 _ _ _ _ hj hi hk hl)).trans
            (s3 _ _ _ _ hj hi hl hk)
      · simp [givesTwo] at hg
      · simp [givesTwo] at hg
  · rename_i h
    apply lastSuch_absent
    intro e he
    rw [← Bool.not_eq_true]
    intro hg
    rcases dump_mem.mp he with ⟨i, j, k, l, hi, hj, hk, hl, rfl⟩ | ⟨i, j, hi, hj, rfl⟩ | rfl
    · simp only [givesTwo, beq_iff_eq, Bool.or_eq_true, Prod.mk.injEq,
        Nat.add_right_cancel_iff] at hg
      rcases hg with ((((((h | h) | h) | h) | h) | h) | h) | h <;>
        obtain ⟨rfl, rfl, rfl, rfl⟩ := h <;> omega
    · simp [givesTwo] at hg
    · simp [givesTwo] at hg

theorem dump_maxIdx {R : Type} (norb : Nat) (T : Nat → R) (ldt : Nat) (V : Nat → R) (ldv : Nat)
    (ecore : R) (norb' : Nat) (T' : Nat → R) (ldt' : Nat) (V' : Nat → R) (ldv' : Nat) (ecore' : R) :
    maxIdx (dumpEntries norb T ldt V ldv ecore ++ dumpEntries norb' T' ldt' V' ldv' ecore') =
      max norb norb' := by
  apply le_antisymm
  · rw [maxIdx]
    refine foldl_max_le _ _ _ (Nat.zero_le _) ?_
    intro x hx
    obtain ⟨e, he, hx⟩ := List.mem_flatMap.mp hx
    simp only [List.mem_cons, List.not_mem_nil, or_false] at hx
    rcases List.mem_append.mp he with he | he
    · obtain ⟨h1, h2, h3, h4⟩ := dump_bound he
      omega
    · obtain ⟨h1, h2, h3, h4⟩ := dump_bound he
      omega
  · apply max_le
    · by_cases h0 : norb = 0
      · omega
      · have hm : (⟨norb - 1 + 1, 0 + 1, 0, 0, T (norb - 1 + 0 * ldt)⟩ : FciEntry R) ∈
            dumpEntries norb T ldt V ldv ecore :=
          dump_mem.mpr (Or.inr (Or.inl ⟨norb - 1, 0, by omega, by omega, rfl⟩))
        have := (maxIdx_ge (List.mem_append_left (dumpEntries norb' T' ldt' V' ldv' ecore') hm)).1
        simp only at this
        omega
    · by_cases h0 : norb' = 0
      · omega
      · have hm : (⟨norb' - 1 + 1, 0 + 1, 0, 0, T' (norb' - 1 + 0 * ldt')⟩ : FciEntry R) ∈
            dumpEntries norb' T' ldt' V' ldv' ecore' :=
          dump_mem.mpr (Or.inr (Or.inl ⟨norb' - 1, 0, by omega, by omega, rfl⟩))
        have := (maxIdx_ge (List.mem_append_right (dumpEntries norb T ldt V ldv ecore) hm)).1
        simp only at this
        omega

/-- C77 (exact): a file written by one process is written again by another one, with other integrals and
possibly another number of orbitals.  The result is not the second Hamiltonian: the orbital count is
the larger of the two, the core energy is that of the *first* write, and the integrals are those of the
second write where it has any and those of the first write elsewhere. -/
theorem C77_write_over_existing {R : Type} [Zero R] (io : NumIO R) (hio : NumIO.Faithful io)
    (norb norb' : Nat) (hnorb : norb < 2147483647) (hnorb' : norb' < 2147483647) (T V T' V' : Nat → R)
    (ldt ldv ldt' ldv' : Nat) (ecore ecore' : R) (hT : Sym2 norb ldt T) (hV : Sym8 norb ldv V)
    (hT' : Sym2 norb' ldt' T') (hV' : Sym8 norb' ldv' V') :
    ∃ file file', writeFcidump io norb T ldt V ldv ecore ⟨false, []⟩ = .ok ⟨true, file⟩ ∧
      writeFcidump io norb' T' ldt' V' ldv' ecore' ⟨false, file⟩ = .ok ⟨true, file'⟩ ∧
      readFcidumpNorb io file' = .ok (max norb norb') ∧
      readFcidumpCore io file' = .ok ecore ∧
      (∀ (T0 : Nat → R) (ld : Nat), max norb norb' ≤ ld → ∃ T1, readFcidump1body io file' ld T0 = .ok T1 ∧
        ∀ p q, p < max norb norb' → q < max norb norb' → T1 (p + q * ld) =
          if p < norb' ∧ q < norb' then T' (p + q * ldt')
          else if p < norb ∧ q < norb then T (p + q * ldt) else T0 (p + q * ld)) ∧
      (∀ (V0 : Nat → R) (ld : Nat), max norb norb' ≤ ld → ∃ V1, readFcidump2body io file' ld V0 = .ok V1 ∧
        ∀ p q r s, p < max norb norb' → q < max norb norb' → r < max norb norb' → s < max norb norb' →
          V1 (addr4 ld p q r s) =
            if p < norb' ∧ q < norb' ∧ r < norb' ∧ s < norb' then V' (addr4 ldv' p q r s)
            else if p < norb ∧ q < norb ∧ r < norb ∧ s < norb then V (addr4 ldv p q r s)
            else V0 (addr4 ld p q r s)) := by
  set es := dumpEntries norb T ldt V ldv ecore with hes
  set es' := dumpEntries norb' T' ldt' V' ldv' ecore' with hes'
  set file' := (fcidumpLines io norb T ldt V ldv ecore ++ fcidumpLines io norb' T' ldt' V' ldv' ecore').flatMap
    fun l => l ++ ['\n'] with hfile
  have hlines : fileLines file' = (es ++ es').map fun e => fciFmt io e.p e.q e.r e.s e.val := by
    rw [hfile, fileLines_unlines, fcidumpLines_eq, fcidumpLines_eq, List.map_append]
    intro l hl
    rw [fcidumpLines_eq, fcidumpLines_eq, ← List.map_append, List.mem_map] at hl
    obtain ⟨e, _, rfl⟩ := hl
    exact fciFmt_no_newline _ _ _ _ (hio.at _)
  have hent : Entries io (fileLines file') (es ++ es') := by
    rw [hlines]
    refine entries_map _ (fun e _ => hio.at _) (fun e he => ?_)
    rcases List.mem_append.mp he with he | he
    · obtain ⟨h1, h2, h3, h4⟩ := dump_bound he
      omega
    · obtain ⟨h1, h2, h3, h4⟩ := dump_bound he
      omega
  have hst : ∀ e ∈ es ++ es', Standard e := by
    intro e he
    rcases List.mem_append.mp he with he | he <;> exact dump_standard he
  have hread : readFcidumpNorb io file' = .ok (max norb norb') := by
    rw [readNorb_entries hent, hes, hes', dump_maxIdx]
  refine ⟨(fcidumpLines io norb T ldt V ldv ecore).flatMap fun l => l ++ ['\n'], file',
    by rw [writeFcidump, if_neg (by simp), List.nil_append],
    by rw [writeFcidump, if_neg (by simp), hfile, List.flatMap_append], hread, ?_, ?_, ?_⟩
  · rw [C36_core io file' _ hent]
    congr 1
    have hnone : ∀ e ∈ ((List.range norb).flatMap fun i => (List.range norb).flatMap fun j =>
        (List.range norb).flatMap fun k => (List.range norb).map fun l =>
          (⟨i + 1, j + 1, k + 1, l + 1, V (addr4 ldv i j k l)⟩ : FciEntry R)) ++
        ((List.range norb).flatMap fun i => (List.range norb).map fun j =>
          (⟨i + 1, j + 1, 0, 0, T (i + j * ldt)⟩ : FciEntry R)),
        ¬ ((decide (e.p = 0 ∧ e.q = 0 ∧ e.r = 0 ∧ e.s = 0)) = true) := by
      intro e he
      simp only [List.mem_append, List.mem_flatMap, List.mem_map, List.mem_range] at he
      rcases he with ⟨i, hi, j, hj, k, hk, l, hl, rfl⟩ | ⟨i, hi, j, hj, rfl⟩ <;> simp
    rw [hes, dumpEntries, List.append_assoc, List.find?_append, List.find?_eq_none.mpr hnone]
    simp
  · intro T0 ld hld
    obtain ⟨T1, h1, h2, _⟩ := C36_one_body io file' _ hent hst _ ld hread hld T0
    refine ⟨T1, h1, fun p q hp hq => ?_⟩
    rw [h2 p q hp hq, lastSuch_concat, dump_one V' ldv' ecore' hT', dump_one V ldv ecore hT]
  · intro V0 ld hld
    obtain ⟨V1, h1, h2, _⟩ := C36_two_body io file' _ hent _ ld hread hld V0
    refine ⟨V1, h1, fun p q r s hp hq hr hs => ?_⟩
    rw [h2 p q r s hp hq hr hs, lastSuch_concat, dump_two T' ldt' ecore' hV', dump_two T ldt ecore hV]

/-- two orbitals overwritten by one: the count stays two, the core energy stays the old one -/
example : ∃ file file', writeFcidump toyNum 2 (fun a => if a = 0 then 5 else if a = 3 then 7 else 2) 2
      (fun _ => 3) 2 11 ⟨false, []⟩ = .ok ⟨true, file⟩ ∧
    writeFcidump toyNum 1 (fun _ => 6) 1 (fun _ => 4) 1 13 ⟨false, file⟩ = .ok ⟨true, file'⟩ ∧
    readFcidumpNorb toyNum file' = .ok 2 ∧ readFcidumpCore toyNum file' = .ok 11 := by
  obtain ⟨f, f', h1, h2, h3, h4, _⟩ := C77_write_over_existing toyNum toyNum_faithful 2 1 (by decide)
    (by decide) (fun a => if a = 0 then 5 else if a = 3 then 7 else 2) (fun _ => 3) (fun _ => 6)
    (fun _ => 4) 2 2 1 1 11 13
    (by intro p q hp hq; interval_cases p <;> interval_cases q <;> rfl)
    (by intro p q r s _ _ _ _; exact ⟨rfl, rfl, rfl⟩)
    (by intro p q _ _; rfl) (by intro p q r s _ _ _ _; exact ⟨rfl, rfl, rfl⟩)
  exact ⟨f, f', h1, h2, h3, h4⟩

end Macis
