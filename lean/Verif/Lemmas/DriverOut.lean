import Verif.Lemmas.DriverRun
/-! The integral file the standalone program writes. -/
namespace Macis
open Spec Finset

/-- reading the lines `write_fcidump` writes -/
theorem dump_entries {io : NumIO ℝ} {norb : Nat} (hn : norb < 2 ^ 31) {T V : Nat → ℝ} {core : ℝ}
    (hc : NumIO.FaithfulAt io core) (hT : ∀ p q, p < norb → q < norb → NumIO.FaithfulAt io (asMat T norb p q))
    (hV : ∀ p q r s, p < norb → q < norb → r < norb → s < norb → NumIO.FaithfulAt io (asTen V norb p q r s))
    (sym : IntSym norb (asMat T norb) (asTen V norb)) :
    ∃ es, Entries io (fcidumpLines io norb T norb V norb core) es ∧ (∀ e ∈ es, Standard e) ∧ maxIdx es = norb ∧
      fileCore es = core ∧ (∀ p q, p < norb → q < norb → (fileInts es).T p q = asMat T norb p q) ∧
      (∀ p q r s, p < norb → q < norb → r < norb → s < norb → (fileInts es).V p q r s = asTen V norb p q r s) ∧
      ∀ l ∈ fcidumpLines io norb T norb V norb core, ∀ c ∈ l, c ≠ '\n' := by
  set es := dumpEntries norb T norb V norb core with hes
  have hfa : ∀ e ∈ es, NumIO.FaithfulAt io e.val := by
    intro e he
    rcases dump_mem.mp he with ⟨i, j, k, l, hi, hj, hk, hl, rfl⟩ | ⟨i, j, hi, hj, rfl⟩ | rfl
    · exact hV i j k l hi hj hk hl
    · exact hT i j hi hj
    · exact hc
  have hbound : ∀ e ∈ es, e.p ≤ norb ∧ e.q ≤ norb ∧ e.r ≤ norb ∧ e.s ≤ norb := by
    intro e he
    rcases dump_mem.mp he with ⟨i, j, k, l, hi, hj, hk, hl, rfl⟩ | ⟨i, j, hi, hj, rfl⟩ | rfl
    · exact ⟨hi, hj, hk, hl⟩
    · exact ⟨hi, hj, Nat.zero_le _, Nat.zero_le _⟩
    · exact ⟨Nat.zero_le _, Nat.zero_le _, Nat.zero_le _, Nat.zero_le _⟩
  refine ⟨es, ?_, ?_, ?_, ?_, ?_, ?_, ?_⟩
  · rw [fcidumpLines_eq]
    refine entries_map es hfa fun e he => ?_
    obtain ⟨h1, h2, h3, h4⟩ := hbound e he
    omega
  · intro e he
    rcases dump_mem.mp he with ⟨i, j, k, l, hi, hj, hk, hl, rfl⟩ | ⟨i, j, hi, hj, rfl⟩ | rfl
    · exact Or.inl ⟨by simp, by simp, by simp, by simp⟩
    · exact Or.inr (Or.inl ⟨by simp, by simp, rfl, rfl⟩)
    · exact Or.inr (Or.inr ⟨rfl, rfl, rfl, rfl⟩)
  · apply le_antisymm
    · rw [maxIdx]
      refine foldl_max_le _ _ _ (Nat.zero_le _) ?_
      intro x hx
      obtain ⟨e, he, hx⟩ := List.mem_flatMap.mp hx
      obtain ⟨h1, h2, h3, h4⟩ := hbound e he
      simp only [List.mem_cons, List.not_mem_nil, or_false] at hx
      omega
    · by_cases h0 : norb = 0
      · omega
      · have hm : (⟨norb - 1 + 1, 0 + 1, 0, 0, T (norb - 1 + 0 * norb)⟩ : FciEntry ℝ) ∈ es :=
          dump_mem.mpr (Or.inr (Or.inl ⟨norb - 1, 0, by omega, by omega, rfl⟩))
        have := (maxIdx_ge hm).1
        simp only at this
        omega
  · have hnone : ∀ e ∈ ((List.range norb).flatMap fun i => (List.range norb).flatMap fun j =>
        (List.range norb).flatMap fun k => (List.range norb).map fun l =>
          (⟨i + 1, j + 1, k + 1, l + 1, V (addr4 norb i j k l)⟩ : FciEntry ℝ)) ++
        ((List.range norb).flatMap fun i => (List.range norb).map fun j =>
          (⟨i + 1, j + 1, 0, 0, T (i + j * norb)⟩ : FciEntry ℝ)),
        ¬ ((decide (e.p = 0 ∧ e.q = 0 ∧ e.r = 0 ∧ e.s = 0)) = true) := by
      intro e he
      simp only [List.mem_append, List.mem_flatMap, List.mem_map, List.mem_range] at he
      rcases he with ⟨i, hi, j, hj, k, hk, l, hl, rfl⟩ | ⟨i, hi, j, hj, rfl⟩ <;> simp
    rw [fileCore, hes, dumpEntries, List.find?_append, List.find?_eq_none.mpr hnone]
    simp
  · intro p q hp hq
    apply lastSuch_value
    · exact ⟨_, dump_mem.mpr (Or.inr (Or.inl ⟨p, q, hp, hq, rfl⟩)), by simp [givesOne]⟩
    · intro e he hg
      rcases dump_mem.mp he with ⟨i, j, k, l, hi, hj, hk, hl, rfl⟩ | ⟨i, j, hi, hj, rfl⟩ | rfl
      · simp [givesOne] at hg
      · simp only [givesOne, beq_iff_eq, Bool.and_eq_true, Bool.or_eq_true,
          Nat.add_right_cancel_iff] at hg
        rcases hg.2 with ⟨rfl, rfl⟩ | ⟨rfl, rfl⟩
        · rfl
        · exact sym.h_symm _ _ hi hj
      · simp [givesOne] at hg
  · intro p q r s hp hq hr hs
    apply lastSuch_value
    · exact ⟨_, dump_mem.mpr (Or.inl ⟨p, q, r, s, hp, hq, hr, hs, rfl⟩), by simp [givesTwo]⟩
    · intro e he hg
      rcases dump_mem.mp he with ⟨i, j, k, l, hi, hj, hk, hl, rfl⟩ | ⟨i, j, hi, hj, rfl⟩ | rfl
      · simp only [givesTwo, beq_iff_eq, Bool.or_eq_true, Prod.mk.injEq,
          Nat.add_right_cancel_iff] at hg
        have s1 := sym.g_left
        have s2 := sym.g_right
        have s3 := sym.g_pair
        rcases hg with ((((((h | h) | h) | h) | h) | h) | h) | h <;> obtain ⟨rfl, rfl, rfl, rfl⟩ := h
        · rfl
        · exact s2 _ _ _ _ hi hj hk hl
        · exact s1 _ _ _ _ hi hj hk hl
        · exact (s1 _ _ _ _ hi hj hk hl).trans (s2 _ _ _ _ hj hi hk hl)
        · exact s3 _ _ _ _ hi hj hk hl
        · exact (s1 _ _ _ _ hi hj hk hl).trans (s3 _ _ _ _ hj hi hk hl)
        · exact (s2 _ _ _ _ hi hj hk hl).trans (s3 _ _ _ _ hi hj hl hk)
        · exact ((s1 _ _ _ _ hi hj hk hl).trans (s2 _ _ _ _ hj hi hk hl)).trans
            (s3 _ _ _ _ hj hi hl hk)
      · simp [givesTwo] at hg
      · simp [givesTwo] at hg
  · intro l hl
    rw [fcidumpLines_eq, List.mem_map] at hl
    obtain ⟨e, he, rfl⟩ := hl
    exact fciFmt_no_newline _ _ _ _ (hfa e he)

/-- two files with the same content are read alike -/
theorem readIntegrals_same {io : NumIO ℝ} {file file' : List Char} {es es' : List (FciEntry ℝ)}
    (h : Entries io (fileLines file) es) (hst : ∀ e ∈ es, Standard e)
    (h' : Entries io (fileLines file') es') (hst' : ∀ e ∈ es', Standard e) (hn : maxIdx es' = maxIdx es)
    (hc : fileCore es' = fileCore es)
    (hT : ∀ p q, p < maxIdx es → q < maxIdx es → (fileInts es').T p q = (fileInts es).T p q)
    (hV : ∀ p q r s, p < maxIdx es → q < maxIdx es → r < maxIdx es → s < maxIdx es →
      (fileInts es').V p q r s = (fileInts es).V p q r s) :
    readIntegrals io file' = readIntegrals io file := by
  have n1 := readNorb_entries h
  have n2 := readNorb_entries h'
  rw [hn] at n2
  obtain ⟨T, t1, t2, t3⟩ := C36_one_body io file es h hst _ (maxIdx es) n1 le_rfl fun _ => 0
  obtain ⟨V, v1, v2, v3⟩ := C36_two_body io file es h _ (maxIdx es) n1 le_rfl fun _ => 0
  obtain ⟨T', t1', t2', t3'⟩ := C36_one_body io file' es' h' hst' _ (maxIdx es) n2 le_rfl fun _ => 0
  obtain ⟨V', v1', v2', v3'⟩ := C36_two_body io file' es' h' _ (maxIdx es) n2 le_rfl fun _ => 0
  have eT : T' = T := by
    funext a
    by_cases c : ∃ p q, p < maxIdx es ∧ q < maxIdx es ∧ a = p + q * maxIdx es
    · obtain ⟨p, q, hp, hq, rfl⟩ := c
      rw [t2 p q hp hq, t2' p q hp hq]
      exact hT p q hp hq
    · push_neg at c
      rw [t3 a c, t3' a c]
  have eV : V' = V := by
    funext a
    by_cases c : ∃ p q r s, p < maxIdx es ∧ q < maxIdx es ∧ r < maxIdx es ∧ s < maxIdx es ∧ a = addr4 (maxIdx es) p q r s
    · obtain ⟨p, q, r, s, hp, hq, hr, hs, rfl⟩ := c
      rw [v2 p q r s hp hq hr hs, v2' p q r s hp hq hr hs]
      exact hV p q r s hp hq hr hs
    · push_neg at c
      rw [v3 a c, v3' a c]
  have hcc : readFcidumpCore io file' = readFcidumpCore io file := by
    rw [C36_core io file es h, C36_core io file' es' h']
    exact congrArg Run.ok hc
  unfold readIntegrals
  rw [n1, n2, Run.bind, Run.bind, hcc, t1, t1', v1, v1', eT, eV]

end Macis
