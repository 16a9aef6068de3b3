import Verif.Model.WfnIO
import Verif.Lemmas.Text
import Verif.Lemmas.SD
import Verif.Props.Strings

/-! Properties C34, C75: wavefunction files. -/
namespace Macis
open Spec

theorem canonical_char {M : Nat} (d : BitVec (2 * M)) {c : Char} (h : c ∈ toCanonicalString d) :
    c = '2' ∨ c = 'u' ∨ c = 'd' ∨ c = '0' := by
  simp only [toCanonicalString, List.mem_map] at h
  obtain ⟨i, _, rfl⟩ := h
  split
  · simp
  · split
    · simp
    · split <;> simp

theorem canonical_not_space {M : Nat} (d : BitVec (2 * M)) {c : Char}
    (h : c ∈ toCanonicalString d) : isSpaceC c = false := by
  rcases canonical_char d h with rfl | rfl | rfl | rfl <;> decide

theorem not_space_ne_newline {c : Char} (h : isSpaceC c = false) : c ≠ '\n' := by
  rintro rfl; revert h; decide

theorem fmt_ne_nil {R : Type} {io : NumIO R} (hio : NumIO.Faithful io) (x : R) : io.fmt x ≠ [] := by
  obtain ⟨c, hc, _⟩ := hio.floatLike x
  exact List.ne_nil_of_mem hc

theorem wfnLine_words {M : Nat} (hM : 0 < M) {R : Type} {io : NumIO R} (hio : NumIO.Faithful io)
    (c : R) (d : BitVec (2 * M)) : words (wfnLine io c d) = [io.fmt c, toCanonicalString d] := by
  have hs : isSpaceC ' ' = true := by decide
  rw [words_eq_pieces, wfnLine, padLeft, List.append_assoc, List.append_assoc,
    pieces_pad isSpaceC ' ' hs, List.cons_append,
    pieces_word isSpaceC _ (hio.oneWord c) (fmt_ne_nil hio c) ' ' hs,
    pieces_word isSpaceC _ (fun x hx => canonical_not_space d hx) _ ' ' hs, pieces_nil]
  intro h
  have : (toCanonicalString d).length = M := by simp [toCanonicalString]
  rw [h] at this; simp at this; omega

theorem wfnLine_no_newline {M : Nat} {R : Type} {io : NumIO R} (hio : NumIO.Faithful io)
    (c : R) (d : BitVec (2 * M)) : ∀ x ∈ wfnLine io c d, x ≠ '\n' := by
  intro x hx
  simp only [wfnLine, padLeft, List.mem_append, List.mem_cons, List.mem_replicate,
    List.not_mem_nil, or_false] at hx
  rcases hx with ((hx | hx) | hx | hx) | hx
  · rw [hx.2]; decide
  · exact not_space_ne_newline (hio.oneWord c x hx)
  · rw [hx]; decide
  · exact not_space_ne_newline (canonical_not_space d hx)
  · rw [hx]; decide

theorem showNat_not_space {n : Nat} {c : Char} (h : c ∈ showNat n) : isSpaceC c = false :=
  isDigit_not_space (showNat_digit h)

theorem wfnHeader_words (a b c d : Nat) :
    words (wfnHeader a b c d) = [showNat a, showNat b, showNat c, showNat d] := by
  have hs : isSpaceC ' ' = true := by decide
  rw [words_eq_pieces, wfnHeader, List.append_assoc, List.append_assoc, List.cons_append,
    pieces_word isSpaceC _ (fun x hx => showNat_not_space hx) (showNat_ne_nil _) ' ' hs,
    List.cons_append,
    pieces_word isSpaceC _ (fun x hx => showNat_not_space hx) (showNat_ne_nil _) ' ' hs,
    pieces_word isSpaceC _ (fun x hx => showNat_not_space hx) (showNat_ne_nil _) ' ' hs,
    pieces_last isSpaceC _ (fun x hx => showNat_not_space hx) (showNat_ne_nil _)]

theorem wfnHeader_no_newline (a b c d : Nat) : ∀ x ∈ wfnHeader a b c d, x ≠ '\n' := by
  intro x hx
  simp only [wfnHeader, List.mem_append, List.mem_cons] at hx
  rcases hx with ((hx | hx | hx) | hx | hx) | hx | hx <;>
  first
    | exact not_space_ne_newline (showNat_not_space hx)
    | (rw [hx]; decide)

theorem wfn_rows {M : Nat} (hM : 0 < M) {R : Type} {io : NumIO R} (hio : NumIO.Faithful io) :
    ∀ (states : List (BitVec (2 * M))) (coeffs : List R), states.length = coeffs.length →
      (List.zipWith (fun c d => wfnLine io c d) coeffs states).mapM (readWfnLine M io) =
        some (states.zip coeffs) := by
  intro states
  induction states with
  | nil => intro coeffs h; cases coeffs with
    | nil => rfl
    | cons => simp at h
  | cons s states ih =>
    intro coeffs h
    cases coeffs with
    | nil => simp at h
    | cons c coeffs =>
      rw [List.zipWith_cons_cons, List.mapM_cons, ih coeffs (by simpa using h)]
      have : readWfnLine M io (wfnLine io c s) = some (s, c) := by
        simp only [readWfnLine, wfnLine_words hM hio, List.getD_cons_succ, List.getD_cons_zero,
          C12_string_round_trip, hio.roundTrip]
      rw [this]; rfl

theorem count_le (N : Nat) (s : BitVec N) : count s ≤ N := by
  rw [count]; exact (List.countP_le_length).trans (by simp)

/-- the lines of a written file -/
theorem write_lines {M : Nat} {R : Type} {io : NumIO R} (hio : NumIO.Faithful io) (norb : Nat)
    (s0 : BitVec (2 * M)) (ss : List (BitVec (2 * M))) (coeffs : List R)
    (hlen : (s0 :: ss).length = coeffs.length) :
    ∃ file, writeWavefunction io norb (s0 :: ss) coeffs = .ok (some file) ∧
      fileLines file =
        wfnHeader (s0 :: ss).length norb (count (s0 <<< M)) (count (s0 >>> M)) ::
        List.zipWith (fun c d => wfnLine io c d) coeffs (s0 :: ss) := by
  refine ⟨_, by rw [writeWavefunction, if_neg (not_not.mpr hlen)], ?_⟩
  rw [fileLines_unlines]
  intro l hl
  rw [List.mem_cons] at hl
  rcases hl with rfl | hl
  · exact wfnHeader_no_newline _ _ _ _
  · rw [List.mem_iff_getElem] at hl
    obtain ⟨i, hi, rfl⟩ := hl
    rw [List.getElem_zipWith]
    exact wfnLine_no_newline hio _ _

/-- C34: writing a non-empty wavefunction and reading the file back gives the same determinants in the
same order with the same coefficients. -/
theorem C34_round_trip {M : Nat} (hM : 0 < M) (hM' : 2 * M < 2147483648) {R : Type} (io : NumIO R)
    (hio : NumIO.Faithful io) (norb : Nat) (hnorb : norb < 2147483648)
    (states : List (BitVec (2 * M))) (coeffs : List R) (hlen : states.length = coeffs.length)
    (hne : states ≠ []) (hns : states.length < 2147483648) :
    ∃ file, writeWavefunction io norb states coeffs = .ok (some file) ∧
      readWavefunction M io file = .ok (states, coeffs) := by
  obtain ⟨s0, ss, rfl⟩ := List.exists_cons_of_ne_nil hne
  obtain ⟨file, hw, hl⟩ := write_lines hio norb s0 ss coeffs hlen
  refine ⟨file, hw, ?_⟩
  have h1 := count_le _ (s0 <<< M)
  have h2 := count_le _ (s0 >>> M)
  simp only [readWavefunction, hl, List.headD_cons, wfnHeader_words, List.getD_cons_succ,
    List.getD_cons_zero, List.tail_cons, stoi_showNat hns, stoi_showNat hnorb,
    stoi_showNat (show count (s0 <<< M) < 2147483648 by omega),
    stoi_showNat (show count (s0 >>> M) < 2147483648 by omega),
    wfn_rows hM hio _ _ hlen]
  rw [if_neg (by omega), List.map_fst_zip (by omega), List.map_snd_zip (by omega)]

/-- C34: the header records the number of determinants, the orbital count and the alpha and beta
electron numbers of the first determinant; then there is one line per determinant, holding its
coefficient and its canonical string. -/
theorem C34_file_contents {M : Nat} (hM : 0 < M) {R : Type} (io : NumIO R)
    (hio : NumIO.Faithful io) (norb : Nat) (s0 : BitVec (2 * M)) (ss : List (BitVec (2 * M)))
    (coeffs : List R) (hlen : (s0 :: ss).length = coeffs.length) :
    ∃ file, writeWavefunction io norb (s0 :: ss) coeffs = .ok (some file) ∧
      (fileLines file).length = (s0 :: ss).length + 1 ∧
      words ((fileLines file).getD 0 []) =
        [showNat (s0 :: ss).length, showNat norb,
         showNat ((List.range M).countP fun i => s0.getLsbD i),
         showNat ((List.range M).countP fun i => s0.getLsbD (i + M))] ∧
      ∀ i (hi : i < (s0 :: ss).length),
        words ((fileLines file).getD (i + 1) []) =
          [io.fmt (coeffs[i]'(by omega)), toCanonicalString ((s0 :: ss)[i])] := by
  obtain ⟨file, hw, hl⟩ := write_lines hio norb s0 ss coeffs hlen
  refine ⟨file, hw, ?_, ?_, ?_⟩
  · rw [hl]; simp only [List.length_cons, List.length_zipWith] at *; omega
  · rw [hl, List.getD_cons_zero, wfnHeader_words]
    have hr : List.range (2 * M) = List.range M ++ (List.range M).map (M + ·) := by
      rw [two_mul, List.range_add]
    have ha : count (s0 <<< M) = (List.range M).countP fun i => s0.getLsbD i := by
      rw [count, hr, List.countP_append, List.countP_map]
      rw [List.countP_eq_zero.mpr, Nat.zero_add]
      · apply List.countP_congr
        intro i hi
        rw [List.mem_range] at hi
        simp [BitVec.getLsbD_shiftLeft, hi]; omega
      · intro i hi
        rw [List.mem_range] at hi
        simp [BitVec.getLsbD_shiftLeft, hi]
    have hb : count (s0 >>> M) = (List.range M).countP fun i => s0.getLsbD (i + M) := by
      rw [count, hr, List.countP_append, List.countP_map]
      rw [Nat.add_comm, List.countP_eq_zero.mpr, Nat.zero_add]
      · apply List.countP_congr
        intro i hi
        simp [BitVec.getLsbD_ushiftRight, Nat.add_comm]
      · intro i hi
        rw [List.mem_range] at hi
        simp only [Function.comp, BitVec.getLsbD_ushiftRight]
        rw [BitVec.getLsbD_of_ge _ _ (by omega)]; simp
    rw [ha, hb]
  · intro i hi
    have hlt : i < (List.zipWith (fun c d => wfnLine io c d) coeffs (s0 :: ss)).length := by
      simp only [List.length_cons, List.length_zipWith] at *; omega
    rw [hl, List.getD_cons_succ, List.getD_eq_getElem?_getD, List.getElem?_eq_getElem hlt,
      Option.getD_some, List.getElem_zipWith, wfnLine_words hM hio]

/-- C34: a determinant list and a coefficient list of different lengths are rejected; an empty
wavefunction leaves the file alone. -/
theorem C34_size_checks {M : Nat} {R : Type} (io : NumIO R) (norb : Nat)
    (states : List (BitVec (2 * M))) (coeffs : List R) :
    (writeWavefunction io norb states coeffs = .throw ↔ states.length ≠ coeffs.length) ∧
    (writeWavefunction io norb states coeffs = .ok none ↔ states = [] ∧ coeffs = []) := by
  unfold writeWavefunction
  split
  · rename_i h
    refine ⟨by simp [h], by simp; rintro rfl rfl; simp at h⟩
  · rename_i h
    rw [not_not] at h
    cases states with
    | nil =>
      have : coeffs = [] := by cases coeffs with
        | nil => rfl
        | cons => simp at h
      simp [this]
    | cons => simp [h]

/-- C34: whatever the file, a successful read returns as many coefficients as determinants, one pair
per line after the header. -/
theorem C34_read_lengths (M : Nat) {R : Type} (io : NumIO R) (file : List Char)
    (states : List (BitVec (2 * M))) (coeffs : List R)
    (h : readWavefunction M io file = .ok (states, coeffs)) :
    states.length = coeffs.length ∧ states.length = (fileLines file).length - 1 := by
  simp only [readWavefunction] at h
  split at h
  · split at h
    · cases h
    · split at h
      · rename_i rows hr
        simp only [Run.ok.injEq, Prod.mk.injEq] at h
        obtain ⟨rfl, rfl⟩ := h
        refine ⟨by simp, ?_⟩
        have : ∀ (ls : List (List Char)) rows, ls.mapM (readWfnLine M io) = some rows →
            rows.length = ls.length := by
          intro ls
          induction ls with
          | nil => intro rows hh; simp at hh; subst hh; rfl
          | cons l ls ih =>
            intro rows hh
            rw [List.mapM_cons] at hh
            cases h1 : readWfnLine M io l with
            | none => rw [h1] at hh; simp at hh
            | some r =>
              cases h2 : ls.mapM (readWfnLine M io) with
              | none => rw [h1, h2] at hh; simp at hh
              | some rs =>
                rw [h1, h2] at hh; simp at hh; subst hh
                simp [ih rs h2]
        rw [List.length_map, this _ _ hr, List.length_tail]
      · cases h
  · cases h

/-- A toy number format for the examples: the natural number `n` is printed as its digits and `e`. -/
def toyNum : NumIO Nat where
  fmt n := showNat n ++ ['e']
  parse s := if (s.takeWhile Char.isDigit).isEmpty then none
    else some (Nat.ofDigitChars 10 (s.takeWhile Char.isDigit) 0)

theorem toyNum_faithful : NumIO.Faithful toyNum where
  roundTrip n := by
    have e : (showNat n ++ ['e']).takeWhile Char.isDigit = showNat n := by
      rw [List.takeWhile_append_of_pos (fun x hx => showNat_digit hx)]
      rw [List.takeWhile_cons_of_neg (by decide)]; simp
    simp only [toyNum]
    rw [e]
    rw [if_neg]
    · exact congrArg some Nat.ofDigitChars_ten_toDigits
    · have := showNat_ne_nil n
      cases h : showNat n with
      | nil => exact absurd h this
      | cons => simp
  oneWord n c hc := by
    rw [toyNum, List.mem_append, List.mem_singleton] at hc
    rcases hc with hc | rfl
    · exact showNat_not_space hc
    · decide
  floatLike n := ⟨'e', by simp [toyNum], Or.inl (by decide)⟩

/-- The hypotheses of the round trip are met by a two-determinant wavefunction. -/
example : ∃ file, writeWavefunction (M := 2) toyNum 2 [0b0101#4, 0b0110#4] [7, 12] = .ok (some file) ∧
    readWavefunction 2 toyNum file = .ok ([0b0101#4, 0b0110#4], [7, 12]) :=
  C34_round_trip (by decide) (by decide) toyNum toyNum_faithful 2 (by decide) _ _ rfl (by simp)
    (by decide)

/-- C75 (refuted): a file that announces three determinants and holds one is read without complaint:
the reader ignores the counts of the header. -/
theorem C75_truncated_file_accepted_refuted :
    readWavefunction 2 toyNum ("3 2 1 1\n 7e 20 \n").toList = .ok ([0b0101#4], [7]) := by
  decide +kernel

/-- C75 (refuted): a determinant string longer than the bitset half puts the alpha electrons of the
extra orbitals into the beta half instead of being rejected. -/
theorem C75_long_string_accepted_refuted :
    readWavefunction 2 toyNum ("1 3 1 0\n 7e 00u \n").toList = .ok ([0b0100#4], [7]) := by
  decide +kernel

end Macis
