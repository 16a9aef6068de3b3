import Verif.Props.DecimalGen
import Verif.Props.Fcidump
import Verif.Spec.Numeral
/-! Property C177: the notations in which numbers are read from text files. -/
namespace Macis
open Spec

theorem takeWhile_stop {p : Char → Bool} (a b : List Char) (ha : ∀ c ∈ a, p c = true) (hb : ∀ c ∈ b.head?, p c = false) :
    (a ++ b).takeWhile p = a ∧ (a ++ b).dropWhile p = b := by
  induction a with
  | nil =>
    cases b with
    | nil => simp
    | cons c t => have := hb c (by simp); simp [this]
  | cons x t ih =>
    have hx := ha x (by simp)
    obtain ⟨i1, i2⟩ := ih (fun c hc => ha c (by simp [hc]))
    exact ⟨by rw [List.cons_append, List.takeWhile_cons, if_pos hx, i1],
      by rw [List.cons_append, List.dropWhile_cons, if_pos hx, i2]⟩

theorem digit_ne {c d : Char} (hc : c.isDigit = true) (hd : d.isDigit = false) : c ≠ d := by
  rintro rfl; rw [hc] at hd; cases hd

theorem splitSign_text (s : Option Bool) (t : List Char) (ht : ∀ c ∈ t.head?, c ≠ '-' ∧ c ≠ '+') :
    splitSign (signText s ++ t) = (decide (s = some true), t) := by
  cases s with
  | none =>
    cases t with
    | nil => rfl
    | cons c t =>
      obtain ⟨h1, h2⟩ := ht c (by simp)
      show splitSign (c :: t) = _
      unfold splitSign
      split
      · rename_i h; simp only [List.cons.injEq] at h; exact absurd h.1 h1
      · rename_i h; simp only [List.cons.injEq] at h; exact absurd h.1 h2
      · simp
  | some b => cases b <;> rfl

/-- reading a signed mantissa followed by anything that does not prolong it -/
theorem strtod_mantissa (s : Option Bool) {w ip fp : List Char} (hw : Mantissa w ip fp) (rest : List Char)
    (hrest : ∀ c ∈ rest.head?, c.isDigit = false ∧ c ≠ '.') :
    strtodExact (signText s ++ w ++ rest) = some (decide (s = some true),
      (Nat.ofDigitChars 10 (ip ++ fp) 0 : Nat) * (10 : ℚ) ^ (readExp rest - fp.length)) := by
  -- the first character of the mantissa is a digit or the point
  have hne : w ≠ [] := by
    rcases hw.text with e | ⟨e1, e2⟩
    · rw [e]; simp
    · rw [e2]; have := hw.some; rw [e1] at this; simpa using this
  have hhead : ∀ c ∈ (w ++ rest).head?, c.isDigit = true ∨ c = '.' := by
    intro c hc
    rcases hw.text with e | ⟨e1, e2⟩
    · rw [e] at hc
      cases hip : ip with
      | nil => rw [hip] at hc; simp at hc; exact .inr hc.symm
      | cons d t =>
        rw [hip] at hc; simp at hc
        exact .inl (hw.int c (by rw [hip, hc]; simp))
    · rw [e2] at hc hne
      cases hip : ip with
      | nil => exact absurd hip hne
      | cons d t =>
        rw [hip] at hc; simp at hc
        exact .inl (hw.int c (by rw [hip, hc]; simp))
  have hsp : (signText s ++ w ++ rest).dropWhile isSpaceC = signText s ++ (w ++ rest) := by
    rw [List.append_assoc]
    have h0 : ∀ c ∈ (signText s ++ (w ++ rest)).head?, isSpaceC c = false := by
      intro c hc
      cases s with
      | none =>
        rcases hhead c hc with h | h
        · exact isDigit_not_space h
        · subst h; decide
      | some b => cases b <;> (simp [signText] at hc; subst hc; decide)
    exact (takeWhile_stop [] _ (by simp) h0).2
  have hsign : splitSign (signText s ++ (w ++ rest)) = (decide (s = some true), w ++ rest) := by
    apply splitSign_text
    intro c hc
    rcases hhead c hc with h | h
    · exact ⟨digit_ne h (by decide), digit_ne h (by decide)⟩
    · subst h; decide
  unfold strtodExact
  dsimp only
  rw [hsp, hsign]
  dsimp only
  rcases hw.text with e | ⟨e1, e2⟩
  · obtain ⟨t1, t2⟩ := takeWhile_stop ip ('.' :: fp ++ rest) hw.int (by intro c hc; simp at hc; subst hc; decide)
    obtain ⟨u1, u2⟩ := takeWhile_stop fp rest hw.frac (fun c hc => (hrest c hc).1)
    have hfr : readFrac ('.' :: fp ++ rest) = (fp, rest) := by
      show ((fp ++ rest).takeWhile Char.isDigit, (fp ++ rest).dropWhile Char.isDigit) = _
      rw [u1, u2]
    have ew : w ++ rest = ip ++ ('.' :: fp ++ rest) := by rw [e]; simp
    rw [ew, t1, t2, hfr]
    dsimp only
    rw [if_neg (by simpa using hw.some)]
  · subst e1
    obtain ⟨t1, t2⟩ := takeWhile_stop ip rest hw.int (fun c hc => (hrest c hc).1)
    have hfr : readFrac rest = ([], rest) := by
      cases rest with
      | nil => rfl
      | cons c t =>
        have := (hrest c (by simp)).2
        unfold readFrac
        split
        · rename_i h; simp only [List.cons.injEq] at h; exact absurd h.1 this
        · rfl
    rw [e2, t1, t2, hfr]
    dsimp only
    rw [if_neg (by simpa using hw.some)]

theorem mantissa_scale (ip fp : List Char) (k : ℤ) :
    (Nat.ofDigitChars 10 (ip ++ fp) 0 : Nat) * (10 : ℚ) ^ (k - fp.length) = mantissaValue ip fp * 10 ^ k := by
  rw [mantissaValue, zpow_sub₀ (by norm_num), zpow_natCast]
  ring

theorem readExp_exponent (u : Option Bool) {ed : List Char} {c : Char} (hc : c = 'e' ∨ c = 'E')
    (hed : ∀ c ∈ ed, c.isDigit = true) : readExp (c :: (signText u ++ ed)) = exponentValue u ed := by
  have h1 := splitSign_text u ed (fun c hc => by
    have := hed c (List.mem_of_mem_head? hc)
    exact ⟨digit_ne this (by decide), digit_ne this (by decide)⟩)
  have h2 := (takeWhile_stop ed [] hed (by simp)).1
  rw [List.append_nil] at h2
  unfold readExp exponentValue
  dsimp only
  rw [if_pos hc, h1, h2]
  simp

section main
variable {near : ℚ → ℤ} {toDouble : Bool → ℚ → Option {x : Dbl // x.Normal}}

/-- C177: a number in plain notation, with or without sign, point, integer or fractional digits, is read as the double
its value is converted to, in FCIDUMP and wavefunction files (`doubleIO`) and in Matrix Market files (`mmDoubleIO`). -/
theorem C177_plain (p : Nat) (s : Option Bool) {w ip fp : List Char} (hw : Mantissa w ip fp) :
    (doubleIO near p toDouble).parse (signText s ++ w) = toDouble (decide (s = some true)) (mantissaValue ip fp) ∧
    (mmDoubleIO near toDouble).parse (signText s ++ w) = toDouble (decide (s = some true)) (mantissaValue ip fp) := by
  have h := strtod_mantissa s hw [] (by simp)
  rw [List.append_nil, show readExp [] = 0 from rfl, mantissa_scale, zpow_zero, mul_one] at h
  constructor
  · show (strtodExact _).bind _ = _
    rw [h]; rfl
  · show (strtodExact _).bind _ = _
    rw [h]; rfl

/-- C177: so is a number with an exponent, marked by `e` or `E`, with or without sign, of any number of digits. -/
theorem C177_exponent (p : Nat) (s u : Option Bool) {w ip fp ed : List Char} (hw : Mantissa w ip fp) (c : Char)
    (hc : c = 'e' ∨ c = 'E') (hed : ∀ c ∈ ed, c.isDigit = true) :
    (doubleIO near p toDouble).parse (signText s ++ w ++ c :: (signText u ++ ed)) =
      toDouble (decide (s = some true)) (mantissaValue ip fp * 10 ^ exponentValue u ed) ∧
    (mmDoubleIO near toDouble).parse (signText s ++ w ++ c :: (signText u ++ ed)) =
      toDouble (decide (s = some true)) (mantissaValue ip fp * 10 ^ exponentValue u ed) := by
  have he := readExp_exponent u hc hed
  have h := strtod_mantissa s hw (c :: (signText u ++ ed)) (by
    intro d hd; simp at hd; subst hd; rcases hc with rfl | rfl <;> decide)
  rw [he, mantissa_scale] at h
  constructor
  · show (strtodExact _).bind _ = _
    rw [h]; rfl
  · show (strtodExact _).bind _ = _
    rw [h]; rfl

theorem readExp_stops {rest : List Char} (h : Stops rest) : readExp rest = 0 := by
  cases rest with
  | nil => rfl
  | cons c t =>
    have := (h c (by simp)).2
    simp at this
    unfold readExp
    dsimp only
    rw [if_neg (by tauto)]

/-- C177 (refuted): the readers do not check that a word is a number to its end. Whatever follows the number - the `D` of
a Fortran exponent and the exponent itself, an exponent without a letter, a unit, a second number after a comma - is
ignored, and the number before it is taken. -/
theorem C177_rest_ignored_refuted (p : Nat) (s : Option Bool) {w ip fp : List Char} (hw : Mantissa w ip fp)
    (rest : List Char) (hrest : Stops rest) :
    (doubleIO near p toDouble).parse (signText s ++ w ++ rest) = (doubleIO near p toDouble).parse (signText s ++ w) ∧
    (mmDoubleIO near toDouble).parse (signText s ++ w ++ rest) = (mmDoubleIO near toDouble).parse (signText s ++ w) := by
  have h := strtod_mantissa s hw rest (fun c hc => by
    have := hrest c hc; exact ⟨this.1, by have := this.2; simp at this; tauto⟩)
  rw [readExp_stops hrest, mantissa_scale, zpow_zero, mul_one] at h
  obtain ⟨h1, h2⟩ := C177_plain (near := near) (toDouble := toDouble) p s hw
  rw [h1, h2]
  constructor
  · show (strtodExact _).bind _ = _
    rw [h]; rfl
  · show (strtodExact _).bind _ = _
    rw [h]; rfl

theorem isAlpha_D : Char.isAlpha 'D' = true := by decide

/-- C177 (refuted): an FCIDUMP line whose integral has a Fortran double-precision exponent (`0.5D+01`) is accepted, and the
exponent is lost: the integral stored is the mantissa, whatever the exponent. -/
theorem C177_fortran_line_refuted (prec : Nat) (s : Option Bool) {w ip fp : List Char} (hw : Mantissa w ip fp)
    (ex : List Char) (hex : ∀ c ∈ ex, c.isDigit = true ∨ c = '+' ∨ c = '-') (p q r t : Nat) (hp : p < 2147483648)
    (hq : q < 2147483648) (hr : r < 2147483648) (ht : t < 2147483648) (v : {x : Dbl // x.Normal})
    (hv : toDouble (decide (s = some true)) (mantissaValue ip fp) = some v) :
    fcidumpRow (doubleIO near prec toDouble) (signText s ++ w ++ 'D' :: ex ++ " ".toList ++ showNat p ++ " ".toList ++
      showNat q ++ " ".toList ++ showNat r ++ " ".toList ++ showNat t) = some (some ⟨p, q, r, t, v⟩) := by
  refine C36_line _ _ p q r t v ⟨signText s ++ w ++ 'D' :: ex, [], " ".toList, " ".toList, " ".toList, " ".toList, [],
    ?_, ?_, by simp, ⟨'D', by simp, .inl isAlpha_D⟩, by simp [Blank0], ?_, ?_, ?_, ?_, by simp [Blank0], .inr (by simp)⟩ hp hq hr ht
  · rw [(C177_rest_ignored_refuted prec s hw _ (by intro c hc; simp at hc; subst hc; decide)).1, (C177_plain prec s hw).1, hv]
  · intro c hc e
    subst e
    have hd : ∀ l : List Char, (∀ c ∈ l, c.isDigit = true) → ' ' ∉ l := by
      intro l hl h; exact absurd (hl _ h) (by decide)
    simp only [List.mem_append, List.mem_cons] at hc
    rcases hc with (h | h) | h | h
    · cases s with
      | none => cases h
      | some b => cases b <;> (simp [signText] at h)
    · rcases hw.text with e | ⟨-, e⟩
      · rw [e] at h
        simp only [List.mem_append, List.mem_cons] at h
        rcases h with h | h | h
        · exact hd _ hw.int h
        · cases h
        · exact hd _ hw.frac h
      · rw [e] at h; exact hd _ hw.int h
    · cases h
    · rcases hex _ h with h | h | h
      · exact absurd h (by decide)
      · cases h
      · cases h
  all_goals exact ⟨by decide, by decide⟩

end main

/-! The hypotheses, on the numerals `-.5`, `3.`, `1.25E+02`; and what a Fortran exponent does to the core energy. -/
example : Mantissa ".5".toList [] "5".toList ∧ mantissaValue [] "5".toList = 1 / 2 :=
  ⟨⟨by simp, by decide, by decide, .inl rfl⟩, by decide +kernel⟩
example : Mantissa "3.".toList "3".toList [] := ⟨by decide, by simp, by decide, .inl rfl⟩
example : Mantissa "3".toList "3".toList [] := ⟨by decide, by simp, by decide, .inr ⟨rfl, rfl⟩⟩
example : strtodExact "1.25E+02".toList = some (false, 125) := by decide +kernel
example : strtodExact "-.5".toList = some (true, 1 / 2) := by decide +kernel
example : strtodExact "0.5D+01".toList = some (false, 1 / 2) ∧ strtodExact "0.5E+01".toList = some (false, 5) := by
  decide +kernel
example : strtodExact "0.5-100".toList = some (false, 1 / 2) := by decide +kernel
example : Stops "D+01".toList ∧ Stops "-100".toList := ⟨by intro c hc; simp at hc; subst hc; decide, by
  intro c hc; simp at hc; subst hc; decide⟩

end Macis
