import Verif.Spec.Decimal
import Verif.Spec.Text
import Verif.Lemmas.Text
import Verif.Props.WfnIO
import Verif.Props.Fcidump
import Mathlib.Algebra.Order.Field.Power
import Mathlib.Tactic.Positivity
import Mathlib.Tactic.Linarith
import Mathlib.Tactic.FieldSimp
/-! Property C175: doubles in text files, down to the digits. -/
namespace Macis
open Spec

section digits

theorem ofDigitChars_zeros (n : Nat) (s : List Char) :
    Nat.ofDigitChars 10 (List.replicate n '0' ++ s) 0 = Nat.ofDigitChars 10 s 0 := by
  induction n with
  | zero => rfl
  | succ n ih => rw [List.replicate_succ, List.cons_append, Nat.ofDigitChars_cons]; exact ih

theorem ofDigitChars_padZero (w n : Nat) : Nat.ofDigitChars 10 (padZero w (showNat n)) 0 = n := by
  rw [padZero, ofDigitChars_zeros]
  exact Nat.ofDigitChars_ten_toDigits

theorem padZero_digit {w n : Nat} {c : Char} (h : c ∈ padZero w (showNat n)) : c.isDigit = true := by
  rcases List.mem_append.1 h with h | h
  · rw [List.eq_of_mem_replicate h]; decide
  · exact showNat_digit h

theorem padZero_length {w n : Nat} (h : n < 10 ^ w) (hw : 0 < w) : (padZero w (showNat n)).length = w := by
  have : (showNat n).length ≤ w := by
    unfold showNat
    rw [Nat.length_toDigits_le_iff (by decide) hw]
    exact h
  rw [padZero, List.length_append, List.length_replicate]
  omega

end digits

section value
variable {near : ℚ → ℤ}

/-- the number that the digits and the exponent stand for -/
def sciValue (p : Nat) (d : Nat × Int) : ℚ := d.1 * (10 : ℚ) ^ (d.2 - p)

theorem sciParts_spec (hn : RoundsNearest near) (p : Nat) {v : ℚ} (hv : 0 < v) :
    (sciParts near p v).1 < 10 ^ (p + 1) ∧
    |sciValue p (sciParts near p v) - v| ≤ 10 ^ (Int.log 10 v - p) / 2 := by
  have h1 : (10 : ℚ) ^ Int.log 10 v ≤ v := by exact_mod_cast Int.zpow_log_le_self (b := 10) (by decide) hv
  have h2 : v < (10 : ℚ) ^ (Int.log 10 v + 1) := by exact_mod_cast Int.lt_zpow_succ_log_self (b := 10) (by decide) v
  unfold sciParts sciValue
  rw [if_neg hv.ne']
  generalize Int.log 10 v = k at *
  have hs : (0 : ℚ) < 10 ^ (k - p) := by positivity
  have hw1 : (10 : ℚ) ^ p ≤ v / 10 ^ (k - p) := by
    rw [le_div_iff₀ hs, ← zpow_natCast, ← zpow_add₀ (by norm_num)]
    simpa using h1
  have hw2 : v / 10 ^ (k - p) < (10 : ℚ) ^ (p + 1) := by
    rw [div_lt_iff₀ hs, ← zpow_natCast, ← zpow_add₀ (by norm_num)]
    have : ((p + 1 : Nat) : Int) + (k - p) = k + 1 := by push_cast; ring
    rw [this]; exact h2
  have ha := abs_le.1 (hn (v / 10 ^ (k - p)))
  have hlow : (10 : ℤ) ^ p ≤ near (v / 10 ^ (k - p)) := by
    have : ((10 ^ p : ℤ) : ℚ) - 1 < near (v / 10 ^ (k - p)) := by push_cast; linarith
    have : (10 ^ p : ℤ) - 1 < near (v / 10 ^ (k - p)) := by exact_mod_cast this
    omega
  have hup : near (v / 10 ^ (k - p)) ≤ (10 : ℤ) ^ (p + 1) := by
    have : ((near (v / 10 ^ (k - p))) : ℚ) < ((10 ^ (p + 1) : ℤ) : ℚ) + 1 := by push_cast; linarith
    have : near (v / 10 ^ (k - p)) < (10 ^ (p + 1) : ℤ) + 1 := by exact_mod_cast this
    omega
  have hpos : (0 : ℤ) ≤ near (v / 10 ^ (k - p)) := le_trans (by positivity) hlow
  obtain ⟨D, hD⟩ := Int.eq_ofNat_of_zero_le hpos
  have hDn : (near (v / 10 ^ (k - p))).toNat = D := by rw [hD]; rfl
  have herr : |(D : ℚ) * 10 ^ (k - p) - v| ≤ 10 ^ (k - p) / 2 := by
    have := hn (v / 10 ^ (k - p))
    rw [hD] at this
    have e : (D : ℚ) * 10 ^ (k - p) - v = ((((D : ℤ)) : ℚ) - v / 10 ^ (k - p)) * 10 ^ (k - p) := by
      field_simp
      push_cast
      ring
    rw [e, abs_mul, abs_of_pos hs]
    calc _ ≤ 1 / 2 * (10 : ℚ) ^ (k - p) := mul_le_mul_of_nonneg_right this hs.le
      _ = _ := by ring
  dsimp only
  rw [hDn]
  have hDle : D ≤ 10 ^ (p + 1) := by rw [hD] at hup; exact_mod_cast hup
  split_ifs with hc
  · refine ⟨Nat.pow_lt_pow_right (by decide) (by omega), ?_⟩
    have e : ((10 ^ p : Nat) : ℚ) * 10 ^ (k + 1 - (p : Int)) = (D : ℚ) * 10 ^ (k - p) := by
      rw [hc]
      push_cast
      rw [show k + 1 - (p : Int) = k - p + 1 by ring, zpow_add_one₀ (by norm_num)]
      ring
    dsimp only
    rw [e]; exact herr
  · exact ⟨by omega, herr⟩

end value

section gap

theorem Dbl.mag_nonneg (x : Dbl) : 0 ≤ x.mag := by unfold Dbl.mag; positivity

/-- Two different doubles of one sign are further apart than one unit of the seventeenth digit of the first. -/
theorem Dbl.gap {x y : Dbl} (hs : y.neg = x.neg) (hne : y ≠ x) {s : ℚ} (h : s * 10 ^ 16 ≤ x.mag) (hx : 0 < x.mag) :
    s < |y.mag - x.mag| := by
  obtain ⟨xn, m, e, m1, m2, m3, m4⟩ := x
  obtain ⟨yn, n, f, n1, n2, n3, n4⟩ := y
  dsimp only [Dbl.mag] at *
  subst hs
  have hE : (0 : ℚ) < 2 ^ e := by positivity
  have hF : (0 : ℚ) < 2 ^ f := by positivity
  have hm : (m : ℚ) ≤ 2 ^ 53 - 1 := by
    have : m + 1 ≤ 2 ^ 53 := m1
    have : ((m + 1 : Nat) : ℚ) ≤ ((2 ^ 53 : Nat) : ℚ) := by exact_mod_cast this
    push_cast at this; linarith
  have hn : (n : ℚ) ≤ 2 ^ 53 - 1 := by
    have : n + 1 ≤ 2 ^ 53 := n1
    have : ((n + 1 : Nat) : ℚ) ≤ ((2 ^ 53 : Nat) : ℚ) := by exact_mod_cast this
    push_cast at this; linarith
  have hmp : (0 : ℚ) ≤ m := by positivity
  have hnp : (0 : ℚ) ≤ n := by positivity
  rcases lt_trichotomy f e with hfe | hfe | hfe
  · -- the other one has a smaller exponent
    have hm4 : (2 : ℚ) ^ 52 ≤ m := by
      have : 2 ^ 52 ≤ m := by
        rcases m4 with h | h
        · exact h
        · omega
      exact_mod_cast this
    have h2 : 2 * (2 : ℚ) ^ f ≤ 2 ^ e := by
      rw [← zpow_one_add₀ (by norm_num)]
      exact zpow_le_zpow_right₀ (by norm_num) (by omega)
    have h3 : (n : ℚ) * 2 ^ f ≤ (2 ^ 53 - 1) * (2 ^ e / 2) :=
      mul_le_mul hn (by linarith) hF.le (by norm_num)
    rw [abs_sub_comm]
    refine lt_of_lt_of_le ?_ (le_abs_self _)
    have h4 : s ≤ m * 2 ^ e / 10 ^ 16 := by rw [le_div_iff₀ (by norm_num)]; exact h
    refine lt_of_le_of_lt h4 ?_
    have h5 : m * 2 ^ e / 10 ^ 16 < (m : ℚ) * 2 ^ e - (2 ^ 53 - 1) * (2 ^ e / 2) := by
      have : (m : ℚ) / 10 ^ 16 < m - (2 ^ 53 - 1) / 2 := by
        rw [div_lt_iff₀ (by norm_num)]
        have h52 : (2 : ℚ) ^ 52 = 4503599627370496 := by norm_num
        rw [h52] at hm4
        norm_num
        linarith
      have := mul_lt_mul_of_pos_right this hE
      calc _ = (m : ℚ) / 10 ^ 16 * 2 ^ e := by ring
        _ < _ := this
        _ = _ := by ring
    linarith
  · subst hfe
    have hmn : n ≠ m := by rintro rfl; exact hne rfl
    have h1 : (1 : ℚ) ≤ |(n : ℚ) - m| := by
      have : (1 : ℤ) ≤ |(n : ℤ) - m| := Int.one_le_abs (by omega)
      exact_mod_cast this
    have e1 : (n : ℚ) * 2 ^ f - m * 2 ^ f = ((n : ℚ) - m) * 2 ^ f := by ring
    rw [e1, abs_mul, abs_of_pos hF]
    have h4 : s ≤ m * 2 ^ f / 10 ^ 16 := by rw [le_div_iff₀ (by norm_num)]; exact h
    have h5 : (m : ℚ) / 10 ^ 16 < 1 := by
      rw [div_lt_one (by norm_num)]
      norm_num at hm ⊢
      linarith
    calc s ≤ (m : ℚ) / 10 ^ 16 * 2 ^ f := by linarith [h4, show (m : ℚ) / 10 ^ 16 * 2 ^ f = m * 2 ^ f / 10 ^ 16 by ring]
      _ < 1 * 2 ^ f := mul_lt_mul_of_pos_right h5 hF
      _ ≤ _ := mul_le_mul_of_nonneg_right h1 hF.le
  · -- the other one has a larger exponent
    have hn4 : (2 : ℚ) ^ 52 ≤ n := by
      have : 2 ^ 52 ≤ n := by
        rcases n4 with h | h
        · exact h
        · omega
      exact_mod_cast this
    have h2 : 2 * (2 : ℚ) ^ e ≤ 2 ^ f := by
      rw [← zpow_one_add₀ (by norm_num)]
      exact zpow_le_zpow_right₀ (by norm_num) (by omega)
    have h3 : (2 ^ 52 : ℚ) * (2 * 2 ^ e) ≤ n * 2 ^ f := mul_le_mul hn4 h2 (by positivity) hnp
    have h6 : (m : ℚ) * 2 ^ e ≤ (2 ^ 53 - 1) * 2 ^ e := mul_le_mul_of_nonneg_right hm hE.le
    refine lt_of_lt_of_le ?_ (le_abs_self _)
    have h4 : s ≤ m * 2 ^ e / 10 ^ 16 := by rw [le_div_iff₀ (by norm_num)]; exact h
    have h5 : (m : ℚ) / 10 ^ 16 < 1 := by
      rw [div_lt_one (by norm_num)]
      norm_num at hm ⊢
      linarith
    have h7 := mul_lt_mul_of_pos_right h5 hE
    have e7 : (m : ℚ) / 10 ^ 16 * 2 ^ e = m * 2 ^ e / 10 ^ 16 := by ring
    rw [e7, one_mul] at h7
    norm_num at h3 h6
    linarith

theorem Dbl.mag_lt (x : Dbl) : x.mag ≤ (2 ^ 53 - 1) * 2 ^ (971 : Int) := by
  obtain ⟨xn, m, e, m1, m2, m3, m4⟩ := x
  dsimp only [Dbl.mag]
  have hm : (m : ℚ) ≤ 2 ^ 53 - 1 := by
    have : m + 1 ≤ 2 ^ 53 := m1
    have : ((m + 1 : Nat) : ℚ) ≤ ((2 ^ 53 : Nat) : ℚ) := by exact_mod_cast this
    push_cast at this; linarith
  exact mul_le_mul hm (zpow_le_zpow_right₀ (by norm_num) m3) (by positivity) (by norm_num)

theorem Dbl.closest_of_near {x : Dbl} (hx : 0 < x.mag) {s q : ℚ} (h : s * 10 ^ 16 ≤ x.mag) (hq : |q - x.mag| ≤ s / 2) :
    Closest x q := by
  intro y hy hne
  have hg := Dbl.gap hy hne h hx
  have h1 := abs_sub_abs_le_abs_sub (y.mag - x.mag) (y.mag - q)
  rw [show y.mag - x.mag - (y.mag - q) = q - x.mag by ring] at h1
  rw [abs_sub_comm x.mag]
  linarith

theorem Dbl.closest_self (x : Dbl) (hx : x.mag = 0) : Closest x 0 := by
  intro y hy hne
  rw [hx, sub_zero, abs_zero, sub_zero, abs_pos]
  intro h0
  apply hne
  obtain ⟨xn, m, e, m1, m2, m3, m4⟩ := x
  obtain ⟨yn, n, f, n1, n2, n3, n4⟩ := y
  dsimp only [Dbl.mag] at *
  have hm : m = 0 := by
    rcases mul_eq_zero.1 hx with h | h
    · exact_mod_cast h
    · exact absurd h (by positivity)
  have hn : n = 0 := by
    rcases mul_eq_zero.1 h0 with h | h
    · exact_mod_cast h
    · exact absurd h (by positivity)
  subst hm hn hy
  have : e = -1074 := by omega
  have : f = -1074 := by omega
  subst e f
  rfl

end gap

section text

theorem takeWhile_digits {l : List Char} (h : ∀ c ∈ l, c.isDigit = true) {c : Char} (hc : c.isDigit = false)
    (t : List Char) : (l ++ c :: t).takeWhile Char.isDigit = l ∧ (l ++ c :: t).dropWhile Char.isDigit = c :: t := by
  constructor
  · rw [List.takeWhile_append_of_pos h, List.takeWhile_cons_of_neg (by rw [hc]; decide), List.append_nil]
  · rw [List.dropWhile_append_of_pos h, List.dropWhile_cons_of_neg (by rw [hc]; decide)]

theorem splitSign_digit {c : Char} (h : c.isDigit = true) (t : List Char) : splitSign (c :: t) = (false, c :: t) := by
  unfold splitSign
  split
  · rename_i h'; cases h'; exact absurd h (by decide)
  · rename_i h'; cases h'; exact absurd h (by decide)
  · rfl

/-- reading the text of a number gives its sign and the value of its digits -/
theorem strtodExact_sci (neg : Bool) (p D : Nat) (k : Int) (hD : D < 10 ^ (p + 1)) :
    strtodExact ((if neg then ['-'] else []) ++ ((padZero (p + 1) (showNat D)).take 1 ++ '.' ::
        (padZero (p + 1) (showNat D)).drop 1) ++ 'e' :: (if k < 0 then '-' else '+') :: padZero 2 (showNat k.natAbs))
      = some (neg, sciValue p (D, k)) := by
  have hl := padZero_length (n := D) (w := p + 1) hD (by omega)
  have hdig : ∀ c ∈ padZero (p + 1) (showNat D), c.isDigit = true := fun c hc => padZero_digit hc
  have hval := ofDigitChars_padZero (p + 1) D
  generalize padZero (p + 1) (showNat D) = ds at *
  have hed : ∀ c ∈ padZero 2 (showNat k.natAbs), c.isDigit = true := fun c hc => padZero_digit hc
  have hev := ofDigitChars_padZero 2 k.natAbs
  generalize padZero 2 (showNat k.natAbs) = ed at *
  obtain ⟨d0, rest, rfl⟩ : ∃ d0 rest, ds = d0 :: rest := by
    cases ds with
    | nil => simp at hl
    | cons a l => exact ⟨a, l, rfl⟩
  have hd0 : d0.isDigit = true := hdig d0 (by simp)
  have hrest : ∀ c ∈ rest, c.isDigit = true := fun c hc => hdig c (by simp [hc])
  have hrl : rest.length = p := by simpa using hl
  have hstart : splitSign (((if neg then ['-'] else []) ++ ((d0 :: rest).take 1 ++ '.' :: (d0 :: rest).drop 1) ++
      'e' :: (if k < 0 then '-' else '+') :: ed).dropWhile isSpaceC)
      = (neg, [d0] ++ '.' :: (rest ++ 'e' :: (if k < 0 then '-' else '+') :: ed)) := by
    cases neg with
    | true =>
      simp only [if_true, List.take_succ_cons, List.take_zero, List.drop_succ_cons, List.drop_zero,
        List.cons_append, List.nil_append]
      rw [List.dropWhile_cons_of_neg (by decide)]
      rfl
    | false =>
      simp only [Bool.false_eq_true, if_false, List.take_succ_cons, List.take_zero, List.drop_succ_cons,
        List.drop_zero, List.cons_append, List.nil_append]
      rw [List.dropWhile_cons_of_neg (by rw [isDigit_not_space hd0]; decide), splitSign_digit hd0]
  have hsgn : splitSign ((if k < 0 then '-' else '+') :: ed) = (decide (k < 0), ed) := by
    by_cases hk : k < 0
    · rw [if_pos hk, decide_eq_true hk]; rfl
    · rw [if_neg hk, decide_eq_false hk]; rfl
  obtain ⟨a1, a2⟩ := takeWhile_digits (l := [d0]) (by simpa using hd0) (c := '.') (by decide)
    (rest ++ 'e' :: (if k < 0 then '-' else '+') :: ed)
  obtain ⟨b1, b2⟩ := takeWhile_digits (l := rest) hrest (c := 'e') (by decide) ((if k < 0 then '-' else '+') :: ed)
  have hc : ed.takeWhile Char.isDigit = ed := List.takeWhile_eq_self_iff.2 hed
  have hfr : readFrac ('.' :: (rest ++ 'e' :: (if k < 0 then '-' else '+') :: ed))
      = (rest, 'e' :: (if k < 0 then '-' else '+') :: ed) := by
    rw [readFrac, b1, b2]
  have hex : readExp ('e' :: (if k < 0 then '-' else '+') :: ed) = k := by
    rw [readExp, hsgn]
    simp only [true_or, if_true, hc, hev]
    by_cases hk : k < 0
    · rw [if_pos (by simpa using hk)]; omega
    · rw [if_neg (by simpa using hk)]; omega
  unfold strtodExact
  rw [hstart]
  simp only [a1, a2, hfr, hex]
  rw [if_neg (by simp), List.singleton_append, hval, hrl]
  rfl

end text

section main
variable {near : ℚ → ℤ} {toDouble : Bool → ℚ → Option {x : Dbl // x.Normal}}

/-- the digits of a double stand for a number closer to it than to any other double -/
theorem sci_closest (hn : RoundsNearest near) {p : Nat} (hp : 16 ≤ p) (x : Dbl) :
    (sciParts near p x.mag).1 < 10 ^ (p + 1) ∧ 0 ≤ sciValue p (sciParts near p x.mag) ∧
    sciValue p (sciParts near p x.mag) < 2 ^ 1024 - 2 ^ 970 ∧ Closest x (sciValue p (sciParts near p x.mag)) := by
  refine ⟨?_, by unfold sciValue; positivity, ?_⟩
  · rcases (Dbl.mag_nonneg x).eq_or_lt with h0 | hpos
    · have e : sciParts near p x.mag = (0, 0) := by unfold sciParts; rw [if_pos h0.symm]
      rw [e]; positivity
    · exact (sciParts_spec hn p hpos).1
  rcases (Dbl.mag_nonneg x).eq_or_lt with h0 | hpos
  · have hT : (0 : ℚ) < 2 ^ 1024 - 2 ^ 970 :=
      sub_pos.2 (pow_lt_pow_right₀ (by norm_num) (by norm_num))
    have e : sciParts near p x.mag = (0, 0) := by unfold sciParts; rw [if_pos h0.symm]
    have e0 : sciValue p (0, 0) = 0 := by simp [sciValue]
    rw [e, e0]
    exact ⟨hT, Dbl.closest_self x h0.symm⟩
  · obtain ⟨h1, h2⟩ := sciParts_spec hn p hpos
    have hk : (10 : ℚ) ^ (Int.log 10 x.mag - p) * 10 ^ 16 ≤ x.mag := by
      refine le_trans ?_ (show (10 : ℚ) ^ Int.log 10 x.mag ≤ x.mag by
        exact_mod_cast Int.zpow_log_le_self (b := 10) (by decide) hpos)
      rw [← zpow_natCast, ← zpow_add₀ (by norm_num)]
      exact zpow_le_zpow_right₀ (by norm_num) (by push_cast; omega)
    refine ⟨?_, Dbl.closest_of_near hpos hk h2⟩
    have hm := Dbl.mag_lt x
    have := (abs_le.1 h2).2
    have e : (2 : ℚ) ^ (971 : Int) = 2 * 2 ^ 970 := by
      rw [show (971 : Int) = ((970 + 1 : Nat) : Int) by norm_num, zpow_natCast, pow_succ, mul_comm]
    have e' : (2 : ℚ) ^ 1024 = 2 ^ 54 * 2 ^ 970 := by rw [← pow_add]
    have hT : (0 : ℚ) < 2 ^ 970 := pow_pos (by norm_num) _
    rw [e] at hm
    rw [e']
    generalize (2 : ℚ) ^ 970 = T at *
    generalize (10 : ℚ) ^ (Int.log 10 x.mag - p) = s at *
    norm_num at hm hk ⊢
    linarith

/-- what the text says: the double itself, to within half a unit of its last printed digit, closer to it than to any
other double -/
theorem printed_value (hn : RoundsNearest near) {p : Nat} (hp : 16 ≤ p) (x : Dbl) :
    ∃ q, strtodExact (fmtSci near p x) = some (x.neg, q) ∧ 0 ≤ q ∧ q < 2 ^ 1024 - 2 ^ 970 ∧ Closest x q := by
  obtain ⟨h1, h2, h3, h4⟩ := sci_closest hn hp x
  refine ⟨_, ?_, h2, h3, h4⟩
  unfold fmtSci
  exact strtodExact_sci _ _ _ _ h1

theorem fmtSci_word (near : ℚ → ℤ) (x : Dbl) : ∀ c ∈ fmtSci near 16 x, isSpaceC c = false := by
  intro c hc
  unfold fmtSci at hc
  simp only [List.mem_append, List.mem_cons] at hc
  rcases hc with (hc | (hc | rfl | hc)) | rfl | rfl | hc
  · split_ifs at hc
    · simp only [List.mem_singleton] at hc; subst hc; decide
    · simp at hc
  · exact isDigit_not_space (padZero_digit (List.mem_of_mem_take hc))
  · decide
  · exact isDigit_not_space (padZero_digit (List.mem_of_mem_drop hc))
  · decide
  · split_ifs <;> decide
  · exact isDigit_not_space (padZero_digit hc)

theorem fmtSci_float (near : ℚ → ℤ) (x : Dbl) : ∃ c ∈ fmtSci near 16 x, c.isAlpha = true ∨ c = '.' := by
  refine ⟨'e', ?_, .inl (by decide)⟩
  unfold fmtSci
  simp

/-- C175: a zero or normal double written with sixteen (or more) digits after the point and read back is the same
double, sign of zero included. -/
theorem C175_round_trip (hn : RoundsNearest near) (hr : StodSpec toDouble) (x : {x : Dbl // x.Normal}) :
    (doubleIO near 16 toDouble).parse ((doubleIO near 16 toDouble).fmt x) = some x := by
  obtain ⟨q, h1, h2, h3, h4⟩ := printed_value hn (le_refl 16) x.1
  show (strtodExact (fmtSci near 16 x.1)).bind _ = _
  rw [h1]
  exact hr.closest x q h2 h3 h4

/-- C175: a subnormal double is written, but reading it back throws. -/
theorem C175_subnormal (hn : RoundsNearest near) (hr : StodSpec toDouble) (x : Dbl) (hx : ¬ x.Normal) :
    (doubleIO near 16 toDouble).parse (fmtSci near 16 x) = none := by
  obtain ⟨q, h1, h2, -, h4⟩ := printed_value hn (le_refl 16) x
  show (strtodExact (fmtSci near 16 x)).bind _ = _
  rw [h1]
  exact hr.subnormal x q hx h2 h4

/-- C175: so the number format that the round trips of FCIDUMP and wavefunction files assume is the one the code uses. -/
theorem C175_faithful (hn : RoundsNearest near) (hr : StodSpec toDouble) :
    NumIO.Faithful (doubleIO near 16 toDouble) :=
  ⟨C175_round_trip hn hr, fun x => fmtSci_word near x.1, fun x => fmtSci_float near x.1⟩
open Classical in
/-- The writer is the same for all finite doubles; the reading half of this record is only used to say what the text
of each number means. -/
noncomputable def anyDoubleIO (near : ℚ → ℤ) : NumIO Dbl where
  fmt := fmtSci near 16
  parse s :=
    (strtodExact s).bind fun v => if h : ∃ x : Dbl, x.neg = v.1 ∧ Closest x v.2 then some h.choose else none

theorem Closest.unique {x y : Dbl} {q : ℚ} (hx : Closest x q) (hy : Closest y q) (h : y.neg = x.neg) : y = x := by
  by_contra hne
  have h1 := hx y h hne
  have h2 := hy x h.symm (Ne.symm hne)
  linarith

open Classical in
theorem anyDoubleIO_faithful (hn : RoundsNearest near) : NumIO.Faithful (anyDoubleIO near) := by
  refine ⟨?_, fmtSci_word near, fmtSci_float near⟩
  intro x
  obtain ⟨q, h1, -, -, h4⟩ := printed_value hn (le_refl 16) x
  show (strtodExact (fmtSci near 16 x)).bind _ = _
  rw [h1]
  have hex : ∃ y : Dbl, y.neg = x.neg ∧ Closest y q := ⟨x, rfl, h4⟩
  show (if h : ∃ y : Dbl, y.neg = x.neg ∧ Closest y q then some h.choose else none) = some x
  rw [dif_pos hex]
  obtain ⟨e1, e2⟩ := hex.choose_spec
  rw [Closest.unique h4 e2 e1]

theorem mapM_none {α β : Type} {f : α → Option β} {l : List α} {a : α} (ha : a ∈ l) (hf : f a = none) :
    l.mapM f = none := by
  induction l with
  | nil => cases ha
  | cons x l ih =>
    rw [List.mapM_cons]
    rcases List.mem_cons.1 ha with rfl | ha
    · rw [hf]; rfl
    · rw [ih ha]
      cases f x <;> rfl

/-- C175: wavefunction files with any doubles as coefficients: they are always written; read back, they give exactly the
states and coefficients written if every coefficient is zero or normal, and throw if one is subnormal. -/
theorem C175_wavefunction_file (hn : RoundsNearest near) (hr : StodSpec toDouble) {M : Nat} (hM : 0 < M)
    (hM' : 2 * M < 2147483648) (norb : Nat) (hnorb : norb < 2147483648)
    (states : List (BitVec (2 * M))) (coeffs : List Dbl) (hlen : states.length = coeffs.length)
    (hne : states ≠ []) (hns : states.length < 2147483648) :
    ∃ file, writeWavefunction (anyDoubleIO near) norb states coeffs = .ok (some file) ∧
      ((∀ c ∈ coeffs, c.Normal) → ∃ cs, readWavefunction M (doubleIO near 16 toDouble) file = .ok (states, cs) ∧
        cs.map (·.1) = coeffs) ∧
      ((∃ c ∈ coeffs, ¬ c.Normal) → readWavefunction M (doubleIO near 16 toDouble) file = .throw) := by
  obtain ⟨s0, ss, rfl⟩ := List.exists_cons_of_ne_nil hne
  obtain ⟨file, hw, hl, h0, hi⟩ := C34_file_contents hM (anyDoubleIO near) (anyDoubleIO_faithful hn) norb s0 ss coeffs hlen
  refine ⟨file, hw, ?_, ?_⟩
  · intro hall
    obtain ⟨cs, rfl⟩ : ∃ cs : List {x : Dbl // x.Normal}, cs.map (·.1) = coeffs :=
      ⟨coeffs.attach.map fun c => ⟨c.1, hall c.1 c.2⟩, by simp⟩
    obtain ⟨file', hw', hrd⟩ := C34_round_trip hM hM' (doubleIO near 16 toDouble) (C175_faithful hn hr) norb hnorb
      (s0 :: ss) cs (by simpa using hlen) (by simp) hns
    have e : writeWavefunction (doubleIO near 16 toDouble) norb (s0 :: ss) cs
        = writeWavefunction (anyDoubleIO near) norb (s0 :: ss) (cs.map (·.1)) := by
      unfold writeWavefunction
      rw [List.length_map, List.zipWith_map_left]
      rfl
    rw [e, hw] at hw'
    cases hw'
    exact ⟨_, hrd, rfl⟩
  · rintro ⟨c, hc, hcn⟩
    obtain ⟨i, hil, rfl⟩ := List.getElem_of_mem hc
    unfold readWavefunction
    dsimp only
    have hbad : (fileLines file).tail.mapM (readWfnLine M (doubleIO near 16 toDouble)) = none := by
      have hl' : i + 1 < (fileLines file).length := by omega
      refine mapM_none (a := (fileLines file)[i + 1]) ?_ ?_
      · rw [← List.getElem_tail (h := by rw [List.length_tail]; omega)]
        exact List.getElem_mem _
      · have := hi i (by omega)
        rw [List.getD_eq_getElem _ _ hl'] at this
        unfold readWfnLine
        rw [this]
        simp only [List.getD_cons_zero]
        have hp : (doubleIO near 16 toDouble).parse ((anyDoubleIO near).fmt coeffs[i]) = none :=
          C175_subnormal hn hr _ hcn
        rw [hp]
        split
        · rename_i h; cases h
        · rfl
    rw [hbad]
    split
    · split_ifs <;> rfl
    · rfl

instance : Zero {x : Dbl // x.Normal} := ⟨⟨⟨false, 0, -1074, by norm_num⟩, .inl rfl⟩⟩

/-- C175: FCIDUMP files with zero or normal doubles read back bit for bit (C35 with the digits of the code's format). -/
theorem C175_fcidump_file (hn : RoundsNearest near) (hr : StodSpec toDouble) (norb : Nat) (hnorb : norb < 2147483647)
    (T V : Nat → {x : Dbl // x.Normal}) (ldt ldv : Nat) (ecore : {x : Dbl // x.Normal})
    (hT : Sym2 norb ldt T) (hV : Sym8 norb ldv V) :
    let io := doubleIO near 16 toDouble
    ∃ file, writeFcidump io norb T ldt V ldv ecore ⟨false, []⟩ = .ok ⟨true, file⟩ ∧
      readFcidumpNorb io file = .ok norb ∧ readFcidumpCore io file = .ok ecore ∧
      (∀ (T0 : Nat → {x : Dbl // x.Normal}) (ld : Nat), norb ≤ ld → ∃ T', readFcidump1body io file ld T0 = .ok T' ∧
        ∀ p q, p < norb → q < norb → T' (p + q * ld) = T (p + q * ldt)) ∧
      (∀ (V0 : Nat → {x : Dbl // x.Normal}) (ld : Nat), norb ≤ ld → ∃ V', readFcidump2body io file ld V0 = .ok V' ∧
        ∀ p q r s, p < norb → q < norb → r < norb → s < norb →
          V' (addr4 ld p q r s) = V (addr4 ldv p q r s)) :=
  C35_round_trip _ (C175_faithful hn hr) norb hnorb T V ldt ldv ecore hT hV

end main

section sharp

/-- 1000 and the next double -/
def exThousand (i : Fin 2) : Dbl := ⟨false, 8796093022208000 + i, -43, by
  have := i.2
  refine ⟨by norm_num; omega, by norm_num, by norm_num, .inl (by norm_num; omega)⟩⟩

theorem log_thousand {v : ℚ} (h1 : 1000 ≤ v) (h2 : v < 10000) : Int.log 10 v = 3 := by
  have hv : 0 < v := by linarith
  apply le_antisymm
  · have : Int.log 10 v < 4 := by
      rw [← Int.lt_zpow_iff_log_lt (b := 10) (by decide) hv]
      norm_num; linarith
    omega
  · rw [← Int.zpow_le_iff_le_log (b := 10) (by decide) hv]
    norm_num; linarith

/-- C175: the sixteen digits after the point are needed: with fifteen, two different doubles have the same text. -/
theorem C175_fifteen_digits_collide {near : ℚ → ℤ} (hn : RoundsNearest near) :
    fmtSci near 15 (exThousand 0) = fmtSci near 15 (exThousand 1) ∧ exThousand 0 ≠ exThousand 1 := by
  refine ⟨?_, by decide⟩
  have key : ∀ i, sciParts near 15 (exThousand i).mag = (10 ^ 15, 3) := by
    intro i
    have hi : ((i : Nat) : ℚ) ≤ 1 := by
      have : (i : Nat) ≤ 1 := by omega
      exact_mod_cast this
    have hi0 : (0 : ℚ) ≤ (i : Nat) := by positivity
    have hmag : (exThousand i).mag = 1000 + (i : Nat) * (1 / 2 ^ 43) := by
      unfold Dbl.mag exThousand
      rw [show (2 : ℚ) ^ (-43 : Int) = 1 / 2 ^ 43 by norm_num [zpow_neg]]
      push_cast
      norm_num
      ring
    generalize ((i : Nat) : ℚ) = t at hi hi0 hmag
    generalize (exThousand i).mag = v at hmag ⊢
    have h1 : (1000 : ℚ) ≤ v := by rw [hmag]; norm_num; linarith
    have h2 : v < 10000 := by rw [hmag]; norm_num; linarith
    unfold sciParts
    rw [if_neg (by linarith), log_thousand h1 h2]
    have hw : v / (10 : ℚ) ^ ((3 : Int) - ((15 : Nat) : Int)) = 10 ^ 15 + t * (10 ^ 12 / 2 ^ 43) := by
      rw [hmag, show ((3 : Int) - ((15 : Nat) : Int)) = -12 by norm_num]
      norm_num [zpow_neg]
      ring
    have := abs_le.1 (hn (v / (10 : ℚ) ^ ((3 : Int) - ((15 : Nat) : Int))))
    dsimp only
    rw [hw] at this ⊢
    generalize near _ = z at this ⊢
    have hz : z = 10 ^ 15 := by
      have a : (z : ℚ) < ((10 ^ 15 : ℤ) : ℚ) + 1 := by push_cast; norm_num at this ⊢; linarith
      have b : ((10 ^ 15 : ℤ) : ℚ) - 1 < z := by push_cast; norm_num at this ⊢; linarith
      have a : z < 10 ^ 15 + 1 := by exact_mod_cast a
      have b : (10 ^ 15 : ℤ) - 1 < z := by exact_mod_cast b
      omega
    subst hz
    decide
  unfold fmtSci
  rw [key, key]
  rfl

end sharp

/-! Both assumptions on the library can be met. -/
example : RoundsNearest (fun q : ℚ => round q) := fun q => by rw [abs_sub_comm]; exact abs_sub_round q

open Classical in
example : ∃ toDouble, StodSpec toDouble := by
  refine ⟨fun neg q => if h : ∃ x : {x : Dbl // x.Normal}, x.1.neg = neg ∧ Closest x.1 q then some h.choose else none,
    ?_, ?_⟩
  · intro x q _ _ hc
    have hex : ∃ y : {x : Dbl // x.Normal}, y.1.neg = x.1.neg ∧ Closest y.1 q := ⟨x, rfl, hc⟩
    rw [dif_pos hex]
    obtain ⟨e1, e2⟩ := hex.choose_spec
    rw [Subtype.ext (Closest.unique hc e2 e1)]
  · intro x q hx _ hc
    rw [dif_neg]
    rintro ⟨y, e1, e2⟩
    have := Closest.unique hc e2 e1
    rw [← this] at hx
    exact hx y.2

/-- a third, to sixteen digits -/
example : fmtSci (fun q => round q) 16 ⟨true, 6004799503160661, -54, by norm_num⟩
    = "-3.3333333333333331e-01".toList := by decide +kernel
/-- the least positive double is written but cannot be read -/
example : ¬ (⟨false, 1, -1074, by norm_num⟩ : Dbl).Normal := by unfold Dbl.Normal; norm_num

end Macis
