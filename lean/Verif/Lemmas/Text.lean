import Verif.Model.Text
import Verif.Spec.Text
import Mathlib.Data.List.Basic
import Mathlib.Data.List.TakeWhile

/-! Lemmas on the text primitives. -/
namespace Macis
open Spec

theorem isDigit_not_space {c : Char} (h : c.isDigit = true) : isSpaceC c = false := by
  rw [Char.isDigit, Bool.and_eq_true, decide_eq_true_eq, decide_eq_true_eq] at h
  rw [Bool.eq_false_iff]
  intro hs
  simp only [isSpaceC, Bool.or_eq_true, beq_iff_eq] at hs
  rcases hs with ((((hs | hs) | hs) | hs) | hs) | hs <;> subst hs <;> revert h <;> decide

theorem showNat_digit {n : Nat} {c : Char} (h : c ∈ showNat n) : c.isDigit = true :=
  Nat.isDigit_of_mem_toDigits (by decide) (by decide) h

theorem showNat_ne_nil (n : Nat) : showNat n ≠ [] := Nat.toDigits_ne_nil

theorem isDigit_not_float {c : Char} (h : c.isDigit = true) : c.isAlpha = false ∧ c ≠ '.' := by
  rw [Char.isDigit, Bool.and_eq_true, decide_eq_true_eq, decide_eq_true_eq] at h
  constructor
  · rw [Bool.eq_false_iff]
    intro ha
    simp only [Char.isAlpha, Char.isUpper, Char.isLower, Bool.or_eq_true, Bool.and_eq_true,
      decide_eq_true_eq] at ha
    obtain ⟨h1, h2⟩ := h
    have h1' := UInt32.le_iff_toNat_le.mp h1
    have h2' := UInt32.le_iff_toNat_le.mp h2
    rcases ha with ⟨a, b⟩ | ⟨a, b⟩ <;>
    · have a' := UInt32.le_iff_toNat_le.mp a
      have b' := UInt32.le_iff_toNat_le.mp b
      simp at a' b' h1' h2'
      omega
  · rintro rfl; revert h; decide

theorem stoi_showNat {n : Nat} (h : n < 2147483648) : stoi (showNat n) = some (n : Int) := by
  obtain ⟨c, cs, hc⟩ := List.exists_cons_of_ne_nil (showNat_ne_nil n)
  have hd : ∀ x ∈ showNat n, x.isDigit = true := fun x hx => showNat_digit hx
  have hcd : c.isDigit = true := hd c (by rw [hc]; simp)
  have hns : c ≠ '-' ∧ c ≠ '+' := by
    constructor <;> (rintro rfl; revert hcd; decide)
  have e1 : (showNat n).dropWhile isSpaceC = showNat n := by
    rw [hc, List.dropWhile_cons_of_neg (by rw [isDigit_not_space hcd]; simp)]
  have e2 : (showNat n).takeWhile Char.isDigit = showNat n := by
    rw [List.takeWhile_eq_self_iff]; exact hd
  have e3 : (showNat n).head? = some c := by rw [hc]; rfl
  have e4 : (showNat n).isEmpty = false := by rw [hc]; rfl
  simp only [stoi]
  rw [e1, e3]
  simp only [Option.some.injEq, hns.1, hns.2, decide_false, Bool.or_self, Bool.false_eq_true,
    if_false, e2, e4]
  have e5 : Nat.ofDigitChars 10 (showNat n) 0 = n := Nat.ofDigitChars_ten_toDigits
  rw [e5, if_pos (by omega)]; simp

/-- splitting a separator-free word off the front -/
theorem splitOnP_word_sep {p : Char → Bool} (w : List Char) (hw : ∀ c ∈ w, p c = false) (s : Char)
    (hs : p s = true) (rest : List Char) :
    (w ++ s :: rest).splitOnP p = w :: rest.splitOnP p :=
  List.splitOnP_append_cons_of_forall_mem hw s hs rest

/-- the non-empty pieces between separators -/
def pieces (p : Char → Bool) (l : List Char) : List (List Char) :=
  (l.splitOnP p).filter (fun t => !t.isEmpty)

theorem words_eq_pieces (l : List Char) : words l = pieces isSpaceC l := rfl

theorem pieces_nil (p : Char → Bool) : pieces p [] = [] := rfl

theorem pieces_sep (p : Char → Bool) (s : Char) (hs : p s = true) (rest : List Char) :
    pieces p (s :: rest) = pieces p rest := by
  have := List.splitOnP_append_cons_of_forall_mem (p := p) (xs := []) (by simp) s hs rest
  rw [List.nil_append] at this
  rw [pieces, this, List.filter_cons_of_neg (by simp)]; rfl

theorem pieces_pad (p : Char → Bool) (s : Char) (hs : p s = true) (n : Nat) (rest : List Char) :
    pieces p (List.replicate n s ++ rest) = pieces p rest := by
  induction n with
  | zero => rfl
  | succ n ih => rw [List.replicate_succ, List.cons_append, pieces_sep p s hs, ih]

theorem pieces_word (p : Char → Bool) (w : List Char) (hw : ∀ c ∈ w, p c = false) (hne : w ≠ [])
    (s : Char) (hs : p s = true) (rest : List Char) :
    pieces p (w ++ s :: rest) = w :: pieces p rest := by
  rw [pieces, splitOnP_word_sep w hw s hs rest, List.filter_cons_of_pos (by
    cases w with
    | nil => exact absurd rfl hne
    | cons => rfl)]
  rfl

theorem pieces_last (p : Char → Bool) (w : List Char) (hw : ∀ c ∈ w, p c = false) (hne : w ≠ []) :
    pieces p w = [w] := by
  rw [pieces, List.splitOnP_eq_singleton hw]
  cases w with
  | nil => exact absurd rfl hne
  | cons => rfl

theorem fileLines_nil : fileLines [] = [] := rfl

/-- a terminated first line -/
theorem fileLines_cons (l : List Char) (h : ∀ c ∈ l, c ≠ '\n') (rest : List Char) :
    fileLines (l ++ '\n' :: rest) = l :: fileLines rest := by
  have e : (l ++ '\n' :: rest).splitOn '\n' = l :: rest.splitOn '\n' := by
    rw [List.splitOn_eq_splitOnP, List.splitOn_eq_splitOnP]
    exact List.splitOnP_append_cons_of_forall_mem (by
      intro x hx; simp [h x hx]) '\n' (by simp) rest
  obtain ⟨a, as, ha⟩ := List.exists_cons_of_ne_nil (List.splitOn_ne_nil '\n' rest)
  simp only [fileLines]
  rw [e, ha, List.getLast?_cons_cons]
  split
  · rw [List.dropLast_cons_of_ne_nil (by simp)]
  · rfl

/-- a file whose lines are all terminated -/
theorem fileLines_unlines (ls : List (List Char)) (h : ∀ l ∈ ls, ∀ c ∈ l, c ≠ '\n') :
    fileLines (ls.flatMap (fun l => l ++ ['\n'])) = ls := by
  induction ls with
  | nil => rfl
  | cons l ls ih =>
    rw [List.flatMap_cons, List.append_assoc, List.singleton_append,
      fileLines_cons l (h l (by simp)), ih (fun m hm => h m (by simp [hm]))]

end Macis
