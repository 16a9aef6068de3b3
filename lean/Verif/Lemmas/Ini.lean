import Verif.Model.Ini
import Verif.Spec.Ini
import Mathlib.Data.List.Basic
/-! The line reader on well-formed lines. -/
namespace Macis.Ini
open Spec.Ini (Line Read Tight spaces noteText up)

theorem isSpace_iff (c : Char) : isSpace c = true ↔ Spec.Ini.Space c := by
  simp [isSpace, Spec.Ini.Space, or_assoc]

theorem findIdx_hit {p : Char → Bool} {a b : Str} {c : Char} (ha : ∀ x ∈ a, p x = false) (hc : p c = true) :
    findIdx p (a ++ c :: b) = some a.length := by
  induction a with
  | nil => simp [findIdx, List.findIdx?_cons, hc]
  | cons x a ih =>
    have := ih fun y hy => ha y (List.mem_cons_of_mem _ hy)
    simp only [findIdx, List.cons_append, List.findIdx?_cons, ha x (List.mem_cons_self ..),
      List.length_cons] at this ⊢
    rw [this]; rfl

theorem findIdx_miss {p : Char → Bool} {a : Str} (ha : ∀ x ∈ a, p x = false) : findIdx p a = none := by
  rw [findIdx, List.findIdx?_eq_none_iff]
  exact fun x hx => by rw [ha x hx]

theorem mem_spaces {n : Nat} {c : Char} (h : c ∈ spaces n) : c = ' ' := List.eq_of_mem_replicate h

theorem trimRight_spaces (a : Str) (n : Nat) : trimRight (a ++ spaces n) = trimRight a := by
  induction n with
  | zero => simp [spaces]
  | succ n ih =>
    rw [← ih, spaces, List.replicate_succ', ← List.append_assoc]
    simp only [trimRight, spaces, List.reverse_append, List.reverse_cons, List.reverse_nil, List.nil_append,
      List.cons_append, List.dropWhile_cons]
    rfl

theorem trimRight_tight {a : Str} (h : ∀ c, a.getLast? = some c → ¬ Spec.Ini.Space c) : trimRight a = a := by
  unfold trimRight
  cases hr : a.reverse with
  | nil => simp only [List.reverse_eq_nil_iff] at hr; subst hr; rfl
  | cons c t =>
    have hl : a.getLast? = some c := by
      rw [← List.reverse_reverse a, hr]; simp
    have : isSpace c = false := by
      have := h c hl
      rw [← isSpace_iff] at this
      simpa using this
    rw [List.dropWhile_cons, this]
    simp only [Bool.false_eq_true, if_false]
    rw [← hr, List.reverse_reverse]

theorem trimLeft_spaces (a : Str) (n : Nat) : trimLeft (spaces n ++ a) = trimLeft a := by
  induction n with
  | zero => simp [spaces]
  | succ n ih =>
    rw [← ih, spaces, List.replicate_succ]
    simp only [trimLeft, List.cons_append, List.dropWhile_cons, spaces]
    rfl

theorem trimLeft_tight {a : Str} (h : ∀ c, a.head? = some c → ¬ Spec.Ini.Space c) : trimLeft a = a := by
  unfold trimLeft
  cases a with
  | nil => rfl
  | cons c t =>
    have : isSpace c = false := by
      have := h c rfl
      rw [← isSpace_iff] at this
      simpa using this
    rw [List.dropWhile_cons, this]; simp

theorem getLast?_tail {a b : Str} (hb : b ≠ []) : (a ++ b).getLast? = b.getLast? := by
  rw [List.getLast?_append]
  cases h : b.getLast? with
  | none => rw [List.getLast?_eq_none_iff] at h; exact absurd h hb
  | some c => rfl

theorem trim_pad {a : Str} (h : Tight a) (m n : Nat) : trim (spaces m ++ (a ++ spaces n)) = a := by
  unfold trim
  rw [← List.append_assoc, trimRight_spaces,
    trimRight_tight (by rw [getLast?_tail h.1]; exact h.2.2), trimLeft_spaces, trimLeft_tight h.2.1]

/-! ### splitting -/

theorem split_run {delim : Char → Bool} {a : Str} (ha : ∀ x ∈ a, delim x = false) (hne : a ≠ []) :
    split delim a = [a] := by
  induction a with
  | nil => exact absurd rfl hne
  | cons c s ih =>
    have hc := ha c (List.mem_cons_self ..)
    cases s with
    | nil => simp [split, hc]
    | cons d t =>
      have hd := ha d (List.mem_cons_of_mem _ (List.mem_cons_self ..))
      have := ih (fun x hx => ha x (List.mem_cons_of_mem _ hx)) (by simp)
      rw [split]
      simp only [hc, hd, Bool.false_eq_true, if_false, this]

theorem split_run_cons {delim : Char → Bool} {a b : Str} {c : Char} (ha : ∀ x ∈ a, delim x = false)
    (hne : a ≠ []) (hc : delim c = true) : split delim (a ++ c :: b) = a :: split delim b := by
  induction a with
  | nil => exact absurd rfl hne
  | cons x s ih =>
    have hx := ha x (List.mem_cons_self ..)
    cases s with
    | nil =>
      rw [List.cons_append, List.nil_append, split]
      simp only [hx, hc, Bool.false_eq_true, if_false, if_true]
      rw [split.eq_def delim (c :: b)]
      simp only [hc, if_true]
    | cons d t =>
      have hd := ha d (List.mem_cons_of_mem _ (List.mem_cons_self ..))
      have := ih (fun x hx => ha x (List.mem_cons_of_mem _ hx)) (by simp)
      simp only [List.cons_append] at this ⊢
      rw [split]
      simp only [hx, hd, Bool.false_eq_true, if_false, this]

/-! ### lines -/

theorem lines_cons {l s : Str} (h : '\n' ∉ l) : lines (l ++ '\n' :: s) = l :: lines s := by
  induction l with
  | nil => simp [lines]
  | cons c l ih =>
    have hc : c ≠ '\n' := fun e => h (by simp [e])
    rw [List.cons_append, lines, if_neg hc, ih fun e => h (List.mem_cons_of_mem _ e)]

end Macis.Ini
