import Verif.Model.Fcidump
import Verif.Spec.Fcidump
import Verif.Lemmas.Text
import Mathlib.Tactic.Ring
import Mathlib.Data.List.Induction
import Mathlib.Tactic.Linarith

/-! Lemmas on the FCIDUMP model. -/
namespace Macis
open Spec

/-! ### stores -/

theorem storeAll_append {R : Type} (m : Nat → R) (a b : List (Nat × R)) :
    storeAll m (a ++ b) = storeAll (storeAll m a) b := by
  simp [storeAll, List.foldl_append]

theorem storeAll_none {R : Type} (ws : List (Nat × R)) : ∀ (m : Nat → R) (a : Nat),
    (∀ w ∈ ws, w.1 ≠ a) → storeAll m ws a = m a := by
  induction ws with
  | nil => intro m a _; rfl
  | cons w ws ih =>
    intro m a h
    rw [storeAll, List.foldl_cons]
    have := ih (memSet m w.1 w.2) a (fun x hx => h x (by simp [hx]))
    rw [storeAll] at this
    rw [this, memSet, if_neg (fun e => h w (by simp) e.symm)]

theorem storeAll_const {R : Type} (ws : List (Nat × R)) (v : R) : ∀ (m : Nat → R) (a : Nat),
    (∀ w ∈ ws, w.1 = a → w.2 = v) → (∃ w ∈ ws, w.1 = a) → storeAll m ws a = v := by
  induction ws with
  | nil => intro m a _ h; obtain ⟨w, hw, _⟩ := h; simp at hw
  | cons w ws ih =>
    intro m a h hex
    rw [storeAll, List.foldl_cons, ← storeAll]
    by_cases hx : ∃ x ∈ ws, x.1 = a
    · exact ih _ a (fun x hx => h x (by simp [hx])) hx
    · push Not at hx
      rw [storeAll_none ws _ a hx]
      obtain ⟨x, hx1, hx2⟩ := hex
      rw [List.mem_cons] at hx1
      rcases hx1 with rfl | hx1
      · rw [memSet, if_pos hx2.symm]; exact h x (by simp) hx2
      · exact absurd hx2 (hx x hx1)

theorem lastSuch_append {α : Type} (P : α → Bool) (l : List α) (a : α) :
    lastSuch P (l ++ [a]) = if P a then some a else lastSuch P l := by
  rw [lastSuch, List.reverse_append, List.reverse_singleton, List.singleton_append,
    List.find?_cons]
  cases P a <;> simp [lastSuch]

theorem lastSuch_congr {α : Type} {P Q : α → Bool} {l : List α} (h : ∀ a ∈ l, P a = Q a) :
    lastSuch P l = lastSuch Q l := by
  induction l using List.reverseRecOn with
  | nil => rfl
  | append_singleton l a ih =>
    rw [lastSuch_append, lastSuch_append, ih (fun b hb => h b (by simp [hb])), h a (by simp)]

theorem lastSuch_none {α : Type} {P : α → Bool} {l : List α} (h : ∀ a ∈ l, P a = false) :
    lastSuch P l = none := by
  rw [lastSuch, List.find?_eq_none]
  intro a ha
  rw [List.mem_reverse] at ha
  simp [h a ha]

/-- stores grouped by entry, every entry storing a single value: the last entry that touches the
address wins -/
theorem storeAll_groups {R α : Type} (f : α → List (Nat × R)) (val : α → R)
    (hf : ∀ e, ∀ w ∈ f e, w.2 = val e) (m : Nat → R) (es : List α) (a : Nat) :
    storeAll m (es.flatMap f) a =
      ((lastSuch (fun e => (f e).any (fun w => w.1 == a)) es).map val).getD (m a) := by
  induction es using List.reverseRecOn with
  | nil => rfl
  | append_singleton es e ih =>
    rw [List.flatMap_append, storeAll_append, lastSuch_append]
    have : [e].flatMap f = f e := by simp
    rw [this]
    by_cases h : (f e).any (fun w => w.1 == a) = true
    · rw [if_pos h]
      rw [List.any_eq_true] at h
      obtain ⟨w, hw, hwa⟩ := h
      rw [storeAll_const (f e) (val e) _ a (fun w hw _ => hf e w hw) ⟨w, hw, by simpa using hwa⟩]
      rfl
    · rw [if_neg h, ← ih]
      apply storeAll_none
      intro w hw hwa
      exact h (List.any_eq_true.mpr ⟨w, hw, by simpa using hwa⟩)

/-! ### addresses -/

theorem addr2_inj {n ld p q p' q' : Nat} (hn : n ≤ ld) (hp : p < n) (hp' : p' < n)
    (h : p + q * ld = p' + q' * ld) : p = p' ∧ q = q' := by
  have hp1 : p < ld := by omega
  have hp2 : p' < ld := by omega
  have h1 : (p + q * ld) % ld = p := by rw [Nat.add_mul_mod_self_right, Nat.mod_eq_of_lt hp1]
  have h2 : (p' + q' * ld) % ld = p' := by rw [Nat.add_mul_mod_self_right, Nat.mod_eq_of_lt hp2]
  have : p = p' := by rw [← h1, ← h2, h]
  subst this
  refine ⟨rfl, ?_⟩
  have := Nat.add_left_cancel h
  exact Nat.eq_of_mul_eq_mul_right (by omega) this

theorem addr4_eq (ld i j k l : Nat) : addr4 ld i j k l = i + (j + (k + l * ld) * ld) * ld := by
  rw [addr4]; ring

theorem addr4_inj {n ld i j k l i' j' k' l' : Nat} (hn : n ≤ ld) (hi : i < n) (hj : j < n)
    (hk : k < n) (hi' : i' < n) (hj' : j' < n) (hk' : k' < n)
    (h : addr4 ld i j k l = addr4 ld i' j' k' l') : i = i' ∧ j = j' ∧ k = k' ∧ l = l' := by
  rw [addr4_eq, addr4_eq] at h
  obtain ⟨h1, h⟩ := addr2_inj hn hi hi' h
  obtain ⟨h2, h⟩ := addr2_inj hn hj hj' h
  obtain ⟨h3, h⟩ := addr2_inj hn hk hk' h
  exact ⟨h1, h2, h3, h⟩

/-! ### lines -/

theorem splitTokens_eq_pieces (l : List Char) : splitTokens l = pieces (· == ' ') l := rfl

theorem pieces_blank0 (b rest : List Char) (hb : Blank0 b) :
    pieces (· == ' ') (b ++ rest) = pieces (· == ' ') rest := by
  induction b with
  | nil => rfl
  | cons c b ih =>
    have : c = ' ' := hb c (by simp)
    subst this
    rw [List.cons_append, pieces_sep _ ' ' (by simp), ih (fun c hc => hb c (by simp [hc]))]

theorem pieces_word_blank (w b rest : List Char) (hw : ∀ c ∈ w, c ≠ ' ') (hne : w ≠ [])
    (hb : Blank b) : pieces (· == ' ') (w ++ (b ++ rest)) = w :: pieces (· == ' ') rest := by
  obtain ⟨hb1, hb2⟩ := hb
  cases b with
  | nil => exact absurd rfl hb1
  | cons c b =>
    have : c = ' ' := hb2 c (by simp)
    subst this
    rw [List.cons_append, pieces_word _ w (by simpa using hw) hne ' ' (by simp)]
    rw [pieces_blank0 b rest (fun c hc => hb2 c (by simp [hc]))]

theorem pieces_word_blank0 (w b : List Char) (hw : ∀ c ∈ w, c ≠ ' ') (hne : w ≠ [])
    (hb : Blank0 b) : pieces (· == ' ') (w ++ b) = [w] := by
  cases b with
  | nil => rw [List.append_nil]; exact pieces_last _ w (by simpa using hw) hne
  | cons c b =>
    have := pieces_word_blank w (c :: b) [] hw hne ⟨by simp, hb⟩
    rw [List.append_nil] at this
    rw [this]; rfl

theorem five_tokens (w0 w1 w2 w3 w4 b0 b1 b2 b3 b4 b5 : List Char)
    (h0 : ∀ c ∈ w0, c ≠ ' ') (n0 : w0 ≠ []) (h1 : ∀ c ∈ w1, c ≠ ' ') (n1 : w1 ≠ [])
    (h2 : ∀ c ∈ w2, c ≠ ' ') (n2 : w2 ≠ []) (h3 : ∀ c ∈ w3, c ≠ ' ') (n3 : w3 ≠ [])
    (h4 : ∀ c ∈ w4, c ≠ ' ') (n4 : w4 ≠ [])
    (k0 : Blank0 b0) (k1 : Blank b1) (k2 : Blank b2) (k3 : Blank b3) (k4 : Blank b4)
    (k5 : Blank0 b5) :
    splitTokens (b0 ++ w0 ++ b1 ++ w1 ++ b2 ++ w2 ++ b3 ++ w3 ++ b4 ++ w4 ++ b5) =
      [w0, w1, w2, w3, w4] := by
  simp only [List.append_assoc]
  rw [splitTokens_eq_pieces, pieces_blank0 b0 _ k0, pieces_word_blank w0 b1 _ h0 n0 k1,
    pieces_word_blank w1 b2 _ h1 n1 k2, pieces_word_blank w2 b3 _ h2 n2 k3,
    pieces_word_blank w3 b4 _ h3 n3 k4, pieces_word_blank0 w4 b5 h4 n4 k5]

theorem showNat_ne_blank {n : Nat} : ∀ c ∈ showNat n, c ≠ ' ' := by
  intro c hc h
  have := showNat_digit hc
  subst h; revert this; decide

theorem isFloat_showNat (n : Nat) : isFloat (showNat n) = false := by
  rw [isFloat, List.any_eq_false]
  intro c hc
  obtain ⟨h1, h2⟩ := isDigit_not_float (showNat_digit hc)
  simp [h1, h2]

theorem isFloat_of {x : List Char} (h : ∃ c ∈ x, c.isAlpha = true ∨ c = '.') : isFloat x = true := by
  rw [isFloat, List.any_eq_true]
  obtain ⟨c, hc, h⟩ := h
  exact ⟨c, hc, by rcases h with h | h <;> simp [h]⟩

theorem fcidumpRow_shows {R : Type} {io : NumIO R} {l : List Char} {p q r s : Nat} {v : R}
    (h : Shows io l p q r s v) (hp : p < 2147483648) (hq : q < 2147483648) (hr : r < 2147483648)
    (hs : s < 2147483648) : fcidumpRow io l = some (some ⟨p, q, r, s, v⟩) := by
  obtain ⟨x, b0, b1, b2, b3, b4, b5, hv, hx, hx0, hxf, k0, k1, k2, k3, k4, k5, hl | hl⟩ := h
  · rw [fcidumpRow, hl, five_tokens _ _ _ _ _ _ _ _ _ _ _ showNat_ne_blank (showNat_ne_nil _)
      showNat_ne_blank (showNat_ne_nil _) showNat_ne_blank (showNat_ne_nil _) showNat_ne_blank
      (showNat_ne_nil _) hx hx0 k0 k1 k2 k3 k4 k5]
    simp only [fcidumpLine, isFloat_of hxf, isFloat_showNat, Bool.and_false, Bool.false_eq_true,
      if_false, if_true, stoi_showNat hp, stoi_showNat hq, stoi_showNat hr, stoi_showNat hs, hv]
    rw [if_neg (by omega)]; simp
  · rw [fcidumpRow, hl, five_tokens _ _ _ _ _ _ _ _ _ _ _ hx hx0 showNat_ne_blank (showNat_ne_nil _)
      showNat_ne_blank (showNat_ne_nil _) showNat_ne_blank (showNat_ne_nil _) showNat_ne_blank
      (showNat_ne_nil _) k0 k1 k2 k3 k4 k5]
    simp only [fcidumpLine, isFloat_of hxf, isFloat_showNat, Bool.false_and, Bool.false_eq_true,
      if_false, stoi_showNat hp, stoi_showNat hq, stoi_showNat hr, stoi_showNat hs, hv]
    rw [if_neg (by omega)]; simp

theorem fcidumpRow_other {R : Type} {io : NumIO R} {l : List Char} (h : (splitTokens l).length ≠ 5) :
    fcidumpRow io l = some none := by
  rw [fcidumpRow]
  split
  · rename_i heq; rw [heq] at h; simp at h
  · rfl

/-- the reading loop on parsed entries -/
def runFold {R σ : Type} (step : σ → FciEntry R → Run σ) : List (FciEntry R) → σ → Run σ
  | [], st => .ok st
  | e :: es, st => (step st e).bind (runFold step es)

theorem fciLoop_entries {R σ : Type} {io : NumIO R} (step : σ → FciEntry R → Run σ)
    {ls : List (List Char)} {es : List (FciEntry R)} (h : Entries io ls es) :
    ∀ st, fciLoop io step ls st = runFold step es st := by
  induction h with
  | nil => intro st; rfl
  | entry hs hp hq hr hs' _ ih =>
    intro st
    rw [fciLoop, fcidumpRow_shows hs hp hq hr hs', runFold]
    dsimp only
    congr 1
    funext s; exact ih s
  | other ho _ ih =>
    intro st
    rw [fciLoop, fcidumpRow_other ho]
    exact ih st

theorem runFold_ok {R σ : Type} (step : σ → FciEntry R → Run σ) (f : σ → FciEntry R → σ)
    (es : List (FciEntry R)) (h : ∀ e ∈ es, ∀ st, step st e = .ok (f st e)) :
    ∀ st, runFold step es st = .ok (es.foldl f st) := by
  induction es with
  | nil => intro st; rfl
  | cons e es ih =>
    intro st
    rw [runFold, h e (by simp), Run.bind, ih (fun e he => h e (by simp [he]))]; rfl

theorem foldl_max_ge (l : List Nat) : ∀ (a : Nat), a ≤ l.foldl max a ∧ ∀ x ∈ l, x ≤ l.foldl max a := by
  induction l with
  | nil => intro a; simp
  | cons b l ih =>
    intro a
    obtain ⟨h1, h2⟩ := ih (max a b)
    rw [List.foldl_cons]
    refine ⟨(le_max_left a b).trans h1, fun x hx => ?_⟩
    rw [List.mem_cons] at hx
    rcases hx with rfl | hx
    · exact (le_max_right a x).trans h1
    · exact h2 x hx

theorem foldl_max_le (l : List Nat) (n : Nat) : ∀ (a : Nat), a ≤ n → (∀ x ∈ l, x ≤ n) →
    l.foldl max a ≤ n := by
  induction l with
  | nil => intro a h _; simpa
  | cons b l ih =>
    intro a h hx
    rw [List.foldl_cons]
    exact ih _ (max_le h (hx b (by simp))) (fun x hx' => hx x (by simp [hx']))

theorem maxIdx_ge {R : Type} {es : List (FciEntry R)} {e : FciEntry R} (he : e ∈ es) :
    e.p ≤ maxIdx es ∧ e.q ≤ maxIdx es ∧ e.r ≤ maxIdx es ∧ e.s ≤ maxIdx es := by
  have h := (foldl_max_ge (es.flatMap fun e => [e.p, e.q, e.r, e.s]) 0).2
  refine ⟨h _ ?_, h _ ?_, h _ ?_, h _ ?_⟩ <;> exact List.mem_flatMap.mpr ⟨e, he, by simp⟩

theorem readNorb_entries {R : Type} {io : NumIO R} {file : List Char} {es : List (FciEntry R)}
    (h : Entries io (fileLines file) es) : readFcidumpNorb io file = .ok (maxIdx es) := by
  rw [readFcidumpNorb, fciLoop_entries _ h,
    runFold_ok _ (fun m e => max m (max e.p (max e.q (max e.r e.s)))) es (fun e _ st => rfl)]
  congr 1
  rw [maxIdx]
  generalize 0 = a
  clear h
  induction es generalizing a with
  | nil => rfl
  | cons e es ih =>
    rw [List.foldl_cons, ih, List.flatMap_cons, List.foldl_append]
    congr 1
    simp only [List.foldl_cons, List.foldl_nil]
    omega

theorem readCore_entries {R : Type} [Zero R] {io : NumIO R} {ls : List (List Char)}
    {es : List (FciEntry R)} (h : Entries io ls es) :
    readCoreLoop io ls =
      .ok (((es.find? fun e => lineClassification e.p e.q e.r e.s = .core).map FciEntry.val).getD 0) := by
  induction h with
  | nil => rfl
  | @entry l ls e es hs hp hq hr hs' _ ih =>
    rw [readCoreLoop, fcidumpRow_shows hs hp hq hr hs', List.find?_cons]
    dsimp only
    by_cases hc : lineClassification e.p e.q e.r e.s = .core
    · rw [if_pos hc]; simp [hc]
    · rw [if_neg hc, ih]; simp [hc]
  | other ho _ ih =>
    rw [readCoreLoop, fcidumpRow_other ho]
    exact ih

/-! ### one-body and two-body writes -/

/-- the stores of one entry into the one-body array -/
def writes1 {R : Type} (ld : Nat) (e : FciEntry R) : List (Nat × R) :=
  if lineClassification e.p e.q e.r e.s = .oneBody then
    [((e.p - 1) + (e.q - 1) * ld, e.val), ((e.q - 1) + (e.p - 1) * ld, e.val)]
  else []

/-- the stores of one entry into the two-body array -/
def writes2 {R : Type} (ld : Nat) (e : FciEntry R) : List (Nat × R) :=
  if lineClassification e.p e.q e.r e.s = .twoBody then
    let p := e.p - 1
    let q := e.q - 1
    let r := e.r - 1
    let s := e.s - 1
    [(addr4 ld p q r s, e.val), (addr4 ld p q s r, e.val),
      (addr4 ld q p r s, e.val), (addr4 ld q p s r, e.val),
      (addr4 ld r s p q, e.val), (addr4 ld s r p q, e.val),
      (addr4 ld r s q p, e.val), (addr4 ld s r q p, e.val)]
  else []

theorem foldl_storeAll {R α : Type} (f : α → List (Nat × R)) (es : List α) : ∀ (m : Nat → R),
    es.foldl (fun m e => storeAll m (f e)) m = storeAll m (es.flatMap f) := by
  induction es with
  | nil => intro m; rfl
  | cons e es ih => intro m; rw [List.foldl_cons, ih, List.flatMap_cons, storeAll_append]

theorem standard_class {R : Type} {e : FciEntry R} (h : Standard e) :
    (lineClassification e.p e.q e.r e.s = .twoBody ↔ 0 < e.p ∧ 0 < e.q ∧ 0 < e.r ∧ 0 < e.s) ∧
    (lineClassification e.p e.q e.r e.s = .oneBody ↔ 0 < e.p ∧ 0 < e.q ∧ e.r = 0 ∧ e.s = 0) := by
  rcases h with ⟨h1, h2, h3, h4⟩ | ⟨h1, h2, h3, h4⟩ | ⟨h1, h2, h3, h4⟩
  · have a : e.p ≠ 0 := by omega
    have b : e.q ≠ 0 := by omega
    have c : e.r ≠ 0 := by omega
    have d : e.s ≠ 0 := by omega
    simp [lineClassification, a, b, c, d]; omega
  · have a : e.p ≠ 0 := by omega
    have b : e.q ≠ 0 := by omega
    simp [lineClassification, a, b, h3, h4]; omega
  · simp [lineClassification, h1, h2, h3, h4]

theorem run1_entries {R : Type} (ld : Nat) (es : List (FciEntry R)) (hst : ∀ e ∈ es, Standard e)
    (T : Nat → R) : runFold (oneBodyStep ld) es T = .ok (storeAll T (es.flatMap (writes1 ld))) := by
  rw [runFold_ok _ (fun T e => storeAll T (writes1 ld e)) es, foldl_storeAll]
  intro e he T
  have hc := (standard_class (hst e he)).2
  by_cases h : lineClassification e.p e.q e.r e.s = .oneBody
  · obtain ⟨a, b, _, _⟩ := hc.mp h
    rw [oneBodyStep, if_pos h, if_neg (by omega), writes1, if_pos h]
  · rw [oneBodyStep, if_neg h, writes1, if_neg h]; rfl

theorem run2_entries {R : Type} (ld : Nat) (es : List (FciEntry R)) (V : Nat → R) :
    runFold (twoBodyStep ld) es V = .ok (storeAll V (es.flatMap (writes2 ld))) := by
  rw [runFold_ok _ (fun V e => storeAll V (writes2 ld e)) es, foldl_storeAll]
  intro e he V
  by_cases h : lineClassification e.p e.q e.r e.s = .twoBody
  · rw [twoBodyStep, if_pos h, writes2, if_pos h]
  · rw [twoBodyStep, if_neg h, writes2, if_neg h]; rfl

theorem writes1_val {R : Type} (ld : Nat) (e : FciEntry R) : ∀ w ∈ writes1 ld e, w.2 = e.val := by
  intro w hw
  rw [writes1] at hw
  split at hw
  · simp at hw; rcases hw with rfl | rfl <;> rfl
  · simp at hw

theorem writes2_val {R : Type} (ld : Nat) (e : FciEntry R) : ∀ w ∈ writes2 ld e, w.2 = e.val := by
  intro w hw
  rw [writes2] at hw
  split at hw
  · simp at hw
    rcases hw with rfl | rfl | rfl | rfl | rfl | rfl | rfl | rfl <;> rfl
  · simp at hw

theorem writes1_hit {R : Type} {ld n p q : Nat} {e : FciEntry R} (hst : Standard e) (hn : n ≤ ld)
    (hep : e.p ≤ n) (heq : e.q ≤ n) (hp : p < n) :
    (writes1 ld e).any (fun w => w.1 == p + q * ld) = givesOne p q e := by
  have hc := (standard_class hst).2
  rw [Bool.eq_iff_iff, List.any_eq_true, givesOne]
  simp only [beq_iff_eq, Bool.and_eq_true, Bool.or_eq_true]
  constructor
  · rintro ⟨w, hw, ha⟩
    rw [writes1] at hw
    split at hw
    · rename_i h
      obtain ⟨a, b, c, d⟩ := hc.mp h
      simp only [List.mem_cons, List.not_mem_nil, or_false] at hw
      rcases hw with rfl | rfl
      · obtain ⟨h1, h2⟩ := addr2_inj hn (by omega) hp ha
        exact ⟨⟨c, d⟩, Or.inl ⟨by omega, by omega⟩⟩
      · obtain ⟨h1, h2⟩ := addr2_inj hn (by omega) hp ha
        exact ⟨⟨c, d⟩, Or.inr ⟨by omega, by omega⟩⟩
    · simp at hw
  · rintro ⟨⟨c, d⟩, h⟩
    have : lineClassification e.p e.q e.r e.s = .oneBody := hc.mpr (by omega)
    rw [writes1, if_pos this]
    rcases h with ⟨a, b⟩ | ⟨a, b⟩
    · exact ⟨_, by simp; left; rfl, by simp [a, b]⟩
    · exact ⟨_, by simp; right; rfl, by simp [a, b]⟩

theorem writes2_hit {R : Type} {ld n p q r s : Nat} {e : FciEntry R} (hn : n ≤ ld)
    (hep : e.p ≤ n) (heq : e.q ≤ n) (her : e.r ≤ n) (hes : e.s ≤ n) (hp : p < n) (hq : q < n)
    (hr : r < n) :
    (writes2 ld e).any (fun w => w.1 == addr4 ld p q r s) = givesTwo p q r s e := by
  rw [Bool.eq_iff_iff, List.any_eq_true, givesTwo]
  simp only [beq_iff_eq, Bool.or_eq_true, Prod.mk.injEq]
  constructor
  · rintro ⟨w, hw, ha⟩
    rw [writes2] at hw
    split at hw
    · rename_i h
      have hnz : 0 < e.p ∧ 0 < e.q ∧ 0 < e.r ∧ 0 < e.s := by
        rw [lineClassification] at h
        split at h
        · cases h
        · split at h
          · omega
          · cases h
      simp only [List.mem_cons, List.not_mem_nil, or_false] at hw
      rcases hw with rfl | rfl | rfl | rfl | rfl | rfl | rfl | rfl <;>
      · obtain ⟨h1, h2, h3, h4⟩ := addr4_inj hn (by omega) (by omega) (by omega) hp hq hr ha
        clear ha her hes hep heq hn h
        first |
        (right; refine ⟨?_, ?_, ?_, ?_⟩ <;> omega) |
        (left; right; refine ⟨?_, ?_, ?_, ?_⟩ <;> omega) |
        (left; left; right; refine ⟨?_, ?_, ?_, ?_⟩ <;> omega) |
        (left; left; left; right; refine ⟨?_, ?_, ?_, ?_⟩ <;> omega) |
        (left; left; left; left; right; refine ⟨?_, ?_, ?_, ?_⟩ <;> omega) |
        (left; left; left; left; left; right; refine ⟨?_, ?_, ?_, ?_⟩ <;> omega) |
        (left; left; left; left; left; left; right; refine ⟨?_, ?_, ?_, ?_⟩ <;> omega) |
        (left; left; left; left; left; left; left; refine ⟨?_, ?_, ?_, ?_⟩ <;> omega)
    · simp at hw
  · intro h
    have hnz : 0 < e.p ∧ 0 < e.q ∧ 0 < e.r ∧ 0 < e.s := by omega
    have : lineClassification e.p e.q e.r e.s = .twoBody := by
      rw [lineClassification, if_neg (by omega), if_pos (by omega)]
    rw [writes2, if_pos this]
    simp only [List.mem_cons, List.not_mem_nil, or_false, exists_eq_or_imp, exists_eq_left]
    rcases h with ((((((h | h) | h) | h) | h) | h) | h) | h <;> obtain ⟨a, b, c, d⟩ := h <;>
      rw [a, b, c, d] <;> simp

end Macis
