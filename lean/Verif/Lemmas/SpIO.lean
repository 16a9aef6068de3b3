import Verif.Model.SpIO
import Verif.Spec.SpIO
import Verif.Lemmas.Text
import Verif.Lemmas.Fcidump
import Verif.Lemmas.Sparse
import Mathlib.Tactic.Abel
namespace Macis
open Spec
variable {R : Type}

theorem dropWhile_none {α : Type} {p : α → Bool} {l : List α} (h : ∀ c ∈ l, p c = false) :
    l.dropWhile p = l := by
  cases l with
  | nil => rfl
  | cons a l => rw [List.dropWhile_cons_of_neg (by simp [h a])]

theorem trimC_word {w : List Char} (h : ∀ c ∈ w, isSpaceC c = false) : trimC w = w := by
  rw [trimC, dropWhile_none (l := w.reverse) (by simpa using h), List.reverse_reverse, dropWhile_none h]

theorem word_ne_blank {w : List Char} (h : Word w) : ∀ c ∈ w, c ≠ ' ' := by
  intro c hc e
  have := h.2 c hc
  subst e; revert this; decide

theorem splitTokens_words {l : List Char} {ws : List (List Char)} (h : ShowsWords l ws) :
    splitTokens l = ws := by
  rw [splitTokens_eq_pieces]
  induction h with
  | nil hb =>
    have := pieces_blank0 _ [] hb
    rw [List.append_nil] at this
    rw [this]; rfl
  | last h0 hw hb =>
    rw [pieces_blank0 _ _ h0, pieces_word_blank0 _ _ (word_ne_blank hw) hw.1 hb]
  | cons h0 hw hb _ ih =>
    rw [pieces_blank0 _ _ h0, pieces_word_blank _ _ _ (word_ne_blank hw) hw.1 hb, ih]

theorem words_word {l : List Char} {ws : List (List Char)} (h : ShowsWords l ws) : ∀ w ∈ ws, Word w := by
  induction h with
  | nil => simp
  | last _ hw => intro w h; simp at h; subst h; exact hw
  | cons _ hw _ _ ih =>
    intro w h
    rcases List.mem_cons.mp h with rfl | h
    · exact hw
    · exact ih w h

theorem tokenize_words {l : List Char} {ws : List (List Char)} (h : ShowsWords l ws) :
    tokenize l = ws := by
  rw [tokenize, splitTokens_words h]
  conv_rhs => rw [← List.map_id ws]
  apply List.map_congr_left
  intro w hw
  exact trimC_word (words_word h w hw).2

theorem word_showNat (n : Nat) : Word (showNat n) :=
  ⟨showNat_ne_nil n, fun _ hc => isDigit_not_space (showNat_digit hc)⟩

theorem stoll_showNat {n : Nat} (h : n < 9223372036854775808) : stoll (showNat n) = some (n : Int) := by
  obtain ⟨c, cs, hc⟩ := List.exists_cons_of_ne_nil (showNat_ne_nil n)
  have hd : ∀ x ∈ showNat n, x.isDigit = true := fun x hx => showNat_digit hx
  have hcd : c.isDigit = true := hd c (by rw [hc]; simp)
  have hns : c ≠ '-' ∧ c ≠ '+' := by
    constructor <;> (rintro rfl; revert hcd; decide)
  have e1 : (showNat n).dropWhile isSpaceC = showNat n := by
    rw [hc, List.dropWhile_cons_of_neg (by rw [isDigit_not_space hcd]; simp)]
  have e2 : (showNat n).takeWhile Char.isDigit = showNat n := by
    rw [List.takeWhile_eq_self_iff]; exact hd
  have e3 : (showNat n).head? = some c := by rw [hc]; rfl
  have e4 : (showNat n).isEmpty = false := by rw [hc]; rfl
  simp only [stoll]
  rw [e1, e3]
  simp only [Option.some.injEq, hns.1, hns.2, decide_false, Bool.or_self, Bool.false_eq_true,
    if_false, e2, e4]
  have e5 : Nat.ofDigitChars 10 (showNat n) 0 = n := Nat.ofDigitChars_ten_toDigits
  rw [e5, if_pos (by omega)]; simp

theorem stollNat_showNat {n : Nat} (h : n < 9223372036854775808) : stollNat (showNat n) = .ok n := by
  rw [stollNat, stoll_showNat h]
  simp only [Int.toNat_natCast]
  rw [if_neg (by omega)]

theorem stoiNat_showNat {n : Nat} (h : n < 2147483648) : stoiNat (showNat n) = .ok n := by
  rw [stoiNat, stoi_showNat h]
  simp only [Int.toNat_natCast]
  rw [if_neg (by omega)]

/-- the entries added for one entry of the file -/
def mirrored (sym : Bool) (e : Nat × Nat × R) : List (Nat × Nat × R) :=
  e :: if sym ∧ e.1 ≠ e.2.1 then [(e.2.1, e.1, e.2.2)] else []

theorem mmEntry_shows [One R] {io : NumIO R} {sym : Bool} {l : List Char} {i j : Nat} {v : R}
    (h : MmShows io l i j v) (hi : i < 9223372036854775808) (hj : j < 9223372036854775808) :
    mmEntry io sym l = .ok (mirrored sym (i, j, v)) := by
  rcases h with ⟨x, hx, hw⟩ | ⟨hv, hw⟩
  · rw [mmEntry, tokenize_words hw]
    simp only [stollNat_showNat hi, stollNat_showNat hj, Run.bind, stodRun, hx]
    rfl
  · rw [mmEntry, tokenize_words hw]
    simp only [stollNat_showNat hi, stollNat_showNat hj, Run.bind, ← hv]
    rfl

theorem mmEntries_shows [One R] {io : NumIO R} {sym : Bool} {body : List (List Char)}
    {es : List (Nat × Nat × R)} (h : List.Forall₂ (fun l e => MmShows io l e.1 e.2.1 e.2.2) body es)
    (hb : ∀ e ∈ es, e.1 < 9223372036854775808 ∧ e.2.1 < 9223372036854775808) :
    mmEntries io sym body = .ok (es.flatMap (mirrored sym)) := by
  induction h with
  | nil => rfl
  | cons h1 _ ih =>
    rw [mmEntries, mmEntry_shows h1 (hb _ (by simp)).1 (hb _ (by simp)).2, Run.bind,
      ih (fun e he => hb e (by simp [he])), Run.bind, List.flatMap_cons]

theorem skipComments_eq (comments : List (List Char)) (dims : List Char) (body : List (List Char))
    (hc : ∀ l ∈ comments, l.head? = some '%') (hd : dims.head? ≠ some '%') :
    skipComments (comments ++ dims :: body) = (dims, body) := by
  induction comments with
  | nil => rw [List.nil_append, skipComments, if_pos hd]
  | cons l ls ih =>
    rw [List.cons_append, skipComments, if_neg (by simp [hc l]), ih (fun m hm => hc m (by simp [hm]))]

/-- a file is read into the list of its entries -/
theorem readMmCoo_file [One R] {io : NumIO R} {file : List Char} {sym : Bool} {m n : Nat}
    {es : List (Nat × Nat × R)} (h : MmFile io file sym m n es) (hm : m < 9223372036854775808)
    (hn : n < 9223372036854775808) (hsq : sym = true → m = n)
    (hb : ∀ e ∈ es, e.1 < 9223372036854775808 ∧ e.2.1 < 9223372036854775808) :
    readMmCoo io file = .ok (Coo.determineIndexing
      { m := m, n := n, nnz := (es.flatMap (mirrored sym)).length, indexing := 1,
        rowind := (es.flatMap (mirrored sym)).map (·.1),
        colind := (es.flatMap (mirrored sym)).map (·.2.1),
        nzval := (es.flatMap (mirrored sym)).map (·.2.2) }) := by
  obtain ⟨banner, comments, dims, body, o, f, d, s, nnz, hf, hnl, hbn, hs, hc, hd, hdw, hnnz, he⟩ := h.lines
  have hl : fileLines file = banner :: comments ++ dims :: body := by
    rw [hf]; exact fileLines_unlines _ hnl
  rw [readMmCoo]
  simp only [hl, List.cons_append, List.headD_cons, tokenize_words hbn, List.tail_cons,
    skipComments_eq comments dims body hc hd, tokenize_words hdw]
  rw [if_neg (by simp)]
  have hsd : decide ([String.toList "%%MatrixMarket", o, f, d, s].getD 4 [] = "symmetric".toList) = sym := by
    show decide (s = "symmetric".toList) = sym
    cases sym with
    | true => simp [hs.mp rfl]
    | false =>
      rw [decide_eq_false_iff_not]
      intro hh
      exact absurd (hs.mpr hh) (by simp)
  simp only [hsd, stollNat_showNat hm, stollNat_showNat hn, stollNat_showNat hnnz, Run.bind]
  rw [if_neg (by rintro ⟨h1, h2⟩; exact h2 (hsq h1)), mmEntries_shows he hb]

theorem listed_nil [AddCommMonoid R] (r c : Nat) : listed ([] : List (Nat × Nat × R)) r c = 0 := rfl

theorem listed_append [AddCommMonoid R] (a b : List (Nat × Nat × R)) (r c : Nat) :
    listed (a ++ b) r c = listed a r c + listed b r c := by
  simp [listed]

theorem listed_zero [AddCommMonoid R] {es : List (Nat × Nat × R)} {r c : Nat}
    (h : ∀ e ∈ es, ¬ (e.1 = r ∧ e.2.1 = c)) : listed es r c = 0 := by
  induction es with
  | nil => rfl
  | cons e es ih =>
    rw [listed, List.map_cons, List.sum_cons, if_neg (h e (by simp)), zero_add]
    exact ih fun e he => h e (by simp [he])

theorem listed_cons [AddCommMonoid R] (e : Nat × Nat × R) (es : List (Nat × Nat × R)) (a b : Nat) :
    listed (e :: es) a b = (if e.1 = a ∧ e.2.1 = b then e.2.2 else 0) + listed es a b := by
  simp [listed]

theorem listed_mirrored [AddCommMonoid R] (sym : Bool) (es : List (Nat × Nat × R)) (r c : Nat) :
    listed (es.flatMap (mirrored sym)) r c = mmValue sym es r c := by
  induction es with
  | nil => simp [mmValue, listed]
  | cons e es ih =>
    rw [List.flatMap_cons, listed_append, ih, mmValue, mmValue]
    rw [listed_cons, listed_cons]
    have h2 : listed (mirrored sym e) r c = (if e.1 = r ∧ e.2.1 = c then e.2.2 else 0) +
        (if sym = true ∧ r ≠ c then (if e.1 = c ∧ e.2.1 = r then e.2.2 else 0) else 0) := by
      rw [mirrored]
      by_cases hs : sym = true ∧ e.1 ≠ e.2.1
      · rw [if_pos hs, listed_cons e]
        · congr 1
          by_cases hh : e.1 = c ∧ e.2.1 = r
          · have : r ≠ c := by rw [← hh.1, ← hh.2]; exact hs.2.symm
            simp [listed, hh, hs.1, this]
          · have hh' : ¬ (e.2.1 = r ∧ e.1 = c) := fun h => hh ⟨h.2, h.1⟩
            simp [listed, hh, hh']
      · rw [if_neg hs, listed_cons e]
        congr 1
        show listed [] r c = _
        rw [listed_nil]
        by_cases hh : sym = true ∧ r ≠ c
        · rw [if_pos hh, if_neg]
          rintro ⟨a, b⟩
          exact hs ⟨hh.1, by rw [a, b]; exact hh.2.symm⟩
        · rw [if_neg hh]
    rw [h2]
    by_cases hh : sym = true ∧ r ≠ c
    · simp only [if_pos hh]; abel
    · simp only [if_neg hh, add_zero]
/-- a COO matrix made of a list of entries denotes the list -/
theorem cooEntry_list [AddCommMonoid R] (m n nnz b : Nat) (es : List (Nat × Nat × R)) (i j : Nat) :
    cooEntry (⟨m, n, nnz, b, es.map (·.1), es.map (·.2.1), es.map (·.2.2)⟩ : Coo R) i j = listed es (i + b) (j + b) := by
  rw [cooEntry, ← sum_map_range, listed]
  congr 1
  apply List.ext_getElem
  · simp
  · intro k hk hk'
    have : k < es.length := by simpa using hk'
    simp [this]

/-- the entries written for a block: rows shifted by `ro`, logical columns by `k` -/
def trip [Zero R] (A : Csr R) (ro k : Nat) : List (Nat × Nat × R) :=
  (List.range A.m).flatMap fun i => (A.row i).map fun p => (i + ro, p.1 - A.indexing + k, p.2)

theorem trip_mem [Zero R] {A : Csr R} (h : CsrWF A) {ro k : Nat} {e : Nat × Nat × R}
    (he : e ∈ trip A ro k) : ro ≤ e.1 ∧ e.1 < ro + A.m ∧ k ≤ e.2.1 ∧ e.2.1 < k + A.n := by
  simp only [trip, List.mem_flatMap, List.mem_range, List.mem_map] at he
  obtain ⟨i, hi, p, hp, rfl⟩ := he
  have := row_col_range h hi hp
  refine ⟨?_, ?_, ?_, ?_⟩ <;> dsimp only <;> omega

theorem listed_trip [AddCommMonoid R] {A : Csr R} (h : CsrWF A) {ro k i : Nat} (hi : i < A.m) (j : Nat) :
    listed (trip A ro k) (i + ro) (j + k) = csrEntry A i j := by
  rw [csrEntry_eq h hi, listed, trip, List.map_flatMap, List.flatMap_def, List.sum_flatten, List.map_map,
    sum_map_range, Finset.sum_eq_single i]
  · simp only [Function.comp, List.map_map]
    congr 1
    apply List.map_congr_left
    intro p hp
    have := row_col_range h hi hp
    simp only [Function.comp]
    have e : (True ∧ p.1 - A.indexing + k = j + k) ↔ p.1 = j + A.indexing :=
      ⟨fun h => by have := h.2; omega, fun h => ⟨trivial, by omega⟩⟩
    rw [if_congr e rfl rfl]
  · intro i' hi' hne
    simp only [Function.comp, List.map_map]
    apply List.sum_eq_zero
    intro x hx
    rw [List.mem_map] at hx
    obtain ⟨p, _, rfl⟩ := hx
    simp only [Function.comp]
    rw [if_neg (by omega)]
  · intro hh; exact absurd (Finset.mem_range.mpr hi) hh

theorem showInt_nat (n : Nat) : showInt (n : Int) = showNat n := by
  rw [showInt, if_neg (by omega)]; rfl

theorem showsWords3 {a b c : List Char} (ha : Word a) (hb : Word b) (hc : Word c) :
    ShowsWords (a ++ ' ' :: b ++ ' ' :: c) [a, b, c] := by
  have bl : Blank [' '] := ⟨by simp, by simp⟩
  have e : a ++ ' ' :: b ++ ' ' :: c = [] ++ (a ++ ([' '] ++ ([] ++ (b ++ ([' '] ++ ([] ++ (c ++ []))))))) := by
    simp
  rw [e]
  exact .cons (by simp [Blank0]) ha bl (.cons (by simp [Blank0]) hb bl
    (.last (by simp [Blank0]) hc (by simp [Blank0])))

theorem mmLine_shows [One R] {io : NumIO R} (hio : NumIO.Readable io) (i j : Nat) (v : R) :
    MmShows io (mmLine io i j v) i j v := by
  refine .inl ⟨io.fmt v, hio.roundTrip v, ?_⟩
  rw [mmLine, showInt_nat, showInt_nat]
  exact showsWords3 (word_showNat _) (word_showNat _) ⟨hio.nonempty v, hio.oneWord v⟩

theorem forall₂_flatMap {α β γ : Type} {P : β → γ → Prop} {f : α → List β} {g : α → List γ} {l : List α}
    (h : ∀ a ∈ l, List.Forall₂ P (f a) (g a)) : List.Forall₂ P (l.flatMap f) (l.flatMap g) := by
  induction l with
  | nil => exact .nil
  | cons a l ih =>
    rw [List.flatMap_cons, List.flatMap_cons]
    exact List.rel_append (h a (by simp)) (ih fun b hb => h b (by simp [hb]))

/-- the lines of a block show its entries -/
theorem mmBlock_shows [Zero R] [One R] {io : NumIO R} (hio : NumIO.Readable io) {A : Csr R} (h : CsrWF A)
    (ro k : Nat) : List.Forall₂ (fun l e => MmShows io l e.1 e.2.1 e.2.2)
      (mmBlock io A ro ((k : Int) - A.indexing)) (trip A ro k) := by
  apply forall₂_flatMap
  intro i hi
  rw [List.mem_range] at hi
  rw [List.forall₂_map_left_iff, List.forall₂_map_right_iff, List.forall₂_same]
  intro p hp
  have := row_col_range h hi hp
  have e1 : ((i : Int) + (ro : Int)) = ((i + ro : Nat) : Int) := by push_cast; rfl
  have e2 : ((p.1 : Int) + ((k : Int) - A.indexing)) = ((p.1 - A.indexing + k : Nat) : Int) := by omega
  rw [e1, e2]
  exact mmLine_shows hio _ _ _

theorem mmLine_no_newline {io : NumIO R} (hio : NumIO.Readable io) (i j : Int) (v : R) :
    ∀ c ∈ mmLine io i j v, c ≠ '\n' := by
  have hn : ∀ n, ∀ c ∈ showNat n, c ≠ '\n' := by
    intro n c hc e
    have := isDigit_not_space (showNat_digit hc)
    subst e; revert this; decide
  have hi : ∀ z, ∀ c ∈ showInt z, c ≠ '\n' := by
    intro z c hc
    rw [showInt] at hc
    split at hc
    · rcases List.mem_cons.mp hc with rfl | hc
      · decide
      · exact hn _ c hc
    · exact hn _ c hc
  intro c hc
  rw [mmLine] at hc
  simp only [List.mem_append, List.mem_cons] at hc
  rcases hc with (hc | rfl | hc) | rfl | hc
  · exact hi _ c hc
  · decide
  · exact hi _ c hc
  · decide
  · intro e
    have := hio.oneWord v c hc
    subst e; revert this; decide

theorem mmBlock_no_newline [Zero R] {io : NumIO R} (hio : NumIO.Readable io) (A : Csr R) (ro co : Int) :
    ∀ l ∈ mmBlock io A ro co, ∀ c ∈ l, c ≠ '\n' := by
  intro l hl
  simp only [mmBlock, List.mem_flatMap, List.mem_map] at hl
  obtain ⟨i, _, p, _, rfl⟩ := hl
  exact mmLine_no_newline hio _ _ _

/-- a banner, dimensions and entry lines make a matrix-market file -/
theorem mmFile_of [One R] {io : NumIO R} {m n nnz : Nat} {body : List (List Char)}
    {es : List (Nat × Nat × R)} (hnnz : nnz < 9223372036854775808)
    (hnl : ∀ l ∈ body, ∀ c ∈ l, c ≠ '\n')
    (h : List.Forall₂ (fun l e => MmShows io l e.1 e.2.1 e.2.2) body es) :
    MmFile io (unlinesC (mmHeader m n nnz false ++ body)) false m n es := by
  refine ⟨"%%MatrixMarket matrix coordinate real general".toList, [],
    showNat m ++ ' ' :: showNat n ++ ' ' :: showNat nnz, body, "matrix".toList, "coordinate".toList,
    "real".toList, "general".toList, nnz, ?_, ?_, ?_, ?_, by simp, ?_, ?_, hnnz, h⟩
  · rfl
  · intro l hl
    rw [List.mem_append] at hl
    rcases hl with hl | hl
    · rw [List.mem_singleton] at hl; subst hl; decide
    · rcases List.mem_cons.mp hl with rfl | hl
      · have hn : ∀ n, ∀ c ∈ showNat n, c ≠ '\n' := by
          intro n c hc e
          have := isDigit_not_space (showNat_digit hc)
          subst e; revert this; decide
        intro c hc
        simp only [List.mem_append, List.mem_cons] at hc
        rcases hc with (hc | rfl | hc) | rfl | hc
        · exact hn _ c hc
        · decide
        · exact hn _ c hc
        · decide
        · exact hn _ c hc
      · exact hnl l hl
  · have bl : Blank [' '] := ⟨by simp, by simp⟩
    have b0 : Blank0 [] := by simp [Blank0]
    have e : "%%MatrixMarket matrix coordinate real general".toList =
      [] ++ ("%%MatrixMarket".toList ++ ([' '] ++ ([] ++ ("matrix".toList ++ ([' '] ++
        ([] ++ ("coordinate".toList ++ ([' '] ++ ([] ++ ("real".toList ++ ([' '] ++
          ([] ++ ("general".toList ++ []))))))))))))) := by decide
    rw [e]
    exact .cons b0 (by decide) bl (.cons b0 (by decide) bl (.cons b0 (by decide) bl
      (.cons b0 (by decide) bl (.last b0 (by decide) b0))))
  · simp
  · obtain ⟨c, cs, hc⟩ := List.exists_cons_of_ne_nil (showNat_ne_nil m)
    rw [hc]
    have := showNat_digit (n := m) (c := c) (by rw [hc]; simp)
    simp only [List.cons_append, List.head?_cons, ne_eq, Option.some.injEq]
    rintro rfl
    revert this; decide
  · exact showsWords3 (word_showNat _) (word_showNat _) (word_showNat _)

end Macis
