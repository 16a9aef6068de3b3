import Verif.Props.Decimal
import Verif.Props.SpIO
/-! Property C176: the numbers of Matrix Market files, down to the digits. -/
namespace Macis
open Spec

section text

theorem strip_split (l : List Char) : ∃ j, l = stripZeros l ++ List.replicate j '0' := by
  unfold stripZeros
  refine ⟨(l.reverse.takeWhile (· = '0')).length, ?_⟩
  have h := List.takeWhile_append_dropWhile (p := fun c => decide (c = '0')) (l := l.reverse)
  have h2 := congrArg List.reverse h
  rw [List.reverse_reverse, List.reverse_append] at h2
  have h3 : (l.reverse.takeWhile (· = '0')).reverse = List.replicate (l.reverse.takeWhile (· = '0')).length '0' := by
    rw [List.eq_replicate_iff]
    refine ⟨by simp, ?_⟩
    intro b hb
    have := List.mem_takeWhile_imp (List.mem_reverse.1 hb)
    simpa using this
  rw [← h3]
  exact h2.symm

theorem ofDigitChars_append_zeros (l : List Char) (j : Nat) :
    Nat.ofDigitChars 10 (l ++ List.replicate j '0') 0 = Nat.ofDigitChars 10 l 0 * 10 ^ j := by
  induction j with
  | zero => simp
  | succ j ih =>
    rw [List.replicate_succ', ← List.append_assoc, Nat.ofDigitChars_append, ih, pow_succ]
    simp [Nat.ofDigitChars_cons]
    ring

theorem expText_read (ex : Option Int) : (expText ex).takeWhile Char.isDigit = [] ∧
    (expText ex).dropWhile Char.isDigit = expText ex ∧ (∀ t, expText ex ≠ '.' :: t) ∧ readExp (expText ex) = ex.getD 0 := by
  cases ex with
  | none => exact ⟨rfl, rfl, by simp [expText], rfl⟩
  | some k =>
    refine ⟨List.takeWhile_cons_of_neg (by decide), List.dropWhile_cons_of_neg (by decide), by simp [expText], ?_⟩
    have hsgn : splitSign ((if k < 0 then '-' else '+') :: padZero 2 (showNat k.natAbs))
        = (decide (k < 0), padZero 2 (showNat k.natAbs)) := by
      by_cases hk : k < 0
      · rw [if_pos hk, decide_eq_true hk]; rfl
      · rw [if_neg hk, decide_eq_false hk]; rfl
    have hc : (padZero 2 (showNat k.natAbs)).takeWhile Char.isDigit = padZero 2 (showNat k.natAbs) :=
      List.takeWhile_eq_self_iff.2 fun c hc => padZero_digit hc
    rw [expText, readExp, hsgn]
    simp only [true_or, if_true, hc, ofDigitChars_padZero, Option.getD_some]
    by_cases hk : k < 0
    · rw [if_pos (by simpa using hk)]; omega
    · rw [if_neg (by simpa using hk)]; omega

/-- reading a number in parts -/
theorem strtodExact_parts (neg : Bool) (ip fp : List Char) (ex : Option Int) (hip : ∀ c ∈ ip, c.isDigit = true)
    (hne : ip ≠ []) (hfp : ∀ c ∈ fp, c.isDigit = true) :
    strtodExact ((if neg then ['-'] else []) ++ fmtParts ip fp ex)
      = some (neg, (Nat.ofDigitChars 10 (ip ++ fp) 0 : Nat) * (10 : ℚ) ^ (ex.getD 0 - fp.length)) := by
  obtain ⟨d0, rest, rfl⟩ := List.exists_cons_of_ne_nil hne
  have hd0 : d0.isDigit = true := hip d0 (by simp)
  obtain ⟨j, hj⟩ := strip_split fp
  unfold fmtParts
  generalize stripZeros fp = f at *
  subst hj
  have hf : ∀ c ∈ f, c.isDigit = true := fun c hc => hfp c (by simp [hc])
  -- what follows the digits
  obtain ⟨t1, t2, t3, t4⟩ := expText_read ex
  generalize expText ex = tl at *
  have hstart : ∀ t, splitSign (((if neg then ['-'] else []) ++ (d0 :: t)).dropWhile isSpaceC) = (neg, d0 :: t) := by
    intro t
    cases neg with
    | true =>
      simp only [if_true, List.cons_append, List.nil_append]
      rw [List.dropWhile_cons_of_neg (by decide)]
      rfl
    | false =>
      simp only [Bool.false_eq_true, if_false, List.nil_append]
      rw [List.dropWhile_cons_of_neg (by rw [isDigit_not_space hd0]; decide), splitSign_digit hd0]
  dsimp only
  have hval : ((Nat.ofDigitChars 10 (d0 :: rest ++ (f ++ List.replicate j '0')) 0 : Nat) : ℚ) *
      (10 : ℚ) ^ (ex.getD 0 - ((f ++ List.replicate j '0').length : Nat))
      = (Nat.ofDigitChars 10 (d0 :: rest ++ f) 0 : Nat) * (10 : ℚ) ^ (ex.getD 0 - f.length) := by
    rw [← List.append_assoc, ofDigitChars_append_zeros, List.length_append, List.length_replicate]
    push_cast
    rw [mul_assoc, ← zpow_natCast (10 : ℚ) j, ← zpow_add₀ (by norm_num)]
    congr 2
    ring
  rw [hval]
  unfold strtodExact
  by_cases hfe : f = []
  · subst hfe
    have hall : ((d0 :: rest) ++ tl).takeWhile Char.isDigit = d0 :: rest ∧
        ((d0 :: rest) ++ tl).dropWhile Char.isDigit = tl := by
      rw [List.takeWhile_append_of_pos hip, List.dropWhile_append_of_pos hip, t1, t2, List.append_nil]
      exact ⟨rfl, rfl⟩
    simp only [List.isEmpty_nil, if_true, List.append_nil]
    rw [List.cons_append, hstart]
    simp only [← List.cons_append, hall.1, hall.2]
    have hm : readFrac tl = ([], tl) := by
      unfold readFrac
      split
      · rename_i t; exact absurd rfl (t3 t)
      · rfl
    rw [hm]
    simp only [List.append_nil, List.isEmpty_cons, Bool.false_eq_true, if_false, t4]
  · have he : f.isEmpty = false := by cases f with
      | nil => exact absurd rfl hfe
      | cons => rfl
    obtain ⟨a1, a2⟩ := takeWhile_digits (l := d0 :: rest) hip (c := '.') (by decide) (f ++ tl)
    have b1 : (f ++ tl).takeWhile Char.isDigit = f := by
      rw [List.takeWhile_append_of_pos hf, t1, List.append_nil]
    have b2 : (f ++ tl).dropWhile Char.isDigit = tl := by
      rw [List.dropWhile_append_of_pos hf, t2]
    rw [he]
    simp only [Bool.false_eq_true, if_false]
    have er : d0 :: rest ++ '.' :: f ++ tl = d0 :: (rest ++ '.' :: (f ++ tl)) := by simp
    rw [er, hstart]
    have hfr : readFrac ('.' :: (f ++ tl)) = (f, tl) := by rw [readFrac, b1, b2]
    rw [List.cons_append] at a1 a2
    simp only [a1, a2, hfr, t4]
    rw [if_neg (by simp)]

end text

section main
variable {near : ℚ → ℤ} {toDouble : Bool → ℚ → Option {x : Dbl // x.Normal}}

theorem gen_value (hn : RoundsNearest near) (x : Dbl) :
    strtodExact (fmtGen near x) = some (x.neg, sciValue 16 (sciParts near 16 x.mag)) := by
  obtain ⟨h1, -, -, -⟩ := sci_closest hn (le_refl 16) x
  unfold fmtGen
  generalize sciParts near 16 x.mag = d at *
  obtain ⟨D, k⟩ := d
  dsimp only at *
  have hl := padZero_length (n := D) (w := 17) h1 (by omega)
  have hdig : ∀ c ∈ padZero 17 (showNat D), c.isDigit = true := fun c hc => padZero_digit hc
  have hval := ofDigitChars_padZero 17 D
  generalize padZero 17 (showNat D) = ds at *
  have ht : ∀ n, ∀ c ∈ ds.take n, c.isDigit = true := fun n c hc => hdig c (List.mem_of_mem_take hc)
  have hd : ∀ n, ∀ c ∈ ds.drop n, c.isDigit = true := fun n c hc => hdig c (List.mem_of_mem_drop hc)
  have hne : ∀ n, ds.take (n + 1) ≠ [] := by
    intro n h
    have := congrArg List.length h
    rw [List.length_take, hl, List.length_nil] at this
    omega
  by_cases c1 : k < -4 ∨ 17 ≤ k
  · rw [if_pos c1, strtodExact_parts _ _ _ _ (ht 1) (hne 0) (hd 1), List.take_append_drop, hval, List.length_drop, hl]
    rfl
  by_cases c2 : k < 0
  · have h0 : ∀ c ∈ ['0'], c.isDigit = true := by intro c hc; rw [List.mem_singleton] at hc; subst hc; decide
    rw [if_neg c1, if_pos c2, strtodExact_parts x.neg ['0'] _ none h0 (by simp) (by
      intro c hc
      rcases List.mem_append.1 hc with hc | hc
      · rw [List.eq_of_mem_replicate hc]; decide
      · exact hdig c hc)]
    have e : ['0'] ++ (List.replicate (k.natAbs - 1) '0' ++ ds) = List.replicate (k.natAbs - 1 + 1) '0' ++ ds := by
      rw [List.replicate_succ]; rfl
    rw [e, ofDigitChars_zeros, hval, List.length_append, List.length_replicate, hl]
    unfold sciValue
    congr 4
    simp only [Option.getD_none]
    push_cast
    omega
  · rw [if_neg c1, if_neg c2, strtodExact_parts _ _ _ _ (ht _) (hne _) (hd _), List.take_append_drop, hval, List.length_drop, hl]
    unfold sciValue
    congr 4
    simp only [Option.getD_none]
    omega

/-- C176: a zero or normal double in a Matrix Market file is read back as the same double. -/
theorem C176_round_trip (hn : RoundsNearest near) (hr : StodSpec toDouble) (x : {x : Dbl // x.Normal}) :
    (mmDoubleIO near toDouble).parse ((mmDoubleIO near toDouble).fmt x) = some x := by
  obtain ⟨-, h2, h3, h4⟩ := sci_closest hn (le_refl 16) x.1
  show (strtodExact (fmtGen near x.1)).bind _ = _
  rw [gen_value hn]
  exact hr.closest x _ h2 h3 h4

/-- C176: a subnormal value is written to a Matrix Market file, but reading it throws. -/
theorem C176_subnormal (hn : RoundsNearest near) (hr : StodSpec toDouble) (x : Dbl) (hx : ¬ x.Normal) :
    (mmDoubleIO near toDouble).parse (fmtGen near x) = none := by
  obtain ⟨-, h2, -, h4⟩ := sci_closest hn (le_refl 16) x
  show (strtodExact (fmtGen near x)).bind _ = _
  rw [gen_value hn]
  exact hr.subnormal x _ hx h2 h4

theorem fmtParts_word {ip fp : List Char} {ex : Option Int} (hip : ∀ c ∈ ip, c.isDigit = true)
    (hfp : ∀ c ∈ fp, c.isDigit = true) : ∀ c ∈ fmtParts ip fp ex, isSpaceC c = false := by
  intro c hc
  obtain ⟨j, hj⟩ := strip_split fp
  unfold fmtParts at hc
  generalize stripZeros fp = f at *
  dsimp only at hc
  rcases List.mem_append.1 hc with hc | hc
  · rcases List.mem_append.1 hc with hc | hc
    · exact isDigit_not_space (hip c hc)
    · split_ifs at hc
      · cases hc
      · rcases List.mem_cons.1 hc with rfl | hc
        · decide
        · exact isDigit_not_space (hfp c (by rw [hj]; simp [hc]))
  · cases ex with
    | none => cases hc
    | some k =>
      simp only [expText, List.mem_cons] at hc
      rcases hc with rfl | rfl | hc
      · decide
      · split_ifs <;> decide
      · exact isDigit_not_space (padZero_digit hc)

/-- C176: the number format that the Matrix Market round trips (C49, C94, C96) assume is the one the code uses. -/
theorem C176_readable (hn : RoundsNearest near) (hr : StodSpec toDouble) :
    NumIO.Readable (mmDoubleIO near toDouble) := by
  refine ⟨C176_round_trip hn hr, ?_, ?_⟩
  · intro x c hc
    change c ∈ fmtGen near x.1 at hc
    unfold fmtGen at hc
    dsimp only at hc
    have hdig : ∀ c ∈ padZero 17 (showNat (sciParts near 16 x.1.mag).1), c.isDigit = true :=
      fun c hc => padZero_digit hc
    have ht : ∀ n, ∀ c ∈ (padZero 17 (showNat (sciParts near 16 x.1.mag).1)).take n, c.isDigit = true :=
      fun n c hc => hdig c (List.mem_of_mem_take hc)
    have hd : ∀ n, ∀ c ∈ (padZero 17 (showNat (sciParts near 16 x.1.mag).1)).drop n, c.isDigit = true :=
      fun n c hc => hdig c (List.mem_of_mem_drop hc)
    rcases List.mem_append.1 hc with hc | hc
    · split_ifs at hc
      · simp only [List.mem_singleton] at hc; subst hc; decide
      · cases hc
    · split_ifs at hc
      · exact fmtParts_word (ht _) (hd _) c hc
      · refine fmtParts_word (by simp) ?_ c hc
        intro c hc
        rcases List.mem_append.1 hc with hc | hc
        · rw [List.eq_of_mem_replicate hc]; decide
        · exact hdig c hc
      · exact fmtParts_word (ht _) (hd _) c hc
  · intro x h
    have := C176_round_trip hn hr x
    have e : strtodExact [] = none := by decide +kernel
    have hp : (mmDoubleIO near toDouble).parse [] = none := by
      unfold mmDoubleIO; dsimp only; rw [e]; rfl
    rw [h, hp] at this
    cases this

/-- the entries of the first rows, in storage order -/
theorem rows_take {R : Type} [Zero R] {A : Csr R} (h : CsrWF A) (r : Nat) (hr : r ≤ A.m) :
    ((List.range r).flatMap A.row).map (·.1) = A.colind.take (A.rp r - A.indexing) ∧
      ((List.range r).flatMap A.row).map (·.2) = A.nzval.take (A.rp r - A.indexing) := by
  induction r with
  | zero =>
    have : A.rp 0 = A.indexing := h.rowptr_first
    simp [this]
  | succ r ih =>
    obtain ⟨e1, e2⟩ := ih (by omega)
    have h1 := CsrWFL.ge_idx h (i := r) (by omega)
    have h2 := CsrWFL.le_last h (i := r + 1) (by omega)
    have h3 : A.rp r ≤ A.rp (r + 1) := h.rowptr_mono r (by omega)
    have h4 := h.colind_length
    have sp : A.rp (r + 1) - A.indexing = (A.rp r - A.indexing) + (A.rp (r + 1) - A.rp r) := by
      unfold Csr.rp at *; omega
    have tk : ∀ {β : Type} (l : List β) (z : β) (a n : Nat), a + n ≤ l.length →
        l.take (a + n) = l.take a ++ (List.range n).map fun k => l.getD (a + k) z := by
      intro β l z a n hl
      rw [List.take_add]
      congr 1
      apply List.ext_getElem
      · simp; omega
      · intro i h1 h2
        simp at h1 h2
        simp [List.getD_eq_getElem?_getD]
        rw [List.getElem?_eq_getElem (by omega)]
        rfl
    rw [List.range_succ, List.flatMap_append, List.map_append, List.map_append, e1, e2, sp,
      tk A.colind 0 _ _ (by unfold Csr.rp at *; omega), tk A.nzval 0 _ _ (by unfold Csr.rp at *; omega)]
    simp only [List.flatMap_cons, List.flatMap_nil, List.append_nil, Csr.row_eq h (show r < A.m by omega), List.map_map]
    exact ⟨rfl, rfl⟩

theorem row_of_entry {R : Type} [Zero R] {A : Csr R} (h : CsrWF A) {i k : Nat} (hi : i < A.m)
    (h1 : A.rp i ≤ k + A.indexing) (h2 : k + A.indexing < A.rp (i + 1)) :
    ((List.range A.m).flatMap fun i => (A.row i).map fun _ => i + 1).getD k 0 = i + 1 := by
  have len : ∀ r ≤ A.m, ((List.range r).flatMap fun i => (A.row i).map fun _ => i + 1).length = A.rp r - A.indexing := by
    intro r hr
    have e := congrArg List.length (rows_take h r hr).2
    have hl := CsrWFL.le_last h (i := r) hr
    rw [List.length_map, List.length_take] at e
    rw [List.length_flatMap] at e ⊢
    simp only [List.length_map]
    rw [e]
    unfold Csr.rp at *; omega
  have h0 := CsrWFL.ge_idx h (i := i) (by omega)
  have sp : List.range A.m = List.range (i + 1) ++ (List.range (A.m - (i + 1))).map (i + 1 + ·) := by
    rw [← List.range_add]; congr 1; omega
  rw [sp, List.flatMap_append, List.getD_append _ _ _ _ (by rw [len (i + 1) hi]; omega), List.range_succ, List.flatMap_append,
    List.getD_append_right _ _ _ _ (by rw [len _ hi.le]; omega), len _ hi.le]
  have hrl : (A.row i).length = A.rp (i + 1) - A.rp i := by rw [Csr.row_eq h hi]; simp
  simp only [List.flatMap_cons, List.flatMap_nil, List.append_nil]
  rw [List.getD_eq_getElem?_getD, List.getElem?_map, List.getElem?_eq_getElem (by rw [hrl]; unfold Csr.rp at *; omega)]
  rfl

/-- Zero and one among the doubles. -/
instance : Zero {x : Dbl // x.Normal} := ⟨⟨⟨false, 0, -1074, by norm_num⟩, .inl rfl⟩⟩
instance : One {x : Dbl // x.Normal} := ⟨⟨⟨false, 2 ^ 52, -52, by norm_num⟩, .inr (by norm_num)⟩⟩

/-- C176: a matrix of doubles written with indices from one is read back entry by entry, in the order it is stored:
the same columns, the same doubles bit for bit, each in its row. -/
theorem C176_file (hn : RoundsNearest near) (hr : StodSpec toDouble) (A : Csr {x : Dbl // x.Normal}) (h : CsrWF A)
    (hbig : A.m + 1 < 9223372036854775808 ∧ A.n + 1 < 9223372036854775808 ∧ A.nzval.length < 9223372036854775808) :
    ∃ text B, writeMm (mmDoubleIO near toDouble) A false (some 1) = .ok text ∧
      readMmCoo (mmDoubleIO near toDouble) text = .ok B ∧ B.m = A.m ∧ B.n = A.n ∧ B.nnz = A.nzval.length ∧
      B.indexing = 1 ∧ B.nzval = A.nzval ∧ B.colind = A.colind.map (fun c => c - A.indexing + 1) ∧
      B.rowind.length = A.nzval.length ∧
      ∀ i < A.m, ∀ k, A.rowptr.getD i 0 ≤ k + A.indexing → k + A.indexing < A.rowptr.getD (i + 1) 0 →
        B.rowind.getD k 0 = i + 1 := by
  have hio := C176_readable hn hr
  have hf := mmFile_of (io := mmDoubleIO near toDouble) (m := A.m) (n := A.n) hbig.2.2
    (mmBlock_no_newline hio A ((1 : Nat) : Int) (((1 : Nat) : Int) - A.indexing)) (mmBlock_shows hio h 1 1)
  have key := readMmCoo_file hf (by omega) (by omega) (by simp) (fun e he => by have := trip_mem h he; omega)
  have hm : (trip A 1 1).flatMap (mirrored false) = trip A 1 1 := by
    have : ∀ e : Nat × Nat × {x : Dbl // x.Normal}, mirrored false e = [e] := by intro e; simp [mirrored]
    rw [show mirrored (R := {x : Dbl // x.Normal}) false = fun e => [e] from funext this]
    exact List.flatMap_singleton' _
  rw [hm] at key
  obtain ⟨e1, e2⟩ := rows_take h A.m le_rfl
  have hl : A.rp A.m - A.indexing = A.nzval.length := by have : A.rp A.m = _ := h.rowptr_last; omega
  rw [hl] at e1 e2
  rw [List.take_of_length_le (by rw [h.colind_length])] at e1
  rw [List.take_of_length_le le_rfl] at e2
  have t1 : (trip A 1 1).map (·.2.2) = A.nzval := by
    rw [← e2, trip, List.map_flatMap, List.map_flatMap]
    simp only [List.map_map]; rfl
  have t2 : (trip A 1 1).map (·.2.1) = A.colind.map (fun c => c - A.indexing + 1) := by
    rw [← e1, List.map_map, trip, List.map_flatMap, List.map_flatMap]
    simp only [List.map_map]; rfl
  have t3 : (trip A 1 1).map (·.1) = (List.range A.m).flatMap fun i => (A.row i).map fun _ => i + 1 := by
    rw [trip, List.map_flatMap]
    simp only [List.map_map]; rfl
  have tl : (trip A 1 1).length = A.nzval.length := by rw [← t1, List.length_map]
  refine ⟨_, _, rfl, key, rfl, rfl, tl, ?_, t1, t2, ?_, ?_⟩
  · rw [Coo.determineIndexing]
    refine if_neg ?_
    simp only [Bool.or_eq_true, List.any_map, List.any_eq_true, Function.comp, beq_iff_eq]
    rintro (⟨e, he, h0⟩ | ⟨e, he, h0⟩) <;> have := trip_mem h he <;> omega
  · show ((trip A 1 1).map (·.1)).length = _
    rw [List.length_map, tl]
  · intro i hi k h1 h2
    show ((trip A 1 1).map (·.1)).getD k 0 = _
    rw [t3]
    exact row_of_entry h hi h1 h2

/-- one third and minus zero in an upper triangle with index base zero -/
example : ∃ A : Csr {x : Dbl // x.Normal}, CsrWF A ∧ A.m = 2 ∧ A.nzval.length = 2 ∧ A.indexing = 0 :=
  ⟨{ m := 2, n := 2, indexing := 0, rowptr := [0, 1, 2], colind := [1, 1],
     nzval := [⟨⟨false, 6004799503160661, -54, by norm_num⟩, .inr (by norm_num)⟩,
       ⟨⟨true, 0, -1074, by norm_num⟩, .inl rfl⟩] },
    ⟨by simp, by simp, by decide, by simp, by simp, by decide⟩, rfl, rfl, rfl⟩

end main

/-! One number in each of the three layouts, and zero. -/
example : fmtGen (fun q => round q) ⟨true, 6004799503160661, -54, by norm_num⟩
    = "-0.33333333333333331".toList := by decide +kernel
example : fmtGen (fun q => round q) ⟨false, 8796093022208001, -43, by norm_num⟩
    = "1000.0000000000001".toList := by decide +kernel
example : fmtGen (fun q => round q) ⟨false, 4503599627370496, 48, by norm_num⟩
    = "1.2676506002282294e+30".toList := by decide +kernel
example : fmtGen (fun q => round q) ⟨false, 4503599627370496, -47, by norm_num⟩ = "32".toList := by decide +kernel
example : fmtGen (fun q => round q) ⟨true, 0, -1074, by norm_num⟩ = "-0".toList := by decide +kernel

end Macis
