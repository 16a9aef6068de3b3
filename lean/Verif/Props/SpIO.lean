import Verif.Lemmas.SpIO
import Verif.Props.SpConv
import Verif.Spec.DistMatrix
import Verif.Lemmas.Dist
/-! C49, C94-C98: files holding sparse matrices. -/
namespace Macis
open Spec
variable {R : Type}

/-- The base found by the reader is the one of the file: 1 if no index is 0, 0 if some index is. -/
theorem readMmCoo_value [AddCommMonoid R] [One R] {io : NumIO R} {file : List Char} {sym : Bool} {m n b : Nat}
    {es : List (Nat × Nat × R)} (h : MmFile io file sym m n es) (hm : m < 9223372036854775808)
    (hn : n < 9223372036854775808) (hsq : sym = true → m = n)
    (hr : ∀ e ∈ es, b ≤ e.1 ∧ e.1 < m + b ∧ b ≤ e.2.1 ∧ e.2.1 < n + b)
    (hbig : m + b < 9223372036854775808 ∧ n + b < 9223372036854775808)
    (hb : b = 1 ∨ b = 0 ∧ ∃ e ∈ es, e.1 = 0 ∨ e.2.1 = 0) :
    ∃ B, readMmCoo io file = .ok B ∧ CooWF B ∧ B.m = m ∧ B.n = n ∧ B.indexing = b ∧
      ∀ i j, cooEntry B i j = mmValue sym es (i + b) (j + b) := by
  have key := readMmCoo_file h hm hn hsq (fun e he => by have := hr e he; omega)
  have mem : ∀ e ∈ es.flatMap (mirrored sym), b ≤ e.1 ∧ e.1 < m + b ∧ b ≤ e.2.1 ∧ e.2.1 < n + b := by
    intro e he
    rw [List.mem_flatMap] at he
    obtain ⟨e', he', hm'⟩ := he
    rw [mirrored] at hm'
    rcases List.mem_cons.mp hm' with rfl | hm'
    · exact hr _ he'
    · split at hm'
      · rename_i hs
        rw [List.mem_singleton] at hm'
        subst hm'
        have := hr _ he'
        have := hsq hs.1
        dsimp only
        omega
      · simp at hm'
  have hidx : (Coo.determineIndexing
      { m := m, n := n, nnz := (es.flatMap (mirrored sym)).length, indexing := 1,
        rowind := (es.flatMap (mirrored sym)).map (·.1),
        colind := (es.flatMap (mirrored sym)).map (·.2.1),
        nzval := (es.flatMap (mirrored sym)).map (·.2.2) } : Coo R).indexing = b := by
    rw [Coo.determineIndexing]
    simp only [Bool.or_eq_true, List.any_map, List.any_eq_true, Function.comp, beq_iff_eq]
    rcases hb with rfl | ⟨rfl, e, he, h0⟩
    · rw [if_neg]
      rintro (⟨e, he, h0⟩ | ⟨e, he, h0⟩) <;> have := mem e he <;> omega
    · rw [if_pos]
      have : e ∈ es.flatMap (mirrored sym) := by
        rw [List.mem_flatMap]; exact ⟨e, he, by rw [mirrored]; simp⟩
      rcases h0 with h0 | h0
      · exact .inl ⟨e, this, h0⟩
      · exact .inr ⟨e, this, h0⟩
  refine ⟨_, key, ?_, rfl, rfl, hidx, ?_⟩
  · constructor
    · simp [Coo.determineIndexing]
    · simp [Coo.determineIndexing]
    · simp [Coo.determineIndexing]
    · intro c hc
      rw [hidx]
      simp only [Coo.determineIndexing, List.mem_map] at hc
      obtain ⟨e, he, rfl⟩ := hc
      have := mem e he
      show b ≤ e.1 ∧ e.1 < b + m
      omega
    · intro c hc
      rw [hidx]
      simp only [Coo.determineIndexing, List.mem_map] at hc
      obtain ⟨e, he, rfl⟩ := hc
      have := mem e he
      show b ≤ e.2.1 ∧ e.2.1 < b + n
      omega
  · intro i j
    rw [← listed_mirrored, ← cooEntry_list m n (es.flatMap (mirrored sym)).length]
    have e : ∀ (A : Coo R), A.indexing = b → ∀ B : Coo R, B.indexing = b → A.rowind = B.rowind →
        A.colind = B.colind → A.nzval = B.nzval → cooEntry A i j = cooEntry B i j := by
      intro A hA B hB h1 h2 h3
      rw [cooEntry, cooEntry, hA, hB, h1, h2, h3]
    exact e _ hidx _ rfl rfl rfl rfl

/-- C95: a matrix-market file (general, symmetric or pattern) with indices counted from one, as the
format demands, is read into a matrix with the file's dimensions and the values the file lists. -/
theorem C95_read_matrix_market [AddCommMonoid R] [One R] (io : NumIO R) (file : List Char) (sym : Bool)
    (m n : Nat) (es : List (Nat × Nat × R)) (h : MmFile io file sym m n es)
    (hbig : m + 1 < 9223372036854775808 ∧ n + 1 < 9223372036854775808) (hsq : sym = true → m = n)
    (hr : ∀ e ∈ es, 1 ≤ e.1 ∧ e.1 ≤ m ∧ 1 ≤ e.2.1 ∧ e.2.1 ≤ n) :
    ∃ B, readMmCoo io file = .ok B ∧ CooWF B ∧ B.m = m ∧ B.n = n ∧ B.indexing = 1 ∧
      ∀ i j, cooEntry B i j = mmValue sym es (i + 1) (j + 1) :=
  readMmCoo_value h (by omega) (by omega) hsq (fun e he => by have := hr e he; omega) hbig (.inl rfl)

/-- C95: a symmetric file that is not square is rejected. -/
theorem C95_symmetric_not_square [One R] (io : NumIO R) (file : List Char)
    (m n : Nat) (es : List (Nat × Nat × R)) (h : MmFile io file true m n es)
    (hbig : m + 1 < 9223372036854775808 ∧ n + 1 < 9223372036854775808) (hne : m ≠ n) :
    readMmCoo io file = .throw := by
  obtain ⟨banner, comments, dims, body, o, f, d, s, nnz, hf, hnl, hbn, hs, hc, hd, hdw, hnnz, he⟩ := h.lines
  have hl : fileLines file = banner :: comments ++ dims :: body := by
    rw [hf]; exact fileLines_unlines _ hnl
  rw [readMmCoo]
  simp only [hl, List.cons_append, List.headD_cons, tokenize_words hbn, List.tail_cons,
    skipComments_eq comments dims body hc hd, tokenize_words hdw]
  rw [if_neg (by simp)]
  simp only [stollNat_showNat (show m < 9223372036854775808 by omega),
    stollNat_showNat (show n < 9223372036854775808 by omega), stollNat_showNat hnnz, Run.bind]
  rw [if_pos]
  refine ⟨?_, hne⟩
  show decide (s = "symmetric".toList) = true
  simp [hs.mp rfl]

/-- C95: a file whose first line is not blank and is not a banner - the word `%%MatrixMarket` and four further
words - is rejected. -/
theorem C95_bad_banner_rejected [One R] (io : NumIO R) (file banner : List Char) (rest words : List (List Char))
    (hf : file = unlinesC (banner :: rest)) (hnl : ∀ l ∈ banner :: rest, ∀ c ∈ l, c ≠ '\n')
    (hw : ShowsWords banner words) (hne : words ≠ [])
    (hbad : ¬ ∃ o f d s, words = ["%%MatrixMarket".toList, o, f, d, s]) :
    readMmCoo io file = .throw := by
  have hl : fileLines file = banner :: rest := by rw [hf]; exact fileLines_unlines _ hnl
  rw [readMmCoo]
  simp only [hl, List.headD_cons, tokenize_words hw]
  match words, hne, hbad with
  | t0 :: ts, _, hbad =>
    refine if_pos ?_
    by_contra hcon
    rw [not_or, not_not, not_not] at hcon
    obtain ⟨rfl, h5⟩ := hcon
    match ts, h5, hbad with
    | [o, f, d, s], _, hbad => exact hbad ⟨o, f, d, s, rfl⟩

/-- C95: a file whose first line that is not a comment does not consist of three words is rejected. -/
theorem C95_bad_dimensions_rejected [One R] (io : NumIO R) (file banner dims : List Char)
    (comments body words : List (List Char)) (t0 : List Char) (ts : List (List Char))
    (hf : file = unlinesC (banner :: comments ++ dims :: body))
    (hnl : ∀ l ∈ banner :: comments ++ dims :: body, ∀ c ∈ l, c ≠ '\n')
    (hb : ShowsWords banner (t0 :: ts)) (hc : ∀ l ∈ comments, l.head? = some '%') (hd : dims.head? ≠ some '%')
    (hw : ShowsWords dims words) (h3 : words.length ≠ 3) :
    readMmCoo io file = .throw := by
  have hl : fileLines file = banner :: comments ++ dims :: body := by rw [hf]; exact fileLines_unlines _ hnl
  rw [readMmCoo]
  simp only [hl, List.cons_append, List.headD_cons, tokenize_words hb, List.tail_cons,
    skipComments_eq comments dims body hc hd, tokenize_words hw]
  split_ifs
  · rfl
  · match words, h3 with
    | [], _ => rfl
    | [_], _ => rfl
    | [_, _], _ => rfl
    | _ :: _ :: _ :: _ :: _, _ => rfl

theorem mmValue_general [AddCommMonoid R] (es : List (Nat × Nat × R)) (r c : Nat) :
    mmValue false es r c = listed es r c := by
  simp [mmValue]

/-- C49: writing any well-formed CSR matrix, of either index base, with indices counted from one and
reading the file gives a matrix with the same dimensions and the same entries. -/
theorem C49_round_trip [AddCommMonoid R] [One R] (io : NumIO R) (hio : NumIO.Readable io) (A : Csr R)
    (h : CsrWF A) (hbig : A.m + 1 < 9223372036854775808 ∧ A.n + 1 < 9223372036854775808 ∧
      A.nzval.length < 9223372036854775808) :
    ∃ text, writeMm io A false (some 1) = .ok text ∧
      ∃ B, readMmCoo io text = .ok B ∧ CooWF B ∧ B.m = A.m ∧ B.n = A.n ∧
        ∀ i < A.m, ∀ j < A.n, cooEntry B i j = csrEntry A i j := by
  refine ⟨_, rfl, ?_⟩
  have hf := mmFile_of (io := io) (m := A.m) (n := A.n) hbig.2.2
    (mmBlock_no_newline hio A ((1 : Nat) : Int) (((1 : Nat) : Int) - A.indexing)) (mmBlock_shows hio h 1 1)
  obtain ⟨B, e, wf, e1, e2, _, e4⟩ := C95_read_matrix_market io _ false A.m A.n _ hf ⟨hbig.1, hbig.2.1⟩
    (by simp) (fun e he => by have := trip_mem h he; omega)
  refine ⟨B, e, wf, e1, e2, ?_⟩
  intro i hi j _
  rw [e4, mmValue_general, listed_trip h hi]

/-- C49: the number of entry lines written is the number of stored entries, announced in the header. -/
theorem C49_lines [Zero R] (io : NumIO R) (A : Csr R) (h : CsrWF A) (ro co : Int) :
    (mmBlock io A ro co).length = A.nzval.length := by
  have e : (mmBlock io A ro co).length = ∑ i ∈ Finset.range A.m, (A.rp (i + 1) - A.rp i) := by
    rw [mmBlock, List.length_flatMap, sum_map_range]
    apply Finset.sum_congr rfl
    intro i hi
    rw [List.length_map, Csr.row_eq h (Finset.mem_range.mp hi)]
    simp
  have t : ∀ k ≤ A.m, ∑ i ∈ Finset.range k, (A.rp (i + 1) - A.rp i) = A.rp k - A.indexing := by
    intro k
    induction k with
    | zero =>
      intro _
      have := h.rowptr_first
      simp only [Csr.rp, Finset.range_zero, Finset.sum_empty, this]; omega
    | succ k ih =>
      intro hk
      rw [Finset.sum_range_succ, ih (by omega)]
      have h1 := CsrWFL.ge_idx h (i := k) (by omega)
      have h3 := h.rowptr_mono k (by omega)
      simp only [Csr.rp]
      omega
  rw [e, t A.m le_rfl]
  have := h.rowptr_last
  simp only [Csr.rp, this]; omega

/-- C49: writing as symmetric is refused. -/
theorem C49_symmetric_refused [Zero R] (io : NumIO R) (A : Csr R) (f : Option Nat) :
    writeMm io A true f = .throw := rfl

/-- numbers 0..9 as single digits -/
def digitIO : NumIO Nat := ⟨showNat, fun s => (stoi s).map Int.toNat⟩

/-- a four-word banner; the first word misspelt; dimensions without the number of entries -/
example : ShowsWords "%%MatrixMarket matrix coordinate".toList
      ["%%MatrixMarket".toList, "matrix".toList, "coordinate".toList] ∧
    readMmCoo digitIO "%%MatrixMarket matrix coordinate real\n1 1 1\n1 1 5\n".toList = .throw ∧
    readMmCoo digitIO "%MatrixMarket matrix coordinate real general\n1 1 1\n1 1 5\n".toList = .throw ∧
    readMmCoo digitIO "%%MatrixMarket matrix coordinate real general\n1 1\n1 1 5\n".toList = .throw := by
  refine ⟨?_, by decide +kernel, by decide +kernel, by decide +kernel⟩
  exact showsWords3 (a := "%%MatrixMarket".toList) (b := "matrix".toList) (c := "coordinate".toList) (by decide) (by decide) (by decide)

/-- the hypotheses are met by a 2x3 matrix with index base one -/
example : CsrWF (⟨2, 3, 1, [1, 3, 4], [1, 3, 2], [10, 30, 20]⟩ : Csr Nat) ∧
    writeMm digitIO (⟨2, 3, 1, [1, 3, 4], [1, 3, 2], [10, 30, 20]⟩ : Csr Nat) false (some 1) =
    .ok "%%MatrixMarket matrix coordinate real general\n2 3 3\n1 1 10\n1 3 30\n2 2 20\n".toList := by
  refine ⟨⟨by simp, by simp, by decide, by simp, by simp, by decide⟩, by decide +kernel⟩

/-- C94 (part that holds): without a forced index a matrix with index base zero that stores something in
its first row or first column survives. -/
theorem C94_zero_based_partial [AddCommMonoid R] [One R] (io : NumIO R) (hio : NumIO.Readable io) (A : Csr R)
    (h : CsrWF A) (h0 : A.indexing = 0)
    (hz : ∃ i j, csrStored A i j ∧ i < A.m ∧ (i = 0 ∨ j = 0)) (forced : Option Nat)
    (hfo : forced = none ∨ forced = some 0)
    (hbig : A.m < 9223372036854775808 ∧ A.n < 9223372036854775808 ∧
      A.nzval.length < 9223372036854775808) :
    ∃ text, writeMm io A false forced = .ok text ∧
      ∃ B, readMmCoo io text = .ok B ∧ CooWF B ∧ B.m = A.m ∧ B.n = A.n ∧ B.indexing = 0 ∧
        ∀ i < A.m, ∀ j < A.n, cooEntry B i j = csrEntry A i j := by
  have hw : writeMm io A false forced = .ok (unlinesC (mmHeader A.m A.n A.nzval.length false ++
      mmBlock io A ((0 : Nat) : Int) (((0 : Nat) : Int) - A.indexing))) := by
    rcases hfo with rfl | rfl
    · rw [writeMm, h0]; rfl
    · rfl
  refine ⟨_, hw, ?_⟩
  have hf := mmFile_of (io := io) (m := A.m) (n := A.n) hbig.2.2
    (mmBlock_no_newline hio A ((0 : Nat) : Int) (((0 : Nat) : Int) - A.indexing)) (mmBlock_shows hio h 0 0)
  obtain ⟨B, e, wf, e1, e2, e3, e4⟩ := readMmCoo_value (b := 0) hf hbig.1 hbig.2.1
    (by simp) (fun e he => by have := trip_mem h he; omega) ⟨hbig.1, hbig.2.1⟩ (.inr ⟨rfl, by
      obtain ⟨i, j, hst, hi, hij⟩ := hz
      rw [csrStored_iff h hi, List.mem_map] at hst
      obtain ⟨p, hp, hpe⟩ := hst
      refine ⟨(i + 0, p.1 - A.indexing + 0, p.2), ?_, ?_⟩
      · simp only [trip, List.mem_flatMap, List.mem_range, List.mem_map]
        exact ⟨i, hi, p, hp, rfl⟩
      · dsimp only; omega⟩)
  refine ⟨B, e, wf, e1, e2, e3, ?_⟩
  intro i hi j _
  rw [e4, mmValue_general, listed_trip h hi]

/-- C94 (refuted): the default call writes a matrix with index base one with rows counted from zero and
columns from one; read back, every column has moved. -/
theorem C94_one_based_default_refuted :
    let A : Csr Nat := { m := 2, n := 2, indexing := 1, rowptr := [1, 2, 3], colind := [1, 2], nzval := [5, 7] }
    CsrWF A ∧ writeMm digitIO A false none =
        .ok "%%MatrixMarket matrix coordinate real general\n2 2 2\n0 1 5\n1 2 7\n".toList ∧
      ∃ B, readMmCoo digitIO "%%MatrixMarket matrix coordinate real general\n2 2 2\n0 1 5\n1 2 7\n".toList = .ok B ∧
        csrEntry A 0 0 = 5 ∧ cooEntry B 0 0 = 0 ∧ cooEntry B 0 1 = 5 := by
  refine ⟨⟨by simp, by simp, by decide, by simp, by simp, by decide⟩, by decide +kernel, _, by rfl, ?_⟩
  refine ⟨by decide +kernel, by decide +kernel, by decide +kernel⟩

/-- C94 (refuted): a matrix with index base zero and empty first row and column is read back as if
counted from one. -/
theorem C94_zero_based_empty_refuted :
    let A : Csr Nat := { m := 2, n := 2, indexing := 0, rowptr := [0, 0, 1], colind := [1], nzval := [7] }
    CsrWF A ∧ ∃ text B, writeMm digitIO A false none = .ok text ∧ readMmCoo digitIO text = .ok B ∧
      csrEntry A 1 1 = 7 ∧ cooEntry B 1 1 = 0 ∧ cooEntry B 0 0 = 7 := by
  refine ⟨⟨by simp, by simp, by decide, by simp, by simp, by decide⟩, _, _, rfl, by rfl, ?_⟩
  refine ⟨by decide +kernel, by decide +kernel, by decide +kernel⟩

/-- C94 (refuted): a file that was cut short is accepted: the announced number of entries is not
checked. -/
theorem C94_truncated_refuted :
    ∃ B, readMmCoo digitIO "%%MatrixMarket matrix coordinate real general\n2 2 2\n1 1 5\n".toList = .ok B ∧
      B.nnz = 1 := by
  refine ⟨_, by rfl, by decide +kernel⟩

/-- C94 (part that holds): read as CSR, the matrix survives when every row but the first stores
something. -/
theorem C94_csr_partial [AddCommMonoid R] [One R] (io : NumIO R) (hio : NumIO.Readable io) (A : Csr R)
    (h : CsrWF A) (hbig : A.m + 1 < 9223372036854775808 ∧ A.n + 1 < 9223372036854775808 ∧
      A.nzval.length < 9223372036854775808)
    (hne : ∀ r, 1 ≤ r → r < A.m → ∃ j, csrStored A r j)
    (srt : Coo R → List Nat) (hsrt : ∀ B : Coo R, (srt B).Perm (List.range B.nnz) ∧
      (srt B).Pairwise fun a b => B.rowLess b a = false) :
    ∃ text, writeMm io A false (some 1) = .ok text ∧
      ∃ B, readMmCsr io srt text = .ok B ∧ CsrWF B ∧ B.m = A.m ∧ B.n = A.n ∧ B.indexing = 1 ∧
        ∀ i < A.m, ∀ j < A.n, csrEntry B i j = csrEntry A i j := by
  refine ⟨_, rfl, ?_⟩
  have hf := mmFile_of (io := io) (m := A.m) (n := A.n) hbig.2.2
    (mmBlock_no_newline hio A ((1 : Nat) : Int) (((1 : Nat) : Int) - A.indexing)) (mmBlock_shows hio h 1 1)
  have hmem : ∀ e ∈ trip A 1 1, 1 ≤ e.1 ∧ e.1 ≤ A.m ∧ 1 ≤ e.2.1 ∧ e.2.1 ≤ A.n := by
    intro e he; have := trip_mem h he; omega
  obtain ⟨B, e, wf, e1, e2, e3, e4⟩ := C95_read_matrix_market io _ false A.m A.n _ hf ⟨hbig.1, hbig.2.1⟩
    (by simp) hmem
  have eB := readMmCoo_file hf (by omega) (by omega) (by simp) (fun e he => by have := hmem e he; omega)
  rw [e, Run.ok.injEq] at eB
  have hrows : B.rowind = (trip A 1 1).map (·.1) := by
    rw [eB]
    show ((trip A 1 1).flatMap (mirrored false)).map (·.1) = _
    congr 1
    rw [List.flatMap_congr (g := fun e => [e]) (fun e _ => by simp [mirrored])]
    exact List.flatMap_singleton' _
  obtain ⟨w1, w2⟩ := C57_sort_same_matrix B wf (srt B) (hsrt B).1
  have w3 := (C57_sort_by_row B (srt B) (hsrt B).2).1
  obtain ⟨C, c1, c2, c3, c4, c5, c6⟩ := C58_coo_to_csr_partial (B.gather (srt B)) w1 w3 (by
    intro r hr1 hr2
    obtain ⟨j, hst⟩ := hne r hr1 (by rw [← e1]; exact hr2)
    have hr3 : r < A.m := by rw [← e1]; exact hr2
    rw [csrStored_iff h hr3, List.mem_map] at hst
    obtain ⟨p, hp, _⟩ := hst
    have hin : r + 1 ∈ B.rowind := by
      rw [hrows, List.mem_map]
      refine ⟨(r + 1, p.1 - A.indexing + 1, p.2), ?_, rfl⟩
      simp only [trip, List.mem_flatMap, List.mem_range, List.mem_map]
      exact ⟨r, hr3, p, hp, rfl⟩
    show r + B.indexing ∈ (srt B).map fun i => B.rowind.getD i 0
    rw [e3, List.mem_map]
    obtain ⟨k, hk, hk'⟩ := List.getElem_of_mem hin
    refine ⟨k, (hsrt B).1.mem_iff.mpr ?_, ?_⟩
    · rw [List.mem_range, wf.nnz_eq, ← wf.rowind_length]; exact hk
    · rw [List.getD_eq_getElem _ _ hk, hk'])
  refine ⟨C, ?_, c2, c3.trans e1, c4.trans e2, c5.trans e3, ?_⟩
  · rw [readMmCsr, e, Run.bind, c1]
  · intro i hi j hj
    rw [c6 i (by show i < B.m; omega) j (by show j < B.n; omega), w2, e4, mmValue_general, listed_trip h hi]

/-- C94 (refuted): a valid file of a matrix with an empty second row is read as a different CSR matrix:
the entry of the third row ends up in the second. -/
theorem C94_csr_empty_row_refuted :
    let A : Csr Nat := { m := 3, n := 3, indexing := 1, rowptr := [1, 2, 2, 4], colind := [1, 1, 2],
                         nzval := [1, 2, 3] }
    CsrWF A ∧ ∃ text B, writeMm digitIO A false (some 1) = .ok text ∧
      readMmCsr digitIO (fun A => List.range A.nnz) text = .ok B ∧
      csrEntry A 2 0 = 2 ∧ csrEntry B 2 0 = 0 ∧ csrEntry B 1 0 = 2 := by
  refine ⟨⟨by simp, by simp, by decide, by simp, by simp, by decide⟩, _, _, rfl, by rfl, ?_⟩
  refine ⟨by decide +kernel, by decide +kernel, by decide +kernel⟩

/-! ### C96: distributed matrices -/

/-- the entries rank `r` writes -/
def distTrip [Zero R] (A : DistCsr R) (off : Nat) : List (Nat × Nat × R) :=
  (A.diag.elim [] fun D => trip D (A.localRowStart + off) (A.localRowStart + off)) ++
    A.offdiag.elim [] fun O => trip O (A.localRowStart + off) off

theorem distMmParts_shows [Zero R] [One R] {io : NumIO R} (hio : NumIO.Readable io) {A : Nat → DistCsr R}
    {P N : Nat} {ext : List (Nat × Nat)} (h : DistributedMatrix A P N ext) (off : Nat) :
    ∀ k ≤ P, ∃ ls, distMmParts io A off k = some ls ∧ (∀ l ∈ ls, ∀ c ∈ l, c ≠ '\n') ∧
      List.Forall₂ (fun l e => MmShows io l e.1 e.2.1 e.2.2) ls
        ((List.range k).flatMap fun r => distTrip (A r) off) := by
  intro k
  induction k with
  | zero => intro _; exact ⟨[], rfl, by simp, .nil⟩
  | succ k ih =>
    intro hk
    obtain ⟨ls, h1, h2, h3⟩ := ih (by omega)
    have hex : ∃ t, ext[k]? = some t := by
      have := h.partition.length_eq
      exact ⟨_, List.getElem?_eq_getElem (show k < ext.length by omega)⟩
    obtain ⟨⟨st, en⟩, ht⟩ := hex
    obtain ⟨D, d1, d2, d3, d4, d5⟩ := h.diag_ok k (by omega) st en ht
    have key : ∃ l, distMmPart io (A k) off = some l ∧ (∀ x ∈ l, ∀ c ∈ x, c ≠ '\n') ∧
        List.Forall₂ (fun l e => MmShows io l e.1 e.2.1 e.2.2) l (distTrip (A k) off) := by
      have b1 := mmBlock_shows hio d2 ((A k).localRowStart + off) ((A k).localRowStart + off)
      rw [d3] at b1
      simp only [Nat.cast_zero, sub_zero] at b1
      rw [distMmPart, d1]
      refine ⟨_, rfl, ?_, ?_⟩
      · intro x hx
        rw [List.mem_append] at hx
        rcases hx with hx | hx
        · exact mmBlock_no_newline hio _ _ _ x hx
        · cases ho : (A k).offdiag with
          | none => rw [ho] at hx; simp at hx
          | some O => rw [ho] at hx; exact mmBlock_no_newline hio _ _ _ x hx
      · rw [distTrip, d1]
        apply List.rel_append b1
        cases ho : (A k).offdiag with
        | none => exact .nil
        | some O =>
          obtain ⟨o1, o2, _⟩ := h.offdiag_ok k (by omega) st en ht O ho
          have b2 := mmBlock_shows hio o1 ((A k).localRowStart + off) off
          rw [o2] at b2
          simp only [Nat.cast_zero, sub_zero] at b2
          exact b2
    obtain ⟨l, k1, k2, k3⟩ := key
    refine ⟨ls ++ l, ?_, ?_, ?_⟩
    · rw [distMmParts, h1, Option.bind_some, k1]; rfl
    · intro x hx
      rcases List.mem_append.mp hx with hx | hx
      · exact h2 x hx
      · exact k2 x hx
    · rw [List.range_succ, List.flatMap_append, List.flatMap_singleton]
      exact List.rel_append h3 k3

theorem listed_flatMap [AddCommMonoid R] {α : Type} (l : List α) (f : α → List (Nat × Nat × R)) (r c : Nat) :
    listed (l.flatMap f) r c = (l.map fun a => listed (f a) r c).sum := by
  induction l with
  | nil => rfl
  | cons a l ih => rw [List.flatMap_cons, listed_append, ih, List.map_cons, List.sum_cons]

theorem dist_write_base [AddCommMonoid R] [One R] (io : NumIO R) (hio : NumIO.Readable io)
    (A : Nat → DistCsr R) (P N : Nat) (ext : List (Nat × Nat)) (h : DistributedMatrix A P N ext)
    (hP : 0 < P) (b : Nat)
    (hb : b = 1 ∨ b = 0 ∧ ∃ e ∈ (List.range P).flatMap fun r => distTrip (A r) 0, e.1 = 0 ∨ e.2.1 = 0) (hm : (A 0).m = N) (hN : N + 1 < 9223372036854775808)
    (hnnz : ((List.range P).map fun r => distNnz (A r)).sum < 9223372036854775808) :
    ∃ text, writeDistMm io P A (some b) = some text ∧
      ∃ B, readMmCoo io text = .ok B ∧ CooWF B ∧ B.m = N ∧ B.n = N ∧
        ∀ r < P, ∀ st en, ext[r]? = some (st, en) → ∀ i < en - st, ∀ j < N,
          cooEntry B (st + i) j = distEntry (A r) st en i j := by
  obtain ⟨ls, h1, h2, h3⟩ := distMmParts_shows hio h b P le_rfl
  have hlrs : ∀ r < P, ∀ st en, ext[r]? = some (st, en) → (A r).localRowStart = st := by
    intro r hr st en ht
    rw [DistCsr.localRowStart, DistCsr.rowBounds, h.extents_eq r hr, h.rank_eq r hr, List.getD_eq_getElem?_getD,
      ht]; rfl
  have hext : ∀ r < P, ∃ st en, ext[r]? = some (st, en) := by
    intro r hr
    have : ∃ t, ext[r]? = some t := by
      have := h.partition.length_eq
      exact ⟨_, List.getElem?_eq_getElem (show r < ext.length by omega)⟩
    obtain ⟨⟨st, en⟩, ht⟩ := this
    exact ⟨st, en, ht⟩
  have hle : ∀ r < P, ∀ st en, ext[r]? = some (st, en) → st ≤ en ∧ en ≤ N := by
    intro r hr st en ht
    refine ⟨h.partition.ordered _ (List.mem_of_getElem? ht), ?_⟩
    rcases Nat.lt_or_ge r (P - 1) with hlt | hge
    · obtain ⟨st', en', ht'⟩ := hext (P - 1) (by omega)
      have a := h.partition.mono hlt ht ht'
      have b := h.partition.ordered _ (List.mem_of_getElem? ht')
      have c := h.partition.ends _ ht'
      simp only at a b c
      omega
    · have : r = P - 1 := by omega
      subst this
      have c := h.partition.ends _ ht
      simp only at c
      omega
  -- rows and columns written by a rank
  have hmem : ∀ r < P, ∀ st en, ext[r]? = some (st, en) → ∀ e ∈ distTrip (A r) b,
      st + b ≤ e.1 ∧ e.1 < en + b ∧ b ≤ e.2.1 ∧ e.2.1 < N + b := by
    intro r hr st en ht e he
    have hl := hle r hr st en ht
    obtain ⟨D, d1, d2, d3, d4, d5⟩ := h.diag_ok r hr st en ht
    rw [distTrip, d1, hlrs r hr st en ht, List.mem_append] at he
    rcases he with he | he
    · have := trip_mem d2 he
      rw [d4, d5] at this
      omega
    · cases ho : (A r).offdiag with
      | none => rw [ho] at he; simp at he
      | some O =>
        rw [ho] at he
        obtain ⟨o1, o2, o3, o4, o5⟩ := h.offdiag_ok r hr st en ht O ho
        have := trip_mem o1 he
        rw [o3, o4] at this
        omega
  have hf := mmFile_of (io := io) (m := (A 0).m) (n := (A 0).n) hnnz h2 h3
  refine ⟨_, by rw [writeDistMm, h1]; rfl, ?_⟩
  have hn0 := h.n_eq 0 hP
  obtain ⟨B, e, wf, e1, e2, _, e4⟩ := readMmCoo_value (b := b) hf
    (by rw [hm]; omega) (by rw [hn0]; omega) (by simp) (by
      intro e he
      rw [List.mem_flatMap] at he
      obtain ⟨r, hr, he⟩ := he
      rw [List.mem_range] at hr
      obtain ⟨st, en, ht⟩ := hext r hr
      have := hmem r hr st en ht e he
      have := hle r hr st en ht
      rw [hm, hn0]
      omega) (by rw [hm, hn0]; omega) (by
      rcases hb with rfl | ⟨rfl, hz⟩
      · exact .inl rfl
      · exact .inr ⟨rfl, hz⟩)
  refine ⟨B, e, wf, e1.trans hm, e2.trans hn0, ?_⟩
  intro r hr st en ht i hi j hj
  rw [e4, mmValue_general, listed_flatMap, sum_map_range, Finset.sum_eq_single r]
  · obtain ⟨D, d1, d2, d3, d4, d5⟩ := h.diag_ok r hr st en ht
    rw [distTrip, d1, hlrs r hr st en ht, listed_append, distEntry, d1]
    show listed (trip D (st + b) (st + b)) (st + i + b) (j + b) + _ = _
    congr 1
    · show _ = if st ≤ j ∧ j < en then csrEntry D i (j - st) else 0
      split
      · rename_i hj'
        have := listed_trip d2 (ro := st + b) (k := st + b) (i := i) (by omega) (j - st)
        rw [show i + (st + b) = st + i + b by omega, show j - st + (st + b) = j + b by omega] at this
        exact this
      · apply listed_zero
        intro e he hh
        have := trip_mem d2 he
        omega
    · cases ho : (A r).offdiag with
      | none => rfl
      | some O =>
        obtain ⟨o1, o2, o3, o4, o5⟩ := h.offdiag_ok r hr st en ht O ho
        have := listed_trip o1 (ro := st + b) (k := b) (i := i) (by omega) j
        rw [show i + (st + b) = st + i + b by omega] at this
        exact this
  · intro r' hr' hne
    rw [Finset.mem_range] at hr'
    obtain ⟨st', en', ht'⟩ := hext r' hr'
    apply listed_zero
    intro e he hh
    have a := hmem r' hr' st' en' ht' e he
    rcases Nat.lt_or_gt_of_ne hne with hlt | hlt
    · have b := h.partition.mono hlt ht' ht
      simp only at b
      omega
    · have b := h.partition.mono hlt ht ht'
      simp only at b
      omega
  · intro hh; exact absurd (Finset.mem_range.mpr hr) hh

/-- C96: the file written by all ranks of a distributed square matrix, with indices counted from one, is
read as the global matrix: the row of every owner carries the entries of its tiles. -/
theorem C96_distributed_write [AddCommMonoid R] [One R] (io : NumIO R) (hio : NumIO.Readable io)
    (A : Nat → DistCsr R) (P N : Nat) (ext : List (Nat × Nat)) (h : DistributedMatrix A P N ext)
    (hP : 0 < P) (hm : (A 0).m = N) (hN : N + 1 < 9223372036854775808)
    (hnnz : ((List.range P).map fun r => distNnz (A r)).sum < 9223372036854775808) :
    ∃ text, writeDistMm io P A (some 1) = some text ∧
      ∃ B, readMmCoo io text = .ok B ∧ CooWF B ∧ B.m = N ∧ B.n = N ∧
        ∀ r < P, ∀ st en, ext[r]? = some (st, en) → ∀ i < en - st, ∀ j < N,
          cooEntry B (st + i) j = distEntry (A r) st en i j :=
  dist_write_base io hio A P N ext h hP 1 (.inl rfl) hm hN hnnz

/-- C96: without a forced index, or with zero, the file counts from zero; it is read as the global matrix when
something is stored in row or column zero (otherwise the reader takes it to count from one, as in C94). -/
theorem C96_default_write [AddCommMonoid R] [One R] (io : NumIO R) (hio : NumIO.Readable io)
    (A : Nat → DistCsr R) (P N : Nat) (ext : List (Nat × Nat)) (h : DistributedMatrix A P N ext)
    (hP : 0 < P) (forced : Option Nat) (hfo : forced = none ∨ forced = some 0)
    (hz : ∃ r < P, ∃ st en, ext[r]? = some (st, en) ∧
      ((∃ D, (A r).diag = some D ∧ ∃ i < D.m, ∃ j, csrStored D i j ∧ (st + i = 0 ∨ st + j = 0)) ∨
       (∃ O, (A r).offdiag = some O ∧ ∃ i < O.m, ∃ j, csrStored O i j ∧ (st + i = 0 ∨ j = 0))))
    (hm : (A 0).m = N) (hN : N + 1 < 9223372036854775808)
    (hnnz : ((List.range P).map fun r => distNnz (A r)).sum < 9223372036854775808) :
    ∃ text, writeDistMm io P A forced = some text ∧
      ∃ B, readMmCoo io text = .ok B ∧ CooWF B ∧ B.m = N ∧ B.n = N ∧
        ∀ r < P, ∀ st en, ext[r]? = some (st, en) → ∀ i < en - st, ∀ j < N,
          cooEntry B (st + i) j = distEntry (A r) st en i j := by
  have hw : writeDistMm io P A forced = writeDistMm io P A (some 0) := by rcases hfo with rfl | rfl <;> rfl
  rw [hw]
  refine dist_write_base io hio A P N ext h hP 0 (.inr ⟨rfl, ?_⟩) hm hN hnnz
  obtain ⟨r, hr, st, en, ht, hz⟩ := hz
  have hlrs : (A r).localRowStart = st := by
    rw [DistCsr.localRowStart, DistCsr.rowBounds, h.extents_eq r hr, h.rank_eq r hr, List.getD_eq_getElem?_getD,
      ht]; rfl
  have key : ∀ (T : Csr R), CsrWF T → T.indexing = 0 → ∀ i < T.m, ∀ j, csrStored T i j → ∀ ro k,
      ∃ v, (i + ro, j + k, v) ∈ trip T ro k := by
    intro T wf h0 i hi j hst ro k
    rw [csrStored_iff wf hi, List.mem_map] at hst
    obtain ⟨p, hp, hpe⟩ := hst
    refine ⟨p.2, ?_⟩
    simp only [trip, List.mem_flatMap, List.mem_range, List.mem_map]
    refine ⟨i, hi, p, hp, ?_⟩
    rw [h0] at hpe ⊢
    rw [show p.1 - 0 = j by omega]
  obtain ⟨D, d1, d2, d3, -, -⟩ := h.diag_ok r hr st en ht
  simp only [List.mem_flatMap, List.mem_range]
  rcases hz with ⟨D', e, i, hi, j, hst, hz⟩ | ⟨O, e, i, hi, j, hst, hz⟩
  · obtain rfl : D = D' := by rw [d1] at e; exact Option.some.inj e
    obtain ⟨v, hv⟩ := key D d2 d3 i hi j hst (st + 0) (st + 0)
    refine ⟨(i + (st + 0), j + (st + 0), v), ⟨r, hr, ?_⟩, show i + (st + 0) = 0 ∨ j + (st + 0) = 0 by omega⟩
    rw [distTrip, d1, hlrs]
    exact List.mem_append_left _ hv
  · obtain ⟨o1, o2, -⟩ := h.offdiag_ok r hr st en ht O e
    obtain ⟨v, hv⟩ := key O o1 o2 i hi j hst (st + 0) 0
    refine ⟨(i + (st + 0), j + 0, v), ⟨r, hr, ?_⟩, show i + (st + 0) = 0 ∨ j + 0 = 0 by omega⟩
    rw [distTrip, d1, hlrs, e]
    exact List.mem_append_right _ hv

/-- two ranks with one row each -/
example : writeDistMm digitIO 2 (fun r => (⟨2, r, 2, 2, [(0, 1), (1, 2)], some ⟨1, 1, 0, [0, 1], [0], [5 + r]⟩,
      if r = 0 then none else some ⟨1, 2, 0, [0, 1], [0], [9]⟩⟩ : DistCsr Nat)) (some 1) =
    some "%%MatrixMarket matrix coordinate real general\n2 2 3\n1 1 5\n2 2 6\n2 1 9\n".toList := by
  decide +kernel

/-- the same without a forced index -/
example : writeDistMm digitIO 2 (fun r => (⟨2, r, 2, 2, [(0, 1), (1, 2)], some ⟨1, 1, 0, [0, 1], [0], [5 + r]⟩,
      if r = 0 then none else some ⟨1, 2, 0, [0, 1], [0], [9]⟩⟩ : DistCsr Nat)) none =
    some "%%MatrixMarket matrix coordinate real general\n2 2 3\n0 0 5\n1 1 6\n1 0 9\n".toList := by
  decide +kernel

/-! ### C97: binary triplets -/

/-- C97 (CSR or COO writer, part that holds): a matrix that is neither a pure upper nor a pure lower
triangle (or is diagonal), with index base one or with something stored in row or column zero, is read
back as the same matrix. -/
theorem C97_triplet_round_trip_partial [AddCommMonoid R] (A : Coo R) (h : CooWF A)
    (hb : A.indexing = 1 ∨ A.indexing = 0 ∧ (0 ∈ A.rowind ∨ 0 ∈ A.colind))
    (hc : UpperStored A ↔ LowerStored A) (srt : Coo R → List Nat)
    (hsrt : ∀ B : Coo R, (srt B).Perm (List.range B.nnz)) :
    ∃ B, readTripletCoo srt (writeTripletCoo A) = .ok B ∧ CooWF B ∧ B.m = A.m ∧ B.n = A.n ∧
      B.indexing = A.indexing ∧ ∀ i j, cooEntry B i j = cooEntry A i j := by
  have e : Coo.determineIndexing { A with indexing := 1 } = A := by
    rw [Coo.determineIndexing]
    have : (if (A.rowind.any (· == 0) || A.colind.any (· == 0)) = true then 0 else 1) = A.indexing := by
      simp only [Bool.or_eq_true, List.any_eq_true, beq_iff_eq]
      rcases hb with hb | ⟨hb, h0⟩
      · rw [if_neg, hb]
        rintro (⟨c, hc, rfl⟩ | ⟨c, hc, rfl⟩)
        · have := h.row_range 0 hc; omega
        · have := h.col_range 0 hc; omega
      · rw [if_pos, hb]
        rcases h0 with h0 | h0
        · exact .inl ⟨0, h0, rfl⟩
        · exact .inr ⟨0, h0, rfl⟩
    rw [this]
  obtain ⟨w1, w2⟩ := C57_sort_same_matrix A h (srt A) (hsrt A)
  refine ⟨A.gather (srt A), ?_, w1, rfl, rfl, rfl, w2⟩
  rw [readTripletCoo, writeTripletCoo]
  simp only
  have e' : Coo.determineIndexing
      { m := A.m, n := A.n, nnz := A.nnz, indexing := 1, rowind := A.rowind, colind := A.colind,
        nzval := A.nzval } = A := e
  rw [e', C60_expand_unchanged A h hc]

/-- C97: the CSR writer stores what the COO writer stores for the converted matrix. -/
theorem C97_csr_writer (A : Csr R) : writeTripletCsr A = writeTripletCoo (Coo.ofCsr A) := rfl

/-- C97 (refuted): a triangular matrix does not survive: the reader mirrors it. -/
theorem C97_triangle_refuted :
    let A : Csr Nat := { m := 2, n := 2, indexing := 1, rowptr := [1, 2, 4], colind := [1, 1, 2],
                         nzval := [1, 2, 3] }
    CsrWF A ∧ ∃ B, readTripletCoo (fun _ => [0, 3, 1, 2]) (writeTripletCsr A) = .ok B ∧
      csrEntry A 0 1 = 0 ∧ cooEntry B 0 1 = 2 := by
  refine ⟨⟨by simp, by simp, by decide, by simp, by simp, by decide⟩, _, rfl, ?_⟩
  exact ⟨by decide +kernel, by decide +kernel⟩

/-- the hypotheses of the part that holds are met by a full 2x2 matrix -/
example : UpperStored (⟨2, 2, 3, 1, [1, 1, 2], [1, 2, 1], [1, 2, 3]⟩ : Coo Nat) ↔
    LowerStored (⟨2, 2, 3, 1, [1, 1, 2], [1, 2, 1], [1, 2, 3]⟩ : Coo Nat) := by
  simp only [UpperStored, LowerStored]
  decide

/-! ### C98: Rutherford-Boeing files -/

/-- the numbers of one array laid out over lines, none of which is reached after the array is full -/
inductive RbLines {α : Type} (shows : List Char → α → Prop) : List (List Char) → List α → Prop
  | last {l ws xs} : ShowsWords l ws → List.Forall₂ shows ws xs → RbLines shows [l] xs
  | more {l ws xs ls ys} : ShowsWords l ws → List.Forall₂ shows ws xs → RbLines shows ls ys → ys ≠ [] →
      RbLines shows (l :: ls) (xs ++ ys)

theorem rb_line {α : Type} {conv : List Char → Run α} {total : Nat} {ws : List (List Char)} {xs : List α}
    (h : List.Forall₂ (fun w x => conv w = .ok x) ws xs) : ∀ acc : List α, acc.length + xs.length ≤ total →
    ws.foldl (fun st t => st.bind fun acc => (conv t).bind fun x =>
        if acc.length < total then .ok (acc ++ [x]) else .ub) (Run.ok acc) = .ok (acc ++ xs) := by
  induction h with
  | nil => intro acc _; simp
  | @cons w x ws xs hw _ ih =>
    intro acc hl
    rw [List.length_cons] at hl
    rw [List.foldl_cons]
    have e : (Run.ok acc).bind (fun acc => (conv w).bind fun x =>
        if acc.length < total then .ok (acc ++ [x]) else .ub) = .ok (acc ++ [x]) := by
      rw [Run.bind, hw, Run.bind, if_pos (by omega)]
    rw [e, ih _ (by simp; omega)]
    simp

theorem rb_loop {α : Type} {zero : α} {conv : List Char → Run α} {total : Nat} {ls rest : List (List Char)}
    {xs : List α} (h : RbLines (fun w x => conv w = .ok x) ls xs) : ∀ acc : List α,
    acc.length + xs.length = total → rbLoop zero conv total (ls ++ rest) acc = .ok (acc ++ xs, rest) := by
  induction h with
  | last hw hc =>
    intro acc hl
    rw [List.singleton_append, rbLoop, tokenize_words hw, rb_line hc acc (by omega), Run.bind]
    rw [if_pos (by simp [hl])]
  | @more l ws xs ls ys hw hc _ hne ih =>
    intro acc hl
    rw [List.length_append] at hl
    have : 0 < ys.length := List.length_pos_of_ne_nil hne
    rw [List.cons_append, rbLoop, tokenize_words hw, rb_line hc acc (by omega), Run.bind]
    rw [if_neg (by rw [List.length_append]; omega), ih _ (by rw [List.length_append]; omega)]
    simp

/-- A Rutherford-Boeing file: two header lines, the line with the type, the dimensions, the number of
entries and one more number, the format line, and the three arrays. -/
structure RbFile (io : NumIO R) (file : List Char) (m n : Nat) (colptr rowind : List Nat)
    (nzval : List R) : Prop where
  lines : ∃ (l0 l1 l2 l3 typ el : List Char) (c r v rest : List (List Char)),
    file = (l0 :: l1 :: l2 :: l3 :: (c ++ (r ++ (v ++ rest)))).flatMap (fun l => l ++ ['\n']) ∧
    (∀ l ∈ l0 :: l1 :: l2 :: l3 :: (c ++ (r ++ (v ++ rest))), ∀ x ∈ l, x ≠ '\n') ∧
    ShowsWords l2 [typ, showNat m, showNat n, showNat nzval.length, el] ∧
    RbLines (fun w x => w = showNat x ∧ x < 2147483648) c colptr ∧
    RbLines (fun w x => w = showNat x ∧ x < 2147483648) r rowind ∧
    RbLines (fun w x => io.parse w = some x) v nzval

theorem RbLines.imp {α : Type} {P Q : List Char → α → Prop} (hpq : ∀ w x, P w x → Q w x)
    {ls : List (List Char)} {xs : List α} (h : RbLines P ls xs) : RbLines Q ls xs := by
  induction h with
  | last hw hc => exact .last hw (hc.imp hpq)
  | more hw hc _ hne ih => exact .more hw (hc.imp hpq) ih hne

/-- C98: reading a Rutherford-Boeing file gives the CSC matrix, index base one, with exactly its three
arrays; a well-formed description gives a well-formed matrix. -/
theorem C98_read_rb [Zero R] (io : NumIO R) (file : List Char) (m n : Nat) (colptr rowind : List Nat)
    (nzval : List R) (h : RbFile io file m n colptr rowind nzval) (hm : m < 9223372036854775808)
    (hn : n < 9223372036854775808) (hnnz : nzval.length < 9223372036854775808)
    (hc : colptr.length = n + 1) (hr : rowind.length = nzval.length) :
    readRbCsc io file = .ok { m := m, n := n, indexing := 1, colptr := colptr, rowind := rowind,
                              nzval := nzval } := by
  obtain ⟨l0, l1, l2, l3, typ, el, c, r, v, rest, hf, hnl, hw, k1, k2, k3⟩ := h.lines
  have hl : fileLines file = l0 :: l1 :: l2 :: l3 :: (c ++ (r ++ (v ++ rest))) := by
    rw [hf]; exact fileLines_unlines _ hnl
  have conv : ∀ w x, (w = showNat x ∧ x < 2147483648) → stoiNat w = .ok x := by
    rintro w x ⟨rfl, hx⟩; exact stoiNat_showNat hx
  have e1 := rb_loop (zero := 0) (rest := r ++ (v ++ rest)) (k1.imp conv) [] (total := n + 1) (by simp [hc])
  have e2 := rb_loop (zero := 0) (rest := v ++ rest) (k2.imp conv) [] (total := nzval.length) (by simp [hr])
  have e3 := rb_loop (zero := 0) (rest := rest) (k3.imp (Q := fun w x => stodRun io w = .ok x) (by
    intro w x hx; rw [stodRun, hx])) [] (total := nzval.length) (by simp)
  rw [readRbCsc, hl]
  simp only [List.getD_cons_succ, List.getD_cons_zero, tokenize_words hw, stollNat_showNat hm,
    stollNat_showNat hn, stollNat_showNat hnnz, Run.bind, List.drop_succ_cons, List.drop_zero, e1, e2, e3,
    List.nil_append]

/-- a file of a 2x2 matrix with the column pointers spread over two lines -/
example : readRbCsc digitIO ("t\n1 1 1 1\nrua 2 2 3 0\n(fmt)\n1 3\n 4\n1 2 2\n7 8\n9\n".toList) =
    .ok { m := 2, n := 2, indexing := 1, colptr := [1, 3, 4], rowind := [1, 2, 2], nzval := [7, 8, 9] } := by
  decide +kernel

/-- C99 (refuted): the type of a symmetric file is ignored; only the stored triangle is returned. -/
theorem C99_symmetric_rb_refuted :
    ∃ B, readRbCsc digitIO ("t\n1 1 1 1\nrsa 2 2 2 0\n(fmt)\n1 3 3\n1 2\n7 8\n".toList) = .ok B ∧
      cscEntry B 1 0 = 8 ∧ cscEntry B 0 1 = 0 := by
  refine ⟨_, by rfl, by decide +kernel, by decide +kernel⟩

end Macis
