import Verif.Props.WfnIO
import Verif.Props.RdmBin

/-! Exact statements beside the refuted claims on damaged files: what the readers make of a wavefunction
file cut at any point (C75) and of a binary RDM file of any length (C78). -/
namespace Macis
open Spec

/-- a text cut after `n` characters: complete lines and a piece of the next line -/
theorem take_unlines (ls : List (List Char)) : ∀ n, ∃ k t,
    (ls.flatMap (fun l => l ++ ['\n'])).take n = (ls.take k).flatMap (fun l => l ++ ['\n']) ++ t ∧
    ((∃ h : k < ls.length, t <+: ls[k]) ∨ (k = ls.length ∧ t = [])) := by
  induction ls with
  | nil => intro n; exact ⟨0, [], by simp, Or.inr ⟨rfl, rfl⟩⟩
  | cons l ls ih =>
    intro n
    by_cases hn : n ≤ l.length
    · refine ⟨0, l.take n, ?_, Or.inl ⟨by simp, ?_⟩⟩
      · rw [List.flatMap_cons, List.append_assoc, List.take_append_of_le_length hn]; simp
      · exact List.take_prefix n l
    · obtain ⟨k, t, h1, h2⟩ := ih (n - (l.length + 1))
      refine ⟨k + 1, t, ?_, ?_⟩
      · rw [List.flatMap_cons, List.take_append, List.length_append, List.length_singleton, h1, List.take_of_length_le (by simp; omega)]
        simp
      · rcases h2 with ⟨h, h2⟩ | ⟨h, h2⟩
        · exact Or.inl ⟨by simpa using h, by simpa using h2⟩
        · exact Or.inr ⟨by simpa using h, h2⟩

/-- the lines of a text whose last line is not terminated -/
theorem fileLines_partial (ls : List (List Char)) (t : List Char) (h : ∀ l ∈ ls, ∀ c ∈ l, c ≠ '\n')
    (ht : ∀ c ∈ t, c ≠ '\n') :
    fileLines (ls.flatMap (fun l => l ++ ['\n']) ++ t) = ls ++ if t = [] then [] else [t] := by
  induction ls with
  | nil =>
    simp only [List.flatMap_nil, List.nil_append]
    by_cases h0 : t = []
    · subst h0; rfl
    · rw [if_neg h0, fileLines]
      have : t.splitOn '\n' = [t] := by
        rw [List.splitOn_eq_splitOnP, List.splitOnP_eq_singleton]
        intro x hx; simp [ht x hx]
      simp [this, h0]
  | cons l ls ih =>
    rw [List.flatMap_cons, List.append_assoc, List.append_assoc, List.singleton_append,
      fileLines_cons l (h l (by simp)), ih (fun m hm => h m (by simp [hm]))]
    rfl

theorem mapM_snoc {α β : Type} (f : α → Option β) (l : List α) (x : α) :
    (l ++ [x]).mapM f = (l.mapM f).bind fun r => (f x).map fun y => r ++ [y] := by
  rw [List.mapM_append]
  cases l.mapM f with
  | none => rfl
  | some r =>
    simp only [List.mapM_cons, List.mapM_nil]
    cases f x <;> rfl

/-- C75 (exact): a written wavefunction file cut anywhere after its header.  The part read back is: the
determinants `0, ..., k-1` whose lines are complete, then - if the cut is inside the line of determinant
`k` - whatever the piece `t` of that line parses to.  The number of determinants announced in the header
is never compared with what is there. -/
theorem C75_every_cut {M : Nat} (hM : 0 < M) (hM' : 2 * M < 2147483648) {R : Type} (io : NumIO R)
    (hio : NumIO.Faithful io) (norb : Nat) (hnorb : norb < 2147483648)
    (s0 : BitVec (2 * M)) (ss : List (BitVec (2 * M))) (coeffs : List R)
    (hlen : (s0 :: ss).length = coeffs.length) (hns : (s0 :: ss).length < 2147483648) :
    ∃ file, writeWavefunction io norb (s0 :: ss) coeffs = .ok (some file) ∧
      ∀ n, ((fileLines file).headD []).length < n → ∃ k t,
        file.take n = ((fileLines file).take (k + 1)).flatMap (fun l => l ++ ['\n']) ++ t ∧
        ((∃ h : k < (s0 :: ss).length, t <+: wfnLine io (coeffs[k]'(by omega)) ((s0 :: ss)[k])) ∨
          (k = (s0 :: ss).length ∧ t = [])) ∧
        readWavefunction M io (file.take n) =
          if t = [] then .ok ((s0 :: ss).take k, coeffs.take k)
          else match readWfnLine M io t with
            | some (d, c) => .ok ((s0 :: ss).take k ++ [d], coeffs.take k ++ [c])
            | none => .throw := by
  obtain ⟨file, hw, hl⟩ := write_lines hio norb s0 ss coeffs hlen
  refine ⟨file, hw, ?_⟩
  set hd := wfnHeader (s0 :: ss).length norb (count (s0 <<< M)) (count (s0 >>> M)) with hhd
  set rows := List.zipWith (fun c d => wfnLine io c d) coeffs (s0 :: ss) with hrows
  have hrl : rows.length = (s0 :: ss).length := by rw [hrows, List.length_zipWith]; omega
  have hfile : file = (hd :: rows).flatMap (fun l => l ++ ['\n']) := by
    have := hw
    rw [writeWavefunction, if_neg (not_not.mpr hlen)] at this
    simp only [Run.ok.injEq, Option.some.injEq] at this
    rw [← this]
  have hrn : ∀ l ∈ rows, ∀ x ∈ l, x ≠ '\n' := by
    intro l hl'
    rw [List.mem_iff_getElem] at hl'
    obtain ⟨i, hi, rfl⟩ := hl'
    simp only [hrows, List.getElem_zipWith]
    exact wfnLine_no_newline hio _ _
  intro n hn
  rw [hl, List.headD_cons] at hn
  obtain ⟨k, t, h1, h2⟩ := take_unlines rows (n - (hd.length + 1))
  have h1' : file.take n = (hd :: rows.take k).flatMap (fun l => l ++ ['\n']) ++ t := by
    rw [hfile, List.flatMap_cons, List.take_append, List.length_append, List.length_singleton, h1, List.take_of_length_le (by simp; omega)]
    simp
  have ht : ∀ c ∈ t, c ≠ '\n' := by
    rcases h2 with ⟨h, h2⟩ | ⟨_, rfl⟩
    · intro c hc
      exact hrn _ (List.getElem_mem h) c (h2.subset hc)
    · simp
  refine ⟨k, t, ?_, ?_, ?_⟩
  · rw [h1', hl, List.take_succ_cons]
  · rcases h2 with ⟨h, h2⟩ | ⟨h, h2⟩
    · refine Or.inl ⟨by omega, ?_⟩
      simp only [hrows, List.getElem_zipWith] at h2
      exact h2
    · exact Or.inr ⟨by omega, h2⟩
  · have hlines : fileLines (file.take n) = hd :: (rows.take k ++ if t = [] then [] else [t]) := by
      rw [h1', fileLines_partial _ _ _ ht]
      · rfl
      · intro l hl'
        rw [List.mem_cons] at hl'
        rcases hl' with rfl | hl'
        · exact wfnHeader_no_newline _ _ _ _
        · exact hrn l (List.mem_of_mem_take hl')
    have hmap : (rows.take k).mapM (readWfnLine M io) = some (((s0 :: ss).take k).zip (coeffs.take k)) := by
      rw [hrows, List.take_zipWith]
      exact wfn_rows hM hio _ _ (by simp only [List.length_take]; omega)
    have h1 := count_le _ (s0 <<< M)
    have h2 := count_le _ (s0 >>> M)
    simp only [readWavefunction, hlines, List.headD_cons, hhd, wfnHeader_words, List.getD_cons_succ,
      List.getD_cons_zero, List.tail_cons, stoi_showNat hns, stoi_showNat hnorb,
      stoi_showNat (show count (s0 <<< M) < 2147483648 by omega),
      stoi_showNat (show count (s0 >>> M) < 2147483648 by omega)]
    rw [if_neg (by omega)]
    have hl1 : ((s0 :: ss).take k).length = (coeffs.take k).length := by
      simp only [List.length_take]; omega
    by_cases h0 : t = []
    · rw [if_pos h0, if_pos h0, List.append_nil, hmap]
      simp only
      rw [List.map_fst_zip (by omega), List.map_snd_zip (by omega)]
    · rw [if_neg h0, if_neg h0, mapM_snoc, hmap]
      cases readWfnLine M io t with
      | none => rfl
      | some r =>
        simp only [Option.bind_some, Option.map_some, List.map_append, List.map_cons, List.map_nil]
        rw [List.map_fst_zip (by omega), List.map_snd_zip (by omega)]

/-- C75 (exact): a piece of a determinant line that ends inside the determinant string is accepted, with
the right coefficient and a determinant that has lost all electrons in the orbitals whose characters are
missing (all electrons when the cut is just after the coefficient). -/
theorem C75_cut_in_string {M : Nat} {R : Type} (io : NumIO R) (hio : NumIO.Faithful io) (c : R)
    (d : BitVec (2 * M)) (j : Nat) :
    ∃ d' : BitVec (2 * M),
      readWfnLine M io (padLeft 30 (io.fmt c) ++ ' ' :: (toCanonicalString d).take j) = some (d', c) ∧
      ∀ i < M, d'.getLsbD i = (d.getLsbD i && decide (i < j)) ∧
        d'.getLsbD (i + M) = (d.getLsbD (i + M) && decide (i < j)) := by
  have hs : isSpaceC ' ' = true := by decide
  have hcl : (toCanonicalString d).length = M := by simp [toCanonicalString]
  obtain ⟨d', he, ha, hb⟩ := C12_parse_meaning M ((toCanonicalString d).take j)
    (by rw [List.length_take]; omega)
  have hget : ∀ i, ((toCanonicalString d).take j)[i]? =
      if i < j then (toCanonicalString d)[i]? else none := by
    intro i; rw [List.getElem?_take]
  refine ⟨d', ?_, ?_⟩
  · have hw : ∃ ws, words (padLeft 30 (io.fmt c) ++ ' ' :: (toCanonicalString d).take j) = io.fmt c :: ws ∧
        ws.getD 0 [] = (toCanonicalString d).take j := by
      rw [words_eq_pieces, padLeft, List.append_assoc, pieces_pad isSpaceC ' ' hs,
        pieces_word isSpaceC _ (hio.oneWord c) (fmt_ne_nil hio c) ' ' hs]
      refine ⟨_, rfl, ?_⟩
      by_cases h0 : (toCanonicalString d).take j = []
      · rw [h0, pieces_nil]; rfl
      · rw [pieces_last isSpaceC _ (fun x hx => canonical_not_space d (List.mem_of_mem_take hx)) h0]
        rfl
    obtain ⟨ws, hw1, hw2⟩ := hw
    simp only [readWfnLine, hw1, List.getD_cons_succ, List.getD_cons_zero, hw2, he, hio.roundTrip]
  · intro i hi
    obtain ⟨_, m1, m2, m3, _⟩ := C12_string_meaning M d i hi
    have ha' := ha i
    have hb' := hb i
    rw [hget, getLsbD_loWord] at ha'
    rw [hget, getLsbD_hiWord] at hb'
    simp only [hi, decide_true, Bool.true_and] at ha' hb'
    by_cases hj : i < j
    · rw [if_pos hj, m1, m2] at ha'
      rw [if_pos hj, m1, m3] at hb'
      constructor
      · rw [Bool.eq_iff_iff, ha']
        cases d.getLsbD i <;> cases d.getLsbD (i + M) <;> simp [hj]
      · rw [Bool.eq_iff_iff, hb']
        cases d.getLsbD i <;> cases d.getLsbD (i + M) <;> simp [hj]
    · rw [if_neg hj] at ha' hb'
      constructor
      · rw [Bool.eq_iff_iff, ha']; simp [hj]
      · rw [Bool.eq_iff_iff, hb']; simp [hj]

/-- both kinds of cut on a two-determinant file: after the first determinant line, and inside the second
one's string (the electrons of the second orbital are lost) -/
example : readWavefunction 2 toyNum ("2 2 1 1\n 7e 20 \n").toList = .ok ([0b0101#4], [7]) ∧
    readWavefunction 2 toyNum ("2 2 1 1\n 7e 20 \n 12e 0").toList = .ok ([0b0101#4, 0b0000#4], [7, 12]) := by
  constructor <;> decide +kernel

/-- C78 (exact): a binary RDM file with the right orbital count is accepted whatever its length.  Element
`m` (in storage order) of the one-body block is value `m` of the file, or zero when the file is too short;
element `m` of the two-body block is value `norb^2 + m` of the file, or, when the file ends before it, the
one-body value `m` still in the buffer if `m < norb^2`, else zero. -/
theorem C78_any_length {R : Type} [Zero R] (norb ld1 ld2 : Nat) (h1 : norb ≤ ld1) (h2 : norb ≤ ld2)
    (vals : List R) (O T : Nat → R) :
    ∃ O' T', readRdmsBinary (some ⟨some (toInt32 norb), vals⟩) norb O ld1 T ld2 = (.ok (), O', T') ∧
      (∀ i j, i < norb → j < norb → O' (i + j * ld1) = vals.getD (i + j * norb) 0) ∧
      (∀ i j k l, i < norb → j < norb → k < norb → l < norb →
        T' (addr4 ld2 i j k l) =
          (if norb * norb + addr4 norb i j k l < vals.length then vals.getD (norb * norb + addr4 norb i j k l) 0
           else if addr4 norb i j k l < norb * norb then vals.getD (addr4 norb i j k l) 0 else 0)) := by
  simp only [readRdmsBinary, ne_eq, not_true_eq_false, if_false]
  refine ⟨_, _, rfl, ?_, ?_⟩
  · intro i j hi hj
    rw [(fill2 h1 _ _).1 i j hi hj, fillRaw, if_pos (lt_sq hi hj)]
  · intro i j k l hi hj hk hl
    rw [(fill4 h2 _ _).1 i j k l hi hj hk hl]
    have e : i + j * norb + k * norb * norb + l * norb * norb * norb = addr4 norb i j k l := rfl
    simp only [e]
    rw [fillRaw, if_pos (lt_quart hi hj hk hl)]
    simp only [List.getD_eq_getElem?_getD, List.getElem?_drop, fillRaw]
    by_cases h : norb * norb + addr4 norb i j k l < vals.length
    · rw [if_pos h, List.getElem?_eq_getElem h]; rfl
    · rw [if_neg h, List.getElem?_eq_none (by omega)]; rfl

/-- a one-orbital file with one value, and one with two -/
example : (∃ O' T', readRdmsBinary (some ⟨some (toInt32 1), [(5 : Int)]⟩) 1 (fun _ => 0) 1 (fun _ => 0) 1 =
    (.ok (), O', T') ∧ T' 0 = 5) ∧
    (∃ O' T', readRdmsBinary (some ⟨some (toInt32 1), [(5 : Int), 7]⟩) 1 (fun _ => 0) 1 (fun _ => 0) 1 =
    (.ok (), O', T') ∧ T' 0 = 7) := by
  refine ⟨⟨_, _, rfl, ?_⟩, ⟨_, _, rfl, ?_⟩⟩ <;> decide

end Macis
