import Verif.Lemmas.SD

/-! Properties C12, C51: text encoding of determinants and two-electron residues. -/
namespace Macis
open Spec

/-- helper: result of the parsing loop, bit by bit -/
theorem fromCanonicalLoop_spec {N : Nat} (cs : List Char) :
    ∀ (i : Nat) (a b : BitVec N), i + cs.length ≤ N →
      ∃ a' b', fromCanonicalLoop i cs (a, b) = some (a', b') ∧
        (∀ j, a'.getLsbD j = true ↔ a.getLsbD j = true ∨
          ∃ k, k < cs.length ∧ j = i + k ∧ (cs[k]? = some '2' ∨ cs[k]? = some 'u')) ∧
        (∀ j, b'.getLsbD j = true ↔ b.getLsbD j = true ∨
          ∃ k, k < cs.length ∧ j = i + k ∧ (cs[k]? = some '2' ∨ cs[k]? = some 'd')) := by
  induction cs with
  | nil => intro i a b _; exact ⟨a, b, rfl, by simp, by simp⟩
  | cons c cs ih =>
    intro i a b hi
    rw [List.length_cons] at hi
    have hiN : i < N := by omega
    have tw : ∀ (x : BitVec N) (j : Nat), (x ||| BitVec.twoPow N i).getLsbD j = true ↔
        x.getLsbD j = true ∨ j = i := by
      intro x j
      rw [BitVec.getLsbD_or, BitVec.getLsbD_twoPow]
      simp [hiN]; tauto
    -- shape of the existential over positions
    have sh : ∀ (P : Option Char → Prop) (j : Nat),
        (∃ k, k < (c :: cs).length ∧ j = i + k ∧ P ((c :: cs)[k]?)) ↔
        ((j = i ∧ P (some c)) ∨ ∃ k, k < cs.length ∧ j = i + 1 + k ∧ P (cs[k]?)) := by
      intro P j
      constructor
      · rintro ⟨k, hk, rfl, hP⟩
        cases k with
        | zero => exact Or.inl ⟨rfl, by simpa using hP⟩
        | succ k => exact Or.inr ⟨k, by simpa using hk, by omega, by simpa using hP⟩
      · rintro (⟨rfl, hP⟩ | ⟨k, hk, rfl, hP⟩)
        · exact ⟨0, by simp, rfl, by simpa using hP⟩
        · exact ⟨k + 1, by simpa using hk, by omega, by simpa using hP⟩
    simp only [fromCanonicalLoop]
    by_cases h2 : c = '2'
    · subst h2
      obtain ⟨a', b', he, ha, hb⟩ := ih (i + 1) (a ||| BitVec.twoPow N i)
        (b ||| BitVec.twoPow N i) (by omega)
      refine ⟨a', b', by simp [hiN, he], fun j => ?_, fun j => ?_⟩
      · rw [ha, tw, sh (fun o => o = some '2' ∨ o = some 'u')]; simp [or_assoc]
      · rw [hb, tw, sh (fun o => o = some '2' ∨ o = some 'd')]; simp [or_assoc]
    by_cases hu : c = 'u'
    · subst hu
      obtain ⟨a', b', he, ha, hb⟩ := ih (i + 1) (a ||| BitVec.twoPow N i) b (by omega)
      refine ⟨a', b', by simp [hiN, he], fun j => ?_, fun j => ?_⟩
      · rw [ha, tw, sh (fun o => o = some '2' ∨ o = some 'u')]; simp [or_assoc]
      · rw [hb, sh (fun o => o = some '2' ∨ o = some 'd')]; simp
    by_cases hd : c = 'd'
    · subst hd
      obtain ⟨a', b', he, ha, hb⟩ := ih (i + 1) a (b ||| BitVec.twoPow N i) (by omega)
      refine ⟨a', b', by simp [hiN, he], fun j => ?_, fun j => ?_⟩
      · rw [ha, sh (fun o => o = some '2' ∨ o = some 'u')]; simp
      · rw [hb, tw, sh (fun o => o = some '2' ∨ o = some 'd')]; simp [or_assoc]
    · obtain ⟨a', b', he, ha, hb⟩ := ih (i + 1) a b (by omega)
      refine ⟨a', b', by simp [h2, hu, hd, he], fun j => ?_, fun j => ?_⟩
      · rw [ha, sh (fun o => o = some '2' ∨ o = some 'u')]; simp [h2, hu]
      · rw [hb, sh (fun o => o = some '2' ∨ o = some 'd')]; simp [h2, hd]

/-- C12: parsing a string of at most `M` characters: orbital `i` is alpha occupied iff character
`i` is `2` or `u`, beta occupied iff it is `2` or `d`. -/
theorem C12_parse_meaning (M : Nat) (str : List Char) (h : str.length ≤ M) :
    ∃ d, fromCanonicalString M str = some d ∧
      (∀ i, (loWord d).getLsbD i = true ↔ str[i]? = some '2' ∨ str[i]? = some 'u') ∧
      (∀ i, (hiWord d).getLsbD i = true ↔ str[i]? = some '2' ∨ str[i]? = some 'd') := by
  obtain ⟨a, b, he, ha, hb⟩ := fromCanonicalLoop_spec (N := 2 * M) str 0 0 0 (by omega)
  have lt : ∀ {i : Nat} {c : Char}, str[i]? = some c → i < str.length := by
    intro i c hc
    by_contra hn
    rw [List.getElem?_eq_none (by omega)] at hc; simp at hc
  have ha' : ∀ j, a.getLsbD j = true ↔ str[j]? = some '2' ∨ str[j]? = some 'u' := by
    intro j; rw [ha]; simp
    rintro (h | h) <;> exact lt h
  have hb' : ∀ j, b.getLsbD j = true ↔ str[j]? = some '2' ∨ str[j]? = some 'd' := by
    intro j; rw [hb]; simp
    rintro (h | h) <;> exact lt h
  refine ⟨a ||| (b <<< M), ?_, fun i => ?_, fun i => ?_⟩
  · have : fromCanonicalLoop 0 str (0#(2 * M), 0#(2 * M)) = some (a, b) := he
    rw [fromCanonicalString, this]; rfl
  · rw [getLsbD_loWord, BitVec.getLsbD_or, BitVec.getLsbD_shiftLeft, ← ha']
    by_cases hi : i < M
    · simp [hi]
    · have : a.getLsbD i = false := by
        rw [← Bool.not_eq_true, ha']
        rintro (h | h) <;> have := lt h <;> omega
      simp [hi, this]
  · rw [getLsbD_hiWord, BitVec.getLsbD_or, BitVec.getLsbD_shiftLeft, ← hb']
    have h0 : a.getLsbD (i + M) = false := by
      rw [← Bool.not_eq_true, ha']
      rintro (h | h) <;> have := lt h <;> omega
    by_cases hi : i < M
    · simp [hi, h0]; intro _; omega
    · have : b.getLsbD i = false := by
        rw [← Bool.not_eq_true, hb']
        rintro (h | h) <;> have := lt h <;> omega
      simp [hi, this]

/-- C12: character `i` of the encoding names the occupation of orbital `i`. -/
theorem C12_string_meaning (M : Nat) (d : BitVec (2 * M)) (i : Nat) (hi : i < M) :
    (toCanonicalString d).length = M ∧
    ((toCanonicalString d)[i]? = some '2' ↔ d.getLsbD i = true ∧ d.getLsbD (i + M) = true) ∧
    ((toCanonicalString d)[i]? = some 'u' ↔ d.getLsbD i = true ∧ d.getLsbD (i + M) = false) ∧
    ((toCanonicalString d)[i]? = some 'd' ↔ d.getLsbD i = false ∧ d.getLsbD (i + M) = true) ∧
    ((toCanonicalString d)[i]? = some '0' ↔ d.getLsbD i = false ∧ d.getLsbD (i + M) = false) := by
  have e : (toCanonicalString d)[i]? = some (if d.getLsbD i && d.getLsbD (i + M) then '2'
      else if d.getLsbD i then 'u' else if d.getLsbD (i + M) then 'd' else '0') := by
    simp [toCanonicalString, hi, getLsbD_loWord, getLsbD_hiWord]
  rw [e]
  refine ⟨by simp [toCanonicalString], ?_⟩
  cases d.getLsbD i <;> cases d.getLsbD (i + M) <;> simp

/-- C12: decoding an encoded determinant gives it back. -/
theorem C12_string_round_trip (M : Nat) (d : BitVec (2 * M)) :
    fromCanonicalString M (toCanonicalString d) = some d := by
  obtain ⟨d', he, ha, hb⟩ := C12_parse_meaning M (toCanonicalString d)
    (by simp [toCanonicalString])
  rw [he]
  have hlo : ∀ i, i < M → (loWord d').getLsbD i = d.getLsbD i := by
    intro i hi
    obtain ⟨_, h2, h3, _, _⟩ := C12_string_meaning M d i hi
    rw [Bool.eq_iff_iff, ha, h2, h3]
    cases d.getLsbD i <;> cases d.getLsbD (i + M) <;> simp
  have hhi : ∀ i, i < M → (hiWord d').getLsbD i = d.getLsbD (i + M) := by
    intro i hi
    obtain ⟨_, h2, _, h4, _⟩ := C12_string_meaning M d i hi
    rw [Bool.eq_iff_iff, hb, h2, h4]
    cases d.getLsbD i <;> cases d.getLsbD (i + M) <;> simp
  congr 1
  rw [← joinSpin_lo_hi d', ← joinSpin_lo_hi d]
  congr 1
  · apply BitVec.eq_of_getLsbD_eq
    intro i hi
    rw [hlo i hi, getLsbD_loWord]; simp [hi]
  · apply BitVec.eq_of_getLsbD_eq
    intro i hi
    rw [hhi i hi, getLsbD_hiWord]; simp [hi]

/-- Strings longer than `M` are accepted up to `2*M` characters and alpha electrons at positions
`≥ M` silently become beta electrons: `"00u"` on two orbitals is the beta determinant `"d0"`. -/
theorem C12_long_string_aliases :
    fromCanonicalString 2 ['0', '0', 'u'] = fromCanonicalString 2 ['d', '0'] := by decide +kernel

/-- Strings with an occupied position `≥ 2*M` throw. -/
theorem C12_too_long_throws : fromCanonicalString 1 ['0', '0', 'u'] = none := by decide +kernel

example : toCanonicalString (M := 4) (0b01010011#8) = ['2', 'u', 'd', '0'] := by decide +kernel

end Macis
