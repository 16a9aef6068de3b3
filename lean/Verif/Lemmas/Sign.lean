import Verif.Lemmas.SD
import Verif.Spec.Fock

namespace Macis
open Spec
variable {N : Nat}

/-- occupied orbitals strictly between `q` and `p` -/
def between (s : BitVec N) (q p : Nat) : Nat :=
  ((List.range' (q + 1) (p - (q + 1))).filter (fun i => s.getLsbD i)).length

theorem below_split (s : BitVec N) {q p : Nat} (h : q < p) :
    below s p = below s q + (if s.getLsbD q then 1 else 0) + between s q p := by
  have hr : List.range p = List.range q ++ ([q] ++ List.range' (q + 1) (p - (q + 1))) := by
    rw [List.range_eq_range', List.range_eq_range']
    have h1 := @List.range'_append 0 q (p - q) 1
    have h2 : List.range' q (p - q) = [q] ++ List.range' (q + 1) (p - (q + 1)) := by
      rw [show p - q = (p - (q + 1)) + 1 by omega, List.range'_succ]; rfl
    simp at h1
    rw [← h2, h1]; congr 1; omega
  unfold below between
  rw [hr, List.filter_append, List.filter_append, List.length_append, List.length_append]
  by_cases hq : s.getLsbD q <;> simp [hq] <;> omega

theorem below_congr {s t : BitVec N} {p : Nat} (h : ∀ j, j < p → s.getLsbD j = t.getLsbD j) :
    below s p = below t p := by
  unfold below
  congr 1
  apply List.filter_congr
  intro x hx
  simp at hx
  exact h x hx

theorem count_mask (s : BitVec N) {p q : Nat} (hpN : p ≤ N) (hqp : q < p) :
    count (s &&& (fullMask N p ^^^ fullMask N (q + 1))) = between s q p := by
  rw [count_eq_length, between]
  congr 1
  apply eq_of_sorted_of_mem_iff (occ_sorted _)
  · exact List.Pairwise.filter _ (List.pairwise_lt_range' ..)
  intro x
  rw [mem_occ, BitVec.getLsbD_and, BitVec.getLsbD_xor, getLsbD_fullMask hpN,
    getLsbD_fullMask (show q + 1 ≤ N by omega)]
  simp only [List.mem_filter, List.mem_range'_1, Bool.and_eq_true]
  constructor
  · rintro ⟨h1, h2⟩
    refine ⟨?_, h1⟩
    by_cases ha : x < p <;> by_cases hb : x < q + 1 <;> simp [ha, hb] at h2 <;> omega
  · rintro ⟨h1, h2⟩
    refine ⟨h2, ?_⟩
    simp [show x < p by omega, show ¬ x < q + 1 by omega]

/-- the code's sign for `p ≠ q` is the parity of the electrons strictly between -/
theorem singleExcitationSign_eq (s : BitVec N) {p q : Nat} (hp : p < N) (hq : q < N) (h : p ≠ q) :
    singleExcitationSign s p q = (-1) ^ (between s (min p q) (max p q)) := by
  have key : ∀ n : Nat, (if n % 2 = 1 then (-1 : Int) else 1) = (-1) ^ n := by
    intro n
    rcases Nat.even_or_odd n with hn | hn
    · rw [hn.neg_one_pow, if_neg]; rw [Nat.even_iff] at hn; omega
    · rw [hn.neg_one_pow, if_pos]; rwa [Nat.odd_iff] at hn
  unfold singleExcitationSign
  by_cases hpq : p > q
  · simp only [hpq, if_true]
    rw [count_mask s (by omega) (by omega), key, min_eq_right (by omega), max_eq_left (by omega)]
  · simp only [hpq, if_false]
    rw [count_mask s (by omega) (by omega), key, min_eq_left (by omega), max_eq_right (by omega)]

theorem clear_eq_flip {s : BitVec N} {p : Nat} (h : s.getLsbD p = true) :
    s &&& ~~~(BitVec.twoPow N p) = flip s p := by
  have hp := BitVec.lt_of_getLsbD h
  apply BitVec.eq_of_getLsbD_eq
  intro i hi
  rw [getLsbD_flip hp, BitVec.getLsbD_and, BitVec.getLsbD_not, BitVec.getLsbD_twoPow]
  by_cases hpi : p = i
  · subst hpi; simp [h, hp]
  · simp [hpi, hi]

theorem set_eq_flip {s : BitVec N} {p : Nat} (h : s.getLsbD p = false) (hp : p < N) :
    s ||| BitVec.twoPow N p = flip s p := by
  apply BitVec.eq_of_getLsbD_eq
  intro i hi
  rw [getLsbD_flip hp, BitVec.getLsbD_or, BitVec.getLsbD_twoPow]
  by_cases hpi : p = i
  · subst hpi; rw [h]; simp [hp]
  · simp [hpi]

theorem ann_some {s : BitVec N} {p : Nat} (c : Int) (h : s.getLsbD p = true) :
    ann p (some (c, s)) = some ((-1) ^ below s p * c, flip s p) := by
  simp only [ann, h, if_true, clear_eq_flip h]

theorem cre_some {s : BitVec N} {p : Nat} (c : Int) (h : s.getLsbD p = false) (hp : p < N) :
    cre p (some (c, s)) = some ((-1) ^ below s p * c, flip s p) := by
  simp only [cre, h, Bool.false_eq_true, if_false, set_eq_flip h hp]

theorem neg_one_pow_two_add (a b : Nat) : (-1 : Int) ^ (a + a + b) = (-1) ^ b := by
  rw [pow_add, ← two_mul, pow_mul]; simp

/-- `a†_p a_q` has the code's sign -/
theorem cre_ann {s : BitVec N} {p q : Nat} (hq : s.getLsbD q = true) (hp : s.getLsbD p = false)
    (hpN : p < N) (c : Int) :
    cre p (ann q (some (c, s))) = some (singleExcitationSign s p q * c, flip (flip s q) p) := by
  have hqN := BitVec.lt_of_getLsbD hq
  have hpq : p ≠ q := by rintro rfl; rw [hp] at hq; simp at hq
  have hp' : (flip s q).getLsbD p = false := by rw [getLsbD_flip hqN]; simp [hp, Ne.symm hpq]
  rw [ann_some c hq, cre_some _ hp' hpN, singleExcitationSign_eq s hpN hqN hpq]
  congr 2
  rw [← mul_assoc, ← pow_add]
  congr 1
  rcases Nat.lt_or_ge p q with h | h
  · rw [min_eq_left (by omega), max_eq_right (by omega)]
    have e1 : below (flip s q) p = below s p := by
      apply below_congr
      intro j hj
      rw [getLsbD_flip hqN]; simp [show q ≠ j by omega]
    rw [e1, below_split s h, hp]
    simp only [Bool.false_eq_true, if_false, Nat.add_zero]
    rw [← Nat.add_assoc, neg_one_pow_two_add]
  · have h : q < p := by omega
    rw [min_eq_right (by omega), max_eq_left (by omega), below_split (flip s q) h]
    have e1 : below (flip s q) q = below s q := by
      apply below_congr
      intro j hj
      rw [getLsbD_flip hqN]; simp [show q ≠ j by omega]
    have e2 : between (flip s q) q p = between s q p := by
      unfold between
      congr 1
      apply List.filter_congr
      intro x hx
      simp only [List.mem_range'_1] at hx
      rw [getLsbD_flip hqN]; simp [show q ≠ x by omega]
    rw [e1, e2, getLsbD_flip hqN, hq]
    simp only [decide_true, Bool.xor_self, Bool.false_eq_true, if_false, Nat.add_zero]
    rw [show below s q + between s q p + below s q = below s q + below s q + between s q p by ring,
      neg_one_pow_two_add]

theorem firstOccupiedFlipped_spec {s ex : BitVec N} (h : ∃ i, s.getLsbD i = true ∧ ex.getLsbD i = true) :
    s.getLsbD (firstOccupiedFlipped s ex) = true ∧ ex.getLsbD (firstOccupiedFlipped s ex) = true ∧
    ∀ j, s.getLsbD j = true → ex.getLsbD j = true → firstOccupiedFlipped s ex ≤ j := by
  have hne : s &&& ex ≠ 0#N := by
    intro h0
    obtain ⟨i, h1, h2⟩ := h
    have : (s &&& ex).getLsbD i = true := by rw [BitVec.getLsbD_and, h1, h2]; rfl
    rw [h0] at this; simp at this
  obtain ⟨i, hi, hb, hmin, he⟩ := ffs_spec hne
  have : firstOccupiedFlipped s ex = i := by simp [firstOccupiedFlipped, he]
  rw [this]
  rw [BitVec.getLsbD_and, Bool.and_eq_true] at hb
  refine ⟨hb.1, hb.2, fun j h1 h2 => ?_⟩
  by_contra hc
  have := hmin j (by omega)
  rw [BitVec.getLsbD_and, h1, h2] at this; simp at this

end Macis
