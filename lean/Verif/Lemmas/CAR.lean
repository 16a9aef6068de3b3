import Verif.Lemmas.Sign
import Verif.Spec.Hamiltonian

/-! Anticommutation relations of the specification's ladder operators. -/
namespace Macis
open Spec
variable {N : Nat}

/-- sign change of a vector -/
def vneg (v : Option (Int × BitVec N)) : Option (Int × BitVec N) := v.map fun x => (-x.1, x.2)

theorem vneg_vneg (v : Option (Int × BitVec N)) : vneg (vneg v) = v := by
  cases v <;> simp [vneg]

theorem amp_vneg (bra : BitVec N) (v : Option (Int × BitVec N)) : amp bra (vneg v) = - amp bra v := by
  cases v with
  | none => simp [vneg, amp]
  | some x => simp only [vneg, Option.map_some, amp]; split <;> simp

/-- both ladder operators in one: acts when the bit equals `b` -/
def ladder (b : Bool) (p : Nat) : Option (Int × BitVec N) → Option (Int × BitVec N)
  | none => none
  | some (c, s) => if s.getLsbD p = b then some ((-1) ^ below s p * c, flip s p) else none

theorem ann_eq_ladder (p : Nat) (v : Option (Int × BitVec N)) : ann p v = ladder true p v := by
  match v with
  | none => rfl
  | some (c, s) =>
    simp only [ann, ladder]
    by_cases h : s.getLsbD p = true
    · simp only [h, if_true, clear_eq_flip h]
    · simp [h]

theorem cre_eq_ladder {p : Nat} (hp : p < N) (v : Option (Int × BitVec N)) :
    cre p v = ladder false p v := by
  match v with
  | none => rfl
  | some (c, s) =>
    simp only [cre, ladder]
    cases h : s.getLsbD p
    · simp [set_eq_flip h hp]
    · simp

theorem below_flip_le {s : BitVec N} {p q : Nat} (h : p ≤ q) : below (flip s q) p = below s p := by
  apply below_congr
  intro j hj
  rw [getLsbD_flip']
  simp [show q ≠ j by omega]

theorem sgn_flip_gt {s : BitVec N} {p q : Nat} (hqN : q < N) (h : q < p) :
    (-1 : Int) ^ below (flip s q) p = - (-1) ^ below s p := by
  have e2 : between (flip s q) q p = between s q p := by
    unfold between
    congr 1
    apply List.filter_congr
    intro x hx
    simp only [List.mem_range'_1] at hx
    rw [getLsbD_flip hqN]; simp [show q ≠ x by omega]
  rw [below_split _ h, below_split s h, e2, below_flip_le (Nat.le_refl q), getLsbD_flip hqN]
  cases s.getLsbD q <;> simp [pow_add]

theorem flip_comm (s : BitVec N) (p q : Nat) : flip (flip s p) q = flip (flip s q) p := by
  apply BitVec.eq_of_getLsbD_eq
  intro i hi
  simp only [getLsbD_flip']
  rw [Bool.xor_assoc, Bool.xor_assoc]
  congr 1
  exact Bool.xor_comm _ _

theorem ladder_anticomm (b b' : Bool) {p q : Nat} (hp : p < N) (hq : q < N) (h : p ≠ q)
    (v : Option (Int × BitVec N)) :
    ladder b p (ladder b' q v) = vneg (ladder b' q (ladder b p v)) := by
  match v with
  | none => rfl
  | some (c, s) =>
    have h1 : (flip s q).getLsbD p = s.getLsbD p := by rw [getLsbD_flip hq]; simp [Ne.symm h]
    have h2 : (flip s p).getLsbD q = s.getLsbD q := by rw [getLsbD_flip hp]; simp [h]
    by_cases hb : s.getLsbD p = b <;> by_cases hb' : s.getLsbD q = b'
    · simp only [ladder, hb, hb', h1, h2, if_true, vneg, Option.map_some]
      rw [flip_comm s q p]
      congr 2
      rcases Nat.lt_or_gt_of_ne h with hlt | hlt
      · rw [below_flip_le (le_of_lt hlt), sgn_flip_gt hp hlt]; ring
      · rw [below_flip_le (le_of_lt hlt), sgn_flip_gt hq hlt]; ring
    · simp [ladder, hb, hb', h2, vneg]
    · simp [ladder, hb, hb', h1, vneg]
    · simp [ladder, hb, hb', vneg]

theorem ladder_self (b : Bool) {p : Nat} (hp : p < N) (v : Option (Int × BitVec N)) :
    ladder b p (ladder b p v) = none := by
  match v with
  | none => rfl
  | some (c, s) =>
    by_cases hb : s.getLsbD p = b
    · subst hb
      simp only [ladder, if_true, getLsbD_flip hp, decide_true]
      cases s.getLsbD p <;> simp
    · simp [ladder, hb]

theorem flip_flip (s : BitVec N) (p : Nat) : flip (flip s p) p = s := by
  apply BitVec.eq_of_getLsbD_eq
  intro i hi
  simp only [getLsbD_flip', Bool.xor_assoc, Bool.xor_self, Bool.xor_false]

theorem ladder_number {p : Nat} (hp : p < N) (c : Int) (s : BitVec N) :
    ladder false p (ladder true p (some (c, s))) = if s.getLsbD p then some (c, s) else none := by
  cases h : s.getLsbD p
  · simp [ladder, h]
  · simp only [ladder, h, if_true, getLsbD_flip hp, decide_true, Bool.xor_self,
      below_flip_le (Nat.le_refl p), flip_flip]
    congr 2
    rw [← mul_assoc, ← pow_add]
    have := neg_one_pow_two_add (below s p) 0
    simp at this; simp [this]

theorem ladder_none (b : Bool) (p : Nat) : ladder b p (none : Option (Int × BitVec N)) = none := rfl

theorem ladder_vneg (b : Bool) (p : Nat) (v : Option (Int × BitVec N)) :
    ladder b p (vneg v) = vneg (ladder b p v) := by
  match v with
  | none => rfl
  | some (c, s) =>
    simp only [vneg, Option.map_some, ladder]
    split <;> simp

/-! ### the two-body amplitude -/

theorem amp2_ladder {bra ket : BitVec N} {P R S Q : Nat} (hP : P < N) (hR : R < N) :
    amp2 bra ket P R S Q =
      amp bra (ladder false P (ladder false R (ladder true S (ladder true Q (some (1, ket)))))) := by
  simp only [amp2, ann_eq_ladder, cre_eq_ladder hP, cre_eq_ladder hR]

theorem ladder_anticomm' (b : Bool) {p q : Nat} (hp : p < N) (hq : q < N)
    (v : Option (Int × BitVec N)) :
    ladder b p (ladder b q v) = vneg (ladder b q (ladder b p v)) := by
  by_cases h : p = q
  · subst h; rw [ladder_self b hp]; rfl
  · exact ladder_anticomm b b hp hq h v

theorem amp2_swap_cre {bra ket : BitVec N} {P R S Q : Nat} (hP : P < N) (hR : R < N) :
    amp2 bra ket P R S Q = - amp2 bra ket R P S Q := by
  rw [amp2_ladder hP hR, amp2_ladder hR hP, ladder_anticomm' false hP hR, amp_vneg]

theorem amp2_swap_ann {bra ket : BitVec N} {P R S Q : Nat} (hP : P < N) (hR : R < N) (hS : S < N)
    (hQ : Q < N) : amp2 bra ket P R S Q = - amp2 bra ket P R Q S := by
  rw [amp2_ladder hP hR, amp2_ladder hP hR, ladder_anticomm' true hS hQ]
  simp only [ladder_vneg, amp_vneg]

/-- what a nonzero amplitude says about the occupations -/
theorem amp2_support {bra ket : BitVec N} {P R S Q : Nat} (hP : P < N) (hR : R < N)
    (h : amp2 bra ket P R S Q ≠ 0) :
    Q ≠ S ∧ P ≠ R ∧ ket.getLsbD Q = true ∧ ket.getLsbD S = true ∧
    (ket.getLsbD P = true → P = Q ∨ P = S) ∧ (ket.getLsbD R = true → R = Q ∨ R = S) ∧
    ∀ j, bra.getLsbD j = true ↔ (ket.getLsbD j = true ∧ j ≠ Q ∧ j ≠ S) ∨ j = P ∨ j = R := by
  rw [amp2_ladder hP hR] at h
  cases h1 : ket.getLsbD Q
  · simp [ladder, h1, amp] at h
  have hQ := BitVec.lt_of_getLsbD h1
  simp only [ladder, h1, if_true] at h
  cases h2 : (flip ket Q).getLsbD S
  · simp [ladder, h2, amp] at h
  have hS := BitVec.lt_of_getLsbD h2
  simp only [ladder, h2, if_true] at h
  cases h3 : (flip (flip ket Q) S).getLsbD R
  case true => simp [ladder, h3, amp] at h
  simp only [ladder, h3, if_true] at h
  cases h4 : (flip (flip (flip ket Q) S) R).getLsbD P
  case true => simp [ladder, h4, amp] at h
  simp only [ladder, h4, if_true, amp] at h
  have hb : flip (flip (flip (flip ket Q) S) R) P = bra := by
    by_contra hc; simp [hc] at h
  have hQS : Q ≠ S := by
    rintro rfl
    rw [getLsbD_flip hQ, h1] at h2; simp at h2
  have hPR : P ≠ R := by
    rintro rfl
    rw [getLsbD_flip hP, h3] at h4; simp at h4
  have h2' : ket.getLsbD S = true := by
    rw [getLsbD_flip hQ] at h2; simpa [hQS] using h2
  have aR : ket.getLsbD R = true → R = Q ∨ R = S := by
    intro hk
    rw [getLsbD_flip hS, getLsbD_flip hQ, hk] at h3
    by_contra hc
    rw [not_or] at hc
    simp [Ne.symm hc.1, Ne.symm hc.2] at h3
  have aP : ket.getLsbD P = true → P = Q ∨ P = S := by
    intro hk
    rw [getLsbD_flip hR, getLsbD_flip hS, getLsbD_flip hQ, hk] at h4
    by_contra hc
    rw [not_or] at hc
    simp [Ne.symm hc.1, Ne.symm hc.2, Ne.symm hPR] at h4
  refine ⟨hQS, hPR, rfl, h2', aP, aR, ?_⟩
  intro j
  rw [← hb, getLsbD_flip hP, getLsbD_flip hR, getLsbD_flip hS, getLsbD_flip hQ]
  by_cases jP : j = P
  · subst jP
    rw [getLsbD_flip hR, getLsbD_flip hS, getLsbD_flip hQ] at h4
    rw [h4]; simp
  by_cases jR : j = R
  · subst jR
    rw [getLsbD_flip hS, getLsbD_flip hQ] at h3
    rw [h3]; simp [Ne.symm jP]
  simp only [jP, jR, or_false, Ne.symm jP, Ne.symm jR, decide_false, Bool.xor_false]
  by_cases jQ : j = Q
  · subst jQ; simp [h1, Ne.symm hQS]
  by_cases jS : j = S
  · subst jS; simp [h2', hQS]
  simp [jQ, jS, Ne.symm jQ, Ne.symm jS]

end Macis
