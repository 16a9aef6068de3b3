import Verif.Props.Rdm
/-! Exact forms of C62 and C63: what `form_rdms` stores in the elements where the textbook statement
fails, for every expansion. -/
namespace Macis
open Spec
variable {R : Type} [Field R] [LinearOrder R] {M : Nat}

/-- the writes of a pair of equal determinants never touch `(p,q,q,p)`, `p ≠ q` -/
theorem ev_diag_pqqp (n p q : Nat) (hpq : p ≠ q) (oA oB : List Nat) (val : R) :
    evL (delta2 n p q q p : Integrals R) (rdmContributionsDiag oA oB val true) = 0 := by
  have ht : ∀ (l : List (Upd R)), (∀ u ∈ l, evU (delta2 n p q q p) u = 0) → evL (delta2 n p q q p) l = 0 := by
    intro l h
    unfold evL
    apply List.sum_eq_zero
    intro x hx
    obtain ⟨u, hu, rfl⟩ := List.mem_map.1 hx
    exact h u hu
  apply ht
  intro u hu
  unfold rdmContributionsDiag at hu
  simp only [if_true, List.mem_append, List.mem_map, List.mem_flatMap, List.mem_cons, List.not_mem_nil,
    or_false] at hu
  have k1 : ∀ (a b : Nat) (v : R), evU (delta2 n p q q p) (Upd.t a a b b v) = 0 := by
    intro a b v
    simp only [evU, delta2]
    rw [if_neg (by rintro ⟨rfl, h, -⟩; exact hpq h), zero_mul]
  have k2 : ∀ (a b : Nat) (v : R), evU (delta2 n p q q p) (Upd.t a b a b v) = 0 := by
    intro a b v
    simp only [evU, delta2]
    rw [if_neg (by rintro ⟨rfl, -, h, -⟩; exact hpq h), zero_mul]
  rcases hu with (⟨x, -, rfl⟩ | ⟨x, -, rfl⟩) | ((⟨x, -, y, -, hx⟩ | ⟨x, -, y, -, hx⟩) | ⟨x, -, y, -, hx⟩)
  · simp [evU, delta2]
  · simp [evU, delta2]
  all_goals rcases hx with rfl | rfl
  all_goals first | exact k1 _ _ _ | exact k2 _ _ _

theorem ev_pair_self_pqqp (n p q : Nat) (hpq : p ≠ q) (b : BitVec (2 * M)) (val : R) :
    evL (delta2 n p q q p : Integrals R) (rdmPair b b val true) = 0 := by
  unfold rdmPair
  have h0 : count (0 : BitVec M) = 0 := count_eq_zero_iff.2 rfl
  split_ifs <;> try rfl
  rw [loWord_xor, hiWord_xor, BitVec.xor_self, BitVec.xor_self]
  unfold rdmContributions
  have h0' : count (0#M) = 0 := h0
  simp only [h0']
  simpa using ev_diag_pqqp n p q hpq _ _ val

theorem rdm2_self_pqpq {n p q : Nat} (hn : n ≤ M) (hp : p < n) (hq : q < n) (hpq : p ≠ q) (b : BitVec (2 * M)) :
    rdm2 b b p q p q = 0 := by
  unfold rdm2
  apply Finset.sum_eq_zero
  intro σ _
  apply Finset.sum_eq_zero
  intro τ _
  have l : ∀ {x : Nat} (_ : x < n) (ρ : Bool), so M ρ x < 2 * M := by
    intro x hx ρ; unfold so; split <;> omega
  rw [amp2_diag (l hp _) (l hp _) (l hq _) (l hq _)]
  have e : ∀ ρ ρ' : Bool, so M ρ p ≠ so M ρ' q ∨ ρ ≠ ρ' := by
    intro ρ ρ'
    by_cases h : ρ = ρ'
    · subst h; left; unfold so; split <;> omega
    · exact Or.inr h
  rw [if_neg, if_neg, sub_zero]
  · rintro ⟨h, h', -⟩
    unfold so at h h'
    cases σ <;> cases τ <;> simp at h h' <;> omega
  · rintro ⟨h, -⟩
    unfold so at h
    split at h <;> omega

theorem ev_writes_pair (I : Integrals R) (bras kets : List (BitVec (2 * M))) (C : Nat → R) (hasT : Bool)
    (f : BitVec (2 * M) → BitVec (2 * M) → R)
    (h : ∀ b ∈ bras, ∀ k ∈ kets, ∀ val : R, evL I (rdmPair b k val hasT) = kept val * f b k) :
    evL I (rdmWrites bras kets C hasT) = expect bras kets C f := by
  unfold rdmWrites expect
  rw [evL_flatMap, list_range_sum]
  apply Finset.sum_congr rfl
  intro i hi
  rw [evL_flatMap, list_range_sum]
  apply Finset.sum_congr rfl
  intro j hj
  exact h _ (getD_mem' _ (Finset.mem_range.1 hi)) _ (getD_mem' _ (Finset.mem_range.1 hj)) _

/-- C62, the remaining elements, exactly: for `p ≠ q` the diagonal (`i = j`) part of the textbook
element `(p,q,q,p)` is stored at `(p,q,p,q)`, whose own diagonal part is zero; the parts with
`i ≠ j` are the textbook ones.  With `C62_two_rdm_partial` this determines every element. -/
theorem C62_exchange_elements (norb : Nat) (hn : norb ≤ M) (h2 : (2 : R) ≠ 0)
    (bras kets : List (BitVec (2 * M))) (C : Nat → R) (hS : OneSector norb bras kets)
    (p q : Nat) (hp : p < norb) (hq : q < norb) (hpq : p ≠ q) :
    (formRdms bras kets C true zeroRdms).trdm p q q p
      = (expect bras kets C fun b k => if b = k then 0 else 2⁻¹ * (rdm2 b k p q q p : R)) ∧
    (formRdms bras kets C true zeroRdms).trdm p q p q
      = expect bras kets C fun b k =>
          if b = k then 2⁻¹ * (rdm2 b b p q q p : R) else 2⁻¹ * (rdm2 b k p q p q : R) := by
  have hx : ExchSym (addInt (delta2 norb p q p q) (delta2 norb p q q p) : Integrals R) := by
    intro a b
    have e1 : (a = p ∧ b = q ∧ a = p ∧ b = q) ↔ (a = p ∧ b = q ∧ b = q ∧ a = p) := by tauto
    have e2 : (a = p ∧ b = q ∧ a = q ∧ b = p) ↔ (a = p ∧ b = q ∧ b = p ∧ a = q) := by tauto
    simp only [addInt, delta2, e1, e2]
    rw [add_comm]
  have hd : ∀ {r s : Nat}, r < norb → s < norb → ∀ b ∈ bras, ∀ k ∈ kets, ∀ val : R, b ≠ k →
      evL (delta2 norb p q r s) (rdmPair b k val true) = kept val * (2⁻¹ * (rdm2 b k p q r s : R)) := by
    intro r s hr hs b hb k hk val hne
    rw [ev_rdmPair (delta2 norb p q r s) hn h2 b k (hS.1 _ hb) (hS.2.1 _ hk) (hS.2.2 _ hb _ hk) val (Or.inr hne),
      hamiltonian_delta2 hp hq hr hs]
  unfold formRdms
  rw [foldl_trdm _ _ norb p q q p, foldl_trdm _ _ norb p q p q]
  change (0 : R) + evL (delta2 norb p q q p) (rdmWrites bras kets C true) = _ ∧
    (0 : R) + evL (delta2 norb p q p q) (rdmWrites bras kets C true) = _
  rw [zero_add, zero_add]
  constructor
  · apply ev_writes_pair
    intro b hb k hk val
    by_cases h : b = k
    · subst h
      rw [ev_pair_self_pqqp _ _ _ hpq, if_pos rfl, mul_zero]
    · rw [if_neg h, hd hq hp b hb k hk val h]
  · apply ev_writes_pair
    intro b hb k hk val
    by_cases h : b = k
    · subst h
      rw [if_pos rfl]
      have := ev_rdmPair (addInt (delta2 norb p q p q) (delta2 norb p q q p)) hn h2 b b (hS.1 _ hb)
        (hS.2.1 _ hk) (hS.2.2 _ hb _ hk) val (Or.inl hx)
      rw [evL_addInt, ev_pair_self_pqqp _ _ _ hpq, add_zero,
        hamiltonian_add (delta2 norb p q p q) (delta2 norb p q q p) rfl, hamiltonian_delta2 hp hq hp hq,
        hamiltonian_delta2 hp hq hq hp, rdm2_self_pqpq hn hp hq hpq] at this
      rw [this]; simp
    · rw [if_neg h, hd hp hq b hb k hk val h]

/-! ### C63 -/

theorem evL_delta1 (n n' p q : Nat) (l : List (Upd R)) :
    evL (delta1 n p q) l = evL (delta1 n' p q) l := by
  unfold evL
  congr 1

/-- C63 for every expansion: without a 2-RDM, a pair of determinants that differ by a double
excitation contributes something it should not: for one excitation of each spin the 1-RDM element of
the alpha strings alone (`setWidth` = the low half of the bit string), for two of the same spin the
diagonal 1-RDM of the bra.  All other pairs contribute as in the textbook. -/
theorem C63_ordm_only_value (norb : Nat) (hn : norb ≤ M) (h2 : (2 : R) ≠ 0)
    (bras kets : List (BitVec (2 * M))) (C : Nat → R) (hS : OneSector norb bras kets)
    (p q : Nat) (hp : p < norb) (hq : q < norb) :
    (formRdms bras kets C false zeroRdms).ordm p q
      = expect bras kets C fun b k =>
          if diffOrbitals b k = 4 then
            if diffOrbitals (b.setWidth M) (k.setWidth M) = 2 then
              (amp1 (b.setWidth M) (k.setWidth M) p q : R)
            else (rdm1 b b p q : R)
          else (rdm1 b k p q : R) := by
  unfold formRdms
  rw [foldl_ordm _ _ 0 p q]
  change (0 : R) + evL (delta1 0 p q) (rdmWrites bras kets C false) = _
  rw [zero_add]
  apply ev_writes_pair
  intro b hb k hk val
  have hlo : ∀ s : BitVec (2 * M), s.setWidth M = loWord s := by
    intro s
    apply BitVec.eq_of_getLsbD_eq
    intro i hi
    rw [getLsbD_loWord, BitVec.getLsbD_setWidth]
  rw [hlo, hlo]
  have hs := hS.2.2 _ hb _ hk
  obtain ⟨hsa, hsb⟩ := hs
  rw [alphaElectrons_eq, alphaElectrons_eq] at hsa
  rw [betaElectrons_eq, betaElectrons_eq] at hsb
  obtain ⟨ka, ca, xa⟩ := exists_excited hsa
  obtain ⟨kb, cb, xb⟩ := exists_excited hsb
  have hcnt : ∀ {N : Nat} (a c : BitVec N), count (a ^^^ c) = diffOrbitals a c := by
    intro N a c
    rw [count_eq_length]
    unfold occ diffOrbitals
    congr 1
    apply List.filter_congr
    intro i _
    rw [BitVec.getLsbD_xor]
  have hsum : diffOrbitals b k = count (loWord b ^^^ loWord k) + count (hiWord b ^^^ hiWord k) := by
    rw [count_xor_add]
  have hself : ∀ val : R, evL (delta1 0 p q) (rdmPair b b val true) = kept val * (rdm1 b b p q : R) := by
    intro val
    rw [evL_delta1 0 norb, ev_rdmPair (delta1 norb p q) hn h2 b b (hS.1 _ hb) (hS.1 _ hb) ⟨rfl, rfl⟩ val (Or.inl fun _ _ => rfl),
      hamiltonian_delta1 hp hq]
  by_cases h4 : diffOrbitals b k = 4
  · rw [if_pos h4]
    have z : ∀ s : BitVec M, electrons s = 0 → s = 0#M := by
      intro s h
      have h : (occ s).length = 0 := h
      rw [← count_eq_length] at h
      exact count_eq_zero_iff.1 h
    have hz : ∀ s : BitVec (2 * M), count s = 0 → electrons (loWord s) = 0 ∧ electrons (hiWord s) = 0 := by
      intro s h
      rw [count_eq_zero_iff] at h
      subst h
      have e1 : loWord (0#(2 * M)) = 0#M := by
        apply BitVec.eq_of_getLsbD_eq; intro i hi; rw [getLsbD_loWord]; simp
      have e2 : hiWord (0#(2 * M)) = 0#M := by
        apply BitVec.eq_of_getLsbD_eq; intro i hi; rw [getLsbD_hiWord]; simp
      rw [e1, e2]
      simp [electrons]
    have c0 : count (0#M) = 0 := count_eq_zero_iff.2 rfl
    have hemp : electrons (loWord b) = 0 → electrons (hiWord b) = 0 → False := by
      intro h h'
      rw [z _ h, z _ h', z _ (hsa.symm.trans h), z _ (hsb.symm.trans h'), BitVec.xor_self, c0] at hsum
      omega
    have hb0 : count b ≠ 0 := fun h => hemp (hz b h).1 (hz b h).2
    have hk0 : count k ≠ 0 := fun h => hemp (hsa.trans (hz k h).1) (hsb.trans (hz k h).2)
    have hdl : count (b ^^^ k) = 4 := by rw [hcnt, h4]
    have self' := hself val
    unfold rdmPair at self' ⊢
    rw [if_pos hb0, if_pos hk0, if_pos (by omega)]
    rw [if_pos hb0, if_pos hb0, if_pos (by rw [hcnt]; simp [diffOrbitals])] at self'
    by_cases hv : |val| > 1 / 10 ^ 16
    · rw [if_pos hv] at self' ⊢
      rw [loWord_xor, hiWord_xor] at self' ⊢
      rw [BitVec.xor_self, BitVec.xor_self, ← contributions_o p q (by rw [c0]; omega) (by rw [c0]; omega) (by rw [c0]; omega)] at self'
      have hkv : kept val = val := by unfold kept; rw [if_pos hv]
      by_cases h22 : ka = 1
      · have hkb : kb = 1 := by omega
        subst h22 hkb
        rw [if_pos (by rw [← hcnt]; omega)]
        obtain ⟨o, v, sgn, e1, e2, e3, e4, e5, e6, e7⟩ := single_data xa
        rw [amp1_single e4 e6 e7 (by omega), hkv]
        unfold rdmContributions rdmContributions2
        rw [e1]
        simp [ca, cb, evL, evU, delta1]
        by_cases h : v = p ∧ o = q
        · rw [if_pos h, if_pos ⟨h.1.symm, h.2.symm⟩]; ring
        · rw [if_neg h, if_neg fun h' => h ⟨h'.1.symm, h'.2.symm⟩]
      · rw [if_neg (by rw [← hcnt]; omega), ← self']
        unfold rdmContributions
        rw [c0, ca, cb]
        simp only [Bool.false_eq_true, and_false, if_false]
        rw [if_neg (by omega), if_neg (by omega), if_neg (by omega), if_neg (by omega), if_neg (by omega), if_neg (by omega)]
    · rw [if_neg hv, evL_nil]
      unfold kept
      rw [if_neg hv, zero_mul]
  · rw [if_neg h4]
    have : evL (delta1 0 p q) (rdmPair b k val false) = evL (delta1 0 p q) (rdmPair b k val true) := by
      unfold rdmPair
      rw [loWord_xor, hiWord_xor]
      split_ifs <;> try rfl
      by_cases h5 : count (loWord b ^^^ loWord k) + count (hiWord b ^^^ hiWord k) > 4
      · unfold rdmContributions; dsimp only; rw [if_pos h5, if_pos h5]
      · exact contributions_o p q (by omega) (by omega) (by omega)
    rw [this, evL_delta1 0 norb, ev_rdmPair (delta1 norb p q) hn h2 b k (hS.1 _ hb) (hS.2.1 _ hk) (hS.2.2 _ hb _ hk) val (Or.inl fun _ _ => rfl),
      hamiltonian_delta1 hp hq]

/-! ### the hypotheses are met: two alpha electrons (C62), and a double excitation (C63) -/

example : OneSector (M := 2) 2 [0b0011#4] [0b0011#4] ∧
    (expect (M := 2) [0b0011#4] [0b0011#4] (fun _ => (1 : Rat)) fun b k =>
      if b = k then 2⁻¹ * (rdm2 (M := 2) b b 0 1 1 0 : Rat) else 2⁻¹ * (rdm2 b k 0 1 0 1 : Rat)) = -1/2 := by
  decide +kernel

example : OneSector 2 exDets exDets ∧ diffOrbitals (0b0101#4) (0b1010#4) = 4 ∧
    amp1 ((0b1010#4).setWidth 2) ((0b0101#4).setWidth 2) 1 0 = 1 ∧
    (formRdms exDets exDets (fun _ => (1 : Rat)) false zeroRdms).ordm 1 0
      ≠ expect exDets exDets (fun _ => (1 : Rat)) fun b k => (rdm1 b k 1 0 : Rat) := by
  decide +kernel

end Macis
