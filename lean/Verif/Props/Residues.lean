import Verif.Lemmas.SD
/-
C51: two-electron residues.
-/
namespace Macis
open Spec

variable {M : Nat}

/-- remove spin orbitals `p` and `q` -/
def remove2 (s : BitVec (2 * M)) (p q : Nat) : BitVec (2 * M) :=
  s &&& ~~~(BitVec.twoPow (2 * M) p ||| BitVec.twoPow (2 * M) q)

theorem getLsbD_remove2 (s : BitVec (2 * M)) (p q k : Nat) :
    (remove2 s p q).getLsbD k = true ↔ s.getLsbD k = true ∧ k ≠ p ∧ k ≠ q := by
  unfold remove2
  rw [BitVec.getLsbD_and, BitVec.getLsbD_not, BitVec.getLsbD_or, BitVec.getLsbD_twoPow,
    BitVec.getLsbD_twoPow]
  by_cases hs : s.getLsbD k = true
  · have hk := BitVec.lt_of_getLsbD hs
    rw [hs]
    by_cases h1 : p = k <;> by_cases h2 : q = k <;> simp [hk, h1, h2] <;> omega
  · rw [Bool.not_eq_true] at hs
    rw [hs]; simp

theorem getLsbD_one_shift (n i k : Nat) (hi : i < n) :
    (BitVec.ofNat n 1 <<< i).getLsbD k = decide (k = i) := by
  rw [BitVec.getLsbD_shiftLeft, BitVec.getLsbD_ofNat]
  by_cases h : k = i
  · subst h; simp [hi]; omega
  · by_cases h2 : k < i
    · simp [h2, h]
    · have : Nat.testBit 1 (k - i) = false := by
        rw [Bool.eq_false_iff, ne_eq, Nat.testBit_one_eq_true_iff_self_eq_zero]; omega
      simp [this, h]

theorem mem_ltPairs {n i j : Nat} : (i, j) ∈ ltPairs n ↔ i < j ∧ j < n := by
  simp only [ltPairs, List.mem_flatMap, List.mem_map, List.mem_range, List.mem_range'_1, Prod.mk.injEq]
  constructor
  · rintro ⟨a, ha, b, hb, rfl, rfl⟩; omega
  · intro h; exact ⟨i, by omega, j, by omega, rfl, rfl⟩

theorem ltPairs_nodup (n : Nat) : (ltPairs n).Nodup := by
  unfold ltPairs
  rw [List.nodup_flatMap]
  refine ⟨fun i _ => ?_, ?_⟩
  · apply List.Nodup.map _ (List.nodup_range' ..)
    intro a b h; exact (Prod.mk.inj h).2
  · apply List.Pairwise.imp_of_mem _ (List.nodup_range (n := n))
    intro a b _ _ hab x hx hy
    rw [List.mem_map] at hx hy
    obtain ⟨_, _, rfl⟩ := hx
    obtain ⟨_, _, e⟩ := hy
    exact hab (Prod.mk.inj e).1.symm

/-- the pairs of occupied spin orbitals in the order of the code: aa, bb, ab -/
def resPairs (s : BitVec (2 * M)) : List (Nat × Nat) :=
  let oa := occ (loWord s)
  let ob := occ (hiWord s)
  ((ltPairs oa.length).map fun p => (oa.getD p.1 0, oa.getD p.2 0)) ++
  ((ltPairs ob.length).map fun p => (M + ob.getD p.1 0, M + ob.getD p.2 0)) ++
  (oa.flatMap fun i => ob.map fun j => (i, M + j))

theorem generateResidues_eq (s : BitVec (2 * M)) (res : List (BitVec (2 * M))) :
    generateResidues s res = res ++ (resPairs s).map fun p => remove2 s p.1 p.2 := by
  unfold generateResidues resPairs
  dsimp only
  rw [bitsToIndices_eq_occ, bitsToIndices_eq_occ]
  simp only [List.map_append, List.map_map, List.map_flatMap, ← List.append_assoc]
  have lo_lt : ∀ i ∈ occ (loWord s), i < M := fun i hi => BitVec.lt_of_getLsbD (mem_occ.1 hi)
  have hi_lt : ∀ i ∈ occ (hiWord s), i < M := fun i hi => BitVec.lt_of_getLsbD (mem_occ.1 hi)
  have bits : ∀ t t' : BitVec (2 * M), (∀ k < 2 * M, (t.getLsbD k = true ↔ t'.getLsbD k = true)) → t = t' := by
    intro t t' h
    apply BitVec.eq_of_getLsbD_eq
    intro k hk
    rw [Bool.eq_iff_iff]; exact h k hk
  congr 1
  · congr 1
    · congr 1
      apply List.map_congr_left
      rintro ⟨i, j⟩ hij
      rw [mem_ltPairs] at hij
      have h1 := lo_lt _ (getD_mem (l := occ (loWord s)) (i := i) (by omega))
      have h2 := lo_lt _ (getD_mem (l := occ (loWord s)) (i := j) (by omega))
      apply bits
      intro k hk
      simp only [Function.comp]
      rw [getLsbD_remove2]
      change (joinSpin _ _).getLsbD k = true ↔ _
      rw [getLsbD_joinSpin, BitVec.getLsbD_and, BitVec.getLsbD_not, BitVec.getLsbD_or,
        getLsbD_one_shift _ _ _ h1, getLsbD_one_shift _ _ _ h2, getLsbD_loWord, getLsbD_hiWord]
      generalize (occ (loWord s)).getD i 0 = x at *
      generalize (occ (loWord s)).getD j 0 = y at *
      by_cases hkM : k < M
      · rw [if_pos hkM]; simp [hkM]
      · rw [if_neg hkM, show k - M + M = k by omega]
        simp only [hk, show k - M < M by omega, decide_true, Bool.true_and]
        constructor
        · intro h; exact ⟨h, by omega, by omega⟩
        · exact fun h => h.1
    · apply List.map_congr_left
      rintro ⟨i, j⟩ hij
      rw [mem_ltPairs] at hij
      have h1 := hi_lt _ (getD_mem (l := occ (hiWord s)) (i := i) (by omega))
      have h2 := hi_lt _ (getD_mem (l := occ (hiWord s)) (i := j) (by omega))
      apply bits
      intro k hk
      simp only [Function.comp]
      rw [getLsbD_remove2, BitVec.or_comm]
      change (joinSpin _ _).getLsbD k = true ↔ _
      rw [getLsbD_joinSpin, BitVec.getLsbD_and, BitVec.getLsbD_not, BitVec.getLsbD_or,
        getLsbD_one_shift _ _ _ h1, getLsbD_one_shift _ _ _ h2, getLsbD_loWord, getLsbD_hiWord]
      generalize (occ (hiWord s)).getD i 0 = x at *
      generalize (occ (hiWord s)).getD j 0 = y at *
      by_cases hkM : k < M
      · rw [if_pos hkM]
        simp only [hkM, decide_true, Bool.true_and]
        constructor
        · intro h; exact ⟨h, by omega, by omega⟩
        · exact fun h => h.1
      · rw [if_neg hkM, show k - M + M = k by omega]
        simp only [hk, show k - M < M by omega, decide_true, Bool.true_and, Bool.and_eq_true,
          Bool.not_eq_true', Bool.or_eq_false_iff, decide_eq_false_iff_not]
        constructor
        · rintro ⟨a, b, c⟩; exact ⟨a, by omega, by omega⟩
        · rintro ⟨a, b, c⟩; exact ⟨a, by omega, by omega⟩
  · apply List.flatMap_congr
    intro i hi
    apply List.map_congr_left
    intro j hj
    have h1 := lo_lt i hi
    have h2 := hi_lt j hj
    apply bits
    intro k hk
    simp only [Function.comp]
    rw [getLsbD_remove2]
    rw [BitVec.getLsbD_and, BitVec.getLsbD_not]
    change (s.getLsbD k && (decide (k < 2 * M) && !(joinSpin _ _).getLsbD k)) = true ↔ _
    rw [getLsbD_joinSpin, getLsbD_one_shift _ _ _ h1, getLsbD_one_shift _ _ _ h2]
    by_cases hkM : k < M
    · rw [if_pos hkM]
      simp [hk]; omega
    · rw [if_neg hkM]
      simp [hk]; omega

theorem resPairs_mem (s : BitVec (2 * M)) (p q : Nat) :
    (p, q) ∈ resPairs s ↔ p < q ∧ s.getLsbD p = true ∧ s.getLsbD q = true := by
  have hlo : ∀ x, x ∈ occ (loWord s) ↔ x < M ∧ s.getLsbD x = true := by
    intro x; rw [mem_occ, getLsbD_loWord]; simp
  have hhi : ∀ x, x ∈ occ (hiWord s) ↔ x < M ∧ s.getLsbD (M + x) = true := by
    intro x; rw [mem_occ, getLsbD_hiWord, Nat.add_comm]; simp
  have hsl := occ_sorted (loWord s)
  have hsh := occ_sorted (hiWord s)
  have hlt : ∀ (l : List Nat), l.Pairwise (· < ·) → ∀ i j, i < j → j < l.length → l.getD i 0 < l.getD j 0 := by
    intro l hl i j hij hj
    rw [List.getD_eq_getElem _ _ (by omega), List.getD_eq_getElem _ _ hj]
    exact List.pairwise_iff_getElem.1 hl i j (by omega) hj hij
  have hex : ∀ (l : List Nat), l.Pairwise (· < ·) → ∀ x ∈ l, ∀ y ∈ l, x < y →
      ∃ i j, i < j ∧ j < l.length ∧ l.getD i 0 = x ∧ l.getD j 0 = y := by
    intro l hl x hx y hy hxy
    obtain ⟨i, j, hij, hj, h | h⟩ := exists_lt_getD hx hy (by omega)
    · exact ⟨i, j, hij, hj, h.1, h.2⟩
    · have := hlt l hl i j hij hj
      omega
  simp only [resPairs, List.mem_append, List.mem_map, List.mem_flatMap, Prod.mk.injEq]
  constructor
  · rintro ((⟨⟨i, j⟩, h, rfl, rfl⟩ | ⟨⟨i, j⟩, h, rfl, rfl⟩) | ⟨i, hi, j, hj, rfl, rfl⟩)
    · rw [mem_ltPairs] at h
      have m1 := (hlo _).1 (getD_mem (l := occ (loWord s)) (i := i) (by omega))
      have m2 := (hlo _).1 (getD_mem (l := occ (loWord s)) (i := j) (by omega))
      exact ⟨hlt _ hsl i j h.1 h.2, m1.2, m2.2⟩
    · rw [mem_ltPairs] at h
      have m1 := (hhi _).1 (getD_mem (l := occ (hiWord s)) (i := i) (by omega))
      have m2 := (hhi _).1 (getD_mem (l := occ (hiWord s)) (i := j) (by omega))
      exact ⟨Nat.add_lt_add_left (hlt _ hsh i j h.1 h.2) M, m1.2, m2.2⟩
    · have m1 := (hlo _).1 hi
      have m2 := (hhi _).1 hj
      exact ⟨by omega, m1.2, m2.2⟩
  · rintro ⟨hpq, hp, hq⟩
    have hq2 := BitVec.lt_of_getLsbD hq
    rcases Nat.lt_or_ge q M with h1 | h1
    · left; left
      obtain ⟨i, j, hij, hj, e1, e2⟩ := hex _ hsl p ((hlo p).2 ⟨by omega, hp⟩) q ((hlo q).2 ⟨h1, hq⟩) hpq
      exact ⟨(i, j), mem_ltPairs.2 ⟨hij, hj⟩, e1, e2⟩
    · rcases Nat.lt_or_ge p M with h2 | h2
      · right
        exact ⟨p, (hlo p).2 ⟨h2, hp⟩, q - M,
          (hhi _).2 ⟨by omega, by rw [Nat.add_sub_cancel' h1]; exact hq⟩, rfl, by omega⟩
      · left; right
        obtain ⟨i, j, hij, hj, e1, e2⟩ := hex _ hsh (p - M)
          ((hhi _).2 ⟨by omega, by rw [Nat.add_sub_cancel' h2]; exact hp⟩) (q - M)
          ((hhi _).2 ⟨by omega, by rw [Nat.add_sub_cancel' h1]; exact hq⟩) (by omega)
        exact ⟨(i, j), mem_ltPairs.2 ⟨hij, hj⟩, by dsimp only; omega, by dsimp only; omega⟩

theorem resPairs_nodup (s : BitVec (2 * M)) : (resPairs s).Nodup := by
  have ln := occ_nodup (loWord s)
  have hn := occ_nodup (hiWord s)
  have lo_lt : ∀ i ∈ occ (loWord s), i < M := fun i hi => BitVec.lt_of_getLsbD (mem_occ.1 hi)
  unfold resPairs
  dsimp only
  rw [List.nodup_append', List.nodup_append']
  refine ⟨⟨?_, ?_, ?_⟩, ?_, ?_⟩
  · apply List.Nodup.map_on _ (ltPairs_nodup _)
    rintro ⟨a, b⟩ h1 ⟨c, d⟩ h2 e
    rw [mem_ltPairs] at h1 h2
    rw [Prod.mk.injEq] at e
    dsimp only at e
    rw [getD_inj ln (by omega) (by omega) e.1, getD_inj ln (by omega) (by omega) e.2]
  · apply List.Nodup.map_on _ (ltPairs_nodup _)
    rintro ⟨a, b⟩ h1 ⟨c, d⟩ h2 e
    rw [mem_ltPairs] at h1 h2
    rw [Prod.mk.injEq] at e
    dsimp only at e
    rw [getD_inj hn (by omega) (by omega) (Nat.add_left_cancel e.1),
      getD_inj hn (by omega) (by omega) (Nat.add_left_cancel e.2)]
  · intro x h1 h2
    rw [List.mem_map] at h1 h2
    obtain ⟨⟨a, b⟩, h1, rfl⟩ := h1
    obtain ⟨⟨c, d⟩, h2, e⟩ := h2
    rw [mem_ltPairs] at h1
    rw [Prod.mk.injEq] at e
    have := lo_lt _ (getD_mem (l := occ (loWord s)) (i := a) (by omega))
    dsimp only at e
    omega
  · rw [List.nodup_flatMap]
    refine ⟨fun i _ => hn.map fun a b e => Nat.add_left_cancel (Prod.mk.inj e).2, ?_⟩
    apply List.Pairwise.imp_of_mem _ ln
    intro a b _ _ hab x hx hy
    rw [List.mem_map] at hx hy
    obtain ⟨_, _, rfl⟩ := hx
    obtain ⟨_, _, e⟩ := hy
    exact hab (Prod.mk.inj e).1.symm
  · intro x h1 h2
    rw [List.mem_flatMap] at h2
    obtain ⟨i, hi, h2⟩ := h2
    rw [List.mem_map] at h2
    obtain ⟨j, hj, rfl⟩ := h2
    have hi := lo_lt i hi
    rw [List.mem_append, List.mem_map, List.mem_map] at h1
    rcases h1 with ⟨⟨a, b⟩, h, e⟩ | ⟨⟨a, b⟩, h, e⟩
    · rw [mem_ltPairs] at h
      rw [Prod.mk.injEq] at e
      have := lo_lt _ (getD_mem (l := occ (loWord s)) (i := b) (by omega))
      dsimp only at e
      omega
    · rw [Prod.mk.injEq] at e
      dsimp only at e
      omega

/-- C51: for every width and determinant, `generate_residues` appends to `res` the determinants
obtained by removing two distinct electrons (same or opposite spin): every such determinant appears,
nothing else does, and each appears exactly once. -/
theorem C51_residues_exact (M : Nat) (state : BitVec (2 * M)) (res : List (BitVec (2 * M))) :
    ∃ l, generateResidues state res = res ++ l ∧ l.Nodup ∧
      ∀ t, t ∈ l ↔ ∃ p q, p < q ∧ state.getLsbD p = true ∧ state.getLsbD q = true ∧
        ∀ k, t.getLsbD k = true ↔ (state.getLsbD k = true ∧ k ≠ p ∧ k ≠ q) := by
  refine ⟨_, generateResidues_eq state res, ?_, ?_⟩
  · apply List.Nodup.map_on _ (resPairs_nodup state)
    rintro ⟨p, q⟩ h1 ⟨p', q'⟩ h2 e
    rw [resPairs_mem] at h1 h2
    have key : ∀ k, state.getLsbD k = true → ((k = p ∨ k = q) ↔ (k = p' ∨ k = q')) := by
      intro k hk
      have := getLsbD_remove2 state p q k
      have h' := getLsbD_remove2 state p' q' k
      dsimp only at e
      rw [e, h'] at this
      constructor
      · intro h; by_contra hc
        exact absurd (this.1 ⟨hk, fun e => hc (Or.inl e), fun e => hc (Or.inr e)⟩).2 (by omega)
      · intro h; by_contra hc
        exact absurd (this.2 ⟨hk, fun e => hc (Or.inl e), fun e => hc (Or.inr e)⟩).2 (by omega)
    have k1 := (key p h1.2.1).1 (Or.inl rfl)
    have k2 := (key q h1.2.2).1 (Or.inr rfl)
    have k3 := (key p' h2.2.1).2 (Or.inl rfl)
    rw [Prod.mk.injEq]
    omega
  · intro t
    rw [List.mem_map]
    constructor
    · rintro ⟨⟨p, q⟩, h, rfl⟩
      rw [resPairs_mem] at h
      exact ⟨p, q, h.1, h.2.1, h.2.2, getLsbD_remove2 state p q⟩
    · rintro ⟨p, q, h1, h2, h3, h4⟩
      refine ⟨(p, q), (resPairs_mem state p q).2 ⟨h1, h2, h3⟩, ?_⟩
      apply BitVec.eq_of_getLsbD_eq
      intro k _
      rw [Bool.eq_iff_iff, getLsbD_remove2, h4]

/-- two alpha and one beta electron: three residues -/
example : generateResidues (M := 4) 0b0010_0101#8 [] = [0b0010_0000#8, 0b0000_0100#8, 0b0000_0001#8] := by
  decide +kernel

end Macis
