import Verif.Spec.Width
import Verif.Spec.Sector
import Verif.Lemmas.MatrixElement
/-! The same determinant stored with different numbers of bits per spin. -/
namespace Macis
open Spec

variable {M M' : Nat}

/-- electrons of spin `σ` in orbitals below `p` -/
def spinBelow (s : BitVec (2 * M)) (σ : Bool) (p : Nat) : Nat :=
  ((List.range p).filter fun i => s.getLsbD (so M σ i)).length

theorem below_alpha (s : BitVec (2 * M)) (p : Nat) : below s (so M false p) = spinBelow s false p := rfl

theorem below_beta (s : BitVec (2 * M)) (p : Nat) :
    below s (so M true p) = spinBelow s false M + spinBelow s true p := by
  unfold below spinBelow so
  simp only [if_true, Bool.false_eq_true, if_false]
  rw [show p + M = M + p by omega, List.range_add, List.filter_append, List.length_append, List.filter_map,
    List.length_map]
  congr 2
  refine List.filter_congr fun i _ => ?_
  simp only [Function.comp]
  rw [Nat.add_comm]

theorem spinBelow_top {n : Nat} {s : BitVec (2 * M)} {σ : Bool} (hn : n ≤ M)
    (h : ∀ p, n ≤ p → p < M → s.getLsbD (so M σ p) = false) : spinBelow s σ M = spinBelow s σ n := by
  unfold spinBelow
  obtain ⟨k, rfl⟩ := Nat.exists_eq_add_of_le hn
  rw [List.range_add, List.filter_append, List.length_append]
  have : ((List.map (fun x => n + x) (List.range k)).filter fun i => s.getLsbD (so (n + k) σ i)) = [] := by
    rw [List.filter_eq_nil_iff]
    intro i hi
    obtain ⟨j, hj, rfl⟩ := List.mem_map.1 hi
    rw [h (n + j) (by omega) (by have := List.mem_range.1 hj; omega)]
    simp
  rw [this]
  rfl

theorem _root_.Macis.Spec.SameOcc.spin {n : Nat} {s : BitVec (2 * M)} {s' : BitVec (2 * M')} (h : SameOcc n s s') (σ : Bool) {p : Nat}
    (hp : p ≤ n) : spinBelow s σ p = spinBelow s' σ p := by
  unfold spinBelow
  congr 1
  refine List.filter_congr fun i hi => ?_
  exact h.bit σ i (by have := List.mem_range.1 hi; omega)

theorem _root_.Macis.Spec.SameOcc.below {n : Nat} {s : BitVec (2 * M)} {s' : BitVec (2 * M')} (h : SameOcc n s s') (hn : n ≤ M)
    (hn' : n ≤ M') (σ : Bool) {p : Nat} (hp : p ≤ n) : Spec.below s (so M σ p) = Spec.below s' (so M' σ p) := by
  cases σ
  · rw [below_alpha, below_alpha, h.spin false hp]
  · rw [below_beta, below_beta, spinBelow_top hn (h.lo false), spinBelow_top hn' (h.hi false),
      h.spin false (le_refl n), h.spin true hp]

theorem so_ne {σ τ : Bool} {p q : Nat} (hp : p < M) (hq : q < M) :
    so M σ p = so M τ q ↔ (σ = τ ∧ p = q) := by
  cases σ <;> cases τ <;> simp [so] <;> omega

theorem so_bound {σ : Bool} {p : Nat} (hp : p < M) : so M σ p < 2 * M := by
  cases σ <;> simp [so] <;> omega

/-- changing the occupation of one spin orbital -/
theorem _root_.Macis.Spec.SameOcc.update {n : Nat} {s t : BitVec (2 * M)} {s' t' : BitVec (2 * M')} (h : SameOcc n s s') (hn : n ≤ M)
    (hn' : n ≤ M') {σ : Bool} {p : Nat} (hp : p < n) {v : Bool}
    (ht : ∀ i, i < 2 * M → t.getLsbD i = if i = so M σ p then v else s.getLsbD i)
    (ht' : ∀ i, i < 2 * M' → t'.getLsbD i = if i = so M' σ p then v else s'.getLsbD i) : SameOcc n t t' where
  bit τ q hq := by
    rw [ht _ (so_bound (by omega)), ht' _ (so_bound (by omega)), h.bit τ q hq]
    by_cases c : τ = σ ∧ q = p
    · rw [if_pos ((so_ne (by omega) (by omega)).2 c), if_pos ((so_ne (by omega) (by omega)).2 c)]
    · rw [if_neg fun e => c ((so_ne (by omega) (by omega)).1 e), if_neg fun e => c ((so_ne (by omega) (by omega)).1 e)]
  lo τ q hq hM := by
    rw [ht _ (so_bound hM), if_neg, h.lo τ q hq hM]
    intro e
    have := ((so_ne hM (by omega)).1 e).2
    omega
  hi τ q hq hM := by
    rw [ht' _ (so_bound hM), if_neg, h.hi τ q hq hM]
    intro e
    have := ((so_ne hM (by omega)).1 e).2
    omega

/-- equal numbers times the same determinant -/
inductive SameVec (n : Nat) : Option (Int × BitVec (2 * M)) → Option (Int × BitVec (2 * M')) → Prop
  | none : SameVec n none none
  | some {c : Int} {s : BitVec (2 * M)} {s' : BitVec (2 * M')} (h : SameOcc n s s') :
      SameVec n (some (c, s)) (some (c, s'))

theorem clear_bit {N : Nat} (s : BitVec N) {P : Nat} (i : Nat) (hi : i < N) :
    (s &&& ~~~(BitVec.twoPow N P)).getLsbD i = if i = P then false else s.getLsbD i := by
  simp only [BitVec.getLsbD_and, BitVec.getLsbD_not, hi, decide_true, BitVec.getLsbD_twoPow, Bool.true_and]
  by_cases c : i = P
  · subst c; simp [hi]
  · have : ¬ P = i := fun e => c e.symm
    simp [c, this]

theorem set_bit {N : Nat} (s : BitVec N) {P : Nat} (i : Nat) (hi : i < N) :
    (s ||| BitVec.twoPow N P).getLsbD i = if i = P then true else s.getLsbD i := by
  simp only [BitVec.getLsbD_or, BitVec.getLsbD_twoPow]
  by_cases c : i = P
  · subst c; simp [hi]
  · have : ¬ P = i := fun e => c e.symm
    simp [c, this]

theorem SameVec.ann {n : Nat} {o : Option (Int × BitVec (2 * M))} {o' : Option (Int × BitVec (2 * M'))}
    (h : SameVec n o o') (hn : n ≤ M) (hn' : n ≤ M') (σ : Bool) {p : Nat} (hp : p < n) :
    SameVec n (Spec.ann (so M σ p) o) (Spec.ann (so M' σ p) o') := by
  cases h with
  | none => exact .none
  | @some c s s' h =>
    unfold Spec.ann
    dsimp only
    rw [← h.bit σ p hp, ← h.below hn hn' σ (by omega : p ≤ n)]
    by_cases b : s.getLsbD (so M σ p) = true
    · rw [if_pos b, if_pos b]
      exact .some (h.update hn hn' hp (v := false) (fun i hi => clear_bit s i hi) (fun i hi => clear_bit s' i hi))
    · rw [if_neg b, if_neg b]
      exact .none

theorem SameVec.cre {n : Nat} {o : Option (Int × BitVec (2 * M))} {o' : Option (Int × BitVec (2 * M'))}
    (h : SameVec n o o') (hn : n ≤ M) (hn' : n ≤ M') (σ : Bool) {p : Nat} (hp : p < n) :
    SameVec n (Spec.cre (so M σ p) o) (Spec.cre (so M' σ p) o') := by
  cases h with
  | none => exact .none
  | @some c s s' h =>
    unfold Spec.cre
    dsimp only
    rw [← h.bit σ p hp, ← h.below hn hn' σ (by omega : p ≤ n)]
    by_cases b : s.getLsbD (so M σ p) = true
    · rw [if_pos b, if_pos b]
      exact .none
    · rw [if_neg b, if_neg b]
      exact .some (h.update hn hn' hp (v := true) (fun i hi => set_bit s i hi) (fun i hi => set_bit s' i hi))

theorem so_cases {P : Nat} (hP : P < 2 * M) : ∃ σ p, p < M ∧ P = so M σ p := by
  by_cases h : P < M
  · exact ⟨false, P, h, rfl⟩
  · exact ⟨true, P - M, by omega, by simp [so]; omega⟩

theorem _root_.Macis.Spec.SameOcc.eq_iff {n : Nat} {s t : BitVec (2 * M)} {s' t' : BitVec (2 * M')} (h : SameOcc n s s')
    (h' : SameOcc n t t') (hn : n ≤ M) (hn' : n ≤ M') : s = t ↔ s' = t' := by
  constructor
  · rintro rfl
    refine BitVec.eq_of_getLsbD_eq fun i hi => ?_
    obtain ⟨σ, p, hp, rfl⟩ := so_cases hi
    by_cases c : p < n
    · rw [← h.bit σ p c, h'.bit σ p c]
    · rw [h.hi σ p (by omega) hp, h'.hi σ p (by omega) hp]
  · rintro rfl
    refine BitVec.eq_of_getLsbD_eq fun i hi => ?_
    obtain ⟨σ, p, hp, rfl⟩ := so_cases hi
    by_cases c : p < n
    · rw [h.bit σ p c, ← h'.bit σ p c]
    · rw [h.lo σ p (by omega) hp, h'.lo σ p (by omega) hp]

theorem SameVec.amp {n : Nat} {o : Option (Int × BitVec (2 * M))} {o' : Option (Int × BitVec (2 * M'))}
    (h : SameVec n o o') (hn : n ≤ M) (hn' : n ≤ M') {bra : BitVec (2 * M)} {bra' : BitVec (2 * M')}
    (hb : SameOcc n bra bra') : Spec.amp bra o = Spec.amp bra' o' := by
  cases h with
  | none => rfl
  | @some c s s' h =>
    unfold Spec.amp
    dsimp only
    by_cases e : s = bra
    · rw [if_pos e, if_pos ((h.eq_iff hb hn hn').1 e)]
    · rw [if_neg e, if_neg fun e' => e ((h.eq_iff hb hn hn').2 e')]

/-- The Hamiltonian matrix element does not depend on the number of bits. -/
theorem hamiltonian_widen {R : Type} [Field R] (I : Integrals R) (hn : I.norb ≤ M) (hn' : I.norb ≤ M')
    {bra ket : BitVec (2 * M)} {bra' ket' : BitVec (2 * M')} (hb : SameOcc I.norb bra bra')
    (hk : SameOcc I.norb ket ket') : hamiltonian I bra ket = hamiltonian I bra' ket' := by
  unfold hamiltonian
  have hv : SameVec I.norb (some ((1 : Int), ket)) (some ((1 : Int), ket')) := .some hk
  refine congrArg₂ (· + ·) ?_ (congrArg (2⁻¹ * ·) ?_)
  · refine Finset.sum_congr rfl fun σ _ => Finset.sum_congr rfl fun p hp => Finset.sum_congr rfl fun q hq => ?_
    have hp := Finset.mem_range.1 hp
    have hq := Finset.mem_range.1 hq
    refine congrArg (fun z : Int => I.T p q * (z : R)) ?_
    exact ((hv.ann hn hn' σ hq).cre hn hn' σ hp).amp hn hn' hb
  · refine Finset.sum_congr rfl fun σ _ => Finset.sum_congr rfl fun τ _ => Finset.sum_congr rfl fun p hp =>
      Finset.sum_congr rfl fun q hq => Finset.sum_congr rfl fun r hr => Finset.sum_congr rfl fun s hs => ?_
    have hp := Finset.mem_range.1 hp
    have hq := Finset.mem_range.1 hq
    have hr := Finset.mem_range.1 hr
    have hs := Finset.mem_range.1 hs
    refine congrArg (fun z : Int => I.V p q r s * (z : R)) ?_
    exact ((((hv.ann hn hn' σ hq).ann hn hn' τ hs).cre hn hn' τ hr).cre hn hn' σ hp).amp hn hn' hb

theorem _root_.Macis.Spec.SameOcc.xor {n : Nat} {s t : BitVec (2 * M)} {s' t' : BitVec (2 * M')} (h : SameOcc n s s')
    (h' : SameOcc n t t') : SameOcc n (s ^^^ t) (s' ^^^ t') where
  bit σ p hp := by rw [BitVec.getLsbD_xor, BitVec.getLsbD_xor, h.bit σ p hp, h'.bit σ p hp]
  lo σ p hp hM := by rw [BitVec.getLsbD_xor, h.lo σ p hp hM, h'.lo σ p hp hM]; rfl
  hi σ p hp hM := by rw [BitVec.getLsbD_xor, h.hi σ p hp hM, h'.hi σ p hp hM]; rfl

theorem count_spin (s : BitVec (2 * M)) : count s = spinBelow s false M + spinBelow s true M := by
  rw [← electrons_eq_count, ← below_beta]
  unfold electrons below
  rw [show so M true M = 2 * M by simp [so]; omega]

theorem _root_.Macis.Spec.SameOcc.count {n : Nat} {s : BitVec (2 * M)} {s' : BitVec (2 * M')} (h : SameOcc n s s')
    (hn : n ≤ M) (hn' : n ≤ M') : Macis.count s = Macis.count s' := by
  rw [count_spin, count_spin, spinBelow_top hn (h.lo false), spinBelow_top hn' (h.hi false),
    spinBelow_top hn (h.lo true), spinBelow_top hn' (h.hi true), h.spin false (le_refl n), h.spin true (le_refl n)]

theorem spinBelow_alpha (s : BitVec (2 * M)) : spinBelow s false M = alphaElectrons s := rfl

theorem spinBelow_betaE (s : BitVec (2 * M)) : spinBelow s true M = betaElectrons s := rfl

theorem _root_.Macis.Spec.SameOcc.electrons {n : Nat} {s : BitVec (2 * M)} {s' : BitVec (2 * M')} (h : SameOcc n s s')
    (hn : n ≤ M) (hn' : n ≤ M') : alphaElectrons s = alphaElectrons s' ∧ betaElectrons s = betaElectrons s' := by
  rw [← spinBelow_alpha, ← spinBelow_alpha, ← spinBelow_betaE, ← spinBelow_betaE, spinBelow_top hn (h.lo false),
    spinBelow_top hn' (h.hi false), spinBelow_top hn (h.lo true), spinBelow_top hn' (h.hi true),
    h.spin false (le_refl n), h.spin true (le_refl n)]
  exact ⟨rfl, rfl⟩

/-- a determinant of `n` orbitals stored with `M'` bits -/
theorem exists_sameOcc {n : Nat} (hn : n ≤ M) (hn' : n ≤ M') {s : BitVec (2 * M)} (h : InSpace n s) :
    ∃ s' : BitVec (2 * M'), SameOcc n s s' := by
  refine ⟨joinSpin ((loWord s).setWidth M') ((hiWord s).setWidth M'), ?_⟩
  have lo : ∀ σ p, n ≤ p → p < M → s.getLsbD (so M σ p) = false := by
    intro σ p hp hM
    cases hb : s.getLsbD (so M σ p)
    · rfl
    · exfalso
      cases σ
      · have := h.1 p hM hb; omega
      · have := h.2 p hM hb; omega
  have al : ∀ p, p < M' → (joinSpin ((loWord s).setWidth M') ((hiWord s).setWidth M')).getLsbD (so M' false p) =
      (decide (p < M) && s.getLsbD (so M false p)) := by
    intro p hp
    simp only [so, Bool.false_eq_true, if_false]
    rw [join_alpha_bit _ _ hp, BitVec.getLsbD_setWidth, getLsbD_loWord]
    simp [hp]
  have be : ∀ p, p < M' → (joinSpin ((loWord s).setWidth M') ((hiWord s).setWidth M')).getLsbD (so M' true p) =
      (decide (p < M) && s.getLsbD (so M true p)) := by
    intro p hp
    simp only [so, if_true]
    rw [join_beta_bit, BitVec.getLsbD_setWidth, getLsbD_hiWord]
    simp [hp]
  have both : ∀ σ p, p < M' → (joinSpin ((loWord s).setWidth M') ((hiWord s).setWidth M')).getLsbD (so M' σ p) =
      (decide (p < M) && s.getLsbD (so M σ p)) := by
    intro σ p hp
    cases σ
    · exact al p hp
    · exact be p hp
  refine ⟨fun σ p hp => ?_, lo, fun σ p hp hM => ?_⟩
  · rw [both σ p (by omega)]
    simp [show p < M by omega]
  · rw [both σ p hM]
    by_cases c : p < M
    · rw [lo σ p hp c]; simp
    · simp [c]

end Macis
