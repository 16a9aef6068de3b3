import Verif.Lemmas.SlaterCondon
import Verif.Spec.Sector
import Verif.Props.SD
import Mathlib.Data.Fintype.BigOperators
import Mathlib.Tactic.LinearCombination

namespace Macis
open Spec
variable {M : Nat}

theorem electrons_eq_count {N : Nat} (s : BitVec N) : electrons s = count s := by
  rw [count_eq_length]; rfl

theorem alphaElectrons_eq (s : BitVec (2 * M)) : alphaElectrons s = electrons (loWord s) := by
  unfold alphaElectrons electrons
  congr 1
  apply List.filter_congr
  intro x hx
  simp at hx
  rw [getLsbD_loWord]; simp [hx]

theorem betaElectrons_eq (s : BitVec (2 * M)) : betaElectrons s = electrons (hiWord s) := by
  unfold betaElectrons electrons
  congr 1
  apply List.filter_congr
  intro x hx
  simp at hx
  rw [getLsbD_hiWord]; simp [hx]

theorem inSpace_iff {norb : Nat} (s : BitVec (2 * M)) :
    InSpace norb s ↔ SupportedOn norb (loWord s) ∧ SupportedOn norb (hiWord s) := by
  unfold InSpace SupportedOn
  simp only [getLsbD_loWord, getLsbD_hiWord, Bool.and_eq_true, decide_eq_true_eq]
  constructor
  · rintro ⟨h1, h2⟩; exact ⟨fun i hi => h1 i hi.1 hi.2, fun i hi => h2 i hi.1 hi.2⟩
  · rintro ⟨h1, h2⟩; exact ⟨fun i hi hb => h1 i ⟨hi, hb⟩, fun i hi hb => h2 i ⟨hi, hb⟩⟩

/-- equal electron numbers: the strings are related by a `k`-fold excitation -/
theorem exists_excited {N : Nat} {a b : BitVec N} (h : electrons a = electrons b) :
    ∃ k, count (a ^^^ b) = 2 * k ∧ ExcitedWithin k (fun _ => True) b a := by
  classical
  let Rm := (Finset.range N).filter (fun i => b.getLsbD i = true ∧ a.getLsbD i = false)
  let Ad := (Finset.range N).filter (fun i => a.getLsbD i = true ∧ b.getLsbD i = false)
  let Bo := (Finset.range N).filter (fun i => a.getLsbD i = true ∧ b.getLsbD i = true)
  have hcard : ∀ s : BitVec N, electrons s = ((Finset.range N).filter (fun i => s.getLsbD i = true)).card := by
    intro s
    unfold electrons
    rw [← List.toFinset_card_of_nodup (List.nodup_range.filter _)]
    congr 1; ext x; simp
  have ha : electrons a = Bo.card + Ad.card := by
    rw [hcard, ← Finset.card_union_of_disjoint]
    · congr 1; ext x; simp only [Bo, Ad, Finset.mem_filter, Finset.mem_union, Finset.mem_range]
      cases a.getLsbD x <;> cases b.getLsbD x <;> simp
    · rw [Finset.disjoint_left]; intro x; simp only [Bo, Ad, Finset.mem_filter]
      rintro ⟨_, _, h1⟩ ⟨_, _, h2⟩; simp [h1] at h2
  have hb : electrons b = Bo.card + Rm.card := by
    rw [hcard, ← Finset.card_union_of_disjoint]
    · congr 1; ext x; simp only [Bo, Rm, Finset.mem_filter, Finset.mem_union, Finset.mem_range]
      cases a.getLsbD x <;> cases b.getLsbD x <;> simp
    · rw [Finset.disjoint_left]; intro x; simp only [Bo, Rm, Finset.mem_filter]
      rintro ⟨_, h1, _⟩ ⟨_, _, h2⟩; simp [h1] at h2
  have hx : count (a ^^^ b) = Rm.card + Ad.card := by
    rw [← electrons_eq_count, hcard, ← Finset.card_union_of_disjoint]
    · congr 1; ext x
      simp only [Rm, Ad, Finset.mem_filter, Finset.mem_union, Finset.mem_range, BitVec.getLsbD_xor]
      cases a.getLsbD x <;> cases b.getLsbD x <;> simp
    · rw [Finset.disjoint_left]; intro x; simp only [Rm, Ad, Finset.mem_filter]
      rintro ⟨_, h1, _⟩ ⟨_, _, h2⟩; simp [h1] at h2
  refine ⟨Rm.card, by omega, Rm, Ad, rfl, by omega, ?_, ?_, ?_⟩
  · intro i hi; simp only [Rm, Finset.mem_filter] at hi; exact ⟨trivial, hi.2.1⟩
  · intro i hi; simp only [Ad, Finset.mem_filter, Finset.mem_range] at hi
    exact ⟨hi.1, trivial, hi.2.2⟩
  · intro j
    simp only [Rm, Ad, Finset.mem_filter, Finset.mem_range]
    have e1 : a.getLsbD j = true → j < N := BitVec.lt_of_getLsbD
    have e2 : b.getLsbD j = true → j < N := BitVec.lt_of_getLsbD
    cases h1 : a.getLsbD j <;> cases h2 : b.getLsbD j <;> simp [h1, h2] at * <;> assumption

/-! ### lifting string level operators to the full determinant -/

theorem below_join_alpha (a b : BitVec M) {p : Nat} (hp : p ≤ M) :
    below (joinSpin a b) p = below a p := by
  unfold below
  congr 1
  apply List.filter_congr
  intro x hx
  simp at hx
  rw [getLsbD_joinSpin]; simp [show x < M by omega]

theorem below_join_beta (a b : BitVec M) {p : Nat} (hp : p ≤ M) :
    below (joinSpin a b) (p + M) = below a M + below b p := by
  unfold below
  rw [show p + M = M + p by omega, List.range_add, List.filter_append, List.length_append]
  congr 1
  · congr 1
    apply List.filter_congr
    intro x hx
    simp at hx
    rw [getLsbD_joinSpin]; simp [hx]
  · rw [List.filter_map, List.length_map]
    congr 1
    apply List.filter_congr
    intro x hx
    simp at hx
    rw [Function.comp, getLsbD_joinSpin]
    simp [show M + x < 2 * M by omega]

theorem flip_join_alpha (a b : BitVec M) {p : Nat} (hp : p < M) :
    flip (joinSpin a b) p = joinSpin (flip a p) b := by
  apply BitVec.eq_of_getLsbD_eq
  intro i hi
  rw [getLsbD_flip (by omega), getLsbD_joinSpin, getLsbD_joinSpin, getLsbD_flip hp]
  by_cases h : i < M
  · simp [h]
  · simp [h, show p ≠ i by omega]

theorem flip_join_beta (a b : BitVec M) {p : Nat} (hp : p < M) :
    flip (joinSpin a b) (p + M) = joinSpin a (flip b p) := by
  apply BitVec.eq_of_getLsbD_eq
  intro i hi
  rw [getLsbD_flip (by omega), getLsbD_joinSpin, getLsbD_joinSpin, getLsbD_flip hp]
  by_cases h : i < M
  · simp [h, show p + M ≠ i by omega]
  · simp [h, hi, show (p + M = i) = (p = i - M) by simp; omega]

theorem join_alpha_bit (a b : BitVec M) {p : Nat} (hp : p < M) :
    (joinSpin a b).getLsbD p = a.getLsbD p := by rw [getLsbD_joinSpin]; simp [hp]

theorem join_beta_bit (a b : BitVec M) {p : Nat} :
    (joinSpin a b).getLsbD (p + M) = b.getLsbD p := by
  rw [getLsbD_joinSpin]; simp
  intro h; have := BitVec.lt_of_getLsbD h; omega

theorem ladder_lift_alpha (l : Bool) (a b : BitVec M) {p : Nat} (hp : p < M) (c : Int) :
    ladder l p (some (c, joinSpin a b))
      = (ladder l p (some (c, a))).map fun x => (x.1, joinSpin x.2 b) := by
  simp only [ladder, join_alpha_bit a b hp, below_join_alpha a b (le_of_lt hp),
    flip_join_alpha a b hp]
  split <;> simp

theorem ladder_lift_beta (l : Bool) (a b : BitVec M) {p : Nat} (hp : p < M) (c : Int) :
    ladder l (p + M) (some (c, joinSpin a b))
      = (ladder l p (some (c, b))).map fun x => ((-1) ^ below a M * x.1, joinSpin a x.2) := by
  simp only [ladder, join_beta_bit a b, below_join_beta a b (le_of_lt hp),
    flip_join_beta a b hp]
  split
  · simp [pow_add]; ring
  · simp

theorem excite_lift_alpha (a b : BitVec M) {v o : Nat} (hv : v < M) (ho : o < M) (c : Int) :
    cre v (ann o (some (c, joinSpin a b)))
      = (cre v (ann o (some (c, a)))).map fun x => (x.1, joinSpin x.2 b) := by
  rw [ann_eq_ladder, ann_eq_ladder, cre_eq_ladder (by omega), cre_eq_ladder hv,
    ladder_lift_alpha _ _ _ ho]
  cases h : ladder true o (some (c, a)) with
  | none => rfl
  | some x => rw [Option.map_some, ladder_lift_alpha _ _ _ hv]

theorem excite_lift_beta (a b : BitVec M) {v o : Nat} (hv : v < M) (ho : o < M) (c : Int) :
    cre (v + M) (ann (o + M) (some (c, joinSpin a b)))
      = (cre v (ann o (some (c, b)))).map fun x => (x.1, joinSpin a x.2) := by
  rw [ann_eq_ladder, ann_eq_ladder, cre_eq_ladder (by omega), cre_eq_ladder hv,
    ladder_lift_beta _ _ _ ho]
  cases h : ladder true o (some (c, b)) with
  | none => rfl
  | some x =>
    obtain ⟨d, t⟩ := x
    rw [Option.map_some, ladder_lift_beta _ _ _ hv]
    simp only [ladder]
    split
    · simp only [Option.map_some]
      congr 2
      have := neg_one_pow_two_add (below a M) 0
      rw [Nat.add_zero, pow_add, pow_zero] at this
      linear_combination ((-1) ^ below t v * d) * this
    · rfl

/-! ### the specification Hamiltonian over spin orbitals -/

section
variable {R : Type} [Field R]

/-- all spin orbitals -/
def spinOrbs (norb : Nat) : Finset (Bool × Nat) := Finset.univ ×ˢ Finset.range norb

/-- bit of a spin orbital -/
def soBit (M : Nat) (x : Bool × Nat) : Nat := so M x.1 x.2

def soT (I : Integrals R) (x y : Bool × Nat) : R := if x.1 = y.1 then I.T x.2 y.2 else 0

def soV (I : Integrals R) (x y z w : Bool × Nat) : R :=
  if x.1 = y.1 ∧ z.1 = w.1 then I.V x.2 y.2 z.2 w.2 else 0

theorem soBit_inj {norb : Nat} (h : norb ≤ M) : Set.InjOn (soBit M) (spinOrbs norb) := by
  rintro ⟨s, p⟩ hx ⟨t, q⟩ hy heq
  simp [spinOrbs] at hx hy
  simp only [soBit, so] at heq
  cases s <;> cases t <;> simp at heq ⊢ <;> omega

theorem soBit_lt {norb : Nat} (h : norb ≤ M) : ∀ x ∈ spinOrbs norb, soBit M x < 2 * M := by
  rintro ⟨s, p⟩ hx
  simp [spinOrbs] at hx
  simp only [soBit, so]
  cases s <;> simp <;> omega

theorem soV_symm {I : Integrals R} (h : PairSymmetric I) (a b c d : Bool × Nat) :
    soV I a b c d = soV I c d a b := by
  unfold soV
  rw [h a.2 b.2 c.2 d.2]
  by_cases h1 : a.1 = b.1 <;> by_cases h2 : c.1 = d.1 <;> simp [h1, h2]

theorem sum_spinOrbs (norb : Nat) (f : Bool × Nat → R) :
    ∑ x ∈ spinOrbs norb, f x
      = (∑ p ∈ Finset.range norb, f (false, p)) + ∑ p ∈ Finset.range norb, f (true, p) := by
  rw [spinOrbs, Finset.sum_product, Fintype.sum_bool, add_comm]

theorem hamiltonian_eq_abs (I : Integrals R) (bra ket : BitVec (2 * M)) :
    hamiltonian I bra ket = abs1 (spinOrbs I.norb) (soBit M) (soT I) bra ket
      + 2⁻¹ * abs2 (spinOrbs I.norb) (soBit M) (soV I) bra ket := by
  unfold hamiltonian abs1 abs2
  simp only [sum_spinOrbs, Fintype.sum_bool, soT, soV, soBit]
  simp only [if_true, reduceIte, Bool.false_eq_true, if_false, Bool.true_eq_false, zero_mul,
    and_false, and_true, Finset.sum_const_zero, add_zero, zero_add, and_self,
    Finset.sum_add_distrib]
  ring

/-- list sum over occupied orbitals as a conditional sum -/
theorem sum_occ {norb : Nat} {s : BitVec M} (hs : SupportedOn norb s) (hn : norb ≤ M) (f : Nat → R) :
    ((occ s).map f).sum = ∑ p ∈ Finset.range norb, if s.getLsbD p = true then f p else 0 := by
  rw [← Finset.sum_filter, ← List.sum_toFinset _ (occ_nodup s)]
  apply Finset.sum_congr _ (fun _ _ => rfl)
  ext x
  rw [List.mem_toFinset, mem_occ, Finset.mem_filter, Finset.mem_range]
  exact ⟨fun h => ⟨hs x h, h⟩, fun h => h.2⟩

end
end Macis
