import Verif.Model.AsciContrib
import Verif.Props.Ham
import Verif.Props.SpinGen
import Verif.Lemmas.Constraint
import Mathlib.Algebra.Order.Field.Basic
import Mathlib.Tactic.Linarith

/-! Matrix elements of explicitly excited determinants, and the contribution lists as filtered and mapped
lists of excited determinants. -/
namespace Macis
open Spec

section strings
variable {N : Nat} {x y : BitVec N}

/-- removed and added orbitals as sets -/
theorem excited_sets {k : Nat} {P : Nat → Prop} (h : ExcitedWithin k P x y) :
    ∃ R A : Finset Nat, R.card = k ∧ A.card = k ∧ R ⊆ bitSet x ∧ Disjoint A (bitSet x) ∧
      bitSet y = (bitSet x \ R) ∪ A := by
  obtain ⟨R, A, h1, h2, h3, h4, h5⟩ := h
  refine ⟨R, A, h1, h2, fun i hi => mem_bitSet.2 (h3 i hi).2, ?_, ?_⟩
  · rw [Finset.disjoint_left]
    intro i hi hx
    rw [mem_bitSet, (h4 i hi).2.2] at hx
    cases hx
  · ext j
    rw [mem_bitSet, h5]
    simp [mem_bitSet]

theorem excited_count_xor {k : Nat} {P : Nat → Prop} (h : ExcitedWithin k P x y) : count (y ^^^ x) = 2 * k := by
  obtain ⟨R, A, h1, h2, h3, h4, h5⟩ := excited_sets h
  rw [← card_bitSet, bitSet_xor, h5]
  have : ((bitSet x \ R ∪ A) \ bitSet x) ∪ (bitSet x \ (bitSet x \ R ∪ A)) = A ∪ R := by
    rw [Finset.disjoint_left] at h4
    ext j
    simp only [Finset.mem_union, Finset.mem_sdiff]
    have a := @h4 j
    have b := @h3 j
    tauto
  rw [this, Finset.card_union_of_disjoint (h4.mono_right h3)]
  omega

theorem excited_electrons {k : Nat} {P : Nat → Prop} (h : ExcitedWithin k P x y) :
    electrons y = electrons x := by
  obtain ⟨R, A, h1, h2, h3, h4, h5⟩ := excited_sets h
  rw [electrons_eq_count, electrons_eq_count, ← card_bitSet, ← card_bitSet, h5,
    Finset.card_union_of_disjoint (h4.symm.mono_left Finset.sdiff_subset), Finset.card_sdiff_of_subset h3]
  have := Finset.card_le_card h3
  omega

theorem excited_mono {k : Nat} {P Q : Nat → Prop} (hPQ : ∀ i, P i → Q i) (h : ExcitedWithin k P x y) :
    ExcitedWithin k Q x y := by
  obtain ⟨R, A, h1, h2, h3, h4, h5⟩ := h
  exact ⟨R, A, h1, h2, fun i hi => ⟨hPQ _ (h3 i hi).1, (h3 i hi).2⟩,
    fun i hi => ⟨(h4 i hi).1, hPQ _ (h4 i hi).2.1, (h4 i hi).2.2⟩, h5⟩

theorem excited_symm {k : Nat} {P : Nat → Prop} (h : ExcitedWithin k P x y) : ExcitedWithin k P y x := by
  obtain ⟨R, A, h1, h2, h3, h4, h5⟩ := h
  refine ⟨A, R, h2, h1, fun i hi => ⟨(h4 i hi).2.1, (h5 i).2 (Or.inr hi)⟩, fun i hi => ?_, fun j => ?_⟩
  · refine ⟨BitVec.lt_of_getLsbD (h3 i hi).2, (h3 i hi).1, ?_⟩
    rw [← Bool.not_eq_true, h5]
    rintro (⟨_, h⟩ | h)
    · exact h hi
    · have := (h4 i h).2.2
      rw [(h3 i hi).2] at this; cases this
  · rw [h5]
    constructor
    · intro h
      by_cases hj : j ∈ R
      · exact Or.inr hj
      · refine Or.inl ⟨Or.inl ⟨h, hj⟩, fun hA => ?_⟩
        have := (h4 j hA).2.2
        rw [h] at this; cases this
    · rintro (⟨⟨h, _⟩ | h, h'⟩ | h)
      · exact h
      · exact absurd h h'
      · exact (h3 j h).2

theorem excited_supported {k norb : Nat} (hx : SupportedOn norb x)
    (h : ExcitedWithin k (· < norb) x y) : SupportedOn norb y := by
  obtain ⟨R, A, h1, h2, h3, h4, h5⟩ := h
  intro i hi
  rcases (h5 i).1 hi with h | h
  · exact hx i h.1
  · exact (h4 i h).2.1

theorem flip2_bits {i a : Nat} (hi : x.getLsbD i = true) (ha : x.getLsbD a = false) (haN : a < N) (j : Nat) :
    (flip (flip x i) a).getLsbD j = true ↔ (x.getLsbD j = true ∧ j ≠ i) ∨ j = a := by
  have hiN := BitVec.lt_of_getLsbD hi
  have hai : a ≠ i := by rintro rfl; rw [hi] at ha; cases ha
  rw [getLsbD_flip haN, getLsbD_flip hiN]
  by_cases h1 : j = i
  · subst h1; simp [hi, hai, hai.symm]
  · by_cases h2 : j = a
    · subst h2; simp [ha, hai.symm]
    · simp [h1, h2, Ne.symm h1, Ne.symm h2]

theorem flip2_excited {P : Nat → Prop} {i a : Nat} (hi : x.getLsbD i = true) (ha : x.getLsbD a = false)
    (haN : a < N) (hPi : P i) (hPa : P a) : ExcitedWithin 1 P x (flip (flip x i) a) := by
  refine ⟨{i}, {a}, rfl, rfl, ?_, ?_, fun j => ?_⟩
  · intro j hj; rw [Finset.mem_singleton.1 hj]; exact ⟨hPi, hi⟩
  · intro j hj; rw [Finset.mem_singleton.1 hj]; exact ⟨haN, hPa, ha⟩
  · rw [flip2_bits hi ha haN]; simp

/-- the indices and sign found for a single excitation -/
theorem single_indices_flip {i a : Nat} (hi : x.getLsbD i = true) (ha : x.getLsbD a = false) (haN : a < N) :
    singleExcitationSignIndices (flip (flip x i) a) x (flip (flip x i) a ^^^ x)
      = (i, a, singleExcitationSign x a i) := by
  obtain ⟨o, v, sgn, h1, h2, h3, h4, h5, h6, h7⟩ :=
    single_data (flip2_excited (P := fun _ => True) hi ha haN trivial trivial)
  obtain ⟨b1, b2, b3, b4⟩ := (single_bits h4 h7).resolve_right h6
  have hai : a ≠ i := by rintro rfl; rw [hi] at ha; cases ha
  have e1 : i = o := by
    by_contra hne
    have := (b4 i).2 (Or.inl ⟨hi, hne⟩)
    rw [flip2_bits hi ha haN] at this
    simp [hai.symm] at this
  have e2 : v = a := by
    have := (flip2_bits hi ha haN v).1 h5
    rcases this with ⟨h, _⟩ | h
    · rw [h3] at h; cases h
    · exact h
  subst e1 e2
  rw [h1]
  have := congrArg (fun z => z.2.2) h1
  simp only [singleExcitationSignIndices] at h1 ⊢
  rw [Prod.ext_iff, Prod.ext_iff] at h1
  simp only at h1
  rw [← h1.2.2, h1.1, h1.2.1]

/-- flips of a double excitation as one mask -/
theorem xor_flips (i j a b : Nat) :
    x ^^^ flip (flip (flip (flip (0#N) i) j) a) b = flip (flip (flip (flip x i) a) j) b := by
  apply BitVec.eq_of_getLsbD_eq
  intro k hk
  rw [BitVec.getLsbD_xor]
  simp only [getLsbD_flip']
  simp only [BitVec.getLsbD_zero]
  generalize (decide (i < N) && decide (i = k)) = p
  generalize (decide (j < N) && decide (j = k)) = q
  generalize (decide (a < N) && decide (a = k)) = r
  generalize (decide (b < N) && decide (b = k)) = u
  cases x.getLsbD k <;> cases p <;> cases q <;> cases r <;> cases u <;> rfl

theorem flip4_bits {i j a b : Nat} (hi : x.getLsbD i = true) (hj : x.getLsbD j = true)
    (ha : a < N ∧ x.getLsbD a = false) (hb : b < N ∧ x.getLsbD b = false) (hij : i ≠ j) (hab : a ≠ b) (k : Nat) :
    (flip (flip (flip (flip x i) a) j) b).getLsbD k = true ↔
      (x.getLsbD k = true ∧ k ≠ i ∧ k ≠ j) ∨ k = a ∨ k = b := by
  rw [← double_bits hi hj ha hb hij hab]
  have : flip (flip (flip (flip x i) a) j) b = x ^^^ flip (flip (flip (flip (0#N) i) a) j) b := by
    rw [← xor_flips]
    congr 2
    rw [flip_comm _ j a]
  rw [this]

theorem flip4_excited {P : Nat → Prop} {i j a b : Nat} (hi : x.getLsbD i = true) (hj : x.getLsbD j = true)
    (ha : a < N ∧ x.getLsbD a = false) (hb : b < N ∧ x.getLsbD b = false) (hij : i ≠ j) (hab : a ≠ b)
    (hP : P i ∧ P j ∧ P a ∧ P b) : ExcitedWithin 2 P x (flip (flip (flip (flip x i) a) j) b) := by
  refine ⟨{i, j}, {a, b}, Finset.card_pair hij, Finset.card_pair hab, ?_, ?_, fun k => ?_⟩
  · intro k hk
    rcases Finset.mem_insert.1 hk with rfl | hk
    · exact ⟨hP.1, hi⟩
    · rw [Finset.mem_singleton.1 hk]; exact ⟨hP.2.1, hj⟩
  · intro k hk
    rcases Finset.mem_insert.1 hk with rfl | hk
    · exact ⟨ha.1, hP.2.2.1, ha.2⟩
    · rw [Finset.mem_singleton.1 hk]; exact ⟨hb.1, hP.2.2.2, hb.2⟩
  · rw [flip4_bits hi hj ha hb hij hab]
    simp

/-- the indices found for a double excitation, ket the excited string -/
theorem double_indices_flip {i j a b : Nat} (hi : x.getLsbD i = true) (hj : x.getLsbD j = true)
    (ha : a < N ∧ x.getLsbD a = false) (hb : b < N ∧ x.getLsbD b = false) (hij : i < j) (hab : a < b) :
    doublesSignIndices x (flip (flip (flip (flip x i) a) j) b) (x ^^^ flip (flip (flip (flip x i) a) j) b)
      = (a, i, b, j, doublesSign x (flip (flip (flip (flip x i) a) j) b)
          (x ^^^ flip (flip (flip (flip x i) a) j) b)) := by
  set y := flip (flip (flip (flip x i) a) j) b with hy
  have hex : ExcitedWithin 2 (fun _ => True) y x :=
    excited_symm (flip4_excited (P := fun _ => True) hi hj ha hb (by omega) (by omega) ⟨trivial, trivial, trivial, trivial⟩)
  have hbits := flip4_bits hi hj ha hb (Nat.ne_of_lt hij) (Nat.ne_of_lt hab)
  obtain ⟨o1, v1, o2, v2, sgn, h1, h2, h3, h4, h5, h6, h7, h8, h9, h10, h11⟩ := C11_double_indices N x y hex
  have hD : DoubleExc x y o1 v1 o2 v2 sgn := ⟨h4, h5, h6, h7, by omega, by omega, BitVec.lt_of_getLsbD h8,
    BitVec.lt_of_getLsbD h9, h11⟩
  have hya : y.getLsbD a = true := (hbits a).2 (by simp)
  have hyb : y.getLsbD b = true := (hbits b).2 (by simp)
  -- the orbitals lost by `y`
  have ho : ∀ k, (k = o1 ∨ k = o2) ↔ (k = a ∨ k = b) := by
    intro k
    constructor
    · intro hk
      have hyk : y.getLsbD k = true := by rcases hk with rfl | rfl <;> assumption
      rcases (hbits k).1 hyk with ⟨h, _⟩ | h
      · rcases (hD.bits k).1 h with ⟨_, h, h'⟩ | h
        · omega
        · rcases h with rfl | rfl
          · rw [h6] at hyk; cases hyk
          · rw [h7] at hyk; cases hyk
      · exact h
    · intro hk
      have hyk : y.getLsbD k = true := by rcases hk with rfl | rfl <;> assumption
      have hxk : x.getLsbD k = false := by
        rcases hk with rfl | rfl
        · exact ha.2
        · exact hb.2
      by_contra hc
      have := (hD.bits k).2 (Or.inl ⟨hyk, by omega, by omega⟩)
      rw [hxk] at this; cases this
  have hv : ∀ k, (k = v1 ∨ k = v2) ↔ (k = i ∨ k = j) := by
    intro k
    constructor
    · intro hk
      have hyk : y.getLsbD k = false := by rcases hk with rfl | rfl <;> assumption
      have hxk := (hD.bits k).2 (Or.inr hk)
      by_contra hc
      have := (hbits k).2 (Or.inl ⟨hxk, by omega, by omega⟩)
      rw [hyk] at this; cases this
    · intro hk
      have hxk : x.getLsbD k = true := by rcases hk with rfl | rfl <;> assumption
      rcases (hD.bits k).1 hxk with ⟨h, _, _⟩ | h
      · rcases (hbits k).1 h with ⟨_, h, h'⟩ | h
        · omega
        · rcases h with rfl | rfl
          · rw [ha.2] at hxk; cases hxk
          · rw [hb.2] at hxk; cases hxk
      · exact h
  have e1 : o1 = a := by have h1 := (ho a).2 (Or.inl rfl); have h2 := (ho b).2 (Or.inr rfl); omega
  have e2 : o2 = b := by have h1 := (ho a).2 (Or.inl rfl); have h2 := (ho b).2 (Or.inr rfl); omega
  have e3 : v1 = i := by have h1 := (hv i).2 (Or.inl rfl); have h2 := (hv j).2 (Or.inr rfl); omega
  have e4 : v2 = j := by have h1 := (hv i).2 (Or.inl rfl); have h2 := (hv j).2 (Or.inr rfl); omega
  rw [h1, h10, e1, e2, e3, e4]

end strings

section elements
variable {R : Type} [Field R] {M : Nat} (I : Integrals R) {x y : BitVec M}

theorem count_self_xor (y : BitVec M) : count (y ^^^ y) = 0 := by
  rw [BitVec.xor_self]; exact count_eq_zero_iff.2 rfl

theorem sum_Gred_flip (hV : PairSymmetric I) {i a : Nat} (hi : x.getLsbD i = true) (ha : x.getLsbD a = false)
    (haM : a < M) : ((occ (flip (flip x i) a)).map fun p => I.Gred p a i).sum
      = ((occ x).map fun p => I.Gred p a i).sum := by
  rw [sum_occ_move hi ha haM]
  have e1 : I.Gred i a i = 0 := by simp [Integrals.Gred, Integrals.G]
  have e2 : I.Gred a a i = 0 := by
    simp only [Integrals.Gred, Integrals.G]
    rw [hV a a a i, sub_self]
  rw [e1, e2]; ring

theorem me_single_alpha (hV : PairSymmetric I) {i a : Nat} (hi : x.getLsbD i = true) (ha : x.getLsbD a = false)
    (haM : a < M) : I.matrixElement (joinSpin (flip (flip x i) a) y) (joinSpin x y)
      = (singleExcitationSign x a i : R) * (I.T a i + ((occ x).map fun p => I.Gred p a i).sum
          + ((occ y).map fun p => I.Vred p a i).sum) := by
  have hc := excited_count_xor (flip2_excited (P := fun _ => True) hi ha haM trivial trivial)
  simp only [Integrals.matrixElement, loWord_joinSpin, hiWord_joinSpin, Integrals.matrixElementSpin, hc,
    count_self_xor, Integrals.matrixElement2, single_indices_flip hi ha haM, bitsToIndices_eq_occ]
  rw [sum_Gred_flip I hV hi ha haM]
  simp

theorem me_single_beta (hV : PairSymmetric I) {i a : Nat} (hi : y.getLsbD i = true) (ha : y.getLsbD a = false)
    (haM : a < M) : I.matrixElement (joinSpin x (flip (flip y i) a)) (joinSpin x y)
      = (singleExcitationSign y a i : R) * (I.T a i + ((occ y).map fun p => I.Gred p a i).sum
          + ((occ x).map fun p => I.Vred p a i).sum) := by
  have hc := excited_count_xor (flip2_excited (P := fun _ => True) hi ha haM trivial trivial)
  simp only [Integrals.matrixElement, loWord_joinSpin, hiWord_joinSpin, Integrals.matrixElementSpin, hc,
    count_self_xor, Integrals.matrixElement2, single_indices_flip hi ha haM, bitsToIndices_eq_occ]
  rw [sum_Gred_flip I hV hi ha haM]
  simp

theorem me_double_opposite {i a j b : Nat} (hi : x.getLsbD i = true) (ha : x.getLsbD a = false) (haM : a < M)
    (hj : y.getLsbD j = true) (hb : y.getLsbD b = false) (hbM : b < M) :
    I.matrixElement (joinSpin (flip (flip x i) a) (flip (flip y j) b)) (joinSpin x y)
      = (singleExcitationSign x a i : R) * (singleExcitationSign y b j : R) * I.V a i b j := by
  have hc := excited_count_xor (flip2_excited (P := fun _ => True) hi ha haM trivial trivial)
  have hd := excited_count_xor (flip2_excited (P := fun _ => True) hj hb hbM trivial trivial)
  simp only [Integrals.matrixElement, loWord_joinSpin, hiWord_joinSpin, Integrals.matrixElementSpin, hc, hd,
    Integrals.matrixElement22, single_indices_flip hi ha haM, single_indices_flip hj hb hbM]
  simp

/-- the transposed element, as the code evaluates it -/
theorem me_double_alpha {i a j b : Nat} (hi : x.getLsbD i = true) (hj : x.getLsbD j = true)
    (ha : a < M ∧ x.getLsbD a = false) (hb : b < M ∧ x.getLsbD b = false) (hij : i < j) (hab : a < b) :
    I.matrixElement (joinSpin x y) (joinSpin (flip (flip (flip (flip x i) a) j) b) y)
      = (doublesSign x (flip (flip (flip (flip x i) a) j) b) (x ^^^ flip (flip (flip (flip x i) a) j) b) : R)
        * I.G i a j b := by
  have hc := excited_count_xor (excited_symm (flip4_excited (P := fun _ => True) hi hj ha hb (by omega) (by omega)
    ⟨trivial, trivial, trivial, trivial⟩))
  simp only [Integrals.matrixElement, loWord_joinSpin, hiWord_joinSpin, Integrals.matrixElementSpin, hc,
    count_self_xor, Integrals.matrixElement4, double_indices_flip hi hj ha hb hij hab]
  simp

theorem me_double_beta {i a j b : Nat} (hi : y.getLsbD i = true) (hj : y.getLsbD j = true)
    (ha : a < M ∧ y.getLsbD a = false) (hb : b < M ∧ y.getLsbD b = false) (hij : i < j) (hab : a < b) :
    I.matrixElement (joinSpin x y) (joinSpin x (flip (flip (flip (flip y i) a) j) b))
      = (doublesSign y (flip (flip (flip (flip y i) a) j) b) (y ^^^ flip (flip (flip (flip y i) a) j) b) : R)
        * I.G i a j b := by
  have hc := excited_count_xor (excited_symm (flip4_excited (P := fun _ => True) hi hj ha hb (by omega) (by omega)
    ⟨trivial, trivial, trivial, trivial⟩))
  simp only [Integrals.matrixElement, loWord_joinSpin, hiWord_joinSpin, Integrals.matrixElementSpin, hc,
    count_self_xor, Integrals.matrixElement4, double_indices_flip hi hj ha hb hij hab]
  simp

theorem G_real (hI : RealSymmetric I) (a i b j : Nat) : I.G i a j b = I.G b j a i := by
  obtain ⟨_, h2, h3⟩ := hI
  simp only [Integrals.G]
  rw [h3 i a j b, h2 a i j b, h3 j b a i, h3 i b j a, h2 b i j a, h3 j a b i, h2 a j b i]

end elements

section blocks

/-- a loop that skips or appends one element per determinant -/
theorem filterMap_eq {α β γ : Type} (l : List α) (g : α → β) (p : β → Bool) (h : β → γ) (f : α → Option γ)
    (hf : ∀ z ∈ l, f z = if p (g z) then some (h (g z)) else none) :
    l.filterMap f = ((l.map g).filter p).map h := by
  induction l with
  | nil => rfl
  | cons z l ih =>
    rw [List.filterMap_cons, hf z (by simp), List.map_cons, List.filter_cons]
    have ih := ih fun w hw => hf w (by simp [hw])
    by_cases hp : p (g z) = true
    · simp [hp, ih]
    · simp [hp, ih]

theorem flatMap_eq {α β γ : Type} (l : List α) (D : α → List β) (p : β → Bool) (h : β → γ) (F : α → List γ)
    (hF : ∀ z ∈ l, F z = ((D z).filter p).map h) :
    l.flatMap F = ((l.flatMap D).filter p).map h := by
  induction l with
  | nil => rfl
  | cons z l ih =>
    rw [List.flatMap_cons, List.flatMap_cons, List.filter_append, List.map_append, hF z (by simp),
      ih fun w hw => hF w (by simp [hw])]

variable {R : Type} [Field R] [LinearOrder R] {M : Nat} (I : Integrals R)

/-- the contribution of `s` (coefficient `c`) to `t` -/
def mkC (E0 c : R) (s t : BitVec (2 * M)) : Contrib (2 * M) R :=
  ⟨t, c * (I.matrixElement t s / (E0 - I.matrixElement t t))⟩

/-- the screening test -/
def keepC (tol : R) (s t : BitVec (2 * M)) : Bool := !decide (|I.matrixElement t s| < tol)

theorem eps_getD (norb : Nat) (ss os : List Nat) (i : Nat) (hi : i < norb) :
    (I.singleOrbitalEns norb ss os).getD i 0 = I.singleOrbitalEn i ss os := by
  rw [List.getD_eq_getElem?_getD, C16_orbital_energies I norb ss os i hi]; rfl

theorem sign_cases {N : Nat} (s : BitVec N) (p q : Nat) :
    singleExcitationSign s p q = 1 ∨ singleExcitationSign s p q = -1 := by
  unfold singleExcitationSign
  dsimp only
  generalize count _ = n
  by_cases h : n % 2 = 1 <;> simp [h]

theorem doublesSign_cases {N : Nat} (s t e : BitVec N) : doublesSign s t e = 1 ∨ doublesSign s t e = -1 := by
  unfold doublesSign doublesSignIndices
  dsimp only
  generalize hz : singleExcitationSign (flip _ _) _ _ = z
  generalize hw : singleExcitationSign t _ _ = w
  have h1 : z = 1 ∨ z = -1 := hz ▸ sign_cases _ _ _
  have h2 : w = 1 ∨ w = -1 := hw ▸ sign_cases _ _ _
  rcases h1 with rfl | rfl <;> rcases h2 with rfl | rfl <;> simp

variable [IsStrictOrderedRing R]

omit [IsStrictOrderedRing R] in
theorem abs_sign_mul [IsStrictOrderedRing R] {z : Int} (hz : z = 1 ∨ z = -1) (h : R) : |(z : R) * h| = |h| := by
  rcases hz with rfl | rfl <;> simp

variable {x y : BitVec M} {norb : Nat}

/-- determinants visited by the alpha singles loop -/
def singlesDetsA (x y : BitVec M) (o v : List Nat) : List (BitVec (2 * M)) :=
  o.flatMap fun i => v.map fun a => joinSpin (flip (flip x i) a) y

/-- determinants visited by the beta singles loop -/
def singlesDetsB (x y : BitVec M) (o v : List Nat) : List (BitVec (2 * M)) :=
  o.flatMap fun i => v.map fun a => joinSpin x (flip (flip y i) a)

theorem singlesContrib_alpha (hV : PairSymmetric I) (hn : norb ≤ M) (hx : SupportedOn norb x)
    (E0 c tol : R) :
    I.singlesContrib c (joinSpin x y) x (occ x) (vir norb x) (occ y) (I.singleOrbitalEns norb (occ x) (occ y)) tol
        (I.matrixElement (joinSpin x y) (joinSpin x y)) E0 0
      = ((singlesDetsA x y (occ x) (vir norb x)).filter (keepC I tol (joinSpin x y))).map
          (mkC I E0 c (joinSpin x y)) := by
  unfold Integrals.singlesContrib singlesDetsA
  refine flatMap_eq _ _ _ _ _ fun i hi => filterMap_eq _ _ _ _ _ fun a ha => ?_
  rw [mem_occ] at hi
  rw [mem_vir] at ha
  have haM : a < M := by omega
  have hiM := BitVec.lt_of_getLsbD hi
  have hd : flip (flip (joinSpin x y) (i + 0)) (a + 0) = joinSpin (flip (flip x i) a) y := by
    rw [Nat.add_zero, Nat.add_zero, flip_join_alpha _ _ hiM, flip_join_alpha _ _ haM]
  have hdiag := C16_single_alpha I hV (joinSpin x y) i a hiM (by rw [join_alpha_bit _ _ hiM]; exact hi) haM
    (by rw [join_alpha_bit _ _ haM]; exact ha.2)
  rw [loWord_joinSpin, hiWord_joinSpin, bitsToIndices_eq_occ, bitsToIndices_eq_occ, flip_join_alpha _ _ hiM,
    flip_join_alpha _ _ haM] at hdiag
  have hel := me_single_alpha I (y := y) hV hi ha.2 haM
  unfold Integrals.fastDiagSingle at hdiag
  dsimp only
  rw [eps_getD I _ _ _ _ (hx i hi), eps_getD I _ _ _ _ ha.1, hdiag, hd]
  unfold keepC mkC
  rw [hel, abs_sign_mul (sign_cases _ _ _), mul_comm _ (singleExcitationSign x a i : R)]
  by_cases h : |I.T a i + ((occ x).map fun p => I.Gred p a i).sum + ((occ y).map fun p => I.Vred p a i).sum| < tol
  · simp [h]
  · simp [h]

theorem singlesContrib_beta (hV : PairSymmetric I) (hn : norb ≤ M) (hy : SupportedOn norb y)
    (E0 c tol : R) :
    I.singlesContrib c (joinSpin x y) y (occ y) (vir norb y) (occ x) (I.singleOrbitalEns norb (occ y) (occ x)) tol
        (I.matrixElement (joinSpin x y) (joinSpin x y)) E0 M
      = ((singlesDetsB x y (occ y) (vir norb y)).filter (keepC I tol (joinSpin x y))).map
          (mkC I E0 c (joinSpin x y)) := by
  unfold Integrals.singlesContrib singlesDetsB
  refine flatMap_eq _ _ _ _ _ fun i hi => filterMap_eq _ _ _ _ _ fun a ha => ?_
  rw [mem_occ] at hi
  rw [mem_vir] at ha
  have haM : a < M := by omega
  have hiM := BitVec.lt_of_getLsbD hi
  have hd : flip (flip (joinSpin x y) (i + M)) (a + M) = joinSpin x (flip (flip y i) a) := by
    rw [flip_join_beta _ _ hiM, flip_join_beta _ _ haM]
  have hdiag := C16_single_beta I hV (joinSpin x y) i a hiM (by rw [join_beta_bit]; exact hi) haM
    (by rw [join_beta_bit]; exact ha.2)
  rw [loWord_joinSpin, hiWord_joinSpin, bitsToIndices_eq_occ, bitsToIndices_eq_occ, flip_join_beta _ _ hiM,
    flip_join_beta _ _ haM] at hdiag
  have hel := me_single_beta I (x := x) hV hi ha.2 haM
  unfold Integrals.fastDiagSingle at hdiag
  dsimp only
  rw [eps_getD I _ _ _ _ (hy i hi), eps_getD I _ _ _ _ ha.1, hdiag, hd]
  unfold keepC mkC
  rw [hel, abs_sign_mul (sign_cases _ _ _), mul_comm _ (singleExcitationSign y a i : R)]
  by_cases h : |I.T a i + ((occ y).map fun p => I.Gred p a i).sum + ((occ x).map fun p => I.Vred p a i).sum| < tol
  · simp [h]
  · simp [h]

/-- determinants visited by the opposite-spin doubles loop -/
def osDets (x y : BitVec M) (oA vA oB vB : List Nat) : List (BitVec (2 * M)) :=
  oA.flatMap fun i => vA.flatMap fun a => oB.flatMap fun j => vB.map fun b =>
    joinSpin (flip (flip x i) a) (flip (flip y j) b)

theorem os_diag (hV : PairSymmetric I) {i a j b : Nat} (hi : x.getLsbD i = true) (ha : x.getLsbD a = false)
    (haM : a < M) (hj : y.getLsbD j = true) (hb : y.getLsbD b = false) (hbM : b < M) :
    I.fastDiagOSDouble (occ x) (occ y) i j a b (I.matrixElement (joinSpin x y) (joinSpin x y))
      = I.matrixElement (joinSpin (flip (flip x i) a) (flip (flip y j) b))
          (joinSpin (flip (flip x i) a) (flip (flip y j) b)) := by
  have hiM := BitVec.lt_of_getLsbD hi
  have hjM := BitVec.lt_of_getLsbD hj
  have hdiag := C16_double_opposite I hV (joinSpin x y) i j a b hiM (by rw [join_alpha_bit _ _ hiM]; exact hi) hjM
    (by rw [join_beta_bit]; exact hj) haM (by rw [join_alpha_bit _ _ haM]; exact ha) hbM
    (by rw [join_beta_bit]; exact hb)
  dsimp only at hdiag
  rwa [loWord_joinSpin, hiWord_joinSpin, bitsToIndices_eq_occ, bitsToIndices_eq_occ, flip_join_alpha _ _ hiM,
    flip_join_alpha _ _ haM, flip_join_beta _ _ hjM, flip_join_beta _ _ hbM] at hdiag

theorem osDoublesContrib_eq (hV : PairSymmetric I) (hn : norb ≤ M) (hx : SupportedOn norb x)
    (hy : SupportedOn norb y) (E0 c tol : R) :
    I.osDoublesContrib c (joinSpin x y) x y (occ x) (occ y) (vir norb x) (vir norb y)
        (I.singleOrbitalEns norb (occ x) (occ y)) (I.singleOrbitalEns norb (occ y) (occ x)) tol
        (I.matrixElement (joinSpin x y) (joinSpin x y)) E0
      = ((osDets x y (occ x) (vir norb x) (occ y) (vir norb y)).filter (keepC I tol (joinSpin x y))).map
          (mkC I E0 c (joinSpin x y)) := by
  unfold Integrals.osDoublesContrib osDets
  refine flatMap_eq _ _ _ _ _ fun i hi => flatMap_eq _ _ _ _ _ fun a ha => flatMap_eq _ _ _ _ _ fun j hj =>
    filterMap_eq _ _ _ _ _ fun b hb => ?_
  rw [mem_occ] at hi hj
  rw [mem_vir] at ha hb
  have haM : a < M := by omega
  have hbM : b < M := by omega
  have hiM := BitVec.lt_of_getLsbD hi
  have hjM := BitVec.lt_of_getLsbD hj
  have hd : flip (flip (flip (flip (joinSpin x y) a) i) (j + M)) (b + M)
      = joinSpin (flip (flip x i) a) (flip (flip y j) b) := by
    rw [flip_comm _ a i, flip_join_alpha _ _ hiM, flip_join_alpha _ _ haM, flip_join_beta _ _ hjM,
      flip_join_beta _ _ hbM]
  have hdiag := os_diag I hV hi ha.2 haM hj hb.2 hbM
  have hel := me_double_opposite I hi ha.2 haM hj hb.2 hbM
  unfold Integrals.fastDiagOSDouble at hdiag
  dsimp only
  rw [eps_getD I _ _ _ _ (hx i hi), eps_getD I _ _ _ _ ha.1, eps_getD I _ _ _ _ (hy j hj), eps_getD I _ _ _ _ hb.1,
    hdiag, hd]
  unfold keepC mkC
  rw [hel, mul_assoc, abs_sign_mul (sign_cases _ _ _), abs_sign_mul (sign_cases _ _ _)]
  by_cases h : |I.V a i b j| < tol
  · simp [h]
  · simp [h, mul_assoc]

/-- index quadruples of the same-spin doubles loop -/
def ssIndices (no nv : Nat) : List (Nat × Nat × Nat × Nat) :=
  (List.range no).flatMap fun ii => (List.range nv).flatMap fun aa =>
    (List.range' (ii + 1) (no - (ii + 1))).flatMap fun jj =>
      (List.range' (aa + 1) (nv - (aa + 1))).map fun bb => (ii, aa, jj, bb)

/-- strings visited by the same-spin doubles loop -/
def ssStrings (x : BitVec M) (o v : List Nat) : List (BitVec M) :=
  (List.range o.length).flatMap fun ii => (List.range v.length).flatMap fun aa =>
    (List.range' (ii + 1) (o.length - (ii + 1))).flatMap fun jj =>
      (List.range' (aa + 1) (v.length - (aa + 1))).map fun bb =>
        flip (flip (flip (flip x (o.getD ii 0)) (v.getD aa 0)) (o.getD jj 0)) (v.getD bb 0)

theorem map_flatMap' {α β γ : Type} (l : List α) (f : α → List β) (g : β → γ) :
    (l.flatMap f).map g = l.flatMap fun z => (f z).map g := List.map_flatMap ..

theorem expand_join_alpha (e : BitVec M) : joinSpin x y ^^^ (expandBitset (2 * M) e <<< 0) = joinSpin (x ^^^ e) y := by
  apply BitVec.eq_of_getLsbD_eq
  intro k hk
  rw [BitVec.getLsbD_xor, getLsbD_joinSpin, getLsbD_joinSpin, BitVec.shiftLeft_zero, getLsbD_expandBitset (by omega),
    BitVec.getLsbD_xor]
  by_cases h : k < M
  · simp [h]
  · simp [h, BitVec.getLsbD_of_ge e k (by omega)]

theorem expand_join_beta (e : BitVec M) : joinSpin x y ^^^ (expandBitset (2 * M) e <<< M) = joinSpin x (y ^^^ e) := by
  apply BitVec.eq_of_getLsbD_eq
  intro k hk
  rw [BitVec.getLsbD_xor, getLsbD_joinSpin, getLsbD_joinSpin, BitVec.getLsbD_shiftLeft, getLsbD_expandBitset (by omega),
    BitVec.getLsbD_xor]
  by_cases h : k < M
  · simp [h]
  · simp [h, hk]

theorem getD_lt_of_sorted {l : List Nat} (hs : l.Pairwise (· < ·)) {i j : Nat} (hij : i < j) (hj : j < l.length) :
    l.getD i 0 < l.getD j 0 := by
  rw [List.getD_eq_getElem _ _ (by omega), List.getD_eq_getElem _ _ hj]
  exact List.pairwise_iff_getElem.1 hs i j _ _ hij

theorem vir_sorted (norb : Nat) (s : BitVec M) : (vir norb s).Pairwise (· < ·) :=
  List.Pairwise.filter _ List.pairwise_lt_range

theorem ssDoublesContrib_alpha (hI : RealSymmetric I) (hN : I.norb = norb) (hn : norb ≤ M)
    (hx : SupportedOn norb x) (hy : SupportedOn norb y) (E0 c tol : R) :
    I.ssDoublesContrib c (joinSpin x y) x (occ x) (vir norb x) (I.singleOrbitalEns norb (occ x) (occ y)) tol
        (I.matrixElement (joinSpin x y) (joinSpin x y)) E0 0
      = (((ssStrings x (occ x) (vir norb x)).map fun z => joinSpin z y).filter (keepC I tol (joinSpin x y))).map
          (mkC I E0 c (joinSpin x y)) := by
  unfold Integrals.ssDoublesContrib ssStrings
  simp only [map_flatMap', List.map_map, Function.comp_def]
  refine flatMap_eq _ _ _ _ _ fun ii hii => flatMap_eq _ _ _ _ _ fun aa haa => flatMap_eq _ _ _ _ _ fun jj hjj =>
    filterMap_eq _ _ _ _ _ fun bb hbb => ?_
  rw [List.mem_range] at hii haa
  rw [List.mem_range'_1] at hjj hbb
  have hi := mem_occ.1 (getD_mem hii)
  have hj := mem_occ.1 (getD_mem (show jj < (occ x).length by omega))
  have ha := mem_vir.1 (getD_mem haa)
  have hb := mem_vir.1 (getD_mem (show bb < (vir norb x).length by omega))
  have hij : (occ x).getD ii 0 < (occ x).getD jj 0 := getD_lt_of_sorted (occ_sorted x) (by omega) (by omega)
  have hab : (vir norb x).getD aa 0 < (vir norb x).getD bb 0 :=
    getD_lt_of_sorted (vir_sorted norb x) (by omega) (by omega)
  generalize (occ x).getD ii 0 = i at *
  generalize (occ x).getD jj 0 = j at *
  generalize (vir norb x).getD aa 0 = a at *
  generalize (vir norb x).getD bb 0 = b at *
  have haM : a < M := by omega
  have hbM : b < M := by omega
  have hiM := BitVec.lt_of_getLsbD hi
  have hjM := BitVec.lt_of_getLsbD hj
  set z := flip (flip (flip (flip x i) a) j) b with hz
  have hxor : x ^^^ flip (flip (flip (flip (0#M) i) j) a) b = z := xor_flips i j a b
  have hmask : flip (flip (flip (flip (0#M) i) j) a) b = x ^^^ z := by
    rw [← hxor, ← BitVec.xor_assoc, BitVec.xor_self, BitVec.zero_xor]
  have hdiag := C16_double_alpha I (joinSpin x y) i j a b hiM (by rw [join_alpha_bit _ _ hiM]; exact hi) hjM
    (by rw [join_alpha_bit _ _ hjM]; exact hj) haM (by rw [join_alpha_bit _ _ haM]; exact ha.2) hbM
    (by rw [join_alpha_bit _ _ hbM]; exact hb.2) (by omega) (by omega)
  dsimp only at hdiag
  rw [loWord_joinSpin, hiWord_joinSpin, bitsToIndices_eq_occ, bitsToIndices_eq_occ, flip_join_alpha _ _ hiM,
    flip_join_alpha _ _ haM, flip_join_alpha _ _ hjM, flip_join_alpha _ _ hbM, ← hz] at hdiag
  unfold Integrals.fastDiagSSDouble at hdiag
  have hex := flip4_excited (P := (· < norb)) hi hj ⟨haM, ha.2⟩ ⟨hbM, hb.2⟩ (by omega) (by omega)
    ⟨hx i hi, hx j hj, ha.1, hb.1⟩
  have hel : I.matrixElement (joinSpin z y) (joinSpin x y) = (doublesSign x z (x ^^^ z) : R) * I.G b j a i := by
    rw [C14_symmetric M I (by omega) two_ne_zero hI, me_double_alpha I hi hj ⟨haM, ha.2⟩ ⟨hbM, hb.2⟩ hij hab,
      G_real I hI]
    · rw [inSpace_iff, loWord_joinSpin, hiWord_joinSpin, hN]; exact ⟨excited_supported hx hex, hy⟩
    · rw [inSpace_iff, loWord_joinSpin, hiWord_joinSpin, hN]; exact ⟨hx, hy⟩
    · rw [SameSector, alphaElectrons_eq, alphaElectrons_eq, betaElectrons_eq, betaElectrons_eq]
      simp only [loWord_joinSpin, hiWord_joinSpin]
      exact ⟨excited_electrons hex, trivial⟩
  rw [eps_getD I _ _ _ _ (hx i hi), eps_getD I _ _ _ _ ha.1, eps_getD I _ _ _ _ (hx j hj), eps_getD I _ _ _ _ hb.1,
    hdiag, expand_join_alpha, hxor, hmask]
  unfold keepC mkC
  rw [hel, abs_sign_mul (doublesSign_cases _ _ _)]
  by_cases h : |I.G b j a i| < tol
  · simp [h]
  · simp [h]

theorem ssDoublesContrib_beta (hI : RealSymmetric I) (hN : I.norb = norb) (hn : norb ≤ M)
    (hx : SupportedOn norb x) (hy : SupportedOn norb y) (E0 c tol : R) :
    I.ssDoublesContrib c (joinSpin x y) y (occ y) (vir norb y) (I.singleOrbitalEns norb (occ y) (occ x)) tol
        (I.matrixElement (joinSpin x y) (joinSpin x y)) E0 M
      = (((ssStrings y (occ y) (vir norb y)).map fun z => joinSpin x z).filter (keepC I tol (joinSpin x y))).map
          (mkC I E0 c (joinSpin x y)) := by
  unfold Integrals.ssDoublesContrib ssStrings
  simp only [map_flatMap', List.map_map, Function.comp_def]
  refine flatMap_eq _ _ _ _ _ fun ii hii => flatMap_eq _ _ _ _ _ fun aa haa => flatMap_eq _ _ _ _ _ fun jj hjj =>
    filterMap_eq _ _ _ _ _ fun bb hbb => ?_
  rw [List.mem_range] at hii haa
  rw [List.mem_range'_1] at hjj hbb
  have hi := mem_occ.1 (getD_mem hii)
  have hj := mem_occ.1 (getD_mem (show jj < (occ y).length by omega))
  have ha := mem_vir.1 (getD_mem haa)
  have hb := mem_vir.1 (getD_mem (show bb < (vir norb y).length by omega))
  have hij : (occ y).getD ii 0 < (occ y).getD jj 0 := getD_lt_of_sorted (occ_sorted y) (by omega) (by omega)
  have hab : (vir norb y).getD aa 0 < (vir norb y).getD bb 0 :=
    getD_lt_of_sorted (vir_sorted norb y) (by omega) (by omega)
  generalize (occ y).getD ii 0 = i at *
  generalize (occ y).getD jj 0 = j at *
  generalize (vir norb y).getD aa 0 = a at *
  generalize (vir norb y).getD bb 0 = b at *
  have haM : a < M := by omega
  have hbM : b < M := by omega
  have hiM := BitVec.lt_of_getLsbD hi
  have hjM := BitVec.lt_of_getLsbD hj
  set z := flip (flip (flip (flip y i) a) j) b with hz
  have hxor : y ^^^ flip (flip (flip (flip (0#M) i) j) a) b = z := xor_flips i j a b
  have hmask : flip (flip (flip (flip (0#M) i) j) a) b = y ^^^ z := by
    rw [← hxor, ← BitVec.xor_assoc, BitVec.xor_self, BitVec.zero_xor]
  have hdiag := C16_double_beta I hI.2.1 (joinSpin x y) i j a b hiM (by rw [join_beta_bit]; exact hi) hjM
    (by rw [join_beta_bit]; exact hj) haM (by rw [join_beta_bit]; exact ha.2) hbM
    (by rw [join_beta_bit]; exact hb.2) (by omega) (by omega)
  dsimp only at hdiag
  rw [loWord_joinSpin, hiWord_joinSpin, bitsToIndices_eq_occ, bitsToIndices_eq_occ, flip_join_beta _ _ hiM,
    flip_join_beta _ _ haM, flip_join_beta _ _ hjM, flip_join_beta _ _ hbM, ← hz] at hdiag
  unfold Integrals.fastDiagSSDouble at hdiag
  have hex := flip4_excited (P := (· < norb)) hi hj ⟨haM, ha.2⟩ ⟨hbM, hb.2⟩ (by omega) (by omega)
    ⟨hy i hi, hy j hj, ha.1, hb.1⟩
  have hel : I.matrixElement (joinSpin x z) (joinSpin x y) = (doublesSign y z (y ^^^ z) : R) * I.G b j a i := by
    rw [C14_symmetric M I (by omega) two_ne_zero hI, me_double_beta I hi hj ⟨haM, ha.2⟩ ⟨hbM, hb.2⟩ hij hab,
      G_real I hI]
    · rw [inSpace_iff, loWord_joinSpin, hiWord_joinSpin, hN]; exact ⟨hx, excited_supported hy hex⟩
    · rw [inSpace_iff, loWord_joinSpin, hiWord_joinSpin, hN]; exact ⟨hx, hy⟩
    · rw [SameSector, alphaElectrons_eq, alphaElectrons_eq, betaElectrons_eq, betaElectrons_eq]
      simp only [loWord_joinSpin, hiWord_joinSpin]
      exact ⟨trivial, excited_electrons hex⟩
  rw [eps_getD I _ _ _ _ (hy i hi), eps_getD I _ _ _ _ ha.1, eps_getD I _ _ _ _ (hy j hj), eps_getD I _ _ _ _ hb.1,
    hdiag, expand_join_beta, hxor, hmask]
  unfold keepC mkC
  rw [hel, abs_sign_mul (doublesSign_cases _ _ _)]
  by_cases h : |I.G b j a i| < tol
  · simp [h]
  · simp [h]

/-! ### the visited determinants -/

omit [LinearOrder R] [IsStrictOrderedRing R] in
theorem xor_flip2 {N : Nat} (x : BitVec N) (i a : Nat) : x ^^^ flip (flip (0#N) i) a = flip (flip x i) a := by
  apply BitVec.eq_of_getLsbD_eq
  intro k hk
  rw [BitVec.getLsbD_xor]
  simp only [getLsbD_flip']
  simp only [BitVec.getLsbD_zero]
  generalize (decide (i < N) && decide (i = k)) = p
  generalize (decide (a < N) && decide (a = k)) = r
  cases x.getLsbD k <;> cases p <;> cases r <;> rfl

/-- strings visited by a singles loop -/
def sStrings (x : BitVec M) (o v : List Nat) : List (BitVec M) :=
  o.flatMap fun i => v.map fun a => flip (flip x i) a

theorem sStrings_mem (hn : norb ≤ M) (hx : SupportedOn norb x) (t : BitVec M) :
    t ∈ sStrings x (occ x) (vir norb x) ↔ ExcitedWithin 1 (· < norb) x t := by
  rw [← mem_appendSingles_iff (occ_spec hx) (vir_spec hn), mem_appendSingles]
  simp only [sStrings, List.mem_flatMap, List.mem_map, xor_flip2]
  constructor
  · rintro ⟨i, hi, a, ha, rfl⟩; exact ⟨i, hi, a, ha, rfl⟩
  · rintro ⟨i, hi, a, ha, rfl⟩; exact ⟨i, hi, a, ha, rfl⟩

theorem flip2_inj {i a i' a' : Nat} (hi : x.getLsbD i = true) (ha : x.getLsbD a = false) (haM : a < M)
    (hi' : x.getLsbD i' = true) (ha' : x.getLsbD a' = false) (haM' : a' < M)
    (h : flip (flip x i) a = flip (flip x i') a') : i = i' ∧ a = a' := by
  have b := flip2_bits hi ha haM
  have b' := flip2_bits hi' ha' haM'
  rw [h] at b
  constructor
  · by_contra hne
    have h1 := (b' i).2 (Or.inl ⟨hi, hne⟩)
    rcases (b i).1 h1 with ⟨_, h⟩ | h
    · exact h rfl
    · rw [h, ha] at hi; cases hi
  · have h1 := (b a).2 (Or.inr rfl)
    rcases (b' a).1 h1 with ⟨h, _⟩ | h
    · rw [ha] at h; cases h
    · exact h

theorem sStrings_nodup (hn : norb ≤ M) : (sStrings x (occ x) (vir norb x)).Nodup := by
  have e : sStrings x (occ x) (vir norb x)
      = ((occ x) ×ˢ (vir norb x)).map fun p => flip (flip x p.1) p.2 := by
    simp only [sStrings, List.product, SProd.sprod, List.map_flatMap, List.map_map, Function.comp_def]
  rw [e]
  refine List.Nodup.map_on ?_ ((occ_nodup x).product (vir_nodup norb x))
  rintro ⟨i, a⟩ h ⟨i', a'⟩ h' heq
  simp only [List.mem_product, mem_occ, mem_vir] at h h'
  obtain ⟨e1, e2⟩ := flip2_inj h.1 h.2.2 (by omega) h'.1 h'.2.2 (by omega) heq
  rw [e1, e2]

theorem mem_ssIndices {no nv i a j b : Nat} :
    (i, a, j, b) ∈ ssIndices no nv ↔ a < b ∧ b < nv ∧ i < j ∧ j < no := by
  simp only [ssIndices, List.mem_flatMap, List.mem_map, List.mem_range, List.mem_range'_1, Prod.mk.injEq]
  constructor
  · rintro ⟨i', h1, a', h2, j', h3, b', h4, rfl, rfl, rfl, rfl⟩; omega
  · rintro ⟨h1, h2, h3, h4⟩
    exact ⟨i, by omega, a, by omega, j, by omega, b, by omega, rfl, rfl, rfl, rfl⟩

theorem ssIndices_nodup (no nv : Nat) : (ssIndices no nv).Nodup := by
  unfold ssIndices
  simp only [List.nodup_flatMap]
  refine ⟨fun ii _ => ⟨fun aa _ => ⟨fun jj _ => ?_, ?_⟩, ?_⟩, ?_⟩
  · refine List.Nodup.map (fun b b' h => ?_) List.nodup_range'
    simpa using h
  · refine List.Pairwise.imp ?_ List.nodup_range'
    intro j j' hne z h1 h2
    simp only [List.mem_map] at h1 h2
    obtain ⟨_, _, rfl⟩ := h1
    obtain ⟨_, _, h⟩ := h2
    simp only [Prod.mk.injEq] at h
    exact hne h.2.2.1.symm
  · refine List.Pairwise.imp ?_ List.nodup_range
    intro j j' hne z h1 h2
    simp only [List.mem_map, List.mem_flatMap] at h1 h2
    obtain ⟨_, _, _, _, rfl⟩ := h1
    obtain ⟨_, _, _, _, h⟩ := h2
    simp only [Prod.mk.injEq] at h
    exact hne h.2.1.symm
  · refine List.Pairwise.imp ?_ List.nodup_range
    intro j j' hne z h1 h2
    simp only [List.mem_map, List.mem_flatMap] at h1 h2
    obtain ⟨_, _, _, _, _, _, rfl⟩ := h1
    obtain ⟨_, _, _, _, _, _, h⟩ := h2
    simp only [Prod.mk.injEq] at h
    exact hne h.1.symm

/-- the same-spin doubles loop visits the strings of `append_doubles`, in another order -/
theorem ssStrings_perm (x : BitVec M) (o v : List Nat) : (ssStrings x o v).Perm (appendDoubles x o v) := by
  have e1 : ssStrings x o v = ((ssIndices o.length v.length).map fun q => (q.2.1, q.1, q.2.2.2, q.2.2.1)).map
      fun (a, i, b, j) => x ^^^ flip (flip (flip (flip (0#M) (o.getD i 0)) (v.getD a 0)) (o.getD j 0)) (v.getD b 0) := by
    simp only [ssStrings, ssIndices, List.map_flatMap, List.map_map, Function.comp_def]
    have : ∀ i a j b, x ^^^ flip (flip (flip (flip (0#M) i) a) j) b = flip (flip (flip (flip x i) a) j) b := by
      intro i a j b
      rw [flip_comm _ a j, xor_flips]
    simp only [this]
  rw [e1, appendDoubles]
  refine List.Perm.map _ ?_
  rw [List.perm_ext_iff_of_nodup ?_ (doublesIndices_nodup _ _)]
  · rintro ⟨a, i, b, j⟩
    rw [mem_doublesIndices, List.mem_map]
    constructor
    · rintro ⟨⟨i', a', j', b'⟩, h, he⟩
      simp only [Prod.mk.injEq] at he
      obtain ⟨rfl, rfl, rfl, rfl⟩ := he
      exact mem_ssIndices.1 h
    · intro h
      exact ⟨(i, a, j, b), mem_ssIndices.2 h, rfl⟩
  · refine (ssIndices_nodup _ _).map ?_
    rintro ⟨i, a, j, b⟩ ⟨i', a', j', b'⟩ h
    simp only [Prod.mk.injEq] at h ⊢
    tauto

theorem ssStrings_mem (hn : norb ≤ M) (hx : SupportedOn norb x) (t : BitVec M) :
    t ∈ ssStrings x (occ x) (vir norb x) ↔ ExcitedWithin 2 (· < norb) x t := by
  rw [(ssStrings_perm x _ _).mem_iff]
  exact mem_appendDoubles_iff (occ_nodup x) (vir_nodup norb x) (occ_spec hx) (vir_spec hn)

theorem ssStrings_nodup (hn : norb ≤ M) : (ssStrings x (occ x) (vir norb x)).Nodup := by
  rw [(ssStrings_perm x _ _).nodup_iff]
  refine appendDoubles_nodup (occ_nodup x) (vir_nodup norb x) (fun i hi => mem_occ.1 hi) fun a ha => ?_
  rw [mem_vir] at ha
  exact ⟨by omega, ha.2⟩

/-- all determinants visited from `joinSpin x y` -/
def visited (norb : Nat) (js : Bool) (x y : BitVec M) : List (BitVec (2 * M)) :=
  spinSingles x y (sStrings x (occ x) (vir norb x)) (sStrings y (occ y) (vir norb y)) ++
  if js then []
  else spinDoubles x y (sStrings x (occ x) (vir norb x)) (sStrings y (occ y) (vir norb y))
    (ssStrings x (occ x) (vir norb x)) (ssStrings y (occ y) (vir norb y))

theorem osDets_eq (x y : BitVec M) (oA vA oB vB : List Nat) : osDets x y oA vA oB vB
    = (sStrings x oA vA).flatMap fun p => (sStrings y oB vB).map fun q => joinSpin p q := by
  simp only [osDets, sStrings, List.flatMap_assoc, List.flatMap_map, List.map_flatMap, List.map_map,
    Function.comp_def]

/-- the contributions of one determinant -/
theorem detContribs_eq (hI : RealSymmetric I) (st : ContribSettings R) (hN : I.norb = norb) (hn : norb ≤ M)
    (hx : SupportedOn norb x) (hy : SupportedOn norb y) (E0 c : R) :
    detContribs I st norb E0 c (joinSpin x y)
      = some (((visited norb st.justSingles x y).filter (keepC I st.hElTol (joinSpin x y))).map
          (mkC I E0 c (joinSpin x y))) := by
  unfold detContribs visited
  simp only [loWord_joinSpin, hiWord_joinSpin, bitsetToOccVir_eq hx hn, bitsetToOccVir_eq hy hn,
    Option.bind_eq_bind, Option.bind_some]
  rw [singlesContrib_alpha I hI.2.1 hn hx, singlesContrib_beta I hI.2.1 hn hy,
    ssDoublesContrib_alpha I hI hN hn hx hy, ssDoublesContrib_beta I hI hN hn hx hy,
    osDoublesContrib_eq I hI.2.1 hn hx hy]
  have e1 : singlesDetsA x y (occ x) (vir norb x) = (sStrings x (occ x) (vir norb x)).map fun s => joinSpin s y := by
    simp only [singlesDetsA, sStrings, List.map_flatMap, List.map_map, Function.comp_def]
  have e2 : singlesDetsB x y (occ y) (vir norb y) = (sStrings y (occ y) (vir norb y)).map fun s => joinSpin x s := by
    simp only [singlesDetsB, sStrings, List.map_flatMap, List.map_map, Function.comp_def]
  rw [osDets_eq, e1, e2]
  cases st.justSingles
  · simp [spinSingles, spinDoubles]
  · simp [spinSingles]

theorem visited_nodup (hn : norb ≤ M) (js : Bool) (s : BitVec (2 * M)) (hx : SupportedOn norb (loWord s))
    (hy : SupportedOn norb (hiWord s)) : (visited norb js (loWord s) (hiWord s)).Nodup := by
  have a1 := spinSingles_exact (s := s) (sStrings_mem hn hx) (sStrings_mem hn hy) (sStrings_nodup hn)
    (sStrings_nodup hn)
  have a2 := spinDoubles_exact (s := s) (sStrings_mem hn hx) (sStrings_mem hn hy) (ssStrings_mem hn hx)
    (ssStrings_mem hn hy) (sStrings_nodup hn) (sStrings_nodup hn) (ssStrings_nodup hn) (ssStrings_nodup hn)
  unfold visited
  cases js
  · refine List.Nodup.append a1.1 a2.1 fun t h1 h2 => ?_
    rcases (a1.2 t).1 h1 with h | h <;> rcases (a2.2 t).1 h2 with h' | h' | h' <;>
      · have := excitedSpin_unique h h'; omega
  · simpa using a1.1

theorem visited_mem (hn : norb ≤ M) (js : Bool) (s : BitVec (2 * M)) (hx : SupportedOn norb (loWord s))
    (hy : SupportedOn norb (hiWord s)) (t : BitVec (2 * M)) :
    t ∈ visited norb js (loWord s) (hiWord s) ↔
      (ExcitedSpin 1 0 (· < norb) s t ∨ ExcitedSpin 0 1 (· < norb) s t) ∨
      js = false ∧ (ExcitedSpin 2 0 (· < norb) s t ∨ ExcitedSpin 0 2 (· < norb) s t ∨
        ExcitedSpin 1 1 (· < norb) s t) := by
  have a1 := spinSingles_exact (s := s) (sStrings_mem hn hx) (sStrings_mem hn hy) (sStrings_nodup hn)
    (sStrings_nodup hn)
  have a2 := spinDoubles_exact (s := s) (sStrings_mem hn hx) (sStrings_mem hn hy) (ssStrings_mem hn hx)
    (ssStrings_mem hn hy) (sStrings_nodup hn) (sStrings_nodup hn) (ssStrings_nodup hn) (ssStrings_nodup hn)
  unfold visited
  rw [List.mem_append, a1.2]
  cases js
  · simp [a2.2]
  · simp

end blocks
end Macis
