import Verif.Model.Rdm
import Verif.Spec.Rdm
import Verif.Lemmas.MatrixElement
import Verif.Props.Ham
/-
The writes of `form_rdms` are dual to the matrix elements: pairing them with integrals gives the
Hamiltonian element.
-/
namespace Macis
open Spec
variable {R : Type}

section field
variable [Field R]

/-- pairing of one write with integrals -/
def evU (I : Integrals R) : Upd R → R
  | .o p q v => I.T p q * v
  | .t p q r s v => I.V p q r s * v

def evL (I : Integrals R) (l : List (Upd R)) : R := (l.map (evU I)).sum

theorem evL_nil (I : Integrals R) : evL I [] = 0 := rfl

theorem evL_append (I : Integrals R) (l l' : List (Upd R)) : evL I (l ++ l') = evL I l + evL I l' := by
  simp [evL]

theorem evL_cons (I : Integrals R) (u : Upd R) (l : List (Upd R)) :
    evL I (u :: l) = evU I u + evL I l := by simp [evL]

theorem evL_flatMap {α : Type} (I : Integrals R) (l : List α) (f : α → List (Upd R)) :
    evL I (l.flatMap f) = (l.map fun a => evL I (f a)).sum := by
  induction l with
  | nil => rfl
  | cons a l ih => rw [List.flatMap_cons, evL_append, ih]; simp

theorem evL_map {α : Type} (I : Integrals R) (l : List α) (f : α → Upd R) :
    evL I (l.map f) = (l.map fun a => evU I (f a)).sum := by
  simp [evL, Function.comp_def]

/-- integrals averaged over the exchange of the two electrons -/
def pairSym (I : Integrals R) : Integrals R :=
  { I with V := fun p q r s => 2⁻¹ * (I.V p q r s + I.V r s p q) }

theorem pairSym_symm (I : Integrals R) : PairSymmetric (pairSym I) := by
  intro p q r s
  simp only [pairSym]; rw [add_comm]

/-- exchange terms read by the diagonal writes agree with those of the diagonal element -/
def ExchSym (I : Integrals R) : Prop := ∀ p q, I.V p q p q = I.V p q q p

theorem sum_sum_comm (l l' : List Nat) (f : Nat → Nat → R) :
    (l.map fun q => (l'.map fun p => f p q).sum).sum = (l'.map fun p => (l.map fun q => f p q).sum).sum := by
  induction l with
  | nil => simp
  | cons a l ih => simp [ih, List.sum_map_add]

theorem ev_diag_same (I : Integrals R) (h2 : (2 : R) ≠ 0) (hx : ExchSym I) (l : List Nat) (val : R) :
    evL I (l.flatMap fun q => l.flatMap fun p =>
      [Upd.t p p q q (val * 2⁻¹), Upd.t p q p q (-(val * 2⁻¹))])
    = val * (l.map fun q => (l.map fun p => (pairSym I).G2red p q).sum).sum := by
  simp only [evL_flatMap, evL_cons, evL_nil, evU, add_zero]
  have h1 : (l.map fun q => (l.map fun p => (pairSym I).G2red p q).sum).sum
      = 2⁻¹ * (2⁻¹ * ((l.map fun q => (l.map fun p => I.V p p q q - I.V p q p q).sum).sum
        + (l.map fun q => (l.map fun p => I.V q q p p - I.V q p q p).sum).sum)) := by
    rw [← List.sum_map_add, ← List.sum_map_mul_left, ← List.sum_map_mul_left]
    congr 1
    apply List.map_congr_left
    intro q _
    rw [← List.sum_map_add, ← List.sum_map_mul_left, ← List.sum_map_mul_left]
    congr 1
    apply List.map_congr_left
    intro p _
    simp only [Integrals.G2red, Integrals.G, pairSym]
    rw [hx p q, hx q p]
    ring
  rw [h1, sum_sum_comm l l (fun p q => I.V q q p p - I.V q p q p), ← two_mul,
    inv_mul_cancel_left₀ h2, ← mul_assoc, ← List.sum_map_mul_left]
  congr 1
  apply List.map_congr_left
  intro q _
  rw [← List.sum_map_mul_left]
  congr 1
  apply List.map_congr_left
  intro p _
  ring

theorem ev_diag (I : Integrals R) (h2 : (2 : R) ≠ 0) (hx : ExchSym I) (oA oB : List Nat) (val : R) :
    evL I (rdmContributionsDiag oA oB val true) = val * (pairSym I).matrixElementDiag oA oB := by
  unfold rdmContributionsDiag Integrals.matrixElementDiag
  dsimp only
  rw [if_pos rfl, evL_append, evL_append, evL_append, evL_append, ev_diag_same I h2 hx, ev_diag_same I h2 hx,
    evL_map, evL_map]
  have e3 : evL I (oB.flatMap fun q => oA.flatMap fun p =>
      [Upd.t p p q q (val * 2⁻¹), Upd.t q q p p (val * 2⁻¹)])
      = val * (oB.map fun q => (oA.map fun p => (pairSym I).V2red p q).sum).sum := by
    simp only [evL_flatMap, evL_cons, evL_nil, evU, add_zero]
    rw [← List.sum_map_mul_left]
    congr 1
    apply List.map_congr_left
    intro q _
    rw [← List.sum_map_mul_left]
    congr 1
    apply List.map_congr_left
    intro p _
    simp only [Integrals.V2red, pairSym]
    ring
  have e1 : ∀ l : List Nat, (l.map fun p => evU I (Upd.o p p val)).sum
      = val * (l.map fun p => (pairSym I).T p p).sum := by
    intro l
    rw [← List.sum_map_mul_left]
    congr 1
    apply List.map_congr_left
    intro p _
    simp only [evU, pairSym]; ring
  rw [e3, e1, e1]
  ring

variable {M : Nat}

theorem ev_4 (I : Integrals R) (bra ket ex : BitVec M) (val : R) :
    evL I (rdmContributions4 bra ket ex val) = val * (pairSym I).matrixElement4 bra ket ex := by
  unfold rdmContributions4 Integrals.matrixElement4
  generalize doublesSignIndices bra ket ex = x
  obtain ⟨o1, v1, o2, v2, sign⟩ := x
  simp only [evL_cons, evL_nil, evU, Integrals.G, pairSym]
  ring

theorem ev_22 (I : Integrals R) (braA ketA exA braB ketB exB : BitVec M) (val : R) :
    evL I (rdmContributions22 braA ketA exA braB ketB exB val)
      = val * (pairSym I).matrixElement22 braA ketA exA braB ketB exB := by
  unfold rdmContributions22 Integrals.matrixElement22
  generalize singleExcitationSignIndices braA ketA exA = x
  generalize singleExcitationSignIndices braB ketB exB = y
  obtain ⟨o1, v1, s1⟩ := x
  obtain ⟨o2, v2, s2⟩ := y
  simp only [evL_cons, evL_nil, evU, pairSym]
  ring

theorem ev_2 (I : Integrals R) (bra ket ex : BitVec M) (oA oB : List Nat) (val : R) :
    evL I (rdmContributions2 bra ket ex oA oB val true)
      = val * (pairSym I).matrixElement2 bra ket ex oA oB := by
  unfold rdmContributions2 Integrals.matrixElement2
  generalize singleExcitationSignIndices bra ket ex = x
  obtain ⟨o1, v1, sign⟩ := x
  dsimp only
  rw [if_pos rfl, evL_append, evL_append, evL_flatMap, evL_flatMap]
  simp only [evL_cons, evL_nil, evU, add_zero]
  have e1 : (oA.map fun a => I.V v1 o1 a a * (val * ((sign : R) * 2⁻¹)) + (I.V a a v1 o1 * (val * ((sign : R) * 2⁻¹))
      + (I.V v1 a a o1 * -(val * ((sign : R) * 2⁻¹)) + I.V a o1 v1 a * -(val * ((sign : R) * 2⁻¹))))).sum
      = val * (sign : R) * (oA.map fun p => (pairSym I).Gred p v1 o1).sum := by
    rw [← List.sum_map_mul_left]
    congr 1
    apply List.map_congr_left
    intro p _
    simp only [Integrals.Gred, Integrals.G, pairSym]
    ring
  have e2 : (oB.map fun a => I.V v1 o1 a a * (val * ((sign : R) * 2⁻¹)) +
      I.V a a v1 o1 * (val * ((sign : R) * 2⁻¹))).sum
      = val * (sign : R) * (oB.map fun p => (pairSym I).Vred p v1 o1).sum := by
    rw [← List.sum_map_mul_left]
    congr 1
    apply List.map_congr_left
    intro p _
    simp only [Integrals.Vred, pairSym]
    ring
  rw [e1, e2]
  simp only [pairSym]
  ring

/-- pairing the writes of one determinant pair with integrals gives `val` times the matrix element -/
theorem ev_contributions (I : Integrals R) (h2 : (2 : R) ≠ 0)
    (braA ketA exA braB ketB exB : BitVec M) (oA oB : List Nat) (val : R)
    (hx : ExchSym I ∨ exA ≠ 0 ∨ exB ≠ 0)
    (he : ∀ e : BitVec M, e = exA ∨ e = exB → count e ≠ 0 ∧ count e ≤ 4 → count e = 2 ∨ count e = 4) :
    evL I (rdmContributions braA ketA exA braB ketB exB oA oB val true)
      = val * (pairSym I).matrixElementSpin braA ketA exA braB ketB exB oA oB := by
  unfold rdmContributions Integrals.matrixElementSpin
  dsimp only
  have hA := he exA (Or.inl rfl)
  have hB := he exB (Or.inr rfl)
  by_cases c : count exA + count exB > 4
  · rw [if_pos c, if_pos c, evL_nil, mul_zero]
  rw [if_neg c, if_neg c]
  by_cases c1 : count exA = 4
  · rw [if_pos ⟨c1, rfl⟩, if_pos c1, ev_4]
  rw [if_neg (by simp [c1]), if_neg c1]
  by_cases c2 : count exB = 4
  · rw [if_pos ⟨c2, rfl⟩, if_pos c2, ev_4]
  rw [if_neg (by simp [c2]), if_neg c2]
  by_cases c3 : count exA = 2 ∧ count exB = 2
  · rw [if_pos ⟨c3.1, c3.2, rfl⟩, if_pos c3, ev_22]
  rw [if_neg (by simpa using c3), if_neg c3]
  by_cases c4 : count exA = 2
  · rw [if_pos c4, if_pos c4, ev_2]
  rw [if_neg c4, if_neg c4]
  by_cases c5 : count exB = 2
  · rw [if_pos c5, if_pos c5, ev_2]
  rw [if_neg c5, if_neg c5]
  have z : ∀ e : BitVec M, count e = 0 → e = 0 := by
    intro e h
    apply BitVec.eq_of_getLsbD_eq
    intro i hi
    rw [count_eq_length] at h
    have := List.eq_nil_of_length_eq_zero h
    by_contra hc
    have hm : i ∈ occ e := mem_occ.2 (by simpa using hc)
    rw [this] at hm
    simp at hm
  rcases hx with hx | hx | hx
  · exact ev_diag I h2 hx oA oB val
  · exact absurd (z exA (by omega)) hx
  · exact absurd (z exB (by omega)) hx


theorem so_lt_range {n p : Nat} (hn : n ≤ M) (hp : p ∈ Finset.range n) (σ : Bool) : so M σ p < 2 * M := by
  rw [Finset.mem_range] at hp
  unfold so; split <;> omega

/-- exchanging the two electrons does not change the operator -/
theorem amp2_pair {N : Nat} {bra ket : BitVec N} {P Q S T : Nat} (hP : P < N) (hR : Q < N) (hS : S < N)
    (hQ : T < N) : amp2 bra ket P Q S T = amp2 bra ket Q P T S := by
  rw [amp2_swap_cre hP hR, amp2_swap_ann hR hP hS hQ, neg_neg]

theorem hamiltonian_pairSym (I : Integrals R) (hn : I.norb ≤ M) (h2 : (2 : R) ≠ 0)
    (bra ket : BitVec (2 * M)) : hamiltonian (pairSym I) bra ket = hamiltonian I bra ket := by
  have hsw : (∑ σ : Bool, ∑ τ : Bool, ∑ p ∈ Finset.range I.norb, ∑ q ∈ Finset.range I.norb,
      ∑ r ∈ Finset.range I.norb, ∑ s ∈ Finset.range I.norb,
        I.V r s p q * (amp2 bra ket (so M σ p) (so M τ r) (so M τ s) (so M σ q) : R))
      = ∑ σ : Bool, ∑ τ : Bool, ∑ p ∈ Finset.range I.norb, ∑ q ∈ Finset.range I.norb,
      ∑ r ∈ Finset.range I.norb, ∑ s ∈ Finset.range I.norb,
        I.V p q r s * (amp2 bra ket (so M σ p) (so M τ r) (so M τ s) (so M σ q) : R) := by
    rw [Finset.sum_comm]
    apply Finset.sum_congr rfl; intro τ _
    apply Finset.sum_congr rfl; intro σ _
    have e : (∑ p ∈ Finset.range I.norb, ∑ q ∈ Finset.range I.norb,
      ∑ r ∈ Finset.range I.norb, ∑ s ∈ Finset.range I.norb,
        I.V r s p q * (amp2 bra ket (so M σ p) (so M τ r) (so M τ s) (so M σ q) : R))
        = ∑ p ∈ Finset.range I.norb, ∑ q ∈ Finset.range I.norb,
      ∑ r ∈ Finset.range I.norb, ∑ s ∈ Finset.range I.norb,
        I.V r s p q * (amp2 bra ket (so M τ r) (so M σ p) (so M σ q) (so M τ s) : R) := by
      apply Finset.sum_congr rfl; intro p hp
      apply Finset.sum_congr rfl; intro q hq
      apply Finset.sum_congr rfl; intro r hr
      apply Finset.sum_congr rfl; intro s hs
      rw [amp2_pair (so_lt_range hn hp σ) (so_lt_range hn hr τ) (so_lt_range hn hs τ) (so_lt_range hn hq σ)]
    rw [e]
    -- Σ_p Σ_q Σ_r Σ_s f r s p q = Σ_r Σ_s Σ_p Σ_q f r s p q
    rw [← Finset.sum_product', Finset.sum_congr rfl (fun x _ => (Finset.sum_product' (Finset.range I.norb)
      (Finset.range I.norb) (fun r s => I.V r s x.1 x.2 * (amp2 bra ket (so M τ r) (so M σ x.1)
        (so M σ x.2) (so M τ s) : R))).symm), Finset.sum_comm, Finset.sum_product]
    apply Finset.sum_congr rfl; intro r _
    apply Finset.sum_congr rfl; intro s _
    rw [Finset.sum_product]
  have : ∀ (σ τ : Bool) (p q r s : Nat),
      (pairSym I).V p q r s * (amp2 bra ket (so M σ p) (so M τ r) (so M τ s) (so M σ q) : R)
      = 2⁻¹ * (I.V p q r s * (amp2 bra ket (so M σ p) (so M τ r) (so M τ s) (so M σ q) : R)
        + I.V r s p q * (amp2 bra ket (so M σ p) (so M τ r) (so M τ s) (so M σ q) : R)) := by
    intros; simp only [pairSym]; ring
  have hN : (pairSym I).norb = I.norb := rfl
  have hT : (pairSym I).T = I.T := rfl
  unfold hamiltonian
  rw [hN, hT]
  simp only [this, ← Finset.mul_sum, Finset.sum_add_distrib]
  rw [hsw, ← two_mul, inv_mul_cancel_left₀ h2]

/-- integrals selecting one element of the 1-RDM -/
def delta1 (n p q : Nat) : Integrals R :=
  ⟨n, fun a b => if a = p ∧ b = q then 1 else 0, fun _ _ _ _ => 0⟩

/-- integrals selecting one element of the 2-RDM -/
def delta2 (n p q r s : Nat) : Integrals R :=
  ⟨n, fun _ _ => 0, fun a b c d => if a = p ∧ b = q ∧ c = r ∧ d = s then 1 else 0⟩

/-- sum of two integral sets -/
def addInt (I J : Integrals R) : Integrals R :=
  ⟨I.norb, fun a b => I.T a b + J.T a b, fun a b c d => I.V a b c d + J.V a b c d⟩

theorem hamiltonian_delta1 {n p q : Nat} (hp : p < n) (hq : q < n) (bra ket : BitVec (2 * M)) :
    hamiltonian (delta1 n p q : Integrals R) bra ket = (rdm1 bra ket p q : R) := by
  have hp' := Finset.mem_range.2 hp
  have hq' := Finset.mem_range.2 hq
  unfold hamiltonian delta1 rdm1
  dsimp only
  simp only [zero_mul, Finset.sum_const_zero, mul_zero, add_zero, ite_and, ite_mul, one_mul,
    Finset.sum_ite_eq', hp', hq', if_true, Int.cast_sum]
  apply Finset.sum_congr rfl
  intro σ _
  rw [Finset.sum_eq_single p]
  · simp [hq]
  · intro b _ hb; simp [hb]
  · intro h; exact absurd hp' h

theorem hamiltonian_delta2 {n p q r s : Nat} (hp : p < n) (hq : q < n) (hr : r < n) (hs : s < n)
    (bra ket : BitVec (2 * M)) :
    hamiltonian (delta2 n p q r s : Integrals R) bra ket = 2⁻¹ * (rdm2 bra ket p q r s : R) := by
  unfold hamiltonian delta2 rdm2
  dsimp only
  simp only [zero_mul, Finset.sum_const_zero, zero_add, ite_mul, one_mul, Int.cast_sum]
  congr 1
  apply Finset.sum_congr rfl; intro σ _
  apply Finset.sum_congr rfl; intro τ _
  rw [Finset.sum_eq_single p, Finset.sum_eq_single q, Finset.sum_eq_single r, Finset.sum_eq_single s]
  · simp
  · intro b _ hb; simp [hb]
  · intro h; exact absurd (Finset.mem_range.2 hs) h
  · intro b _ hb; simp [hb]
  · intro h; exact absurd (Finset.mem_range.2 hr) h
  · intro b _ hb; simp [hb]
  · intro h; exact absurd (Finset.mem_range.2 hq) h
  · intro b _ hb; simp [hb]
  · intro h; exact absurd (Finset.mem_range.2 hp) h

theorem hamiltonian_add (I J : Integrals R) (h : I.norb = J.norb) (bra ket : BitVec (2 * M)) :
    hamiltonian (addInt I J) bra ket = hamiltonian I bra ket + hamiltonian J bra ket := by
  unfold hamiltonian addInt
  dsimp only
  rw [← h]
  simp only [add_mul, Finset.sum_add_distrib, mul_add]
  ring

/-! ### applying the writes -/

theorem foldl_ordm (l : List (Upd R)) (st : Rdms R) (n p q : Nat) :
    (l.foldl Rdms.apply st).ordm p q = st.ordm p q + evL (delta1 n p q) l := by
  induction l generalizing st with
  | nil => simp [evL]
  | cons u l ih =>
    rw [List.foldl_cons, ih, evL_cons]
    cases u with
    | o a b v =>
      simp only [Rdms.apply, evU, delta1]
      by_cases h : p = a ∧ q = b
      · rw [if_pos h, if_pos ⟨h.1.symm, h.2.symm⟩]; ring
      · rw [if_neg h, if_neg (fun h' => h ⟨h'.1.symm, h'.2.symm⟩)]; ring
    | t a b c d v =>
      simp only [Rdms.apply, evU, delta1]; ring

theorem foldl_trdm (l : List (Upd R)) (st : Rdms R) (n p q r s : Nat) :
    (l.foldl Rdms.apply st).trdm p q r s = st.trdm p q r s + evL (delta2 n p q r s) l := by
  induction l generalizing st with
  | nil => simp [evL]
  | cons u l ih =>
    rw [List.foldl_cons, ih, evL_cons]
    cases u with
    | o a b v =>
      simp only [Rdms.apply, evU, delta2]; ring
    | t a b c d v =>
      simp only [Rdms.apply, evU, delta2]
      by_cases h : p = a ∧ q = b ∧ r = c ∧ s = d
      · rw [if_pos h, if_pos ⟨h.1.symm, h.2.1.symm, h.2.2.1.symm, h.2.2.2.symm⟩]; ring
      · rw [if_neg h, if_neg (fun h' => h ⟨h'.1.symm, h'.2.1.symm, h'.2.2.1.symm, h'.2.2.2.symm⟩)]; ring

theorem evL_addInt (I J : Integrals R) (l : List (Upd R)) :
    evL (addInt I J) l = evL I l + evL J l := by
  induction l with
  | nil => simp [evL]
  | cons u l ih =>
    rw [evL_cons, evL_cons, evL_cons, ih]
    cases u <;> simp only [evU, addInt] <;> ring

/-- all indices of a write are orbitals -/
def Upd.inRange (n : Nat) : Upd R → Prop
  | .o p q _ => p < n ∧ q < n
  | .t p q r s _ => p < n ∧ q < n ∧ r < n ∧ s < n

/-- `Σ_pq T(p,q) ordm(p,q) + Σ_pqrs V(p,q,r,s) trdm(p,q,r,s)` -/
def contractRdms (I : Integrals R) (st : Rdms R) : R :=
  (∑ p ∈ Finset.range I.norb, ∑ q ∈ Finset.range I.norb, I.T p q * st.ordm p q)
  + ∑ p ∈ Finset.range I.norb, ∑ q ∈ Finset.range I.norb, ∑ r ∈ Finset.range I.norb,
      ∑ s ∈ Finset.range I.norb, I.V p q r s * st.trdm p q r s

theorem contract_apply (I : Integrals R) (st : Rdms R) (u : Upd R) (h : u.inRange I.norb) :
    contractRdms I (st.apply u) = contractRdms I st + evU I u := by
  cases u with
  | o p q v =>
    obtain ⟨hp, hq⟩ := h
    unfold contractRdms
    simp only [Rdms.apply, evU]
    have e : ∀ a b, I.T a b * (if a = p ∧ b = q then st.ordm a b + v else st.ordm a b)
        = I.T a b * st.ordm a b + if a = p then (if b = q then I.T p q * v else 0) else 0 := by
      intro a b
      by_cases h1 : a = p <;> by_cases h2 : b = q <;> simp [h1, h2, mul_add]
    simp only [e, Finset.sum_add_distrib]
    have : (∑ a ∈ Finset.range I.norb, ∑ b ∈ Finset.range I.norb,
        if a = p then (if b = q then I.T p q * v else 0) else 0) = I.T p q * v := by
      rw [Finset.sum_eq_single p, Finset.sum_eq_single q]
      · simp
      · intro b _ hb; simp [hb]
      · intro h; exact absurd (Finset.mem_range.2 hq) h
      · intro b _ hb; simp [hb]
      · intro h; exact absurd (Finset.mem_range.2 hp) h
    rw [this]; ring
  | t p q r s v =>
    obtain ⟨hp, hq, hr, hs⟩ := h
    unfold contractRdms
    simp only [Rdms.apply, evU]
    have e : ∀ a b c d, I.V a b c d * (if a = p ∧ b = q ∧ c = r ∧ d = s then st.trdm a b c d + v
        else st.trdm a b c d)
        = I.V a b c d * st.trdm a b c d + if a = p ∧ b = q ∧ c = r ∧ d = s then I.V p q r s * v else 0 := by
      intro a b c d
      by_cases h1 : a = p ∧ b = q ∧ c = r ∧ d = s
      · obtain ⟨rfl, rfl, rfl, rfl⟩ := h1
        simp [mul_add]
      · simp [h1]
    simp only [e, Finset.sum_add_distrib]
    have : (∑ a ∈ Finset.range I.norb, ∑ b ∈ Finset.range I.norb, ∑ c ∈ Finset.range I.norb,
        ∑ d ∈ Finset.range I.norb,
        if a = p ∧ b = q ∧ c = r ∧ d = s then I.V p q r s * v else 0) = I.V p q r s * v := by
      rw [Finset.sum_eq_single p, Finset.sum_eq_single q, Finset.sum_eq_single r, Finset.sum_eq_single s]
      · simp
      · intro b _ hb; simp [hb]
      · intro h; exact absurd (Finset.mem_range.2 hs) h
      · intro b _ hb; simp [hb]
      · intro h; exact absurd (Finset.mem_range.2 hr) h
      · intro b _ hb; simp [hb]
      · intro h; exact absurd (Finset.mem_range.2 hq) h
      · intro b _ hb; simp [hb]
      · intro h; exact absurd (Finset.mem_range.2 hp) h
    rw [this]; ring

theorem contract_foldl (I : Integrals R) (l : List (Upd R)) (st : Rdms R)
    (h : ∀ u ∈ l, u.inRange I.norb) :
    contractRdms I (l.foldl Rdms.apply st) = contractRdms I st + evL I l := by
  induction l generalizing st with
  | nil => simp [evL]
  | cons u l ih =>
    rw [List.foldl_cons, ih _ (fun u hu => h u (List.mem_cons_of_mem _ hu)),
      contract_apply I st u (h u List.mem_cons_self), evL_cons, add_assoc]

end field

section ordered
variable [Field R] [LinearOrder R] {M : Nat}

theorem count_even {N : Nat} {a b : BitVec N} (h : electrons a = electrons b) :
    count (a ^^^ b) ≠ 0 ∧ count (a ^^^ b) ≤ 4 → count (a ^^^ b) = 2 ∨ count (a ^^^ b) = 4 := by
  obtain ⟨k, hk, -⟩ := exists_excited h
  omega

theorem loWord_xor (a b : BitVec (2 * M)) : loWord (a ^^^ b) = loWord a ^^^ loWord b := by
  apply BitVec.eq_of_getLsbD_eq
  intro i hi
  rw [getLsbD_loWord, BitVec.getLsbD_xor, BitVec.getLsbD_xor, getLsbD_loWord, getLsbD_loWord]
  simp [hi]

theorem hiWord_xor (a b : BitVec (2 * M)) : hiWord (a ^^^ b) = hiWord a ^^^ hiWord b := by
  apply BitVec.eq_of_getLsbD_eq
  intro i hi
  rw [getLsbD_hiWord, BitVec.getLsbD_xor, BitVec.getLsbD_xor, getLsbD_hiWord, getLsbD_hiWord]
  simp [hi]

theorem ev_rdmPair (I : Integrals R) (hn : I.norb ≤ M) (h2 : (2 : R) ≠ 0) (bra ket : BitVec (2 * M))
    (hb : InSpace I.norb bra) (hk : InSpace I.norb ket) (hs : SameSector bra ket) (val : R)
    (hx : ExchSym I ∨ bra ≠ ket) :
    evL I (rdmPair bra ket val true) = kept val * hamiltonian I bra ket := by
  have hH : hamiltonian I bra ket = (pairSym I).matrixElement bra ket := by
    rw [C13_slater_condon M (pairSym I) hn h2 (pairSym_symm I) bra ket hb hk hs,
      hamiltonian_pairSym I hn h2]
  have hs' := hs
  obtain ⟨hsa, hsb⟩ := hs'
  rw [alphaElectrons_eq, alphaElectrons_eq] at hsa
  rw [betaElectrons_eq, betaElectrons_eq] at hsb
  have hz : ∀ s : BitVec (2 * M), count s = 0 → electrons (loWord s) = 0 ∧ electrons (hiWord s) = 0 := by
    intro s h
    rw [count_eq_zero_iff] at h
    subst h
    have e1 : loWord (0#(2 * M)) = 0#M := by
      apply BitVec.eq_of_getLsbD_eq; intro i hi; rw [getLsbD_loWord]; simp
    have e2 : hiWord (0#(2 * M)) = 0#M := by
      apply BitVec.eq_of_getLsbD_eq; intro i hi; rw [getLsbD_hiWord]; simp
    rw [e1, e2]
    simp [electrons]
  have hzz : electrons (loWord bra) = 0 → electrons (hiWord bra) = 0 → hamiltonian I bra ket = 0 := by
    intro a b
    have z : ∀ s : BitVec M, electrons s = 0 → s = 0#M := by
      intro s h
      have h : (occ s).length = 0 := h
      rw [← count_eq_length] at h
      exact count_eq_zero_iff.1 h
    rw [hH]
    unfold Integrals.matrixElement
    rw [z _ a, z _ b, z _ (hsa.symm.trans a), z _ (hsb.symm.trans b)]
    have hb0 : bitsToIndices (0#M) = [] := by
      rw [bitsToIndices_eq_occ]; simp [occ]
    have hc0 : count (0#M) = 0 := count_eq_zero_iff.2 rfl
    simp [Integrals.matrixElementSpin, hc0, Integrals.matrixElementDiag, hb0]
  unfold rdmPair kept
  by_cases c1 : count bra = 0
  · obtain ⟨a, b⟩ := hz bra c1
    rw [if_neg (by simpa using c1), hzz a b, evL_nil, mul_zero]
  rw [if_pos c1]
  by_cases c2 : count ket = 0
  · obtain ⟨a, b⟩ := hz ket c2
    rw [if_neg (by simpa using c2), hzz (hsa.trans a) (hsb.trans b), evL_nil, mul_zero]
  rw [if_pos c2]
  have hc : count (bra ^^^ ket) = count (loWord bra ^^^ loWord ket) + count (hiWord bra ^^^ hiWord ket) := by
    rw [count_xor_add, count_eq_length]
    unfold occ diffOrbitals
    congr 1
    apply List.filter_congr
    intro i _
    rw [BitVec.getLsbD_xor]
  by_cases c3 : count (bra ^^^ ket) ≤ 4
  · rw [if_pos c3]
    by_cases c4 : |val| > 1 / 10 ^ 16
    · rw [if_pos c4, if_pos c4, loWord_xor, hiWord_xor, ev_contributions I h2, hH]
      · rfl
      · rcases hx with hx | hx
        · exact Or.inl hx
        · right
          by_contra hcon
          push Not at hcon
          apply hx
          have := hcon
          have z := hc
          rw [this.1, this.2] at z
          have h0 : count (0 : BitVec M) = 0 := count_eq_zero_iff.2 rfl
          rw [h0] at z
          have := count_eq_zero_iff.1 z
          have h3 : bra ^^^ ket = 0 := this
          calc bra = bra ^^^ (ket ^^^ ket) := by simp
            _ = (bra ^^^ ket) ^^^ ket := by rw [BitVec.xor_assoc]
            _ = ket := by rw [h3]; simp
      · intro e he hce
        rcases he with rfl | rfl
        · exact count_even hsa hce
        · exact count_even hsb hce
    · rw [if_neg c4, if_neg c4, evL_nil, zero_mul]
  · rw [if_neg c3, evL_nil, hH, C15_zero_beyond_doubles, mul_zero]
    rw [← count_xor_add, ← hc]; omega

end ordered
end Macis
