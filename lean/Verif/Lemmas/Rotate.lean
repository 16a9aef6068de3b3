import Verif.Lemmas.CAR
import Mathlib.Algebra.Module.LinearMap.End
import Mathlib.Algebra.BigOperators.Pi
import Mathlib.LinearAlgebra.Matrix.NonsingularInverse
import Mathlib.Data.Fintype.EquivFin
/-! Ladder operators as linear maps, and the fact that vacuum expectation values of words in them depend on the
anticommutation relations only. -/
namespace Macis
open Spec Finset

noncomputable instance instFintypeBitVec (N : Nat) : Fintype (BitVec N) :=
  Fintype.ofInjective BitVec.toFin fun a b h => by
    apply BitVec.eq_of_toNat_eq
    exact congrArg Fin.val h

variable {R : Type} [Field R] {N : Nat}

/-! ### words -/

section Words
variable {A : Type} [Ring A] [Algebra R A]

/-- creation (`c`) and annihilation (`d`) operators below `n`, and the vacuum expectation value -/
structure Vacuum (n : Nat) (c d : Nat → A) (phi : A →ₗ[R] R) : Prop where
  anti : ∀ i j, i < n → j < n → d i * c j = (if i = j then 1 else 0) - c j * d i
  right : ∀ i x, i < n → phi (x * d i) = 0
  left : ∀ i x, i < n → phi (c i * x) = 0
  one : phi 1 = 1

/-- the operator a word stands for -/
def word (c d : Nat → A) (w : List (Bool × Nat)) : A := (w.map fun x => if x.1 then c x.2 else d x.2).prod

omit [Algebra R A] in
theorem word_append (c d : Nat → A) (u w : List (Bool × Nat)) : word c d (u ++ w) = word c d u * word c d w := by
  simp [word]

omit [Algebra R A] in
theorem word_cons (c d : Nat → A) (x : Bool × Nat) (w : List (Bool × Nat)) :
    word c d (x :: w) = (if x.1 then c x.2 else d x.2) * word c d w := by
  simp [word]

theorem split_last (w : List (Bool × Nat)) :
    (∀ x ∈ w, x.1 = true) ∨ ∃ u i v, w = u ++ (false, i) :: v ∧ ∀ x ∈ v, x.1 = true := by
  induction w with
  | nil => left; simp
  | cons x w ih =>
    rcases ih with h | ⟨u, i, v, rfl, hv⟩
    · obtain ⟨b, i⟩ := x
      cases b
      · exact .inr ⟨[], i, w, rfl, h⟩
      · left
        intro y hy
        rcases List.mem_cons.1 hy with rfl | hy
        · rfl
        · exact h y hy
    · exact .inr ⟨x :: u, i, v, rfl, hv⟩

theorem wick {B : Type} [Ring B] [Algebra R B] {n : Nat} {c d : Nat → A} {phi : A →ₗ[R] R} {c' d' : Nat → B}
    {psi : B →ₗ[R] R} (h : Vacuum n c d phi) (h' : Vacuum n c' d' psi) :
    ∀ (k : Nat) (w : List (Bool × Nat)), w.length ≤ k → (∀ x ∈ w, x.2 < n) →
      phi (word c d w) = psi (word c' d' w) := by
  intro k
  induction k with
  | zero =>
    intro w hw _
    have : w = [] := List.length_eq_zero_iff.1 (by omega)
    subst this
    simp [word, h.one, h'.one]
  | succ k ih =>
    intro w hw hn
    rcases split_last w with hc | ⟨u, i, v, rfl, hv⟩
    · cases w with
      | nil => simp [word, h.one, h'.one]
      | cons x w =>
        have hx := hc x (by simp)
        have hxn := hn x (by simp)
        rw [word_cons, word_cons, hx]
        simp only [if_true]
        rw [h.left _ _ hxn, h'.left _ _ hxn]
    · have key : ∀ (v u : List (Bool × Nat)), (u ++ (false, i) :: v).length ≤ k + 1 →
          (∀ x ∈ u ++ (false, i) :: v, x.2 < n) → (∀ x ∈ v, x.1 = true) →
          phi (word c d (u ++ (false, i) :: v)) = psi (word c' d' (u ++ (false, i) :: v)) := by
        intro v
        induction v with
        | nil =>
          intro u _ hn _
          have hi : i < n := hn (false, i) (by simp)
          rw [word_append, word_append]
          simp only [word, List.map_cons, List.map_nil, List.prod_cons, List.prod_nil, mul_one,
            Bool.false_eq_true, if_false]
          rw [h.right _ _ hi, h'.right _ _ hi]
        | cons x v ihv =>
          intro u hl hn hv
          obtain ⟨b, j⟩ := x
          have hb : b = true := hv (b, j) (by simp)
          subst hb
          have hi : i < n := hn (false, i) (by simp)
          have hj : j < n := hn (true, j) (by simp)
          have e : ∀ {D : Type} [Ring D] (c d : Nat → D), d i * c j = (if i = j then 1 else 0) - c j * d i →
              word c d (u ++ (false, i) :: (true, j) :: v) =
                (if i = j then word c d (u ++ v) else 0) - word c d ((u ++ [(true, j)]) ++ (false, i) :: v) := by
            intro D _ c d hcd
            simp only [word_append, word_cons, Bool.false_eq_true, if_false, if_true]
            rw [← mul_assoc (d i), hcd]
            by_cases hij : i = j
            · simp only [hij, if_true, sub_mul, one_mul, mul_sub]
              simp [word, mul_assoc]
            · simp only [hij, if_false, sub_mul, zero_mul, mul_sub]
              simp [word, mul_assoc]
          rw [e c d (h.anti i j hi hj), e c' d' (h'.anti i j hi hj), map_sub, map_sub]
          have hl' : (u ++ v).length + 2 = (u ++ (false, i) :: (true, j) :: v).length := by simp; omega
          have e2 : phi (word c d ((u ++ [(true, j)]) ++ (false, i) :: v)) =
              psi (word c' d' ((u ++ [(true, j)]) ++ (false, i) :: v)) := by
            refine ihv _ ?_ ?_ fun x hx => hv x (by simp [hx])
            · simp at hl ⊢; omega
            · intro x hx
              apply hn x
              simp at hx ⊢; tauto
          rw [e2]
          congr 1
          by_cases hij : i = j
          · simp only [hij, if_true]
            refine ih (u ++ v) (by omega) fun x hx => hn x ?_
            simp at hx ⊢; tauto
          · simp [hij]
      exact key v u hw hn hv
end Words

/-! ### ladder operators -/

/-- vectors: an amplitude for every determinant -/
abbrev Fk (R : Type) (N : Nat) : Type := BitVec N → R

/-- the ladder operator that acts on determinants whose bit `p` is `b`, as a linear map -/
def lad (b : Bool) (p : Nat) : Module.End R (Fk R N) where
  toFun v s := if s.getLsbD p = !b then (-1) ^ below s p * v (flip s p) else 0
  map_add' u v := by funext s; simp only [Pi.add_apply]; split <;> ring
  map_smul' a v := by
    funext s
    simp only [Pi.smul_apply, smul_eq_mul, RingHom.id_apply]
    split <;> ring

theorem lad_apply (b : Bool) (p : Nat) (v : Fk R N) (s : BitVec N) :
    lad b p v s = if s.getLsbD p = !b then (-1) ^ below s p * v (flip s p) else 0 := rfl

theorem bit_flip {p q : Nat} (hq : q < N) (h : p ≠ q) (s : BitVec N) : (flip s q).getLsbD p = s.getLsbD p := by
  rw [getLsbD_flip hq]; simp [Ne.symm h]

theorem bit_flip_self {q : Nat} (hq : q < N) (s : BitVec N) : (flip s q).getLsbD q = !s.getLsbD q := by
  rw [getLsbD_flip hq]; simp

theorem sgn_flip_gt' {s : BitVec N} {p q : Nat} (hqN : q < N) (h : q < p) :
    (-1 : R) ^ below (flip s q) p = - (-1) ^ below s p := by
  have := congrArg (Int.cast (R := R)) (sgn_flip_gt (s := s) hqN h)
  push_cast at this
  exact this

theorem lad_anti {b b' : Bool} {p q : Nat} (hp : p < N) (hq : q < N) (h : p ≠ q) :
    (lad b p : Module.End R (Fk R N)) * lad b' q = - (lad b' q * lad b p) := by
  refine LinearMap.ext fun v => funext fun s => ?_
  simp only [Module.End.mul_apply, LinearMap.neg_apply, Pi.neg_apply, lad_apply, bit_flip hq h,
    bit_flip hp (Ne.symm h)]
  by_cases h1 : s.getLsbD p = !b <;> by_cases h2 : s.getLsbD q = !b' <;> simp only [h1, h2, if_true, if_false] <;>
    try simp
  rw [flip_comm s p q]
  rcases Nat.lt_or_gt_of_ne h with hlt | hlt
  · rw [below_flip_le (le_of_lt hlt), sgn_flip_gt' hp hlt]; ring
  · rw [below_flip_le (le_of_lt hlt), sgn_flip_gt' hq hlt]; ring

theorem lad_pair {p : Nat} (hp : p < N) :
    (lad true p : Module.End R (Fk R N)) * lad false p = 1 - lad false p * lad true p := by
  refine LinearMap.ext fun v => funext fun s => ?_
  simp only [Module.End.mul_apply, LinearMap.sub_apply, Pi.sub_apply, lad_apply, bit_flip_self hp,
    below_flip_le (Nat.le_refl p), flip_flip, Module.End.one_apply]
  have e : ((-1 : R) ^ below s p) * ((-1) ^ below s p * v s) = v s := by
    rw [← mul_assoc, ← pow_add, ← two_mul, pow_mul]; simp
  cases h : s.getLsbD p <;> simp [e]

/-- the vacuum -/
def vac : Fk R N := Pi.single 0 1

/-- vacuum expectation value -/
def vev : Module.End R (Fk R N) →ₗ[R] R where
  toFun X := X vac 0
  map_add' _ _ := rfl
  map_smul' _ _ := rfl

theorem flip_ne_zero {p : Nat} (hp : p < N) {s : BitVec N} (h : s.getLsbD p = false) : flip s p ≠ 0 := by
  intro e
  have := congrArg (fun x => x.getLsbD p) e
  simp [bit_flip_self hp, h] at this

theorem lad_vac {p : Nat} (hp : p < N) : lad (R := R) (N := N) true p vac = 0 := by
  funext s
  rw [lad_apply]
  by_cases h : s.getLsbD p = !true
  · rw [if_pos h, vac, Pi.single_eq_of_ne (flip_ne_zero hp h), mul_zero]
    rfl
  · rw [if_neg h]; rfl

theorem vacuum_lad : Vacuum (R := R) N (lad (R := R) (N := N) false) (lad true) vev where
  anti i j hi hj := by
    by_cases h : i = j
    · subst h; rw [if_pos rfl]; exact lad_pair hi
    · rw [if_neg h, zero_sub]; exact lad_anti hi hj h
  right i x hi := by
    change (x * lad true i : Module.End R (Fk R N)) vac 0 = 0
    rw [Module.End.mul_apply, lad_vac hi, map_zero]; rfl
  left i x hi := by
    change (lad false i * x : Module.End R (Fk R N)) vac 0 = 0
    rw [Module.End.mul_apply, lad_apply, if_neg (by simp)]
  one := by
    change (1 : Module.End R (Fk R N)) vac 0 = 1
    simp [vac]

/-- scalar product -/
noncomputable def dot (x y : Fk R N) : R := ∑ s, x s * y s

theorem dot_single (s : BitVec N) (y : Fk R N) : dot (Pi.single s 1) y = y s := by
  unfold dot
  rw [Finset.sum_eq_single s]
  · simp
  · intro t _ h; rw [Pi.single_eq_of_ne h, zero_mul]
  · simp

theorem lad_adjoint {p : Nat} (hp : p < N) (b : Bool) (x y : Fk R N) :
    dot (lad (!b) p x) y = dot x (lad b p y) := by
  unfold dot
  refine Finset.sum_nbij' (fun s => flip s p) (fun s => flip s p) (by simp) (by simp)
    (fun s _ => flip_flip s p) (fun s _ => flip_flip s p) fun s _ => ?_
  rw [lad_apply, lad_apply, bit_flip_self hp, flip_flip, below_flip_le (Nat.le_refl p)]
  cases b <;> cases s.getLsbD p <;> simp <;> ring

/-- creation operators `c` are adjoint to `d` -/
def Adjoint (c d : Nat → Module.End R (Fk R N)) : Prop :=
  ∀ i, i < N → ∀ x y, dot (c i x) y = dot x (d i y)

/-- the determinant built from the vacuum by the creation operators in the list -/
def state (c : Nat → Module.End R (Fk R N)) (L : List Nat) : Fk R N := (L.map c).prod vac

theorem state_cons (c : Nat → Module.End R (Fk R N)) (i : Nat) (L : List Nat) :
    state c (i :: L) = c i (state c L) := by
  simp [state, Module.End.mul_apply]

theorem dot_state {c d : Nat → Module.End R (Fk R N)} (h : Adjoint c d) :
    ∀ (L : List Nat), (∀ i ∈ L, i < N) → ∀ y, dot (state c L) y = ((L.reverse.map d).prod y) 0 := by
  intro L
  induction L with
  | nil => intro _ y; simp [state, vac, dot_single]
  | cons i L ih =>
    intro hL y
    rw [state_cons, h i (hL i (by simp)), ih (fun j hj => hL j (by simp [hj]))]
    simp [Module.End.mul_apply]

/-- matrix elements of a word between determinants are vacuum expectation values of a longer word -/
theorem dot_word {c d : Nat → Module.End R (Fk R N)} (h : Adjoint c d) {L K : List Nat} (hL : ∀ i ∈ L, i < N)
    (w : List (Bool × Nat)) :
    dot (state c L) (word c d w (state c K)) =
      vev (word c d (L.reverse.map (Prod.mk false) ++ w ++ K.map (Prod.mk true))) := by
  rw [dot_state h L hL]
  change _ = (word c d _ vac) 0
  have e1 : word c d (L.reverse.map (Prod.mk false)) = (L.reverse.map d).prod := by
    simp only [word, List.map_map]
    congr 1
  have e2 : word c d (K.map (Prod.mk true)) = (K.map c).prod := by
    simp only [word, List.map_map]
    congr 1
  rw [word_append, word_append, e1, e2, Module.End.mul_apply, Module.End.mul_apply]
  rfl

/-- Two sets of ladder operators with the same anticommutation relations and the same vacuum have the same
matrix elements. -/
theorem same_elements {c d c' d' : Nat → Module.End R (Fk R N)} (ha : Adjoint c d) (ha' : Adjoint c' d')
    (h : Vacuum (R := R) N c d vev) (h' : Vacuum (R := R) N c' d' vev) {L K : List Nat} (hL : ∀ i ∈ L, i < N)
    (hK : ∀ i ∈ K, i < N) {w : List (Bool × Nat)} (hw : ∀ x ∈ w, x.2 < N) :
    dot (state c L) (word c d w (state c K)) = dot (state c' L) (word c' d' w (state c' K)) := by
  rw [dot_word ha hL, dot_word ha' hL]
  refine wick h h' _ _ le_rfl fun x hx => ?_
  simp only [List.mem_append, List.mem_map, List.mem_reverse] at hx
  rcases hx with (⟨i, hi, rfl⟩ | hx) | ⟨i, hi, rfl⟩
  · exact hL i hi
  · exact hw x hx
  · exact hK i hi

/-! ### rotated operators -/

/-- `sum_Q U(Q,P) a_Q` (or its adjoint) -/
def rot (U : Nat → Nat → R) (b : Bool) (P : Nat) : Module.End R (Fk R N) :=
  ∑ Q ∈ range N, U Q P • lad b Q

theorem rot_adjoint (U : Nat → Nat → R) : Adjoint (rot (N := N) U false) (rot U true) := by
  intro i _ x y
  have e1 : dot (rot U false i x) y = ∑ Q ∈ range N, U Q i * dot (lad false Q x) y := by
    unfold dot rot
    simp only [LinearMap.sum_apply, Finset.sum_apply, LinearMap.smul_apply, Pi.smul_apply, smul_eq_mul,
      Finset.sum_mul, Finset.mul_sum]
    rw [Finset.sum_comm]
    exact Finset.sum_congr rfl fun Q _ => Finset.sum_congr rfl fun s _ => by ring
  have e2 : dot x (rot U true i y) = ∑ Q ∈ range N, U Q i * dot x (lad true Q y) := by
    unfold dot rot
    simp only [LinearMap.sum_apply, Finset.sum_apply, LinearMap.smul_apply, Pi.smul_apply, smul_eq_mul,
      Finset.mul_sum]
    rw [Finset.sum_comm]
    exact Finset.sum_congr rfl fun Q _ => Finset.sum_congr rfl fun s _ => by ring
  rw [e1, e2]
  refine Finset.sum_congr rfl fun Q hQ => ?_
  rw [← lad_adjoint (Finset.mem_range.1 hQ) true]
  rfl

theorem rot_vacuum {U : Nat → Nat → R}
    (hU : ∀ P P', P < N → P' < N → ∑ Q ∈ range N, U Q P * U Q P' = if P = P' then 1 else 0) :
    Vacuum (R := R) N (rot (N := N) U false) (rot U true) vev where
  anti i j hi hj := by
    have h : ∀ Q ∈ range N, ∀ Q' ∈ range N, (U Q i • (lad true Q : Module.End R (Fk R N))) * (U Q' j • lad false Q') =
        (if Q = Q' then (U Q i * U Q' j) • (1 : Module.End R (Fk R N)) else 0) -
          (U Q' j • lad false Q') * (U Q i • lad true Q) := by
      intro Q hQ Q' hQ'
      rw [Finset.mem_range] at hQ hQ'
      rw [smul_mul_smul_comm, smul_mul_smul_comm, vacuum_lad.anti Q Q' hQ hQ', smul_sub, mul_comm (U Q' j)]
      by_cases e : Q = Q' <;> simp [e]
    unfold rot
    rw [Finset.sum_mul_sum, Finset.sum_congr rfl fun Q hQ => Finset.sum_congr rfl fun Q' hQ' => h Q hQ Q' hQ']
    simp only [Finset.sum_sub_distrib]
    congr 1
    · rw [Finset.sum_congr rfl fun Q hQ => by rw [Finset.sum_ite_eq, if_pos hQ], ← Finset.sum_smul, hU i j hi hj]
      by_cases e : i = j <;> simp [e]
    · rw [Finset.sum_mul_sum, Finset.sum_comm]
  right i x hi := by
    unfold rot
    rw [Finset.mul_sum, map_sum]
    refine Finset.sum_eq_zero fun Q hQ => ?_
    rw [mul_smul_comm, map_smul, vacuum_lad.right Q x (Finset.mem_range.1 hQ), smul_zero]
  left i x hi := by
    unfold rot
    rw [Finset.sum_mul, map_sum]
    refine Finset.sum_eq_zero fun Q hQ => ?_
    rw [smul_mul_assoc, map_smul, vacuum_lad.left Q x (Finset.mem_range.1 hQ), smul_zero]
  one := vacuum_lad.one

/-- ascending list of the occupied orbitals -/
def occList (s : BitVec N) : List Nat := (List.range N).filter fun i => s.getLsbD i

theorem occList_lt (s : BitVec N) : ∀ i ∈ occList s, i < N := by
  intro i hi
  simp [occList] at hi
  exact hi.1

theorem lad_single (b : Bool) {p : Nat} (hp : p < N) (s : BitVec N) :
    lad (R := R) b p (Pi.single s 1) = if s.getLsbD p = b then ((-1 : R) ^ below s p) • Pi.single (flip s p) 1 else 0 := by
  funext t
  rw [lad_apply]
  by_cases e : flip t p = s
  · subst e
    rw [bit_flip_self hp, flip_flip, below_flip_le (Nat.le_refl p)]
    cases b <;> cases t.getLsbD p <;> simp
  · have e' : t ≠ flip s p := by rintro rfl; exact e (flip_flip s p)
    rw [Pi.single_eq_of_ne e]
    by_cases h : s.getLsbD p = b
    · rw [if_pos h, Pi.smul_apply, Pi.single_eq_of_ne e']; simp
    · rw [if_neg h]; simp

theorem state_single (s : BitVec N) : state (R := R) (lad false) (occList s) = Pi.single s 1 := by
  -- the orbitals `N - k, ..., N - 1`
  have key : ∀ k, k ≤ N → ∀ t : BitVec N, (∀ i, i < N - k → t.getLsbD i = false) →
      (∀ i, N - k ≤ i → t.getLsbD i = s.getLsbD i) →
      state (R := R) (lad false) ((List.range' (N - k) k).filter fun i => s.getLsbD i) = Pi.single t 1 := by
    intro k
    induction k with
    | zero =>
      intro _ t h0 _
      have : t = 0 := BitVec.eq_of_getLsbD_eq fun i hi => by rw [h0 i (by omega)]; simp
      subst this
      simp [state, vac]
    | succ k ih =>
      intro hk t h0 h1
      have e : N - (k + 1) + 1 = N - k := by omega
      have hp : N - (k + 1) < N := by omega
      rw [List.range'_succ, e]
      set p := N - (k + 1) with hpdef
      by_cases hs : s.getLsbD p = true
      · rw [List.filter_cons_of_pos (by simpa using hs), state_cons,
          ih (by omega) (flip t p) (fun i hi => ?_) (fun i hi => ?_), lad_single false hp]
        · have ht : t.getLsbD p = true := by rw [h1 p (by omega), hs]
          rw [bit_flip_self hp, ht, if_pos (by simp), flip_flip]
          have : below (flip t p) p = 0 := by
            rw [below_flip_le (Nat.le_refl p), below, List.length_eq_zero_iff, List.filter_eq_nil_iff]
            intro i hi
            rw [List.mem_range] at hi
            simp [h0 i (by omega)]
          rw [this]; simp
        · by_cases e' : i = p
          · subst e'; rw [bit_flip_self hp, h1 p (by omega), hs]; rfl
          · rw [bit_flip hp e', h0 i (by omega)]
        · rw [bit_flip hp (by omega), h1 i (by omega)]
      · rw [List.filter_cons_of_neg (by simpa using hs)]
        refine ih (by omega) t (fun i hi => ?_) (fun i hi => h1 i (by omega))
        by_cases e' : i = p
        · subst e'; rw [h1 p (by omega)]; simpa using hs
        · exact h0 i (by omega)
  have := key N le_rfl s (by intro i hi; omega) (fun _ _ => rfl)
  rw [Nat.sub_self, ← List.range_eq_range'] at this
  exact this

/-- the vector a specification vector stands for -/
def toVec (o : Option (Int × BitVec N)) : Fk R N :=
  match o with
  | none => 0
  | some (a, s) => (a : R) • Pi.single s 1

theorem toVec_amp (bra : BitVec N) (o : Option (Int × BitVec N)) : ((amp bra o : Int) : R) = toVec o bra := by
  match o with
  | none => simp [amp, toVec]
  | some (a, s) =>
    by_cases h : s = bra
    · subst h; simp [amp, toVec]
    · simp [amp, toVec, h, Pi.single_eq_of_ne (Ne.symm h)]

theorem toVec_ladder (b : Bool) {p : Nat} (hp : p < N) (o : Option (Int × BitVec N)) :
    toVec (R := R) (ladder b p o) = lad b p (toVec o) := by
  match o with
  | none => simp [ladder, toVec]
  | some (a, s) =>
    simp only [toVec, map_smul, lad_single b hp, ladder]
    by_cases h : s.getLsbD p = b
    · simp only [h, if_true]
      rw [smul_smul, mul_comm]
      congr 1
      push_cast
      rfl
    · simp [h]

theorem amp1_op {bra ket : BitVec N} {P Q : Nat} (hP : P < N) (hQ : Q < N) :
    ((amp1 bra ket P Q : Int) : R) = (word (lad false) (lad true) [(true, P), (false, Q)] (Pi.single ket 1)) bra := by
  rw [amp1, toVec_amp, ann_eq_ladder, cre_eq_ladder hP, toVec_ladder _ hP, toVec_ladder _ hQ]
  simp [word, toVec, Module.End.mul_apply]

theorem amp2_op {bra ket : BitVec N} {P Q P' Q' : Nat} (hP : P < N) (hQ : Q < N) (hP' : P' < N) (hQ' : Q' < N) :
    ((amp2 bra ket P P' Q' Q : Int) : R) =
      (word (lad false) (lad true) [(true, P), (true, P'), (false, Q'), (false, Q)] (Pi.single ket 1)) bra := by
  rw [amp2_ladder hP hP', toVec_amp, toVec_ladder _ hP, toVec_ladder _ hP', toVec_ladder _ hQ', toVec_ladder _ hQ]
  simp [word, toVec, Module.End.mul_apply]

end Macis
