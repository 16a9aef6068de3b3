import Verif.Lemmas.Rotate
import Verif.Spec.Sector
import Mathlib.Tactic.Abel
import Mathlib.Tactic.FieldSimp
/-! Rotating the orbitals: the Hamiltonian over rotated integrals is the Hamiltonian in rotated ladder operators. -/
namespace Macis
open Spec Finset

variable {R : Type} [Field R] {M : Nat}

theorem sum_so (f : Nat → R) : ∑ Q ∈ range (2 * M), f Q = ∑ τ : Bool, ∑ q ∈ range M, f (so M τ q) := by
  rw [two_mul, Finset.sum_range_add]
  simp [so, add_comm]

theorem sum_so' {A : Type} [AddCommMonoid A] (f : Nat → A) :
    ∑ Q ∈ range (2 * M), f Q = ∑ τ : Bool, ∑ q ∈ range M, f (so M τ q) := by
  rw [two_mul, Finset.sum_range_add]
  simp [so, add_comm]

/-- the rotation of `no` orbitals extended by the identity -/
def ext (no : Nat) (C : Nat → Nat → R) (q p : Nat) : R :=
  if q < no ∧ p < no then C q p else if q = p then 1 else 0

/-- the same rotation of both spins, as a matrix over spin orbitals -/
def spinRot (M no : Nat) (C : Nat → Nat → R) (Q P : Nat) : R :=
  if (Q < M ↔ P < M) then ext no C (if Q < M then Q else Q - M) (if P < M then P else P - M) else 0

theorem spinRot_so {no : Nat} (C : Nat → Nat → R) (σ τ : Bool) {p q : Nat} (hp : p < M) (hq : q < M) :
    spinRot M no C (so M τ q) (so M σ p) = if τ = σ then ext no C q p else 0 := by
  cases σ <;> cases τ <;> simp [spinRot, so, hp, hq]

theorem spinOrb_lt {σ : Bool} {p : Nat} (hp : p < M) : so M σ p < 2 * M := by
  cases σ <;> simp [so] <;> omega

theorem exists_so {P : Nat} (hP : P < 2 * M) : ∃ σ p, p < M ∧ P = so M σ p := by
  by_cases h : P < M
  · exact ⟨false, P, h, by simp [so]⟩
  · exact ⟨true, P - M, by omega, by simp [so]; omega⟩

theorem so_inj {σ τ : Bool} {p q : Nat} (hp : p < M) (hq : q < M) : so M σ p = so M τ q ↔ σ = τ ∧ p = q := by
  cases σ <;> cases τ <;> simp [so] <;> omega

theorem ext_ortho {no : Nat} (hn : no ≤ M) {C : Nat → Nat → R}
    (hC : ∀ p q, p < no → q < no → ∑ i ∈ range no, C i p * C i q = if p = q then 1 else 0)
    {p q : Nat} (hp : p < M) (hq : q < M) :
    ∑ i ∈ range M, ext no C i p * ext no C i q = if p = q then 1 else 0 := by
  obtain ⟨d, rfl⟩ : ∃ d, M = no + d := ⟨M - no, by omega⟩
  rw [Finset.sum_range_add]
  by_cases h1 : p < no <;> by_cases h2 : q < no
  · rw [Finset.sum_congr rfl fun i hi => by
      rw [ext, ext, if_pos ⟨Finset.mem_range.1 hi, h1⟩, if_pos ⟨Finset.mem_range.1 hi, h2⟩], hC p q h1 h2,
      Finset.sum_eq_zero, add_zero]
    intro i _
    rw [ext, if_neg (by omega), if_neg (by omega), zero_mul]
  · rw [Finset.sum_eq_zero, Finset.sum_eq_zero, if_neg (by omega), add_zero]
    · intro i _
      rw [ext, if_neg (by omega), if_neg (by omega), zero_mul]
    · intro i hi
      rw [Finset.mem_range] at hi
      rw [mul_comm, ext, if_neg (by omega), if_neg (by omega), zero_mul]
  · rw [Finset.sum_eq_zero, Finset.sum_eq_zero, if_neg (by omega), add_zero]
    · intro i _
      rw [mul_comm, ext, if_neg (by omega), if_neg (by omega), zero_mul]
    · intro i hi
      rw [Finset.mem_range] at hi
      rw [ext, if_neg (by omega), if_neg (by omega), zero_mul]
  · rw [Finset.sum_eq_zero, zero_add, Finset.sum_eq_single (p - no)]
    · have e1 : ext no C (no + (p - no)) p = 1 := by rw [ext, if_neg (by omega), if_pos (by omega)]
      have e2 : ext no C (no + (p - no)) q = if p = q then 1 else 0 := by
        rw [ext, if_neg (by omega)]
        congr 1
        simp only [eq_iff_iff]
        omega
      rw [e1, e2, one_mul]
    · intro i _ hi
      rw [ext, if_neg (by omega), if_neg (by omega), zero_mul]
    · intro h
      rw [Finset.mem_range] at h
      omega
    · intro i hi
      rw [Finset.mem_range] at hi
      rw [ext, if_neg (by omega), if_neg (by omega), zero_mul]

theorem spinRot_ortho {no : Nat} (hn : no ≤ M) {C : Nat → Nat → R}
    (hC : ∀ p q, p < no → q < no → ∑ i ∈ range no, C i p * C i q = if p = q then 1 else 0)
    (P P' : Nat) (hP : P < 2 * M) (hP' : P' < 2 * M) :
    ∑ Q ∈ range (2 * M), spinRot M no C Q P * spinRot M no C Q P' = if P = P' then 1 else 0 := by
  obtain ⟨σ, p, hp, rfl⟩ := exists_so hP
  obtain ⟨τ, q, hq, rfl⟩ := exists_so hP'
  rw [sum_so]
  simp only [so_inj hp hq]
  have e : ∀ ρ : Bool, ∑ i ∈ range M, spinRot M no C (so M ρ i) (so M σ p) * spinRot M no C (so M ρ i) (so M τ q) =
      if ρ = σ ∧ ρ = τ then (if p = q then 1 else 0) else 0 := by
    intro ρ
    rw [Finset.sum_congr rfl fun i hi => by
      rw [spinRot_so C σ ρ hp (Finset.mem_range.1 hi), spinRot_so C τ ρ hq (Finset.mem_range.1 hi)]]
    by_cases h1 : ρ = σ <;> by_cases h2 : ρ = τ
    · subst h1 h2
      simp only [if_true, and_self]
      exact ext_ortho hn hC hp hq
    · simp [h2]
    · simp [h1]
    · simp [h1]
  simp only [e]
  cases σ <;> cases τ <;> simp

/-- a rotated operator of one of the rotated orbitals -/
theorem rot_so {no : Nat} (hn : no ≤ M) (C : Nat → Nat → R) (b σ : Bool) {p : Nat} (hp : p < no) :
    rot (N := 2 * M) (spinRot M no C) b (so M σ p) = ∑ q ∈ range no, C q p • lad b (so M σ q) := by
  unfold rot
  rw [sum_so']
  have e : ∀ ρ : Bool, ∑ q ∈ range M, spinRot M no C (so M ρ q) (so M σ p) • (lad b (so M ρ q) : Module.End R (Fk R (2 * M))) =
      if ρ = σ then ∑ q ∈ range no, C q p • lad b (so M σ q) else 0 := by
    intro ρ
    rw [Finset.sum_congr rfl fun i hi => by
      rw [spinRot_so C σ ρ (by omega) (Finset.mem_range.1 hi)]]
    by_cases h : ρ = σ
    · subst h
      simp only [if_true]
      refine (Finset.sum_subset (Finset.range_subset_range.2 hn) ?_).symm.trans ?_
      · intro i _ hi
        rw [Finset.mem_range] at hi
        rw [ext, if_neg (by omega), if_neg (by omega), zero_smul]
      · refine Finset.sum_congr rfl fun i hi => ?_
        rw [ext, if_pos ⟨Finset.mem_range.1 hi, hp⟩]
    · simp [h]
  simp only [e]
  cases σ <;> simp

/-- orthonormal columns make orthonormal rows -/
theorem rows_ortho {no : Nat} {C : Nat → Nat → R}
    (hC : ∀ p q, p < no → q < no → ∑ i ∈ range no, C i p * C i q = if p = q then 1 else 0)
    {i j : Nat} (hi : i < no) (hj : j < no) : ∑ p ∈ range no, C i p * C j p = if i = j then 1 else 0 := by
  let A : Matrix (Fin no) (Fin no) R := fun x y => C x y
  have h : A.transpose * A = 1 := by
    ext x y
    rw [Matrix.mul_apply, Matrix.one_apply]
    have := hC x y x.2 y.2
    rw [Finset.sum_range] at this
    refine Eq.trans this ?_
    simp [Fin.ext_iff]
  have h' := mul_eq_one_comm.1 h
  have := congrFun (congrFun h' ⟨i, hi⟩) ⟨j, hj⟩
  rw [Matrix.mul_apply, Matrix.one_apply] at this
  rw [Finset.sum_range]
  refine Eq.trans this ?_
  simp [Fin.ext_iff]

/-- rotating back -/
theorem rot_back {no : Nat} (hn : no ≤ M) {C : Nat → Nat → R}
    (hC : ∀ p q, p < no → q < no → ∑ i ∈ range no, C i p * C i q = if p = q then 1 else 0)
    (b σ : Bool) {i : Nat} (hi : i < no) :
    ∑ p ∈ range no, C i p • rot (N := 2 * M) (spinRot M no C) b (so M σ p) = lad b (so M σ i) := by
  rw [Finset.sum_congr rfl fun p hp => by rw [rot_so hn C b σ (Finset.mem_range.1 hp), Finset.smul_sum]]
  rw [Finset.sum_comm]
  rw [Finset.sum_eq_single i]
  · simp only [smul_smul, ← Finset.sum_smul]
    rw [rows_ortho hC hi hi, if_pos rfl, one_smul]
  · intro j hj hne
    simp only [smul_smul, ← Finset.sum_smul]
    rw [rows_ortho hC hi (Finset.mem_range.1 hj), if_neg (Ne.symm hne), zero_smul]
  · intro h; exact absurd (Finset.mem_range.2 hi) h

/-! ### the Hamiltonian as an operator -/

/-- the electronic Hamiltonian in given ladder operators -/
def hOp (I : Integrals R) (c d : Nat → Module.End R (Fk R (2 * M))) : Module.End R (Fk R (2 * M)) :=
  (∑ σ : Bool, ∑ p ∈ range I.norb, ∑ q ∈ range I.norb, I.T p q • word c d [(true, so M σ p), (false, so M σ q)]) +
  (2⁻¹ : R) • ∑ σ : Bool, ∑ τ : Bool, ∑ p ∈ range I.norb, ∑ q ∈ range I.norb, ∑ r ∈ range I.norb,
    ∑ s ∈ range I.norb, I.V p q r s • word c d [(true, so M σ p), (true, so M τ r), (false, so M τ s), (false, so M σ q)]

theorem hamiltonian_op (I : Integrals R) (hn : I.norb ≤ M) (bra ket : BitVec (2 * M)) :
    hamiltonian I bra ket = hOp I (lad false) (lad true) (Pi.single ket 1) bra := by
  unfold hamiltonian hOp
  simp only [LinearMap.add_apply, LinearMap.smul_apply, LinearMap.sum_apply, Pi.add_apply, Pi.smul_apply,
    Finset.sum_apply, smul_eq_mul]
  have L : ∀ {σ : Bool} {p : Nat}, p ∈ range I.norb → so M σ p < 2 * M := fun {σ p} h =>
    spinOrb_lt (by rw [Finset.mem_range] at h; omega)
  refine congrArg₂ (· + ·) ?_ ?_
  · refine Finset.sum_congr rfl fun σ _ => Finset.sum_congr rfl fun p hp => Finset.sum_congr rfl fun q hq => ?_
    rw [amp1_op (L hp) (L hq)]
  · refine congrArg ((2⁻¹ : R) * ·) ?_
    refine Finset.sum_congr rfl fun σ _ => Finset.sum_congr rfl fun τ _ => Finset.sum_congr rfl fun p hp =>
      Finset.sum_congr rfl fun q hq => Finset.sum_congr rfl fun r hr => Finset.sum_congr rfl fun s hs => ?_
    rw [amp2_op (L hp) (L hq) (L hr) (L hs)]

/-- integrals over rotated orbitals -/
def rotInts (I : Integrals R) (C : Nat → Nat → R) : Integrals R where
  norb := I.norb
  T p q := ∑ i ∈ range I.norb, ∑ j ∈ range I.norb, C i p * C j q * I.T i j
  V p q r s := ∑ i ∈ range I.norb, ∑ j ∈ range I.norb, ∑ k ∈ range I.norb, ∑ l ∈ range I.norb,
    C i p * C j q * C k r * C l s * I.V i j k l

variable {A : Type} [Ring A] [Algebra R A]

theorem bilin (n : Nat) (C : Nat → Nat → R) (T : Nat → Nat → R) (f g : Nat → A) :
    ∑ p ∈ range n, ∑ q ∈ range n, (∑ i ∈ range n, ∑ j ∈ range n, C i p * C j q * T i j) • (f p * g q) =
    ∑ i ∈ range n, ∑ j ∈ range n, T i j • ((∑ p ∈ range n, C i p • f p) * ∑ q ∈ range n, C j q • g q) := by
  simp only [Finset.sum_mul_sum, Finset.sum_smul, Finset.smul_sum]
  have e1 : ∀ F : Nat → Nat → A, ∑ p ∈ range n, ∑ q ∈ range n, F p q = ∑ x ∈ range n ×ˢ range n, F x.1 x.2 := by
    intro F
    rw [Finset.sum_product]
  simp only [e1]
  rw [Finset.sum_comm]
  refine Finset.sum_congr rfl fun x _ => Finset.sum_congr rfl fun y _ => ?_
  rw [smul_mul_smul_comm, smul_smul]
  congr 1
  ring

theorem four_sums (n : Nat) (a b c d : Nat → A) :
    (∑ p ∈ range n, a p) * ((∑ r ∈ range n, b r) * ((∑ s ∈ range n, c s) * ∑ q ∈ range n, d q)) =
    ∑ p ∈ range n, ∑ r ∈ range n, ∑ s ∈ range n, ∑ q ∈ range n, a p * (b r * (c s * d q)) := by
  rw [Finset.sum_mul]
  refine Finset.sum_congr rfl fun p _ => ?_
  rw [Finset.sum_mul, Finset.mul_sum]
  refine Finset.sum_congr rfl fun r _ => ?_
  rw [Finset.sum_mul, Finset.mul_sum, Finset.mul_sum]
  refine Finset.sum_congr rfl fun s _ => ?_
  rw [Finset.mul_sum, Finset.mul_sum, Finset.mul_sum]

theorem quadlin (n : Nat) (C : Nat → Nat → R) (V : Nat → Nat → Nat → Nat → R) (f g h k : Nat → A) :
    ∑ p ∈ range n, ∑ q ∈ range n, ∑ r ∈ range n, ∑ s ∈ range n,
      (∑ i ∈ range n, ∑ j ∈ range n, ∑ k ∈ range n, ∑ l ∈ range n,
        C i p * C j q * C k r * C l s * V i j k l) • (f p * (g r * (h s * k q))) =
    ∑ i ∈ range n, ∑ j ∈ range n, ∑ m ∈ range n, ∑ l ∈ range n, V i j m l •
      ((∑ p ∈ range n, C i p • f p) * ((∑ r ∈ range n, C m r • g r) * ((∑ s ∈ range n, C l s • h s) *
        ∑ q ∈ range n, C j q • k q))) := by
  simp only [four_sums, Finset.smul_sum, Finset.sum_smul]
  have e1 : ∀ F : Nat → Nat → Nat → Nat → A, ∑ p ∈ range n, ∑ q ∈ range n, ∑ r ∈ range n, ∑ s ∈ range n, F p q r s =
      ∑ x ∈ range n ×ˢ range n ×ˢ range n ×ˢ range n, F x.1 x.2.1 x.2.2.1 x.2.2.2 := by
    intro F
    simp only [Finset.sum_product]
  have e2 : ∀ F : Nat → Nat → Nat → Nat → A, ∑ p ∈ range n, ∑ r ∈ range n, ∑ s ∈ range n, ∑ q ∈ range n, F p q r s =
      ∑ x ∈ range n ×ˢ range n ×ˢ range n ×ˢ range n, F x.1 x.2.1 x.2.2.1 x.2.2.2 := by
    intro F
    rw [← e1]
    refine Finset.sum_congr rfl fun p _ => ?_
    rw [Finset.sum_comm (s := range n) (t := range n) (f := fun q r => ∑ s ∈ range n, F p q r s)]
    refine Finset.sum_congr rfl fun r _ => ?_
    rw [Finset.sum_comm]
  have e3 : ∀ i j m l, ∑ p ∈ range n, ∑ r ∈ range n, ∑ s ∈ range n, ∑ q ∈ range n,
      V i j m l • (C i p • f p * (C m r • g r * (C l s • h s * C j q • k q))) =
      ∑ x ∈ range n ×ˢ range n ×ˢ range n ×ˢ range n,
        V i j m l • (C i x.1 • f x.1 * (C m x.2.2.1 • g x.2.2.1 * (C l x.2.2.2 • h x.2.2.2 * C j x.2.1 • k x.2.1))) :=
    fun i j m l => e2 fun p q r s => V i j m l • (C i p • f p * (C m r • g r * (C l s • h s * C j q • k q)))
  simp only [e3, e1]
  rw [Finset.sum_comm]
  refine Finset.sum_congr rfl fun x _ => Finset.sum_congr rfl fun y _ => ?_
  rw [smul_mul_smul_comm, smul_mul_smul_comm, smul_mul_smul_comm, smul_smul]
  congr 1
  ring

/-- the Hamiltonian over rotated integrals in rotated operators is the Hamiltonian -/
theorem hOp_rot {I : Integrals R} (hn : I.norb ≤ M) {C : Nat → Nat → R}
    (hC : ∀ p q, p < I.norb → q < I.norb → ∑ i ∈ range I.norb, C i p * C i q = if p = q then 1 else 0) :
    hOp (rotInts I C) (rot (N := 2 * M) (spinRot M I.norb C) false) (rot (spinRot M I.norb C) true) =
      hOp I (lad false) (lad true) := by
  unfold hOp
  have B := fun (b σ : Bool) (i : Nat) (hi : i ∈ range I.norb) => rot_back hn hC b σ (Finset.mem_range.1 hi)
  refine congrArg₂ (· + ·) ?_ ?_
  · refine Finset.sum_congr rfl fun σ _ => ?_
    simp only [word, List.map_cons, List.map_nil, List.prod_cons, List.prod_nil, mul_one, Bool.false_eq_true,
      if_false, if_true, rotInts]
    rw [bilin]
    refine Finset.sum_congr rfl fun i hi => Finset.sum_congr rfl fun j hj => ?_
    rw [B false σ i hi, B true σ j hj]
  · refine congrArg ((2⁻¹ : R) • ·) ?_
    refine Finset.sum_congr rfl fun σ _ => Finset.sum_congr rfl fun τ _ => ?_
    simp only [word, List.map_cons, List.map_nil, List.prod_cons, List.prod_nil, mul_one, Bool.false_eq_true,
      if_false, if_true, rotInts]
    rw [quadlin]
    refine Finset.sum_congr rfl fun i hi => Finset.sum_congr rfl fun j hj => Finset.sum_congr rfl fun k hk =>
      Finset.sum_congr rfl fun l hl => ?_
    rw [B false σ i hi, B false τ k hk, B true τ l hl, B true σ j hj]

theorem dot_add (x y z : Fk R (2 * M)) : dot x (y + z) = dot x y + dot x z := by
  simp [dot, mul_add, Finset.sum_add_distrib]

theorem dot_smul (x y : Fk R (2 * M)) (a : R) : dot x (a • y) = a * dot x y := by
  simp only [dot, Pi.smul_apply, smul_eq_mul, Finset.mul_sum]
  exact Finset.sum_congr rfl fun s _ => by ring

theorem dot_sum {ι : Type} (t : Finset ι) (x : Fk R (2 * M)) (f : ι → Fk R (2 * M)) :
    dot x (∑ i ∈ t, f i) = ∑ i ∈ t, dot x (f i) := by
  simp only [dot, Finset.sum_apply, Finset.mul_sum]
  rw [Finset.sum_comm]

/-- the rotated determinants -/
def rotState (no : Nat) (C : Nat → Nat → R) (s : BitVec (2 * M)) : Fk R (2 * M) :=
  state (rot (spinRot M no C) false) (occList s)

theorem lad_adjoint' {N : Nat} : Adjoint (lad (R := R) (N := N) false) (lad true) := fun _ hi x y =>
  lad_adjoint hi true x y

theorem hsum_congr {I : Integrals R} (hn : I.norb ≤ M) (f g : List (Bool × Nat) → R)
    (h : ∀ w, (∀ x ∈ w, x.2 < 2 * M) → f w = g w) :
    (∑ σ : Bool, ∑ p ∈ range I.norb, ∑ q ∈ range I.norb, I.T p q * f [(true, so M σ p), (false, so M σ q)]) +
      2⁻¹ * ∑ σ : Bool, ∑ τ : Bool, ∑ p ∈ range I.norb, ∑ q ∈ range I.norb, ∑ r ∈ range I.norb,
        ∑ s ∈ range I.norb, I.V p q r s * f [(true, so M σ p), (true, so M τ r), (false, so M τ s), (false, so M σ q)] =
    (∑ σ : Bool, ∑ p ∈ range I.norb, ∑ q ∈ range I.norb, I.T p q * g [(true, so M σ p), (false, so M σ q)]) +
      2⁻¹ * ∑ σ : Bool, ∑ τ : Bool, ∑ p ∈ range I.norb, ∑ q ∈ range I.norb, ∑ r ∈ range I.norb,
        ∑ s ∈ range I.norb, I.V p q r s * g [(true, so M σ p), (true, so M τ r), (false, so M τ s), (false, so M σ q)] := by
  have S : ∀ {σ : Bool} {p : Nat}, p ∈ range I.norb → so M σ p < 2 * M := fun {σ p} h =>
    spinOrb_lt (by rw [Finset.mem_range] at h; omega)
  refine congrArg₂ (· + ·) ?_ ?_
  · refine Finset.sum_congr rfl fun σ _ => Finset.sum_congr rfl fun p hp => Finset.sum_congr rfl fun q hq => ?_
    rw [h]
    exact List.forall_mem_cons.2 ⟨S hp, List.forall_mem_cons.2 ⟨S hq, fun _ hx => absurd hx List.not_mem_nil⟩⟩
  · refine congrArg ((2⁻¹ : R) * ·) ?_
    refine Finset.sum_congr rfl fun σ _ => Finset.sum_congr rfl fun τ _ => Finset.sum_congr rfl fun p hp =>
      Finset.sum_congr rfl fun q hq => Finset.sum_congr rfl fun r hr => Finset.sum_congr rfl fun s hs => ?_
    rw [h]
    exact List.forall_mem_cons.2 ⟨S hp, List.forall_mem_cons.2 ⟨S hr, List.forall_mem_cons.2 ⟨S hs,
      List.forall_mem_cons.2 ⟨S hq, fun _ hx => absurd hx List.not_mem_nil⟩⟩⟩⟩

/-- matrix elements of the Hamiltonian, term by term -/
theorem dot_hOp (I : Integrals R) (c d : Nat → Module.End R (Fk R (2 * M))) (x y : Fk R (2 * M)) :
    dot x (hOp I c d y) =
    (∑ σ : Bool, ∑ p ∈ range I.norb, ∑ q ∈ range I.norb,
      I.T p q * dot x (word c d [(true, so M σ p), (false, so M σ q)] y)) +
      2⁻¹ * ∑ σ : Bool, ∑ τ : Bool, ∑ p ∈ range I.norb, ∑ q ∈ range I.norb, ∑ r ∈ range I.norb,
        ∑ s ∈ range I.norb, I.V p q r s *
          dot x (word c d [(true, so M σ p), (true, so M τ r), (false, so M τ s), (false, so M σ q)] y) := by
  unfold hOp
  simp only [LinearMap.add_apply, LinearMap.smul_apply, LinearMap.sum_apply, dot_add, dot_smul, dot_sum]

theorem hOp_elements {I : Integrals R} (hn : I.norb ≤ M) {c d c' d' : Nat → Module.End R (Fk R (2 * M))}
    (ha : Adjoint c d) (ha' : Adjoint c' d') (h : Vacuum (R := R) (2 * M) c d vev)
    (h' : Vacuum (R := R) (2 * M) c' d' vev) {L K : List Nat} (hL : ∀ i ∈ L, i < 2 * M)
    (hK : ∀ i ∈ K, i < 2 * M) :
    dot (state c L) (hOp I c d (state c K)) = dot (state c' L) (hOp I c' d' (state c' K)) := by
  rw [dot_hOp, dot_hOp]
  exact hsum_congr hn (fun w => dot (state c L) (word c d w (state c K)))
    (fun w => dot (state c' L) (word c' d' w (state c' K))) fun w hw => same_elements ha ha' h h' hL hK hw

/-- the rotated determinants are orthonormal -/
theorem rotState_ortho {no : Nat} (hn : no ≤ M) {C : Nat → Nat → R}
    (hC : ∀ p q, p < no → q < no → ∑ i ∈ range no, C i p * C i q = if p = q then 1 else 0)
    (s t : BitVec (2 * M)) : dot (rotState no C s) (rotState no C t) = if s = t then 1 else 0 := by
  have := same_elements (w := []) (rot_adjoint _) lad_adjoint' (rot_vacuum (spinRot_ortho hn hC))
    (vacuum_lad (R := R)) (occList_lt s) (occList_lt t) (by simp)
  simp only [word, List.map_nil, List.prod_nil, Module.End.one_apply] at this
  unfold rotState
  rw [this, state_single, state_single, dot_single, Pi.single_apply]

/-- matrix elements over rotated integrals are those of the Hamiltonian between rotated determinants -/
theorem hamiltonian_rot {I : Integrals R} (hn : I.norb ≤ M) {C : Nat → Nat → R}
    (hC : ∀ p q, p < I.norb → q < I.norb → ∑ i ∈ range I.norb, C i p * C i q = if p = q then 1 else 0)
    (s t : BitVec (2 * M)) :
    hamiltonian (rotInts I C) s t =
      ∑ m, ∑ n, rotState I.norb C s m * rotState I.norb C t n * hamiltonian I m n := by
  rw [hamiltonian_op (rotInts I C) hn, ← state_single t,
    ← dot_single s (hOp (rotInts I C) (lad false) (lad true) (state (lad false) (occList t))), ← state_single s,
    hOp_elements (I := rotInts I C) hn lad_adjoint' (rot_adjoint (spinRot M I.norb C)) vacuum_lad
      (rot_vacuum (spinRot_ortho hn hC)) (occList_lt s) (occList_lt t), hOp_rot hn hC]
  change dot (rotState I.norb C s) (hOp I (lad false) (lad true) (rotState I.norb C t)) = _
  have e : rotState I.norb C t = ∑ n, rotState I.norb C t n • Pi.single n (1 : R) := by
    funext m
    rw [Finset.sum_apply, Finset.sum_eq_single m]
    · simp
    · intro n _ hne; simp [Pi.single_eq_of_ne (Ne.symm hne)]
    · simp
  conv_lhs => rw [e, map_sum, dot_sum]
  rw [Finset.sum_comm]
  refine Finset.sum_congr rfl fun n _ => ?_
  rw [map_smul, dot_smul, dot, Finset.mul_sum]
  refine Finset.sum_congr rfl fun m _ => ?_
  rw [hamiltonian_op _ hn]
  ring

/-! ### conservation of electrons -/

theorem nel_flip {f g : Nat → Bool} {K p : Nat} (hp : p < K) (hf : f p = true) (hg : g p = false)
    (h : ∀ i, i ≠ p → f i = g i) :
    ((List.range K).filter f).length = ((List.range K).filter g).length + 1 := by
  induction K with
  | zero => omega
  | succ K ih =>
    rw [List.range_succ, List.filter_append, List.filter_append, List.length_append, List.length_append]
    by_cases e : p = K
    · subst e
      have : (List.range p).filter f = (List.range p).filter g :=
        List.filter_congr fun i hi => h i (by rw [List.mem_range] at hi; omega)
      rw [this]
      simp [hf, hg]
    · rw [ih (by omega)]
      have := h K (Ne.symm e)
      simp only [List.filter_cons, this, List.filter_nil]
      omega

/-- number of electrons of either spin -/
def spinEl (s : BitVec (2 * M)) (σ : Bool) : Nat := if σ then betaElectrons s else alphaElectrons s

theorem spinEl_flip {s : BitVec (2 * M)} {τ : Bool} {q : Nat} (hq : q < M) (h : s.getLsbD (so M τ q) = true) (σ : Bool) :
    spinEl s σ = spinEl (flip s (so M τ q)) σ + if τ = σ then 1 else 0 := by
  have hso : so M τ q < 2 * M := spinOrb_lt hq
  have same : ∀ i, i ≠ so M τ q → s.getLsbD i = (flip s (so M τ q)).getLsbD i := fun i hi => (bit_flip hso hi s).symm
  cases τ <;> cases σ
  · simp only [spinEl, alphaElectrons, so, Bool.false_eq_true, if_false, if_true] at h hso same ⊢
    exact nel_flip hq h (by rw [bit_flip_self hso, h]; rfl) same
  · simp only [spinEl, betaElectrons, so, Bool.false_eq_true, if_false, if_true, add_zero] at h same ⊢
    congr 1
    refine List.filter_congr fun i hi => same _ (by omega)
  · simp only [spinEl, alphaElectrons, so, Bool.false_eq_true, if_false, if_true, Bool.true_eq_false, add_zero] at h same ⊢
    congr 1
    refine List.filter_congr fun i hi => same _ ?_
    rw [List.mem_range] at hi
    omega
  · simp only [spinEl, betaElectrons, so, if_true] at h hso same ⊢
    refine nel_flip (f := fun i => s.getLsbD (i + M)) (g := fun i => (flip s (q + M)).getLsbD (i + M)) hq h ?_ ?_
    · change (flip s (q + M)).getLsbD (q + M) = false
      rw [bit_flip_self hso, h]; rfl
    · intro i hi
      exact same _ (by omega)

theorem spinRot_ne {no : Nat} {C : Nat → Nat → R} {σ τ : Bool} {p q : Nat} (hp : p < no) (hpM : p < M) (hq : q < M)
    (h : spinRot M no C (so M τ q) (so M σ p) ≠ 0) : τ = σ ∧ q < no := by
  rw [spinRot_so C σ τ hpM hq] at h
  by_cases e : τ = σ
  · refine ⟨e, ?_⟩
    rw [if_pos e, ext] at h
    by_contra hc
    rw [if_neg (by omega), if_neg (by omega)] at h
    exact h rfl
  · rw [if_neg e] at h; exact absurd rfl h

/-- spin of a spin orbital -/
def spinOf (M : Nat) (i : Nat) : Bool := decide (M ≤ i)

theorem state_sector {no : Nat} (hn : no ≤ M) (C : Nat → Nat → R) :
    ∀ (L : List Nat), (∀ i ∈ L, ∃ σ p, p < no ∧ i = so M σ p) → ∀ m : BitVec (2 * M),
      state (rot (spinRot M no C) false) L m ≠ 0 →
      InSpace no m ∧ ∀ σ, spinEl m σ = L.countP fun i => spinOf M i == σ := by
  intro L
  induction L with
  | nil =>
    intro _ m hm
    have : m = 0 := by
      by_contra h
      exact hm (Pi.single_eq_of_ne h 1)
    subst this
    refine ⟨⟨fun i _ h => by simp at h, fun i _ h => by simp at h⟩, fun σ => ?_⟩
    cases σ <;> simp [spinEl, alphaElectrons, betaElectrons]
  | cons i L ih =>
    intro hL m hm
    obtain ⟨σ, p, hp, rfl⟩ := hL i (by simp)
    rw [state_cons, rot, LinearMap.sum_apply, Finset.sum_apply] at hm
    obtain ⟨Q, hQ, hne⟩ := Finset.exists_ne_zero_of_sum_ne_zero hm
    obtain ⟨τ, q, hq, rfl⟩ := exists_so (Finset.mem_range.1 hQ)
    rw [LinearMap.smul_apply, Pi.smul_apply, smul_eq_mul, lad_apply] at hne
    have h1 := left_ne_zero_of_mul hne
    have h2 := right_ne_zero_of_mul hne
    obtain ⟨rfl, hqn⟩ := spinRot_ne hp (by omega) hq h1
    by_cases hb : m.getLsbD (so M τ q) = !false
    swap
    · rw [if_neg hb] at h2; exact absurd rfl h2
    rw [if_pos hb] at h2
    have h3 := right_ne_zero_of_mul h2
    obtain ⟨hin, hcnt⟩ := ih (fun j hj => hL j (by simp [hj])) _ h3
    have hso : so M τ q < 2 * M := spinOrb_lt hq
    refine ⟨⟨fun j hj hbj => ?_, fun j hj hbj => ?_⟩, fun ρ => ?_⟩
    · by_cases e : j = so M τ q
      · have : so M false j = so M τ q := by simpa [so] using e
        rw [so_inj hj hq] at this
        omega
      · exact hin.1 j hj (by rw [bit_flip hso e]; exact hbj)
    · by_cases e : j + M = so M τ q
      · have : so M true j = so M τ q := by simpa [so] using e
        rw [so_inj hj hq] at this
        omega
      · exact hin.2 j hj (by rw [bit_flip hso e]; exact hbj)
    · rw [spinEl_flip hq hb ρ, hcnt ρ, List.countP_cons]
      congr 1
      have : spinOf M (so M τ p) = τ := by
        cases τ <;> simp [spinOf, so]
        omega
      rw [this]
      cases τ <;> cases ρ <;> rfl

theorem occ_countP (t : BitVec (2 * M)) (σ : Bool) :
    ((occList t).countP fun i => spinOf M i == σ) = spinEl t σ := by
  have e : List.range (2 * M) = List.range M ++ (List.range M).map (· + M) := by
    rw [two_mul, List.range_add]
    congr 1
    exact List.map_congr_left fun i _ => Nat.add_comm _ _
  unfold occList
  rw [List.countP_filter, e, List.countP_append, List.countP_map]
  have c1 : ∀ i ∈ List.range M, spinOf M i = false := by
    intro i hi
    rw [List.mem_range] at hi
    simp [spinOf]; omega
  cases σ
  · simp only [spinEl, alphaElectrons, Bool.false_eq_true, if_false]
    rw [← List.countP_eq_length_filter]
    have z : (List.range M).countP ((fun i => (spinOf M i == false) && t.getLsbD i) ∘ (· + M)) = 0 := by
      rw [List.countP_eq_zero]
      intro i _
      simp [spinOf]
    rw [z, add_zero]
    refine List.countP_congr fun i hi => ?_
    simp [c1 i hi]
  · simp only [spinEl, betaElectrons, if_true]
    rw [← List.countP_eq_length_filter]
    have z : (List.range M).countP (fun i => (spinOf M i == true) && t.getLsbD i) = 0 := by
      rw [List.countP_eq_zero]
      intro i hi
      simp [c1 i hi]
    rw [z, zero_add]
    refine List.countP_congr fun i hi => ?_
    simp [spinOf]

/-- a rotated determinant stays in its sector -/
theorem rotState_sector {no : Nat} (hn : no ≤ M) (C : Nat → Nat → R) {t m : BitVec (2 * M)} (ht : InSpace no t)
    (h : rotState no C t m ≠ 0) : InSpace no m ∧ SameSector m t := by
  have key : ∀ i ∈ occList t, ∃ σ p, p < no ∧ i = so M σ p := by
    intro i hi
    simp only [occList, List.mem_filter, List.mem_range] at hi
    obtain ⟨σ, p, hp, rfl⟩ := exists_so hi.1
    refine ⟨σ, p, ?_, rfl⟩
    cases σ
    · exact ht.1 p hp (by simpa [so] using hi.2)
    · exact ht.2 p hp (by simpa [so] using hi.2)
  obtain ⟨h1, h2⟩ := state_sector hn C (occList t) key m h
  have e := fun σ => (h2 σ).trans (occ_countP t σ)
  exact ⟨h1, e false, e true⟩

end Macis
