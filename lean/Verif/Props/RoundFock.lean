import Verif.Props.OrbRot
import Verif.Model.RoundFock
import Verif.Spec.RoundFock
import Verif.Props.RoundTransform
import Verif.Props.RoundHam
import Verif.Props.Fock
/-! Property C179: the frozen core and the Fock matrices in floating point arithmetic. -/
namespace Macis
open Spec Finset
open Integrals (accR)

variable {rnd : ℝ → ℝ} {u : ℝ} {dot : Kernel}

/-! ### sums -/

theorem Near.acc {α : Type} (hr : RoundsTo rnd u) {f F B : α → ℝ} {c : Nat} (l : List α)
    (hf : ∀ x ∈ l, Near u c (B x) (f x) (F x)) : ∀ {k : Nat} {A h H : ℝ}, c ≤ k → Near u k A h H →
    Near u (k + l.length) (A + (l.map B).sum) (accR rnd f h l) (H + (l.map F).sum) := by
  induction l with
  | nil => intro k A h H hk n; simpa [accR] using n
  | cons x l ih =>
    intro k A h H hk n
    have s := ((n.add' hr.nonneg ((hf x (by simp)).mono hr.nonneg hk le_rfl)).round hr)
    have := ih (fun y hy => hf y (by simp [hy])) (by omega) s
    rw [List.map_cons, List.sum_cons, List.map_cons, List.sum_cons, List.length_cons, ← add_assoc, ← add_assoc, ← add_assoc H,
      show k + l.length + 1 = k + 1 + l.length by ring]
    exact this

theorem near_zero (u : ℝ) (k : Nat) : Near u k 0 0 0 := by
  refine ⟨?_, ?_⟩ <;> simp

theorem near_exact (x : ℝ) : Near u 0 |x| x x := Near.exact le_rfl

/-- a sum from zero -/
theorem Near.acc0 {α : Type} (hr : RoundsTo rnd u) {f F B : α → ℝ} {c : Nat} (l : List α)
    (hf : ∀ x ∈ l, Near u c (B x) (f x) (F x)) :
    Near u (c + l.length) (l.map B).sum (accR rnd f 0 l) (l.map F).sum := by
  simpa using Near.acc hr l hf le_rfl (near_zero u c)

theorem Near.sub' (hu : 0 ≤ u) {k : Nat} {A a h H x X : ℝ} (n : Near u k A h H) (m : Near u k a x X) :
    Near u k (A + a) (h - x) (H - X) := by
  rw [sub_eq_add_neg, sub_eq_add_neg]
  exact n.add' hu m.neg

theorem length_pairsMN (m n : Nat) : (pairsMN m n).length = m * n := by simp [pairsMN]

theorem length_triples (n : Nat) : (triples n).length = n * n * n := by simp [triples, mul_assoc]

theorem sum_map_flatMap {α β : Type} (L : List α) (g : α → List β) (f : β → ℝ) :
    ((L.flatMap g).map f).sum = (L.map fun i => ((g i).map f).sum).sum := by
  induction L with
  | nil => rfl
  | cons a L ih => rw [List.flatMap_cons, List.map_append, List.sum_append, ih, List.map_cons, List.sum_cons]

theorem sum_pairsMN (m n : Nat) (f : Nat × Nat → ℝ) :
    ((pairsMN m n).map f).sum = ∑ i ∈ range m, ∑ j ∈ range n, f (i, j) := by
  rw [pairsMN, sum_map_flatMap, ← sum_map_rangeR]
  congr 1
  refine List.map_congr_left fun i _ => ?_
  rw [List.map_map, ← sum_map_rangeR]
  rfl

theorem sum_triples (n : Nat) (f : Nat × Nat × Nat → ℝ) :
    ((triples n).map f).sum = ∑ i ∈ range n, ∑ j ∈ range n, ∑ k ∈ range n, f (i, j, k) := by
  rw [triples, sum_map_flatMap, ← sum_map_rangeR]
  congr 1
  refine List.map_congr_left fun i _ => ?_
  rw [sum_map_flatMap, ← sum_map_rangeR]
  congr 1
  refine List.map_congr_left fun j _ => ?_
  rw [List.map_map, ← sum_map_rangeR]
  rfl

/-! ### the inactive Fock matrix -/

theorem inactiveFockR_val {no ni ldt ldv ldf : Nat} (hf : no ≤ ldf) (T V F : Nat → ℝ) {p q : Nat}
    (hp : p < no) (hq : q < no) :
    inactiveFockMatrixR rnd no ni T ldt V ldv F ldf (p + q * ldf) =
      rnd (asMat T ldt p q + accR rnd (fun i => rnd (rnd (2 * asTen V ldv p q i i) - asTen V ldv p i i q)) 0
        (List.range ni)) := by
  rw [inactiveFockMatrixR, (fill2 hf F _).1 p q hp hq]
  have e1 : ∀ i, p + q * ldv + i * (ldv * ldv + ldv * ldv * ldv) = addr4 ldv p q i i := fun i => by rw [addr4]; ring
  have e2 : ∀ i, p + q * (ldv * ldv * ldv) + i * (ldv + ldv * ldv) = addr4 ldv p i i q := fun i => by rw [addr4]; ring
  simp only [e1, e2]
  rfl

theorem inactiveFockR_near (hr : RoundsTo rnd u) {no ni ldt ldv ldf : Nat} (hf : no ≤ ldf) (T V F : Nat → ℝ) {p q : Nat}
    (hp : p < no) (hq : q < no) :
    Near u (ni + 3) (fiSize ni (asMat T ldt) (asTen V ldv) p q)
      (inactiveFockMatrixR rnd no ni T ldt V ldv F ldf (p + q * ldf)) (fi ni (asMat T ldt) (asTen V ldv) p q) := by
  rw [inactiveFockR_val hf T V F hp hq]
  have hu := hr.nonneg
  have t := Near.acc0 hr (c := 2) (f := fun i => rnd (rnd (2 * asTen V ldv p q i i) - asTen V ldv p i i q))
    (F := fun i => 2 * asTen V ldv p q i i - asTen V ldv p i i q)
    (B := fun i => 2 * |asTen V ldv p q i i| + |asTen V ldv p i i q|) (List.range ni) (fun i _ => by
      have n := (near_exact (u := u) (asTen V ldv p q i i)).mulBy 2
      rw [show |(2 : ℝ)| = 2 by norm_num] at n
      exact ((n.round hr).sub' hu ((near_exact _).mono hu (by omega) le_rfl)).round hr)
  rw [sum_map_rangeR, sum_map_rangeR, List.length_range] at t
  have := (((near_exact (asMat T ldt p q)).mono hu (Nat.zero_le (2 + ni)) le_rfl).add' hu t).round hr
  rw [show 2 + ni + 1 = ni + 3 by ring] at this
  exact this

/-- C179 (inactive Fock matrix): computed in floating point it is `h_pq + sum_i (2 (pq|ii) - (pi|iq))` up to
`((1+u)^(ni+3) - 1)` times the sum of the absolute values; nothing else is written. -/
theorem C179_inactive_fock (hr : RoundsTo rnd u) {no ni ldt ldv ldf : Nat} (hf : no ≤ ldf) (T V F : Nat → ℝ) :
    (∀ p q, p < no → q < no → |inactiveFockMatrixR rnd no ni T ldt V ldv F ldf (p + q * ldf)
        - (asMat T ldt p q + ∑ i ∈ range ni, (2 * asTen V ldv p q i i - asTen V ldv p i i q))|
      ≤ ((1 + u) ^ (ni + 3) - 1) * fiSize ni (asMat T ldt) (asTen V ldv) p q) ∧
    (∀ a, (∀ p q, p < no → q < no → a ≠ p + q * ldf) → inactiveFockMatrixR rnd no ni T ldt V ldv F ldf a = F a) :=
  ⟨fun _ _ hp hq => (inactiveFockR_near hr hf T V F hp hq).1, fun a ha => by
    rw [inactiveFockMatrixR]; exact (fill2 hf F _).2 a ha⟩

/-- C179 (symmetry): with symmetric integrals the inactive Fock matrix is symmetric bit for bit. -/
theorem C179_fock_symmetric (rnd : ℝ → ℝ) {no ni ldt ldv ldf : Nat} (hn : ni ≤ no) (hf : no ≤ ldf) (T V F : Nat → ℝ)
    (hT : ∀ p q, p < no → q < no → asMat T ldt p q = asMat T ldt q p)
    (hV : ∀ p q r s, p < no → q < no → r < no → s < no →
      asTen V ldv p q r s = asTen V ldv r s p q ∧ asTen V ldv p q r s = asTen V ldv q p r s) :
    ∀ p q, p < no → q < no → inactiveFockMatrixR rnd no ni T ldt V ldv F ldf (p + q * ldf) =
      inactiveFockMatrixR rnd no ni T ldt V ldv F ldf (q + p * ldf) := by
  intro p q hp hq
  rw [inactiveFockR_val hf T V F hp hq, inactiveFockR_val hf T V F hq hp, hT p q hp hq]
  congr 2
  have : ∀ i ∈ List.range ni, rnd (rnd (2 * asTen V ldv p q i i) - asTen V ldv p i i q) =
      rnd (rnd (2 * asTen V ldv q p i i) - asTen V ldv q i i p) := by
    intro i hi
    have hi : i < no := by have := List.mem_range.1 hi; omega
    rw [(hV p q i i hp hq hi hi).2, (hV p i i q hp hi hi hq).1, (hV i q p i hi hq hp hi).2,
      (hV q i p i hq hi hp hi).1, (hV p i q i hp hi hq hi).1, (hV q i p i hq hi hp hi).1, (hV p i q i hp hi hq hi).2,
      (hV i p q i hi hp hq hi).1]
  unfold accR
  generalize List.range ni = l at this
  generalize (0 : ℝ) = z
  induction l generalizing z with
  | nil => rfl
  | cons i l ih =>
    rw [List.foldl_cons, List.foldl_cons]
    dsimp only
    rw [this i (by simp)]
    exact ih (fun j hj => this j (by simp [hj])) _

theorem coreR_near (hr : RoundsTo rnd u) {no ni ldt ldv ldf : Nat} (hn : ni ≤ no) (hf : no ≤ ldf)
    (T V F : Nat → ℝ) :
    Near u (2 * ni + 4) (coreSize ni (asMat T ldt) (asTen V ldv))
      (inactiveEnergyR rnd ni T ldt (inactiveFockMatrixR rnd no ni T ldt V ldv F ldf) ldf)
      (∑ i ∈ range ni, (2 * asMat T ldt i i + ∑ j ∈ range ni, (2 * asTen V ldv i i j j - asTen V ldv i j j i))) := by
  have hu := hr.nonneg
  have t := Near.acc0 hr (c := ni + 4)
    (f := fun i => rnd (T (i * (ldt + 1)) + inactiveFockMatrixR rnd no ni T ldt V ldv F ldf (i * (ldf + 1))))
    (F := fun i => asMat T ldt i i + fi ni (asMat T ldt) (asTen V ldv) i i)
    (B := fun i => |asMat T ldt i i| + fiSize ni (asMat T ldt) (asTen V ldv) i i) (List.range ni) (fun i hi => by
      have hi : i < no := by have := List.mem_range.1 hi; omega
      have e : ∀ ld, i * (ld + 1) = i + i * ld := fun ld => by ring
      rw [e, e]
      exact (((near_exact _).mono hu (Nat.zero_le _) le_rfl).add' hu (inactiveFockR_near hr hf T V F hi hi)).round hr)
  rw [sum_map_rangeR, sum_map_rangeR, List.length_range, show ni + 4 + ni = 2 * ni + 4 by ring] at t
  have e : ∀ i, asMat T ldt i i + fi ni (asMat T ldt) (asTen V ldv) i i =
      2 * asMat T ldt i i + ∑ j ∈ range ni, (2 * asTen V ldv i i j j - asTen V ldv i j j i) := fun i => by
    rw [fi]; ring
  simp only [e] at t
  exact t

/-- C179 (core energy): computed in floating point from the computed inactive Fock matrix, the energy of the core is
`sum_i (2 h_ii + sum_j (2 (ii|jj) - (ij|ji)))` up to `((1+u)^(2 ni + 4) - 1)` times the sum of the absolute values. -/
theorem C179_core_energy (hr : RoundsTo rnd u) {no ni ldt ldv ldf : Nat} (hn : ni ≤ no) (hf : no ≤ ldf)
    (T V F : Nat → ℝ) :
    |inactiveEnergyR rnd ni T ldt (inactiveFockMatrixR rnd no ni T ldt V ldv F ldf) ldf
        - ∑ i ∈ range ni, (2 * asMat T ldt i i + ∑ j ∈ range ni, (2 * asTen V ldv i i j j - asTen V ldv i j j i))|
      ≤ ((1 + u) ^ (2 * ni + 4) - 1) * coreSize ni (asMat T ldt) (asTen V ldv) :=
  (coreR_near hr hn hf T V F).1

/-! ### the active-space Hamiltonian -/

/-- C179 (integrals of the active space): the one-electron integrals `active_hamiltonian` leaves are the inactive Fock matrix
between active orbitals up to `((1+u)^(ni+3) - 1)` times the sum of the absolute values; the two-electron integrals are
copied exactly. -/
theorem C179_active_integrals (hr : RoundsTo rnd u) {no na ni ldt ldv ldf ldta ldva : Nat}
    (hn : ni + na ≤ no) (hf : no ≤ ldf) (hta : na ≤ ldta) (hva : na ≤ ldva) (T V Fi Ta Va : Nat → ℝ) :
    let H := activeHamiltonianR rnd no na ni T ldt V ldv Fi ldf Ta ldta Va ldva
    (∀ x y, x < na → y < na → |asMat H.2.1 ldta x y - (asMat T ldt (ni + x) (ni + y) +
        ∑ i ∈ range ni, (2 * asTen V ldv (ni + x) (ni + y) i i - asTen V ldv (ni + x) i i (ni + y)))|
      ≤ ((1 + u) ^ (ni + 3) - 1) * fiSize ni (asMat T ldt) (asTen V ldv) (ni + x) (ni + y)) ∧
    (∀ x y z w, x < na → y < na → z < na → w < na → asTen H.2.2 ldva x y z w =
      asTen V ldv (ni + x) (ni + y) (ni + z) (ni + w)) := by
  intro H
  refine ⟨fun x y hx hy => ?_, fun x y z w hx hy hz hw => ?_⟩
  · have : asMat H.2.1 ldta x y = inactiveFockMatrixR rnd no ni T ldt V ldv Fi ldf (x + ni + (y + ni) * ldf) :=
      (fill2 hta Ta (fun x => inactiveFockMatrixR rnd no ni T ldt V ldv Fi ldf (x.1 + ni + (x.2 + ni) * ldf))).1 x y hx hy
    rw [this, Nat.add_comm x, Nat.add_comm y]
    exact (C179_inactive_fock hr hf T V Fi).1 _ _ (by omega) (by omega)
  · have := (fill4 hva Va (fun x => V (x.1 + ni + (x.2.1 + ni) * ldv + (x.2.2.1 + ni) * (ldv * ldv) +
          (x.2.2.2 + ni) * (ldv * ldv * ldv)))).1 x y z w hx hy hz hw
    refine Eq.trans this ?_
    rw [asTen, addr4]
    congr 1; ring

/-- C179 (Hamiltonian of the active space): with symmetric integrals the matrix elements of the active-space Hamiltonian,
computed in floating point from the arrays that `active_hamiltonian` leaves, are symmetric bit for bit.  (The integrals
object is zero outside the active space, where it is not read.) -/
theorem C179_hamiltonian_symmetric (hi : Idempotent rnd) (h0 : rnd 0 = 0) {no na ni ldt ldv ldf ldta ldva : Nat}
    (hn : ni + na ≤ no) (hf : no ≤ ldf) (hta : na ≤ ldta) (hva : na ≤ ldva) (T V Fi Ta Va : Nat → ℝ)
    (hT : ∀ p q, p < no → q < no → asMat T ldt p q = asMat T ldt q p)
    (hV : ∀ p q r s, p < no → q < no → r < no → s < no →
      asTen V ldv p q r s = asTen V ldv r s p q ∧ asTen V ldv p q r s = asTen V ldv q p r s) :
    let H := activeHamiltonianR rnd no na ni T ldt V ldv Fi ldf Ta ldta Va ldva
    let I : Integrals ℝ := ⟨na, fun p q => if p < na ∧ q < na then asMat H.2.1 ldta p q else 0,
      fun p q r s => if p < na ∧ q < na ∧ r < na ∧ s < na then asTen H.2.2 ldva p q r s else 0⟩
    ∀ {M : Nat} (bra ket : BitVec (2 * M)), SameSector bra ket →
      I.matrixElementR rnd bra ket = I.matrixElementR rnd ket bra := by
  intro H I M bra ket hs
  have eT : ∀ p q, p < na → q < na → asMat H.2.1 ldta p q =
      inactiveFockMatrixR rnd no ni T ldt V ldv Fi ldf (p + ni + (q + ni) * ldf) := fun p q hp hq =>
    (fill2 hta Ta (fun x => inactiveFockMatrixR rnd no ni T ldt V ldv Fi ldf (x.1 + ni + (x.2 + ni) * ldf))).1 p q hp hq
  have eV : ∀ p q r s, p < na → q < na → r < na → s < na → asTen H.2.2 ldva p q r s =
      asTen V ldv (p + ni) (q + ni) (r + ni) (s + ni) := fun p q r s hp hq hr hs => by
    have := (fill4 hva Va (fun x => V (x.1 + ni + (x.2.1 + ni) * ldv + (x.2.2.1 + ni) * (ldv * ldv) +
          (x.2.2.2 + ni) * (ldv * ldv * ldv)))).1 p q r s hp hq hr hs
    refine Eq.trans this ?_
    rw [asTen, addr4]
    congr 1; ring
  refine C169_symmetric hi h0 ⟨fun p q => ?_, fun p q r s => ?_, fun p q r s => ?_⟩ (fun p q => ?_) bra ket hs
  · change (if _ then _ else _) = (if _ then _ else _)
    by_cases h : p < na ∧ q < na
    · rw [if_pos h, if_pos h.symm, eT p q h.1 h.2, eT q p h.2 h.1]
      exact C179_fock_symmetric rnd (by omega) hf T V Fi hT hV _ _ (by omega) (by omega)
    · rw [if_neg h, if_neg fun h' => h h'.symm]
  · change (if _ then _ else _) = (if _ then _ else _)
    by_cases h : p < na ∧ q < na ∧ r < na ∧ s < na
    · rw [if_pos h, if_pos (by tauto), eV p q r s (by tauto) (by tauto) (by tauto) (by tauto),
        eV r s p q (by tauto) (by tauto) (by tauto) (by tauto)]
      exact (hV _ _ _ _ (by omega) (by omega) (by omega) (by omega)).1
    · rw [if_neg h, if_neg (by tauto)]
  · change (if _ then _ else _) = (if _ then _ else _)
    by_cases h : p < na ∧ q < na ∧ r < na ∧ s < na
    · rw [if_pos h, if_pos (by tauto), eV p q r s (by tauto) (by tauto) (by tauto) (by tauto),
        eV q p r s (by tauto) (by tauto) (by tauto) (by tauto)]
      exact (hV _ _ _ _ (by omega) (by omega) (by omega) (by omega)).2
    · rw [if_neg h, if_neg (by tauto)]
  · change rnd (if _ then _ else _) = (if _ then _ else _)
    by_cases h : p < na ∧ q < na
    · rw [if_pos h, eT p q h.1 h.2, inactiveFockR_val hf T V Fi (by omega) (by omega)]
      exact hi _
    · rw [if_neg h, h0]

/-! ### the generalized Fock matrix -/

theorem activeFockR_near (hr : RoundsTo rnd u) {no ni na ldv ldd ldf : Nat} (hf : no ≤ ldf) (V D F : Nat → ℝ) {p q : Nat}
    (hp : p < no) (hq : q < no) :
    Near u (na * na + 3) (faSize ni na (asTen V ldv) (asMat D ldd) p q)
      (activeFockMatrixR rnd no ni na V ldv D ldd F ldf (p + q * ldf)) (fa ni na (asTen V ldv) (asMat D ldd) p q) := by
  have hu := hr.nonneg
  rw [activeFockMatrixR, (fill2 hf F _).1 p q hp hq]
  have e1 : ∀ y : Nat × Nat, p + q * ldv + (y.1 + ni) * (ldv * ldv) + (y.2 + ni) * (ldv * ldv * ldv) =
      addr4 ldv p q (ni + y.1) (ni + y.2) := fun y => by rw [addr4]; ring
  have e2 : ∀ y : Nat × Nat, p + q * (ldv * ldv * ldv) + (y.2 + ni) * ldv + (y.1 + ni) * (ldv * ldv) =
      addr4 ldv p (ni + y.2) (ni + y.1) q := fun y => by rw [addr4]; ring
  simp only [e1, e2]
  have t := Near.acc0 hr (c := 3)
    (f := fun y : Nat × Nat => rnd (asMat D ldd y.1 y.2 * rnd (asTen V ldv p q (ni + y.1) (ni + y.2) -
        rnd (1 / 2 * asTen V ldv p (ni + y.2) (ni + y.1) q))))
    (F := fun y => asMat D ldd y.1 y.2 * (asTen V ldv p q (ni + y.1) (ni + y.2) -
        1 / 2 * asTen V ldv p (ni + y.2) (ni + y.1) q))
    (B := fun y => |asMat D ldd y.1 y.2| * (|asTen V ldv p q (ni + y.1) (ni + y.2)| +
        1 / 2 * |asTen V ldv p (ni + y.2) (ni + y.1) q|)) (pairsMN na na) (fun y _ => by
      have n := (near_exact (u := u) (asTen V ldv p (ni + y.2) (ni + y.1) q)).mulBy (1 / 2)
      rw [show |(1 / 2 : ℝ)| = 1 / 2 by norm_num] at n
      exact ((((((near_exact _).mono hu (by omega) le_rfl).sub' hu (n.round hr)).round hr).mulBy _).round hr))
  rw [sum_pairsMN, sum_pairsMN, length_pairsMN, add_comm 3] at t
  exact t

theorem auxQR_near (hr : RoundsTo rnd u) {na no ni ldv ldd ldq : Nat} (hq : na ≤ ldq) (V D2 Q : Nat → ℝ) {v o : Nat}
    (hv : v < na) (ho : o < no) :
    Near u (na * na * na + 2) (qSize ni na (asTen V ldv) (asTen D2 ldd) v o)
      (auxQMatrixR rnd na no ni V ldv D2 ldd Q ldq (v + o * ldq))
      (2 * ∑ w ∈ range na, ∑ x ∈ range na, ∑ y ∈ range na,
        asTen D2 ldd v w x y * asTen V ldv o (ni + w) (ni + x) (ni + y)) := by
  have hval := (fillMN (m := na) (n := no) (off := 0) (ld := ldq) (by omega) Q (fun x =>
    rnd (2 * accR rnd (fun t => rnd (D2 (x.1 + t.1 * ldd + t.2.1 * (ldd * ldd) + t.2.2 * (ldd * ldd * ldd)) *
        V (x.2 + (t.1 + ni) * ldv + (t.2.1 + ni) * (ldv * ldv) + (t.2.2 + ni) * (ldv * ldv * ldv)))) 0 (triples na)))).1
    v o hv ho
  simp only [Nat.add_zero] at hval
  rw [auxQMatrixR, hval]
  have e1 : ∀ t : Nat × Nat × Nat, v + t.1 * ldd + t.2.1 * (ldd * ldd) + t.2.2 * (ldd * ldd * ldd) =
      addr4 ldd v t.1 t.2.1 t.2.2 := fun t => by rw [addr4]; ring
  have e2 : ∀ t : Nat × Nat × Nat, o + (t.1 + ni) * ldv + (t.2.1 + ni) * (ldv * ldv) + (t.2.2 + ni) * (ldv * ldv * ldv) =
      addr4 ldv o (ni + t.1) (ni + t.2.1) (ni + t.2.2) := fun t => by rw [addr4]; ring
  simp only [e1, e2]
  have t := Near.acc0 hr (c := 1)
    (f := fun t : Nat × Nat × Nat => rnd (asTen D2 ldd v t.1 t.2.1 t.2.2 * asTen V ldv o (ni + t.1) (ni + t.2.1) (ni + t.2.2)))
    (F := fun t => asTen D2 ldd v t.1 t.2.1 t.2.2 * asTen V ldv o (ni + t.1) (ni + t.2.1) (ni + t.2.2))
    (B := fun t => |asTen D2 ldd v t.1 t.2.1 t.2.2| * |asTen V ldv o (ni + t.1) (ni + t.2.1) (ni + t.2.2)|)
    (triples na) (fun t _ => ((near_exact _).mulBy _).round hr)
  rw [sum_triples, sum_triples, length_triples] at t
  have := (t.mulBy 2).round hr
  rw [show |(2 : ℝ)| = 2 by norm_num, show 1 + na * na * na + 1 = na * na * na + 2 by ring] at this
  exact this

/-- number of roundings an element of the generalized Fock matrix goes through -/
def fockDepth (ni na : Nat) : Nat := ni + na + na * na + na * na * na + 5

theorem genFockR_val (rnd : ℝ → ℝ) (dot : Kernel) {no ni na ldfi ldfa ldd ldq ldf : Nat} (hf : ni + na ≤ ldf)
    (Fi Fa D Q F : Nat → ℝ) :
    (∀ i o, i < ni → o < no → generalizedFockMatrixR rnd dot no ni na Fi ldfi Fa ldfa D ldd Q ldq F ldf
      (i + o * ldf) = rnd (2 * rnd (asMat Fi ldfi o i + asMat Fa ldfa o i))) ∧
    (∀ v o, v < na → o < no → generalizedFockMatrixR rnd dot no ni na Fi ldfi Fa ldfa D ldd Q ldq F ldf
      (ni + v + o * ldf) = rnd (dot 0 o v (fun w => asMat Fi ldfi o (ni + w)) (fun w => asMat D ldd w v) na +
        asMat Q ldq v o)) ∧
    (∀ a, (∀ p o, p < ni + na → o < no → a ≠ p + o * ldf) →
      generalizedFockMatrixR rnd dot no ni na Fi ldfi Fa ldfa D ldd Q ldq F ldf a = F a) := by
  refine ⟨?_, ?_, ?_⟩
  · intro i o hi ho
    rw [generalizedFockMatrixR]
    rw [(fillMN (off := ni) (by omega) _ _).2]
    · have := (fillMN (m := ni) (n := no) (off := 0) (ld := ldf) (by omega) F (fun x =>
        rnd (2 * rnd (Fi (x.2 + x.1 * ldfi) + Fa (x.2 + x.1 * ldfa))))).1 i o hi ho
      simpa only [Nat.add_zero, asMat] using this
    · intro v o' hv ho' h
      obtain ⟨e, _⟩ := addr2_inj (le_refl ldf) (show i < ldf by omega)
        (show v + ni < ldf by omega) h
      omega
  · intro v o hv ho
    rw [generalizedFockMatrixR, Nat.add_comm ni v, (fillMN (off := ni) (by omega) _ _).1 v o hv ho]
    have h1 := (gemmF_spec dot 0 false no na na (fun a => Fi (ni * ldfi + a)) ldfi D ldd (fun _ => 0) 0 no
      (le_refl no)).1 o v ho hv
    rw [Nat.zero_add] at h1
    rw [h1]
    simp only [asMat, Bool.false_eq_true, if_false]
    have e : ∀ l, ni * ldfi + (o + l * ldfi) = o + (ni + l) * ldfi := fun l => by ring
    simp only [e]
  · intro a ha
    rw [generalizedFockMatrixR, (fillMN (off := ni) (by omega) _ _).2]
    · have := (fillMN (m := ni) (n := no) (off := 0) (ld := ldf) (by omega) F (fun x =>
        rnd (2 * rnd (Fi (x.2 + x.1 * ldfi) + Fa (x.2 + x.1 * ldfa))))).2 a (by
          intro i o hi ho
          exact ha i o (by omega) ho)
      simpa only [Nat.add_zero] using this
    · intro v o hv ho
      exact ha (v + ni) o (by omega) ho

theorem genFockR_near (hd : dot.Sums rnd) (hr : RoundsTo rnd u) {no ni na ldt ldv ldd1 ldd2 ldf : Nat}
    (hn : ni + na ≤ no) (hf : no ≤ ldf) (T V D1 D2 F : Nat → ℝ)
    (hD : ∀ v w, v < na → w < na → asMat D1 ldd1 v w = asMat D1 ldd1 w v) {p o : Nat} (hp : p < ni + na) (ho : o < no) :
    Near u (fockDepth ni na) (genFockSize ni na (asMat T ldt) (asTen V ldv) (asMat D1 ldd1) (asTen D2 ldd2) p o)
      (generalizedFockR rnd dot no ni na T ldt V ldv D1 ldd1 D2 ldd2 F ldf (p + o * ldf))
      (genFock no (asMat T ldt) (asTen V ldv) (full1 ni na (asMat D1 ldd1))
        (full2 ni na (asMat D1 ldd1) (asTen D2 ldd2)) p o) := by
  have hu := hr.nonneg
  have sp := genFockR_val rnd dot (no := no) (ni := ni) (na := na) (ldfi := no) (ldfa := no)
    (ldd := ldd1) (ldq := na) (ldf := ldf) (by omega)
    (inactiveFockMatrixR rnd no ni T ldt V ldv (fun _ => 0) no)
    (activeFockMatrixR rnd no ni na V ldv D1 ldd1 (fun _ => 0) no) D1
    (auxQMatrixR rnd na no ni V ldv D2 ldd2 (fun _ => 0) na) F
  have h2 : (2 : ℝ) ≠ 0 := two_ne_zero
  rw [generalizedFockR, genFockSize]
  by_cases hpi : p < ni
  · rw [if_pos hpi, genFock_inactive h2 hn hpi, sp.1 p o hpi ho]
    have n1 := inactiveFockR_near hr (ldt := ldt) (ldv := ldv) (ni := ni) (le_refl no) T V (fun _ => 0) ho
      (show p < no by omega)
    have n2 := activeFockR_near hr (ldv := ldv) (ldd := ldd1) (ni := ni) (na := na) (le_refl no) V D1 (fun _ => 0) ho
      (show p < no by omega)
    have n := ((((n1.mono hu (show _ ≤ ni + na * na + 3 by omega) le_rfl).add' hu
      (n2.mono hu (show _ ≤ ni + na * na + 3 by omega) le_rfl)).round hr).mulBy 2).round hr
    rw [show |(2 : ℝ)| = 2 by norm_num] at n
    exact n.mono hu (by unfold fockDepth; omega) le_rfl
  · obtain ⟨v, rfl⟩ : ∃ v, p = ni + v := ⟨p - ni, by omega⟩
    have hv : v < na := by omega
    rw [if_neg hpi, Nat.add_sub_cancel_left, genFock_active h2 hn hv, sp.2.1 v o hv ho]
    have n1 := near_step hd hr 0 o v na (ni + 3) (fun w => asMat D1 ldd1 w v)
      (h := fun w => asMat (inactiveFockMatrixR rnd no ni T ldt V ldv (fun _ => 0) no) no o (ni + w))
      (A := fun w => fiSize ni (asMat T ldt) (asTen V ldv) o (ni + w))
      (H := fun w => fi ni (asMat T ldt) (asTen V ldv) o (ni + w)) (fun w hw =>
        inactiveFockR_near hr (le_refl no) T V (fun _ => 0) ho (by omega))
    have n2 := auxQR_near hr (ldv := ldv) (ldd := ldd2) (ni := ni) (no := no) (le_refl na) V D2 (fun _ => 0) hv ho
    have n := ((n1.mono hu (show _ ≤ ni + na + na * na * na + 3 by omega) le_rfl).add' hu
      (n2.mono hu (show _ ≤ ni + na + na * na * na + 3 by omega) le_rfl)).round hr
    have e : ∑ w ∈ range na, asMat D1 ldd1 w v * fi ni (asMat T ldt) (asTen V ldv) o (ni + w) =
        ∑ w ∈ range na, asMat D1 ldd1 v w * fi ni (asMat T ldt) (asTen V ldv) o (ni + w) :=
      Finset.sum_congr rfl fun w hw => by rw [hD w v (Finset.mem_range.1 hw) hv]
    rw [e] at n
    exact n.mono hu (by unfold fockDepth; omega) le_rfl

/-- C179 (generalized Fock matrix): computed in floating point from integrals and active density matrices, it is the
generalized Fock matrix of the completed density up to `(1+u)^(ni + na + na^2 + na^3 + 5) - 1` times its size; nothing
else is written. -/
theorem C179_generalized_fock (hd : dot.Sums rnd) (hr : RoundsTo rnd u) {no ni na ldt ldv ldd1 ldd2 ldf : Nat}
    (hn : ni + na ≤ no) (hf : no ≤ ldf) (T V D1 D2 F : Nat → ℝ)
    (hD : ∀ v w, v < na → w < na → asMat D1 ldd1 v w = asMat D1 ldd1 w v) :
    (∀ p o, p < ni + na → o < no →
      |generalizedFockR rnd dot no ni na T ldt V ldv D1 ldd1 D2 ldd2 F ldf (p + o * ldf)
        - genFock no (asMat T ldt) (asTen V ldv) (full1 ni na (asMat D1 ldd1))
          (full2 ni na (asMat D1 ldd1) (asTen D2 ldd2)) p o|
      ≤ ((1 + u) ^ (ni + na + na * na + na * na * na + 5) - 1) *
        genFockSize ni na (asMat T ldt) (asTen V ldv) (asMat D1 ldd1) (asTen D2 ldd2) p o) ∧
    (∀ a, (∀ p o, p < ni + na → o < no → a ≠ p + o * ldf) →
      generalizedFockR rnd dot no ni na T ldt V ldv D1 ldd1 D2 ldd2 F ldf a = F a) :=
  ⟨fun _ _ hp ho => (genFockR_near hd hr hn hf T V D1 D2 F hD hp ho).1, (genFockR_val rnd dot (by omega) _ _ _ _ F).2.2⟩

/-- C179 (energy): the energy that `energy_from_generalized_fock` computes in floating point from the computed generalized
Fock matrix is the energy of the completed density up to `(1+u)^(3 ni + 2 na + 2 na^2 + na^3 + 6) - 1` times the size of
the sums. -/
theorem C179_energy (hd : dot.Sums rnd) (hr : RoundsTo rnd u) {no ni na ldt ldv ldd1 ldd2 ldf : Nat}
    (hn : ni + na ≤ no) (hf : no ≤ ldf) (T V D1 D2 F : Nat → ℝ)
    (hD : ∀ v w, v < na → w < na → asMat D1 ldd1 v w = asMat D1 ldd1 w v) :
    |energyFromGeneralizedFockR rnd ni na T ldt D1 ldd1
        (generalizedFockR rnd dot no ni na T ldt V ldv D1 ldd1 D2 ldd2 F ldf) ldf
      - energy no (asMat T ldt) (asTen V ldv) (full1 ni na (asMat D1 ldd1))
          (full2 ni na (asMat D1 ldd1) (asTen D2 ldd2))|
      ≤ ((1 + u) ^ (3 * ni + 2 * na + 2 * (na * na) + na * na * na + 6) - 1) *
        fockEnergySize ni na (asMat T ldt) (asTen V ldv) (asMat D1 ldd1) (asTen D2 ldd2) := by
  have hu := hr.nonneg
  have e : ∀ i ld, i * (ld + 1) = i + i * ld := fun i ld => by ring
  have n1 := Near.acc hr (c := fockDepth ni na) (f := fun i => rnd (2 * T (i * (ldt + 1)))) (F := fun i => 2 * asMat T ldt i i)
    (B := fun i => 2 * |asMat T ldt i i|) (List.range ni) (fun i _ => by
      have n := (near_exact (u := u) (asMat T ldt i i)).mulBy 2
      rw [show |(2 : ℝ)| = 2 by norm_num] at n
      rw [e]
      exact (n.round hr).mono hu (by unfold fockDepth; omega) le_rfl) le_rfl (near_zero u _)
  have n2 := Near.acc hr (c := fockDepth ni na)
    (f := fun x : Nat × Nat => rnd (D1 (x.1 + x.2 * ldd1) * T (x.1 + ni + (x.2 + ni) * ldt)))
    (F := fun x => asMat D1 ldd1 x.1 x.2 * asMat T ldt (ni + x.1) (ni + x.2))
    (B := fun x => |asMat D1 ldd1 x.1 x.2| * |asMat T ldt (ni + x.1) (ni + x.2)|) (pairsMN na na) (fun x _ => by
      rw [Nat.add_comm x.1 ni, Nat.add_comm x.2 ni]
      exact (((near_exact _).mulBy _).round hr).mono hu (by unfold fockDepth; omega) le_rfl) (by omega) n1
  have n3 := Near.acc hr (c := fockDepth ni na)
    (f := fun p => generalizedFockR rnd dot no ni na T ldt V ldv D1 ldd1 D2 ldd2 F ldf (p * (ldf + 1)))
    (F := fun p => genFock no (asMat T ldt) (asTen V ldv) (full1 ni na (asMat D1 ldd1))
          (full2 ni na (asMat D1 ldd1) (asTen D2 ldd2)) p p)
    (B := fun p => genFockSize ni na (asMat T ldt) (asTen V ldv) (asMat D1 ldd1) (asTen D2 ldd2) p p)
    (List.range (na + ni)) (fun p hp => by
      have hp := List.mem_range.1 hp
      rw [e]
      exact genFockR_near hd hr hn hf T V D1 D2 F hD (by omega) (by omega)) (by omega) n2
  have n := (n3.mulBy (1 / 2)).round hr
  rw [sum_map_rangeR, sum_map_rangeR, sum_pairsMN, sum_pairsMN, sum_map_rangeR, sum_map_rangeR, zero_add, zero_add,
    show |(1 / 2 : ℝ)| = 1 / 2 by norm_num, List.length_range, List.length_range, length_pairsMN,
    show fockDepth ni na + ni + na * na + (na + ni) + 1 = 3 * ni + 2 * na + 2 * (na * na) + na * na * na + 6 by
      unfold fockDepth; ring] at n
  have ex := C39_energy_from_fock (R := ℝ) two_ne_zero (ldt := ldt) (ldv := ldv) (ldd1 := ldd1) (ldd2 := ldd2) hn hf T V D1
    D2 F hD
  have g := (C39_generalized_fock (R := ℝ) two_ne_zero (ldt := ldt) (ldv := ldv) (ldd1 := ldd1) (ldd2 := ldd2) hn hf T V D1
    D2 F hD).1
  rw [← ex, energyFromGeneralizedFock]
  have e1 : ∑ i ∈ range ni, 2 * T (i * (ldt + 1)) = ∑ i ∈ range ni, 2 * asMat T ldt i i :=
    Finset.sum_congr rfl fun i _ => by rw [e]; rfl
  have e2 : ∑ x ∈ range na, ∑ y ∈ range na, D1 (x + y * ldd1) * T (x + ni + (y + ni) * ldt) =
      ∑ x ∈ range na, ∑ y ∈ range na, asMat D1 ldd1 x y * asMat T ldt (ni + x) (ni + y) :=
    Finset.sum_congr rfl fun x _ => Finset.sum_congr rfl fun y _ => by
      rw [Nat.add_comm x ni, Nat.add_comm y ni]; rfl
  have e3 : ∑ p ∈ range (na + ni), generalizedFockCompMat2 no ni na T ldt V ldv D1 ldd1 D2 ldd2 F ldf (p * (ldf + 1)) =
      ∑ p ∈ range (na + ni), genFock no (asMat T ldt) (asTen V ldv) (full1 ni na (asMat D1 ldd1))
          (full2 ni na (asMat D1 ldd1) (asTen D2 ldd2)) p p :=
    Finset.sum_congr rfl fun p hp => by
      have hp := Finset.mem_range.1 hp
      rw [e]; exact g p p (by omega) (by omega)
  rw [e1, e2, e3]
  exact n.1

/-! ### the energy of the CI step -/

theorem sum_range_blocks (m n : Nat) (f : Nat → ℝ) :
    ∑ a ∈ range (n * m), f a = ∑ y ∈ range n, ∑ x ∈ range m, f (x + y * m) := by
  induction n with
  | zero => simp
  | succ n ih =>
    rw [Nat.succ_mul, Finset.sum_range_add, ih, sum_range_succ]
    congr 1
    exact Finset.sum_congr rfl fun x _ => by rw [Nat.add_comm]

theorem sum_range_mat (n : Nat) (f : Nat → ℝ) :
    ∑ a ∈ range (n * n), f a = ∑ x ∈ range n, ∑ y ∈ range n, f (x + y * n) := by
  rw [sum_range_blocks, Finset.sum_comm]

theorem sum_range_ten (n : Nat) (f : Nat → ℝ) : ∑ a ∈ range (n * n * (n * n)), f a =
    ∑ x ∈ range n, ∑ y ∈ range n, ∑ z ∈ range n, ∑ w ∈ range n, f (addr4 n x y z w) := by
  rw [sum_range_blocks (n * n) (n * n), sum_range_mat n fun b => ∑ a ∈ range (n * n), f (a + b * (n * n))]
  have : ∀ z w, ∑ a ∈ range (n * n), f (a + (z + w * n) * (n * n)) =
      ∑ x ∈ range n, ∑ y ∈ range n, f (addr4 n x y z w) := by
    intro z w
    rw [sum_range_mat]
    refine Finset.sum_congr rfl fun x _ => Finset.sum_congr rfl fun y _ => ?_
    rw [addr4]; congr 1; ring
  simp only [this]
  calc _ = ∑ z ∈ range n, ∑ x ∈ range n, ∑ w ∈ range n, ∑ y ∈ range n, f (addr4 n x y z w) :=
        Finset.sum_congr rfl fun z _ => Finset.sum_comm
    _ = ∑ x ∈ range n, ∑ z ∈ range n, ∑ w ∈ range n, ∑ y ∈ range n, f (addr4 n x y z w) := Finset.sum_comm
    _ = ∑ x ∈ range n, ∑ z ∈ range n, ∑ y ∈ range n, ∑ w ∈ range n, f (addr4 n x y z w) :=
        Finset.sum_congr rfl fun x _ => Finset.sum_congr rfl fun z _ => Finset.sum_comm
    _ = _ := Finset.sum_congr rfl fun x _ => Finset.sum_comm

/-- C179 (energy of the CI step): the energy `mcscf_impl` computes in floating point from its integrals, the core energy
and the active density matrices - the frozen core, the active integrals, two scalar products that BLAS adds up in any
order - is the energy of the completed density and `Ecore` up to `(1+u)^(2 ni + na^4 + 7) - 1` times the size of the
sums. -/
theorem C179_mcscf_energy (hd : dot.Sums rnd) (hr : RoundsTo rnd u) {no ni na ldt ldv : Nat} (hn : ni + na ≤ no)
    (T V D1 D2 : Nat → ℝ) (Ecore : ℝ)
    (hV : ∀ p q r s, p < no → q < no → r < no → s < no → asTen V ldv p q r s = asTen V ldv r s p q) :
    |mcscfEnergyR rnd dot no na ni T ldt V ldv Ecore D1 D2
      - (energy no (asMat T ldt) (asTen V ldv) (full1 ni na (asMat D1 na)) (full2 ni na (asMat D1 na) (asTen D2 na))
          + Ecore)|
      ≤ ((1 + u) ^ (2 * ni + na * na * (na * na) + 7) - 1) *
        splitEnergySize ni na (asMat T ldt) (asTen V ldv) (asMat D1 na) (asTen D2 na) Ecore := by
  have hu := hr.nonneg
  set h := asMat T ldt with hh
  set g := asTen V ldv with hg
  set H := activeHamiltonianR rnd no na ni T ldt V ldv (fun _ => 0) no (fun _ => 0) na (fun _ => 0) na with hH
  have eT : ∀ x y, x < na → y < na → Near u (ni + 3) (fiSize ni h g (ni + x) (ni + y)) (H.2.1 (x + y * na))
      (fi ni h g (ni + x) (ni + y)) := fun x y hx hy => by
    have e : H.2.1 (x + y * na) = inactiveFockMatrixR rnd no ni T ldt V ldv (fun _ => 0) no (x + ni + (y + ni) * no) :=
      (fill2 (le_refl na) (fun _ => (0 : ℝ)) (fun x =>
        inactiveFockMatrixR rnd no ni T ldt V ldv (fun _ => 0) no (x.1 + ni + (x.2 + ni) * no))).1 x y hx hy
    rw [e, Nat.add_comm x, Nat.add_comm y]
    exact inactiveFockR_near hr (le_refl no) T V _ (by omega) (by omega)
  have eV : ∀ x y z w, x < na → y < na → z < na → w < na → H.2.2 (addr4 na x y z w) =
      g (ni + x) (ni + y) (ni + z) (ni + w) :=
    (C179_active_integrals hr hn (le_refl no) (le_refl na) (le_refl na) T V (fun _ => 0) (fun _ => 0) (fun _ => 0)).2
  have am : ∀ a, a < na * na → a % na < na ∧ a / na < na ∧ a % na + a / na * na = a := fun a ha => by
    have h0 : 0 < na := Nat.pos_of_ne_zero fun h => by rw [h] at ha; omega
    exact ⟨Nat.mod_lt _ h0, Nat.div_lt_of_lt_mul ha, by rw [Nat.mul_comm]; exact Nat.mod_add_div a na⟩
  -- one-electron part
  have n1 := hd.near hr 0 0 0 (na * na) (ni + 3) (a := D1) (b := H.2.1)
    (A := fun a => |D1 a| * fiSize ni h g (ni + a % na) (ni + a / na))
    (F := fun a => D1 a * fi ni h g (ni + a % na) (ni + a / na)) fun a ha => by
      obtain ⟨h1, h2, h3⟩ := am a ha
      have := (eT _ _ h1 h2).mulBy (D1 a)
      rwa [h3] at this
  have mm : ∀ {x y}, x < na → y < na → (x + y * na) % na = x ∧ (x + y * na) / na = y := fun {x y} hx _ => by
    have h0 : 0 < na := by omega
    exact ⟨by rw [Nat.add_mul_mod_self_right, Nat.mod_eq_of_lt hx],
      by rw [Nat.add_mul_div_right _ _ h0, Nat.div_eq_of_lt hx, Nat.zero_add]⟩
  have s1 : ∀ f : Nat → Nat → Nat → ℝ, ∑ a ∈ range (na * na), f a (a % na) (a / na) =
      ∑ x ∈ range na, ∑ y ∈ range na, f (x + y * na) x y := fun f => by
    rw [sum_range_mat]
    exact Finset.sum_congr rfl fun x hx => Finset.sum_congr rfl fun y hy => by
      rw [(mm (Finset.mem_range.1 hx) (Finset.mem_range.1 hy)).1, (mm (Finset.mem_range.1 hx) (Finset.mem_range.1 hy)).2]
  rw [s1 fun a x y => |D1 a| * fiSize ni h g (ni + x) (ni + y), s1 fun a x y => D1 a * fi ni h g (ni + x) (ni + y)] at n1
  -- two-electron part
  have n2 := hd.near hr 1 0 0 (na * na * (na * na)) 0 (a := D2) (b := H.2.2) (A := fun a => |D2 a * H.2.2 a|)
    (F := fun a => D2 a * H.2.2 a) fun a _ => near_exact _
  have s2 : ∀ f : Nat → ℝ → ℝ, ∑ a ∈ range (na * na * (na * na)), f a (H.2.2 a) =
      ∑ x ∈ range na, ∑ y ∈ range na, ∑ z ∈ range na, ∑ w ∈ range na,
        f (addr4 na x y z w) (g (ni + x) (ni + y) (ni + z) (ni + w)) := fun f => by
    rw [sum_range_ten]
    exact Finset.sum_congr rfl fun x hx => Finset.sum_congr rfl fun y hy => Finset.sum_congr rfl fun z hz =>
      Finset.sum_congr rfl fun w hw => by
        rw [eV x y z w (Finset.mem_range.1 hx) (Finset.mem_range.1 hy) (Finset.mem_range.1 hz) (Finset.mem_range.1 hw)]
  rw [s2 fun a v => |D2 a * v|, s2 fun a v => D2 a * v] at n2
  simp only [abs_mul] at n2
  -- core
  have n3 : Near u (2 * ni + 4) (coreSize ni h g) (inactiveEnergyR rnd ni T ldt H.1 no)
      (∑ i ∈ range ni, (2 * h i i + ∑ j ∈ range ni, (2 * g i i j j - g i j j i))) :=
    coreR_near hr (by omega) (le_refl no) T V _
  have n4 := ((n3.mono hu (le_refl _) le_rfl).add' hu ((near_exact Ecore).mono hu (Nat.zero_le _) le_rfl)).round hr
  have hle : na * na ≤ na * na * (na * na) := by
    rcases Nat.eq_zero_or_pos na with h | h
    · simp [h]
    · exact Nat.le_mul_of_pos_right _ (Nat.mul_pos h h)
  have n5 := ((n1.mono hu (show _ ≤ 2 * ni + na * na * (na * na) + 5 by omega) le_rfl).add' hu
    (n2.mono hu (show _ ≤ 2 * ni + na * na * (na * na) + 5 by omega) le_rfl)).round hr
  have n6 := (n5.add' hu (n4.mono hu (show _ ≤ 2 * ni + na * na * (na * na) + 5 + 1 by omega) le_rfl)).round hr
  have ex := energy_split (R := ℝ) (ni := ni) (na := na) (n := no) (h := h) (g := g) (D := asMat D1 na) (d := asTen D2 na)
    two_ne_zero hn (fun p q r s a b c d => hV p q r s (by omega) (by omega) (by omega) (by omega))
  have fin := n6.1
  rw [show 2 * ni + na * na * (na * na) + 5 + 1 + 1 = 2 * ni + na * na * (na * na) + 7 by ring] at fin
  refine le_trans (le_of_eq ?_) fin
  have c : ∑ i ∈ range ni, (h i i + fi ni h g i i) =
      ∑ i ∈ range ni, (2 * h i i + ∑ j ∈ range ni, (2 * g i i j j - g i j j i)) :=
    Finset.sum_congr rfl fun i _ => by rw [fi]; ring
  have a1 : energy na (fun v w => fi ni h g (ni + v) (ni + w))
      (fun v w x y => g (ni + v) (ni + w) (ni + x) (ni + y)) (asMat D1 na) (asTen D2 na) =
      (∑ x ∈ range na, ∑ y ∈ range na, D1 (x + y * na) * fi ni h g (ni + x) (ni + y)) +
      ∑ x ∈ range na, ∑ y ∈ range na, ∑ z ∈ range na, ∑ w ∈ range na,
        D2 (addr4 na x y z w) * g (ni + x) (ni + y) (ni + z) (ni + w) := by
    rw [energy]
    congr 1
    · exact Finset.sum_congr rfl fun x _ => Finset.sum_congr rfl fun y _ => mul_comm _ _
    · exact Finset.sum_congr rfl fun x _ => Finset.sum_congr rfl fun y _ => Finset.sum_congr rfl fun z _ =>
        Finset.sum_congr rfl fun w _ => mul_comm _ _
  rw [ex, c, a1, add_comm (∑ i ∈ range ni, _) (_ + _), add_assoc _ (∑ i ∈ range ni, _) Ecore]
  rfl

/-- example: integrals that depend on the sums of the indices only are symmetric; two core orbitals and two active ones -/
example (Fi Ta Va : Nat → ℝ) :
    let T : Nat → ℝ := fun a => ((a % 4 + a / 4 : Nat) : ℝ) / 3
    let V : Nat → ℝ := fun a => ((a % 4 + a / 4 % 4 + a / 16 % 4 + a / 64 : Nat) : ℝ) / 7
    let H := activeHamiltonianR (chop 52) 4 2 2 T 4 V 4 Fi 4 Ta 2 Va 2
    let I : Integrals ℝ := ⟨2, fun p q => if p < 2 ∧ q < 2 then asMat H.2.1 2 p q else 0,
      fun p q r s => if p < 2 ∧ q < 2 ∧ r < 2 ∧ s < 2 then asTen H.2.2 2 p q r s else 0⟩
    I.matrixElementR (M := 2) (chop 52) (0b0101#4) (0b1001#4) =
      I.matrixElementR (M := 2) (chop 52) (0b1001#4) (0b0101#4) := by
  refine C179_hamiltonian_symmetric (chop_idem 52) (chop_zero 52) (by norm_num) le_rfl le_rfl le_rfl _ _ Fi Ta Va ?_ ?_
    (M := 2) _ _ (by decide +kernel)
  · intro p q hp hq
    simp only [asMat]
    congr 2
    omega
  · intro p q r s hp hq hr hs
    simp only [asTen, addr4]
    have e : ∀ p < 4, ∀ q < 4, ∀ r < 4, ∀ s < 4, (p + q * 4 + r * 4 * 4 + s * 4 * 4 * 4) % 4 +
        (p + q * 4 + r * 4 * 4 + s * 4 * 4 * 4) / 4 % 4 + (p + q * 4 + r * 4 * 4 + s * 4 * 4 * 4) / 16 % 4 +
        (p + q * 4 + r * 4 * 4 + s * 4 * 4 * 4) / 64 = p + q + r + s := by decide +kernel
    rw [e p hp q hq r hr s hs, e r hr s hs p hp q hq, e q hq p hp r hr s hs]
    constructor <;> (congr 2; omega)

/-- example: two core orbitals and one active one, `double` -/
example (T V D1 D2 F : Nat → ℝ) :
    |energyFromGeneralizedFockR (chop 52) 2 1 T 4 D1 1
        (generalizedFockR (chop 52) (fun _ _ _ a b k => seqDot (chop 52) a b k) 4 2 1 T 4 V 4 D1 1 D2 1 F 4) 4
      - energy 4 (asMat T 4) (asTen V 4) (full1 2 1 (asMat D1 1)) (full2 2 1 (asMat D1 1) (asTen D2 1))|
      ≤ ((1 + 2 ^ (-52 : ℤ)) ^ 17 - 1) * fockEnergySize 2 1 (asMat T 4) (asTen V 4) (asMat D1 1) (asTen D2 1) :=
  C179_energy (fun _ _ _ a b k => seqDot_dot _ a b k) (chop_rounds 52) (by norm_num) le_rfl T V D1 D2 F
    fun v w hv hw => by
      obtain rfl : v = 0 := by omega
      obtain rfl : w = 0 := by omega
      rfl

/-- example: two core orbitals, one active and one virtual, `double`, integrals with the exchange symmetry -/
example (T D1 D2 : Nat → ℝ) :
    let V : Nat → ℝ := fun a => ((a % 4 + a / 4 % 4 + a / 16 % 4 + a / 64 : Nat) : ℝ) / 7
    |mcscfEnergyR (chop 52) (fun _ _ _ a b k => seqDot (chop 52) a b k) 4 1 2 T 4 V 4 (-3) D1 D2
        - (energy 4 (asMat T 4) (asTen V 4) (full1 2 1 (asMat D1 1)) (full2 2 1 (asMat D1 1) (asTen D2 1)) + -3)|
      ≤ ((1 + 2 ^ (-52 : ℤ)) ^ 12 - 1) * splitEnergySize 2 1 (asMat T 4) (asTen V 4) (asMat D1 1) (asTen D2 1) (-3) := by
  intro V
  refine C179_mcscf_energy (no := 4) (ni := 2) (na := 1) (fun _ _ _ a b k => seqDot_dot _ a b k) (chop_rounds 52)
    (by norm_num) T V D1 D2 (-3) ?_
  intro p q r s hp hq hr hs
  have e : ∀ p < 4, ∀ q < 4, ∀ r < 4, ∀ s < 4, (p + q * 4 + r * 4 * 4 + s * 4 * 4 * 4) % 4 +
      (p + q * 4 + r * 4 * 4 + s * 4 * 4 * 4) / 4 % 4 + (p + q * 4 + r * 4 * 4 + s * 4 * 4 * 4) / 16 % 4 +
      (p + q * 4 + r * 4 * 4 + s * 4 * 4 * 4) / 64 = p + q + r + s := by decide +kernel
  simp only [asTen, addr4, V]
  rw [e p hp q hq r hr s hs, e r hr s hs p hp q hq]
  congr 2
  omega

/-- C179 (gradient): every element of the orbital gradient that `mcscf_impl` computes in floating point from integrals and
active density matrices is `2 (F_pq - F_qp)` for the generalized Fock matrix `F` of the completed density, up to
`(1+u)^(ni + na + na^2 + na^3 + 7) - 1` times its size; nothing is written beyond the parameters. -/
theorem C179_gradient (hd : dot.Sums rnd) (hr : RoundsTo rnd u) {no ni na nv ldt ldv ldd1 ldd2 : Nat}
    (hn : ni + na + nv ≤ no) (T V D1 D2 OG : Nat → ℝ)
    (hD : ∀ v w, v < na → w < na → asMat D1 ldd1 v w = asMat D1 ldd1 w v) :
    (∀ p q, p < ni + na + nv → orbKind ni na q < orbKind ni na p →
      |mcscfGradientR rnd dot no ni na nv T ldt V ldv D1 ldd1 D2 ldd2 OG (rotPos ni na nv p q)
        - 2 * (genFock no (asMat T ldt) (asTen V ldv) (full1 ni na (asMat D1 ldd1))
              (full2 ni na (asMat D1 ldd1) (asTen D2 ldd2)) p q
            - genFock no (asMat T ldt) (asTen V ldv) (full1 ni na (asMat D1 ldd1))
              (full2 ni na (asMat D1 ldd1) (asTen D2 ldd2)) q p)|
      ≤ ((1 + u) ^ (ni + na + na * na + na * na * na + 7) - 1) *
        gradSize ni na (asMat T ldt) (asTen V ldv) (asMat D1 ldd1) (asTen D2 ldd2) p q) ∧
    (∀ m, nRot ni na nv ≤ m →
      mcscfGradientR rnd dot no ni na nv T ldt V ldv D1 ldd1 D2 ldd2 OG m = OG m) := by
  have hu := hr.nonneg
  have row : ∀ p o, p < no → o < no →
      Near u (fockDepth ni na) (if p < ni + na then
          genFockSize ni na (asMat T ldt) (asTen V ldv) (asMat D1 ldd1) (asTen D2 ldd2) p o else 0)
        (generalizedFockR rnd dot no ni na T ldt V ldv D1 ldd1 D2 ldd2 (fun _ => 0) no (p + o * no))
        (genFock no (asMat T ldt) (asTen V ldv) (full1 ni na (asMat D1 ldd1))
          (full2 ni na (asMat D1 ldd1) (asTen D2 ldd2)) p o) := by
    intro p o hp ho
    by_cases h : p < ni + na
    · rw [if_pos h]
      exact genFockR_near hd hr (by omega) (le_refl no) T V D1 D2 _ hD h ho
    · rw [if_neg h, genFock_virtual (by omega) (by omega)]
      have e : generalizedFockR rnd dot no ni na T ldt V ldv D1 ldd1 D2 ldd2 (fun _ => 0) no (p + o * no) = 0 := by
        refine (genFockR_val rnd dot (by omega) _ _ _ _ _).2.2 _ ?_
        intro p' o' hp' ho' e
        obtain ⟨rfl, _⟩ := addr2_inj (le_refl no) hp (by omega) e
        exact h hp'
      rw [e]
      exact near_zero u _
  have val := fun F : Nat → ℝ => pack3 ni na nv OG (f := fun p q => rnd (2 * rnd (F (p + q * no) - F (q + p * no))))
    (f1 := fun i a => rnd (2 * rnd (F (a + ni + na + i * no) - F (i + (a + ni + na) * no))))
    (f2 := fun i a => rnd (2 * rnd (F (a + ni + na + (i + ni) * no) - F (i + ni + (a + ni + na) * no))))
    (f3 := fun i a => rnd (2 * rnd (F (a + ni + i * no) - F (i + (a + ni) * no))))
    (fun i a _ _ => by simp only [Nat.add_assoc]) (fun i a _ _ => by simp only [Nat.add_assoc])
    (fun i a _ _ => rfl)
  constructor
  · intro p q hp hk
    have hq : q < ni + na + nv := by
      rcases kind_cases hp hk with ⟨a, i, ha, hi, rfl, rfl⟩ | ⟨a, x, ha, hx, rfl, rfl⟩ | ⟨x, i, hx, hi, rfl, rfl⟩ <;> omega
    have n := ((((row p q (by omega) (by omega)).sub' hu (row q p (by omega) (by omega))).round hr).mulBy 2).round hr
    rw [show |(2 : ℝ)| = 2 by norm_num] at n
    rw [mcscfGradientR, fockToLinearOrbGradR, splitLinearOrbRot]
    refine le_trans (le_of_eq ?_) n.1
    rw [← (val (generalizedFockR rnd dot no ni na T ldt V ldv D1 ldd1 D2 ldd2 (fun _ => 0) no)).1 p q hp hk]
  · intro m hm
    exact (val (generalizedFockR rnd dot no ni na T ldt V ldv D1 ldd1 D2 ldd2 (fun _ => 0) no)).2 m hm

/-- example: one core, one active and one virtual orbital, `double`; the core-virtual rotation -/
example (T V D1 D2 OG : Nat → ℝ) :
    |mcscfGradientR (chop 52) (fun _ _ _ a b k => seqDot (chop 52) a b k) 3 1 1 1 T 3 V 3 D1 1 D2 1 OG 0
        - 2 * (0 - genFock 3 (asMat T 3) (asTen V 3) (full1 1 1 (asMat D1 1))
          (full2 1 1 (asMat D1 1) (asTen D2 1)) 0 2)|
      ≤ ((1 + 2 ^ (-52 : ℤ)) ^ 11 - 1) *
        (2 * (2 * (fiSize 1 (asMat T 3) (asTen V 3) 2 0 + faSize 1 1 (asTen V 3) (asMat D1 1) 2 0))) := by
  have := (C179_gradient (dot := fun _ _ _ a b k => seqDot (chop 52) a b k) (fun _ _ _ a b k => seqDot_dot _ a b k)
    (chop_rounds 52) (no := 3) (ni := 1) (na := 1) (nv := 1) (ldt := 3) (ldv := 3) (ldd1 := 1) (ldd2 := 1) le_rfl T V
    D1 D2 OG (fun v w hv hw => by
      obtain rfl : v = 0 := by omega
      obtain rfl : w = 0 := by omega
      rfl)).1 2 0 (by norm_num) (by decide)
  simpa [genFock_virtual (n := 3) (ni := 1) (na := 1) (a := 2), rotPos, gradSize, genFockSize] using this

end Macis
