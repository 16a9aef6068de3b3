import Verif.Props.OrbHess
import Verif.Props.NumDeriv

/-! Exact statements beside the refuted claims C86 (symmetry of the Hessian contraction) and C134
(leading dimension of the numerical gradient). -/
namespace Macis
open Spec Finset
variable {R : Type} [Field R]

theorem comm_dot {n : Nat} (G K L : Nat → Nat → R)
    (hK : ∀ p q, p < n → q < n → K p q = -K q p) (hL : ∀ p q, p < n → q < n → L p q = -L q p) :
    (∑ p ∈ range n, ∑ o ∈ range n, L p o * ∑ q ∈ range n, G p q * K q o) -
      ∑ p ∈ range n, ∑ o ∈ range n, K p o * ∑ q ∈ range n, G p q * L q o =
    -∑ p ∈ range n, ∑ q ∈ range n, Spec.commutator n L K p q * G p q := by
  have e : ∀ A B : Nat → Nat → R, (∀ p q, p < n → q < n → B p q = -B q p) →
      ∑ p ∈ range n, ∑ o ∈ range n, A p o * ∑ q ∈ range n, G p q * B q o =
      -∑ p ∈ range n, ∑ q ∈ range n, (∑ o ∈ range n, A p o * B o q) * G p q := by
    intro A B hB
    rw [← Finset.sum_neg_distrib]
    apply Finset.sum_congr rfl; intro p _
    simp only [mul_sum, sum_mul]
    rw [Finset.sum_comm, ← Finset.sum_neg_distrib]
    apply Finset.sum_congr rfl; intro q hq
    rw [← Finset.sum_neg_distrib]
    apply Finset.sum_congr rfl; intro o ho
    rw [mem_range] at hq ho
    rw [hB q o hq ho]; ring
  rw [e L K hK, e K L hL]
  simp only [Spec.commutator, Finset.sum_sub_distrib, sub_mul]
  ring

/-- C86 (exact): how far the Hessian product is from symmetric, in every state: for any two sets of
rotation parameters, with generators `K`, `L`, Fock matrix `F` and unpacked gradient `G`,
`<L, H K> - <K, H L> = sum_pq [L, K]_pq (2 F_pq - G_pq)`. -/
theorem C86_asymmetry (h2 : (2 : R) ≠ 0) {ni na nv ldd1 ldd2 : Nat}
    (T V D1 D2 OG Klin Llin HK HL : Nat → R)
    (hs : IntSym (ni + na + nv) (asMat T (ni + na + nv)) (asTen V (ni + na + nv)))
    (hd : DenSym na (asMat D1 ldd1) (asTen D2 ldd2)) :
    let no := ni + na + nv
    let K := asMat (linearOrbRotToMatrix ni na nv Klin (fun _ => 0) no) no
    let L := asMat (linearOrbRotToMatrix ni na nv Llin (fun _ => 0) no) no
    let G := asMat (linearOrbRotToMatrix ni na nv OG (fun _ => 0) no) no
    let F := asMat (generalizedFockCompMat2 no ni na T no V no D1 ldd1 D2 ldd2 (fun _ => 0) no) no
    ∑ m ∈ range (nRot ni na nv),
        orbOrbHessianContract no ni na nv T no V no D1 ldd1 D2 ldd2 OG Klin HK m * Llin m -
      ∑ m ∈ range (nRot ni na nv),
        orbOrbHessianContract no ni na nv T no V no D1 ldd1 D2 ldd2 OG Llin HL m * Klin m =
    ∑ p ∈ range no, ∑ q ∈ range no, Spec.commutator no L K p q * (2 * F p q - G p q) := by
  intro no K L G F
  have hn : ni + na ≤ no := by omega
  have hff : ∀ p o, p < no → o < no → F p o = _ := fun p o hp ho =>
    fock_full h2 (ldt := no) (ldv := no) (ldd2 := ldd2) hn T V D1 D2 hd.D_symm hp ho
  have cd := comm_dot (n := no) G K L (unpacked ni na nv Klin).1 (unpacked ni na nv Llin).1
  rw [hess_dot h2 T V D1 D2 OG Klin Llin HK hs hd, hess_dot h2 T V D1 D2 OG Llin Klin HL hs hd,
    energy_rot_rot, energy_rot hs (full_sym no hd)]
  have e : ∑ p ∈ range no, ∑ q ∈ range no, Spec.commutator no L K p q * (2 * F p q - G p q) =
      2 * (∑ p ∈ range no, ∑ o ∈ range no, Spec.commutator no L K p o *
        genFock no (asMat T no) (asTen V no) (full1 ni na (asMat D1 ldd1))
          (full2 ni na (asMat D1 ldd1) (asTen D2 ldd2)) p o) -
      ∑ p ∈ range no, ∑ q ∈ range no, Spec.commutator no L K p q * G p q := by
    rw [mul_sum, ← Finset.sum_sub_distrib]
    apply Finset.sum_congr rfl; intro p hp
    rw [mul_sum, ← Finset.sum_sub_distrib]
    apply Finset.sum_congr rfl; intro q hq
    rw [mem_range] at hp hq
    rw [hff p q hp hq]; ring
  rw [e, sub_eq_add_neg (2 * _), ← cd]
  ring

/-- C86 (exact): with the gradient the library computes, the defect of symmetry is the contraction
of the commutator with the antisymmetric part of the Fock matrix, with opposite signs for pairs of
orbitals of the same kind and of different kinds (the latter part is the gradient). -/
theorem C86_asymmetry_gradient (h2 : (2 : R) ≠ 0) {ni na nv ldd1 ldd2 : Nat}
    (T V D1 D2 G0 Klin Llin HK HL : Nat → R)
    (hs : IntSym (ni + na + nv) (asMat T (ni + na + nv)) (asTen V (ni + na + nv)))
    (hd : DenSym na (asMat D1 ldd1) (asTen D2 ldd2)) :
    let no := ni + na + nv
    let K := asMat (linearOrbRotToMatrix ni na nv Klin (fun _ => 0) no) no
    let L := asMat (linearOrbRotToMatrix ni na nv Llin (fun _ => 0) no) no
    let Fl := generalizedFockCompMat2 no ni na T no V no D1 ldd1 D2 ldd2 (fun _ => 0) no
    let OG := fockToLinearOrbGrad ni na nv Fl no G0
    ∑ m ∈ range (nRot ni na nv),
        orbOrbHessianContract no ni na nv T no V no D1 ldd1 D2 ldd2 OG Klin HK m * Llin m -
      ∑ m ∈ range (nRot ni na nv),
        orbOrbHessianContract no ni na nv T no V no D1 ldd1 D2 ldd2 OG Llin HL m * Klin m =
    ∑ p ∈ range no, ∑ q ∈ range no, Spec.commutator no L K p q *
      (if orbKind ni na p = orbKind ni na q then asMat Fl no p q - asMat Fl no q p
       else -(asMat Fl no p q - asMat Fl no q p)) := by
  intro no K L Fl OG
  have main := C86_asymmetry h2 T V D1 D2 OG Klin Llin HK HL hs hd
  simp only at main
  rw [main]
  have hc := commutator_anti L K (unpacked ni na nv Llin).1 (unpacked ni na nv Klin).1
  -- replace `2 F` by its antisymmetric part
  have anti : ∑ p ∈ range no, ∑ q ∈ range no, Spec.commutator no L K p q * (asMat Fl no p q + asMat Fl no q p) = 0 :=
    anti_sym_zero h2 _ (fun p q => asMat Fl no p q + asMat Fl no q p) hc (fun p q _ _ => by ring)
  refine Eq.trans (b := (∑ p ∈ range no, ∑ q ∈ range no, Spec.commutator no L K p q *
      (asMat Fl no p q + asMat Fl no q p)) + _) ?_ (by rw [anti, zero_add])
  rw [← Finset.sum_add_distrib]
  apply Finset.sum_congr rfl; intro p hp
  rw [← Finset.sum_add_distrib]
  apply Finset.sum_congr rfl; intro q hq
  rw [mem_range] at hp hq
  rw [← mul_add]
  congr 1
  obtain ⟨u1, u2, u3⟩ := unpacked ni na nv OG
  rcases Nat.lt_trichotomy (orbKind ni na q) (orbKind ni na p) with h | h | h
  · rw [if_neg (by omega), u3 p q hp h,
      show OG (rotPos ni na nv p q) = _ from (fockToLinear_val ni na nv no Fl G0).1 p q hp h]
    show 2 * asMat Fl no p q - 2 * (asMat Fl no p q - asMat Fl no q p) = _
    ring
  · rw [if_pos h.symm, u2 p q hp hq h.symm]
    show 2 * asMat Fl no p q - 0 = _
    ring
  · rw [if_neg (by omega), u1 p q hp hq, u3 q p hq h,
      show OG (rotPos ni na nv q p) = _ from (fockToLinear_val ni na nv no Fl G0).1 q p hq h]
    show 2 * asMat Fl no p q - -(2 * (asMat Fl no q p - asMat Fl no p q)) = _
    ring

/-- the formula on the case of `C86_not_symmetric_refuted`: the defect is not zero -/
example : ∑ m ∈ range (nRot 1 1 1),
      orbOrbHessianContract 3 1 1 1 hessT 3 (fun _ => 0) 3 (fun _ => 0) 1 (fun _ => 0) 1
        (fockToLinearOrbGrad 1 1 1 (generalizedFockCompMat2 3 1 1 hessT 3 (fun _ => 0) 3 (fun _ => 0) 1
          (fun _ => 0) 1 (fun _ => 0) 3) 3 (fun _ => 0)) (unitLin 2) (fun _ => 0) m * unitLin 1 m ≠
    ∑ m ∈ range (nRot 1 1 1),
      orbOrbHessianContract 3 1 1 1 hessT 3 (fun _ => 0) 3 (fun _ => 0) 1 (fun _ => 0) 1
        (fockToLinearOrbGrad 1 1 1 (generalizedFockCompMat2 3 1 1 hessT 3 (fun _ => 0) 3 (fun _ => 0) 1
          (fun _ => 0) 1 (fun _ => 0) 3) 3 (fun _ => 0)) (unitLin 1) (fun _ => 0) m * unitLin 2 m := by
  decide +kernel

/-- C134 (exact): `LDOG` has no influence at all; whenever it exceeds the number of orbitals and there
are at least three, the caller's element `(no-1, no-2)` keeps its old value. -/
theorem C134_ignored {no ni na ldt ldd1 ldd2 ldog : Nat} (hn : ni + na ≤ no) (T V D1 D2 OG : Nat → ℝ)
    (hd : DenSym na (asMat D1 ldd1) (asTen D2 ldd2)) (dk : ℝ) :
    numericalOrbitalGradient no ni na T ldt V no D1 ldd1 D2 ldd2 OG ldog dk =
      numericalOrbitalGradient no ni na T ldt V no D1 ldd1 D2 ldd2 OG no dk ∧
    (3 ≤ no → no < ldog →
      numericalOrbitalGradient no ni na T ldt V no D1 ldd1 D2 ldd2 OG ldog dk ((no - 1) + (no - 2) * ldog) =
        OG ((no - 1) + (no - 2) * ldog)) := by
  refine ⟨rfl, fun h3 hl => ?_⟩
  refine (numGrad_val hn T V D1 D2 OG hd dk).2 _ fun i a h1 h2 h => ?_
  have a1 : i * no ≤ (no - 2) * no := Nat.mul_le_mul_right _ (by omega)
  have a2 : (no - 2) * no < (no - 2) * ldog := Nat.mul_lt_mul_of_pos_left hl (by omega)
  omega

end Macis
