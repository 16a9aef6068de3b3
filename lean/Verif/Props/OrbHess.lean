import Verif.Props.OrbGrad
/-! Properties C84-C87: orbital Hessian contraction. -/
namespace Macis
open Spec Finset
variable {R : Type} [Field R]

/-- what the one-index transformation stores when `T` has the leading dimension of `X` -/
theorem oneIndex_val {no ldv : Nat} (T V X Tx Vx : Nat → R) :
    let H := oneIndexTransformedHamiltonian no T no V ldv X no Tx no Vx no
    (∀ p q, p < no → q < no → asMat H.1 no p q = rot1 no (asMat X no) (asMat T no) p q) ∧
    (∀ p q r s, p < no → q < no → r < no → s < no →
      asTen H.2 no p q r s = rot2 no (asMat X no) (asTen V ldv) p q r s) := by
  intro H
  constructor
  · intro p q hp hq
    exact (fill2 (le_refl no) Tx _).1 p q hp hq
  · intro p q r s hp hq hr hs
    exact (fill4 (le_refl no) Vx _).1 p q r s hp hq hr hs

/-- the two parts of the packed Hessian product, contracted with a second set of parameters -/
theorem hess_dot (h2 : (2 : R) ≠ 0) {ni na nv ldv ldd1 ldd2 : Nat} (T V D1 D2 OG Klin Llin HK : Nat → R)
    (hs : IntSym (ni + na + nv) (asMat T (ni + na + nv)) (asTen V ldv))
    (hd : DenSym na (asMat D1 ldd1) (asTen D2 ldd2)) :
    let no := ni + na + nv
    let K := asMat (linearOrbRotToMatrix ni na nv Klin (fun _ => 0) no) no
    let L := asMat (linearOrbRotToMatrix ni na nv Llin (fun _ => 0) no) no
    let G := asMat (linearOrbRotToMatrix ni na nv OG (fun _ => 0) no) no
    ∑ m ∈ range (nRot ni na nv),
        orbOrbHessianContract no ni na nv T no V ldv D1 ldd1 D2 ldd2 OG Klin HK m * Llin m =
      energy no (rot1 no L (rot1 no K (asMat T no))) (rot2 no L (rot2 no K (asTen V ldv)))
        (full1 ni na (asMat D1 ldd1)) (full2 ni na (asMat D1 ldd1) (asTen D2 ldd2)) +
      ∑ p ∈ range no, ∑ o ∈ range no, L p o * ∑ q ∈ range no, G p q * K q o := by
  intro no K L G
  let Kmat := linearOrbRotToMatrix ni na nv Klin (fun _ => 0) no
  let Gmat := linearOrbRotToMatrix ni na nv OG (fun _ => 0) no
  let H := oneIndexTransformedHamiltonian no T no V ldv Kmat no (fun _ => 0) no (fun _ => 0) no
  let Fk := generalizedFockCompMat2 no ni na H.1 no H.2 no D1 ldd1 D2 ldd2 (fun _ => 0) no
  let P := gemm false no no no Gmat no Kmat no Fk 0 no
  let C := storeAll Gmat ((pairs2 no).map fun x =>
    (x.1 + x.2 * no, P (x.1 + x.2 * no) - P (x.2 + x.1 * no)))
  obtain ⟨o1, o2⟩ := oneIndex_val (no := no) T V Kmat (fun _ => 0) (fun _ => 0)
  have hs' := intSym_congr o1 o2 (rot_sym hs K)
  have hP : ∀ p o, p < no → o < no → P (p + o * no) = ∑ q ∈ range no, G p q * K q o := by
    intro p o hp ho
    have := (gemm_spec false no no no Gmat no Kmat no Fk 0 no (le_refl no)).1 p o hp ho
    rw [Nat.zero_add] at this
    refine this.trans ?_
    simp only [Bool.false_eq_true, if_false]
    rfl
  obtain ⟨u1, u2, u3⟩ := unpacked ni na nv Llin
  have e1 : ∀ m ∈ range (nRot ni na nv),
      orbOrbHessianContract no ni na nv T no V ldv D1 ldd1 D2 ldd2 OG Klin HK m * Llin m =
        fockToLinearOrbGrad ni na nv Fk no HK m * Llin m +
        matrixToLinearOrbRot ni na nv C no (fun _ => 0) m * Llin m := by
    intro m hm
    rw [mem_range, nRot] at hm
    rw [← add_mul]
    congr 1
    exact if_pos hm
  rw [Finset.sum_congr rfl e1, Finset.sum_add_distrib, grad_energy h2 _ _ D1 D2 HK Llin hs' hd]
  congr 1
  · exact energy_congr (fun p q hp hq => rot1_congr _ o1 hp hq)
      (fun p q r s hp hq hr hs => rot2_congr _ o2 hp hq hr hs)
  · rw [antisym_dot (orbKind ni na) L _ u1 (fun p q hp hq e => u2 p q hp hq e),
      packed_sum ni na nv (fun m => matrixToLinearOrbRot ni na nv C no (fun _ => 0) m * Llin m)
        (fun p q => C (p + q * no) * Llin (rotPos ni na nv p q))
        (fun p q hp hk => by rw [(matrixToLinear_val ni na nv no C (fun _ => 0)).1 p q hp hk])]
    apply Finset.sum_congr rfl; intro p hp
    apply Finset.sum_congr rfl; intro o ho
    rw [mem_range] at hp ho
    split
    · rw [show L p o = _ from u3 p o hp (by assumption)]
      have : C (p + o * no) = P (p + o * no) - P (o + p * no) :=
        (fill2 (le_refl no) Gmat _).1 p o hp ho
      rw [this, hP p o hp ho, hP o p ho hp]
      ring
    · rfl

/-- the contraction of a commutator with the generator itself vanishes -/
theorem comm_self {n : Nat} (h2 : (2 : R) ≠ 0) (G K : Nat → Nat → R)
    (hG : ∀ p q, p < n → q < n → G p q = -G q p) (hK : ∀ p q, p < n → q < n → K p q = -K q p) :
    ∑ p ∈ range n, ∑ o ∈ range n, K p o * ∑ q ∈ range n, G p q * K q o = 0 := by
  have e : ∑ p ∈ range n, ∑ o ∈ range n, K p o * ∑ q ∈ range n, G p q * K q o =
      ∑ p ∈ range n, ∑ q ∈ range n, G p q * ∑ o ∈ range n, K p o * K q o := by
    apply Finset.sum_congr rfl; intro p _
    simp only [mul_sum]
    rw [Finset.sum_comm]
    apply Finset.sum_congr rfl; intro q _
    apply Finset.sum_congr rfl; intro o _
    ring
  have neg : ∑ p ∈ range n, ∑ q ∈ range n, G p q * ∑ o ∈ range n, K p o * K q o =
      -∑ p ∈ range n, ∑ q ∈ range n, G p q * ∑ o ∈ range n, K p o * K q o := by
    conv_lhs => rw [Finset.sum_comm]
    rw [← Finset.sum_neg_distrib]
    apply Finset.sum_congr rfl; intro p hp
    rw [← Finset.sum_neg_distrib]
    apply Finset.sum_congr rfl; intro q hq
    rw [mem_range] at hp hq
    rw [hG q p hq hp, neg_mul]
    congr 2
    apply Finset.sum_congr rfl; intro o _
    ring
  rw [e]
  have : 2 * ∑ p ∈ range n, ∑ q ∈ range n, G p q * ∑ o ∈ range n, K p o * K q o = 0 := by
    rw [two_mul]; nth_rewrite 1 [neg]; ring
  rcases mul_eq_zero.mp this with h | h
  · exact absurd h h2
  · exact h

/-- C84: the packed Hessian product contracted with the rotation parameters is the second derivative at
the start of the energy along `exp(-t K)`, for every gradient passed in. -/
theorem C84_second_derivative {ni na nv ldu ldd1 ldd2 : Nat} (hld : ni + na + nv ≤ ldu)
    (T V D1 D2 Klin OG U0 HK : Nat → ℝ)
    (hs : IntSym (ni + na + nv) (asMat T (ni + na + nv)) (asTen V (ni + na + nv)))
    (hd : DenSym na (asMat D1 ldd1) (asTen D2 ldd2)) :
    let no := ni + na + nv
    let U := fun t : ℝ => computeOrbitalRotation no t
      (linearOrbRotToMatrix ni na nv Klin (fun _ => 0) no) no U0 ldu
    let E := fun t => orbitalRotatedEnergy no ni na T no V no D1 ldd1 D2 ldd2 (U t) ldu
    HasDerivAt (deriv E) (∑ m ∈ range (nRot ni na nv),
      orbOrbHessianContract no ni na nv T no V no D1 ldd1 D2 ldd2 OG Klin HK m * Klin m) 0 := by
  intro no U E
  have h2 : (2 : ℝ) ≠ 0 := by norm_num
  have hn : ni + na ≤ no := by omega
  have e' : E =
      fun t => energy no (tr2 no (asMat (U t) ldu) (asMat T no)) (tr4 no (asMat (U t) ldu) (asTen V no))
        (full1 ni na (asMat D1 ldd1)) (full2 ni na (asMat D1 ldd1) (asTen D2 ldd2)) := by
    funext t
    exact rotatedEnergy_val h2 hn T V D1 D2 (U t) hd.D_symm
  have c := curve_deriv hld (asMat T no) (asTen V no) Klin U0 (full1 ni na (asMat D1 ldd1))
    (full2 ni na (asMat D1 ldd1) (asTen D2 ldd2))
  have d1 : deriv E = fun t =>
      energy no (rot1 no (asMat (linearOrbRotToMatrix ni na nv Klin (fun _ => 0) no) no)
          (tr2 no (asMat (U t) ldu) (asMat T no)))
        (rot2 no (asMat (linearOrbRotToMatrix ni na nv Klin (fun _ => 0) no) no)
          (tr4 no (asMat (U t) ldu) (asTen V no)))
        (full1 ni na (asMat D1 ldd1)) (full2 ni na (asMat D1 ldd1) (asTen D2 ldd2)) := by
    rw [e']; exact funext fun t => (c t).1.deriv
  rw [d1, hess_dot h2 T V D1 D2 OG Klin Klin HK hs hd,
    comm_self h2 _ _ (unpacked ni na nv OG).1 (unpacked ni na nv Klin).1, add_zero]
  obtain ⟨o1, o2⟩ := tr_one (fun i p hi hp => rotation_zero (ldk := no) hld
    (linearOrbRotToMatrix ni na nv Klin (fun _ => 0) no) U0 hi hp) (asMat T no) (asTen V no)
  refine (c 0).2.congr_deriv ?_
  exact energy_congr
    (fun p q hp hq => rot1_congr _ (fun p q hp hq => rot1_congr _ o1 hp hq) hp hq)
    (fun p q r s hp hq hr hs => rot2_congr _
      (fun p q r s hp hq hr hs => rot2_congr _ o2 hp hq hr hs) hp hq hr hs)

/-- commutators of antisymmetric generators are antisymmetric -/
theorem commutator_anti {n : Nat} (K L : Nat → Nat → R)
    (hK : ∀ p q, p < n → q < n → K p q = -K q p) (hL : ∀ p q, p < n → q < n → L p q = -L q p)
    (p q : Nat) (hp : p < n) (hq : q < n) : Spec.commutator n K L p q = -Spec.commutator n K L q p := by
  rw [Spec.commutator, Spec.commutator, ← Finset.sum_neg_distrib]
  apply Finset.sum_congr rfl; intro o ho
  rw [mem_range] at ho
  rw [hK p o hp ho, hL p o hp ho, hL o q ho hq, hK o q ho hq]; ring

/-- an antisymmetric and a symmetric matrix -/
theorem anti_sym_zero {n : Nat} (h2 : (2 : R) ≠ 0) (A F : Nat → Nat → R)
    (hA : ∀ p q, p < n → q < n → A p q = -A q p) (hF : ∀ p q, p < n → q < n → F p q = F q p) :
    ∑ p ∈ range n, ∑ o ∈ range n, A p o * F p o = 0 := by
  have neg : ∑ p ∈ range n, ∑ o ∈ range n, A p o * F p o =
      -∑ p ∈ range n, ∑ o ∈ range n, A p o * F p o := by
    conv_lhs => rw [Finset.sum_comm]
    rw [← Finset.sum_neg_distrib]
    apply Finset.sum_congr rfl; intro p hp
    rw [← Finset.sum_neg_distrib]
    apply Finset.sum_congr rfl; intro q hq
    rw [mem_range] at hp hq
    rw [hA q p hq hp, hF q p hq hp]; ring
  have : 2 * ∑ p ∈ range n, ∑ o ∈ range n, A p o * F p o = 0 := by
    rw [two_mul]; nth_rewrite 1 [neg]; ring
  rcases mul_eq_zero.mp this with h | h
  · exact absurd h h2
  · exact h

theorem fi_symm {n ni : Nat} {h : Nat → Nat → R} {g : Nat → Nat → Nat → Nat → R} (hi : IntSym n h g)
    (hn : ni ≤ n) {p q : Nat} (hp : p < n) (hq : q < n) : fi ni h g p q = fi ni h g q p := by
  rw [fi, fi, hi.h_symm p q hp hq]
  congr 1
  apply Finset.sum_congr rfl; intro i hi'
  rw [mem_range] at hi'
  rw [hi.g_left p q i i hp hq (by omega) (by omega), hi.g_pair p i i q hp (by omega) (by omega) hq,
    hi.g_left i q p i (by omega) hq hp (by omega), hi.g_right q i p i hq (by omega) hp (by omega)]

theorem fa_symm {n ni na : Nat} {h : Nat → Nat → R} {g : Nat → Nat → Nat → Nat → R}
    {D : Nat → Nat → R} (hi : IntSym n h g) (hn : ni + na ≤ n)
    (hD : ∀ v w, v < na → w < na → D v w = D w v) {p q : Nat} (hp : p < n) (hq : q < n) :
    fa ni na g D p q = fa ni na g D q p := by
  rw [fa, fa, Finset.sum_comm]
  apply Finset.sum_congr rfl; intro v hv
  apply Finset.sum_congr rfl; intro w hw
  rw [mem_range] at hv hw
  rw [hD w v hw hv, hi.g_left p q (ni + w) (ni + v) hp hq (by omega) (by omega),
    hi.g_right q p (ni + w) (ni + v) hq hp (by omega) (by omega),
    hi.g_pair p (ni + v) (ni + w) q hp (by omega) (by omega) hq,
    hi.g_left (ni + w) q p (ni + v) (by omega) hq hp (by omega),
    hi.g_right q (ni + w) p (ni + v) hq (by omega) hp (by omega)]

/-- C85: where the packed gradient vanishes and the active block of the Fock matrix is symmetric (a
stationary point), the Hessian product is symmetric. -/
theorem C85_symmetric_at_stationary (h2 : (2 : R) ≠ 0) {ni na nv ldv ldd1 ldd2 : Nat}
    (T V D1 D2 OG Klin Llin HK HL G : Nat → R)
    (hs : IntSym (ni + na + nv) (asMat T (ni + na + nv)) (asTen V ldv))
    (hd : DenSym na (asMat D1 ldd1) (asTen D2 ldd2)) :
    let no := ni + na + nv
    let F := generalizedFockCompMat2 no ni na T no V ldv D1 ldd1 D2 ldd2 (fun _ => 0) no
    (∀ m, m < nRot ni na nv → fockToLinearOrbGrad ni na nv F no G m = 0) →
    (∀ m, m < nRot ni na nv → OG m = fockToLinearOrbGrad ni na nv F no G m) →
    (∀ x y, x < na → y < na → asMat F no (ni + x) (ni + y) = asMat F no (ni + y) (ni + x)) →
    ∑ m ∈ range (nRot ni na nv),
        orbOrbHessianContract no ni na nv T no V ldv D1 ldd1 D2 ldd2 OG Klin HK m * Llin m =
      ∑ m ∈ range (nRot ni na nv),
        orbOrbHessianContract no ni na nv T no V ldv D1 ldd1 D2 ldd2 OG Llin HL m * Klin m := by
  intro no F hG hOG hact
  have hn : ni + na ≤ no := by omega
  have hff : ∀ p o, p < no → o < no → asMat F no p o = _ := fun p o hp ho =>
    fock_full h2 (ldt := no) (ldv := ldv) (ldd2 := ldd2) hn T V D1 D2 hd.D_symm hp ho
  -- the Fock matrix is symmetric
  have off : ∀ p q, p < no → orbKind ni na q < orbKind ni na p → asMat F no p q = asMat F no q p := by
    intro p q hp hk
    have := hG _ (rotPos_lt hp hk)
    rw [(fockToLinear_val ni na nv no F G).1 p q hp hk] at this
    rcases mul_eq_zero.mp this with h | h
    · exact absurd h h2
    · exact sub_eq_zero.mp h
  have sym : ∀ p q, p < no → q < no → asMat F no p q = asMat F no q p := by
    intro p q hp hq
    rcases Nat.lt_trichotomy (orbKind ni na q) (orbKind ni na p) with h | h | h
    · exact off p q hp h
    · by_cases p1 : p < ni
      · have q1 : q < ni := by
          by_contra hc
          simp only [orbKind, if_pos p1, if_neg hc] at h
          split at h <;> omega
        rw [hff p q hp hq, hff q p hq hp, genFock_inactive h2 hn p1, genFock_inactive h2 hn q1,
          fi_symm hs (by omega) hp hq, fa_symm hs hn hd.D_symm hp hq]
      · by_cases p2 : p < ni + na
        · have q1 : ni ≤ q ∧ q < ni + na := by
            simp only [orbKind, if_neg p1, if_pos p2] at h
            split at h
            · omega
            · split at h <;> omega
          have := hact (p - ni) (q - ni) (by omega) (by omega)
          rwa [show ni + (p - ni) = p by omega, show ni + (q - ni) = q by omega] at this
        · have q1 : ni + na ≤ q := by
            simp only [orbKind, if_neg p1, if_neg p2] at h
            split at h
            · omega
            · split at h <;> omega
          rw [hff p q hp hq, hff q p hq hp, genFock_virtual hn (by omega), genFock_virtual hn q1]
    · exact (off q p hq h).symm
  -- a vanishing gradient contributes no commutator
  have hGz : ∀ p q, p < no → q < no →
      asMat (linearOrbRotToMatrix ni na nv OG (fun _ => 0) no) no p q = 0 := by
    obtain ⟨u1, u2, u3⟩ := unpacked ni na nv OG
    have hi : ∀ p q, p < no → orbKind ni na q < orbKind ni na p →
        asMat (linearOrbRotToMatrix ni na nv OG (fun _ => 0) no) no p q = 0 := by
      intro p q hp h
      have := rotPos_lt hp h
      rw [u3 p q hp h, hOG _ this, hG _ this]
    intro p q hp hq
    rcases Nat.lt_trichotomy (orbKind ni na q) (orbKind ni na p) with h | h | h
    · exact hi p q hp h
    · exact u2 p q hp hq h.symm
    · rw [u1 p q hp hq, hi q p hq h, neg_zero]
  have zero : ∀ A B : Nat → Nat → R, ∑ p ∈ range no, ∑ o ∈ range no, A p o * ∑ q ∈ range no,
      asMat (linearOrbRotToMatrix ni na nv OG (fun _ => 0) no) no p q * B q o = 0 := by
    intro A B
    apply Finset.sum_eq_zero; intro p hp
    apply Finset.sum_eq_zero; intro o ho
    rw [Finset.sum_eq_zero, mul_zero]
    intro q hq
    rw [mem_range] at hp hq
    rw [hGz p q hp hq, zero_mul]
  rw [hess_dot h2 T V D1 D2 OG Klin Llin HK hs hd, hess_dot h2 T V D1 D2 OG Llin Klin HL hs hd,
    zero, zero, add_zero, add_zero, energy_rot_rot, energy_rot hs (full_sym no hd)]
  rw [anti_sym_zero h2, mul_zero, add_zero]
  · exact commutator_anti _ _ (unpacked ni na nv Llin).1 (unpacked ni na nv Klin).1
  · intro p q hp hq
    rw [← hff p q hp hq, ← hff q p hq hp, sym p q hp hq]

/-- one inactive, one active and one virtual orbital with a single one-electron integral -/
def hessT : Nat → Rat := fun a => if a = 2 ∨ a = 6 then 1 else 0

/-- unit vector of packed parameters -/
def unitLin (k : Nat) : Nat → Rat := fun m => if m = k then 1 else 0

/-- C86 (refuted): away from stationary points the Hessian product is not symmetric.  The gradient
passed in is the one the library computes; a second derivative would be symmetric. -/
theorem C86_not_symmetric_refuted :
    ¬ ∀ (ni na nv ldd1 ldd2 : Nat) (T V D1 D2 Klin Llin : Nat → Rat),
      IntSym (ni + na + nv) (asMat T (ni + na + nv)) (asTen V (ni + na + nv)) →
      DenSym na (asMat D1 ldd1) (asTen D2 ldd2) →
      let no := ni + na + nv
      let OG := fockToLinearOrbGrad ni na nv
        (generalizedFockCompMat2 no ni na T no V no D1 ldd1 D2 ldd2 (fun _ => 0) no) no (fun _ => 0)
      ∑ m ∈ range (nRot ni na nv),
          orbOrbHessianContract no ni na nv T no V no D1 ldd1 D2 ldd2 OG Klin (fun _ => 0) m * Llin m =
        ∑ m ∈ range (nRot ni na nv),
          orbOrbHessianContract no ni na nv T no V no D1 ldd1 D2 ldd2 OG Llin (fun _ => 0) m * Klin m := by
  intro h
  have hs : IntSym 3 (asMat hessT 3) (asTen (fun _ => (0 : Rat)) 3) := by
    refine ⟨?_, fun _ _ _ _ _ _ _ _ => rfl, fun _ _ _ _ _ _ _ _ => rfl, fun _ _ _ _ _ _ _ _ => rfl⟩
    have : ∀ p < 3, ∀ q < 3, asMat hessT 3 p q = asMat hessT 3 q p := by decide +kernel
    exact fun p q hp hq => this p hp q hq
  have hd : DenSym 1 (asMat (fun _ => (0 : Rat)) 1) (asTen (fun _ => (0 : Rat)) 1) :=
    ⟨fun _ _ _ _ => rfl, fun _ _ _ _ _ _ _ _ => rfl, fun _ _ _ _ _ _ _ _ => rfl⟩
  have := h 1 1 1 1 1 hessT (fun _ => 0) (fun _ => 0) (fun _ => 0) (unitLin 2) (unitLin 1) hs hd
  revert this
  decide +kernel

/-- C87 (refuted): the one-index transformation of padded integrals is not `[T, X]`-like: the second
product reads `T` with the leading dimension of `X`. -/
theorem C87_padded_one_index_refuted :
    ¬ ∀ (no ldt : Nat) (T V X : Nat → Rat), no ≤ ldt → ∀ p q, p < no → q < no →
      asMat (oneIndexTransformedHamiltonian no T ldt V no X no (fun _ => 0) no (fun _ => 0) no).1 no p q =
        rot1 no (asMat X no) (asMat T ldt) p q := by
  intro h
  have := h 2 3 (fun a => a) (fun _ => 0) (fun a => a) (by decide) 1 1 (by decide) (by decide)
  revert this
  decide +kernel

/-- C87 (exact): what the arrays hold for all leading dimensions; the second product of the one-body part is with
`T` read at the leading dimension of `X`. -/
theorem C87_one_index_exact {no ldt ldv ldx ldtx ldvx : Nat} (h1 : no ≤ ldtx) (h2 : no ≤ ldvx) (T V X Tx Vx : Nat → R) :
    let H := oneIndexTransformedHamiltonian no T ldt V ldv X ldx Tx ldtx Vx ldvx
    (∀ p q, p < no → q < no → asMat H.1 ldtx p q =
      ∑ o ∈ range no, (asMat X ldx p o * asMat T ldt o q + asMat X ldx q o * asMat T ldx p o)) ∧
    (∀ p q r s, p < no → q < no → r < no → s < no →
      asTen H.2 ldvx p q r s = rot2 no (asMat X ldx) (asTen V ldv) p q r s) := by
  intro H
  constructor
  · intro p q hp hq
    exact (fill2 h1 Tx _).1 p q hp hq
  · intro p q r s hp hq hr hs
    exact (fill4 h2 Vx _).1 p q r s hp hq hr hs

/-- C87: with the leading dimension of `X` equal to that of `T` the arrays hold the first-order change
of the integrals, for all other leading dimensions. -/
theorem C87_one_index_partial {no ld ldv ldtx ldvx : Nat} (h1 : no ≤ ldtx) (h2 : no ≤ ldvx) (T V X Tx Vx : Nat → R) :
    let H := oneIndexTransformedHamiltonian no T ld V ldv X ld Tx ldtx Vx ldvx
    (∀ p q, p < no → q < no → asMat H.1 ldtx p q = rot1 no (asMat X ld) (asMat T ld) p q) ∧
    (∀ p q r s, p < no → q < no → r < no → s < no →
      asTen H.2 ldvx p q r s = rot2 no (asMat X ld) (asTen V ldv) p q r s) :=
  C87_one_index_exact h1 h2 T V X Tx Vx

/-- integrals with the full symmetry and densities of a case with one orbital of each kind -/
def symV : Nat → Rat := fun a =>
  (((a % 3 + a / 3 % 3 + 1) * (a / 9 % 3 + a / 27 % 3 + 1) : Nat) : Rat)

/-- the hypotheses of the theorems above hold in this case -/
example : IntSym 3 (asMat symV 3) (asTen symV 3) ∧
    DenSym 1 (asMat (fun a => (a : Rat) + 1) 2) (asTen (fun a => (a : Rat) + 2) 2) := by
  have h1 : ∀ p < 3, ∀ q < 3, asMat symV 3 p q = asMat symV 3 q p := by decide +kernel
  have h2 : ∀ p < 3, ∀ q < 3, ∀ r < 3, ∀ s < 3, asTen symV 3 p q r s = asTen symV 3 q p r s ∧
      asTen symV 3 p q r s = asTen symV 3 p q s r ∧ asTen symV 3 p q r s = asTen symV 3 r s p q := by
    decide +kernel
  refine ⟨⟨fun p q hp hq => h1 p hp q hq, fun p q r s a b c d => (h2 p a q b r c s d).1,
    fun p q r s a b c d => (h2 p a q b r c s d).2.1, fun p q r s a b c d => (h2 p a q b r c s d).2.2⟩, ?_⟩
  refine ⟨?_, ?_, ?_⟩
  · intro p q hp hq; obtain rfl : p = 0 := by omega
    obtain rfl : q = 0 := by omega
    rfl
  · intro p q r s hp hq hr hs; obtain rfl : p = 0 := by omega
    obtain rfl : q = 0 := by omega
    obtain rfl : r = 0 := by omega
    obtain rfl : s = 0 := by omega
    rfl
  · intro p q r s hp hq hr hs; obtain rfl : p = 0 := by omega
    obtain rfl : q = 0 := by omega
    obtain rfl : r = 0 := by omega
    obtain rfl : s = 0 := by omega
    rfl

/-- a stationary point with a non-zero Hessian product: one inactive and one virtual orbital with
different orbital energies -/
example :
    let T : Nat → Rat := fun a => if a = 3 then 5 else 0
    let F := generalizedFockCompMat2 2 1 0 T 2 (fun _ => 0) 2 (fun _ => 0) 0 (fun _ => 0) 0 (fun _ => 0) 2
    fockToLinearOrbGrad 1 0 1 F 2 (fun _ => 0) 0 = 0 ∧ nRot 1 0 1 = 1 ∧
    orbOrbHessianContract 2 1 0 1 T 2 (fun _ => 0) 2 (fun _ => 0) 0 (fun _ => 0) 0 (fun _ => 0)
      (fun _ => 1) (fun _ => 0) 0 = 20 := by
  decide +kernel

end Macis
