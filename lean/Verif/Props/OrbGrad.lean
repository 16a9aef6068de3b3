import Verif.Lemmas.OrbGrad2
import Mathlib.Analysis.Calculus.Deriv.Add
/-! Properties C82-C87: orbital gradient and orbital Hessian contraction. -/
namespace Macis
open Spec Finset
variable {R : Type} [Field R]

/-- the whole generalized Fock matrix, virtual rows included, when the array starts out zero -/
theorem fock_full (h2 : (2 : R) ≠ 0) {no ni na ldt ldv ldd1 ldd2 : Nat} (hn : ni + na ≤ no)
    (T V D1 D2 : Nat → R)
    (hD : ∀ v w, v < na → w < na → asMat D1 ldd1 v w = asMat D1 ldd1 w v) {p o : Nat} (hp : p < no)
    (ho : o < no) :
    asMat (generalizedFockCompMat2 no ni na T ldt V ldv D1 ldd1 D2 ldd2 (fun _ => 0) no) no p o =
      genFock no (asMat T ldt) (asTen V ldv) (full1 ni na (asMat D1 ldd1))
        (full2 ni na (asMat D1 ldd1) (asTen D2 ldd2)) p o := by
  obtain ⟨f1, f2, f3⟩ := C39_generalized_fock h2 (ldt := ldt) (ldv := ldv) (ldd2 := ldd2) hn (le_refl no)
    T V D1 D2 (fun _ => 0) hD
  by_cases h : p < ni + na
  · exact f1 p o h ho
  · rw [f2 p o (by omega)]
    apply f3
    intro p' o' hp' ho' e
    obtain ⟨rfl, _⟩ := addr2_inj (le_refl no) hp (by omega) e
    exact h hp'

theorem intSym_congr {n : Nat} {h h' : Nat → Nat → R} {g g' : Nat → Nat → Nat → Nat → R}
    (eh : ∀ p q, p < n → q < n → h p q = h' p q)
    (eg : ∀ p q r s, p < n → q < n → r < n → s < n → g p q r s = g' p q r s) (hs : IntSym n h' g') :
    IntSym n h g := by
  refine ⟨?_, ?_, ?_, ?_⟩
  · intro p q hp hq; rw [eh p q hp hq, eh q p hq hp, hs.h_symm p q hp hq]
  · intro p q r s hp hq hr hs'
    rw [eg p q r s hp hq hr hs', eg q p r s hq hp hr hs', hs.g_left p q r s hp hq hr hs']
  · intro p q r s hp hq hr hs'
    rw [eg p q r s hp hq hr hs', eg p q s r hp hq hs' hr, hs.g_right p q r s hp hq hr hs']
  · intro p q r s hp hq hr hs'
    rw [eg p q r s hp hq hr hs', eg r s p q hr hs' hp hq, hs.g_pair p q r s hp hq hr hs']

theorem rot1_congr {n : Nat} (K : Nat → Nat → R) {h h' : Nat → Nat → R}
    (eh : ∀ p q, p < n → q < n → h p q = h' p q) {p q : Nat} (hp : p < n) (hq : q < n) :
    rot1 n K h p q = rot1 n K h' p q := by
  apply Finset.sum_congr rfl; intro o ho
  rw [mem_range] at ho
  rw [eh o q ho hq, eh p o hp ho]

theorem rot2_congr {n : Nat} (K : Nat → Nat → R) {g g' : Nat → Nat → Nat → Nat → R}
    (eg : ∀ p q r s, p < n → q < n → r < n → s < n → g p q r s = g' p q r s) {p q r s : Nat}
    (hp : p < n) (hq : q < n) (hr : r < n) (hs : s < n) : rot2 n K g p q r s = rot2 n K g' p q r s := by
  apply Finset.sum_congr rfl; intro o ho
  rw [mem_range] at ho
  rw [eg o q r s ho hq hr hs, eg p o r s hp ho hr hs, eg p q o s hp hq ho hs, eg p q r o hp hq hr ho]

/-- packed gradient times packed parameters, for the Fock matrix the library computes -/
theorem grad_energy (h2 : (2 : R) ≠ 0) {ni na nv ldt ldv ldd1 ldd2 : Nat} (T V D1 D2 G Klin : Nat → R)
    (hs : IntSym (ni + na + nv) (asMat T ldt) (asTen V ldv))
    (hd : DenSym na (asMat D1 ldd1) (asTen D2 ldd2)) :
    let no := ni + na + nv
    let K := asMat (linearOrbRotToMatrix ni na nv Klin (fun _ => 0) no) no
    ∑ m ∈ range (nRot ni na nv), fockToLinearOrbGrad ni na nv
        (generalizedFockCompMat2 no ni na T ldt V ldv D1 ldd1 D2 ldd2 (fun _ => 0) no) no G m * Klin m =
      energy no (rot1 no K (asMat T ldt)) (rot2 no K (asTen V ldv)) (full1 ni na (asMat D1 ldd1))
        (full2 ni na (asMat D1 ldd1) (asTen D2 ldd2)) := by
  intro no K
  rw [grad_dot, energy_rot hs (full_sym no hd)]
  congr 1
  apply Finset.sum_congr rfl; intro p hp
  apply Finset.sum_congr rfl; intro o ho
  rw [mem_range] at hp ho
  rw [fock_full h2 (by omega) T V D1 D2 hd.D_symm hp ho]

/-- the rotated energy as the energy of transformed integrals -/
theorem rotatedEnergy_val (h2 : (2 : R) ≠ 0) {no ni na ldt ldu ldd1 ldd2 : Nat} (hn : ni + na ≤ no)
    (T V D1 D2 U : Nat → R)
    (hD : ∀ v w, v < na → w < na → asMat D1 ldd1 v w = asMat D1 ldd1 w v) :
    orbitalRotatedEnergy no ni na T ldt V no D1 ldd1 D2 ldd2 U ldu =
      energy no (tr2 no (asMat U ldu) (asMat T ldt)) (tr4 no (asMat U ldu) (asTen V no))
        (full1 ni na (asMat D1 ldd1)) (full2 ni na (asMat D1 ldd1) (asTen D2 ldd2)) := by
  obtain ⟨v1, v2⟩ := transform_val (no := no) (ldt := ldt) (ldu := ldu) T V U (fun _ => 0) (fun _ => 0)
  rw [orbitalRotatedEnergy, orbitalRotatedEnergyWork, orbitalRotatedGeneralizedFock]
  simp only
  rw [C39_energy_from_fock h2 hn (le_refl no) _ _ D1 D2 _ hD]
  exact energy_congr v1 v2

/-- the curve of energies under the rotations `exp(-t K)`, in terms of the reference energy -/
theorem curve_deriv {ni na nv ldu : Nat} (hld : ni + na + nv ≤ ldu) (h : Nat → Nat → ℝ)
    (g : Nat → Nat → Nat → Nat → ℝ) (Klin U0 : Nat → ℝ)
    (D : Nat → Nat → ℝ) (d : Nat → Nat → Nat → Nat → ℝ) (t : ℝ) :
    let no := ni + na + nv
    let Kmat := linearOrbRotToMatrix ni na nv Klin (fun _ => 0) no
    let K := asMat Kmat no
    let a := fun t : ℝ => asMat (computeOrbitalRotation no t Kmat no U0 ldu) ldu
    HasDerivAt (fun t => energy no (tr2 no (a t) h) (tr4 no (a t) g) D d)
      (energy no (rot1 no K (tr2 no (a t) h)) (rot2 no K (tr4 no (a t) g)) D d) t ∧
    HasDerivAt (fun t => energy no (rot1 no K (tr2 no (a t) h))
        (rot2 no K (tr4 no (a t) g)) D d)
      (energy no (rot1 no K (rot1 no K (tr2 no (a t) h)))
        (rot2 no K (rot2 no K (tr4 no (a t) g))) D d) t := by
  intro no Kmat K a
  obtain ⟨u1, -, -⟩ := unpacked ni na nv Klin
  have ha : ∀ i p, i < no → p < no →
      HasDerivAt (fun t => a t i p) (∑ o ∈ range no, K p o * a t i o) t := fun i p hi hp =>
    rotation_deriv no no ldu hld Kmat U0 u1 t i p hi hp
  have d1 : ∀ p q, p < no → q < no → HasDerivAt (fun t => tr2 no (a t) h p q)
      (rot1 no K (tr2 no (a t) h) p q) t := fun p q hp hq => tr2_deriv a K _ t ha hp hq
  have d2 : ∀ p q r s, p < no → q < no → r < no → s < no →
      HasDerivAt (fun t => tr4 no (a t) g p q r s)
      (rot2 no K (tr4 no (a t) g) p q r s) t :=
    fun p q r s hp hq hr hs => tr4_deriv a K _ t ha hp hq hr hs
  constructor
  · exact energy_deriv _ _ _ _ D d t d1 d2
  · apply energy_deriv (fun t => rot1 no K (tr2 no (a t) h))
      (fun t => rot2 no K (tr4 no (a t) g))
    · intro p q hp hq
      simp only [rot1]
      apply HasDerivAt.fun_sum; intro o ho
      rw [mem_range] at ho
      exact ((d1 o q ho hq).const_mul _).add ((d1 p o hp ho).const_mul _)
    · intro p q r s hp hq hr hs
      simp only [rot2]
      apply HasDerivAt.fun_sum; intro o ho
      rw [mem_range] at ho
      exact ((((d2 o q r s ho hq hr hs).const_mul _).add ((d2 p o r s hp ho hr hs).const_mul _)).add
        ((d2 p q o s hp hq ho hs).const_mul _)).add ((d2 p q r o hp hq hr ho).const_mul _)

/-- the elements of the rotation matrix -/
theorem rotation_val {no ldk ldu : Nat} (hld : no ≤ ldu) (K U0 : Nat → ℝ) (t : ℝ) {i p : Nat}
    (hi : i < no) (hp : p < no) :
    asMat (computeOrbitalRotation no t K ldk U0 ldu) ldu i p =
      NormedSpace.exp (-t • matOf no K ldk) ⟨i, hi⟩ ⟨p, hp⟩ := by
  rw [asMat, computeOrbitalRotation, (fill2 hld U0 _).1 i p hi hp, dif_pos ⟨hi, hp⟩]

/-- no rotation at `t = 0` -/
theorem rotation_zero {no ldk ldu : Nat} (hld : no ≤ ldu) (K U0 : Nat → ℝ) {i p : Nat}
    (hi : i < no) (hp : p < no) :
    asMat (computeOrbitalRotation no 0 K ldk U0 ldu) ldu i p = if i = p then 1 else 0 := by
  rw [rotation_val hld K U0 0 hi hp, neg_zero, zero_smul, NormedSpace.exp_zero, Matrix.one_apply]
  simp only [Fin.mk.injEq]

theorem tr_one {no : Nat} {a : Nat → Nat → R}
    (ha : ∀ i p, i < no → p < no → a i p = if i = p then 1 else 0) (h : Nat → Nat → R)
    (g : Nat → Nat → Nat → Nat → R) :
    (∀ p q, p < no → q < no → tr2 no a h p q = h p q) ∧
    (∀ p q r s, p < no → q < no → r < no → s < no → tr4 no a g p q r s = g p q r s) := by
  have one : ∀ (f : Nat → R) p, p < no → ∑ i ∈ range no, a i p * f i = f p := by
    intro f p hp
    rw [Finset.sum_eq_single p]
    · rw [ha p p hp hp, if_pos rfl, one_mul]
    · intro i hi hne
      rw [ha i p (mem_range.mp hi) hp, if_neg hne, zero_mul]
    · intro h; exact absurd (mem_range.mpr hp) h
  constructor
  · intro p q hp hq
    have e : tr2 no a h p q = ∑ i ∈ range no, a i p * ∑ j ∈ range no, a j q * h i j := by
      simp only [tr2, mul_sum, mul_assoc]
    rw [e, one _ p hp, one _ q hq]
  · intro p q r s hp hq hr hs
    have e : tr4 no a g p q r s = ∑ i ∈ range no, a i p * ∑ j ∈ range no, a j q *
        ∑ k ∈ range no, a k r * ∑ l ∈ range no, a l s * g i j k l := by
      simp only [tr4, mul_sum, mul_assoc]
    rw [e, one _ p hp, one _ q hq, one _ r hr, one _ s hs]

/-- C82: along every curve of rotations `exp(-t K)` the energy the library computes has a derivative,
and it is the packed gradient the library computes there times the packed rotation parameters. -/
theorem C82_energy_derivative {ni na nv ldt ldu ldd1 ldd2 : Nat} (hld : ni + na + nv ≤ ldu)
    (T V D1 D2 Klin U0 G : Nat → ℝ)
    (hs : IntSym (ni + na + nv) (asMat T ldt) (asTen V (ni + na + nv)))
    (hd : DenSym na (asMat D1 ldd1) (asTen D2 ldd2)) (t : ℝ) :
    let no := ni + na + nv
    let U := fun t : ℝ => computeOrbitalRotation no t
      (linearOrbRotToMatrix ni na nv Klin (fun _ => 0) no) no U0 ldu
    let F := (orbitalRotatedGeneralizedFock no ni na T ldt V no D1 ldd1 D2 ldd2 (U t) ldu (fun _ => 0) no
      (fun _ => 0) no (fun _ => 0) no).2.2
    HasDerivAt (fun t => orbitalRotatedEnergy no ni na T ldt V no D1 ldd1 D2 ldd2 (U t) ldu)
      (∑ m ∈ range (nRot ni na nv), fockToLinearOrbGrad ni na nv F no G m * Klin m) t := by
  intro no U F
  have h2 : (2 : ℝ) ≠ 0 := by norm_num
  have hn : ni + na ≤ no := by omega
  obtain ⟨v1, v2⟩ := transform_val (no := no) (ldt := ldt) (ldu := ldu) T V (U t) (fun _ => 0)
    (fun _ => 0)
  have e := grad_energy h2 (ldt := no) (ldv := no) _ _ D1 D2 G Klin
    (intSym_congr v1 v2 (tr_sym hs _)) hd
  have e' : (fun t => orbitalRotatedEnergy no ni na T ldt V no D1 ldd1 D2 ldd2 (U t) ldu) =
      fun t => energy no (tr2 no (asMat (U t) ldu) (asMat T ldt)) (tr4 no (asMat (U t) ldu) (asTen V no))
        (full1 ni na (asMat D1 ldd1)) (full2 ni na (asMat D1 ldd1) (asTen D2 ldd2)) := by
    funext t
    exact rotatedEnergy_val h2 hn T V D1 D2 (U t) hd.D_symm
  rw [e']
  have := (curve_deriv hld (asMat T ldt) (asTen V no) Klin U0 (full1 ni na (asMat D1 ldd1))
    (full2 ni na (asMat D1 ldd1) (asTen D2 ldd2)) t).1
  refine this.congr_deriv ?_
  refine Eq.trans ?_ e.symm
  exact energy_congr (fun p q hp hq => (rot1_congr _ v1 hp hq).symm)
    (fun p q r s hp hq hr hs => (rot2_congr _ v2 hp hq hr hs).symm)

/-- C82: in particular the gradient of the unrotated integrals is the derivative at the start. -/
theorem C82_energy_derivative_start {ni na nv ldt ldu ldd1 ldd2 : Nat} (hld : ni + na + nv ≤ ldu)
    (T V D1 D2 Klin U0 G : Nat → ℝ)
    (hs : IntSym (ni + na + nv) (asMat T ldt) (asTen V (ni + na + nv)))
    (hd : DenSym na (asMat D1 ldd1) (asTen D2 ldd2)) :
    let no := ni + na + nv
    let U := fun t : ℝ => computeOrbitalRotation no t
      (linearOrbRotToMatrix ni na nv Klin (fun _ => 0) no) no U0 ldu
    let F := generalizedFockCompMat2 no ni na T ldt V no D1 ldd1 D2 ldd2 (fun _ => 0) no
    HasDerivAt (fun t => orbitalRotatedEnergy no ni na T ldt V no D1 ldd1 D2 ldd2 (U t) ldu)
      (∑ m ∈ range (nRot ni na nv), fockToLinearOrbGrad ni na nv F no G m * Klin m) 0 := by
  intro no U F
  have h2 : (2 : ℝ) ≠ 0 := by norm_num
  have hn : ni + na ≤ no := by omega
  have e' : (fun t => orbitalRotatedEnergy no ni na T ldt V no D1 ldd1 D2 ldd2 (U t) ldu) =
      fun t => energy no (tr2 no (asMat (U t) ldu) (asMat T ldt)) (tr4 no (asMat (U t) ldu) (asTen V no))
        (full1 ni na (asMat D1 ldd1)) (full2 ni na (asMat D1 ldd1) (asTen D2 ldd2)) := by
    funext t
    exact rotatedEnergy_val h2 hn T V D1 D2 (U t) hd.D_symm
  rw [e', grad_energy h2 T V D1 D2 G Klin hs hd]
  obtain ⟨o1, o2⟩ := tr_one (fun i p hi hp => rotation_zero (ldk := no) hld
    (linearOrbRotToMatrix ni na nv Klin (fun _ => 0) no) U0 hi hp) (asMat T ldt) (asTen V no)
  refine (curve_deriv hld (asMat T ldt) (asTen V no) Klin U0 (full1 ni na (asMat D1 ldd1))
    (full2 ni na (asMat D1 ldd1) (asTen D2 ldd2)) 0).1.congr_deriv ?_
  exact energy_congr (fun p q hp hq => rot1_congr _ o1 hp hq)
    (fun p q r s hp hq hr hs => rot2_congr _ o2 hp hq hr hs)

/-- C83: for an antisymmetric generator the rotation is orthogonal, so it keeps an orthonormal set of
orbitals orthonormal. -/
theorem C83_orthogonal {no ldk ldu : Nat} (hld : no ≤ ldu) (K U0 : Nat → ℝ) (t : ℝ)
    (anti : ∀ p q, p < no → q < no → asMat K ldk p q = -asMat K ldk q p) :
    let u := asMat (computeOrbitalRotation no t K ldk U0 ldu) ldu
    Orthogonal no u := by
  intro u
  let M := matOf no K ldk
  have hM : M.transpose = -M := by
    ext i j
    simp only [M, matOf, Matrix.transpose_apply, Matrix.of_apply, Matrix.neg_apply]
    exact anti j i j.isLt i.isLt
  have ht : (NormedSpace.exp (-t • M)).transpose = NormedSpace.exp (-(-t • M)) := by
    rw [← Matrix.exp_transpose, Matrix.transpose_smul, hM, smul_neg]
  have inv : NormedSpace.exp (-(-t • M)) * NormedSpace.exp (-t • M) = 1 := by
    rw [Matrix.exp_neg]
    exact Matrix.nonsing_inv_mul _ ((Matrix.isUnit_iff_isUnit_det _).mp (Matrix.isUnit_exp _))
  have inv' : NormedSpace.exp (-t • M) * NormedSpace.exp (-(-t • M)) = 1 := by
    rw [Matrix.exp_neg]
    exact Matrix.mul_nonsing_inv _ ((Matrix.isUnit_iff_isUnit_det _).mp (Matrix.isUnit_exp _))
  constructor
  · intro p q hp hq
    have := congrFun (congrFun inv ⟨p, hp⟩) ⟨q, hq⟩
    rw [← ht, Matrix.mul_apply, Matrix.one_apply] at this
    simp only [Fin.mk.injEq] at this
    rw [← this, Finset.sum_range]
    apply Finset.sum_congr rfl; intro i _
    simp only [u]
    rw [rotation_val hld K U0 t i.isLt hp, rotation_val hld K U0 t i.isLt hq]
    rfl
  · intro p q hp hq
    have := congrFun (congrFun inv' ⟨p, hp⟩) ⟨q, hq⟩
    rw [← ht, Matrix.mul_apply, Matrix.one_apply] at this
    simp only [Fin.mk.injEq] at this
    rw [← this, Finset.sum_range]
    apply Finset.sum_congr rfl; intro i _
    simp only [u]
    rw [rotation_val hld K U0 t hp i.isLt, rotation_val hld K U0 t hq i.isLt]
    rfl

/-- C83: the generator unpacked from any packed parameters gives an orthogonal matrix. -/
theorem C83_orthogonal_packed {ni na nv ldu : Nat} (hld : ni + na + nv ≤ ldu) (Klin U0 : Nat → ℝ)
    (t : ℝ) :
    let no := ni + na + nv
    let u := asMat (computeOrbitalRotation no t (linearOrbRotToMatrix ni na nv Klin (fun _ => 0) no) no U0
      ldu) ldu
    Orthogonal no u :=
  C83_orthogonal hld _ U0 t (unpacked ni na nv Klin).1

end Macis
