import Verif.Model.NumDeriv
import Verif.Lemmas.Stencil
import Verif.Props.OrbHess
/-! Properties C133, C134: the finite-difference orbital gradient and Hessian. -/
namespace Macis
open Spec Finset

/-! ### one energy evaluation -/

theorem numEnergy_val {no ni na ldt ldd1 ldd2 : Nat} (hn : ni + na ≤ no) (T V D1 D2 : Nat → ℝ)
    (hD : ∀ v w, v < na → w < na → asMat D1 ldd1 v w = asMat D1 ldd1 w v) (alpha : ℝ) (K : Nat → ℝ)
    (w : NumWork) :
    (numEnergy no ni na T ldt V no D1 ldd1 D2 ldd2 alpha K w).1 =
      orbitalRotatedEnergy no ni na T ldt V no D1 ldd1 D2 ldd2
        (computeOrbitalRotation no alpha K no (fun _ => 0) no) no := by
  have h2 : (2 : ℝ) ≠ 0 := two_ne_zero
  rw [rotatedEnergy_val h2 hn T V D1 D2 _ hD]
  obtain ⟨v1, v2⟩ := transform_val (no := no) (ldt := ldt) (ldu := no) T V
    (computeOrbitalRotation no alpha K no w.U no) w.Tt w.Vt
  simp only [numEnergy, orbitalRotatedGeneralizedFock]
  rw [C39_energy_from_fock h2 hn (le_refl no) _ _ D1 D2 _ hD]
  have hU : ∀ i p, i < no → p < no → asMat (computeOrbitalRotation no alpha K no w.U no) no i p =
      asMat (computeOrbitalRotation no alpha K no (fun _ => 0) no) no i p := by
    intro i p hi hp
    rw [rotation_val (le_refl no) K _ alpha hi hp, rotation_val (le_refl no) K _ alpha hi hp]
  refine energy_congr (fun p q hp hq => ?_) (fun p q r s hp hq hr hs => ?_)
  · rw [v1 p q hp hq]
    refine sum_congr rfl fun i hi => sum_congr rfl fun j hj => ?_
    rw [hU i p (mem_range.1 hi) hp, hU j q (mem_range.1 hj) hq]
  · rw [v2 p q r s hp hq hr hs]
    refine sum_congr rfl fun i hi => sum_congr rfl fun j hj => sum_congr rfl fun k hk =>
      sum_congr rfl fun l hl => ?_
    rw [hU i p (mem_range.1 hi) hp, hU j q (mem_range.1 hj) hq, hU k r (mem_range.1 hk) hr,
      hU l s (mem_range.1 hl) hs]

theorem planeRot_val {no a i p q : Nat} (dk : ℝ) (ha : a < no) (hi : i < no) (hp : p < no) (hq : q < no) :
    asMat (planeRot no a i dk) no p q =
      if p = i ∧ q = a then -dk else if p = a ∧ q = i then dk else 0 := by
  simp only [asMat, planeRot, memSet]
  by_cases h1 : p = i ∧ q = a
  · rw [if_pos h1, if_pos (by rw [h1.1, h1.2])]
  · rw [if_neg h1, if_neg fun e => h1 (addr2_inj (le_refl no) hp hi e)]
    by_cases h2 : p = a ∧ q = i
    · rw [if_pos h2, if_pos (by rw [h2.1, h2.2])]
    · rw [if_neg h2, if_neg fun e => h2 (addr2_inj (le_refl no) hp ha e)]

theorem planeRot_anti {no a i : Nat} (dk : ℝ) (ha : a < no) (hi : i < no) (hne : i ≠ a) {p q : Nat}
    (hp : p < no) (hq : q < no) :
    asMat (planeRot no a i dk) no p q = -asMat (planeRot no a i dk) no q p := by
  rw [planeRot_val dk ha hi hp hq, planeRot_val dk ha hi hq hp]
  by_cases h1 : p = i ∧ q = a
  · rw [if_pos h1, if_neg (by rintro ⟨rfl, rfl⟩; exact hne h1.1.symm), if_pos ⟨h1.2, h1.1⟩]
  · by_cases h2 : p = a ∧ q = i
    · rw [if_neg h1, if_pos h2, if_pos ⟨h2.2, h2.1⟩, neg_neg]
    · rw [if_neg h1, if_neg h2, if_neg fun h => h2 ⟨h.2, h.1⟩, if_neg fun h => h1 ⟨h.2, h.1⟩, neg_zero]

theorem rotation_scale {no : Nat} (alpha dk : ℝ) (K K' : Nat → ℝ)
    (h : ∀ p q, p < no → q < no → alpha * asMat K no p q = dk * asMat K' no p q) :
    computeOrbitalRotation no alpha K no (fun _ => 0) no =
      computeOrbitalRotation no dk K' no (fun _ => 0) no := by
  have : -alpha • matOf no K no = -dk • matOf no K' no := by
    ext i j
    have := h i j i.isLt j.isLt
    simp only [matOf, Matrix.smul_apply, Matrix.of_apply, smul_eq_mul, neg_mul, neg_inj]
    exact this
  unfold computeOrbitalRotation
  rw [this]

/-! ### the energy along a rotation -/

/-- the energy of the rotated orbitals `exp(-t K)` -/
noncomputable def energyAlong (no ni na : Nat) (T : Nat → ℝ) (ldt : Nat) (V D1 : Nat → ℝ) (ldd1 : Nat)
    (D2 : Nat → ℝ) (ldd2 : Nat) (K : Nat → ℝ) (t : ℝ) : ℝ :=
  orbitalRotatedEnergy no ni na T ldt V no D1 ldd1 D2 ldd2
    (computeOrbitalRotation no t K no (fun _ => 0) no) no

section curve
variable {no ni na ldt ldd1 ldd2 : Nat} (hn : ni + na ≤ no) (T V D1 D2 K : Nat → ℝ)
  (hs : IntSym no (asMat T ldt) (asTen V no)) (hd : DenSym na (asMat D1 ldd1) (asTen D2 ldd2))
  (anti : ∀ p q, p < no → q < no → asMat K no p q = -asMat K no q p)

include hn hd in
theorem energyAlong_eq : energyAlong no ni na T ldt V D1 ldd1 D2 ldd2 K =
      fun t => energy no (tr2 no (asMat (computeOrbitalRotation no t K no (fun _ => 0) no) no) (asMat T ldt))
        (tr4 no (asMat (computeOrbitalRotation no t K no (fun _ => 0) no) no) (asTen V no))
        (full1 ni na (asMat D1 ldd1)) (full2 ni na (asMat D1 ldd1) (asTen D2 ldd2)) := by
  funext t
  exact rotatedEnergy_val two_ne_zero hn T V D1 D2 _ hd.D_symm

include hn hd anti in
theorem energyAlong_smooth (n : Nat) : ContDiff ℝ n (energyAlong no ni na T ldt V D1 ldd1 D2 ldd2 K) := by
  rw [energyAlong_eq hn T V D1 D2 K hd]
  have hu : ∀ i, i < no → ∀ p ∈ range no, ContDiff ℝ n
      (fun t => asMat (computeOrbitalRotation no t K no (fun _ => 0) no) no i p) := by
    intro i hi
    exact contDiff_of_linear (range no) (asMat K no)
      (fun t p => asMat (computeOrbitalRotation no t K no (fun _ => 0) no) no i p)
      (fun p hp t => rotation_deriv no no no (le_refl no) K (fun _ => 0) anti t i p hi (mem_range.1 hp)) n
  unfold energy tr2 tr4
  refine ContDiff.add ?_ ?_
  · refine ContDiff.sum fun p hp => ContDiff.sum fun q hq => ContDiff.mul ?_ contDiff_const
    refine ContDiff.sum fun i hi => ContDiff.sum fun j hj => ContDiff.mul ?_ contDiff_const
    exact (hu i (mem_range.1 hi) p hp).mul (hu j (mem_range.1 hj) q hq)
  · refine ContDiff.sum fun p hp => ContDiff.sum fun q hq => ContDiff.sum fun r hr =>
      ContDiff.sum fun s hs => ContDiff.mul ?_ contDiff_const
    refine ContDiff.sum fun i hi => ContDiff.sum fun j hj => ContDiff.sum fun k hk =>
      ContDiff.sum fun l hl => ContDiff.mul ?_ contDiff_const
    exact (((hu i (mem_range.1 hi) p hp).mul (hu j (mem_range.1 hj) q hq)).mul
      (hu k (mem_range.1 hk) r hr)).mul (hu l (mem_range.1 hl) s hs)

include hn hs hd anti in
theorem energyAlong_deriv : HasDerivAt (energyAlong no ni na T ldt V D1 ldd1 D2 ldd2 K)
    (2 * ∑ p ∈ range no, ∑ o ∈ range no, asMat K no p o *
      asMat (generalizedFockCompMat2 no ni na T ldt V no D1 ldd1 D2 ldd2 (fun _ => 0) no) no p o) 0 := by
  rw [energyAlong_eq hn T V D1 D2 K hd]
  set a := fun t : ℝ => asMat (computeOrbitalRotation no t K no (fun _ => 0) no) no with ha'
  have ha : ∀ i p, i < no → p < no →
      HasDerivAt (fun t => a t i p) (∑ o ∈ range no, asMat K no p o * a 0 i o) 0 := fun i p hi hp =>
    rotation_deriv no no no (le_refl no) K (fun _ => 0) anti 0 i p hi hp
  have := energy_deriv (fun t => tr2 no (a t) (asMat T ldt)) (fun t => tr4 no (a t) (asTen V no)) _ _
    (full1 ni na (asMat D1 ldd1)) (full2 ni na (asMat D1 ldd1) (asTen D2 ldd2)) 0
    (fun p q hp hq => tr2_deriv a (asMat K no) _ 0 ha hp hq)
    (fun p q r s hp hq hr hs => tr4_deriv a (asMat K no) _ 0 ha hp hq hr hs)
  refine this.congr_deriv ?_
  obtain ⟨o1, o2⟩ := tr_one (fun i p hi hp => rotation_zero (ldk := no) (le_refl no) K (fun _ => 0) hi hp)
    (asMat T ldt) (asTen V no)
  have e : energy no (rot1 no (asMat K no) (tr2 no (a 0) (asMat T ldt)))
      (rot2 no (asMat K no) (tr4 no (a 0) (asTen V no))) (full1 ni na (asMat D1 ldd1))
      (full2 ni na (asMat D1 ldd1) (asTen D2 ldd2)) =
      energy no (rot1 no (asMat K no) (asMat T ldt)) (rot2 no (asMat K no) (asTen V no))
        (full1 ni na (asMat D1 ldd1)) (full2 ni na (asMat D1 ldd1) (asTen D2 ldd2)) :=
    energy_congr (fun p q hp hq => rot1_congr _ o1 hp hq)
      (fun p q r s hp hq hr hs => rot2_congr _ o2 hp hq hr hs)
  rw [e, energy_rot hs (full_sym no hd)]
  congr 1
  refine sum_congr rfl fun p hp => sum_congr rfl fun o ho => ?_
  rw [fock_full two_ne_zero hn T V D1 D2 hd.D_symm (mem_range.1 hp) (mem_range.1 ho)]

end curve

/-! ### C133 -/

theorem foldl_stores {A W : Type} (step : (Nat → ℝ) × W → A → (Nat → ℝ) × W) (addr : A → Nat) (val : A → ℝ)
    (l : List A) (h : ∀ x ∈ l, ∀ st, (step st x).1 = memSet st.1 (addr x) (val x)) :
    ∀ st, (l.foldl step st).1 = storeAll st.1 (l.map fun x => (addr x, val x)) := by
  induction l with
  | nil => intro st; rfl
  | cons x l ih =>
    intro st
    rw [List.foldl_cons, ih (fun y hy => h y (List.mem_cons_of_mem _ hy)), h x (List.mem_cons_self ..)]
    rfl

theorem mem_gradPairs {no i a : Nat} : (i, a) ∈ gradPairs no ↔ i < a ∧ a < no := by
  simp only [gradPairs, List.mem_flatMap, List.mem_range, List.mem_map, List.mem_filter,
    decide_eq_true_eq, Prod.mk.injEq]
  constructor
  · rintro ⟨x, hx, y, ⟨hy, hxy⟩, rfl, rfl⟩
    exact ⟨hxy, hy⟩
  · rintro ⟨h1, h2⟩
    exact ⟨i, by omega, a, ⟨h2, h1⟩, rfl, rfl⟩

theorem numGrad_val {no ni na ldt ldd1 ldd2 ldog : Nat} (hn : ni + na ≤ no) (T V D1 D2 OG : Nat → ℝ)
    (hd : DenSym na (asMat D1 ldd1) (asTen D2 ldd2)) (dk : ℝ) :
    let G := numericalOrbitalGradient no ni na T ldt V no D1 ldd1 D2 ldd2 OG ldog dk
    (∀ i a, i < a → a < no → G (a + i * no) =
      fivePoint (energyAlong no ni na T ldt V D1 ldd1 D2 ldd2 (planeRot no a i 1)) dk) ∧
    (∀ m, (∀ i a, i < a → a < no → m ≠ a + i * no) → G m = OG m) := by
  intro G
  have hG : G = storeAll OG ((gradPairs no).map fun x => (x.2 + x.1 * no,
      fivePoint (energyAlong no ni na T ldt V D1 ldd1 D2 ldd2 (planeRot no x.2 x.1 1)) dk)) := by
    refine foldl_stores _ (fun x : Nat × Nat => x.2 + x.1 * no) _ _ (fun x hx st => ?_) (OG, _)
    obtain ⟨i, a⟩ := x
    obtain ⟨h1, h2⟩ := mem_gradPairs.1 hx
    have sc : ∀ alpha : ℝ, computeOrbitalRotation no alpha (planeRot no a i dk) no (fun _ => 0) no =
        computeOrbitalRotation no (alpha * dk) (planeRot no a i 1) no (fun _ => 0) no := by
      intro alpha
      refine rotation_scale _ _ _ _ fun p q hp hq => ?_
      rw [planeRot_val dk h2 (by omega) hp hq, planeRot_val 1 h2 (by omega) hp hq]
      split_ifs <;> ring
    have e : ∀ alpha w, (numEnergy no ni na T ldt V no D1 ldd1 D2 ldd2 alpha (planeRot no a i dk) w).1 =
        energyAlong no ni na T ldt V D1 ldd1 D2 ldd2 (planeRot no a i 1) (alpha * dk) := by
      intro alpha w
      rw [numEnergy_val hn T V D1 D2 hd.D_symm, sc]
      rfl
    simp only [numGradStep, e, fivePoint]
    congr 1
    rw [show -2 * dk = -(2 * dk) by ring, show -1 * dk = -dk by ring, one_mul]
  constructor
  · intro i a hia ha
    rw [hG]
    apply storeAll_const
    · intro w hw hwa
      obtain ⟨⟨i', a'⟩, hx, rfl⟩ := List.mem_map.1 hw
      obtain ⟨h1, h2⟩ := mem_gradPairs.1 hx
      obtain ⟨rfl, rfl⟩ := addr2_inj (le_refl no) h2 ha hwa
      rfl
    · exact ⟨_, List.mem_map.2 ⟨(i, a), mem_gradPairs.2 ⟨hia, ha⟩, rfl⟩, rfl⟩
  · intro m hm
    rw [hG]
    apply storeAll_none
    intro w hw
    obtain ⟨⟨i, a⟩, hx, rfl⟩ := List.mem_map.1 hw
    obtain ⟨h1, h2⟩ := mem_gradPairs.1 hx
    exact fun e => hm i a h1 h2 e.symm

theorem energyAlong_congr {no ni na ldt ldd1 ldd2 : Nat} (T V D1 D2 : Nat → ℝ) {K K' : Nat → ℝ}
    (h : ∀ p q, p < no → q < no → asMat K no p q = asMat K' no p q) :
    energyAlong no ni na T ldt V D1 ldd1 D2 ldd2 K = energyAlong no ni na T ldt V D1 ldd1 D2 ldd2 K' := by
  funext t
  unfold energyAlong
  rw [rotation_scale t t K K' fun p q hp hq => by rw [h p q hp hq]]

/-- C133.  For every pair of orbitals `i < a`, `numerical_orbital_gradient` stores at `(a, i)` the analytic
gradient `2 (F(a,i) - F(i,a))` up to `B dk^4 / 18`, where `B` bounds the fifth derivative of the energy
along the rotation of `a` and `i` (generator `K` with `K(a,i) = 1`, `K(i,a) = -1`) by angles up to `2 dk`
(the energy is smooth along it); all other elements of the array keep their values. -/
theorem C133_numerical_gradient {no ni na ldt ldd1 ldd2 ldog : Nat} (hn : ni + na ≤ no)
    (T V D1 D2 OG : Nat → ℝ) (hs : IntSym no (asMat T ldt) (asTen V no))
    (hd : DenSym na (asMat D1 ldd1) (asTen D2 ldd2)) {dk : ℝ} (hk : 0 < dk) :
    let G := numericalOrbitalGradient no ni na T ldt V no D1 ldd1 D2 ldd2 OG ldog dk
    let F := asMat (generalizedFockCompMat2 no ni na T ldt V no D1 ldd1 D2 ldd2 (fun _ => 0) no) no
    (∀ i a, i < a → a < no → ∀ K : Nat → ℝ,
      (∀ p q, p < no → q < no → asMat K no p q =
        if p = a ∧ q = i then 1 else if p = i ∧ q = a then -1 else 0) →
      let E := fun t : ℝ => orbitalRotatedEnergy no ni na T ldt V no D1 ldd1 D2 ldd2
        (computeOrbitalRotation no t K no (fun _ => 0) no) no
      (∀ n : Nat, ContDiff ℝ n E) ∧
      ∀ B, (∀ t, |t| ≤ 2 * dk → |iteratedDeriv 5 E t| ≤ B) →
        |G (a + i * no) - 2 * (F a i - F i a)| ≤ B * dk ^ 4 / 18) ∧
    (∀ m, (∀ i a, i < a → a < no → m ≠ a + i * no) → G m = OG m) := by
  intro G F
  obtain ⟨h1, h2⟩ := numGrad_val (ldt := ldt) (ldog := ldog) hn T V D1 D2 OG hd dk
  refine ⟨fun i a hia ha K hK => ?_, h2⟩
  intro E
  have hEK : E = energyAlong no ni na T ldt V D1 ldd1 D2 ldd2 (planeRot no a i 1) := by
    refine energyAlong_congr T V D1 D2 fun p q hp hq => ?_
    rw [hK p q hp hq, planeRot_val 1 ha (by omega) hp hq]
    by_cases c1 : p = i ∧ q = a
    · rw [if_pos c1, if_pos c1, if_neg (by omega)]
    · rw [if_neg c1, if_neg c1]
  rw [hEK]
  have anti : ∀ p q, p < no → q < no → asMat (planeRot no a i 1) no p q = -asMat (planeRot no a i 1) no q p :=
    fun p q hp hq => planeRot_anti 1 ha (by omega) (by omega) hp hq
  refine ⟨fun n => energyAlong_smooth hn T V D1 D2 _ hd anti n, fun B hB => ?_⟩
  have hder := (energyAlong_deriv hn T V D1 D2 _ hs hd anti).deriv
  have hsum : ∑ p ∈ range no, ∑ o ∈ range no, asMat (planeRot no a i 1) no p o * F p o = F a i - F i a := by
    have : ∀ p ∈ range no, ∀ o ∈ range no, asMat (planeRot no a i 1) no p o * F p o =
        (if p = a then (if o = i then F p o else 0) else 0) - (if p = i then (if o = a then F p o else 0) else 0) := by
      intro p hp o ho
      rw [planeRot_val 1 ha (by omega) (mem_range.1 hp) (mem_range.1 ho)]
      by_cases c1 : p = i ∧ o = a
      · obtain ⟨rfl, rfl⟩ := c1
        simp [show ¬ (p = o) by omega]
      · by_cases c2 : p = a ∧ o = i
        · obtain ⟨rfl, rfl⟩ := c2
          simp [show ¬ (p = o) by omega]
        · rw [if_neg c1, if_neg c2, zero_mul]
          by_cases e1 : p = a <;> by_cases e2 : p = i <;> by_cases e3 : o = i <;> by_cases e4 : o = a <;>
            simp_all
    rw [sum_congr rfl fun p hp => sum_congr rfl fun o ho => this p hp o ho]
    simp only [sum_sub_distrib]
    have one : ∀ u v, u < no → v < no → ∑ p ∈ range no, ∑ o ∈ range no,
        (if p = u then (if o = v then F p o else 0) else 0) = F u v := by
      intro u v hu hv
      rw [sum_eq_single u (fun b _ hb => by simp only [if_neg hb, sum_const_zero])
        (fun h => absurd (mem_range.2 hu) h)]
      rw [sum_eq_single v (fun b _ hb => by simp only [if_neg hb, if_true])
        (fun h => absurd (mem_range.2 hv) h), if_pos rfl, if_pos rfl]
    rw [one a i ha (by omega), one i a (by omega) ha]
  have := fivePoint_error (energyAlong_smooth hn T V D1 D2 _ hd anti 5) hk hB
  have hder' : deriv (energyAlong no ni na T ldt V D1 ldd1 D2 ldd2 (planeRot no a i 1)) 0 =
      2 * (F a i - F i a) := by
    rw [hder, ← hsum]
  rw [← h1 i a hia ha, hder'] at this
  exact this

/-- C134: the same claim with a leading dimension is false: the array is always addressed as if it had
exactly `no` rows, so with `LDOG = 4` and three orbitals the entry `(2, 1)` is never written. -/
theorem C134_leading_dimension_refuted :
    ∀ T V D1 D2 OG : Nat → ℝ, ∀ dk : ℝ, ∀ ni na ldt ldd1 ldd2, ni + na ≤ 3 →
      DenSym na (asMat D1 ldd1) (asTen D2 ldd2) →
      numericalOrbitalGradient 3 ni na T ldt V 3 D1 ldd1 D2 ldd2 OG 4 dk (2 + 1 * 4) = OG (2 + 1 * 4) := by
  intro T V D1 D2 OG dk ni na ldt ldd1 ldd2 hn hd
  refine (numGrad_val hn T V D1 D2 OG hd dk).2 _ fun i a h1 h2 => ?_
  omega

end Macis
