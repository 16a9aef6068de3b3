import Verif.Props.NumDeriv
import Verif.Lemmas.Stencil2
import Mathlib.Analysis.Calculus.ContDiff.FTaylorSeries
import Mathlib.Analysis.Calculus.ContDiff.Basic
import Mathlib.Analysis.Calculus.FDeriv.Analytic
/-! Properties C135-C137: the finite-difference orbital Hessian. -/
namespace Macis
open Spec Finset
open scoped ContDiff

theorem matExp_smooth {no : Nat} (A B : Matrix (Fin no) (Fin no) ℝ) (i p : Fin no) :
    ContDiff ℝ ∞ fun v : ℝ × ℝ => (NormedSpace.exp (v.1 • A + v.2 • B)) i p := by
  open scoped Matrix.Norms.Operator in
  have h1 : ContDiff ℝ ∞ (NormedSpace.exp : Matrix (Fin no) (Fin no) ℝ → _) :=
    contDiff_iff_contDiffAt.2 fun x => (NormedSpace.exp_analytic (𝕂 := ℝ) x).contDiffAt
  open scoped Matrix.Norms.Operator in
  have h2 : ContDiff ℝ ∞ fun v : ℝ × ℝ => v.1 • A + v.2 • B :=
    (contDiff_fst.smul contDiff_const).add (contDiff_snd.smul contDiff_const)
  open scoped Matrix.Norms.Operator in
  exact (LinearMap.toContinuousLinearMap (Matrix.entryLinearMap ℝ ℝ i p :
    Matrix (Fin no) (Fin no) ℝ →ₗ[ℝ] ℝ)).contDiff.comp (h1.comp h2)

/-- the energy after the rotation `exp(-(x Kx + y Ky))` -/
noncomputable def energyAt (no ni na : Nat) (T : Nat → ℝ) (ldt : Nat) (V D1 : Nat → ℝ) (ldd1 : Nat)
    (D2 : Nat → ℝ) (ldd2 : Nat) (Kx Ky : Nat → ℝ) (x y : ℝ) : ℝ :=
  orbitalRotatedEnergy no ni na T ldt V no D1 ldd1 D2 ldd2
    (computeOrbitalRotation no 1 (fun p => x * Kx p + y * Ky p) no (fun _ => 0) no) no

theorem energyAt_congr {no ni na ldt ldd1 ldd2 : Nat} (T V D1 D2 : Nat → ℝ) {Kx Ky Lx Ly : Nat → ℝ}
    (hx : ∀ p q, p < no → q < no → asMat Kx no p q = asMat Lx no p q)
    (hy : ∀ p q, p < no → q < no → asMat Ky no p q = asMat Ly no p q) :
    energyAt no ni na T ldt V D1 ldd1 D2 ldd2 Kx Ky = energyAt no ni na T ldt V D1 ldd1 D2 ldd2 Lx Ly := by
  funext x y
  unfold energyAt
  rw [rotation_scale 1 1 (fun p => x * Kx p + y * Ky p) (fun p => x * Lx p + y * Ly p)
    fun p q hp hq => ?_]
  have h1 := hx p q hp hq
  have h2 := hy p q hp hq
  simp only [asMat] at h1 h2 ⊢
  rw [h1, h2]

theorem energyAt_smooth {no ni na ldt ldd1 ldd2 : Nat} (hn : ni + na ≤ no) (T V D1 D2 Kx Ky : Nat → ℝ)
    (hd : DenSym na (asMat D1 ldd1) (asTen D2 ldd2)) :
    ContDiff ℝ ∞ fun v : ℝ × ℝ => energyAt no ni na T ldt V D1 ldd1 D2 ldd2 Kx Ky v.1 v.2 := by
  have hu : ∀ i p, i < no → p < no → ContDiff ℝ ∞ fun v : ℝ × ℝ =>
      asMat (computeOrbitalRotation no 1 (fun p => v.1 * Kx p + v.2 * Ky p) no (fun _ => 0) no) no i p := by
    intro i p hi hp
    have : (fun v : ℝ × ℝ =>
      asMat (computeOrbitalRotation no 1 (fun p => v.1 * Kx p + v.2 * Ky p) no (fun _ => 0) no) no i p) =
      fun v : ℝ × ℝ => (NormedSpace.exp (v.1 • -matOf no Kx no + v.2 • -matOf no Ky no)) ⟨i, hi⟩ ⟨p, hp⟩ := by
      funext v
      have em : -(1 : ℝ) • matOf no (fun p => v.1 * Kx p + v.2 * Ky p) no =
          v.1 • -matOf no Kx no + v.2 • -matOf no Ky no := by
        ext s t
        simp only [matOf, Matrix.smul_apply, Matrix.add_apply, Matrix.neg_apply, Matrix.of_apply, smul_eq_mul]
        ring
      rw [rotation_val (le_refl no) _ _ 1 hi hp, em]
    rw [this]
    exact matExp_smooth _ _ _ _
  have e : (fun v : ℝ × ℝ => energyAt no ni na T ldt V D1 ldd1 D2 ldd2 Kx Ky v.1 v.2) = fun v : ℝ × ℝ =>
      energy no (tr2 no (asMat (computeOrbitalRotation no 1 (fun p => v.1 * Kx p + v.2 * Ky p) no
          (fun _ => 0) no) no) (asMat T ldt))
        (tr4 no (asMat (computeOrbitalRotation no 1 (fun p => v.1 * Kx p + v.2 * Ky p) no
          (fun _ => 0) no) no) (asTen V no))
        (full1 ni na (asMat D1 ldd1)) (full2 ni na (asMat D1 ldd1) (asTen D2 ldd2)) := by
    funext v
    exact rotatedEnergy_val two_ne_zero hn T V D1 D2 _ hd.D_symm
  rw [e]
  unfold energy tr2 tr4
  refine ContDiff.add ?_ ?_
  · refine ContDiff.sum fun p hp => ContDiff.sum fun q hq => ContDiff.mul ?_ contDiff_const
    refine ContDiff.sum fun i hi => ContDiff.sum fun j hj => ContDiff.mul ?_ contDiff_const
    exact (hu i p (mem_range.1 hi) (mem_range.1 hp)).mul (hu j q (mem_range.1 hj) (mem_range.1 hq))
  · refine ContDiff.sum fun p hp => ContDiff.sum fun q hq => ContDiff.sum fun r hr =>
      ContDiff.sum fun s hs => ContDiff.mul ?_ contDiff_const
    refine ContDiff.sum fun i hi => ContDiff.sum fun j hj => ContDiff.sum fun k hk =>
      ContDiff.sum fun l hl => ContDiff.mul ?_ contDiff_const
    exact (((hu i p (mem_range.1 hi) (mem_range.1 hp)).mul (hu j q (mem_range.1 hj) (mem_range.1 hq))).mul
      (hu k r (mem_range.1 hk) (mem_range.1 hr))).mul (hu l s (mem_range.1 hl) (mem_range.1 hs))

/-! ### what one call stores -/

theorem planeRot_scale (no a i : Nat) (dk : ℝ) (p : Nat) : planeRot no a i dk p = dk * planeRot no a i 1 p := by
  simp only [planeRot, memSet]
  split_ifs <;> ring

theorem hessEnergies_val {no ni na ldt ldd1 ldd2 : Nat} (hn : ni + na ≤ no) (T V D1 D2 : Nat → ℝ)
    (hd : DenSym na (asMat D1 ldd1) (asTen D2 ldd2)) (i a j b : Nat) (dk : ℝ) (ss : List (Int × Int)) :
    ∀ w, (hessEnergies no ni na T ldt V no D1 ldd1 D2 ldd2 (planeRot no a i dk) (planeRot no b j dk) ss w).1 =
      ss.map fun s => (s, energyAt no ni na T ldt V D1 ldd1 D2 ldd2 (planeRot no a i 1) (planeRot no b j 1)
        (s.1 * dk) (s.2 * dk)) := by
  induction ss with
  | nil => intro w; rfl
  | cons s ss ih =>
    intro w
    simp only [hessEnergies, List.map_cons, ih, numEnergy_val hn T V D1 D2 hd.D_symm]
    congr 2
    unfold energyAt
    congr 2
    funext p
    rw [planeRot_scale no a i dk, planeRot_scale no b j dk]
    ring

theorem hessLookup_val (f : Int × Int → ℝ) (s : Int × Int) (l : List (Int × Int)) (h : s ∈ l) :
    hessLookup (l.map fun s => (s, f s)) s = f s := by
  induction l with
  | nil => simp at h
  | cons t l ih =>
    rw [hessLookup, List.map_cons, List.find?_cons]
    by_cases e : t = s
    · subst e; simp
    · have : ((t, f t).1 == s) = false := beq_false_of_ne e
      rw [this]
      exact ih ((List.mem_cons.1 h).resolve_left fun e' => e e'.symm)

theorem mem_hessQuads {no i a j b : Nat} :
    (i, a, j, b) ∈ hessQuads no ↔ (i < a ∧ a < no) ∧ j < no ∧ i < b ∧ b < no := by
  simp only [hessQuads, List.mem_flatMap, List.mem_range, List.mem_map, List.mem_filter,
    decide_eq_true_eq, Prod.mk.injEq]
  constructor
  · rintro ⟨x, hx, y, ⟨hy, hxy⟩, z, hz, u, ⟨hu, hxu⟩, rfl, rfl, rfl, rfl⟩
    exact ⟨⟨hxy, hy⟩, hz, hxu, hu⟩
  · rintro ⟨⟨h1, h2⟩, h3, h4, h5⟩
    exact ⟨i, by omega, a, ⟨h2, h1⟩, j, h3, b, ⟨h5, h4⟩, rfl, rfl, rfl, rfl⟩

theorem numHess_val {no ni na ldt ldd1 ldd2 ldoh : Nat} (hn : ni + na ≤ no) (hld : no ≤ ldoh)
    (T V D1 D2 OH : Nat → ℝ) (hd : DenSym na (asMat D1 ldd1) (asTen D2 ldd2)) {dk : ℝ} (hk : dk ≠ 0) :
    let H := numericalOrbitalHessian no ni na T ldt V no D1 ldd1 D2 ldd2 OH ldoh dk
    (∀ i a j b, i < a → a < no → j < no → i < b → b < no →
      H (a + i * ldoh + b * ldoh * ldoh + j * ldoh * ldoh * ldoh) =
      fivePoint (fun x => fivePoint (energyAt no ni na T ldt V D1 ldd1 D2 ldd2 (planeRot no a i 1)
        (planeRot no b j 1) x) dk) dk) ∧
    (∀ m, (∀ i a j b, i < a → a < no → j < no → i < b → b < no →
      m ≠ a + i * ldoh + b * ldoh * ldoh + j * ldoh * ldoh * ldoh) → H m = OH m) := by
  intro H
  have hH : H = storeAll OH ((hessQuads no).map fun x : Nat × Nat × Nat × Nat =>
      (x.2.1 + x.1 * ldoh + x.2.2.2 * ldoh * ldoh + x.2.2.1 * ldoh * ldoh * ldoh,
      fivePoint (fun t => fivePoint (energyAt no ni na T ldt V D1 ldd1 D2 ldd2 (planeRot no x.2.1 x.1 1)
        (planeRot no x.2.2.2 x.2.2.1 1) t) dk) dk)) := by
    refine foldl_stores _ (fun x : Nat × Nat × Nat × Nat =>
      x.2.1 + x.1 * ldoh + x.2.2.2 * ldoh * ldoh + x.2.2.1 * ldoh * ldoh * ldoh) _ _ (fun x hx st => ?_) (OH, _)
    obtain ⟨i, a, j, b⟩ := x
    simp only [numHessStep, hessEnergies_val hn T V D1 D2 hd]
    congr 1
    generalize energyAt no ni na T ldt V D1 ldd1 D2 ldd2 (planeRot no a i 1) (planeRot no b j 1) = F
    have lk : ∀ s ∈ hessPoints, hessLookup (hessPoints.map fun s => (s, F (s.1 * dk) (s.2 * dk))) s =
        F (s.1 * dk) (s.2 * dk) := fun s hs => hessLookup_val (fun s => F (s.1 * dk) (s.2 * dk)) s _ hs
    simp only [hessWeights, List.map_cons, List.map_nil, List.flatMap_cons,
      List.flatMap_nil, List.append_nil, List.cons_append, List.nil_append, List.sum_cons, List.sum_nil]
    rw [lk (2, 2) (by decide), lk (2, 1) (by decide), lk (2, -1) (by decide), lk (2, -2) (by decide),
      lk (1, 2) (by decide), lk (1, 1) (by decide), lk (1, -1) (by decide), lk (1, -2) (by decide),
      lk (-1, 2) (by decide), lk (-1, 1) (by decide), lk (-1, -1) (by decide), lk (-1, -2) (by decide),
      lk (-2, 2) (by decide), lk (-2, 1) (by decide), lk (-2, -1) (by decide), lk (-2, -2) (by decide)]
    push_cast
    simp only [neg_mul, one_mul]
    unfold fivePoint
    rw [← sub_eq_zero]
    field_simp
    ring_nf
  have inj : ∀ {i a j b i' a' j' b' : Nat}, i < a → a < no → b < no → i' < a' → a' < no → b' < no →
      a + i * ldoh + b * ldoh * ldoh + j * ldoh * ldoh * ldoh =
        a' + i' * ldoh + b' * ldoh * ldoh + j' * ldoh * ldoh * ldoh → a = a' ∧ i = i' ∧ b = b' ∧ j = j' := by
    intro i a j b i' a' j' b' h1 h2 h3 h1' h2' h3' e
    exact addr4_inj hld h2 (by omega) h3 h2' (by omega) h3' (by rw [addr4_eq, addr4_eq]; linarith)
  constructor
  · intro i a j b h1 h2 h3 h4 h5
    rw [hH]
    apply storeAll_const
    · intro w hw hwa
      obtain ⟨⟨i', a', j', b'⟩, hx, rfl⟩ := List.mem_map.1 hw
      obtain ⟨⟨g1, g2⟩, g3, g4, g5⟩ := mem_hessQuads.1 hx
      obtain ⟨rfl, rfl, rfl, rfl⟩ := inj g1 g2 g5 h1 h2 h5 hwa
      rfl
    · exact ⟨_, List.mem_map.2 ⟨(i, a, j, b), mem_hessQuads.2 ⟨⟨h1, h2⟩, h3, h4, h5⟩, rfl⟩, rfl⟩
  · intro m hm
    rw [hH]
    apply storeAll_none
    intro w hw
    obtain ⟨⟨i, a, j, b⟩, hx, rfl⟩ := List.mem_map.1 hw
    obtain ⟨⟨g1, g2⟩, g3, g4, g5⟩ := mem_hessQuads.1 hx
    exact fun e => hm i a j b g1 g2 g3 g4 g5 e.symm

/-! ### C135 -/

/-- `K` rotates the orbitals `a` and `i` into each other with unit speed -/
def UnitRotation (no a i : Nat) (K : Nat → ℝ) : Prop :=
  ∀ p q, p < no → q < no → asMat K no p q =
    if p = a ∧ q = i then 1 else if p = i ∧ q = a then -1 else 0

theorem UnitRotation.eq_plane {no a i : Nat} {K : Nat → ℝ} (h : UnitRotation no a i K) (ha : a < no)
    (hi : i < no) (hne : a ≠ i) (p q : Nat) (hp : p < no) (hq : q < no) :
    asMat K no p q = asMat (planeRot no a i 1) no p q := by
  rw [h p q hp hq, planeRot_val 1 ha hi hp hq]
  by_cases c1 : p = i ∧ q = a
  · rw [if_pos c1, if_pos c1, if_neg (by omega)]
  · rw [if_neg c1, if_neg c1]

/-- C135.  For every pair of rotations `(a, i)`, `(b, j)` with `i < a`, `i < b`, `j ≠ b`,
`numerical_orbital_hessian` stores the mixed second derivative at the start of the energy
`phi(x, y) = E(exp(-(x Kx + y Ky)))`, up to `(5/3 B1 + B2) dk^4 / 18` with `B1`, `B2` bounds on sixth-order
derivatives of `phi` (which is smooth) within `2 dk`; elements of the array outside the loop ranges keep
their values. -/
theorem C135_numerical_hessian {no ni na ldt ldd1 ldd2 ldoh : Nat} (hn : ni + na ≤ no) (hld : no ≤ ldoh)
    (T V D1 D2 OH : Nat → ℝ) (hd : DenSym na (asMat D1 ldd1) (asTen D2 ldd2)) {dk : ℝ} (hk : 0 < dk) :
    let H := numericalOrbitalHessian no ni na T ldt V no D1 ldd1 D2 ldd2 OH ldoh dk
    (∀ i a j b, i < a → a < no → j < no → i < b → b < no → j ≠ b →
      ∀ Kx Ky : Nat → ℝ, UnitRotation no a i Kx → UnitRotation no b j Ky →
      let phi := fun x y : ℝ => orbitalRotatedEnergy no ni na T ldt V no D1 ldd1 D2 ldd2
        (computeOrbitalRotation no 1 (fun p => x * Kx p + y * Ky p) no (fun _ => 0) no) no
      ContDiff ℝ ∞ (fun v : ℝ × ℝ => phi v.1 v.2) ∧
      ∀ B1 B2,
        (∀ x y, |x| ≤ 2 * dk → |y| ≤ 2 * dk →
          |deriv (fun y => iteratedDeriv 5 (fun x => phi x y) x) y| ≤ B1) →
        (∀ y, |y| ≤ 2 * dk → |iteratedDeriv 5 (fun y => deriv (fun x => phi x y) 0) y| ≤ B2) →
        |H (a + i * ldoh + b * ldoh * ldoh + j * ldoh * ldoh * ldoh) -
          deriv (fun y => deriv (fun x => phi x y) 0) 0| ≤ (5 / 3 * B1 + B2) * dk ^ 4 / 18) ∧
    (∀ m, (∀ i a j b, i < a → a < no → j < no → i < b → b < no →
      m ≠ a + i * ldoh + b * ldoh * ldoh + j * ldoh * ldoh * ldoh) → H m = OH m) := by
  intro H
  obtain ⟨h1, h2⟩ := numHess_val (ldt := ldt) hn hld T V D1 D2 OH hd hk.ne'
  refine ⟨fun i a j b hia ha hj hib hb hjb Kx Ky hx hy => ?_, h2⟩
  intro phi
  have sm := energyAt_smooth (ldt := ldt) hn T V D1 D2 Kx Ky hd
  refine ⟨sm, fun B1 B2 hB1 hB2 => ?_⟩
  have e := h1 i a j b hia ha hj hib hb
  rw [← energyAt_congr (Kx := Kx) (Ky := Ky) T V D1 D2 (hx.eq_plane ha (by omega) (by omega))
    (hy.eq_plane hb hj (by omega))] at e
  have := fivePoint2_error sm hk hB1 hB2
  rw [← e] at this
  exact this

/-! ### C136 -/

theorem unpack_add {R : Type} [Field R] (ni na nv : Nat) (k1 k2 : Nat → R) {p q : Nat} (hp : p < ni + na + nv)
    (hq : q < ni + na + nv) :
    asMat (linearOrbRotToMatrix ni na nv (fun m => k1 m + k2 m) (fun _ => 0) (ni + na + nv)) (ni + na + nv) p q =
      asMat (linearOrbRotToMatrix ni na nv k1 (fun _ => 0) (ni + na + nv)) (ni + na + nv) p q +
      asMat (linearOrbRotToMatrix ni na nv k2 (fun _ => 0) (ni + na + nv)) (ni + na + nv) p q := by
  obtain ⟨a1, b1, c1⟩ := unpacked ni na nv k1
  obtain ⟨a2, b2, c2⟩ := unpacked ni na nv k2
  obtain ⟨a3, b3, c3⟩ := unpacked ni na nv fun m => k1 m + k2 m
  rcases Nat.lt_trichotomy (orbKind ni na p) (orbKind ni na q) with h | h | h
  · rw [a1 p q hp hq, a2 p q hp hq, a3 p q hp hq, c1 q p hq h, c2 q p hq h, c3 q p hq h]; ring
  · rw [b1 p q hp hq h, b2 p q hp hq h, b3 p q hp hq h, add_zero]
  · rw [c1 p q hp h, c2 p q hp h, c3 p q hp h]

theorem rot1_addh {R : Type} [CommRing R] {n : Nat} (L : Nat → Nat → R) {h h1 h2 : Nat → Nat → R}
    (e : ∀ p q, p < n → q < n → h p q = h1 p q + h2 p q) {p q : Nat} (hp : p < n) (hq : q < n) :
    rot1 n L h p q = rot1 n L h1 p q + rot1 n L h2 p q := by
  simp only [rot1, ← sum_add_distrib]
  refine sum_congr rfl fun o ho => ?_
  have ho := mem_range.1 ho
  rw [e o q ho hq, e p o hp ho]; ring

theorem rot2_addh {R : Type} [CommRing R] {n : Nat} (L : Nat → Nat → R) {g g1 g2 : Nat → Nat → Nat → Nat → R}
    (e : ∀ p q r s, p < n → q < n → r < n → s < n → g p q r s = g1 p q r s + g2 p q r s) {p q r s : Nat}
    (hp : p < n) (hq : q < n) (hr : r < n) (hs : s < n) :
    rot2 n L g p q r s = rot2 n L g1 p q r s + rot2 n L g2 p q r s := by
  simp only [rot2, ← sum_add_distrib]
  refine sum_congr rfl fun o ho => ?_
  have ho := mem_range.1 ho
  rw [e o q r s ho hq hr hs, e p o r s hp ho hr hs, e p q o s hp hq ho hs, e p q r o hp hq hr ho]; ring

/-- the packed product is additive in the rotation -/
theorem hess_add {ni na nv ldd1 ldd2 : Nat} (T V D1 D2 OG k1 k2 l HK : Nat → ℝ)
    (hs : IntSym (ni + na + nv) (asMat T (ni + na + nv)) (asTen V (ni + na + nv)))
    (hd : DenSym na (asMat D1 ldd1) (asTen D2 ldd2)) :
    let no := ni + na + nv
    let B := fun k l : Nat → ℝ => ∑ m ∈ range (nRot ni na nv),
        orbOrbHessianContract no ni na nv T no V no D1 ldd1 D2 ldd2 OG k HK m * l m
    B (fun m => k1 m + k2 m) l = B k1 l + B k2 l := by
  intro no B
  simp only [B]
  rw [hess_dot two_ne_zero T V D1 D2 OG _ l HK hs hd, hess_dot two_ne_zero T V D1 D2 OG _ l HK hs hd,
    hess_dot two_ne_zero T V D1 D2 OG _ l HK hs hd]
  set L := asMat (linearOrbRotToMatrix ni na nv l (fun _ => 0) no) no
  have add : ∀ p q, p < no → q < no → _ := fun p q hp hq => unpack_add ni na nv k1 k2 hp hq
  set K := asMat (linearOrbRotToMatrix ni na nv (fun m => k1 m + k2 m) (fun _ => 0) no) no
  set K1 := asMat (linearOrbRotToMatrix ni na nv k1 (fun _ => 0) no) no
  set K2 := asMat (linearOrbRotToMatrix ni na nv k2 (fun _ => 0) no) no
  set G := asMat (linearOrbRotToMatrix ni na nv OG (fun _ => 0) no) no
  have e1 : ∀ p q, p < no → q < no → rot1 no K (asMat T no) p q =
      rot1 no K1 (asMat T no) p q + rot1 no K2 (asMat T no) p q := by
    intro p q hp hq
    simp only [rot1, ← sum_add_distrib]
    refine sum_congr rfl fun o ho => ?_
    rw [add p o hp (mem_range.1 ho), add q o hq (mem_range.1 ho)]; ring
  have e2 : ∀ p q r s, p < no → q < no → r < no → s < no → rot2 no K (asTen V no) p q r s =
      rot2 no K1 (asTen V no) p q r s + rot2 no K2 (asTen V no) p q r s := by
    intro p q r s hp hq hr hs
    simp only [rot2, ← sum_add_distrib]
    refine sum_congr rfl fun o ho => ?_
    have ho := mem_range.1 ho
    rw [add p o hp ho, add q o hq ho, add r o hr ho, add s o hs ho]; ring
  have f1 := fun p q hp hq => rot1_addh L e1 (p := p) (q := q) hp hq
  have f2 := fun p q r s hp hq hr hs => rot2_addh L e2 (p := p) (q := q) (r := r) (s := s) hp hq hr hs
  rw [energy_congr f1 f2, energy_add]
  have g : ∑ p ∈ range no, ∑ o ∈ range no, L p o * ∑ q ∈ range no, G p q * K q o =
      (∑ p ∈ range no, ∑ o ∈ range no, L p o * ∑ q ∈ range no, G p q * K1 q o) +
      ∑ p ∈ range no, ∑ o ∈ range no, L p o * ∑ q ∈ range no, G p q * K2 q o := by
    simp only [← sum_add_distrib, ← mul_add]
    refine sum_congr rfl fun p _ => sum_congr rfl fun o ho => ?_
    congr 1
    refine sum_congr rfl fun q hq => ?_
    rw [add q o (mem_range.1 hq) (mem_range.1 ho)]
  rw [g]
  ring

theorem rotPos_inj {ni na nv p q p' q' : Nat} (hp : p < ni + na + nv) (hp' : p' < ni + na + nv)
    (h : orbKind ni na q < orbKind ni na p) (h' : orbKind ni na q' < orbKind ni na p')
    (e : rotPos ni na nv p q = rotPos ni na nv p' q') : p = p' ∧ q = q' := by
  have v := (matrixToLinear_val (R := ℚ) ni na nv (ni + na + nv) (fun m => (m : ℚ)) (fun _ => 0)).1
  have := (v p q hp h).symm.trans ((congrArg _ e).trans (v p' q' hp' h'))
  exact addr2_inj (le_refl _) hp hp' (by exact_mod_cast this)

theorem unit_unpacked {ni na nv a i : Nat} (ha : a < ni + na + nv) (h : orbKind ni na i < orbKind ni na a) :
    UnitRotation (ni + na + nv) a i (linearOrbRotToMatrix ni na nv
      (fun m => if m = rotPos ni na nv a i then 1 else 0) (fun _ => 0) (ni + na + nv)) := by
  intro p q hp hq
  obtain ⟨a1, b1, c1⟩ := unpacked ni na nv (fun m => if m = rotPos ni na nv a i then (1 : ℝ) else 0)
  rcases Nat.lt_trichotomy (orbKind ni na p) (orbKind ni na q) with hk | hk | hk
  · rw [a1 p q hp hq, c1 q p hq hk]
    have n1 : ¬ (p = a ∧ q = i) := by rintro ⟨rfl, rfl⟩; omega
    rw [if_neg n1]
    by_cases e : rotPos ni na nv q p = rotPos ni na nv a i
    · obtain ⟨rfl, rfl⟩ := rotPos_inj hq ha hk h e
      rw [if_pos rfl, if_pos ⟨rfl, rfl⟩]
    · rw [if_neg e, if_neg (by rintro ⟨rfl, rfl⟩; exact e rfl), neg_zero]
  · rw [b1 p q hp hq hk, if_neg (by rintro ⟨rfl, rfl⟩; omega), if_neg (by rintro ⟨rfl, rfl⟩; omega)]
  · rw [c1 p q hp hk]
    have n1 : ¬ (p = i ∧ q = a) := by rintro ⟨rfl, rfl⟩; omega
    rw [if_neg n1]
    by_cases e : rotPos ni na nv p q = rotPos ni na nv a i
    · obtain ⟨rfl, rfl⟩ := rotPos_inj hp ha hk h e
      rw [if_pos rfl, if_pos ⟨rfl, rfl⟩]
    · rw [if_neg e, if_neg (by rintro ⟨rfl, rfl⟩; exact e rfl)]

theorem unpack_smul {R : Type} [Field R] (ni na nv : Nat) (k : Nat → R) (c : R) {p q : Nat}
    (hp : p < ni + na + nv) (hq : q < ni + na + nv) :
    asMat (linearOrbRotToMatrix ni na nv (fun m => c * k m) (fun _ => 0) (ni + na + nv)) (ni + na + nv) p q =
      c * asMat (linearOrbRotToMatrix ni na nv k (fun _ => 0) (ni + na + nv)) (ni + na + nv) p q := by
  obtain ⟨a1, b1, c1⟩ := unpacked ni na nv k
  obtain ⟨a3, b3, c3⟩ := unpacked ni na nv fun m => c * k m
  rcases Nat.lt_trichotomy (orbKind ni na p) (orbKind ni na q) with h | h | h
  · rw [a1 p q hp hq, a3 p q hp hq, c1 q p hq h, c3 q p hq h]; ring
  · rw [b1 p q hp hq h, b3 p q hp hq h, mul_zero]
  · rw [c1 p q hp h, c3 p q hp h]

/-- C136.  For two non-redundant rotations `(a, i)` and `(b, j)`, the mixed second derivative that
`numerical_orbital_hessian` approximates (C135) is the mean of the two elements of the analytic Hessian:
the products of `orb_orb_hessian_contract` with the unit vectors of the two packed positions, read at
each other's position. -/
theorem C136_mixed_derivative {ni na nv ldd1 ldd2 : Nat} (T V D1 D2 OG HK : Nat → ℝ)
    (hs : IntSym (ni + na + nv) (asMat T (ni + na + nv)) (asTen V (ni + na + nv)))
    (hd : DenSym na (asMat D1 ldd1) (asTen D2 ldd2)) {i a j b : Nat} (ha : a < ni + na + nv)
    (hb : b < ni + na + nv) (hia : orbKind ni na i < orbKind ni na a)
    (hjb : orbKind ni na j < orbKind ni na b) (Kx Ky : Nat → ℝ)
    (hx : UnitRotation (ni + na + nv) a i Kx) (hy : UnitRotation (ni + na + nv) b j Ky) :
    let no := ni + na + nv
    let phi := fun x y : ℝ => orbitalRotatedEnergy no ni na T no V no D1 ldd1 D2 ldd2
      (computeOrbitalRotation no 1 (fun p => x * Kx p + y * Ky p) no (fun _ => 0) no) no
    let m := rotPos ni na nv a i
    let n := rotPos ni na nv b j
    let H := fun n m => orbOrbHessianContract no ni na nv T no V no D1 ldd1 D2 ldd2 OG
      (fun k => if k = n then 1 else 0) HK m
    deriv (fun y => deriv (fun x => phi x y) 0) 0 = (H m n + H n m) / 2 := by
  intro no phi m n H
  have hn : ni + na ≤ no := by omega
  have sm := energyAt_smooth (ldt := no) hn T V D1 D2 Kx Ky hd
  let ex : Nat → ℝ := fun k => if k = m then 1 else 0
  let ey : Nat → ℝ := fun k => if k = n then 1 else 0
  let B := fun k l : Nat → ℝ => ∑ m ∈ range (nRot ni na nv),
        orbOrbHessianContract no ni na nv T no V no D1 ldd1 D2 ldd2 OG k HK m * l m
  have hq : ∀ x y, HasDerivAt (deriv fun t => phi (t * x) (t * y))
      (B (fun k => x * ex k + y * ey k) (fun k => x * ex k + y * ey k)) 0 := by
    intro x y
    have c := C84_second_derivative (ldu := no) (le_refl _) T V D1 D2 (fun k => x * ex k + y * ey k) OG
      (fun _ => 0) HK hs hd
    refine (HasDerivAt.congr_deriv (f := deriv fun t => phi (t * x) (t * y)) ?_ rfl)
    have e : (fun t => phi (t * x) (t * y)) = fun t : ℝ =>
        orbitalRotatedEnergy no ni na T no V no D1 ldd1 D2 ldd2 (computeOrbitalRotation no t
          (linearOrbRotToMatrix ni na nv (fun k => x * ex k + y * ey k) (fun _ => 0) no) no (fun _ => 0) no) no := by
      funext t
      simp only [phi]
      rw [rotation_scale 1 t _ (linearOrbRotToMatrix ni na nv (fun k => x * ex k + y * ey k) (fun _ => 0) no)
        fun p q hp hq => ?_]
      rw [unpack_add ni na nv (fun k => x * ex k) (fun k => y * ey k) hp hq, unpack_smul ni na nv ex x hp hq,
        unpack_smul ni na nv ey y hp hq, unit_unpacked ha hia p q hp hq, unit_unpacked hb hjb p q hp hq,
        ← hx p q hp hq, ← hy p q hp hq]
      simp only [asMat]
      ring
    rw [e]
    exact c
  have pol := mixed_polar sm _ hq
  refine pol.trans ?_
  have add : ∀ k1 k2 l, B (fun m => k1 m + k2 m) l = B k1 l + B k2 l := fun k1 k2 l =>
    hess_add T V D1 D2 OG k1 k2 l HK hs hd
  have addr : ∀ k l1 l2, B k (fun m => l1 m + l2 m) = B k l1 + B k l2 := fun k l1 l2 => by
    simp only [B, mul_add, sum_add_distrib]
  have e11 : (fun k => (1 : ℝ) * ex k + 1 * ey k) = fun k => ex k + ey k := by funext k; ring
  have e10 : (fun k => (1 : ℝ) * ex k + 0 * ey k) = ex := by funext k; ring
  have e01 : (fun k => (0 : ℝ) * ex k + 1 * ey k) = ey := by funext k; ring
  have unit : ∀ k u, u < nRot ni na nv → B k (fun w => if w = u then 1 else 0) =
      orbOrbHessianContract no ni na nv T no V no D1 ldd1 D2 ldd2 OG k HK u := by
    intro k u hu
    simp only [B, mul_ite, mul_one, mul_zero]
    rw [sum_ite_eq' (range (nRot ni na nv)) u, if_pos (mem_range.2 hu)]
  have u1 : B ex ey = H m n := unit ex n (rotPos_lt hb hjb)
  have u2 : B ey ex = H n m := unit ey m (rotPos_lt ha hia)
  rw [e11, e10, e01, add, addr, addr, u1, u2]
  ring

/-- C136, at a stationary point: the mixed derivative is the element of the analytic Hessian itself. -/
theorem C136_at_stationary {ni na nv ldd1 ldd2 : Nat} (T V D1 D2 OG HK G : Nat → ℝ)
    (hs : IntSym (ni + na + nv) (asMat T (ni + na + nv)) (asTen V (ni + na + nv)))
    (hd : DenSym na (asMat D1 ldd1) (asTen D2 ldd2)) {i a j b : Nat} (ha : a < ni + na + nv)
    (hb : b < ni + na + nv) (hia : orbKind ni na i < orbKind ni na a)
    (hjb : orbKind ni na j < orbKind ni na b) (Kx Ky : Nat → ℝ)
    (hx : UnitRotation (ni + na + nv) a i Kx) (hy : UnitRotation (ni + na + nv) b j Ky) :
    let no := ni + na + nv
    let phi := fun x y : ℝ => orbitalRotatedEnergy no ni na T no V no D1 ldd1 D2 ldd2
      (computeOrbitalRotation no 1 (fun p => x * Kx p + y * Ky p) no (fun _ => 0) no) no
    let F := generalizedFockCompMat2 no ni na T no V no D1 ldd1 D2 ldd2 (fun _ => 0) no
    (∀ m, m < nRot ni na nv → fockToLinearOrbGrad ni na nv F no G m = 0) →
    (∀ m, m < nRot ni na nv → OG m = fockToLinearOrbGrad ni na nv F no G m) →
    (∀ x y, x < na → y < na → asMat F no (ni + x) (ni + y) = asMat F no (ni + y) (ni + x)) →
    deriv (fun y => deriv (fun x => phi x y) 0) 0 =
      orbOrbHessianContract no ni na nv T no V no D1 ldd1 D2 ldd2 OG
        (fun k => if k = rotPos ni na nv a i then 1 else 0) HK (rotPos ni na nv b j) := by
  intro no phi F hG hOG hact
  refine (C136_mixed_derivative T V D1 D2 OG HK hs hd ha hb hia hjb Kx Ky hx hy).trans ?_
  have := C85_symmetric_at_stationary two_ne_zero T V D1 D2 OG
    (fun k => if k = rotPos ni na nv a i then 1 else 0) (fun k => if k = rotPos ni na nv b j then 1 else 0)
    HK HK G hs hd hG hOG hact
  simp only [mul_ite, mul_one, mul_zero] at this
  rw [sum_ite_eq' (range (nRot ni na nv)), if_pos (mem_range.2 (rotPos_lt hb hjb)),
    sum_ite_eq' (range (nRot ni na nv)), if_pos (mem_range.2 (rotPos_lt ha hia))] at this
  simp only [no]
  linarith

/-- C136, the two routines side by side: for two different non-redundant rotations in the loop range, the
number `numerical_orbital_hessian` stores and the mean of the two analytic elements agree to fourth order
in the step. -/
theorem C136_numerical_vs_analytic {ni na nv ldd1 ldd2 ldoh : Nat} (hld : ni + na + nv ≤ ldoh)
    (T V D1 D2 OG HK OH : Nat → ℝ)
    (hs : IntSym (ni + na + nv) (asMat T (ni + na + nv)) (asTen V (ni + na + nv)))
    (hd : DenSym na (asMat D1 ldd1) (asTen D2 ldd2)) {i a j b : Nat} (ha : a < ni + na + nv)
    (hb : b < ni + na + nv) (hia : orbKind ni na i < orbKind ni na a)
    (hjb : orbKind ni na j < orbKind ni na b) (hib : i < b) {dk : ℝ} (hk : 0 < dk) (Kx Ky : Nat → ℝ)
    (hx : UnitRotation (ni + na + nv) a i Kx) (hy : UnitRotation (ni + na + nv) b j Ky) (B1 B2 : ℝ) :
    let no := ni + na + nv
    let phi := fun x y : ℝ => orbitalRotatedEnergy no ni na T no V no D1 ldd1 D2 ldd2
      (computeOrbitalRotation no 1 (fun p => x * Kx p + y * Ky p) no (fun _ => 0) no) no
    let m := rotPos ni na nv a i
    let n := rotPos ni na nv b j
    let H := fun n m => orbOrbHessianContract no ni na nv T no V no D1 ldd1 D2 ldd2 OG
      (fun k => if k = n then 1 else 0) HK m
    (∀ x y, |x| ≤ 2 * dk → |y| ≤ 2 * dk →
      |deriv (fun y => iteratedDeriv 5 (fun x => phi x y) x) y| ≤ B1) →
    (∀ y, |y| ≤ 2 * dk → |iteratedDeriv 5 (fun y => deriv (fun x => phi x y) 0) y| ≤ B2) →
    |numericalOrbitalHessian no ni na T no V no D1 ldd1 D2 ldd2 OH ldoh dk
        (a + i * ldoh + b * ldoh * ldoh + j * ldoh * ldoh * ldoh) - (H m n + H n m) / 2| ≤
      (5 / 3 * B1 + B2) * dk ^ 4 / 18 := by
  intro no phi m n H hB1 hB2
  have kl : ∀ {p q : Nat}, orbKind ni na q < orbKind ni na p → q < p := by
    intro p q h
    simp only [orbKind] at h
    split_ifs at h <;> omega
  have h1 := kl hia
  have h2 := kl hjb
  have := ((C135_numerical_hessian (ldt := no) (no := no) (by omega) hld T V D1 D2 OH hd hk).1 i a j b h1 ha
    (by omega) hib hb (by omega) Kx Ky hx hy).2 B1 B2 hB1 hB2
  rwa [C136_mixed_derivative T V D1 D2 OG HK hs hd ha hb hia hjb Kx Ky hx hy] at this

/-! ### C137 -/

/-- C137: "every pair of rotations is covered" is false: the loop over `b` starts at `i + 1` instead of
`j + 1`, so for `(a, i) = (2, 1)` and `(b, j) = (1, 0)` nothing is stored, whatever the input. -/
theorem C137_all_pairs_refuted :
    ∀ T V D1 D2 OH : Nat → ℝ, ∀ dk : ℝ, dk ≠ 0 → ∀ ni na ldt ldd1 ldd2 ldoh, ni + na ≤ 3 → 3 ≤ ldoh →
      DenSym na (asMat D1 ldd1) (asTen D2 ldd2) →
      numericalOrbitalHessian 3 ni na T ldt V 3 D1 ldd1 D2 ldd2 OH ldoh dk
        (2 + 1 * ldoh + 1 * ldoh * ldoh + 0 * ldoh * ldoh * ldoh) =
      OH (2 + 1 * ldoh + 1 * ldoh * ldoh + 0 * ldoh * ldoh * ldoh) := by
  intro T V D1 D2 OH dk hk ni na ldt ldd1 ldd2 ldoh hn hld hd
  refine (numHess_val hn hld T V D1 D2 OH hd hk).2 _ fun i a j b h1 h2 h3 h4 h5 e => ?_
  have := addr4_inj (n := 3) (i := 2) (j := 1) (k := 1) (l := 0) (i' := a) (j' := i) (k' := b) (l' := j)
    hld (by omega) (by omega) (by omega) h2 (by omega) h5
    (by rw [addr4_eq, addr4_eq]; linarith)
  omega

/-- C137, what holds: a pair of rotations `i < a`, `j < b` is stored exactly when `i < b`; for two rotations
at least one of the two orders is always stored. -/
theorem C137_all_pairs_partial {no ni na ldt ldd1 ldd2 ldoh : Nat} (hn : ni + na ≤ no) (hld : no ≤ ldoh)
    (T V D1 D2 : Nat → ℝ) (hd : DenSym na (asMat D1 ldd1) (asTen D2 ldd2)) {dk : ℝ} (hk : dk ≠ 0)
    {i a j b : Nat} (h1 : i < a) (ha : a < no) (h2 : j < b) (hb : b < no) :
    let H := fun OH => numericalOrbitalHessian no ni na T ldt V no D1 ldd1 D2 ldd2 OH ldoh dk
    let at_ := fun i a j b => a + i * ldoh + b * ldoh * ldoh + j * ldoh * ldoh * ldoh
    ((∀ OH OH', H OH (at_ i a j b) = H OH' (at_ i a j b)) ↔ i < b) ∧ (i < b ∨ j < a) := by
  intro H at_
  refine ⟨⟨fun h => ?_, fun h OH OH' => ?_⟩, by omega⟩
  · by_contra hib
    have un : ∀ OH, H OH (at_ i a j b) = OH (at_ i a j b) := fun OH =>
      (numHess_val hn hld T V D1 D2 OH hd hk).2 _ fun i' a' j' b' g1 g2 g3 g4 g5 e => by
        have := addr4_inj (n := no) (i := a) (j := i) (k := b) (l := j) (i' := a') (j' := i') (k' := b')
          (l' := j') hld ha (by omega) hb g2 (by omega) g5 (by
            have e' : a + i * ldoh + b * ldoh * ldoh + j * ldoh * ldoh * ldoh = _ := e
            rw [addr4_eq, addr4_eq]; linarith)
        omega
    have := h (fun _ => 0) (fun _ => 1)
    rw [un, un] at this
    exact zero_ne_one this
  · have v := fun OH => (numHess_val (ldt := ldt) hn hld T V D1 D2 OH hd hk).1 i a j b h1 ha (by omega) h hb
    exact (v OH).trans (v OH').symm

/-! ### the hypotheses can be met -/

/-- three orbitals, one of each kind; the diagonal of a symmetric one-electron matrix and a two-electron
tensor with the eight symmetries -/
noncomputable def nhT : Nat → ℝ := fun a => if a % 4 = 0 then (a : ℝ) + 1 else 1
noncomputable def nhV : Nat → ℝ := fun _ => 1 / 2

example : IntSym (1 + 1 + 1) (asMat nhT (1 + 1 + 1)) (asTen nhV (1 + 1 + 1)) ∧
    DenSym 1 (asMat (fun _ => (1 : ℝ)) 1) (asTen (fun _ => (0 : ℝ)) 1) ∧
    orbKind 1 1 0 < orbKind 1 1 2 ∧ orbKind 1 1 0 < orbKind 1 1 1 ∧
    UnitRotation 3 2 0 (planeRot 3 2 0 1) ∧ UnitRotation 3 1 0 (planeRot 3 1 0 1) := by
  refine ⟨⟨?_, fun _ _ _ _ _ _ _ _ => rfl, fun _ _ _ _ _ _ _ _ => rfl, fun _ _ _ _ _ _ _ _ => rfl⟩,
    ⟨fun _ _ _ _ => rfl, fun _ _ _ _ _ _ _ _ => rfl, fun _ _ _ _ _ _ _ _ => rfl⟩, by decide, by decide, ?_, ?_⟩
  · intro p q hp hq
    have hp : p = 0 ∨ p = 1 ∨ p = 2 := by omega
    have hq : q = 0 ∨ q = 1 ∨ q = 2 := by omega
    rcases hp with rfl | rfl | rfl <;> rcases hq with rfl | rfl | rfl <;> norm_num [asMat, nhT]
  · intro p q hp hq
    rw [planeRot_val 1 (by omega) (by omega) hp hq]
    by_cases c1 : p = 0 ∧ q = 2
    · rw [if_pos c1, if_pos c1, if_neg (by omega)]
    · rw [if_neg c1, if_neg c1]
  · intro p q hp hq
    rw [planeRot_val 1 (by omega) (by omega) hp hq]
    by_cases c1 : p = 0 ∧ q = 1
    · rw [if_pos c1, if_pos c1, if_neg (by omega)]
    · rw [if_neg c1, if_neg c1]

end Macis
