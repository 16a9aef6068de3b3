import Verif.Lemmas.Mcscf
import Verif.Model.Mcscf
/-! Property C107: the approximate diagonal of the orbital Hessian. -/
namespace Macis
open Spec Finset

/-- values of the packed array -/
theorem diagHess_val (ni na nv : Nat) (Fi : Nat → ℝ) (ldfi : Nat) (Fa : Nat → ℝ) (ldfa : Nat) (D : Nat → ℝ)
    (ldd : Nat) (F : Nat → ℝ) (ldf : Nat) (H : Nat → ℝ) :
    let f := fun p q => asMat Fi ldfi p q + asMat Fa ldfa p q
    (∀ i a, i < ni → a < nv → approxDiagHessian ni na nv Fi ldfi Fa ldfa D ldd F ldf H
        (rotPos ni na nv (a + (ni + na)) i) = 4 * (f (a + (ni + na)) (a + (ni + na)) - f i i)) ∧
    (∀ x a, x < na → a < nv → approxDiagHessian ni na nv Fi ldfi Fa ldfa D ldd F ldf H
        (rotPos ni na nv (a + (ni + na)) (x + ni)) =
          2 * asMat D ldd x x * f (a + (ni + na)) (a + (ni + na)) - 2 * asMat F ldf (x + ni) (x + ni)) ∧
    (∀ i x, i < ni → x < na → approxDiagHessian ni na nv Fi ldfi Fa ldfa D ldd F ldf H
        (rotPos ni na nv (x + ni) i) =
          2 * asMat D ldd x x * f i i + 4 * (f (x + ni) (x + ni) - f i i) -
            2 * asMat F ldf (x + ni) (x + ni)) ∧
    (∀ m, nRot ni na nv ≤ m → approxDiagHessian ni na nv Fi ldfi Fa ldfa D ldd F ldf H m = H m) := by
  intro f
  obtain ⟨g, hg⟩ : ∃ g : Nat → Nat → ℝ, g = fun p q =>
    if ni + na ≤ p then
      if q < ni then 4 * (f p p - f q q)
      else 2 * asMat D ldd (q - ni) (q - ni) * f p p - 2 * asMat F ldf q q
    else 2 * asMat D ldd (p - ni) (p - ni) * f q q + 4 * (f p p - f q q) - 2 * asMat F ldf p p := ⟨_, rfl⟩
  have key := pack3 ni na nv H
    (fun i a => 4 * (Fi (a + ni + na + (a + ni + na) * ldfi) + Fa (a + ni + na + (a + ni + na) * ldfa) -
      (Fi (i + i * ldfi) + Fa (i + i * ldfa))))
    (fun i a => 2 * D (i + i * ldd) * (Fi (a + ni + na + (a + ni + na) * ldfi) +
      Fa (a + ni + na + (a + ni + na) * ldfa)) - 2 * F (i + ni + (i + ni) * ldf))
    (fun i a => 2 * D (a + a * ldd) * (Fi (i + i * ldfi) + Fa (i + i * ldfa)) +
      4 * (Fi (a + ni + (a + ni) * ldfi) + Fa (a + ni + (a + ni) * ldfa) - Fi (i + i * ldfi) -
        Fa (i + i * ldfa)) - 2 * F (a + ni + (a + ni) * ldf))
    g
    (by
      intro i a hi ha
      rw [hg]
      simp only [if_pos (show ni + na ≤ a + (ni + na) by omega), if_pos hi, f, asMat, Nat.add_assoc])
    (by
      intro x a hx ha
      rw [hg]
      simp only [if_pos (show ni + na ≤ a + (ni + na) by omega), if_neg (show ¬ x + ni < ni by omega),
        f, asMat, Nat.add_assoc, Nat.add_sub_cancel])
    (by
      intro i x hi hx
      rw [hg]
      simp only [if_neg (show ¬ ni + na ≤ x + ni by omega), f, asMat, Nat.add_sub_cancel]
      ring)
  obtain ⟨k1, k2⟩ := key
  refine ⟨?_, ?_, ?_, ?_⟩
  · intro i a hi ha
    refine (k1 (a + (ni + na)) i (by omega) ?_).trans ?_
    · simp only [orbKind]; split_ifs <;> omega
    · rw [hg]; simp only [if_pos (show ni + na ≤ a + (ni + na) by omega), if_pos hi]
  · intro x a hx ha
    refine (k1 (a + (ni + na)) (x + ni) (by omega) ?_).trans ?_
    · simp only [orbKind]; split_ifs <;> omega
    · rw [hg]
      simp only [if_pos (show ni + na ≤ a + (ni + na) by omega), if_neg (show ¬ x + ni < ni by omega),
        Nat.add_sub_cancel]
  · intro i x hi hx
    refine (k1 (x + ni) i (by omega) ?_).trans ?_
    · simp only [orbKind]; split_ifs <;> omega
    · rw [hg]
      simp only [if_neg (show ¬ ni + na ≤ x + ni by omega), Nat.add_sub_cancel]
  · exact k2

/-- a row of the density of the whole orbital space times a row of a matrix -/
theorem full1_row {ni na nv : Nat} (D : Nat → Nat → ℝ) (w : Nat → ℝ) {p : Nat} (hp : p < ni + na + nv) :
    (∑ q ∈ range (ni + na + nv), full1 ni na D p q * w q) =
      if p < ni then 2 * w p else if p < ni + na then ∑ x ∈ range na, D (p - ni) x * w (x + ni) else 0 := by
  by_cases h1 : p < ni
  · rw [if_pos h1, Finset.sum_eq_single p]
    · simp [full1, core1, act1, h1, show ¬ ni ≤ p by omega]
    · intro q _ hq
      simp [full1, core1, act1, hq.symm, show ¬ ni ≤ p by omega]
    · intro h; exact absurd (mem_range.mpr hp) h
  · rw [if_neg h1]
    split
    · rename_i h2
      rw [Finset.sum_range_add, Finset.sum_range_add]
      have z1 : (∑ q ∈ range ni, full1 ni na D p q * w q) = 0 := by
        apply Finset.sum_eq_zero
        intro q hq
        rw [mem_range] at hq
        simp [full1, core1, act1, h1, show ¬ ni ≤ q by omega]
      have z2 : (∑ q ∈ range nv, full1 ni na D p (ni + na + q) * w (ni + na + q)) = 0 := by
        apply Finset.sum_eq_zero
        intro q hq
        simp [full1, core1, act1, h1]
      rw [z1, z2, zero_add, add_zero]
      apply Finset.sum_congr rfl
      intro x hx
      rw [mem_range] at hx
      rw [Nat.add_comm ni x]
      congr 1
      simp [full1, core1, act1, h1, h2, show ni ≤ p by omega]
      intro h; omega
    · rename_i h2
      apply Finset.sum_eq_zero
      intro q _
      simp [full1, core1, act1, h1, h2]

/-- the second derivative of the one-body energy along the rotation of `a` and `b` -/
theorem second_rot {no a b : Nat} (ha : a < no) (hb : b < no) (hab : a ≠ b) (K f D : Nat → Nat → ℝ)
    (hK : ∀ p q, p < no → q < no → K p q =
      (if p = a ∧ q = b then 1 else 0) - (if p = b ∧ q = a then 1 else 0))
    (fs : ∀ p q, p < no → q < no → f p q = f q p) (Ds : ∀ p q, p < no → q < no → D p q = D q p) :
    (∑ p ∈ range no, ∑ q ∈ range no, rot1 no K (rot1 no K f) p q * D p q) =
      2 * (D a a * f b b + D b b * f a a - 2 * (D a b * f a b) - (∑ q ∈ range no, D a q * f a q) -
        ∑ q ∈ range no, D b q * f b q) := by
  have act : ∀ (w : Nat → ℝ) p, p < no → (∑ o ∈ range no, K p o * w o) =
      (if p = a then w b else 0) - (if p = b then w a else 0) := by
    intro w p hp
    rw [Finset.sum_congr rfl (g := fun o => (if o = b then (if p = a then w b else 0) else 0) -
      (if o = a then (if p = b then w a else 0) else 0))]
    · rw [Finset.sum_sub_distrib, Finset.sum_ite_eq' , Finset.sum_ite_eq', if_pos (mem_range.mpr hb),
        if_pos (mem_range.mpr ha)]
    · intro o ho
      rw [hK p o hp (mem_range.mp ho), sub_mul]
      congr 1
      · by_cases h1 : p = a <;> by_cases h2 : o = b <;> simp [h1, h2]
      · by_cases h1 : p = b <;> by_cases h2 : o = a <;> simp [h1, h2]
  have r1 : ∀ (h : Nat → Nat → ℝ) p q, p < no → q < no → rot1 no K h p q =
      ((if p = a then h b q else 0) - (if p = b then h a q else 0)) +
      ((if q = a then h p b else 0) - (if q = b then h p a else 0)) := by
    intro h p q hp hq
    rw [rot1, Finset.sum_add_distrib, act (fun o => h o q) p hp, act (fun o => h p o) q hq]
  have s1 : ∀ (G : Nat → Nat → ℝ), (∑ p ∈ range no, ∑ q ∈ range no, if p = a then G p q else 0) =
      ∑ q ∈ range no, G a q := by
    intro G
    rw [Finset.sum_eq_single a]
    · simp
    · intro p _ hp; simp [hp]
    · intro h; exact absurd (mem_range.mpr ha) h
  have s1' : ∀ (G : Nat → Nat → ℝ), (∑ p ∈ range no, ∑ q ∈ range no, if p = b then G p q else 0) =
      ∑ q ∈ range no, G b q := by
    intro G
    rw [Finset.sum_eq_single b]
    · simp
    · intro p _ hp; simp [hp]
    · intro h; exact absurd (mem_range.mpr hb) h
  have s2 : ∀ (G : Nat → Nat → ℝ), (∑ p ∈ range no, ∑ q ∈ range no, if q = a then G p q else 0) =
      ∑ p ∈ range no, G p a := by
    intro G
    apply Finset.sum_congr rfl; intro p _
    rw [Finset.sum_ite_eq', if_pos (mem_range.mpr ha)]
  have s2' : ∀ (G : Nat → Nat → ℝ), (∑ p ∈ range no, ∑ q ∈ range no, if q = b then G p q else 0) =
      ∑ p ∈ range no, G p b := by
    intro G
    apply Finset.sum_congr rfl; intro p _
    rw [Finset.sum_ite_eq', if_pos (mem_range.mpr hb)]
  set h1 := rot1 no K f with hh1
  have tot : (∑ p ∈ range no, ∑ q ∈ range no, rot1 no K h1 p q * D p q) =
      (∑ q ∈ range no, h1 b q * D a q) - (∑ q ∈ range no, h1 a q * D b q) +
      ((∑ p ∈ range no, h1 p b * D p a) - ∑ p ∈ range no, h1 p a * D p b) := by
    rw [← s1 (fun p q => h1 b q * D p q), ← s1' (fun p q => h1 a q * D p q),
      ← s2 (fun p q => h1 p b * D p q), ← s2' (fun p q => h1 p a * D p q)]
    simp only [← Finset.sum_sub_distrib, ← Finset.sum_add_distrib]
    apply Finset.sum_congr rfl; intro p hp
    apply Finset.sum_congr rfl; intro q hq
    rw [mem_range] at hp hq
    rw [r1 h1 p q hp hq]
    simp only [add_mul, sub_mul, ite_mul, zero_mul]
  have hsym : ∀ p q, p < no → q < no → h1 p q = h1 q p := by
    intro p q hp hq
    rw [hh1, r1 f p q hp hq, r1 f q p hq hp, fs b q hb hq, fs a q ha hq, fs p b hp hb, fs p a hp ha]
    ring
  have tot2 : (∑ p ∈ range no, ∑ q ∈ range no, rot1 no K h1 p q * D p q) =
      2 * ((∑ q ∈ range no, h1 b q * D a q) - ∑ q ∈ range no, h1 a q * D b q) := by
    rw [tot]
    have e1 : (∑ p ∈ range no, h1 p b * D p a) = ∑ q ∈ range no, h1 b q * D a q := by
      apply Finset.sum_congr rfl; intro p hp
      rw [mem_range] at hp
      rw [hsym p b hp hb, Ds p a hp ha]
    have e2 : (∑ p ∈ range no, h1 p a * D p b) = ∑ q ∈ range no, h1 a q * D b q := by
      apply Finset.sum_congr rfl; intro p hp
      rw [mem_range] at hp
      rw [hsym p a hp ha, Ds p b hp hb]
    rw [e1, e2]; ring
  rw [tot2]
  have rowb : (∑ q ∈ range no, h1 b q * D a q) = -(∑ q ∈ range no, D a q * f a q) + D a a * f b b -
      D a b * f a b := by
    have : ∀ q ∈ range no, h1 b q * D a q = -(D a q * f a q) + (if q = a then D a q * f b b else 0) -
        (if q = b then D a q * f b a else 0) := by
      intro q hq
      rw [mem_range] at hq
      rw [hh1, r1 f b q hb hq, if_neg hab.symm, if_pos rfl]
      by_cases c1 : q = a
      · subst c1; simp only [if_neg hab, if_true]; ring
      · by_cases c2 : q = b
        · subst c2; simp only [if_neg hab.symm, if_true]; ring
        · simp only [if_neg c1, if_neg c2]; ring
    rw [Finset.sum_congr rfl this, Finset.sum_sub_distrib, Finset.sum_add_distrib, Finset.sum_neg_distrib,
      Finset.sum_ite_eq', Finset.sum_ite_eq', if_pos (mem_range.mpr ha), if_pos (mem_range.mpr hb),
      fs b a hb ha]
  have rowa : (∑ q ∈ range no, h1 a q * D b q) = (∑ q ∈ range no, D b q * f b q) + D a b * f a b -
      D b b * f a a := by
    have : ∀ q ∈ range no, h1 a q * D b q = (D b q * f b q) + (if q = a then D b q * f a b else 0) -
        (if q = b then D b q * f a a else 0) := by
      intro q hq
      rw [mem_range] at hq
      rw [hh1, r1 f a q ha hq, if_neg hab, if_pos rfl]
      by_cases c1 : q = a
      · subst c1; simp only [if_neg hab, if_true]; ring
      · by_cases c2 : q = b
        · subst c2; simp only [if_neg hab.symm, if_true]; ring
        · simp only [if_neg c1, if_neg c2]; ring
    rw [Finset.sum_congr rfl this, Finset.sum_sub_distrib, Finset.sum_add_distrib,
      Finset.sum_ite_eq', Finset.sum_ite_eq', if_pos (mem_range.mpr ha), if_pos (mem_range.mpr hb),
      Ds b a hb ha]
  rw [rowa, rowb]; ring

/-- the unit generator of the rotation of `a` and `b` -/
theorem unit_gen {ni na nv a b : Nat} (ha : a < ni + na + nv) (hk : orbKind ni na b < orbKind ni na a) :
    ∀ p q, p < ni + na + nv → q < ni + na + nv →
      asMat (linearOrbRotToMatrix ni na nv (fun m => if m = rotPos ni na nv a b then (1 : ℝ) else 0)
        (fun _ => 0) (ni + na + nv)) (ni + na + nv) p q =
      (if p = a ∧ q = b then 1 else 0) - (if p = b ∧ q = a then 1 else 0) := by
  obtain ⟨u1, u2, u3⟩ := unpacked ni na nv (fun m => if m = rotPos ni na nv a b then (1 : ℝ) else 0)
  obtain ⟨-, inj, -⟩ := C40_positions ni na nv
  intro p q hp hq
  rcases lt_trichotomy (orbKind ni na q) (orbKind ni na p) with h | h | h
  · rw [u3 p q hp h]
    have z : ¬ (p = b ∧ q = a) := by rintro ⟨rfl, rfl⟩; omega
    rw [if_neg z, sub_zero]
    by_cases c : p = a ∧ q = b
    · rw [if_pos c, if_pos (by rw [c.1, c.2])]
    · rw [if_neg c, if_neg (fun e => c (inj p q a b hp h ha hk e))]
  · rw [u2 p q hp hq h.symm, if_neg, if_neg, sub_zero]
    · rintro ⟨rfl, rfl⟩; omega
    · rintro ⟨rfl, rfl⟩; omega
  · rw [u1 p q hp hq, u3 q p hq h]
    have z : ¬ (p = a ∧ q = b) := by rintro ⟨rfl, rfl⟩; omega
    rw [if_neg z, zero_sub]
    by_cases c : p = b ∧ q = a
    · rw [if_pos c, if_pos (by rw [c.1, c.2])]
    · rw [if_neg c, if_neg (fun e => c (by have := inj q p a b hq h ha hk e; exact ⟨this.2, this.1⟩))]

/-- C107: the approximate diagonal element for the rotation of `a` and `b` is the second derivative, along
that rotation, of the energy `sum_pq D_pq f_pq` of electrons with density `D` moving independently in the
mean field `f = F_inactive + F_active`, but for the interaction part of the active elements of the
generalized Fock matrix: twice `F_vv - sum_x D_vx f_vx` for an active orbital `v` of the pair. -/
theorem C107_diag_hessian {ni na nv : Nat} (Fi : Nat → ℝ) (ldfi : Nat) (Fa : Nat → ℝ) (ldfa : Nat)
    (D : Nat → ℝ) (ldd : Nat) (F : Nat → ℝ) (ldf : Nat) (H U0 : Nat → ℝ)
    (fs : ∀ p q, p < ni + na + nv → q < ni + na + nv →
      asMat Fi ldfi p q + asMat Fa ldfa p q = asMat Fi ldfi q p + asMat Fa ldfa q p)
    (Ds : ∀ x y, x < na → y < na → asMat D ldd x y = asMat D ldd y x)
    {a b : Nat} (ha : a < ni + na + nv) (hk : orbKind ni na b < orbKind ni na a) :
    let no := ni + na + nv
    let f := fun p q => asMat Fi ldfi p q + asMat Fa ldfa p q
    let K := linearOrbRotToMatrix ni na nv (fun m => if m = rotPos ni na nv a b then (1 : ℝ) else 0)
      (fun _ => 0) no
    let u := fun t : ℝ => asMat (computeOrbitalRotation no t K no U0 no) no
    let corr := fun p => if ni ≤ p ∧ p < ni + na then
      asMat F ldf p p - ∑ x ∈ range na, asMat D ldd (p - ni) x * f p (x + ni) else 0
    ∃ φ' : ℝ → ℝ,
      (∀ t, HasDerivAt (fun t => ∑ p ∈ range no, ∑ q ∈ range no,
        tr2 no (u t) f p q * full1 ni na (asMat D ldd) p q) (φ' t) t) ∧
      HasDerivAt φ' (approxDiagHessian ni na nv Fi ldfi Fa ldfa D ldd F ldf H (rotPos ni na nv a b) +
        2 * (corr a + corr b)) 0 := by
  intro no f K u corr
  have hb : b < no := by
    rcases kind_cases ha hk with ⟨x, i, hx, hi, rfl, rfl⟩ | ⟨x, i, hx, hi, rfl, rfl⟩ |
      ⟨x, i, hx, hi, rfl, rfl⟩ <;> omega
  have hab : a ≠ b := by rintro rfl; omega
  have cd : ∀ t, HasDerivAt (fun t => ∑ p ∈ range no, ∑ q ∈ range no,
        tr2 no (u t) f p q * full1 ni na (asMat D ldd) p q)
        (∑ p ∈ range no, ∑ q ∈ range no,
          rot1 no (asMat K no) (tr2 no (u t) f) p q * full1 ni na (asMat D ldd) p q) t ∧
      HasDerivAt (fun t => ∑ p ∈ range no, ∑ q ∈ range no,
          rot1 no (asMat K no) (tr2 no (u t) f) p q * full1 ni na (asMat D ldd) p q)
        (∑ p ∈ range no, ∑ q ∈ range no,
          rot1 no (asMat K no) (rot1 no (asMat K no) (tr2 no (u t) f)) p q *
            full1 ni na (asMat D ldd) p q) t := by
    intro t
    have := curve_deriv (ni := ni) (na := na) (nv := nv) (ldu := no) (le_refl _) f
      (fun _ _ _ _ => 0) (fun m => if m = rotPos ni na nv a b then (1 : ℝ) else 0) U0
      (full1 ni na (asMat D ldd)) (fun _ _ _ _ => 0) t
    simp only [energy, mul_zero, Finset.sum_const_zero, add_zero] at this
    exact this
  refine ⟨_, fun t => (cd t).1, ?_⟩
  · refine HasDerivAt.congr_deriv (cd 0).2 ?_
    have o1 := (tr_one (fun i q hi hq => rotation_zero (no := no) (ldk := no) (le_refl no) K U0 hi hq) f
      (fun _ _ _ _ => (0 : ℝ))).1
    have cg : (∑ p ∈ range no, ∑ q ∈ range no,
        rot1 no (asMat K no) (rot1 no (asMat K no) (tr2 no (u 0) f)) p q * full1 ni na (asMat D ldd) p q) =
        ∑ p ∈ range no, ∑ q ∈ range no,
          rot1 no (asMat K no) (rot1 no (asMat K no) f) p q * full1 ni na (asMat D ldd) p q := by
      apply Finset.sum_congr rfl; intro p hp
      apply Finset.sum_congr rfl; intro q hq
      rw [mem_range] at hp hq
      rw [rot1_congr _ (fun p q hp hq => rot1_congr _ o1 hp hq) hp hq]
    refine cg.trans ?_
    rw [second_rot ha hb hab (asMat K no) f (full1 ni na (asMat D ldd)) (unit_gen ha hk) fs
      (fun p q _ _ => by
        simp only [full1, core1, act1]
        congr 1
        · by_cases c : p = q
          · rw [c]
          · rw [if_neg (fun h => c h.1), if_neg (fun h => c h.1.symm)]
        · by_cases c : ni ≤ p ∧ p < ni + na ∧ ni ≤ q ∧ q < ni + na
          · rw [if_pos c, if_pos ⟨c.2.2.1, c.2.2.2, c.1, c.2.1⟩, Ds _ _ (by omega) (by omega)]
          · rw [if_neg c, if_neg (fun h => c ⟨h.2.2.1, h.2.2.2, h.1, h.2.1⟩)]),
      full1_row (asMat D ldd) (fun q => f a q) ha, full1_row (asMat D ldd) (fun q => f b q) hb]
    obtain ⟨v1, v2, v3, -⟩ := diagHess_val ni na nv Fi ldfi Fa ldfa D ldd F ldf H
    rcases kind_cases ha hk with ⟨x, i, hx, hi, rfl, rfl⟩ | ⟨x, i, hx, hi, rfl, rfl⟩ |
      ⟨x, i, hx, hi, rfl, rfl⟩
    · rw [v1 _ _ hi hx]
      simp only [corr, f, full1, core1, act1, true_and, if_neg (show ¬ x + (ni + na) < ni by omega),
        if_neg (show ¬ x + (ni + na) < ni + na by omega), if_pos hi,
        if_neg (show ¬ (ni ≤ x + (ni + na) ∧ x + (ni + na) < ni + na) by omega),
        if_neg (show ¬ (ni ≤ b ∧ b < ni + na) by omega),
        if_neg (show ¬ (x + (ni + na) = x + (ni + na) ∧ x + (ni + na) < ni) by omega),
        if_neg (show ¬ (x + (ni + na) = b ∧ x + (ni + na) < ni) by omega),
        if_neg (show ¬ (ni ≤ x + (ni + na) ∧ x + (ni + na) < ni + na ∧ ni ≤ x + (ni + na) ∧
          x + (ni + na) < ni + na) by omega),
        if_neg (show ¬ (ni ≤ x + (ni + na) ∧ x + (ni + na) < ni + na ∧ ni ≤ b ∧ b < ni + na) by omega),
        if_neg (show ¬ (ni ≤ b ∧ b < ni + na ∧ ni ≤ b ∧ b < ni + na) by omega),
        if_pos (show b = b ∧ b < ni from ⟨rfl, hi⟩)]
      ring
    · rw [v2 _ _ hi hx]
      simp only [corr, f, full1, core1, act1, true_and, if_neg (show ¬ x + (ni + na) < ni by omega),
        if_neg (show ¬ x + (ni + na) < ni + na by omega),
        if_neg (show ¬ i + ni < ni by omega), if_pos (show i + ni < ni + na by omega),
        if_neg (show ¬ (ni ≤ x + (ni + na) ∧ x + (ni + na) < ni + na) by omega),
        if_pos (show ni ≤ i + ni ∧ i + ni < ni + na by omega),
        if_neg (show ¬ (x + (ni + na) = x + (ni + na) ∧ x + (ni + na) < ni) by omega),
        if_neg (show ¬ (x + (ni + na) = i + ni ∧ x + (ni + na) < ni) by omega),
        if_neg (show ¬ (ni ≤ x + (ni + na) ∧ x + (ni + na) < ni + na ∧ ni ≤ x + (ni + na) ∧
          x + (ni + na) < ni + na) by omega),
        if_neg (show ¬ (ni ≤ x + (ni + na) ∧ x + (ni + na) < ni + na ∧ ni ≤ i + ni ∧
          i + ni < ni + na) by omega),
        if_pos (show ni ≤ i + ni ∧ i + ni < ni + na ∧ ni ≤ i + ni ∧ i + ni < ni + na by omega),
        if_neg (show ¬ (i + ni = i + ni ∧ i + ni < ni) by omega), Nat.add_sub_cancel]
      ring
    · rw [v3 _ _ hi hx]
      simp only [corr, f, full1, core1, act1, true_and, if_neg (show ¬ x + ni < ni by omega),
        if_pos (show x + ni < ni + na by omega), if_pos hi,
        if_pos (show ni ≤ x + ni ∧ x + ni < ni + na by omega),
        if_neg (show ¬ (ni ≤ b ∧ b < ni + na) by omega),
        if_neg (show ¬ (x + ni = x + ni ∧ x + ni < ni) by omega),
        if_neg (show ¬ (x + ni = b ∧ x + ni < ni) by omega),
        if_pos (show ni ≤ x + ni ∧ x + ni < ni + na ∧ ni ≤ x + ni ∧ x + ni < ni + na by omega),
        if_neg (show ¬ (ni ≤ x + ni ∧ x + ni < ni + na ∧ ni ≤ b ∧ b < ni + na) by omega),
        if_neg (show ¬ (ni ≤ b ∧ b < ni + na ∧ ni ≤ b ∧ b < ni + na) by omega),
        if_pos (show b = b ∧ b < ni from ⟨rfl, hi⟩), Nat.add_sub_cancel]
      ring

/-- C107: without two-body interaction, from the matrices the code computes from the integrals and the
RDMs, the approximate diagonal is the diagonal of the orbital Hessian: the second derivative of the energy
of the whole orbital space along each rotation. -/
theorem C107_noninteracting {ni na nv ldt ldd1 ldd2 : Nat} (T V D1 D2 : Nat → ℝ)
    (Fi0 Fa0 Q0 F0 H U0 : Nat → ℝ)
    (hT : ∀ p q, p < ni + na + nv → q < ni + na + nv → asMat T ldt p q = asMat T ldt q p)
    (hV : ∀ p q r s, p < ni + na + nv → q < ni + na + nv → r < ni + na + nv → s < ni + na + nv →
      asTen V (ni + na + nv) p q r s = 0)
    (hD : ∀ x y, x < na → y < na → asMat D1 ldd1 x y = asMat D1 ldd1 y x)
    (h0 : ∀ m, F0 m = 0)
    {a b : Nat} (ha : a < ni + na + nv) (hk : orbKind ni na b < orbKind ni na a) :
    let no := ni + na + nv
    let Fi := inactiveFockMatrix no ni T ldt V no Fi0 no
    let Fa := activeFockMatrix no ni na V no D1 ldd1 Fa0 no
    let Q := auxQMatrix na no ni V no D2 ldd2 Q0 na
    let F := generalizedFockMatrix no ni na Fi no Fa no D1 ldd1 Q na F0 no
    let K := linearOrbRotToMatrix ni na nv (fun m => if m = rotPos ni na nv a b then (1 : ℝ) else 0)
      (fun _ => 0) no
    let u := fun t : ℝ => asMat (computeOrbitalRotation no t K no U0 no) no
    ∃ φ' : ℝ → ℝ,
      (∀ t, HasDerivAt (fun t => energy no (tr2 no (u t) (asMat T ldt)) (tr4 no (u t) (asTen V no))
        (full1 ni na (asMat D1 ldd1)) (full2 ni na (asMat D1 ldd1) (asTen D2 ldd2))) (φ' t) t) ∧
      HasDerivAt φ' (approxDiagHessian ni na nv Fi no Fa no D1 ldd1 F no H (rotPos ni na nv a b)) 0 := by
  intro no Fi Fa Q F K u
  have vi : ∀ p q, p < no → q < no → asMat Fi no p q = asMat T ldt p q := by
    intro p q hp hq
    refine (inactiveFock_val (le_refl no) T V Fi0 hp hq).trans ?_
    rw [fi, Finset.sum_eq_zero, add_zero]
    intro i hi
    rw [mem_range] at hi
    rw [hV p q i i hp hq (by omega) (by omega), hV p i i q hp (by omega) (by omega) hq]
    norm_num
  have va : ∀ p q, p < no → q < no → asMat Fa no p q = 0 := by
    intro p q hp hq
    refine (activeFock_val (le_refl no) V D1 Fa0 hp hq).trans ?_
    rw [fa]
    apply Finset.sum_eq_zero; intro v hv
    apply Finset.sum_eq_zero; intro w hw
    rw [mem_range] at hv hw
    rw [hV p q _ _ hp hq (by omega) (by omega), hV p _ _ q hp (by omega) (by omega) hq]
    norm_num
  have vF : ∀ p, p < no → asMat F no p p = ∑ q ∈ range no, full1 ni na (asMat D1 ldd1) p q * asMat T ldt p q := by
    intro p hp
    have := fock_of_vals (R := ℝ) (by norm_num) (show ni + na ≤ no by omega)
      (h := asMat T ldt) (g := asTen V no) (d := asTen D2 ldd2) Fi Fa D1 Q F0
      (fun p q hp hq => inactiveFock_val (le_refl no) T V Fi0 hp hq)
      (fun p q hp hq => activeFock_val (le_refl no) V D1 Fa0 hp hq)
      (fun v o hv ho => auxQ_val (le_refl na) V D2 Q0 hv ho)
      (fun _ _ _ _ _ => h0 _) hD hp hp
    refine this.trans ?_
    rw [genFock, Finset.sum_eq_zero (s := range no) (f := fun q => ∑ r ∈ range no, ∑ s ∈ range no, _),
      mul_zero, add_zero]
    intro q hq
    apply Finset.sum_eq_zero; intro r hr
    apply Finset.sum_eq_zero; intro s hs
    rw [mem_range] at hq hr hs
    rw [hV p q r s hp hq hr hs, mul_zero]
  obtain ⟨φ', d1, d2⟩ := C107_diag_hessian Fi no Fa no D1 ldd1 F no H U0
    (fun p q hp hq => by rw [vi p q hp hq, vi q p hq hp, va p q hp hq, va q p hq hp, hT p q hp hq]) hD ha hk
  have hb : b < no := by
    rcases kind_cases ha hk with ⟨x, i, hx, hi, rfl, rfl⟩ | ⟨x, i, hx, hi, rfl, rfl⟩ |
      ⟨x, i, hx, hi, rfl, rfl⟩ <;> omega
  have corr0 : ∀ p, p < no → (if ni ≤ p ∧ p < ni + na then asMat F no p p -
      ∑ x ∈ range na, asMat D1 ldd1 (p - ni) x * (asMat Fi no p (x + ni) + asMat Fa no p (x + ni)) else 0) =
      0 := by
    intro p hp
    split
    · rename_i h
      rw [vF p hp, full1_row (asMat D1 ldd1) (fun q => asMat T ldt p q) hp, if_neg (by omega), if_pos h.2,
        sub_eq_zero]
      apply Finset.sum_congr rfl; intro x hx
      rw [mem_range] at hx
      rw [vi p _ hp (by omega), va p _ hp (by omega), add_zero]
    · rfl
  refine ⟨φ', ?_, ?_⟩
  · intro t
    refine (d1 t).congr_of_eventuallyEq (Filter.Eventually.of_forall ?_)
    intro t
    have e2 : (∑ p ∈ range no, ∑ q ∈ range no, ∑ r ∈ range no, ∑ s ∈ range no,
        tr4 no (u t) (asTen V no) p q r s * full2 ni na (asMat D1 ldd1) (asTen D2 ldd2) p q r s) = 0 := by
      apply Finset.sum_eq_zero; intro p _
      apply Finset.sum_eq_zero; intro q _
      apply Finset.sum_eq_zero; intro r _
      apply Finset.sum_eq_zero; intro s _
      have : tr4 no (u t) (asTen V no) p q r s = 0 := by
        rw [tr4]
        apply Finset.sum_eq_zero; intro i hi
        apply Finset.sum_eq_zero; intro j hj
        apply Finset.sum_eq_zero; intro k hk
        apply Finset.sum_eq_zero; intro l hl
        rw [mem_range] at hi hj hk hl
        rw [hV i j k l hi hj hk hl, mul_zero]
      rw [this, zero_mul]
    simp only [energy]
    rw [e2, add_zero]
    apply Finset.sum_congr rfl; intro p _
    apply Finset.sum_congr rfl; intro q _
    congr 1
    rw [tr2, tr2]
    apply Finset.sum_congr rfl; intro i hi
    apply Finset.sum_congr rfl; intro j hj
    rw [mem_range] at hi hj
    rw [vi i j hi hj, va i j hi hj, add_zero]
  · refine d2.congr_deriv ?_
    simp only []
    rw [corr0 a ha, corr0 b hb]; ring

/-- two electrons in orbital 0, one in orbital 1, orbital 2 empty: the element for the rotation of
orbitals 2 and 0 -/
example : approxDiagHessian 1 1 1 (fun m => if m = 8 then (7 : ℝ) else if m = 4 then 3 else if m = 0 then 1 else 0)
    3 (fun _ => 0) 3 (fun _ => 1) 1 (fun m => if m = 4 then 3 else 0) 3 (fun _ => 0) (rotPos 1 1 1 2 0) =
      4 * (7 - 1) ∧ rotPos 1 1 1 2 0 = 0 ∧ orbKind 1 1 0 < orbKind 1 1 2 := by
  refine ⟨?_, rfl, by decide⟩
  have := (diagHess_val 1 1 1 (fun m => if m = 8 then (7 : ℝ) else if m = 4 then 3 else if m = 0 then 1 else 0)
    3 (fun _ => 0) 3 (fun _ => 1) 1 (fun m => if m = 4 then 3 else 0) 3 (fun _ => 0)).1 0 0 (by omega) (by omega)
  refine this.trans ?_
  norm_num [asMat]

end Macis
