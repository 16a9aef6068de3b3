import Verif.Lemmas.Mp2
import Verif.Lemmas.Syev

/-! Properties C114-C118: canonical orbital energies, MP2 amplitudes, density, energy and natural
orbitals. -/
namespace Macis
open Spec Finset

section field
variable {R : Type} [Field R]

/-- C114.  `canonical_orbital_energies` stores the orbital energies (the diagonal of the inactive Fock
matrix) in the first `norb` entries and touches nothing else. -/
theorem C114_orbital_energies {no ni ldt ldv ldf : Nat} (hf : no ≤ ldf) (T V eps F : Nat → R) :
    (∀ p < no, canonicalOrbitalEnergies no ni T ldt V ldv eps p =
        orbEnergy ni (asMat T ldt) (asTen V ldv) p ∧
      canonicalOrbitalEnergies no ni T ldt V ldv eps p =
        inactiveFockMatrix no ni T ldt V ldv F ldf (p + p * ldf)) ∧
    ∀ p, no ≤ p → canonicalOrbitalEnergies no ni T ldt V ldv eps p = eps p := by
  refine ⟨fun p hp => ⟨eps_val T V eps hp, ?_⟩, fun p hp => ?_⟩
  · rw [eps_val T V eps hp, inactiveFock_val hf T V F hp hp, orbEnergy, fi]
  · rw [canonicalOrbitalEnergies, (storeRange no eps _).2 p hp]

/-- C115.  `mp2_t2` stores `(ia|jb) / (e_i + e_j - e_a - e_b)` at `i + j*nocc + a*nocc^2 + b*nocc^2*nvir`
and writes nothing at or beyond `nocc^2 * nvir^2`; where the denominator does not vanish the amplitude
solves the first-order equation, and it inherits the pair symmetry of the integrals. -/
theorem C115_amplitudes {no nv ldv : Nat} (V eps T2 : Nat → R) :
    (∀ i j a b, i < no → j < no → a < nv → b < nv →
      let t := fun i j a b =>
        mp2T2 no nv V ldv eps T2 (i + j * no + a * (no * no) + b * (no * no * nv))
      let g := asTen V ldv
      t i j a b = mp2Amp eps g i j (no + a) (no + b) ∧
      (eps i + eps j - eps (no + a) - eps (no + b) ≠ 0 →
        t i j a b * (eps i + eps j - eps (no + a) - eps (no + b)) = g i (no + a) j (no + b)) ∧
      (g i (no + a) j (no + b) = g j (no + b) i (no + a) → t i j a b = t j i b a)) ∧
    ∀ x, no * no * nv * nv ≤ x → mp2T2 no nv V ldv eps T2 x = T2 x := by
  refine ⟨fun i j a b hi hj ha hb => ?_, fun x hx => t2_other V eps T2 hx⟩
  have e1 := t2_val (ldv := ldv) V eps T2 hi hj ha hb
  have e2 := t2_val (ldv := ldv) V eps T2 hj hi hb ha
  rw [t2addr] at e1 e2
  simp only [e1, e2]
  refine ⟨trivial, fun h => ?_, fun h => ?_⟩
  · rw [mp2Amp, div_mul_cancel₀ _ h]
  · rw [mp2Amp, mp2Amp, h]
    congr 1
    ring

/-- C116.  `mp2_1rdm` writes the MP2 density into the occupied-occupied and virtual-virtual blocks and
changes no other entry. -/
theorem C116_density {norb no nv ldt ldv ldd : Nat} (hn : no + nv ≤ norb) (hd : no + nv ≤ ldd)
    (T V D : Nat → R) :
    let g := asTen V ldv
    let e := orbEnergy no (asMat T ldt) g
    let P := mp2OneRdm norb no nv T ldt V ldv D ldd
    (∀ p q, p < no + nv → q < no + nv → (p < no ↔ q < no) →
      P (p + q * ldd) = mp2Density no nv (mp2Amp e g) p q) ∧
    (∀ x, (∀ p q, p < no + nv → q < no + nv → (p < no ↔ q < no) → x ≠ p + q * ldd) → P x = D x) := by
  intro g e P
  have key : ∀ p q, p < nv → q < nv → ∀ i j, i < no → j < no →
      p + no + (q + no) * ldd ≠ i + j * ldd := by
    intro p q hp hq i j hi hj h
    have := (addr2_inj (le_refl ldd) (show p + no < ldd by omega) (show i < ldd by omega) h).1
    omega
  have vvf : ∀ (m : Nat → R) (f : Nat × Nat → R),
      (∀ p q, p < nv → q < nv → storeAll m ((pairs2 nv).map fun x =>
        (x.1 + no + (x.2 + no) * ldd, f x)) (p + no + (q + no) * ldd) = f (p, q)) ∧
      (∀ x, (∀ p q, p < nv → q < nv → x ≠ p + no + (q + no) * ldd) → storeAll m
        ((pairs2 nv).map fun x => (x.1 + no + (x.2 + no) * ldd, f x)) x = m x) := by
    intro m f
    constructor
    · intro p q hp hq
      apply storeAll_const
      · intro w hw hwa
        obtain ⟨⟨a, b⟩, hx, rfl⟩ := List.mem_map.mp hw
        obtain ⟨h1, h2⟩ := mem_pairsMN.mp hx
        simp only at h1 h2 hwa
        obtain ⟨ea, eb⟩ := addr2_inj (le_refl ldd) (show a + no < ldd by omega)
          (show p + no < ldd by omega) hwa
        have : a = p := by omega
        have : b = q := by omega
        subst a b
        rfl
      · exact ⟨_, List.mem_map.mpr ⟨(p, q), mem_pairsMN.mpr ⟨hp, hq⟩, rfl⟩, rfl⟩
    · intro x hx
      apply storeAll_none
      intro w hw hwa
      obtain ⟨⟨a, b⟩, hx', rfl⟩ := List.mem_map.mp hw
      obtain ⟨h1, h2⟩ := mem_pairsMN.mp hx'
      exact hx a b h1 h2 hwa.symm
  constructor
  · intro p q hp hq hpq
    by_cases h : p < no
    · have h' := hpq.mp h
      simp only [P, mp2OneRdm]
      rw [(vvf _ _).2 _ (fun a b ha hb => (key a b ha hb p q h h').symm),
        (fill2 (show no ≤ ldd by omega) D _).1 p q h h', mp2Density,
        if_pos (show p < no ∧ q < no from ⟨h, h'⟩)]
      have : ∀ s u : R, -2 * s + u = u - 2 * s := by intros; ring
      simp only [this]
      congr 2
      refine sum_congr rfl fun k hk => ?_
      rw [sumV]
      refine sum_congr rfl fun a ha => ?_
      rw [sumV]
      refine sum_congr rfl fun b hb => ?_
      rw [mem_range] at hk ha hb
      rw [ampl_val hn T V h hk ha hb, ampl_val hn T V h' hk ha hb, ampl_val hn T V h' hk hb ha]
    · have h' : ¬ q < no := fun x => h (hpq.mpr x)
      obtain ⟨p, rfl⟩ := Nat.exists_eq_add_of_le (Nat.le_of_not_lt h)
      obtain ⟨q, rfl⟩ := Nat.exists_eq_add_of_le (Nat.le_of_not_lt h')
      have hp' : p < nv := by omega
      have hq' : q < nv := by omega
      simp only [P, mp2OneRdm]
      have := (vvf (storeAll D ((pairs2 no).map fun x =>
        (x.1 + x.2 * ldd, -2 * (∑ k ∈ Finset.range no, ∑ a ∈ Finset.range nv, ∑ b ∈ Finset.range nv,
          mp2Amplitudes norb no nv T ldt V ldv (x.1 + k * no + a * (no * no) + b * (no * no * nv)) *
          (2 * mp2Amplitudes norb no nv T ldt V ldv (x.2 + k * no + a * (no * no) + b * (no * no * nv)) -
            mp2Amplitudes norb no nv T ldt V ldv (x.2 + k * no + b * (no * no) + a * (no * no * nv)))) +
          if x.1 = x.2 then 2 else 0))) (fun x => 2 * ∑ i ∈ Finset.range no, ∑ j ∈ Finset.range no, ∑ c ∈ Finset.range nv,
        mp2Amplitudes norb no nv T ldt V ldv (i + j * no + c * (no * no) + x.1 * (no * no * nv)) *
          (2 * mp2Amplitudes norb no nv T ldt V ldv (i + j * no + c * (no * no) + x.2 * (no * no * nv)) -
            mp2Amplitudes norb no nv T ldt V ldv (i + j * no + x.2 * (no * no) + c * (no * no * nv))))).1 p q hp' hq'
      rw [Nat.add_comm no p, Nat.add_comm no q, this, mp2Density, if_neg (by omega), if_pos (by omega)]
      congr 1
      refine sum_congr rfl fun i hi => ?_
      refine sum_congr rfl fun j hj => ?_
      rw [sumV]
      refine sum_congr rfl fun c hc => ?_
      rw [mem_range] at hi hj hc
      rw [ampl_val hn T V hi hj hc hp', ampl_val hn T V hi hj hc hq', ampl_val hn T V hi hj hq' hc,
        Nat.add_comm no p, Nat.add_comm no q]
  · intro x hx
    simp only [P, mp2OneRdm]
    rw [(vvf _ _).2 x (fun p q hp hq => hx (p + no) (q + no) (by omega) (by omega) (by omega)),
      (fill2 (show no ≤ ldd by omega) D _).2 x
        (fun p q hp hq => hx p q (by omega) (by omega) (by omega))]

/-- pair symmetry of the amplitudes -/
theorem mp2Amp_pair {e : Nat → R} {g : Nat → Nat → Nat → Nat → R} {i j a b : Nat}
    (h : g i a j b = g j b i a) : mp2Amp e g i j a b = mp2Amp e g j i b a := by
  rw [mp2Amp, mp2Amp, h]; congr 1; ring

theorem dens_symm {no nv : Nat} {t : Nat → Nat → Nat → Nat → R}
    (ht : ∀ i j a b, i < no → j < no → a ∈ Ico no (no + nv) → b ∈ Ico no (no + nv) →
      t i j a b = t j i b a) {p q : Nat} (hp : p < no + nv) (hq : q < no + nv) :
    mp2Density no nv t p q = mp2Density no nv t q p := by
  unfold mp2Density
  by_cases h1 : p < no <;> by_cases h2 : q < no
  · rw [if_pos (show p < no ∧ q < no from ⟨h1, h2⟩), if_pos (show q < no ∧ p < no from ⟨h2, h1⟩)]
    congr 1
    · by_cases e : p = q
      · rw [if_pos e, if_pos e.symm]
      · rw [if_neg e, if_neg (fun x => e x.symm)]
    · congr 1
      refine sum_congr rfl fun k _ => ?_
      simp only [mul_sub, sum_sub_distrib]
      congr 1
      · refine sum_congr rfl fun a _ => sum_congr rfl fun b _ => by ring
      · rw [sum_comm]
        refine sum_congr rfl fun a _ => sum_congr rfl fun b _ => by ring
  · rw [if_neg (by omega), if_neg (by omega), if_neg (by omega), if_neg (by omega)]
  · rw [if_neg (by omega), if_neg (by omega), if_neg (by omega), if_neg (by omega)]
  · rw [if_neg (by omega), if_pos (by omega), if_neg (by omega), if_pos (by omega)]
    have hp' : p ∈ Ico no (no + nv) := by rw [mem_Ico]; omega
    have hq' : q ∈ Ico no (no + nv) := by rw [mem_Ico]; omega
    congr 1
    simp only [mul_sub, sum_sub_distrib]
    congr 1
    · refine sum_congr rfl fun i _ => sum_congr rfl fun j _ => sum_congr rfl fun c _ => by ring
    · rw [sum_comm]
      refine sum_congr rfl fun i hi => sum_congr rfl fun j hj => sum_congr rfl fun c hc => ?_
      rw [mem_range] at hi hj
      rw [ht j i c p hj hi hc hp', ht j i q c hj hi hq' hc]
      ring

end field

section ordered
variable {R : Type} [Field R] [LinearOrder R] [IsStrictOrderedRing R]

theorem sum_swap_le {ι : Type} (s : Finset ι) (σ : ι → ι) (hσ : ∀ x ∈ s, σ x ∈ s)
    (hσ2 : ∀ x ∈ s, σ (σ x) = x) (z : ι → R) :
    ∑ x ∈ s, z x * z x ≤ ∑ x ∈ s, z x * (2 * z x - z (σ x)) := by
  have e : ∑ x ∈ s, z (σ x) * z (σ x) = ∑ x ∈ s, z x * z x :=
    sum_bij' (fun x _ => σ x) (fun x _ => σ x) hσ hσ hσ2 hσ2 (fun x hx => rfl)
  have h : 0 ≤ ∑ x ∈ s, (z x - z (σ x)) * (z x - z (σ x)) :=
    sum_nonneg fun x _ => mul_self_nonneg _
  have h2 : ∑ x ∈ s, (z x - z (σ x)) * (z x - z (σ x)) =
      2 * (∑ x ∈ s, z x * (2 * z x - z (σ x)) - ∑ x ∈ s, z x * z x) +
        (∑ x ∈ s, z (σ x) * z (σ x) - ∑ x ∈ s, z x * z x) := by
    rw [← sum_sub_distrib, ← sum_sub_distrib, mul_sum, ← sum_add_distrib]
    refine sum_congr rfl fun x _ => by ring
  rw [e] at h2
  linarith

/-- three nested sums as one sum -/
theorem sum3 {R : Type} [AddCommMonoid R] (A B C : Finset Nat) (f : Nat → Nat → Nat → R) :
    ∑ x ∈ A ×ˢ B ×ˢ C, f x.1 x.2.1 x.2.2 = ∑ i ∈ A, ∑ j ∈ B, ∑ c ∈ C, f i j c := by
  rw [sum_product]
  refine sum_congr rfl fun i _ => ?_
  rw [sum_product]

theorem quad_form {ι : Type} (S : Finset Nat) (s : Finset ι) (u v : ι → Nat → R) (x : Nat → R) :
    ∑ a ∈ S, ∑ b ∈ S, x a * (∑ k ∈ s, u k a * v k b) * x b =
      ∑ k ∈ s, (∑ a ∈ S, u k a * x a) * (∑ b ∈ S, v k b * x b) := by
  simp only [mul_sum, sum_mul]
  rw [sum_congr rfl fun a _ => sum_comm, sum_comm]
  refine sum_congr rfl fun k _ => ?_
  rw [sum_comm]
  exact sum_congr rfl fun b _ => sum_congr rfl fun a _ => by ring

theorem vv_nonneg {no nv : Nat} {t : Nat → Nat → Nat → Nat → R}
    (ht : ∀ i j a b, i < no → j < no → a ∈ Ico no (no + nv) → b ∈ Ico no (no + nv) →
      t i j a b = t j i b a) (x : Nat → R) :
    0 ≤ ∑ a ∈ Ico no (no + nv), ∑ b ∈ Ico no (no + nv), x a * mp2Density no nv t a b * x b := by
  set S := Ico no (no + nv) with hS
  set P := range no ×ˢ range no ×ˢ S with hP
  let y : Nat × Nat × Nat → R := fun k => ∑ a ∈ S, t k.1 k.2.1 k.2.2 a * x a
  let σ : Nat × Nat × Nat → Nat × Nat × Nat := fun k => (k.2.1, k.1, k.2.2)
  have e1 : ∀ a ∈ S, ∀ b ∈ S, x a * mp2Density no nv t a b * x b =
      2 * (x a * (∑ k ∈ P, t k.1 k.2.1 k.2.2 a * (2 * t k.1 k.2.1 k.2.2 b - t k.1 k.2.1 b k.2.2)) *
        x b) := by
    intro a ha b hb
    rw [hS, mem_Ico] at ha hb
    rw [mp2Density, if_neg (by omega), if_pos (by omega), ← sum3]
    ring
  rw [sum_congr rfl fun a ha => sum_congr rfl fun b hb => e1 a ha b hb]
  simp only [← mul_sum]
  rw [quad_form]
  have e2 : ∀ k ∈ P, (∑ b ∈ S, (2 * t k.1 k.2.1 k.2.2 b - t k.1 k.2.1 b k.2.2) * x b) =
      2 * y k - y (σ k) := by
    intro k hk
    simp only [hP, mem_product, mem_range] at hk
    simp only [sub_mul, sum_sub_distrib, y, σ, mul_sum]
    congr 1
    · exact sum_congr rfl fun b _ => by ring
    · exact sum_congr rfl fun b hb => by rw [ht _ _ _ _ hk.1 hk.2.1 hb hk.2.2]
  rw [sum_congr rfl fun k hk => by rw [e2 k hk]]
  have := sum_swap_le P σ (by simp only [hP, σ, mem_product]; tauto) (by intros; rfl) y
  have h0 : 0 ≤ ∑ k ∈ P, y k * y k := sum_nonneg fun k _ => mul_self_nonneg _
  have : 0 ≤ ∑ k ∈ P, y k * (2 * y k - y (σ k)) := h0.trans this
  exact mul_nonneg (by norm_num) this

theorem oo_le {no nv : Nat} {t : Nat → Nat → Nat → Nat → R} (x : Nat → R) :
    ∑ i ∈ range no, ∑ j ∈ range no, x i * mp2Density no nv t i j * x j ≤
      2 * ∑ i ∈ range no, x i * x i := by
  set S := Ico no (no + nv) with hS
  set P := range no ×ˢ S ×ˢ S with hP
  let y : Nat × Nat × Nat → R := fun k => ∑ i ∈ range no, t i k.1 k.2.1 k.2.2 * x i
  let σ : Nat × Nat × Nat → Nat × Nat × Nat := fun k => (k.1, k.2.2, k.2.1)
  have e1 : ∀ i ∈ range no, ∀ j ∈ range no, x i * mp2Density no nv t i j * x j =
      (if i = j then 2 * (x i * x j) else 0) -
      2 * (x i * (∑ k ∈ P, t i k.1 k.2.1 k.2.2 * (2 * t j k.1 k.2.1 k.2.2 - t j k.1 k.2.2 k.2.1)) *
        x j) := by
    intro i hi j hj
    rw [mem_range] at hi hj
    rw [mp2Density, if_pos (show i < no ∧ j < no from ⟨hi, hj⟩), hP,
      sum3 (range no) S S (fun k a b => t i k a b * (2 * t j k a b - t j k b a))]
    split <;> ring
  rw [sum_congr rfl fun a ha => sum_congr rfl fun b hb => e1 a ha b hb]
  simp only [sum_sub_distrib, ← mul_sum]
  rw [quad_form (range no) P (fun k i => t i k.1 k.2.1 k.2.2)
    (fun k j => 2 * t j k.1 k.2.1 k.2.2 - t j k.1 k.2.2 k.2.1)]
  have e2 : ∀ k ∈ P, (∑ b ∈ range no, (2 * t b k.1 k.2.1 k.2.2 - t b k.1 k.2.2 k.2.1) * x b) =
      2 * y k - y (σ k) := by
    intro k hk
    simp only [sub_mul, sum_sub_distrib, y, σ, mul_sum]
    congr 1
    exact sum_congr rfl fun b _ => by ring
  have e4 : ∑ k ∈ P, (∑ a ∈ range no, t a k.1 k.2.1 k.2.2 * x a) *
      (∑ b ∈ range no, (2 * t b k.1 k.2.1 k.2.2 - t b k.1 k.2.2 k.2.1) * x b) =
      ∑ k ∈ P, y k * (2 * y k - y (σ k)) := sum_congr rfl fun k hk => by rw [e2 k hk]
  rw [e4]
  have := sum_swap_le P σ (by simp only [hP, σ, mem_product]; tauto) (by intros; rfl) y
  have h0 : 0 ≤ ∑ k ∈ P, y k * y k := sum_nonneg fun k _ => mul_self_nonneg _
  have : 0 ≤ ∑ k ∈ P, y k * (2 * y k - y (σ k)) := h0.trans this
  have e3 : ∑ i ∈ range no, ∑ j ∈ range no, (if i = j then 2 * (x i * x j) else 0) =
      2 * ∑ i ∈ range no, x i * x i := by
    rw [mul_sum]
    refine sum_congr rfl fun i hi => ?_
    rw [sum_ite_eq, if_pos hi]
  rw [e3]
  have : 0 ≤ 2 * ∑ k ∈ P, y k * (2 * y k - y (σ k)) := mul_nonneg (by norm_num) this
  linarith

theorem dens_trace {R : Type} [Field R] {no nv : Nat} (t : Nat → Nat → Nat → Nat → R) :
    ∑ p ∈ range (no + nv), mp2Density no nv t p p = 2 * no := by
  let F : Nat → Nat → Nat → Nat → R := fun i j a b => t i j a b * (2 * t i j a b - t i j b a)
  have e1 : ∑ p ∈ range no, mp2Density no nv t p p = 2 * no - 2 * ∑ i ∈ range no, ∑ k ∈ range no,
      ∑ a ∈ Ico no (no + nv), ∑ b ∈ Ico no (no + nv), F i k a b := by
    rw [sum_congr rfl (fun p hp => by
      rw [mp2Density, if_pos (show p < no ∧ p < no from ⟨mem_range.mp hp, mem_range.mp hp⟩),
        if_pos rfl])]
    rw [sum_sub_distrib, ← mul_sum, sum_const, card_range, nsmul_eq_mul, mul_comm]
  have e2 : ∑ p ∈ Ico no (no + nv), mp2Density no nv t p p = 2 * ∑ i ∈ range no, ∑ k ∈ range no,
      ∑ a ∈ Ico no (no + nv), ∑ b ∈ Ico no (no + nv), F i k a b := by
    have : ∀ p ∈ Ico no (no + nv), mp2Density no nv t p p = 2 * ∑ i ∈ range no, ∑ k ∈ range no,
        ∑ c ∈ Ico no (no + nv), F i k c p := by
      intro p hp
      rw [mem_Ico] at hp
      rw [mp2Density, if_neg (by omega), if_pos (by omega)]
    rw [sum_congr rfl this, ← mul_sum, sum_comm]
    congr 1
    refine sum_congr rfl fun i _ => ?_
    rw [sum_comm]
    refine sum_congr rfl fun k _ => ?_
    rw [sum_comm]
  rw [range_eq_Ico, ← sum_Ico_consecutive _ (Nat.zero_le no) (Nat.le_add_right no nv), ← range_eq_Ico,
    e1, e2]
  ring

/-- C116.  What the density `mp2_1rdm` returns satisfies: the trace of the two written blocks is the
number of electrons; if the two-electron integrals are unchanged by exchanging the two electrons, the
blocks are symmetric, the virtual block is positive semidefinite and the occupied block is at most
twice the identity (virtual orbitals gain electrons, occupied ones lose them). -/
theorem C116_density_properties {norb no nv ldt ldv ldd : Nat} (hn : no + nv ≤ norb)
    (hd : no + nv ≤ ldd) (T V D : Nat → R)
    (hV : ∀ p q r s, p < norb → q < norb → r < norb → s < norb →
      asTen V ldv p q r s = asTen V ldv r s p q) :
    let P := mp2OneRdm norb no nv T ldt V ldv D ldd
    (∑ p ∈ range (no + nv), P (p + p * ldd) = 2 * no) ∧
    (∀ p q, p < no + nv → q < no + nv → (p < no ↔ q < no) → P (p + q * ldd) = P (q + p * ldd)) ∧
    (∀ x : Nat → R,
      0 ≤ ∑ a ∈ Ico no (no + nv), ∑ b ∈ Ico no (no + nv), x a * P (a + b * ldd) * x b) ∧
    (∀ x : Nat → R,
      ∑ i ∈ range no, ∑ j ∈ range no, x i * P (i + j * ldd) * x j ≤ 2 * ∑ i ∈ range no, x i * x i) := by
  intro P
  set t := mp2Amp (orbEnergy no (asMat T ldt) (asTen V ldv)) (asTen V ldv) with htt
  have hD : ∀ p q, p < no + nv → q < no + nv → (p < no ↔ q < no) →
      P (p + q * ldd) = mp2Density no nv t p q := (C116_density hn hd T V D).1
  have ht : ∀ i j a b, i < no → j < no → a ∈ Ico no (no + nv) → b ∈ Ico no (no + nv) →
      t i j a b = t j i b a := by
    intro i j a b hi hj ha hb
    rw [mem_Ico] at ha hb
    exact mp2Amp_pair (hV i a j b (by omega) (by omega) (by omega) (by omega))
  refine ⟨?_, ?_, ?_, ?_⟩
  · rw [← dens_trace t]
    exact sum_congr rfl fun p hp => hD p p (mem_range.mp hp) (mem_range.mp hp) Iff.rfl
  · intro p q hp hq hpq
    rw [hD p q hp hq hpq, hD q p hq hp hpq.symm]
    exact dens_symm ht hp hq
  · intro x
    have := vv_nonneg ht x
    refine this.trans_eq (sum_congr rfl fun a ha => sum_congr rfl fun b hb => ?_)
    rw [mem_Ico] at ha hb
    rw [hD a b ha.2 hb.2 (by omega)]
  · intro x
    have := oo_le (no := no) (nv := nv) (t := t) x
    refine le_trans (le_of_eq (sum_congr rfl fun a ha => sum_congr rfl fun b hb => ?_)) this
    rw [mem_range] at ha hb
    rw [hD a b (by omega) (by omega) (by omega)]

theorem sum_sym_nonpos (s : Finset Nat) (f : Nat → Nat → R)
    (h : ∀ i ∈ s, ∀ j ∈ s, f i j + f j i ≤ 0) : ∑ i ∈ s, ∑ j ∈ s, f i j ≤ 0 := by
  have e : ∑ i ∈ s, ∑ j ∈ s, (f i j + f j i) = 2 * ∑ i ∈ s, ∑ j ∈ s, f i j := by
    simp only [sum_add_distrib]
    rw [sum_comm (f := fun i j => f j i)]
    ring
  have : ∑ i ∈ s, ∑ j ∈ s, (f i j + f j i) ≤ 0 :=
    sum_nonpos fun i hi => sum_nonpos fun j hj => h i hi j hj
  linarith

/-- C117.  For a two-electron array whose leading dimension is the number of orbitals and real
integrals (`(pq|rs) = (qp|sr)`), the printed `EMP2` is the MP2 correlation energy; if moreover every
occupied orbital lies below every virtual one, it is not positive. -/
theorem C117_energy {no nv ldt : Nat} (T V : Nat → R)
    (hV : ∀ p q r s, p < no + nv → q < no + nv → r < no + nv → s < no + nv →
      asTen V (no + nv) p q r s = asTen V (no + nv) q p s r) :
    let g := asTen V (no + nv)
    let e := orbEnergy no (asMat T ldt) g
    let E := mp2PrintedEnergy (no + nv) no nv T ldt V (no + nv)
    E = mp2Energy no nv e g ∧
    ((∀ i a, i < no → no ≤ a → a < no + nv → e i < e a) → E ≤ 0) := by
  intro g e E
  have hE : E = mp2Energy no nv e g := by
    simp only [E, mp2PrintedEnergy, mp2Energy]
    refine sum_congr rfl fun i hi => sum_congr rfl fun j hj => ?_
    rw [sumV]
    refine sum_congr rfl fun a ha => ?_
    rw [sumV]
    refine sum_congr rfl fun b hb => ?_
    rw [mem_range] at hi hj ha hb
    rw [ampl_val (le_refl _) T V hi hj ha hb]
    congr 1
    have h1 := hV (no + a) i (no + b) j (by omega) (by omega) (by omega) (by omega)
    have h2 := hV (no + a) j (no + b) i (by omega) (by omega) (by omega) (by omega)
    simp only [g]
    rw [← h1, ← h2]
    simp only [asTen, addr4]
    rw [Nat.add_comm a, Nat.add_comm b]
    congr 2 <;> [congr 1; skip] <;> ring
  refine ⟨hE, fun hgap => ?_⟩
  rw [hE, mp2Energy]
  apply sum_sym_nonpos
  intro i hi j hj
  rw [← sum_add_distrib]
  refine sum_nonpos fun a ha => ?_
  rw [← sum_add_distrib]
  refine sum_nonpos fun b hb => ?_
  rw [mem_range] at hi hj
  rw [mem_Ico] at ha hb
  have h1 := hgap i a hi ha.1 ha.2
  have h2 := hgap j b hj hb.1 hb.2
  have hd : e i + e j - e a - e b < 0 := by linarith
  have hd' : e j + e i - e a - e b = e i + e j - e a - e b := by ring
  rw [mp2Amp, mp2Amp, hd']
  set d := e i + e j - e a - e b
  have : g i a j b / d * (2 * g i a j b - g j a i b) + g j a i b / d * (2 * g j a i b - g i a j b) =
      ((g i a j b) ^ 2 + (g j a i b) ^ 2 + (g i a j b - g j a i b) ^ 2) / d := by ring
  rw [this]
  exact div_nonpos_of_nonneg_of_nonpos (by positivity) hd.le

/-- orthonormal columns of a square array are orthonormal rows -/
theorem ortho_rows {R : Type} [Field R] {n : Nat} {Z : Nat → Nat → R}
    (h : ∀ j k, j < n → k < n → (∑ p ∈ range n, Z p j * Z p k) = if j = k then 1 else 0) {p q : Nat}
    (hp : p < n) (hq : q < n) : (∑ k ∈ range n, Z p k * Z q k) = if p = q then 1 else 0 := by
  let M : Matrix (Fin n) (Fin n) R := fun p k => Z p k
  have h1 : M.transpose * M = 1 := by
    ext j k
    rw [Matrix.mul_apply, Matrix.one_apply]
    have := h j k j.2 k.2
    rw [sum_range] at this
    refine Eq.trans ?_ (this.trans ?_)
    · rfl
    · simp only [Fin.ext_iff]
  have h2 := mul_eq_one_comm.mp h1
  have h3 := congrFun (congrFun h2 ⟨p, hp⟩) ⟨q, hq⟩
  rw [Matrix.mul_apply, Matrix.one_apply] at h3
  rw [sum_range]
  refine Eq.trans ?_ (h3.trans ?_)
  · rfl
  · simp only [Fin.mk.injEq]

/-- the eigenvalues of a symmetric matrix sum to its trace -/
theorem symEig_trace {n : Nat} {S : Nat → Nat → R} {W : Nat → R} {Z : Nat → Nat → R}
    (h : SymEig n S W Z) : ∑ k ∈ range n, W k = ∑ p ∈ range n, S p p := by
  have e1 : ∀ k ∈ range n, W k = ∑ p ∈ range n, ∑ q ∈ range n, S p q * (Z p k * Z q k) := by
    intro k hk
    have hk' := mem_range.mp hk
    have := h.ortho k k hk' hk'
    rw [if_pos rfl] at this
    calc W k = W k * ∑ p ∈ range n, Z p k * Z p k := by rw [this, mul_one]
      _ = ∑ p ∈ range n, Z p k * (W k * Z p k) := by
        rw [mul_sum]; exact sum_congr rfl fun p _ => by ring
      _ = _ := by
        refine sum_congr rfl fun p hp => ?_
        rw [← h.eig p k (mem_range.mp hp) hk', mul_sum]
        exact sum_congr rfl fun q _ => by ring
  rw [sum_congr rfl e1, sum_comm]
  refine sum_congr rfl fun p hp => ?_
  rw [sum_comm, sum_eq_single p]
  · rw [← mul_sum, ortho_rows h.ortho (mem_range.mp hp) (mem_range.mp hp), if_pos rfl, mul_one]
  · intro q hq hqp
    rw [← mul_sum, ortho_rows h.ortho (mem_range.mp hp) (mem_range.mp hq), if_neg (Ne.symm hqp),
      mul_zero]
  · intro hh; exact absurd hp hh

/-- what `syev` is given and gives back -/
theorem natorb_eig {norb no nv ldt ldv ldc : Nat} (hn : no + nv = norb) (hd : norb ≤ ldc)
    {syev : Nat → (Nat → R) → Nat → (Nat → R) × (Nat → R)} (hs : SyevSpec syev) (T V C : Nat → R) :
    let r := mp2NaturalOrbitals syev norb no nv T ldt V ldv C ldc
    let P := mp2OneRdm norb no nv T ldt V ldv C ldc
    SymEig norb (fun p q => -(if q ≤ p then P (p + q * ldc) else P (q + p * ldc)))
      (fun k => - r.1 k) (fun p k => r.2 (p + k * ldc)) := by
  intro r P
  have h := hs norb (storeAll P ((pairs2 norb).map fun x =>
    (x.1 + x.2 * ldc, P (x.1 + x.2 * ldc) * (-1)))) ldc hd
  have hr : ∀ k < norb, r.1 k = - (syev norb (storeAll P ((pairs2 norb).map fun x =>
      (x.1 + x.2 * ldc, P (x.1 + x.2 * ldc) * (-1)))) ldc).2 k := by
    intro k hk
    simp only [r, mp2NaturalOrbitals]
    rw [(storeRange norb _ _).1 k hk]
    ring
  have hA : ∀ p q, p < norb → q < norb → storeAll P ((pairs2 norb).map fun x =>
      (x.1 + x.2 * ldc, P (x.1 + x.2 * ldc) * (-1))) (p + q * ldc) = - P (p + q * ldc) := by
    intro p q hp hq
    rw [(fill2 hd P _).1 p q hp hq]
    ring
  refine ⟨?_, h.ortho, ?_⟩
  · intro j k hjk hk
    rw [hr k hk, hr j (by omega), neg_neg, neg_neg]
    exact h.asc j k hjk hk
  · intro p k hp hk
    have := h.eig p k hp hk
    rw [hr k hk, neg_neg]
    simp only [r, mp2NaturalOrbitals]
    rw [← this]
    refine sum_congr rfl fun q hq => ?_
    rw [mem_range] at hq
    rw [hA p q hp hq, hA q p hq hp]
    by_cases hqp : q ≤ p
    · simp only [if_pos hqp]; rfl
    · simp only [if_neg hqp]; rfl

/-- C118.  `mp2_natural_orbitals`, when every orbital is occupied or virtual, the caller's array holds
zeros in its virtual-occupied block, the integrals are unchanged by exchanging the electrons and
`syev` is exact: the returned orbitals are orthonormal, they diagonalise the MP2 density, their
occupations are in descending order and add up to the number of electrons. -/
theorem C118_natural_orbitals_partial {norb no nv ldt ldv ldc : Nat} (hn : no + nv = norb)
    (hd : norb ≤ ldc) {syev : Nat → (Nat → R) → Nat → (Nat → R) × (Nat → R)} (hs : SyevSpec syev)
    (T V C : Nat → R) (hC : ∀ p q, no ≤ p → p < norb → q < no → C (p + q * ldc) = 0)
    (hV : ∀ p q r s, p < norb → q < norb → r < norb → s < norb →
      asTen V ldv p q r s = asTen V ldv r s p q) :
    let g := asTen V ldv
    let D := mp2Density no nv (mp2Amp (orbEnergy no (asMat T ldt) g) g)
    let r := mp2NaturalOrbitals syev norb no nv T ldt V ldv C ldc
    let occ := r.1
    let Z := fun p k => r.2 (p + k * ldc)
    (∀ j k, j ≤ k → k < norb → occ k ≤ occ j) ∧
    (∀ j k, j < norb → k < norb → (∑ p ∈ range norb, Z p j * Z p k) = if j = k then 1 else 0) ∧
    (∀ p k, p < norb → k < norb → (∑ q ∈ range norb, D p q * Z q k) = occ k * Z p k) ∧
    ∑ k ∈ range norb, occ k = 2 * no := by
  intro g D r occ Z
  have h := natorb_eig (ldt := ldt) (ldv := ldv) hn hd hs T V C
  have ht : ∀ i j a b, i < no → j < no → a ∈ Ico no (no + nv) → b ∈ Ico no (no + nv) →
      mp2Amp (orbEnergy no (asMat T ldt) g) g i j a b =
        mp2Amp (orbEnergy no (asMat T ldt) g) g j i b a := by
    intro i j a b hi hj ha hb
    rw [mem_Ico] at ha hb
    exact mp2Amp_pair (hV i a j b (by omega) (by omega) (by omega) (by omega))
  have hS : ∀ p q, p < norb → q < norb →
      (if q ≤ p then mp2OneRdm norb no nv T ldt V ldv C ldc (p + q * ldc)
        else mp2OneRdm norb no nv T ldt V ldv C ldc (q + p * ldc)) = D p q := by
    have base : ∀ p q, p < norb → q < norb → q ≤ p →
        mp2OneRdm norb no nv T ldt V ldv C ldc (p + q * ldc) = D p q := by
      intro p q hp hq hqp
      have hden := C116_density (ldt := ldt) (ldv := ldv) (le_of_eq hn) (hn ▸ hd) T V C
      by_cases hb : p < no ↔ q < no
      · exact hden.1 p q (by omega) (by omega) hb
      · have hp' : no ≤ p := by
          by_contra hc; exact hb ⟨fun _ => by omega, fun _ => by omega⟩
        have hq' : q < no := by
          by_contra hc; exact hb ⟨fun _ => by omega, fun _ => by omega⟩
        rw [hden.2 (p + q * ldc) ?_, hC p q hp' hp hq']
        · simp only [D, mp2Density]
          rw [if_neg (by omega), if_neg (by omega)]
        · intro p' q' hp1 hq1 hiff he
          obtain ⟨rfl, rfl⟩ := addr2_inj hd hp (by omega) he
          omega
    intro p q hp hq
    by_cases hqp : q ≤ p
    · rw [if_pos hqp]; exact base p q hp hq hqp
    · rw [if_neg hqp, base q p hq hp (by omega)]
      exact dens_symm ht (by omega) (by omega)
  refine ⟨?_, h.ortho, ?_, ?_⟩
  · intro j k hjk hk
    have := h.asc j k hjk hk
    exact neg_le_neg_iff.mp this
  · intro p k hp hk
    have := h.eig p k hp hk
    have e : (∑ q ∈ range norb, D p q * Z q k) = - ∑ q ∈ range norb,
        -(if q ≤ p then mp2OneRdm norb no nv T ldt V ldv C ldc (p + q * ldc)
        else mp2OneRdm norb no nv T ldt V ldv C ldc (q + p * ldc)) * Z q k := by
      rw [← sum_neg_distrib]
      refine sum_congr rfl fun q hq => ?_
      rw [hS p q hp (mem_range.mp hq)]
      ring
    rw [e]
    erw [this]
    ring
  · have := symEig_trace h
    rw [sum_neg_distrib, sum_neg_distrib, neg_inj] at this
    refine this.trans ?_
    rw [← dens_trace (nv := nv) (mp2Amp (orbEnergy no (asMat T ldt) g) g), hn]
    exact sum_congr rfl fun p hp => hS p p (mem_range.mp hp) (mem_range.mp hp)

end ordered

/-- the two-orbital, zero-integral density used in the witnesses -/
theorem witness_density : ∀ (C : Nat → ℝ),
    let P := mp2OneRdm 2 1 1 (fun _ => 0) 2 (fun _ => 0) 2 C 2
    P 0 = 2 ∧ P 1 = C 1 ∧ P 3 = 0 := by
  intro C P
  have h := C116_density (norb := 2) (no := 1) (nv := 1) (ldt := 2) (ldv := 2) (ldd := 2) (by omega)
    (by omega) (fun _ => 0) (fun _ => 0) C
  have h0 := h.1 0 0 (by omega) (by omega) Iff.rfl
  have h3 := h.1 1 1 (by omega) (by omega) Iff.rfl
  have h1 := h.2 1 (by
    intro p q hp hq hb he
    have : p = 0 ∨ p = 1 := by omega
    have : q = 0 ∨ q = 1 := by omega
    omega)
  refine ⟨?_, h1, ?_⟩
  · refine h0.trans ?_
    simp [mp2Density, mp2Amp, asTen]
  · refine h3.trans ?_
    simp [mp2Density, mp2Amp, asTen]

/-- C118.  Without the zeros the claim is false: the virtual-occupied block of the caller's array is
read by the eigensolver although nothing wrote it.  With a stale 5 there, no exact `syev` returns
eigenvectors of the density. -/
theorem C118_stale_contents_refuted {syev : Nat → (Nat → ℝ) → Nat → (Nat → ℝ) × (Nat → ℝ)}
    (hs : SyevSpec syev) :
    let C : Nat → ℝ := fun x => if x = 1 then 5 else 0
    let r := mp2NaturalOrbitals syev 2 1 1 (fun _ => 0) 2 (fun _ => 0) 2 C 2
    let D := mp2Density 1 1 (mp2Amp (orbEnergy 1 (fun _ _ => (0 : ℝ)) (fun _ _ _ _ => 0))
      (fun _ _ _ _ => 0))
    ¬ ∀ p k, p < 2 → k < 2 → (∑ q ∈ range 2, D p q * r.2 (q + k * 2)) = r.1 k * r.2 (p + k * 2) := by
  intro C r D hall
  have h := natorb_eig (ldt := 2) (ldv := 2) (show 1 + 1 = 2 by rfl) (le_refl 2) hs (fun _ => (0 : ℝ))
    (fun _ => 0) C
  obtain ⟨w0, w1, w3⟩ := witness_density C
  have hD : D 0 0 = 2 ∧ D 0 1 = 0 ∧ D 1 0 = 0 ∧ D 1 1 = 0 := by
    simp [D, mp2Density, mp2Amp]
  obtain ⟨d0, d1, d2, d3⟩ := hD
  have o := h.ortho 0 0 (by omega) (by omega)
  have a0 := h.eig 0 0 (by omega) (by omega)
  have a1 := h.eig 1 0 (by omega) (by omega)
  have b0 := hall 0 0 (by omega) (by omega)
  have b1 := hall 1 0 (by omega) (by omega)
  simp only [sum_range_succ, sum_range_zero, d0, d1, d2, d3] at o a0 a1 b0 b1
  simp only [Nat.zero_mul, Nat.add_zero, Nat.le_refl, if_true, Nat.one_mul, Nat.zero_add,
    Nat.not_succ_le_zero, if_false, Nat.zero_le, w0, w1, w3] at o a0 a1 b0 b1
  simp only [C, r] at o a0 a1 b0 b1
  simp at o a0 a1
  simp only [zero_mul, add_zero, zero_add] at b0 b1
  generalize (mp2NaturalOrbitals syev 2 1 1 (fun x => 0) 2 (fun x => 0) 2
    (fun x => if x = 1 then 5 else 0) 2).1 0 = w at *
  generalize (mp2NaturalOrbitals syev 2 1 1 (fun x => 0) 2 (fun x => 0) 2
    (fun x => if x = 1 then 5 else 0) 2).2 0 = z0 at *
  generalize (mp2NaturalOrbitals syev 2 1 1 (fun x => 0) 2 (fun x => 0) 2
    (fun x => if x = 1 then 5 else 0) 2).2 1 = z1 at *
  have h1 : z1 = 0 := by linarith
  have h0 : z0 = 0 := by linarith
  rw [h0, h1] at o
  norm_num at o

/-- a transition density between two occupied orbitals and one virtual orbital -/
def mpW (p q : Nat) : Rat := if (p, q) ∈ [(0, 2), (2, 0), (1, 2), (2, 1)] then 1 else 0

/-- three orbitals, `(pq|rs) = w_pq w_rs`, stored with leading dimension `ld` -/
def mpV (ld : Nat) (x : Nat) : Rat :=
  mpW (x % ld) (x / ld % ld) * mpW (x / ld / ld % ld) (x / ld / ld / ld)

/-- one-electron part of the example -/
def mpT (x : Nat) : Rat := if x = 0 then -3 else if x = 4 then -2 else if x = 8 then 5 else 0

/-- C117.  The energy is printed with the number of orbitals as first stride of `V` instead of the
leading dimension the caller gave: with a padded array the printed number is not the MP2 energy (with
an unpadded one it is). -/
theorem C117_leading_dimension_refuted :
    let g := asTen (mpV 4) 4
    let e := orbEnergy 2 (asMat mpT 3) g
    (∀ p < 3, ∀ q < 3, ∀ r < 3, ∀ s < 3, g p q r s = g q p s r ∧ g p q r s = g r s p q) ∧
    mp2PrintedEnergy 3 2 1 mpT 3 (mpV 4) 4 ≠ mp2Energy 2 1 e g ∧
    mp2PrintedEnergy 3 2 1 mpT 3 (mpV 3) 3 = mp2Energy 2 1 e g := by
  decide +kernel

/-- the hypotheses of C115-C117 hold in a case with nonzero amplitudes and a gap -/
example : let g := asTen (mpV 3) 3
    let e := orbEnergy 2 (asMat mpT 3) g
    (∀ p < 3, ∀ q < 3, ∀ r < 3, ∀ s < 3, g p q r s = g q p s r ∧ g p q r s = g r s p q) ∧
    e 0 < e 2 ∧ e 1 < e 2 ∧ mp2Amplitudes 3 2 1 mpT 3 (mpV 3) 3 1 ≠ 0 ∧
    mp2OneRdm 3 2 1 mpT 3 (mpV 3) 3 (fun _ => 0) 3 8 > 0 ∧
    mp2PrintedEnergy 3 2 1 mpT 3 (mpV 3) 3 < 0 := by decide +kernel

/-- C118's hypotheses hold for the reals with an exact eigensolver -/
example : ∃ syev : Nat → (Nat → ℝ) → Nat → (Nat → ℝ) × (Nat → ℝ), SyevSpec syev ∧
    ∑ k ∈ range 2, (mp2NaturalOrbitals syev 2 1 1 (fun _ => 0) 2 (fun _ => 0) 2 (fun _ => 0) 2).1 k =
      2 := by
  obtain ⟨syev, hs⟩ := exists_syev
  refine ⟨syev, hs, ?_⟩
  have := (C118_natural_orbitals_partial (ldt := 2) (ldv := 2) (show 1 + 1 = 2 by rfl) (le_refl 2) hs
    (fun _ => (0 : ℝ)) (fun _ => 0) (fun _ => 0) (fun _ _ _ _ _ => rfl)
    (fun _ _ _ _ _ _ _ _ => rfl)).2.2.2
  simpa using this

end Macis
