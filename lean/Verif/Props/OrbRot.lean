import Verif.Lemmas.OrbRot
import Mathlib.Algebra.Ring.Int.Defs
/-! Property C40: packing of orbital rotations. -/
namespace Macis
open Spec
variable {R : Type} [CommRing R]

/-- C40: unpacking puts each parameter at its position with a plus sign, its negative at the transposed
position, and changes nothing else. -/
theorem C40_unpack (ni na nv ldk : Nat) (hld : ni + na + nv ≤ ldk) (Klin K : Nat → R) :
    (∀ p q, p < ni + na + nv → orbKind ni na q < orbKind ni na p →
      linearOrbRotToMatrix ni na nv Klin K ldk (p + q * ldk) = Klin (rotPos ni na nv p q) ∧
      linearOrbRotToMatrix ni na nv Klin K ldk (q + p * ldk) = -Klin (rotPos ni na nv p q)) ∧
    (∀ m, (∀ p q, p < ni + na + nv → orbKind ni na q < orbKind ni na p →
        m ≠ p + q * ldk ∧ m ≠ q + p * ldk) →
      linearOrbRotToMatrix ni na nv Klin K ldk m = K m) := by
  rw [linearOrbRotToMatrix, splitLinearOrbRot]
  apply unpack3 ni na nv ldk hld K _ _ _ (fun p q => Klin (rotPos ni na nv p q))
  · apply List.flatMap_congr
    intro x hx
    obtain ⟨hi, ha⟩ := mem_pairsMN.mp hx
    simp only [Nat.add_zero, rotPos_vi hi, Nat.zero_add]
  · apply List.flatMap_congr
    intro x hx
    simp only [rotPos_va]
  · apply List.flatMap_congr
    intro x hx
    obtain ⟨hi, ha⟩ := mem_pairsMN.mp hx
    simp only [Nat.add_zero, rotPos_ai ha]

/-- C40: unpacking into an antisymmetric matrix (in particular into a zero matrix) gives an
antisymmetric matrix. -/
theorem C40_antisymmetric (ni na nv ldk : Nat) (hld : ni + na + nv ≤ ldk) (Klin K : Nat → R)
    (hK : ∀ p q, p < ni + na + nv → q < ni + na + nv → K (p + q * ldk) = -K (q + p * ldk)) :
    ∀ p q, p < ni + na + nv → q < ni + na + nv →
      linearOrbRotToMatrix ni na nv Klin K ldk (p + q * ldk) =
        -linearOrbRotToMatrix ni na nv Klin K ldk (q + p * ldk) := by
  intro p q hp hq
  obtain ⟨h1, h2⟩ := C40_unpack ni na nv ldk hld Klin K
  rcases Nat.lt_trichotomy (orbKind ni na q) (orbKind ni na p) with h | h | h
  · rw [(h1 p q hp h).1, (h1 p q hp h).2, neg_neg]
  · have same : ∀ p q, p < ni + na + nv → q < ni + na + nv → orbKind ni na q = orbKind ni na p →
        linearOrbRotToMatrix ni na nv Klin K ldk (p + q * ldk) = K (p + q * ldk) := by
      intro p q hp hq h
      apply h2
      intro p' q' hp' hk
      have hq' : q' < ni + na + nv := by
        rcases kind_cases hp' hk with ⟨a, i, ha, hi, rfl, rfl⟩ | ⟨a, x, ha, hx, rfl, rfl⟩ |
          ⟨x, i, hx, hi, rfl, rfl⟩ <;> omega
      constructor
      · intro e
        obtain ⟨rfl, rfl⟩ := addr2_inj hld hp hp' e
        omega
      · intro e
        obtain ⟨rfl, rfl⟩ := addr2_inj hld hp hq' e
        omega
    rw [same p q hp hq h, same q p hq hp h.symm, hK p q hp hq]
  · rw [(h1 q p hq h).1, (h1 q p hq h).2]

/-- what packing reads -/
theorem matrixToLinear_val (ni na nv ldf : Nat) (F G : Nat → R) :
    (∀ p q, p < ni + na + nv → orbKind ni na q < orbKind ni na p →
      matrixToLinearOrbRot ni na nv F ldf G (rotPos ni na nv p q) = F (p + q * ldf)) ∧
    (∀ m, nRot ni na nv ≤ m → matrixToLinearOrbRot ni na nv F ldf G m = G m) := by
  rw [matrixToLinearOrbRot, splitLinearOrbRot]
  exact pack3 ni na nv G _ _ _ (fun p q => F (p + q * ldf))
    (fun i a _ _ => by simp only [Nat.add_assoc]) (fun i a _ _ => by simp only [Nat.add_assoc])
    (fun i a _ _ => rfl)

/-- what the packed gradient holds -/
theorem fockToLinear_val (ni na nv ldf : Nat) (F G : Nat → R) :
    (∀ p q, p < ni + na + nv → orbKind ni na q < orbKind ni na p →
      fockToLinearOrbGrad ni na nv F ldf G (rotPos ni na nv p q) =
        2 * (F (p + q * ldf) - F (q + p * ldf))) ∧
    (∀ m, nRot ni na nv ≤ m → fockToLinearOrbGrad ni na nv F ldf G m = G m) := by
  rw [fockToLinearOrbGrad, splitLinearOrbRot]
  exact pack3 ni na nv G _ _ _ (fun p q => 2 * (F (p + q * ldf) - F (q + p * ldf)))
    (fun i a _ _ => by simp only [Nat.add_assoc]) (fun i a _ _ => by simp only [Nat.add_assoc])
    (fun i a _ _ => rfl)

/-- C40: packing what was unpacked gives back every parameter and touches nothing beyond them. -/
theorem C40_round_trip (ni na nv ldk : Nat) (hld : ni + na + nv ≤ ldk) (Klin K G : Nat → R) :
    (∀ m, m < nRot ni na nv →
      matrixToLinearOrbRot ni na nv (linearOrbRotToMatrix ni na nv Klin K ldk) ldk G m = Klin m) ∧
    (∀ m, nRot ni na nv ≤ m →
      matrixToLinearOrbRot ni na nv (linearOrbRotToMatrix ni na nv Klin K ldk) ldk G m = G m) := by
  obtain ⟨h1, h2⟩ := matrixToLinear_val ni na nv ldk (linearOrbRotToMatrix ni na nv Klin K ldk) G
  refine ⟨?_, h2⟩
  intro m hm
  obtain ⟨p, q, hp, hk, rfl⟩ := rotPos_cases hm
  rw [h1 p q hp hk, ((C40_unpack ni na nv ldk hld Klin K).1 p q hp hk).1]

/-- C40: distinct rotations have distinct positions, so no parameter is shared or lost. -/
theorem C40_positions (ni na nv : Nat) :
    (∀ p q, p < ni + na + nv → orbKind ni na q < orbKind ni na p →
      rotPos ni na nv p q < nRot ni na nv) ∧
    (∀ p q p' q', p < ni + na + nv → orbKind ni na q < orbKind ni na p →
      p' < ni + na + nv → orbKind ni na q' < orbKind ni na p' →
      rotPos ni na nv p q = rotPos ni na nv p' q' → p = p' ∧ q = q') ∧
    (∀ m, m < nRot ni na nv → ∃ p q, p < ni + na + nv ∧ orbKind ni na q < orbKind ni na p ∧
      m = rotPos ni na nv p q) := by
  refine ⟨fun p q hp h => rotPos_lt hp h, ?_, fun m hm => rotPos_cases hm⟩
  intro p q p' q' hp h hp' h' e
  have v := (matrixToLinear_val (R := Int) ni na nv (p + p' + 1) (fun a => (a : Int)) (fun _ => 0)).1
  have h1 := v p q hp h
  rw [e, v p' q' hp' h'] at h1
  have h2 : p + q * (p + p' + 1) = p' + q' * (p + p' + 1) := by exact_mod_cast h1.symm
  exact addr2_inj (le_refl (p + p' + 1)) (by omega) (by omega) h2

/-- C40: the packed gradient is the packed matrix gradient, and the matrix gradient is antisymmetric
with element `2 (F_pq - F_qp)`. -/
theorem C40_gradients_agree (ni na nv ldf ldg : Nat) (hld : ni + na + nv ≤ ldg) (F OG G : Nat → R) :
    (∀ m, m < nRot ni na nv → fockToLinearOrbGrad ni na nv F ldf G m =
      matrixToLinearOrbRot ni na nv (fockToGradient ni na nv F ldf OG ldg) ldg G m) ∧
    (∀ p q, p < ni + na + nv → orbKind ni na q < orbKind ni na p →
      fockToGradient ni na nv F ldf OG ldg (p + q * ldg) = 2 * (F (p + q * ldf) - F (q + p * ldf)) ∧
      fockToGradient ni na nv F ldf OG ldg (q + p * ldg) =
        -(2 * (F (p + q * ldf) - F (q + p * ldf)))) := by
  have h1 := (unpack3 ni na nv ldg hld OG (gradBlock nv ni (ni + na) 0 F ldf ldg)
    (gradBlock nv na (ni + na) ni F ldf ldg) (gradBlock na ni ni 0 F ldf ldg)
    (fun p q => 2 * (F (p + q * ldf) - F (q + p * ldf))) rfl rfl rfl).1
  refine ⟨?_, h1⟩
  intro m hm
  obtain ⟨p, q, hp, hk, rfl⟩ := rotPos_cases hm
  rw [(fockToLinear_val ni na nv ldf F G).1 p q hp hk,
    (matrixToLinear_val ni na nv ldg _ G).1 p q hp hk]
  exact ((h1 p q hp hk).1).symm

/-- a concrete case: 1 inactive, 2 active, 1 virtual orbitals, padded matrix -/
example : (List.range 5).map (matrixToLinearOrbRot (R := Int) 1 2 1
      (linearOrbRotToMatrix 1 2 1 (fun m => m + 1) (fun _ => 0) 6) 6 (fun _ => 0)) = [1, 2, 3, 4, 5] ∧
    nRot 1 2 1 = 5 ∧
    linearOrbRotToMatrix (R := Int) 1 2 1 (fun m => m + 1) (fun _ => 0) 6 (0 + 3 * 6) = -1 := by
  decide +kernel

end Macis
