import Verif.Lemmas.Transform

/-! Properties C38, C79: integral transformations. -/
namespace Macis
open Spec

/-- C38: `two_index_transform` stores `Y(p,q) = sum_ij C(i,p) C(j,q) X(i,j)` and changes nothing
else, for all dimensions and leading dimensions. -/
theorem C38_two_index {R : Type} [CommRing R] (no nn ldx ldc ldy : Nat) (hy : nn ≤ ldy)
    (X C Y : Nat → R) :
    (∀ p q, p < nn → q < nn → twoIndexTransform no nn X ldx C ldc Y ldy (p + q * ldy) =
      ∑ i ∈ Finset.range no, ∑ j ∈ Finset.range no,
        C (i + p * ldc) * C (j + q * ldc) * X (i + j * ldx)) ∧
    (∀ a, (∀ p q, p < nn → q < nn → a ≠ p + q * ldy) →
      twoIndexTransform no nn X ldx C ldc Y ldy a = Y a) := by
  constructor
  · intro p q hp hq
    rw [twoIndexTransform]
    have h2 := (gemm_spec true nn nn no C ldc (gemm false no nn no X ldx C ldc (fun _ => 0) 0 no) no Y
      0 ldy hy).1 p q hp hq
    rw [Nat.zero_add] at h2
    rw [h2]
    apply Finset.sum_congr rfl
    intro i hi
    rw [Finset.mem_range] at hi
    have h1 := (gemm_spec false no nn no X ldx C ldc (fun _ => 0) 0 no (le_refl no)).1 i q hi hq
    rw [Nat.zero_add] at h1
    rw [h1, if_pos rfl, Finset.mul_sum]
    apply Finset.sum_congr rfl
    intro j _
    simp; ring
  · intro a ha
    rw [twoIndexTransform]
    exact (gemm_spec true nn nn no _ _ _ _ Y 0 ldy hy).2 a (by simpa using ha)

theorem sum4_reorder {R : Type} [CommRing R] (n : Nat) (A B C D : Nat → R)
    (X : Nat → Nat → Nat → Nat → R) :
    (∑ l ∈ Finset.range n, (∑ k ∈ Finset.range n, (∑ j ∈ Finset.range n,
      (∑ i ∈ Finset.range n, A i * X i j k l) * B j) * C k) * D l) =
    ∑ i ∈ Finset.range n, ∑ j ∈ Finset.range n, ∑ k ∈ Finset.range n, ∑ l ∈ Finset.range n,
      A i * B j * C k * D l * X i j k l := by
  simp only [Finset.sum_mul]
  calc _ = ∑ l ∈ Finset.range n, ∑ i ∈ Finset.range n, ∑ j ∈ Finset.range n,
      ∑ k ∈ Finset.range n, A i * B j * C k * D l * X i j k l := by
        apply Finset.sum_congr rfl; intro l _
        rw [Finset.sum_comm]
        rw [show (∑ y ∈ Finset.range n, ∑ x ∈ Finset.range n, ∑ i ∈ Finset.range n,
            A i * X i y x l * B y * C x * D l) =
            ∑ j ∈ Finset.range n, ∑ i ∈ Finset.range n, ∑ k ∈ Finset.range n,
              A i * B j * C k * D l * X i j k l from by
          apply Finset.sum_congr rfl; intro j _
          rw [Finset.sum_comm]
          apply Finset.sum_congr rfl; intro i _
          apply Finset.sum_congr rfl; intro k _
          ring]
        rw [Finset.sum_comm]
    _ = _ := by
        rw [Finset.sum_comm]
        apply Finset.sum_congr rfl; intro i _
        rw [Finset.sum_comm]
        apply Finset.sum_congr rfl; intro j _
        rw [Finset.sum_comm]

/-- C38: `four_index_transform` stores
`Y(p,q,r,s) = sum_ijkl C(i,p) C(j,q) C(k,r) C(l,s) X(i,j,k,l)` and changes nothing else, when `X` and
`Y` are stored without padding. -/
theorem C38_four_index {R : Type} [CommRing R] (no nn ldc : Nat) (X C Y : Nat → R) :
    (∀ p q r s, p < nn → q < nn → r < nn → s < nn →
      fourIndexTransform no nn X no C ldc Y nn (addr4 nn p q r s) =
      ∑ i ∈ Finset.range no, ∑ j ∈ Finset.range no, ∑ k ∈ Finset.range no, ∑ l ∈ Finset.range no,
        C (i + p * ldc) * C (j + q * ldc) * C (k + r * ldc) * C (l + s * ldc) *
          X (addr4 no i j k l)) ∧
    (∀ a, (∀ p q r s, p < nn → q < nn → r < nn → s < nn → a ≠ addr4 nn p q r s) →
      fourIndexTransform no nn X no C ldc Y nn a = Y a) := by
  constructor
  · intro p q r s hp hq hr hs
    rw [fourIndexTransform]
    -- names for the intermediate arrays
    set t1 := gemm true nn (no * no * no) no C ldc X no (fun _ => 0) 0 nn with ht1
    set t2 := (List.range (no * no)).foldl (fun tmp2 kl =>
      gemm false nn nn no (fun a => t1 (kl * no * nn + a)) nn C ldc tmp2 (kl * (nn * nn)) nn)
      (fun _ => 0) with ht2
    set t3 := (List.range no).foldl (fun tmp1 l =>
      gemm false (nn * nn) nn no (fun a => t2 (l * (nn * nn) * no + a)) (nn * nn) C ldc tmp1
        (l * (nn * nn * nn)) (nn * nn)) t1 with ht3
    have hpq : p + q * nn < nn * nn := by
      have := Nat.mul_le_mul_right nn (show q + 1 ≤ nn from hq)
      rw [Nat.add_mul] at this; omega
    have hpqr : p + q * nn + r * (nn * nn) < nn * nn * nn := by
      have := Nat.mul_le_mul_right (nn * nn) (show r + 1 ≤ nn from hr)
      rw [Nat.add_mul] at this
      have e : nn * (nn * nn) = nn * nn * nn := by ring
      omega
    have h4 := (gemm_spec false (nn * nn * nn) nn no t3 (nn * nn * nn) C ldc Y 0 (nn * nn * nn)
      (le_refl _)).1 (p + q * nn + r * (nn * nn)) s hpqr hs
    have e4 : addr4 nn p q r s = 0 + (p + q * nn + r * (nn * nn) + s * (nn * nn * nn)) := by
      rw [addr4]; ring
    rw [e4, h4]
    have hl : ∀ l, l < no → t3 (p + q * nn + r * (nn * nn) + l * (nn * nn * nn)) =
        ∑ k ∈ Finset.range no, t2 (l * (nn * nn) * no + (p + q * nn + k * (nn * nn))) *
          C (k + r * ldc) := by
      intro l hl
      have := gemm_blocks no (nn * nn) nn no (fun l a => t2 (l * (nn * nn) * no + a)) (nn * nn) C ldc
        t1 l (p + q * nn) r hl hpq hr
      rw [← ht3] at this
      rw [← this]
      congr 1; ring
    have hk : ∀ k l, k < no → l < no → t2 (l * (nn * nn) * no + (p + q * nn + k * (nn * nn))) =
        ∑ j ∈ Finset.range no, t1 ((k + l * no) * no * nn + (p + j * nn)) * C (j + q * ldc) := by
      intro k l hk hl
      have hkl : k + l * no < no * no := by
        have := Nat.mul_le_mul_right no (show l + 1 ≤ no from hl)
        rw [Nat.add_mul] at this; omega
      have := gemm_blocks (no * no) nn nn no (fun kl a => t1 (kl * no * nn + a)) nn C ldc
        (fun _ => 0) (k + l * no) p q hkl hp hq
      rw [← ht2] at this
      rw [← this]
      congr 1; ring
    have hj : ∀ j k l, j < no → k < no → l < no → t1 ((k + l * no) * no * nn + (p + j * nn)) =
        ∑ i ∈ Finset.range no, C (i + p * ldc) * X (addr4 no i j k l) := by
      intro j k l hj hk hl
      have hjkl : j + (k + l * no) * no < no * no * no := by
        have h1 : k + l * no < no * no := by
          have := Nat.mul_le_mul_right no (show l + 1 ≤ no from hl)
          rw [Nat.add_mul] at this; omega
        have := Nat.mul_le_mul_right no (show k + l * no + 1 ≤ no * no from h1)
        rw [Nat.add_mul] at this; omega
      have := (gemm_spec true nn (no * no * no) no C ldc X no (fun _ => 0) 0 nn (le_refl nn)).1 p
        (j + (k + l * no) * no) hp hjkl
      rw [← ht1] at this
      rw [show (k + l * no) * no * nn + (p + j * nn) = 0 + (p + (j + (k + l * no) * no) * nn) by ring,
        this]
      apply Finset.sum_congr rfl
      intro i _
      rw [if_pos rfl, addr4_eq]
    rw [← sum4_reorder no (fun i => C (i + p * ldc)) (fun j => C (j + q * ldc))
      (fun k => C (k + r * ldc)) (fun l => C (l + s * ldc)) (fun i j k l => X (addr4 no i j k l))]
    apply Finset.sum_congr rfl
    intro l hl'
    rw [Finset.mem_range] at hl'
    rw [if_neg (by simp), hl l hl']
    congr 1
    apply Finset.sum_congr rfl
    intro k hk'
    rw [Finset.mem_range] at hk'
    rw [hk k l hk' hl']
    congr 1
    apply Finset.sum_congr rfl
    intro j hj'
    rw [Finset.mem_range] at hj'
    rw [hj j k l hj' hk' hl']
  · intro a ha
    rw [fourIndexTransform]
    refine (gemm_spec false (nn * nn * nn) nn no _ _ _ _ Y 0 (nn * nn * nn) (le_refl _)).2 a ?_
    intro i s hi hs h
    have hn : 0 < nn := by omega
    refine ha (i % nn) (i / nn % nn) (i / nn / nn) s (Nat.mod_lt _ hn) (Nat.mod_lt _ hn) ?_ hs ?_
    · rw [Nat.div_div_eq_div_mul]
      exact Nat.div_lt_of_lt_mul hi
    · rw [h, addr4_eq]
      have e1 := Nat.mod_add_div i nn
      have e2 := Nat.mod_add_div (i / nn) nn
      have e3 : i = i % nn + (i / nn % nn + nn * (i / nn / nn)) * nn := by
        rw [e2]; rw [Nat.mul_comm (i / nn)]; exact e1.symm
      calc 0 + (i + s * (nn * nn * nn)) = i + s * (nn * nn * nn) := by ring
        _ = (i % nn + (i / nn % nn + nn * (i / nn / nn)) * nn) + s * (nn * nn * nn) := by rw [← e3]
        _ = _ := by ring

/-- a concrete transformation: two old orbitals, one new -/
example : fourIndexTransform (R := Int) 2 1 (fun a => a) 2 (fun a => a + 1) 2 (fun _ => 0) 1 0 =
    ∑ i ∈ Finset.range 2, ∑ j ∈ Finset.range 2, ∑ k ∈ Finset.range 2, ∑ l ∈ Finset.range 2,
      ((i + 0 * 2 : Nat) + 1) * ((j + 0 * 2 : Nat) + 1) * ((k + 0 * 2 : Nat) + 1) *
        ((l + 0 * 2 : Nat) + 1) * ((addr4 2 i j k l : Nat) : Int) :=
  (C38_four_index (R := Int) 2 1 2 (fun a => a) (fun a => a + 1) (fun _ => 0)).1 0 0 0 0
    (by decide) (by decide) (by decide) (by decide)

/-- C79 (refuted): with a padded source (here two old
orbitals and `LDX = 3`) the elements are taken from the wrong addresses: the only non-zero integral
`X(0,0,0,1)` is lost. -/
theorem C79_padded_source_refuted :
    fourIndexTransform (R := Int) 2 1 (fun a => if a = addr4 3 0 0 0 1 then 1 else 0) 3
      (fun _ => 1) 2 (fun _ => 0) 1 0 = 0 ∧
    (∑ i ∈ Finset.range 2, ∑ j ∈ Finset.range 2, ∑ k ∈ Finset.range 2, ∑ l ∈ Finset.range 2,
      (1 : Int) * 1 * 1 * 1 * (if addr4 3 i j k l = addr4 3 0 0 0 1 then 1 else 0)) = 1 := by
  constructor <;> decide +kernel

/-- C79 (refuted): with a padded destination (`LDY = 3` for two orbitals) element `(1,1,1,1)` is not
written where the caller looks for it. -/
theorem C79_padded_destination_refuted :
    fourIndexTransform (R := Int) 1 2 (fun _ => 1) 1 (fun _ => 1) 1 (fun _ => 0) 3
      (addr4 3 1 1 1 1) = 0 ∧
    (∑ i ∈ Finset.range 1, ∑ j ∈ Finset.range 1, ∑ k ∈ Finset.range 1, ∑ l ∈ Finset.range 1,
      (1 : Int) * 1 * 1 * 1 * (1 : Int)) = 1 := by
  constructor <;> decide +kernel

end Macis
