import Verif.Props.Transform

/-! Exact statements beside refuted claims: for which inputs the claim holds, and what the code does
on every other input. -/
namespace Macis
open Spec

/-- `four_index_transform` with any `LDX`, `LDY` is the transform of the unpadded array whose column
`c` is column `c` of the source; `LDY` plays no part. -/
theorem fourIndex_ld {R : Type} [CommRing R] (no nn ldx ldc ldy : Nat) (X C Y : Nat → R) :
    fourIndexTransform no nn X ldx C ldc Y ldy =
      fourIndexTransform no nn (fun a => X (a % no + a / no * ldx)) no C ldc Y nn := by
  have h : gemm true nn (no * no * no) no C ldc X ldx (fun _ => (0 : R)) 0 nn =
      gemm true nn (no * no * no) no C ldc (fun a => X (a % no + a / no * ldx)) no (fun _ => 0) 0 nn := by
    rw [gemm, gemm]
    congr 1
    apply List.map_congr_left
    intro x _
    congr 1
    apply Finset.sum_congr rfl
    intro l hl
    rw [Finset.mem_range] at hl
    have e1 : (l + x.2 * no) % no = l := by rw [Nat.add_mul_mod_self_right, Nat.mod_eq_of_lt hl]
    have e2 : (l + x.2 * no) / no = x.2 := by
      rw [Nat.add_mul_div_right _ _ (by omega), Nat.div_eq_of_lt hl, Nat.zero_add]
    simp only [e1, e2]
  rw [fourIndexTransform, fourIndexTransform, h]

/-- C79: what `four_index_transform` computes for all leading dimensions: only the first index of the
source is strided by `LDX`, the others by the number of orbitals; the destination is written without
padding whatever `LDY`. -/
theorem C79_value {R : Type} [CommRing R] (no nn ldx ldc ldy : Nat) (X C Y : Nat → R) :
    (∀ p q r s, p < nn → q < nn → r < nn → s < nn →
      fourIndexTransform no nn X ldx C ldc Y ldy (addr4 nn p q r s) =
      ∑ i ∈ Finset.range no, ∑ j ∈ Finset.range no, ∑ k ∈ Finset.range no, ∑ l ∈ Finset.range no,
        C (i + p * ldc) * C (j + q * ldc) * C (k + r * ldc) * C (l + s * ldc) *
          X (i + (j + k * no + l * no * no) * ldx)) ∧
    (∀ a, (∀ p q r s, p < nn → q < nn → r < nn → s < nn → a ≠ addr4 nn p q r s) →
      fourIndexTransform no nn X ldx C ldc Y ldy a = Y a) := by
  rw [fourIndex_ld]
  obtain ⟨h1, h2⟩ := C38_four_index no nn ldc (fun a => X (a % no + a / no * ldx)) C Y
  refine ⟨?_, h2⟩
  intro p q r s hp hq hr hs
  rw [h1 p q r s hp hq hr hs]
  refine Finset.sum_congr rfl fun i hi => Finset.sum_congr rfl fun j _ => Finset.sum_congr rfl fun k _ =>
    Finset.sum_congr rfl fun l _ => ?_
  rw [Finset.mem_range] at hi
  have e : addr4 no i j k l = i + (j + k * no + l * no * no) * no := by rw [addr4]; ring
  have e1 : (i + (j + k * no + l * no * no) * no) % no = i := by
    rw [Nat.add_mul_mod_self_right, Nat.mod_eq_of_lt hi]
  have e2 : (i + (j + k * no + l * no * no) * no) / no = j + k * no + l * no * no := by
    rw [Nat.add_mul_div_right _ _ (by omega), Nat.div_eq_of_lt hi, Nat.zero_add]
  simp only [e, e1, e2]

/-- a sum over four indices of a product that picks one of them -/
theorem sum4_pick {n m : Nat} (h : m < n) (f : Nat → Nat → Nat → Nat → Int) :
    (∑ i ∈ Finset.range n, ∑ j ∈ Finset.range n, ∑ k ∈ Finset.range n, ∑ l ∈ Finset.range n,
      (if i = m then (1 : Int) else 0) * (if j = m then 1 else 0) * (if k = m then 1 else 0) *
        (if l = m then 1 else 0) * f i j k l) = f m m m m := by
  have hm : m ∈ Finset.range n := Finset.mem_range.mpr h
  rw [Finset.sum_eq_single m, Finset.sum_eq_single m, Finset.sum_eq_single m, Finset.sum_eq_single m]
  · simp
  · intro b _ hb; simp [hb]
  · intro hh; exact absurd hm hh
  · intro b _ hb; simp [hb]
  · intro hh; exact absurd hm hh
  · intro b _ hb; simp [hb]
  · intro hh; exact absurd hm hh
  · intro b _ hb; simp [hb]
  · intro hh; exact absurd hm hh

/-- C79 (exact, source): a source array with leading dimension `LDX` in all indices (the convention of
the reference loop in transform.cxx and of the rest of the library) is transformed correctly for all
contents if and only if it has no padding or there is at most one old orbital. -/
theorem C79_source_iff (no nn ldx ldc ldy : Nat) (hn : 0 < nn) (hx : no ≤ ldx) :
    (∀ X C Y : Nat → Int, ∀ p q r s, p < nn → q < nn → r < nn → s < nn →
      fourIndexTransform no nn X ldx C ldc Y ldy (addr4 nn p q r s) =
      ∑ i ∈ Finset.range no, ∑ j ∈ Finset.range no, ∑ k ∈ Finset.range no, ∑ l ∈ Finset.range no,
        C (i + p * ldc) * C (j + q * ldc) * C (k + r * ldc) * C (l + s * ldc) *
          X (addr4 ldx i j k l)) ↔ (ldx = no ∨ no ≤ 1) := by
  constructor
  · intro h
    by_contra hc
    rw [not_or] at hc
    have hno : 1 < no := by omega
    have h0 := h (fun a => if a = addr4 ldx 1 1 1 1 then 1 else 0) (fun a => if a = 1 then 1 else 0)
      (fun _ => 0) 0 0 0 0 hn hn hn hn
    rw [(C79_value no nn ldx ldc ldy _ _ _).1 0 0 0 0 hn hn hn hn] at h0
    simp only [Nat.zero_mul, Nat.add_zero] at h0
    rw [sum4_pick hno (fun i j k l => if i + (j + k * no + l * no * no) * ldx = addr4 ldx 1 1 1 1 then 1 else 0),
      sum4_pick hno (fun i j k l => if addr4 ldx i j k l = addr4 ldx 1 1 1 1 then 1 else 0)] at h0
    rw [if_pos rfl, if_neg] at h0
    · exact absurd h0 (by decide)
    · rw [addr4]
      intro e
      have hlt : no < ldx := by omega
      have : (1 + 1 * no + 1 * no * no) * ldx < (1 + ldx + ldx * ldx) * ldx := by
        apply Nat.mul_lt_mul_of_pos_right _ (by omega)
        have := Nat.mul_lt_mul_of_lt_of_le hlt hlt.le (by omega)
        simp only [Nat.one_mul]; omega
      have e' : 1 + 1 * ldx + 1 * ldx * ldx + 1 * ldx * ldx * ldx = 1 + (1 + ldx + ldx * ldx) * ldx := by
        ring
      omega
  · intro h X C Y p q r s hp hq hr hs
    rw [(C79_value no nn ldx ldc ldy X C Y).1 p q r s hp hq hr hs]
    refine Finset.sum_congr rfl fun i hi => Finset.sum_congr rfl fun j hj => Finset.sum_congr rfl fun k hk =>
      Finset.sum_congr rfl fun l hl => ?_
    rw [Finset.mem_range] at hi hj hk hl
    congr 2
    rw [addr4]
    rcases h with h | h
    · subst h; ring
    · have : i = 0 ∧ j = 0 ∧ k = 0 ∧ l = 0 := by omega
      obtain ⟨rfl, rfl, rfl, rfl⟩ := this
      simp

/-- C79 (exact, destination): the result is found at the addresses the caller's `LDY` implies, for all
contents, if and only if the destination has no padding or there is at most one new orbital. -/
theorem C79_destination_iff (no nn ldc ldy : Nat) (hy : nn ≤ ldy) :
    (∀ X C Y : Nat → Int, ∀ p q r s, p < nn → q < nn → r < nn → s < nn →
      fourIndexTransform no nn X no C ldc Y ldy (addr4 ldy p q r s) =
      ∑ i ∈ Finset.range no, ∑ j ∈ Finset.range no, ∑ k ∈ Finset.range no, ∑ l ∈ Finset.range no,
        C (i + p * ldc) * C (j + q * ldc) * C (k + r * ldc) * C (l + s * ldc) *
          X (addr4 no i j k l)) ↔ (ldy = nn ∨ nn ≤ 1) := by
  constructor
  · intro h
    by_contra hc
    rw [not_or] at hc
    have hm : nn - 1 < nn := by omega
    have h0 := h (fun _ => 0) (fun _ => 0) (fun _ => 1) (nn - 1) (nn - 1) (nn - 1) (nn - 1) hm hm hm hm
    rw [(C79_value no nn no ldc ldy _ _ _).2] at h0
    · simp at h0
    · intro p q r s hp hq hr hs e
      have hlt : nn + 1 ≤ ldy := by omega
      obtain ⟨m, rfl⟩ : ∃ m, nn = m + 1 := ⟨nn - 1, by omega⟩
      rw [Nat.add_sub_cancel] at e
      have b1 : addr4 (m + 1) p q r s ≤ addr4 (m + 1) m m m m := by
        rw [addr4, addr4]
        have : ∀ x, x < m + 1 → x ≤ m := fun x hx => by omega
        gcongr <;> (apply this; assumption)
      have b2 : addr4 (m + 1) m m m m < addr4 ldy m m m m := by
        rw [addr4, addr4]
        have h1 : m * (m + 1) < m * ldy := Nat.mul_lt_mul_of_pos_left (by omega) (by omega)
        have h2 : m * (m + 1) * (m + 1) ≤ m * ldy * ldy := by gcongr <;> omega
        have h3 : m * (m + 1) * (m + 1) * (m + 1) ≤ m * ldy * ldy * ldy := by gcongr <;> omega
        omega
      omega
  · intro h X C Y p q r s hp hq hr hs
    have e : addr4 ldy p q r s = addr4 nn p q r s := by
      rcases h with h | h
      · rw [h]
      · have : p = 0 ∧ q = 0 ∧ r = 0 ∧ s = 0 := by omega
        obtain ⟨rfl, rfl, rfl, rfl⟩ := this
        simp [addr4]
    rw [e, fourIndex_ld, ← fourIndex_ld no nn no ldc nn]
    exact (C38_four_index no nn ldc X C Y).1 p q r s hp hq hr hs

/-- both cases of the characterisation occur: two orbitals with padding, and without -/
example : ¬ ((3 : Nat) = 2 ∨ (2 : Nat) ≤ 1) ∧ ((2 : Nat) = 2 ∨ (2 : Nat) ≤ 1) := by decide

end Macis
