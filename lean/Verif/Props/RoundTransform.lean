import Verif.Lemmas.RoundTransform
import Verif.Props.Exact
import Verif.Props.RoundRdm
/-! Property C178: the integral transformations in floating point arithmetic, whatever the order in which BLAS adds. -/
namespace Macis
open Spec

variable {rnd : ℝ → ℝ} {u : ℝ} {dot : Kernel}

/-- contracting an inexact array with exact coefficients -/
theorem near_step (hd : dot.Sums rnd) (hr : RoundsTo rnd u) (e i j k c : Nat) {h A H : Nat → ℝ} (w : Nat → ℝ)
    (hp : ∀ l, l < k → Near u c (A l) (h l) (H l)) :
    Near u (c + k) (∑ l ∈ Finset.range k, |w l| * A l) (dot e i j h w k) (∑ l ∈ Finset.range k, w l * H l) :=
  hd.near hr e i j k c fun l hl => by
    rw [mul_comm (h l)]
    exact (hp l hl).mulBy (w l)

theorem near_step' (hd : dot.Sums rnd) (hr : RoundsTo rnd u) (e i j k c : Nat) {h A H : Nat → ℝ} (w : Nat → ℝ)
    (hp : ∀ l, l < k → Near u c (A l) (h l) (H l)) :
    Near u (c + k) (∑ l ∈ Finset.range k, |w l| * A l) (dot e i j w h k) (∑ l ∈ Finset.range k, w l * H l) :=
  hd.near hr e i j k c fun l hl => (hp l hl).mulBy (w l)

theorem near_selfR (x : ℝ) : Near u 0 |x| x x := Near.exact le_rfl

theorem twoIndexF_elem (dot : Kernel) (no nn ldx ldc ldy : Nat) (hy : nn ≤ ldy) (X C Y : Nat → ℝ) {p q : Nat} (hp : p < nn)
    (hq : q < nn) : twoIndexF dot no nn X ldx C ldc Y ldy (p + q * ldy) =
      dot 1 p q (fun l => C (l + p * ldc))
        (fun l => gemmF dot 0 false no nn no X ldx C ldc (fun _ => 0) 0 no (l + q * no)) no := by
  have h := (gemmF_spec dot 1 true nn nn no C ldc (gemmF dot 0 false no nn no X ldx C ldc (fun _ => 0) 0 no) no Y 0 ldy
    hy).1 p q hp hq
  rw [Nat.zero_add] at h
  exact h

/-- C178 (two indices).  Computed in floating point with unit roundoff `u`, each call adding up the terms of each element
in any order, the transformed matrix differs from `sum_ij C(i,p) C(j,q) X(i,j)` by at most
`((1+u)^(2 no) - 1)` times the sum of the absolute values; nothing else is written. -/
theorem C178_two_index (hd : dot.Sums rnd) (hr : RoundsTo rnd u) (no nn ldx ldc ldy : Nat) (hy : nn ≤ ldy)
    (X C Y : Nat → ℝ) :
    (∀ p q, p < nn → q < nn →
      |twoIndexF dot no nn X ldx C ldc Y ldy (p + q * ldy)
        - ∑ i ∈ Finset.range no, ∑ j ∈ Finset.range no, C (i + p * ldc) * C (j + q * ldc) * X (i + j * ldx)| ≤
      ((1 + u) ^ (2 * no) - 1) * ∑ i ∈ Finset.range no, ∑ j ∈ Finset.range no,
        |C (i + p * ldc)| * |C (j + q * ldc)| * |X (i + j * ldx)|) ∧
    (∀ a, (∀ p q, p < nn → q < nn → a ≠ p + q * ldy) → twoIndexF dot no nn X ldx C ldc Y ldy a = Y a) := by
  constructor
  · intro p q hp hq
    rw [twoIndexF_elem dot no nn ldx ldc ldy hy X C Y hp hq]
    have n := near_step' hd hr 1 p q no (0 + no) (fun l => C (l + p * ldc))
      (h := fun l => gemmF dot 0 false no nn no X ldx C ldc (fun _ => 0) 0 no (l + q * no))
      (A := fun i => ∑ j ∈ Finset.range no, |C (j + q * ldc)| * |X (i + j * ldx)|)
      (H := fun i => ∑ j ∈ Finset.range no, C (j + q * ldc) * X (i + j * ldx)) (by
        intro i hi
        rw [show i + q * no = 0 + (i + q * no) by omega,
          (gemmF_spec dot 0 false no nn no X ldx C ldc (fun _ => 0) 0 no le_rfl).1 i q hi hq]
        simp only [Bool.false_eq_true, if_false]
        exact near_step hd hr 0 i q no 0 (fun j => C (j + q * ldc)) fun j _ => near_selfR _)
    have n := n.1
    simp only [Finset.mul_sum, ← mul_assoc] at n ⊢
    rw [show 0 + no + no = 2 * no by ring] at n
    exact n
  · intro a ha
    refine (gemmF_spec dot 1 true nn nn no C ldc _ no Y 0 ldy hy).2 a fun p q hp hq => ?_
    rw [Nat.zero_add]
    exact ha p q hp hq

/-- the element of the four-index transformation as nested sums -/
theorem fourIndexF_nest (hd : dot.Sums rnd) (hr : RoundsTo rnd u) (no nn ldx ldc ldy : Nat) (X C Y : Nat → ℝ)
    {p q r s : Nat} (hp : p < nn) (hq : q < nn) (hr' : r < nn) (hs : s < nn) :
    Near u (4 * no)
      (∑ l ∈ Finset.range no, |C (l + s * ldc)| * ∑ k ∈ Finset.range no, |C (k + r * ldc)| * ∑ j ∈ Finset.range no,
        |C (j + q * ldc)| * ∑ i ∈ Finset.range no, |C (i + p * ldc)| * |X (i + (j + (k + l * no) * no) * ldx)|)
      (fourIndexF dot no nn X ldx C ldc Y ldy (addr4 nn p q r s))
      (∑ l ∈ Finset.range no, C (l + s * ldc) * ∑ k ∈ Finset.range no, C (k + r * ldc) * ∑ j ∈ Finset.range no,
        C (j + q * ldc) * ∑ i ∈ Finset.range no, C (i + p * ldc) * X (i + (j + (k + l * no) * no) * ldx)) := by
  rw [fourIndexF]
  set t1 := gemmF dot 0 true nn (no * no * no) no C ldc X ldx (fun _ => 0) 0 nn with ht1
  set t2 := (List.range (no * no)).foldl (fun tmp2 kl =>
    gemmF dot (1 + kl) false nn nn no (fun a => t1 (kl * no * nn + a)) nn C ldc tmp2 (kl * (nn * nn)) nn)
    (fun _ => 0) with ht2
  set t3 := (List.range no).foldl (fun tmp1 l =>
    gemmF dot (1 + no * no + l) false (nn * nn) nn no (fun a => t2 (l * (nn * nn) * no + a)) (nn * nn) C ldc tmp1
      (l * (nn * nn * nn)) (nn * nn)) t1 with ht3
  have hpq : p + q * nn < nn * nn := by
    have := Nat.mul_le_mul_right nn (show q + 1 ≤ nn from hq)
    rw [Nat.add_mul] at this; omega
  have hpqr : p + q * nn + r * (nn * nn) < nn * nn * nn := by
    have := Nat.mul_le_mul_right (nn * nn) (show r + 1 ≤ nn from hr')
    rw [Nat.add_mul] at this
    have e : nn * (nn * nn) = nn * nn * nn := by ring
    omega
  have h4 := (gemmF_spec dot (1 + no * no + no) false (nn * nn * nn) nn no t3 (nn * nn * nn) C ldc Y 0 (nn * nn * nn)
    (le_refl _)).1 (p + q * nn + r * (nn * nn)) s hpqr hs
  have e4 : addr4 nn p q r s = 0 + (p + q * nn + r * (nn * nn) + s * (nn * nn * nn)) := by
    rw [addr4]; ring
  rw [e4, h4]
  simp only [Bool.false_eq_true, if_false]
  rw [show 4 * no = 0 + no + no + no + no by ring]
  refine near_step hd hr _ _ _ no _ (fun l => C (l + s * ldc)) fun l hl => ?_
  have b3 := gemmF_blocks dot (1 + no * no) no (nn * nn) nn no (fun l a => t2 (l * (nn * nn) * no + a)) (nn * nn) C ldc
    t1 l (p + q * nn) r hl hpq hr'
  rw [← ht3] at b3
  rw [show p + q * nn + r * (nn * nn) + l * (nn * nn * nn) =
    l * (nn * nn * nn) + (p + q * nn + r * (nn * nn)) by ring, b3]
  refine near_step hd hr _ _ _ no _ (fun k => C (k + r * ldc)) fun k hk => ?_
  have hkl : k + l * no < no * no := by
    have := Nat.mul_le_mul_right no (show l + 1 ≤ no from hl)
    rw [Nat.add_mul] at this; omega
  have b2 := gemmF_blocks dot 1 (no * no) nn nn no (fun kl a => t1 (kl * no * nn + a)) nn C ldc
    (fun _ => 0) (k + l * no) p q hkl hp hq
  rw [← ht2] at b2
  rw [show l * (nn * nn) * no + (p + q * nn + k * (nn * nn)) = (k + l * no) * (nn * nn) + (p + q * nn) by ring, b2]
  refine near_step hd hr _ _ _ no _ (fun j => C (j + q * ldc)) fun j hj => ?_
  have hjkl : j + (k + l * no) * no < no * no * no := by
    have := Nat.mul_le_mul_right no (show k + l * no + 1 ≤ no * no from hkl)
    rw [Nat.add_mul] at this; omega
  have b1 := (gemmF_spec dot 0 true nn (no * no * no) no C ldc X ldx (fun _ => 0) 0 nn (le_refl nn)).1 p
    (j + (k + l * no) * no) hp hjkl
  rw [← ht1] at b1
  rw [show (k + l * no) * no * nn + (p + j * nn) = 0 + (p + (j + (k + l * no) * no) * nn) by ring, b1]
  simp only [if_true]
  exact near_step' hd hr _ _ _ no 0 (fun i => C (i + p * ldc)) fun i _ => near_selfR _

theorem nest_reorder (no : Nat) (c1 c2 c3 c4 : Nat → ℝ) (f : Nat → Nat → Nat → Nat → ℝ) :
    (∑ l ∈ Finset.range no, c4 l * ∑ k ∈ Finset.range no, c3 k * ∑ j ∈ Finset.range no, c2 j *
      ∑ i ∈ Finset.range no, c1 i * f i j k l) =
    ∑ i ∈ Finset.range no, ∑ j ∈ Finset.range no, ∑ k ∈ Finset.range no, ∑ l ∈ Finset.range no,
      c1 i * c2 j * c3 k * c4 l * f i j k l := by
  rw [← sum4_reorder no c1 c2 c3 c4 f]
  refine Finset.sum_congr rfl fun l _ => ?_
  rw [mul_comm]
  congr 1
  refine Finset.sum_congr rfl fun k _ => ?_
  rw [mul_comm]
  congr 1
  refine Finset.sum_congr rfl fun j _ => ?_
  rw [mul_comm]

/-- C178 (four indices).  Computed in floating point with unit roundoff `u`, each call adding up the terms of each element
in any order, the transformed integrals differ from `sum_ijkl C(i,p) C(j,q) C(k,r) C(l,s) X(i,j,k,l)` by at most
`((1+u)^(4 no) - 1)` times the sum of the absolute values; nothing else is written.  (As in C79, `ldx` strides the
first index only, and `Y` is stored without padding.) -/
theorem C178_four_index (hd : dot.Sums rnd) (hr : RoundsTo rnd u) (no nn ldx ldc ldy : Nat) (X C Y : Nat → ℝ) :
    (∀ p q r s, p < nn → q < nn → r < nn → s < nn →
      |fourIndexF dot no nn X ldx C ldc Y ldy (addr4 nn p q r s)
        - ∑ i ∈ Finset.range no, ∑ j ∈ Finset.range no, ∑ k ∈ Finset.range no, ∑ l ∈ Finset.range no,
          C (i + p * ldc) * C (j + q * ldc) * C (k + r * ldc) * C (l + s * ldc) *
            X (i + (j + k * no + l * no * no) * ldx)| ≤
      ((1 + u) ^ (4 * no) - 1) *
        ∑ i ∈ Finset.range no, ∑ j ∈ Finset.range no, ∑ k ∈ Finset.range no, ∑ l ∈ Finset.range no,
          |C (i + p * ldc)| * |C (j + q * ldc)| * |C (k + r * ldc)| * |C (l + s * ldc)| *
            |X (i + (j + k * no + l * no * no) * ldx)|) ∧
    (∀ a, (∀ p q r s, p < nn → q < nn → r < nn → s < nn → a ≠ addr4 nn p q r s) →
      fourIndexF dot no nn X ldx C ldc Y ldy a = Y a) := by
  constructor
  · intro p q r s hp hq hr' hs
    have n := (fourIndexF_nest hd hr no nn ldx ldc ldy X C Y hp hq hr' hs).1
    have e : ∀ j k l : Nat, j + k * no + l * no * no = j + (k + l * no) * no := fun j k l => by ring
    simp only [e]
    rw [← nest_reorder no (fun i => C (i + p * ldc)) (fun j => C (j + q * ldc)) (fun k => C (k + r * ldc))
      (fun l => C (l + s * ldc)) (fun i j k l => X (i + (j + (k + l * no) * no) * ldx)),
      ← nest_reorder no (fun i => |C (i + p * ldc)|) (fun j => |C (j + q * ldc)|) (fun k => |C (k + r * ldc)|)
      (fun l => |C (l + s * ldc)|) (fun i j k l => |X (i + (j + (k + l * no) * no) * ldx)|)]
    exact n
  · intro a ha
    rw [fourIndexF]
    refine (gemmF_spec dot _ false (nn * nn * nn) nn no _ _ _ _ Y 0 (nn * nn * nn) (le_refl _)).2 a ?_
    intro i s hi hs h
    have hn : 0 < nn := by
      rcases Nat.eq_zero_or_pos nn with h0 | h0
      · omega
      · exact h0
    refine ha (i % nn) (i / nn % nn) (i / nn / nn) s (Nat.mod_lt _ hn) (Nat.mod_lt _ hn) ?_ hs ?_
    · rw [Nat.div_div_eq_div_mul]
      exact Nat.div_lt_of_lt_mul hi
    · rw [h, addr4_eq]
      have e1 := Nat.mod_add_div i nn
      have e2 := Nat.mod_add_div (i / nn) nn
      have e3 : i = i % nn + (i / nn % nn + nn * (i / nn / nn)) * nn := by
        rw [e2]; rw [Nat.mul_comm (i / nn)]; exact e1.symm
      calc 0 + (i + s * (nn * nn * nn)) = i + s * (nn * nn * nn) := by ring
        _ = (i % nn + (i / nn % nn + nn * (i / nn / nn)) * nn) + s * (nn * nn * nn) := by rw [← e3]
        _ = _ := by ring

/-! ### reordering orbitals -/

theorem pick_step (hd : dot.Sums rnd) (r0 : rnd 0 = 0) (e i j : Nat) {k m : Nat} (hm : m < k) {w h : Nat → ℝ}
    (hw : ∀ l, l < k → w l = if l = m then 1 else 0) (hv : rnd (h m) = h m) :
    dot e i j h w k = h m ∧ dot e i j w h k = h m := by
  have e1 := (hd e i j h w k).single (v := h m) (l0 := m) r0 hv (by rw [hw m hm]; simp)
    (fun l hl ne => by rw [hw l (List.mem_range.1 hl), if_neg ne, mul_zero]) List.nodup_range
  have e2 := (hd e i j w h k).single (v := h m) (l0 := m) r0 hv (by rw [hw m hm]; simp)
    (fun l hl ne => by rw [hw l (List.mem_range.1 hl), if_neg ne, zero_mul]) List.nodup_range
  rw [if_pos (List.mem_range.2 hm)] at e1 e2
  exact ⟨e1, e2⟩

/-- C178 (reordering, two indices): if column `p` of `C` picks the old orbital `f p`, no order of additions makes an error:
integrals that are floating point numbers are copied. -/
theorem C178_reorder_two (hd : dot.Sums rnd) (hr : RoundsTo rnd u) (no nn ldx ldc ldy : Nat) (hy : nn ≤ ldy)
    (X C Y : Nat → ℝ) (f : Nat → Nat) (hf : ∀ p, p < nn → f p < no)
    (hC : ∀ i p, i < no → p < nn → C (i + p * ldc) = if i = f p then 1 else 0) (hX : ∀ a, rnd (X a) = X a) :
    ∀ p q, p < nn → q < nn → twoIndexF dot no nn X ldx C ldc Y ldy (p + q * ldy) = X (f p + f q * ldx) := by
  intro p q hp hq
  have r0 : rnd 0 = 0 := by simpa using hr.err 0
  have t : ∀ i, i < no → gemmF dot 0 false no nn no X ldx C ldc (fun _ => 0) 0 no (i + q * no) = X (i + f q * ldx) := by
    intro i hi
    rw [show i + q * no = 0 + (i + q * no) by omega,
      (gemmF_spec dot 0 false no nn no X ldx C ldc (fun _ => 0) 0 no le_rfl).1 i q hi hq]
    simp only [Bool.false_eq_true, if_false]
    exact (pick_step hd r0 0 i q (hf q hq) (w := fun l => C (l + q * ldc)) (h := fun l => X (i + l * ldx))
      (fun l hl => hC l q hl hq) (hX _)).1
  rw [twoIndexF_elem dot no nn ldx ldc ldy hy X C Y hp hq]
  have := (pick_step hd r0 1 p q (hf p hp) (w := fun l => C (l + p * ldc))
    (h := fun l => gemmF dot 0 false no nn no X ldx C ldc (fun _ => 0) 0 no (l + q * no))
    (fun l hl => hC l p hl hp) (by rw [t _ (hf p hp), hX])).2
  rw [this]
  exact t _ (hf p hp)

/-- C178 (reordering, four indices) -/
theorem C178_reorder_four (hd : dot.Sums rnd) (hr : RoundsTo rnd u) (no nn ldx ldc ldy : Nat)
    (X C Y : Nat → ℝ) (f : Nat → Nat) (hf : ∀ p, p < nn → f p < no)
    (hC : ∀ i p, i < no → p < nn → C (i + p * ldc) = if i = f p then 1 else 0) (hX : ∀ a, rnd (X a) = X a) :
    ∀ p q r s, p < nn → q < nn → r < nn → s < nn → fourIndexF dot no nn X ldx C ldc Y ldy (addr4 nn p q r s) =
      X (f p + (f q + f r * no + f s * no * no) * ldx) := by
  intro p q r s hp hq hr' hs
  have r0 : rnd 0 = 0 := by simpa using hr.err 0
  rw [fourIndexF]
  set t1 := gemmF dot 0 true nn (no * no * no) no C ldc X ldx (fun _ => 0) 0 nn with ht1
  set t2 := (List.range (no * no)).foldl (fun tmp2 kl =>
    gemmF dot (1 + kl) false nn nn no (fun a => t1 (kl * no * nn + a)) nn C ldc tmp2 (kl * (nn * nn)) nn)
    (fun _ => 0) with ht2
  set t3 := (List.range no).foldl (fun tmp1 l =>
    gemmF dot (1 + no * no + l) false (nn * nn) nn no (fun a => t2 (l * (nn * nn) * no + a)) (nn * nn) C ldc tmp1
      (l * (nn * nn * nn)) (nn * nn)) t1 with ht3
  have hpq : p + q * nn < nn * nn := by
    have := Nat.mul_le_mul_right nn (show q + 1 ≤ nn from hq)
    rw [Nat.add_mul] at this; omega
  have hpqr : p + q * nn + r * (nn * nn) < nn * nn * nn := by
    have := Nat.mul_le_mul_right (nn * nn) (show r + 1 ≤ nn from hr')
    rw [Nat.add_mul] at this
    have e : nn * (nn * nn) = nn * nn * nn := by ring
    omega
  have v1 : ∀ j k l, j < no → k < no → l < no →
      t1 ((k + l * no) * no * nn + (p + j * nn)) = X (f p + (j + k * no + l * no * no) * ldx) := by
    intro j k l hj hk hl
    have hkl : k + l * no < no * no := by
      have := Nat.mul_le_mul_right no (show l + 1 ≤ no from hl)
      rw [Nat.add_mul] at this; omega
    have hjkl : j + (k + l * no) * no < no * no * no := by
      have := Nat.mul_le_mul_right no (show k + l * no + 1 ≤ no * no from hkl)
      rw [Nat.add_mul] at this; omega
    have b1 := (gemmF_spec dot 0 true nn (no * no * no) no C ldc X ldx (fun _ => 0) 0 nn (le_refl nn)).1 p
      (j + (k + l * no) * no) hp hjkl
    rw [← ht1] at b1
    rw [show (k + l * no) * no * nn + (p + j * nn) = 0 + (p + (j + (k + l * no) * no) * nn) by ring, b1,
      show j + k * no + l * no * no = j + (k + l * no) * no by ring]
    simp only [if_true]
    exact (pick_step hd r0 _ _ _ (hf p hp) (w := fun i => C (i + p * ldc))
      (h := fun i => X (i + (j + (k + l * no) * no) * ldx)) (fun i hi => hC i p hi hp) (hX _)).2
  have v2 : ∀ k l, k < no → l < no → t2 (l * (nn * nn) * no + (p + q * nn + k * (nn * nn))) =
      X (f p + (f q + k * no + l * no * no) * ldx) := by
    intro k l hk hl
    have hkl : k + l * no < no * no := by
      have := Nat.mul_le_mul_right no (show l + 1 ≤ no from hl)
      rw [Nat.add_mul] at this; omega
    have b2 := gemmF_blocks dot 1 (no * no) nn nn no (fun kl a => t1 (kl * no * nn + a)) nn C ldc
      (fun _ => 0) (k + l * no) p q hkl hp hq
    rw [← ht2] at b2
    rw [show l * (nn * nn) * no + (p + q * nn + k * (nn * nn)) = (k + l * no) * (nn * nn) + (p + q * nn) by ring, b2]
    have v := v1 (f q) k l (hf q hq) hk hl
    rw [← v]
    exact (pick_step hd r0 _ _ _ (hf q hq) (w := fun j => C (j + q * ldc))
      (h := fun j => t1 ((k + l * no) * no * nn + (p + j * nn))) (fun j hj => hC j q hj hq) (by rw [v, hX])).1
  have v3 : ∀ l, l < no → t3 (p + q * nn + r * (nn * nn) + l * (nn * nn * nn)) =
      X (f p + (f q + f r * no + l * no * no) * ldx) := by
    intro l hl
    have b3 := gemmF_blocks dot (1 + no * no) no (nn * nn) nn no (fun l a => t2 (l * (nn * nn) * no + a)) (nn * nn) C ldc
      t1 l (p + q * nn) r hl hpq hr'
    rw [← ht3] at b3
    rw [show p + q * nn + r * (nn * nn) + l * (nn * nn * nn) =
      l * (nn * nn * nn) + (p + q * nn + r * (nn * nn)) by ring, b3]
    have v := v2 (f r) l (hf r hr') hl
    rw [← v]
    exact (pick_step hd r0 _ _ _ (hf r hr') (w := fun k => C (k + r * ldc))
      (h := fun k => t2 (l * (nn * nn) * no + (p + q * nn + k * (nn * nn)))) (fun k hk => hC k r hk hr')
      (by rw [v, hX])).1
  have h4 := (gemmF_spec dot (1 + no * no + no) false (nn * nn * nn) nn no t3 (nn * nn * nn) C ldc Y 0 (nn * nn * nn)
    (le_refl _)).1 (p + q * nn + r * (nn * nn)) s hpqr hs
  have e4 : addr4 nn p q r s = 0 + (p + q * nn + r * (nn * nn) + s * (nn * nn * nn)) := by
    rw [addr4]; ring
  rw [e4, h4]
  simp only [Bool.false_eq_true, if_false]
  have v := v3 (f s) (hf s hs)
  rw [← v]
  exact (pick_step hd r0 _ _ _ (hf s hs) (w := fun l => C (l + s * ldc))
    (h := fun l => t3 (p + q * nn + r * (nn * nn) + l * (nn * nn * nn))) (fun l hl => hC l s hl hs) (by rw [v, hX])).1

/-! ### symmetry -/

/-- C178: the transform of a symmetric matrix need not be symmetric: the two elements of a pair are computed by different
additions.  Witness: three old and two new orbitals, rounding to `double`, additions from left to right. -/
theorem C178_not_symmetric (h : DoubleLike rnd) :
    ∃ (dot : Kernel) (X C : Nat → ℝ), dot.Sums rnd ∧ (∀ i j, i < 3 → j < 3 → X (i + j * 3) = X (j + i * 3)) ∧
      ∀ Y, twoIndexF dot 3 2 X 3 C 3 Y 2 (0 + 1 * 2) ≠ twoIndexF dot 3 2 X 3 C 3 Y 2 (1 + 0 * 2) := by
  have r0 : rnd 0 = 0 := by simpa using h.keep 0 0 (by norm_num)
  have r1 : rnd 1 = 1 := by simpa using h.keep 1 0 (by norm_num)
  have r2 : rnd (2 ^ (-53 : ℤ)) = 2 ^ (-53 : ℤ) := by simpa using h.keep 1 (-53) (by norm_num)
  have r3 : rnd (2 ^ (-53 : ℤ) + 2 ^ (-53 : ℤ)) = 2 ^ (-53 : ℤ) + 2 ^ (-53 : ℤ) := by
    have := h.keep 1 (-52) (by norm_num)
    rw [show (((1 : Nat) : ℝ) * 2 ^ (-52 : ℤ)) = 2 ^ (-53 : ℤ) + 2 ^ (-53 : ℤ) by norm_num] at this
    exact this
  have r4 : rnd (1 + (2 ^ (-53 : ℤ) + 2 ^ (-53 : ℤ))) = 1 + (2 ^ (-53 : ℤ) + 2 ^ (-53 : ℤ)) := by
    have := h.keep (2 ^ 52 + 1) (-52) (by norm_num)
    rw [show (((2 ^ 52 + 1 : Nat) : ℝ) * 2 ^ (-52 : ℤ)) = 1 + (2 ^ (-53 : ℤ) + 2 ^ (-53 : ℤ)) by norm_num] at this
    exact this
  have r5 := h.down
  have epos : (0 : ℝ) < 2 ^ (-53 : ℤ) := by positivity
  generalize (2 : ℝ) ^ (-53 : ℤ) = ε at *
  let dot : Kernel := fun _ _ _ a b k => seqDot rnd a b k
  let X : Nat → ℝ := fun a => if a = 1 ∨ a = 3 then 1 else if a = 4 ∨ a = 5 ∨ a = 7 then ε else 0
  let C : Nat → ℝ := fun a => if a = 0 ∨ a = 1 ∨ a = 4 ∨ a = 5 then 1 else 0
  refine ⟨dot, X, C, fun _ _ _ a b k => seqDot_dot rnd a b k, ?_, fun Y => ?_⟩
  · intro i j hi hj
    have : (i = 0 ∨ i = 1 ∨ i = 2) ∧ (j = 0 ∨ j = 1 ∨ j = 2) := by omega
    obtain ⟨rfl | rfl | rfl, rfl | rfl | rfl⟩ := this <;> simp [X]
  · have t : ∀ i q, i < 3 → q < 2 → gemmF dot 0 false 3 2 3 X 3 C 3 (fun _ => 0) 0 3 (i + q * 3) =
        seqDot rnd (fun l => X (i + l * 3)) (fun l => C (l + q * 3)) 3 := by
      intro i q hi hq
      have := (gemmF_spec dot 0 false 3 2 3 X 3 C 3 (fun _ => 0) 0 3 le_rfl).1 i q hi hq
      simpa using this
    have y : ∀ p q, p < 2 → q < 2 → twoIndexF dot 3 2 X 3 C 3 Y 2 (p + q * 2) =
        seqDot rnd (fun l => C (l + p * 3))
          (fun l => gemmF dot 0 false 3 2 3 X 3 C 3 (fun _ => 0) 0 3 (l + q * 3)) 3 := by
      intro p q hp hq
      exact twoIndexF_elem dot 3 2 3 3 2 le_rfl X C Y hp hq
    rw [y 0 1 (by norm_num) (by norm_num), y 1 0 (by norm_num) (by norm_num)]
    simp only [seqDot, t 0 _ (by norm_num) (by norm_num : 1 < 2), t 1 _ (by norm_num) (by norm_num : 1 < 2),
      t 2 _ (by norm_num) (by norm_num : 1 < 2), t 0 _ (by norm_num) (by norm_num : 0 < 2),
      t 1 _ (by norm_num) (by norm_num : 0 < 2), t 2 _ (by norm_num) (by norm_num : 0 < 2)]
    simp [X, C, r0, r1, r2, r3, r4, r5]
    linarith

/-- example: `double` rounded towards zero -/
example : ∃ (dot : Kernel) (X C : Nat → ℝ), dot.Sums (chop 52) ∧
    (∀ i j, i < 3 → j < 3 → X (i + j * 3) = X (j + i * 3)) ∧
      ∀ Y, twoIndexF dot 3 2 X 3 C 3 Y 2 (0 + 1 * 2) ≠ twoIndexF dot 3 2 X 3 C 3 Y 2 (1 + 0 * 2) :=
  C178_not_symmetric chop_double

/-- example: the error bound for `double`, additions from left to right -/
example (X C Y : Nat → ℝ) :
    |fourIndexF (fun _ _ _ a b k => seqDot (chop 52) a b k) 2 2 X 2 C 2 Y 2 (addr4 2 0 1 1 0)
      - ∑ i ∈ Finset.range 2, ∑ j ∈ Finset.range 2, ∑ k ∈ Finset.range 2, ∑ l ∈ Finset.range 2,
          C (i + 0 * 2) * C (j + 1 * 2) * C (k + 1 * 2) * C (l + 0 * 2) * X (i + (j + k * 2 + l * 2 * 2) * 2)| ≤
      ((1 + 2 ^ (-52 : ℤ)) ^ 8 - 1) *
        ∑ i ∈ Finset.range 2, ∑ j ∈ Finset.range 2, ∑ k ∈ Finset.range 2, ∑ l ∈ Finset.range 2,
          |C (i + 0 * 2)| * |C (j + 1 * 2)| * |C (k + 1 * 2)| * |C (l + 0 * 2)| * |X (i + (j + k * 2 + l * 2 * 2) * 2)| :=
  (C178_four_index (fun _ _ _ a b k => seqDot_dot _ a b k) (chop_rounds 52) 2 2 2 2 2 X C Y).1 0 1 1 0
    (by norm_num) (by norm_num) (by norm_num) (by norm_num)

end Macis
