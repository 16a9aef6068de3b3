import Verif.Model.HamGen
import Verif.Props.Transform
import Verif.Spec.Svd
import Mathlib.Analysis.Matrix.PosDef
import Mathlib.Algebra.Order.Star.Real
import Mathlib.Tactic.NoncommRing
/-! Lemmas on the stored arrays of the Hamiltonian generator. -/
namespace Macis
open Spec Finset

/-- what a loop over distinct addresses leaves in an array -/
theorem forEach_spec {R α : Type} {l : List α} {addr : α → Nat} {val : α → R → R} (nd : l.Nodup)
    (inj : ∀ x ∈ l, ∀ y ∈ l, addr x = addr y → x = y) (A : Nat → R) :
    (∀ x ∈ l, forEach l addr val A (addr x) = val x (A (addr x))) ∧
    (∀ a, (∀ x ∈ l, addr x ≠ a) → forEach l addr val A a = A a) := by
  induction l generalizing A with
  | nil => exact ⟨fun x h => absurd h (by simp), fun a _ => rfl⟩
  | cons y l ih =>
    have nd' := (List.nodup_cons.1 nd)
    obtain ⟨h1, h2⟩ := ih nd'.2 (fun x hx z hz => inj x (List.mem_cons_of_mem _ hx) z (List.mem_cons_of_mem _ hz))
      (Function.update A (addr y) (val y (A (addr y))))
    have e : ∀ a, forEach (y :: l) addr val A a =
        forEach l addr val (Function.update A (addr y) (val y (A (addr y)))) a := fun _ => rfl
    have ne : ∀ x ∈ l, addr x ≠ addr y := fun x hx he => nd'.1 <| by
      rw [← inj x (List.mem_cons_of_mem _ hx) y (List.mem_cons_self ..) he]; exact hx
    constructor
    · intro x hx
      rw [e]
      rcases List.mem_cons.1 hx with rfl | hx
      · rw [h2 _ ne, Function.update_self]
      · rw [h1 x hx, Function.update_of_ne (ne x hx)]
    · intro a ha
      rw [e, h2 a fun x hx => ha x (List.mem_cons_of_mem _ hx),
        Function.update_of_ne (ha y (List.mem_cons_self ..)).symm]

/-- four quarter transformations in `rotate_hamiltonian_ordm`, from any contents `J` of the scratch array -/
theorem rotate_quarters {R : Type} [CommRing R] (no : Nat) (X C Y J : Nat → R) (p q r s : Nat) (hp : p < no)
    (hq : q < no) (hr : r < no) (hs : s < no) :
    gemm false (no * no * no) no no
      ((List.range no).foldl (fun W l => gemm false (no * no) no no (fun a =>
        ((List.range (no * no)).foldl (fun W kl => gemm false no no no (fun a =>
          gemm true no (no * no * no) no C no X no J 0 no (kl * (no * no) + a)) no C no W (kl * (no * no)) no)
          (fun _ => 0)) (l * (no * no * no) + a)) (no * no) C no W (l * (no * no * no)) (no * no))
        (gemm true no (no * no * no) no C no X no J 0 no))
      (no * no * no) C no Y 0 (no * no * no) (addr4 no p q r s) =
    ∑ i ∈ range no, ∑ j ∈ range no, ∑ k ∈ range no, ∑ l ∈ range no,
      C (i + p * no) * C (j + q * no) * C (k + r * no) * C (l + s * no) * X (addr4 no i j k l) := by
  -- names for the intermediate arrays
  set t1 := gemm true no (no * no * no) no C no X no J 0 no with ht1
  set t2 := (List.range (no * no)).foldl (fun tmp2 kl =>
    gemm false no no no (fun a => t1 (kl * (no * no) + a)) no C no tmp2 (kl * (no * no)) no)
    (fun _ => 0) with ht2
  set t3 := (List.range no).foldl (fun tmp1 l =>
    gemm false (no * no) no no (fun a => t2 (l * (no * no * no) + a)) (no * no) C no tmp1
      (l * (no * no * no)) (no * no)) t1 with ht3
  have hpq : p + q * no < no * no := by
    have := Nat.mul_le_mul_right no (show q + 1 ≤ no from hq)
    rw [Nat.add_mul] at this; omega
  have hpqr : p + q * no + r * (no * no) < no * no * no := by
    have := Nat.mul_le_mul_right (no * no) (show r + 1 ≤ no from hr)
    rw [Nat.add_mul] at this
    have e : no * (no * no) = no * no * no := by ring
    omega
  have h4 := (gemm_spec false (no * no * no) no no t3 (no * no * no) C no Y 0 (no * no * no)
    (le_refl _)).1 (p + q * no + r * (no * no)) s hpqr hs
  have e4 : addr4 no p q r s = 0 + (p + q * no + r * (no * no) + s * (no * no * no)) := by
    rw [addr4]; ring
  rw [e4, h4]
  have hl : ∀ l, l < no → t3 (p + q * no + r * (no * no) + l * (no * no * no)) =
      ∑ k ∈ Finset.range no, t2 (l * (no * no * no) + (p + q * no + k * (no * no))) *
        C (k + r * no) := by
    intro l hl
    have := gemm_blocks no (no * no) no no (fun l a => t2 (l * (no * no * no) + a)) (no * no) C no
      t1 l (p + q * no) r hl hpq hr
    rw [← ht3] at this
    rw [← this]
    congr 1; ring
  have hk : ∀ k l, k < no → l < no → t2 (l * (no * no * no) + (p + q * no + k * (no * no))) =
      ∑ j ∈ Finset.range no, t1 ((k + l * no) * (no * no) + (p + j * no)) * C (j + q * no) := by
    intro k l hk hl
    have hkl : k + l * no < no * no := by
      have := Nat.mul_le_mul_right no (show l + 1 ≤ no from hl)
      rw [Nat.add_mul] at this; omega
    have := gemm_blocks (no * no) no no no (fun kl a => t1 (kl * (no * no) + a)) no C no
      (fun _ => 0) (k + l * no) p q hkl hp hq
    rw [← ht2] at this
    rw [← this]
    congr 1; ring
  have hj : ∀ j k l, j < no → k < no → l < no → t1 ((k + l * no) * (no * no) + (p + j * no)) =
      ∑ i ∈ Finset.range no, C (i + p * no) * X (addr4 no i j k l) := by
    intro j k l hj hk hl
    have hjkl : j + (k + l * no) * no < no * no * no := by
      have h1 : k + l * no < no * no := by
        have := Nat.mul_le_mul_right no (show l + 1 ≤ no from hl)
        rw [Nat.add_mul] at this; omega
      have := Nat.mul_le_mul_right no (show k + l * no + 1 ≤ no * no from h1)
      rw [Nat.add_mul] at this; omega
    have := (gemm_spec true no (no * no * no) no C no X no J 0 no (le_refl no)).1 p
      (j + (k + l * no) * no) hp hjkl
    rw [← ht1] at this
    rw [show (k + l * no) * (no * no) + (p + j * no) = 0 + (p + (j + (k + l * no) * no) * no) by ring,
      this]
    apply Finset.sum_congr rfl
    intro i _
    rw [if_pos rfl, addr4_eq]
  rw [← sum4_reorder no (fun i => C (i + p * no)) (fun j => C (j + q * no))
    (fun k => C (k + r * no)) (fun l => C (l + s * no)) (fun i j k l => X (addr4 no i j k l))]
  apply Finset.sum_congr rfl
  intro l hl'
  rw [Finset.mem_range] at hl'
  rw [if_neg (by simp), hl l hl']
  congr 1
  apply Finset.sum_congr rfl
  intro k hk'
  rw [Finset.mem_range] at hk'
  rw [hk k l hk' hl']
  congr 1
  apply Finset.sum_congr rfl
  intro j hj'
  rw [Finset.mem_range] at hj'
  rw [hj j k l hj' hk' hl']

/-- a square root of `D D^T` with nonnegative eigenvalues is `D` itself when `D` is symmetric and has none negative -/
theorem psd_sqrt_unique {n : Nat} {d P : Matrix (Fin n) (Fin n) ℝ} (hd : d.PosSemidef) (hP : P.PosSemidef)
    (h : d * d = P * P) : d = P := by
  have b1 : (d - P).IsHermitian := hd.1.sub hP.1
  set b := d - P with hb
  have e : d * b + b * P = 0 := by
    rw [hb, mul_sub, sub_mul, h]; abel
  have t : (b * d * b).trace + (b * P * b).trace = 0 := by
    rw [Matrix.trace_mul_comm (b * P) b, ← Matrix.trace_add]
    have : b * d * b + b * (b * P) = b * (d * b + b * P) := by noncomm_ring
    rw [this, e, mul_zero, Matrix.trace_zero]
  have hh : b.conjTranspose = b := b1
  have p1 : (b * d * b).PosSemidef := by
    have := hd.conjTranspose_mul_mul_same b
    rwa [hh] at this
  have p2 : (b * P * b).PosSemidef := by
    have := hP.conjTranspose_mul_mul_same b
    rwa [hh] at this
  have z1 : b * d * b = 0 := p1.trace_eq_zero_iff.1 (by linarith [p1.trace_nonneg, p2.trace_nonneg])
  have z2 : b * P * b = 0 := p2.trace_eq_zero_iff.1 (by linarith [p1.trace_nonneg, p2.trace_nonneg])
  have z3 : b * b * b = 0 := by
    have : b * b * b = b * d * b - b * P * b := by
      conv_lhs => rw [show b * b * b = b * (d - P) * b from rfl]
      noncomm_ring
    rw [this, z1, z2, sub_zero]
  have z4 : b * b = 0 := by
    refine Matrix.conjTranspose_mul_self_eq_zero.1 ?_
    rw [Matrix.conjTranspose_mul, hh, ← mul_assoc, z3, zero_mul]
  have z5 : b = 0 := by
    refine Matrix.conjTranspose_mul_self_eq_zero.1 ?_
    rw [hh, z4]
  exact sub_eq_zero.1 z5

/-- the left singular vectors of a symmetric matrix without negative eigenvalues are eigenvectors -/
theorem svd_symPsd {n : Nat} {D U : Nat → Nat → ℝ} {S : Nat → ℝ} (hD : SymPsd n D) (h : Svd n D U S) (p q : Nat)
    (hp : p < n) (hq : q < n) :
    ∑ i ∈ range n, ∑ j ∈ range n, U i p * U j q * D i j = if p = q then S p else 0 := by
  obtain ⟨W, hW, hf⟩ := h.factor
  let d : Matrix (Fin n) (Fin n) ℝ := fun i j => D i j
  let u : Matrix (Fin n) (Fin n) ℝ := fun i j => U i j
  let w : Matrix (Fin n) (Fin n) ℝ := fun i j => W i j
  let s : Matrix (Fin n) (Fin n) ℝ := Matrix.diagonal fun k => S k
  have uu : u.transpose * u = 1 := by
    ext k l
    have := h.left k l k.2 l.2
    rw [sum_range] at this
    rw [Matrix.mul_apply, Matrix.one_apply]
    refine Eq.trans this ?_
    simp [Fin.ext_iff]
  have ww : w.transpose * w = 1 := by
    ext k l
    have := hW k l k.2 l.2
    rw [sum_range] at this
    rw [Matrix.mul_apply, Matrix.one_apply]
    refine Eq.trans this ?_
    simp [Fin.ext_iff]
  have hd : d = u * s * w.transpose := by
    ext i j
    have := hf i j i.2 j.2
    rw [sum_range] at this
    rw [Matrix.mul_apply]
    simp only [s, Matrix.mul_diagonal, Matrix.transpose_apply]
    exact this
  have hT : d.transpose = d := by
    ext i j
    exact hD.1 j i j.2 i.2
  have psd : d.PosSemidef := by
    refine Matrix.PosSemidef.of_dotProduct_mulVec_nonneg ?_ fun x => ?_
    · change d.conjTranspose = d
      rw [Matrix.conjTranspose_eq_transpose_of_trivial, hT]
    · have := hD.2 fun i => if hi : i < n then x ⟨i, hi⟩ else 0
      simp only [sum_range, Fin.is_lt, dite_true, Fin.eta] at this
      simp only [dotProduct, Matrix.mulVec, mul_sum, star_trivial]
      refine this.trans_eq ?_
      exact sum_congr rfl fun i _ => sum_congr rfl fun j _ => mul_assoc _ _ _
  have hs : s.PosSemidef := Matrix.PosSemidef.diagonal fun k => h.nonneg k k.2
  have hP : (u * s * u.transpose).PosSemidef := by
    have := hs.conjTranspose_mul_mul_same u.transpose
    rwa [Matrix.conjTranspose_eq_transpose_of_trivial, Matrix.transpose_transpose] at this
  have st : s.transpose = s := Matrix.diagonal_transpose _
  have sq : d * d = (u * s * u.transpose) * (u * s * u.transpose) := by
    calc d * d = d * d.transpose := by rw [hT]
      _ = u * s * (w.transpose * w) * s * u.transpose := by
          rw [hd, Matrix.transpose_mul, Matrix.transpose_mul, Matrix.transpose_transpose, st]
          simp only [Matrix.mul_assoc]
      _ = u * s * (u.transpose * u) * s * u.transpose := by rw [ww, uu]
      _ = _ := by simp only [Matrix.mul_assoc]
  have e := psd_sqrt_unique psd hP sq
  have key : u.transpose * d * u = s := by
    rw [e]
    calc u.transpose * (u * s * u.transpose) * u = (u.transpose * u) * s * (u.transpose * u) := by
          simp only [Matrix.mul_assoc]
      _ = s := by rw [uu]; simp
  have := congrFun (congrFun key ⟨p, hp⟩) ⟨q, hq⟩
  simp only [s, Matrix.diagonal_apply, Fin.mk.injEq] at this
  rw [← this, Matrix.mul_apply]
  simp only [sum_range, Matrix.mul_apply, Matrix.transpose_apply, sum_mul]
  rw [sum_comm]
  refine sum_congr rfl fun j _ => sum_congr rfl fun i _ => ?_
  change _ = U i p * D i j * U j q
  ring

end Macis
