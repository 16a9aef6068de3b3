import Verif.Model.Diis
import Verif.Lemmas.Fcidump
import Mathlib.Analysis.InnerProductSpace.PiL2
import Mathlib.Analysis.InnerProductSpace.Projection.FiniteDimensional
import Mathlib.Tactic.Linarith
import Mathlib.Algebra.BigOperators.Fin
/-! Properties C41, C80, C81: DIIS. -/
namespace Macis
open Finset

/-- C41: after any sequence of additions the object holds exactly the last `nmax` pairs, in the order of
addition. -/
theorem C41_window {α : Type} (nmax : Nat) (h0 : 0 < nmax) (hist : List α) :
    diisRun nmax hist = .ok (hist.drop (hist.length - nmax)) := by
  induction hist using List.reverseRecOn with
  | nil => simp [diisRun]
  | append_singleton hist x ih =>
    rw [diisRun, List.foldl_append, List.foldl_cons, List.foldl_nil]
    change (diisRun nmax hist).bind _ = _
    rw [ih, Run.bind]
    set l := hist.drop (hist.length - nmax) with hl
    have len : l.length = min hist.length nmax := by rw [hl, List.length_drop]; omega
    rw [diisAdd]
    by_cases h : l.length < nmax
    · rw [if_pos h]
      have h2 : hist.length < nmax := by omega
      have : hist.length - nmax = 0 := by omega
      rw [hl, this, List.drop_zero, List.length_append, List.length_singleton]
      have : hist.length + 1 - nmax = 0 := by omega
      rw [this, List.drop_zero]
    · have h2 : nmax ≤ hist.length := by omega
      have hlen : l.length = nmax := by omega
      rw [if_neg h, if_neg (by omega)]
      have l2 : (l.drop (l.length - 1)).length = 1 := by rw [List.length_drop]; omega
      have l1 : (l.drop 1).length = nmax - 1 := by rw [List.length_drop]; omega
      simp only []
      rw [if_pos (by rw [List.length_append]; omega)]
      congr 1
      obtain ⟨y, hy⟩ := List.length_eq_one_iff.mp l2
      rw [hy, List.set_append_right _ _ (by omega), l1, Nat.sub_self, List.set_cons_zero, hl,
        List.drop_drop, List.length_append, List.length_singleton]
      have : hist.length + 1 - nmax = (hist.length - nmax) + 1 := by omega
      rw [this, List.drop_append_of_le_length (by omega)]

/-- four additions to a window of three -/
example : diisRun 3 ["a", "b", "c", "d"] = .ok ["b", "c", "d"] := by decide +kernel

/-- C81 (refuted): an object with a window of zero pairs (`nkeep = 0`) does not simply hold nothing:
its first addition is undefined behaviour. -/
theorem C81_zero_window_refuted {α : Type} (x : α) (rest : List α) :
    diisRun 0 (x :: rest) = .ub := by
  have : ∀ l : List α, l.foldl (fun r x => r.bind fun l => diisAdd 0 l x) (.ub : Run (List α)) = .ub := by
    intro l
    induction l with
    | nil => rfl
    | cons a l ih => rw [List.foldl_cons]; exact ih
  exact this rest

variable {R : Type} [CommRing R]

/-- elements of the DIIS matrix -/
theorem diisMatrix_val (nd len : Nat) (e : Nat → Nat → R) :
    (∀ i j, i < nd → j < nd → diisMatrix nd len e (i + j * (nd + 1)) = dotN len (e i) (e j)) ∧
    (∀ i, i < nd → diisMatrix nd len e (i + nd * (nd + 1)) = 1 ∧
      diisMatrix nd len e (nd + i * (nd + 1)) = 1) ∧
    diisMatrix nd len e (nd + nd * (nd + 1)) = 0 := by
  have comm : ∀ i j, dotN len (e i) (e j) = dotN len (e j) (e i) := by
    intro i j
    rw [dotN, dotN]
    exact Finset.sum_congr rfl fun k _ => mul_comm _ _
  set W := (List.range nd).flatMap fun i => ((List.range nd).filter (i ≤ ·)).flatMap fun j =>
    (i + j * (nd + 1), dotN len (e i) (e j)) ::
      (if i ≠ j then [(j + i * (nd + 1), dotN len (e i) (e j))] else []) with hW
  set P : List (Nat × R) := (List.range nd).flatMap fun i =>
    [(i + nd * (nd + 1), 1), (nd + i * (nd + 1), 1)] with hP
  have memW : ∀ w ∈ W, ∃ i j, i < nd ∧ j < nd ∧ w = (i + j * (nd + 1), dotN len (e i) (e j)) := by
    intro w hw
    rw [hW] at hw
    simp only [List.mem_flatMap, List.mem_range, List.mem_filter, decide_eq_true_eq,
      List.mem_cons] at hw
    obtain ⟨i, hi, j, ⟨hj, hij⟩, h | h⟩ := hw
    · exact ⟨i, j, hi, hj, h⟩
    · split at h
      · rw [List.mem_singleton] at h
        exact ⟨j, i, hj, hi, by rw [h, comm i j]⟩
      · simp at h
  have inW : ∀ i j, i < nd → j < nd → (i + j * (nd + 1), dotN len (e i) (e j)) ∈ W := by
    intro i j hi hj
    rw [hW]
    simp only [List.mem_flatMap, List.mem_range, List.mem_filter, decide_eq_true_eq, List.mem_cons]
    by_cases h : i ≤ j
    · exact ⟨i, hi, j, ⟨hj, h⟩, Or.inl rfl⟩
    · refine ⟨j, hj, i, ⟨hi, by omega⟩, Or.inr ?_⟩
      rw [if_pos (by omega), List.mem_singleton, comm i j]
  have memP : ∀ w, w ∈ P ↔ ∃ i, i < nd ∧
      (w = (i + nd * (nd + 1), 1) ∨ w = (nd + i * (nd + 1), 1)) := by
    intro w
    rw [hP]
    simp only [List.mem_flatMap, List.mem_range, List.mem_cons, List.not_mem_nil, or_false]
  rw [diisMatrix, ← hW, ← hP]
  refine ⟨?_, ?_, ?_⟩
  · intro i j hi hj
    rw [storeAll_none]
    · apply storeAll_const
      · intro w hw hwa
        obtain ⟨i', j', hi', hj', rfl⟩ := memW w hw
        obtain ⟨rfl, rfl⟩ := addr2_inj (le_refl (nd + 1)) (by omega) (by omega) hwa
        rfl
      · exact ⟨_, inW i j hi hj, rfl⟩
    · intro w hw hwa
      obtain ⟨i', hi', rfl | rfl⟩ := (memP w).mp hw
      · obtain ⟨rfl, rfl⟩ := addr2_inj (le_refl (nd + 1)) (by omega) (by omega) hwa
        omega
      · obtain ⟨rfl, rfl⟩ := addr2_inj (le_refl (nd + 1)) (by omega) (by omega) hwa
        omega
  · intro i hi
    constructor
    · apply storeAll_const
      · intro w hw hwa
        obtain ⟨i', hi', rfl | rfl⟩ := (memP w).mp hw <;> rfl
      · exact ⟨_, (memP _).mpr ⟨i, hi, Or.inl rfl⟩, rfl⟩
    · apply storeAll_const
      · intro w hw hwa
        obtain ⟨i', hi', rfl | rfl⟩ := (memP w).mp hw <;> rfl
      · exact ⟨_, (memP _).mpr ⟨i, hi, Or.inr rfl⟩, rfl⟩
  · rw [storeAll_none, storeAll_none]
    · intro w hw hwa
      obtain ⟨i', j', hi', hj', rfl⟩ := memW w hw
      obtain ⟨rfl, rfl⟩ := addr2_inj (le_refl (nd + 1)) (by omega) (by omega) hwa
      omega
    · intro w hw hwa
      obtain ⟨i', hi', rfl | rfl⟩ := (memP w).mp hw
      · obtain ⟨rfl, _⟩ := addr2_inj (le_refl (nd + 1)) (by omega) (by omega) hwa
        omega
      · obtain ⟨_, rfl⟩ := addr2_inj (le_refl (nd + 1)) (by omega) (by omega) hwa
        omega

/-- squared 2-norm of the residual of a candidate solution of the DIIS equations -/
def diisResidual (nd : Nat) (B : Nat → ℝ) (y : Nat → ℝ) : ℝ :=
  ∑ r ∈ range (nd + 1), ((∑ s ∈ range (nd + 1), B (r + s * (nd + 1)) * y s) - diisRhs nd r) ^ 2

/-- rows of the DIIS equations -/
theorem diis_rows (nd len : Nat) (e : Nat → Nat → ℝ) (y : Nat → ℝ) :
    (∀ r, r < nd → (∑ s ∈ range (nd + 1), diisMatrix nd len e (r + s * (nd + 1)) * y s) -
      diisRhs nd r = (∑ s ∈ range nd, dotN len (e r) (e s) * y s) + y nd) ∧
    ((∑ s ∈ range (nd + 1), diisMatrix nd len e (nd + s * (nd + 1)) * y s) -
      diisRhs nd nd = (∑ s ∈ range nd, y s) - 1) := by
  obtain ⟨h1, h2, h3⟩ := diisMatrix_val nd len e
  constructor
  · intro r hr
    rw [Finset.sum_range_succ, (h2 r hr).1, one_mul, diisRhs, if_neg (by omega), sub_zero]
    congr 1
    apply Finset.sum_congr rfl
    intro s hs
    rw [h1 r s hr (mem_range.mp hs)]
  · rw [Finset.sum_range_succ, h3, zero_mul, add_zero, diisRhs, if_pos rfl]
    congr 1
    apply Finset.sum_congr rfl
    intro s hs
    rw [(h2 s (mem_range.mp hs)).2, one_mul]

/-- the DIIS equations always have a solution -/
theorem diis_consistent (nd len : Nat) (h0 : 0 < nd) (e : Nat → Nat → ℝ) :
    ∃ y, diisResidual nd (diisMatrix nd len e) y = 0 := by
  let E : Fin nd → EuclideanSpace ℝ (Fin len) := fun i => WithLp.toLp 2 fun k => e i k
  let z : Fin nd := ⟨0, h0⟩
  have dotE : ∀ i j : Fin nd, inner ℝ (E i) (E j) = dotN len (e i) (e j) := by
    intro i j
    rw [dotN, PiLp.inner_apply, Finset.sum_range]
    apply Finset.sum_congr rfl
    intro k _
    simp [E, mul_comm]
  obtain ⟨w, hw, r, hr, hv⟩ := Submodule.exists_add_mem_mem_orthogonal
    (K := Submodule.span ℝ (Set.range fun i => E i - E z)) (E z)
  obtain ⟨d, hd⟩ := (Submodule.mem_span_range_iff_exists_fun ℝ).mp hw
  have perp : ∀ i, inner ℝ (E i) r = inner ℝ (E z) r := by
    intro i
    have := (Submodule.mem_orthogonal _ r).mp hr (E i - E z) (Submodule.subset_span ⟨i, rfl⟩)
    rw [inner_sub_left] at this
    linarith
  -- coefficients
  let c : Fin nd → ℝ := fun i => (if i = z then 1 + ∑ j, d j else 0) - d i
  have rc : r = ∑ i, c i • E i := by
    have e1 : r = E z - w := by rw [hv]; simp
    rw [e1, ← hd]
    simp only [c, sub_smul, Finset.sum_sub_distrib, smul_sub, ite_smul, zero_smul]
    rw [Finset.sum_ite_eq' Finset.univ z, if_pos (Finset.mem_univ z), add_smul, one_smul,
      Finset.sum_smul]
    abel
  have cs : ∑ i, c i = 1 := by
    simp only [c, Finset.sum_sub_distrib]
    rw [Finset.sum_ite_eq' Finset.univ z, if_pos (Finset.mem_univ z)]
    ring
  refine ⟨fun s => if h : s < nd then c ⟨s, h⟩ else -inner ℝ (E z) r, ?_⟩
  set y : Nat → ℝ := fun s => if h : s < nd then c ⟨s, h⟩ else -inner ℝ (E z) r with hy
  have yc : ∀ i : Fin nd, y i = c i := by
    intro i; rw [hy]; simp only [i.isLt, dif_pos, Fin.eta]
  have yn : y nd = -inner ℝ (E z) r := by rw [hy]; simp
  obtain ⟨r1, r2⟩ := diis_rows nd len e y
  rw [diisResidual, Finset.sum_eq_zero]
  intro t ht
  rw [mem_range] at ht
  by_cases h : t < nd
  · rw [r1 t h, yn, Finset.sum_range]
    have : ∑ s : Fin nd, dotN len (e t) (e s) * y s = inner ℝ (E ⟨t, h⟩) r := by
      rw [rc, inner_sum]
      apply Finset.sum_congr rfl
      intro s _
      rw [inner_smul_right, dotE, yc]
      ring
    rw [this, perp]; simp
  · have : t = nd := by omega
    subst this
    rw [r2, Finset.sum_range]
    simp only [yc]
    rw [cs]; simp

theorem dot_combine (nd len : Nat) (e : Nat → Nat → ℝ) (a b : Nat → ℝ) :
    dotN len (fun k => ∑ i ∈ range nd, a i * e i k) (fun k => ∑ i ∈ range nd, b i * e i k) =
      ∑ i ∈ range nd, a i * ∑ j ∈ range nd, dotN len (e i) (e j) * b j := by
  simp only [dotN, Finset.sum_mul_sum, Finset.sum_mul, Finset.mul_sum]
  rw [Finset.sum_comm]
  conv_rhs => rw [Finset.sum_comm]
  apply Finset.sum_congr rfl; intro i _
  rw [Finset.sum_comm]
  apply Finset.sum_congr rfl; intro j _
  apply Finset.sum_congr rfl; intro k _
  ring

/-- C80: if the solver returns a least-squares solution of the equations it was given, then the result
is a combination of the stored vectors whose coefficients sum to one, and no other such combination of
the stored error vectors has a smaller norm. -/
theorem C80_extrapolation_optimal (nd len : Nat) (h0 : 0 < nd) (v e : Nat → Nat → ℝ) (c : Nat → ℝ)
    (hls : ∀ y, diisResidual nd (diisMatrix nd len e) c ≤ diisResidual nd (diisMatrix nd len e) y) :
    ∃ x, diisExtrapolate nd v c = .ok x ∧
      (∀ k, x k = ∑ i ∈ range nd, c i * v i k) ∧
      (∑ i ∈ range nd, c i) = 1 ∧
      ∀ c' : Nat → ℝ, (∑ i ∈ range nd, c' i) = 1 →
        (∑ k ∈ range len, (∑ i ∈ range nd, c i * e i k) ^ 2) ≤
          ∑ k ∈ range len, (∑ i ∈ range nd, c' i * e i k) ^ 2 := by
  refine ⟨_, by rw [diisExtrapolate, if_neg (by omega)], fun k => rfl, ?_⟩
  obtain ⟨y, hy⟩ := diis_consistent nd len h0 e
  have hres : diisResidual nd (diisMatrix nd len e) c = 0 := by
    apply le_antisymm (hy ▸ hls y)
    exact Finset.sum_nonneg fun _ _ => sq_nonneg _
  rw [diisResidual, Finset.sum_eq_zero_iff_of_nonneg (fun _ _ => sq_nonneg _)] at hres
  obtain ⟨r1, r2⟩ := diis_rows nd len e c
  have rows : ∀ r, r < nd → (∑ s ∈ range nd, dotN len (e r) (e s) * c s) = -c nd := by
    intro r hr
    have := pow_eq_zero_iff (two_ne_zero) |>.mp (hres r (mem_range.mpr (by omega)))
    rw [r1 r hr] at this; linarith
  have sum1 : (∑ s ∈ range nd, c s) = 1 := by
    have := pow_eq_zero_iff (two_ne_zero) |>.mp (hres nd (mem_range.mpr (by omega)))
    rw [r2] at this; linarith
  refine ⟨sum1, ?_⟩
  intro c' hc'
  have nrm : ∀ a : Nat → ℝ, (∑ k ∈ range len, (∑ i ∈ range nd, a i * e i k) ^ 2) =
      dotN len (fun k => ∑ i ∈ range nd, a i * e i k) (fun k => ∑ i ∈ range nd, a i * e i k) := by
    intro a; rw [dotN]; exact Finset.sum_congr rfl fun k _ => sq _
  -- the difference of the two combinations is orthogonal to the optimum
  have cross : dotN len (fun k => ∑ i ∈ range nd, (c' i - c i) * e i k)
      (fun k => ∑ i ∈ range nd, c i * e i k) = 0 := by
    rw [dot_combine nd len e (fun i => c' i - c i) c]
    have : ∑ i ∈ range nd, (c' i - c i) * ∑ j ∈ range nd, dotN len (e i) (e j) * c j =
        ∑ i ∈ range nd, (c' i - c i) * (-c nd) :=
      Finset.sum_congr rfl fun i hi => by rw [rows i (mem_range.mp hi)]
    rw [this, ← Finset.sum_mul, Finset.sum_sub_distrib, hc', sum1]; ring
  have expand : (∑ k ∈ range len, (∑ i ∈ range nd, c' i * e i k) ^ 2) =
      (∑ k ∈ range len, (∑ i ∈ range nd, c i * e i k) ^ 2) +
      (∑ k ∈ range len, (∑ i ∈ range nd, (c' i - c i) * e i k) ^ 2) +
      2 * dotN len (fun k => ∑ i ∈ range nd, (c' i - c i) * e i k)
        (fun k => ∑ i ∈ range nd, c i * e i k) := by
    rw [dotN, Finset.mul_sum, ← Finset.sum_add_distrib, ← Finset.sum_add_distrib]
    apply Finset.sum_congr rfl
    intro k _
    simp only [sub_mul, Finset.sum_sub_distrib]
    ring
  rw [expand, cross]
  have : 0 ≤ ∑ k ∈ range len, (∑ i ∈ range nd, (c' i - c i) * e i k) ^ 2 :=
    Finset.sum_nonneg fun _ _ => sq_nonneg _
  linarith

/-- a least-squares solution exists for every history, so the hypothesis can be met -/
example (nd len : Nat) (h0 : 0 < nd) (e : Nat → Nat → ℝ) :
    ∃ c, ∀ y, diisResidual nd (diisMatrix nd len e) c ≤ diisResidual nd (diisMatrix nd len e) y := by
  obtain ⟨c, hc⟩ := diis_consistent nd len h0 e
  exact ⟨c, fun y => hc ▸ Finset.sum_nonneg fun _ _ => sq_nonneg _⟩

end Macis
