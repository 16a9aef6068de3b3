import Verif.Props.SpBlas
import Verif.Props.SpConv
import Verif.Props.Davidson
import Verif.Props.Dist
import Verif.Lemmas.MpiIter
/-! Exact forms of C52, C55, C59 and C73: when the statement holds, and what the code computes when it
does not. -/
namespace Macis
open Spec

/-- C52 for every distribution a constructor accepts: the copy equals the original exactly when the tiles are the
default ones. -/
theorem C52_copy_iff (R : Type) (P rank M N : Nat) (tiles : List (Nat × Nat)) (A : DistCsr R) (d o : Option (Csr R))
    (h : DistCsr.createTiled P rank M N tiles = some A) :
    ({ A with diag := d, offdiag := o } : DistCsr R).copy = { A with diag := d, offdiag := o } ↔
      tiles = defaultExtents M P := by
  unfold DistCsr.createTiled at h
  obtain ⟨e, he, rfl⟩ := Option.map_eq_some_iff.1 h
  have : e = tiles := by
    unfold customExtents at he
    split_ifs at he
    exact (Option.some.inj he).symm
  subst this
  simp [DistCsr.copy, DistCsr.create, eq_comm]

section guess
variable {K : Type} [LinearOrder K]

/-- C73 exactly: some rank sets a nonzero entry if and only if there are at most as many ranks as rows and the first
smallest diagonal entry is not among the last `n % W` rows. -/
theorem C73_set_iff [Zero K] [One K] [NeZero (1 : K)] (D : List K) (W m : Nat) (hW : 0 < W) (hD : D ≠ []) (hm : FirstMin D m) :
    (∃ r < W, ∃ X, pDiagonalGuess (defaultExtents D.length W) D r = some X ∧ X ≠ List.replicate X.length 0) ↔
      W ≤ D.length ∧ m < W * (D.length / W) := by
  have hidx : minIdx D = m := by
    obtain ⟨v, hv, hle, hlt⟩ := minIdx_spec D hD
    obtain ⟨w, hw, hle', hlt'⟩ := hm
    rcases Nat.lt_trichotomy (minIdx D) m with hc | hc | hc
    · have := hlt' _ hc v hv
      exact absurd (hle w (List.mem_of_getElem? hw)) (not_le.2 this)
    · exact hc
    · have := hlt m hc w hw
      exact absurd (hle' v (List.mem_of_getElem? hv)) (not_le.2 this)
  have hmn := firstMin_lt hm
  have hdm : W * (D.length / W) + D.length % W = D.length := Nat.div_add_mod _ _
  have e0 : ((if 0 + 1 = W then D.length else (0 + 1) * (D.length / W)) - 0 * (D.length / W)) = D.length / W := by
    split
    · rename_i h; rw [← h]; simp
    · simp
  have hq : ∀ r < W, pDiagonalGuess (defaultExtents D.length W) D r = _ := fun r hr =>
    pDiagonalGuess_eq D (extents_getD D.length W 0 hW) (extents_getD D.length W r hr)
  constructor
  · rintro ⟨r, hr, X, hX, hne⟩
    rw [hq r hr, e0, hidx] at hX
    have key : D.length / W ≠ 0 → r = m / (D.length / W) → W ≤ D.length ∧ m < W * (D.length / W) := by
      intro hl h2
      have hpos : 0 < D.length / W := by omega
      refine ⟨?_, ?_⟩
      · by_contra hc
        exact hl (Nat.div_eq_of_lt (by omega))
      · exact (Nat.div_lt_iff_lt_mul hpos).1 (h2 ▸ hr)
    by_cases h1 : D.length / W = 0
    · rw [if_pos h1] at hX; cases hX
    rw [if_neg h1] at hX
    by_cases h2 : r = m / (D.length / W)
    · exact key h1 h2
    · rw [if_neg h2] at hX
      cases hX
      simp at hne
  · rintro ⟨hWn, hlt⟩
    have hpos : 0 < D.length / W := Nat.div_pos hWn hW
    have hr : m / (D.length / W) < W := (Nat.div_lt_iff_lt_mul hpos).2 hlt
    have h1 : m / (D.length / W) * (D.length / W) ≤ m := Nat.div_mul_le_self _ _
    have h2 : m < (m / (D.length / W) + 1) * (D.length / W) := by
      rw [Nat.add_mul, Nat.one_mul]
      exact Nat.lt_div_mul_add hpos
    have h3 : m < (if m / (D.length / W) + 1 = W then D.length else (m / (D.length / W) + 1) * (D.length / W)) := by
      split <;> omega
    have hX := hq _ hr
    rw [e0, hidx, if_neg (by omega), if_pos rfl, if_pos ⟨h1, by omega⟩] at hX
    refine ⟨m / (D.length / W), hr, _, hX, ?_⟩
    · intro h
      have := congrArg (fun l => l.getD (m - m / (D.length / W) * (D.length / W)) 0) h
      simp only [List.length_set, List.length_replicate, List.getD_eq_getElem?_getD] at this
      rw [List.getElem?_set_self (by simp; omega), List.getElem?_replicate, if_pos (by omega)] at this
      simp at this

/-- five rows on two ranks: set when the smallest is in row 3, not when it is in row 4 -/
example : FirstMin ([4, 4, 4, 1, 4] : List Int) 3 ∧ 3 < 2 * (5 / 2) ∧ FirstMin ([4, 4, 4, 4, 1] : List Int) 4 ∧
    ¬ 4 < 2 * (5 / 2) := by
  refine ⟨⟨1, rfl, by decide, ?_⟩, by decide, ⟨1, rfl, by decide, ?_⟩, by decide⟩
  · intro j hj w hw
    interval_cases j <;> simp at hw <;> omega
  · intro j hj w hw
    interval_cases j <;> simp at hw <;> omega

end guess

/-- C74 exactly: a rank keeps its piece of the passed vector if and only if some entry of the piece exceeds one over
its length in magnitude; only a rank without rows has no answer.  Hence the ranks agree if and only if all of them
or none of them hold such an entry. -/
theorem C74_choice {K : Type} [Field K] [LinearOrder K] (C : List K) :
    (usesPassedVector C = some true ↔ ∃ x ∈ C, 1 / (C.length : K) < |x|) ∧
    (usesPassedVector C = none ↔ C = []) := by
  have hmax : ∀ (cs : List K) (c : K), let m := cs.foldl (fun m x => if |m| < |x| then x else m) c
      (m = c ∨ m ∈ cs) ∧ ∀ x, (x = c ∨ x ∈ cs) → |x| ≤ |m| := by
    intro cs
    induction cs with
    | nil => intro c; exact ⟨.inl rfl, fun x hx => by rcases hx with rfl | hx <;> simp_all⟩
    | cons a cs ih =>
      intro c
      rw [List.foldl_cons]
      dsimp only
      split_ifs with hlt
      · obtain ⟨h1, h2⟩ := ih a
        refine ⟨.inr ?_, ?_⟩
        · rcases h1 with h | h
          · rw [h]; exact List.mem_cons_self
          · exact List.mem_cons_of_mem _ h
        · rintro x (rfl | hx)
          · exact hlt.le.trans (h2 a (.inl rfl))
          · exact h2 x (by simpa using hx)
      · obtain ⟨h1, h2⟩ := ih c
        refine ⟨?_, ?_⟩
        · rcases h1 with h | h
          · exact .inl h
          · exact .inr (List.mem_cons_of_mem _ h)
        · rintro x (rfl | hx)
          · exact h2 x (.inl rfl)
          · rcases List.mem_cons.1 hx with rfl | hx
            · exact (not_lt.1 hlt).trans (h2 c (.inl rfl))
            · exact h2 x (.inr hx)
  cases C with
  | nil => simp [usesPassedVector]
  | cons c cs =>
    obtain ⟨h1, h2⟩ := hmax cs c
    refine ⟨?_, by simp [usesPassedVector]⟩
    unfold usesPassedVector
    simp only [Option.some.injEq, decide_eq_true_eq]
    constructor
    · intro h
      exact ⟨_, by simpa using h1, h⟩
    · rintro ⟨x, hx, h⟩
      exact h.trans_le (h2 x (by simpa using hx))

/-- C55 for every index base `b`: row `i` of the product is row `i - b` of the matrix times the vector read `b` places
later (nothing for `i < b`), provided the leading dimension leaves room for the `b` rows written beyond the last. -/
theorem C55_any_base {R : Type} [CommSemiring R] (K : Nat) (alpha beta : R) (A : Coo R)
    (h : CooWF A) (V AV : Nat → R) (LDV LDAV : Nat) (hLD : A.m + A.indexing ≤ LDAV) :
    ∀ k < K, ∀ i < A.m, gespmbvCoo K alpha A V LDV beta AV LDAV (i + k * LDAV)
      = alpha * (∑ j ∈ Finset.range A.n,
          (if A.indexing ≤ i then cooEntry A (i - A.indexing) j else 0) * V (j + A.indexing + k * LDV))
        + beta * AV (i + k * LDAV) := by
  intro k hk i hi
  unfold gespmbvCoo
  have hscale := (foldl_store (fun p : Nat × Nat => p.2 + p.1 * LDAV) (fun _ old => old * beta)
    (iterSpace K A.m) (iterSpace_nodup _ _) (by
      intro x hx y hy e
      obtain ⟨h1, h2⟩ := addr_inj hLD (by have := (mem_iterSpace.1 hx).2; omega)
        (by have := (mem_iterSpace.1 hy).2; omega) e
      exact Prod.ext h1 h2) AV).1 (k, i) (mem_iterSpace.2 ⟨hk, hi⟩)
  have hacc := foldl_accum (fun p : Nat × Nat => A.rowind.getD p.2 0 + p.1 * LDAV)
    (fun p => alpha * A.nzval.getD p.2 0 * V (A.colind.getD p.2 0 + p.1 * LDV)) (iterSpace K A.nnz)
    ((iterSpace K A.m).foldl (fun m x => store m (x.2 + x.1 * LDAV) (m (x.2 + x.1 * LDAV) * beta)) AV)
    (i + k * LDAV)
  dsimp only at hscale hacc ⊢
  rw [hscale, sum_iterSpace] at hacc
  refine Eq.trans hacc ?_
  rw [add_comm, mul_comm (AV _)]
  congr 1
  have hrange : ∀ z < A.nzval.length, A.indexing ≤ A.rowind.getD z 0 ∧ A.rowind.getD z 0 < A.indexing + A.m ∧
      A.indexing ≤ A.colind.getD z 0 ∧ A.colind.getD z 0 < A.indexing + A.n := by
    intro z hz
    have hc : A.colind.getD z 0 ∈ A.colind := by
      rw [List.getD_eq_getElem _ _ (by rw [h.colind_length]; exact hz)]; exact List.getElem_mem _
    have hr : A.rowind.getD z 0 ∈ A.rowind := by
      rw [List.getD_eq_getElem _ _ (by rw [h.rowind_length]; exact hz)]; exact List.getElem_mem _
    exact ⟨(h.row_range _ hr).1, (h.row_range _ hr).2, (h.col_range _ hc).1, (h.col_range _ hc).2⟩
  rw [Finset.sum_eq_single k]
  · by_cases hb : A.indexing ≤ i
    · simp only [if_pos hb]
      rw [Finset.mul_sum]
      simp only [cooEntry, Finset.sum_mul, Finset.mul_sum]
      rw [Finset.sum_comm, h.nnz_eq]
      apply Finset.sum_congr rfl
      intro z hz
      rw [Finset.mem_range] at hz
      obtain ⟨r1, r2, r3, r4⟩ := hrange z hz
      by_cases hz' : A.rowind.getD z 0 = i
      · rw [if_pos (by rw [hz']), Finset.sum_eq_single (A.colind.getD z 0 - A.indexing)]
        · rw [if_pos ⟨by omega, by omega⟩, mul_assoc, Nat.sub_add_cancel r3]
        · intro b _ hb; rw [if_neg (fun hh => hb (by omega)), zero_mul, mul_zero]
        · intro hh; exact absurd (Finset.mem_range.2 (by omega)) hh
      · rw [if_neg (by omega)]
        symm
        apply Finset.sum_eq_zero
        intro b _
        rw [if_neg (fun hh => hz' (by omega)), zero_mul, mul_zero]
    · simp only [if_neg hb, zero_mul, Finset.sum_const_zero, mul_zero]
      apply Finset.sum_eq_zero
      intro z hz
      rw [Finset.mem_range, h.nnz_eq] at hz
      have := hrange z hz
      rw [if_neg (by omega)]
  · intro k' hk' hne
    apply Finset.sum_eq_zero
    intro z hz
    rw [Finset.mem_range, h.nnz_eq] at hz
    have := hrange z hz
    rw [if_neg]
    intro e
    exact hne (addr_inj hLD (i := A.rowind.getD z 0) (by omega) (by omega) e).1
  · intro hh; simp at hh; omega

/-- C59 for every index base `b`: element `(i,j)` of the matrix is written at `(i + b, j + b)`, provided the leading
dimension leaves room for that. -/
theorem C59_any_base {R : Type} [AddCommMonoid R] (A : Coo R) (h : CooWF A)
    (hd : CooNodup A) (LD : Nat) (hLD : A.m + A.indexing ≤ LD) (sched : List Nat)
    (hsch : sched.Perm (List.range A.nnz)) :
    ∃ D', denseOfCoo sched A LD (fun _ => 0) = some D' ∧
      ∀ i < A.m + A.indexing, ∀ j < A.n + A.indexing, D' (i + j * LD) =
        if A.indexing ≤ i ∧ A.indexing ≤ j then cooEntry A (i - A.indexing) (j - A.indexing) else 0 := by
  set b := A.indexing with hb
  let B : Coo R := { A with indexing := 0, m := A.m + b, n := A.n + b }
  have hB : CooWF B := ⟨h.nnz_eq, h.rowind_length, h.colind_length,
    fun c hc => ⟨Nat.zero_le _, by have := h.row_range c hc; show c < 0 + (A.m + b); omega⟩,
    fun c hc => ⟨Nat.zero_le _, by have := h.col_range c hc; show c < 0 + (A.n + b); omega⟩⟩
  obtain ⟨D', h1, h2⟩ := C59_coo_to_dense_partial B hB rfl hd LD hLD sched hsch
  refine ⟨D', ?_, ?_⟩
  · unfold denseOfCoo at h1 ⊢
    rw [if_neg (by omega)]
    have : ¬ B.m > LD := by show ¬ A.m + b > LD; omega
    rw [if_neg this] at h1
    exact h1
  · intro i hi j hj
    rw [h2 i hi j hj]
    unfold cooEntry
    split_ifs with hij
    · apply Finset.sum_congr rfl
      intro z _
      show (if A.rowind.getD z 0 = i + 0 ∧ A.colind.getD z 0 = j + 0 then A.nzval.getD z 0 else 0) = _
      rw [Nat.add_zero, Nat.add_zero, ← hb, Nat.sub_add_cancel hij.1, Nat.sub_add_cancel hij.2]
    · apply Finset.sum_eq_zero
      intro z hz
      have hz' : z < A.nzval.length := Finset.mem_range.1 hz
      rw [if_neg]
      rintro ⟨e1, e2⟩
      apply hij
      have e1 : A.rowind.getD z 0 = i + 0 := e1
      have e2 : A.colind.getD z 0 = j + 0 := e2
      have hc : A.colind.getD z 0 ∈ A.colind := by
        rw [List.getD_eq_getElem _ _ (by rw [h.colind_length]; exact hz')]; exact List.getElem_mem _
      have hr : A.rowind.getD z 0 ∈ A.rowind := by
        rw [List.getD_eq_getElem _ _ (by rw [h.rowind_length]; exact hz')]; exact List.getElem_mem _
      have := (h.row_range _ hr).1
      have := (h.col_range _ hc).1
      omega

/-- a one-based 2x2 matrix with leading dimension 3 meets the hypotheses of both -/
example :
    let A : Coo Int := { m := 2, n := 2, nnz := 2, indexing := 1, rowind := [1, 2], colind := [1, 2], nzval := [5, 7] }
    CooWF A ∧ CooNodup A ∧ A.m + A.indexing ≤ 3 ∧ cooEntry A 0 0 = 5 ∧
      gespmbvCoo 1 1 A (fun i => i) 3 0 (fun _ => 0) 3 1 = 5 * 1 := by
  exact ⟨⟨rfl, rfl, rfl, by decide, by decide⟩, by unfold CooNodup; decide, by decide, by decide, by decide⟩

end Macis
