import Verif.Props.AsciDrive
import Verif.Props.Constraint
import Verif.Props.SpIO
/-! Exact forms of C60, C64, C67, C69 and C97: what the code does in every case, including the ones where the
statement fails. -/
namespace Macis
open Spec

section grow
variable {N : Nat} {R H : Type} [AddCommGroup R] [LinearOrder R]

/-- C67 in general: with a growth factor of one, `ntdets_min` below `ntdets_max` and a start below
`ntdets_max`, the growth on one rank never returns: in every number of rounds it has either thrown or is still
running.  For every Hamiltonian, every contribution list, every diagonaliser and every behaviour of the library
sorts. -/
theorem C67_never_returns [IsOrderedAddMonoid R] {env : AsciEnv N R H}
    {srt part : List (Contrib N R) → List (Contrib N R)}
    {nth : Nat → List (Contrib N R) → List (Contrib N R)}
    {contribs : H → List (BitVec N) → R → List R → List (Contrib N R)}
    (henv : env.search = serialSearch srt part nth contribs)
    (hs : SortsBy (fun x y => bitsetLess x.state y.state) srt) (hp : Rearranges part)
    (hn : NthElement (fun p : Contrib N R => |p.rv|) nth) (hc : SortsCoeffs env.srtIdx)
    (hd : DiagContract env.diag) (s : AsciSettings R) (hgf : s.growFactor = 1)
    (hmin : s.ntdetsMin < s.ntdetsMax) (h64 : s.ntdetsMax < 2 ^ 64)
    (h : H) (E0 : R) (wfn : List (BitVec N)) (X : List R)
    (hX : X.length = wfn.length) (hnd : wfn.Nodup) (hlt : wfn.length < s.ntdetsMax) (fuel : Nat) :
    asciGrow env s fuel h E0 wfn X = .throw ∨ asciGrow env s fuel h E0 wfn X = .timeout := by
  have hse : SearchContract env.search := henv ▸ serialSearch_contract hs hp hn contribs
  have key : ∀ fuel (st : GrowState N R H), st.X.length = st.wfn.length → st.wfn.Nodup →
      st.wfn.length < s.ntdetsMax →
      growLoop env s fuel st = .throw ∨ growLoop env s fuel st = .timeout := by
    intro fuel
    induction fuel with
    | zero =>
      intro st _ _ h3
      right
      unfold growLoop
      rw [if_pos h3]
    | succ fuel ih =>
      intro st h1 h2 h3
      unfold growLoop
      rw [if_pos h3]
      dsimp only
      rcases growBody_orderly hc hse hd s hgf.ge (by rw [hgf]; omega) st h1 h2 h3 with
        e | ⟨st1, e1, e2, e3, e4, e5⟩
      · left; rw [e]; rfl
      · rw [e1]
        dsimp only [Run.bind]
        apply ih st1 e2 e3
        rw [e4, ndetsNew, hgf, Nat.mul_one, Nat.mod_eq_of_lt (by omega)]
        omega
  exact key fuel _ hX hnd hlt

/-- C69 with orbital rotations, exactly: after a growth that made at least one round, the returned energy is the one
the diagonaliser gives for the returned determinants under the Hamiltonian *before* the last round's rotation; the
returned coefficients are those under the returned Hamiltonian, which is the rotated one exactly when rotations are
on and the wave function has reached `rot_size_start`. -/
theorem C69_rotated (env : AsciEnv N R H) (s : AsciSettings R)
    (fuel : Nat) (h : H) (E0 : R) (wfn : List (BitVec N)) (X : List R) (st : GrowState N R H)
    (hok : asciGrow env s fuel h E0 wfn X = .ok st) (hlt : wfn.length < s.ntdetsMax) :
    ∃ h' X', env.diag h' st.wfn = some (st.E0, X') ∧
      if s.growWithRot = true ∧ s.rotSizeStart ≤ st.wfn.length then
        st.h = env.rotate h' st.wfn X' ∧ ∃ E', env.diag st.h st.wfn = some (E', st.X)
      else st.h = h' ∧ st.X = X' := by
  unfold asciGrow at hok
  have key : ∀ fuel (st0 : GrowState N R H), growLoop env s fuel st0 = .ok st →
      (st0.wfn.length < s.ntdetsMax ∨ ∃ h' X', env.diag h' st0.wfn = some (st0.E0, X') ∧
        if s.growWithRot = true ∧ s.rotSizeStart ≤ st0.wfn.length then
          st0.h = env.rotate h' st0.wfn X' ∧ ∃ E', env.diag st0.h st0.wfn = some (E', st0.X)
        else st0.h = h' ∧ st0.X = X') →
      ∃ h' X', env.diag h' st.wfn = some (st.E0, X') ∧
        if s.growWithRot = true ∧ s.rotSizeStart ≤ st.wfn.length then
          st.h = env.rotate h' st.wfn X' ∧ ∃ E', env.diag st.h st.wfn = some (E', st.X)
        else st.h = h' ∧ st.X = X' := by
    intro fuel
    induction fuel with
    | zero =>
      intro st0 hok hd
      unfold growLoop at hok
      split_ifs at hok with hc
      cases hok
      exact hd.resolve_left hc
    | succ fuel ih =>
      intro st0 hok hd
      unfold growLoop at hok
      split_ifs at hok with hc
      · dsimp only at hok
        have hb : ∀ st1, growBody env s st0 = .ok st1 →
            ∃ h' X', env.diag h' st1.wfn = some (st1.E0, X') ∧
              if s.growWithRot = true ∧ s.rotSizeStart ≤ st1.wfn.length then
                st1.h = env.rotate h' st1.wfn X' ∧ ∃ E', env.diag st1.h st1.wfn = some (E', st1.X)
              else st1.h = h' ∧ st1.X = X' := by
          intro st1 hst1
          unfold growBody asciIter at hst1
          dsimp only at hst1
          split at hst1
          · cases hst1
          · rename_i w' X' _
            split at hst1
            · cases hst1
            · rename_i w2 _
              cases hdg : env.diag st0.h w2 with
              | none => rw [hdg] at hst1; cases hst1
              | some r =>
                rw [hdg] at hst1
                dsimp only [Run.bind] at hst1
                split_ifs at hst1 with c1 c2
                · cases hdg2 : env.diag (env.rotate st0.h w2 r.2) w2 with
                  | none => rw [hdg2] at hst1; cases hst1
                  | some r2 =>
                    rw [hdg2] at hst1
                    cases hst1
                    refine ⟨st0.h, r.2, hdg, ?_⟩
                    rw [if_pos c2]
                    exact ⟨rfl, r2.1, hdg2⟩
                · cases hst1
                  refine ⟨st0.h, r.2, hdg, ?_⟩
                  rw [if_neg c2]
                  exact ⟨rfl, rfl⟩
        cases hb' : growBody env s st0 with
        | ok st1 => rw [hb'] at hok; exact ih st1 hok (.inr (hb st1 hb'))
        | throw => rw [hb'] at hok; cases hok
        | ub => rw [hb'] at hok; cases hok
        | timeout => rw [hb'] at hok; cases hok
      · cases hok
        exact hd.resolve_left hc
  exact key fuel _ hok (.inl hlt)

/-- C67_never_returns applies to the example of C67_factor_one_refuted (see the example after C31 for the other
hypotheses), C69_rotated to that of C69_rotation_refuted. -/
example : exSettings1.growFactor = 1 ∧ exSettings1.ntdetsMin < exSettings1.ntdetsMax ∧
    [11#4, 10#4].Nodup ∧ [11#4, 10#4].length < exSettings1.ntdetsMax := by decide

end grow

/-- C64 exactly: for every previous content, `generate_constraint_singles` leaves the container as it was when there
is no admissible single excitation and otherwise holds the excitations alone. -/
theorem C64_singles_exact {N : Nat} (det C O B : BitVec N) (old : List (BitVec N)) :
    generateConstraintSingles det C O B old =
      if generateConstraintSingles det C O B [] = [] then old else generateConstraintSingles det C O B [] := by
  by_cases h : generateConstraintSingles det C O B [] = []
  · rw [if_pos h]
    unfold generateConstraintSingles at h ⊢
    dsimp only at h ⊢
    split_ifs at h ⊢ with hc
    · rfl
    · exfalso
      rw [List.flatMap_eq_nil_iff] at h
      push Not at hc
      obtain ⟨h1, h2⟩ := hc
      cases hb : bitsToIndices (constraintSingleEx det C O B).1 with
      | nil => exact h1 (by rw [← length_indices, hb]; rfl)
      | cons i l =>
        have := h i (by rw [hb]; simp)
        rw [List.map_eq_nil_iff] at this
        exact h2 (by rw [← length_indices, this]; rfl)
  · rw [if_neg h]
    exact C64_singles_ignore_old_partial det C O B old [] h

section triangle
variable {R : Type}

/-- C60, the exception: `expand_from_triangle` throws exactly for triangles that are not diagonal and store fewer
than half as many entries as there are columns. -/
theorem C60_throws_iff [Zero R] (A : Coo R) (h : CooWF A) :
    A.expandFromTriangle = none ↔ ¬ (UpperStored A ↔ LowerStored A) ∧ 2 * A.nzval.length < A.n := by
  constructor
  · intro hx
    constructor
    · intro hc
      rw [C60_expand_unchanged A h hc] at hx
      cases hx
    rw [← h.nnz_eq]
    unfold Coo.expandFromTriangle at hx
    dsimp only at hx
    split_ifs at hx with h1 h2
    exact h2
  · rintro ⟨hc, hn⟩
    unfold Coo.expandFromTriangle
    have e1 : ((List.range A.nnz).all fun i => decide (A.rowind.getD i 0 ≤ A.colind.getD i 0)) = true
        ↔ UpperStored A := by
      simp only [List.all_eq_true, List.mem_range, decide_eq_true_eq, h.nnz_eq, UpperStored]
    have e2 : ((List.range A.nnz).all fun i => decide (A.rowind.getD i 0 ≥ A.colind.getD i 0)) = true
        ↔ LowerStored A := by
      simp only [List.all_eq_true, List.mem_range, decide_eq_true_eq, h.nnz_eq, LowerStored, ge_iff_le]
    dsimp only
    rw [if_neg, if_pos (by rw [h.nnz_eq]; exact hn)]
    rw [← e1, ← e2] at hc
    revert hc
    cases ((List.range A.nnz).all fun i => decide (A.rowind.getD i 0 ≤ A.colind.getD i 0)) <;>
      cases ((List.range A.nnz).all fun i => decide (A.rowind.getD i 0 ≥ A.colind.getD i 0)) <;> simp

theorem determineIndexing_self (A : Coo R) (h : CooWF A)
    (hb : A.indexing = 1 ∨ A.indexing = 0 ∧ (0 ∈ A.rowind ∨ 0 ∈ A.colind)) :
    Coo.determineIndexing { A with indexing := 1 } = A := by
  rw [Coo.determineIndexing]
  have : (if (A.rowind.any (· == 0) || A.colind.any (· == 0)) = true then 0 else 1) = A.indexing := by
    simp only [Bool.or_eq_true, List.any_eq_true, beq_iff_eq]
    rcases hb with hb | ⟨hb, h0⟩
    · rw [if_neg, hb]
      rintro (⟨c, hc, rfl⟩ | ⟨c, hc, rfl⟩)
      · have := h.row_range 0 hc; omega
      · have := h.col_range 0 hc; omega
    · rw [if_pos, hb]
      rcases h0 with h0 | h0
      · exact .inl ⟨0, h0, rfl⟩
      · exact .inr ⟨0, h0, rfl⟩
  rw [this]

/-- C97 for every square triangular matrix that is not diagonal and stores its whole diagonal: what is read back is
the symmetric matrix with that triangle, not the matrix written. -/
theorem C97_triangle_mirrored [AddCommMonoid R] (A : Coo R) (h : CooWF A) (hsq : A.m = A.n)
    (hb : A.indexing = 1 ∨ A.indexing = 0 ∧ (0 ∈ A.rowind ∨ 0 ∈ A.colind))
    (ht : (UpperStored A ∧ ¬ LowerStored A) ∨ (LowerStored A ∧ ¬ UpperStored A))
    (hdiag : diagStored A = A.n) (srt : Coo R → List Nat)
    (hsrt : ∀ B : Coo R, (srt B).Perm (List.range B.nnz)) :
    ∃ B, readTripletCoo srt (writeTripletCoo A) = .ok B ∧ CooWF B ∧ B.m = A.m ∧ B.n = A.n ∧
      B.indexing = A.indexing ∧
      ∀ i j, cooEntry B i j = cooEntry A i j + if i = j then 0 else cooEntry A j i := by
  have hle : diagStored A ≤ A.nzval.length := by
    unfold diagStored
    exact (List.countP_le_length).trans (by simp)
  have hn2 : A.n ≤ 2 * A.nnz := by rw [h.nnz_eq]; omega
  obtain ⟨B, b1, b2, b3, b4, b5, b6, b7, b8⟩ := C60_expand_partial A h ht hn2
  have hr : (∀ c ∈ B.rowind, c ∈ A.rowind ∨ c ∈ A.colind) ∧ (∀ c ∈ B.colind, c ∈ A.rowind ∨ c ∈ A.colind) := by
    unfold Coo.expandFromTriangle at b1
    dsimp only at b1
    split_ifs at b1 with h1 h2
    · cases b1; exact ⟨fun c hc => .inl hc, fun c hc => .inr hc⟩
    · cases b1
      constructor
      · intro c hc
        rcases List.mem_append.1 hc with hc | hc
        · exact .inl hc
        · obtain ⟨i, hi, rfl⟩ := List.mem_map.1 hc
          have hi' := List.mem_range.1 (List.mem_filter.1 hi).1
          right
          rw [List.getD_eq_getElem _ _ (by rw [h.colind_length, ← h.nnz_eq]; exact hi')]
          exact List.getElem_mem _
      · intro c hc
        rcases List.mem_append.1 hc with hc | hc
        · exact .inr hc
        · obtain ⟨i, hi, rfl⟩ := List.mem_map.1 hc
          have hi' := List.mem_range.1 (List.mem_filter.1 hi).1
          left
          rw [List.getD_eq_getElem _ _ (by rw [h.rowind_length, ← h.nnz_eq]; exact hi')]
          exact List.getElem_mem _
  have hBwf : CooWF B := by
    refine ⟨b8.2 hdiag, b5, b6, ?_, ?_⟩
    · intro c hc
      rw [b4, b2]
      rcases hr.1 c hc with hc | hc
      · exact h.row_range c hc
      · have := h.col_range c hc; omega
    · intro c hc
      rw [b4, b3]
      rcases hr.2 c hc with hc | hc
      · have := h.row_range c hc; omega
      · exact h.col_range c hc
  obtain ⟨w1, w2⟩ := C57_sort_same_matrix B hBwf (srt B) (hsrt B)
  refine ⟨B.gather (srt B), ?_, w1, b2, b3, b4, fun i j => (w2 i j).trans (b7 i j)⟩
  rw [readTripletCoo, writeTripletCoo]
  simp only
  have e' : Coo.determineIndexing
      { m := A.m, n := A.n, nnz := A.nnz, indexing := 1, rowind := A.rowind, colind := A.colind,
        nzval := A.nzval } = A := determineIndexing_self A h hb
  rw [e', b1]

/-- C97: very sparse triangles cannot be read back at all. -/
theorem C97_sparse_triangle_throws [Zero R] (A : Coo R) (h : CooWF A)
    (hb : A.indexing = 1 ∨ A.indexing = 0 ∧ (0 ∈ A.rowind ∨ 0 ∈ A.colind))
    (hc : ¬ (UpperStored A ↔ LowerStored A)) (hn : 2 * A.nzval.length < A.n) (srt : Coo R → List Nat) :
    readTripletCoo srt (writeTripletCoo A) = .throw := by
  rw [readTripletCoo, writeTripletCoo]
  simp only
  have e' : Coo.determineIndexing
      { m := A.m, n := A.n, nnz := A.nnz, indexing := 1, rowind := A.rowind, colind := A.colind,
        nzval := A.nzval } = A := determineIndexing_self A h hb
  rw [e', (C60_throws_iff A h).2 ⟨hc, hn⟩]

/-- a lower triangle with its whole diagonal: the hypotheses of C97_triangle_mirrored -/
def exTri : Coo Int :=
  { m := 3, n := 3, nnz := 4, indexing := 1, rowind := [1, 2, 3, 3], colind := [1, 2, 1, 3], nzval := [4, 5, 6, 7] }
example : CooWF exTri ∧ LowerStored exTri ∧ ¬ UpperStored exTri ∧ diagStored exTri = exTri.n := by
  refine ⟨⟨rfl, rfl, rfl, by decide, by decide⟩, by unfold LowerStored; decide +kernel, by unfold UpperStored; decide +kernel,
    by decide +kernel⟩
/-- a triangle that cannot be read back: one entry in a 4x4 matrix -/
def exSparseTri : Coo Int :=
  { m := 4, n := 4, nnz := 1, indexing := 1, rowind := [3], colind := [1], nzval := [6] }
example : CooWF exSparseTri ∧ ¬ (UpperStored exSparseTri ↔ LowerStored exSparseTri) ∧
    2 * exSparseTri.nzval.length < exSparseTri.n := by
  refine ⟨⟨rfl, rfl, rfl, by decide, by decide⟩, by unfold UpperStored LowerStored; decide +kernel, by decide⟩

end triangle

end Macis
