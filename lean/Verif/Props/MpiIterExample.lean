import Verif.Props.MpiIter
import Verif.Lemmas.DriverExampleAsci
import Verif.Props.AsciDist
import Verif.Props.MpiDav
/-! A calculation that meets the conditions of C163: three electrons in four orbitals, four determinants, on two ranks
(where the iteration succeeds) and on three (where the start vector is lost). -/
namespace Macis
open Spec Spec.Mpi Mpi

/-- the one-electron integrals: 2 or 1, symmetric -/
noncomputable def iterT : Nat → ℝ := fun n => if n % 3 = 2 then 2 else 1

noncomputable def iterH : GenState := ⟨iterT, fun _ => 0⟩

def iterDets : List (BitVec (2 * 4)) := [7, 11, 13, 14]

noncomputable def iterPar (P : Nat) (eig : Nat → (Nat → Nat → ℝ) → ℝ × (Nat → ℝ)) : AsciPar 4 where
  P := P
  norb := 4
  asci := ⟨4, 4, 4, 8, 2, 1 / 1000, false, 4⟩
  contrib := ⟨1 / 2, 0, 4, false, 0⟩
  ci := ⟨100, 2, 0⟩
  srtIdx _ := id
  srt := exSort
  part := id
  draw _ := 0
  partS _ _ := id
  nthS _ _ := List.insertionSort fun x y => y ≤ x
  avg _ := 0
  partC := id
  sortC := id
  eig := eig
  rotate h _ _ := h

theorem iterPar_behaves (P : Nat) {eig : Nat → (Nat → Nat → ℝ) → ℝ × (Nat → ℝ)} (he : EigLocal eig) : Behaves (iterPar P eig) where
  srt := exSort_sorts
  part := fun l => List.Perm.refl l
  partS := fun _ _ l => List.Perm.refl l
  nthS := fun _ => exNth_spec (id : ℝ → ℝ) _ rfl
  eig := he
  rotT := fun _ _ _ _ _ => rfl
  rotV := fun _ _ _ _ _ => rfl

noncomputable abbrev iterI : Integrals ℝ := viewInts 4 iterH.T iterH.V

theorem iterI_real : RealSymmetric iterI := by
  refine ⟨fun p q => ?_, fun _ _ _ _ => rfl, fun _ _ _ _ => rfl⟩
  show iterT _ = iterT _
  unfold iterT
  have : (p + q * 4) % 3 = (q + p * 4) % 3 := by omega
  rw [this]

theorem iter_hilbert : generateHilbertSpace 4 4 3 0 = some iterDets := by decide +kernel

def iterVal (i j : Nat) : Int :=
  ([[4, 2, -1, 1], [2, 4, 1, -2], [-1, 1, 3, 1], [1, -2, 1, 4]].getD i []).getD j 0

theorem iter_ham {i j : Nat} (hi : i < 4) (hj : j < 4) :
    hamiltonian iterI (iterDets.getD i 0) (iterDets.getD j 0) = iterVal i j := by
  have e : ∀ i < 4, ∀ j < 4, ((List.range 4).map fun p => ((List.range 4).map fun q =>
      (if (p + q * 4) % 3 = 2 then 2 else 1) * rdm1 (M := 4) (iterDets.getD i 0) (iterDets.getD j 0) p q).sum).sum
      = iterVal i j := by decide +kernel
  rw [hamiltonian_rdm, ← e i hi j hj]
  simp [viewInts, iterH, iterT, Finset.sum_range_succ, List.range_succ]
  ring

/-- any order of the four determinants: the matrix elements are those of the list -/
theorem iter_entry {P : Nat} {eig : Nat → (Nat → Nat → ℝ) → ℝ × (Nat → ℝ)} {w : List (BitVec (2 * 4))}
    (hw : ∀ s ∈ w, s ∈ iterDets) (i j : Fin w.length) :
    ∃ k l, k < 4 ∧ l < 4 ∧ w[i] = iterDets.getD k 0 ∧ w[j] = iterDets.getD l 0 ∧
      ciFull (iterPar P eig) iterH w i j = iterVal k l ∧ ciFull (iterPar P eig) iterH w j i = iterVal l k := by
  obtain ⟨hS, -⟩ := hilbert_sector (M := 4) (n := 4) (by norm_num) (by norm_num) (by norm_num) iter_hilbert
  have hSw : OneSector iterI.norb w w :=
    ⟨fun s hs => hS.1 s (hw s hs), fun s hs => hS.2.1 s (hw s hs),
      fun s hs t ht => hS.2.2 s (hw s hs) t (hw t ht)⟩
  obtain ⟨k, hk, ek⟩ := List.mem_iff_getElem.1 (hw w[i] (List.getElem_mem _))
  obtain ⟨l, hl, el⟩ := List.mem_iff_getElem.1 (hw w[j] (List.getElem_mem _))
  have hk4 : k < 4 := hk
  have hl4 : l < 4 := hl
  have ek' : w[i] = iterDets.getD k 0 := by rw [← ek, List.getD_eq_getElem _ _ hk]
  have el' : w[j] = iterDets.getD l 0 := by rw [← el, List.getD_eq_getElem _ _ hl]
  have gen : ∀ (i j : Fin w.length) (k l : Nat), k < 4 → l < 4 → w[i] = iterDets.getD k 0 → w[j] = iterDets.getD l 0 →
      ciFull (iterPar P eig) iterH w i j = iterVal k l := by
    intro i j k l hk hl ei ej
    show csrEntry (iterI.csrHamiltonian w 0) i j = _
    rw [ciMatrix_entry (M := 4) iterI le_rfl iterI_real le_rfl hSw i.2 j.2, ciMatrix, List.getD_eq_getElem _ _ i.2,
      List.getD_eq_getElem _ _ j.2]
    rw [show w[(i : Nat)] = iterDets.getD k 0 from ei, show w[(j : Nat)] = iterDets.getD l 0 from ej, iter_ham hk hl]
    split
    · rfl
    · rename_i hc
      rw [not_lt] at hc
      have := abs_nonpos_iff.1 hc
      rw [this]
  exact ⟨k, l, hk4, hl4, ek', el', gen i j k l hk4 hl4 ek' el', gen j i l k hl4 hk4 el' ek'⟩

theorem iter_search {P : Nat} (hP : 0 < P) (eig : Nat → (Nat → Nat → ℝ) → ℝ × (Nat → ℝ)) :
    ∃ K : List (BitVec (2 * 4)), jointSearch (iterPar P eig) iterH 4 [13] 0 [1] = some (K ++ [13]) ∧ K.length = 3 ∧
      ∀ t ∈ K, t ∈ iterDets ∧ t ≠ 13 := by
  obtain ⟨hS, -, -, ha, hb, hall⟩ :=
    hilbert_sector (M := 4) (n := 4) (by norm_num) (by norm_num) (by norm_num) iter_hilbert
  have m0 : (13 : BitVec (2 * 4)) ∈ iterDets := by decide
  have reach : ∀ t, SearchReach 4 false (13 : BitVec (2 * 4)) t → t ∈ iterDets := fun t ht => by
    obtain ⟨a, b, c⟩ := searchReach_sector (hS.1 _ m0) ht
    exact hall t a (b.trans (ha _ m0)) (c.trans (hb _ m0))
  have cand : ∀ t, (rankedSearchScore iterI 4 (1 / 2) 0 ([(13 : BitVec (2 * 4))].zip [1]) t ≠ 0 ∧ t ∉ [(13 : BitVec (2 * 4))]) ↔
      t ∈ iterDets ∧ t ≠ 13 := by
    intro t
    simp only [List.zip_cons_cons, List.zip_nil_right, List.mem_singleton, rankedSearchScore, List.map_cons, List.map_nil,
      List.sum_cons, List.sum_nil, add_zero]
    refine and_congr_left fun hne => ⟨?_, ?_⟩
    · intro h
      by_contra hr
      exact h (if_neg fun c => hr (reach t c.1))
    · intro ht
      obtain ⟨i, hi, e⟩ := List.mem_iff_getElem.1 ht
      have hi4 : i < 4 := hi
      have e' : t = iterDets.getD i 0 := by rw [← e, List.getD_eq_getElem _ _ hi]
      have e13 : (13 : BitVec (2 * 4)) = iterDets.getD 2 0 := rfl
      have hne2 : i ≠ 2 := by rintro rfl; exact hne e'
      have hham : hamiltonian iterI t 13 = iterVal i 2 := by rw [e', e13, iter_ham hi4 (by norm_num)]
      have htt : hamiltonian iterI t t = iterVal i i := by rw [e', iter_ham hi4 hi4]
      rw [if_pos]
      · rw [pertScore, hham, htt]
        have : i = 0 ∨ i = 1 ∨ i = 3 := by omega
        rcases this with rfl | rfl | rfl <;> simp [iterVal]
      · refine ⟨searchReach_of_close (hS.1 _ m0) (hS.1 _ ht) ⟨(ha _ ht).trans (ha _ m0).symm, (hb _ ht).trans (hb _ m0).symm⟩
          hne ?_, ?_⟩
        · have : ∀ t ∈ iterDets, diffOrbitals t 13 ≤ 4 := by decide +kernel
          exact this t ht
        · rw [hham]
          have : i = 0 ∨ i = 1 ∨ i = 3 := by omega
          rcases this with rfl | rfl | rfl <;> simp [iterVal] <;> norm_num
  have hset : {t : BitVec (2 * 4) | t ∈ iterDets ∧ t ≠ 13} = (({7, 11, 14} : Finset (BitVec (2 * 4))) : Set (BitVec (2 * 4))) := by
    ext t
    simp only [Set.mem_ofPred_eq, iterDets, List.mem_cons, List.not_mem_nil, or_false, Finset.coe_insert, Finset.coe_singleton,
      Set.mem_insert_iff, Set.mem_singleton_iff]
    constructor
    · rintro ⟨h | h | h | h, h2⟩
      · exact Or.inl h
      · exact Or.inr (Or.inl h)
      · exact absurd h h2
      · exact Or.inr (Or.inr h)
    · rintro (rfl | rfl | rfl) <;> decide
  obtain ⟨K, k1, k2, -, k4⟩ := C103_search (I := iterI) (norb := 4) iterI_real (iterPar P eig).contrib rfl (by norm_num) (by norm_num)
    (by norm_num) (srt := exSort) (part := id) exSort_sorts (fun l => List.Perm.refl l) 0 P 0 hP (partC := id) (sortC := id)
    (fun l => List.Perm.refl l) (fun l => List.Perm.refl l) (fun _ => 0) (partS := fun _ => id)
    (nthS := fun _ => List.insertionSort fun x y => y ≤ x) (fun _ l => List.Perm.refl l) (exNth_spec (id : ℝ → ℝ) _ rfl) 4
    [(13 : BitVec (2 * 4))] [1] le_rfl (by simp) (by
      intro s hs; rw [List.mem_singleton.1 hs]; exact ⟨hS.1 _ m0, show 3 ≤ alphaElectrons (13 : BitVec (2 * 4)) by decide +kernel⟩) (List.nodup_singleton _) (by decide)
      (by norm_num) (by
      have : {t | SearchReach 4 false (13 : BitVec (2 * 4)) t} ⊆ (iterDets.toFinset : Set (BitVec (2 * 4))) := by
        intro t ht
        simpa using reach t ht
      have := Set.ncard_le_ncard this (Finset.finite_toSet _)
      rw [Set.ncard_coe_finset] at this
      have := this.trans (List.toFinset_card_le _)
      simp only [List.map_cons, List.map_nil, List.sum_cons, List.sum_nil, add_zero]
      exact this) ⟨0, by
      have : {t | (rankedSearchScore iterI 4 (iterPar P eig).contrib.hElTol 0 ([(13 : BitVec (2 * 4))].zip [1]) t ≠ 0 ∧
          t ∉ [(13 : BitVec (2 * 4))]) ∧ 0 ≤ |rankedSearchScore iterI 4 (iterPar P eig).contrib.hElTol 0 ([(13 : BitVec (2 * 4))].zip [1]) t|}
          = {t : BitVec (2 * 4) | t ∈ iterDets ∧ t ≠ 13} := by
        ext t
        simp only [Set.mem_ofPred_eq, abs_nonneg, and_true]
        exact cand t
      rw [this, hset, Set.ncard_coe_finset]
      rfl⟩
  refine ⟨K, ?_, ?_, fun t ht => (cand t).1 (k2.sub t ht)⟩
  · unfold jointSearch
    rw [if_neg (by simp)]
    exact k1
  · rw [List.length_append] at k4
    simp at k4
    omega

/-- C163's conditions on two ranks: the iteration around the joint search returns, so it ends on both ranks with that
result under every schedule. -/
example : ∃ eig E w Y, asciIter (jointEnv (iterPar 2 eig)) (iterPar 2 eig).asci 4 iterH 0 [13] [1] = .ok (E, w, Y) ∧
    Behaves (iterPar 2 eig) ∧ LowestPair eig ∧ w.length = 4 ∧
    ∀ (garbage : Nat → Nat → Nat → ℝ) (mem : Nat → AsciMem 4), ∃ st, AlwaysEnds (asciWorld (iterPar 2 eig) (fun r => iterProg (iterPar 2 eig) r 513 4 (garbage r)) iterH 0 [13] [1] mem) st ∧
      ∀ r < 2, (st r).err = false ∧ (st r).thrown = false ∧ (st r).E = E ∧ (st r).wfn = w ∧ (st r).X = Y := by
  obtain ⟨eig, he, hl⟩ := exists_eigLocal
  obtain ⟨K, hK, hlen, hmem⟩ := iter_search (P := 2) (by norm_num) eig
  have hw : ∀ s ∈ K ++ [13], s ∈ iterDets := by
    intro s hs
    rcases List.mem_append.1 hs with h | h
    · exact (hmem s h).1
    · rw [List.mem_singleton.1 h]; decide
  have hwl : (K ++ [(13 : BitVec (2 * 4))]).length = 4 := by rw [List.length_append, hlen]; rfl
  have hdiag : ∃ E Y, jointDiag (iterPar 2 eig) iterH (K ++ [13]) = some (E, Y) := by
    generalize hww : K ++ [13] = w at hw hwl
    set A := ciFull (iterPar 2 eig) iterH w with hA
    have hsym : A.IsSymm := by
      ext i j
      obtain ⟨k, l, hk, hl, -, -, e1, e2⟩ := iter_entry (P := 2) (eig := eig) hw i j
      rw [Matrix.transpose_apply, hA, e1, e2]
      have : ∀ k < 4, ∀ l < 4, iterVal l k = iterVal k l := by decide
      rw [this k hk l hl]
    have hne : (List.ofFn fun i => A i i) ≠ [] := by rw [← List.length_pos_iff]; simp [hwl]
    have hspec := minIdx_spec _ hne
    set i0 := minIdx (List.ofFn fun i => A i i) with hi0
    have hi0N : i0 < w.length := by have := firstMin_lt hspec; simpa using this
    have hg := distGuess_unit 2 (fun i => A i i) (i0 := ⟨i0, hi0N⟩) hspec (by simp only [hwl]; omega)
    have hconv := davidson_big_tol (N := w.length) (A := A) hsym (fun i => A i i) (tol := 100) (by norm_num) (by
      have : ∀ i j, A i j * A i j ≤ 16 := by
        intro i j
        obtain ⟨k, l, hk, hl, -, -, e1, -⟩ := iter_entry (P := 2) (eig := eig) hw i j
        rw [hA, e1]
        have : ∀ k < 4, ∀ l < 4, iterVal k l * iterVal k l ≤ 16 := by decide
        exact_mod_cast this k hk l hl
      refine lt_of_le_of_lt (Finset.sum_le_sum fun i _ => Finset.sum_le_sum fun j _ => this i j) ?_
      simp [hwl]; norm_num) hl 2 (Pi.single ⟨i0, hi0N⟩ 1) (by simp [Pi.single_apply]) le_rfl (by omega) (by
      rintro ⟨mu, hmu⟩
      set j : Fin w.length := if i0 = 0 then ⟨1, by omega⟩ else ⟨0, by omega⟩ with hj
      have hji : j ≠ ⟨i0, hi0N⟩ := by
        rw [hj]; split
        · rename_i h; intro e; have := Fin.ext_iff.1 e; simp [h] at this
        · rename_i h; intro e; have := Fin.ext_iff.1 e; simp at this; omega
      have h1 := congrFun hmu j
      rw [Matrix.mulVec_single_one] at h1
      simp only [Matrix.col_apply, Pi.smul_apply, Pi.single_eq_of_ne hji, smul_zero] at h1
      obtain ⟨k, l, hk, hl, w1, w2, e1, -⟩ := iter_entry (P := 2) (eig := eig) hw j ⟨i0, hi0N⟩
      rw [hA, e1] at h1
      have hz : iterVal k l = 0 := by exact_mod_cast h1
      have : ∀ k < 4, ∀ l < 4, iterVal k l ≠ 0 := by decide
      exact this k hk l hl hz)
    obtain ⟨it, E, x, hr⟩ := hconv
    refine ⟨E, List.ofFn x, ?_⟩
    unfold jointDiag
    rw [← hA, show (iterPar 2 eig).P = 2 from rfl, hg, show (iterPar 2 eig).ci = ⟨100, 2, 0⟩ from rfl]
    dsimp only
    rw [C161_same_limit _ _ _ _ (by omega)]
    rw [show (iterPar 2 eig).eig = eig from rfl, hr]
  obtain ⟨E, Y, hd⟩ := hdiag
  have hok : asciIter (jointEnv (iterPar 2 eig)) (iterPar 2 eig).asci 4 iterH 0 [13] [1] = .ok (E, K ++ [13], Y) := by
    unfold asciIter
    rw [if_neg (by simp)]
    dsimp only
    rw [show (min (iterPar 2 eig).asci.ncdetsMax [(13 : BitVec (2 * 4))].length) = 1 from rfl, List.take_of_length_le (by simp),
      show (jointEnv (iterPar 2 eig)).search iterH 4 [13] 0 [1] = some (K ++ [13]) from hK]
    dsimp only
    rw [show (jointEnv (iterPar 2 eig)).diag iterH (K ++ [13]) = some (E, Y) from hd]
  refine ⟨eig, E, K ++ [13], Y, hok, iterPar_behaves 2 he, hl, hwl, fun garbage mem => ?_⟩
  obtain ⟨-, -, st, h1, h2⟩ := (C163_iteration_partial (iterPar_behaves 2 he) le_rfl le_rfl (show (2 : Nat) ≠ 0 by decide) garbage mem 513 4
    (by norm_num) (show 2 ≤ 4 by decide) (show 2 * 2 ^ (2 * 4) < 513 by norm_num) iterH 0 [13] [1]).1 E _ Y hok
  exact ⟨st, h1, fun r hr => ⟨(h2 r hr).1, (h2 r hr).2.1, (h2 r hr).2.2.1, (h2 r hr).2.2.2.1, (h2 r hr).2.2.2.2.1⟩⟩

/-- C163's violation on three ranks: from the single lowest determinant, four determinants are asked for, and the
iteration ends with the exception on every rank, although it succeeds on two ranks. -/
theorem C163_three_ranks_refuted : ∃ eig, Behaves (iterPar 3 eig) ∧ LowestPair eig ∧
    ∀ (garbage : Nat → Nat → Nat → ℝ) (mem : Nat → AsciMem 4), ∃ st, AlwaysEnds (asciWorld (iterPar 3 eig) (fun r => iterProg (iterPar 3 eig) r 769 4 (garbage r)) iterH 0 [13] [1] mem) st ∧
      ∀ r < 3, (st r).err = false ∧ (st r).thrown = true := by
  obtain ⟨eig, he, hl⟩ := exists_eigLocal
  obtain ⟨K, hK, hlen, hmem⟩ := iter_search (P := 3) (by norm_num) eig
  have hw : ∀ s ∈ K ++ [13], s ∈ iterDets := by
    intro s hs
    rcases List.mem_append.1 hs with h | h
    · exact (hmem s h).1
    · rw [List.mem_singleton.1 h]; decide
  refine ⟨eig, iterPar_behaves 3 he, hl, fun garbage mem => ?_⟩
  refine C163_lost_start_refuted (iterPar_behaves 3 he) (show 2 ≤ 3 by decide) le_rfl (show (2 : Nat) ≠ 0 by decide) garbage mem 769 4 (by norm_num)
    (show 3 ≤ 4 by decide) (show 3 * 2 ^ (2 * 4) < 769 by norm_num) iterH 0 13 1 (show (4 : Nat) ≠ 0 by decide) K hK ?_
    (show 4 % 3 ≠ 0 by decide)
  intro i hi
  obtain ⟨k, l, hk, hl, w1, w2, e1, -⟩ := iter_entry (P := 3) (eig := eig) hw i i
  obtain ⟨k', l', hk', hl', w1', w2', e1', -⟩ := iter_entry (P := 3) (eig := eig) hw ⟨K.length, by simp⟩ ⟨K.length, by simp⟩
  rw [e1, e1']
  have hlast : (K ++ [(13 : BitVec (2 * 4))])[(⟨K.length, by simp⟩ : Fin (K ++ [(13 : BitVec (2 * 4))]).length)] = 13 := by simp
  have hi' : (K ++ [(13 : BitVec (2 * 4))])[i] ≠ 13 := by
    have : (K ++ [(13 : BitVec (2 * 4))])[i] = K[(i : Nat)] := List.getElem_append_left hi
    rw [this]
    exact (hmem _ (List.getElem_mem _)).2
  rw [hlast] at w1' w2'
  rw [w1] at hi'
  have q1 : ∀ k < 4, (13 : BitVec (2 * 4)) = iterDets.getD k 0 → k = 2 := by decide
  have q2 : ∀ k < 4, ∀ l < 4, iterDets.getD k 0 = iterDets.getD l 0 → k = l := by decide
  have hkl : k = l := q2 k hk l hl (w1.symm.trans w2)
  obtain rfl := q1 k' hk' w1'
  obtain rfl := q1 l' hl' w2'
  subst hkl
  have q3 : ∀ k < 4, iterDets.getD k 0 ≠ 13 → iterVal 2 2 < iterVal k k := by decide
  exact_mod_cast q3 k hk hi'

end Macis
