import Verif.Props.MpiDriver
import Verif.Props.MpiDav
import Verif.Props.AsciDist
import Verif.Lemmas.MpiDriverRead
/-! C166 on a small ASCI calculation of the standalone program that three ranks complete. -/
namespace Macis
open Spec Spec.Mpi Mpi Finset

/-- without inactive orbitals the active-space Hamiltonian is the Hamiltonian -/
theorem noInactive_active (n : Nat) (T V : Nat → ℝ) :
    (∀ p q, p < n → q < n →
      asMat (activeHamiltonian n n 0 T n V n (fun _ => 0) n (fun _ => 0) n (fun _ => 0) n).2.1 n p q = asMat T n p q) ∧
    ∀ p q r s, p < n → q < n → r < n → s < n →
      asTen (activeHamiltonian n n 0 T n V n (fun _ => 0) n (fun _ => 0) n (fun _ => 0) n).2.2 n p q r s = asTen V n p q r s := by
  set H := activeHamiltonian n n 0 T n V n (fun _ => 0) n (fun _ => 0) n (fun _ => 0) n with hH
  constructor
  · intro p q hp hq
    have : H.2.1 (p + q * n) = H.1 (p + 0 + (q + 0) * n) :=
      (fill2 (le_refl n) (fun _ => 0) (fun x => H.1 (x.1 + 0 + (x.2 + 0) * n))).1 p q hp hq
    rw [asMat, this, Nat.add_zero, Nat.add_zero]
    refine (inactiveFock_val (ldt := n) (ldv := n) (ni := 0) (le_refl n) T V (fun _ => 0) hp hq).trans ?_
    simp [fi]
  · intro p q r s hp hq hr hs
    have : H.2.2 (addr4 n p q r s) = V (p + 0 + (q + 0) * n + (r + 0) * (n * n) + (s + 0) * (n * n * n)) :=
      (fill4 (le_refl n) (fun _ => 0) (fun x => V (x.1 + 0 + (x.2.1 + 0) * n + (x.2.2.1 + 0) * (n * n) +
        (x.2.2.2 + 0) * (n * n * n)))).1 p q r s hp hq hr hs
    rw [asTen, this, show p + 0 + (q + 0) * n + (r + 0) * (n * n) + (s + 0) * (n * n * n) = addr4 n p q r s by
      unfold addr4; ring, asTen]

theorem mapM_congr_mem {α β : Type} {f g : α → Option β} : ∀ l : List α, (∀ x ∈ l, f x = g x) → l.mapM f = l.mapM g := by
  intro l
  induction l with
  | nil => intro _; rfl
  | cons x l ih =>
    intro h
    rw [List.mapM_cons, List.mapM_cons, h x List.mem_cons_self, ih fun y hy => h y (List.mem_cons_of_mem _ hy)]

theorem asciSearchDist_congr {R : Type} [Field R] [LinearOrder R] [IsStrictOrderedRing R] {M n : Nat} {I J : Integrals R} (h : AgreeBelow n I J) (hn : n ≤ M) (h66 : n ≤ 66)
    (h64 : 2 * M < 2 ^ 64) (st : ContribSettings R) (E0 : R) (srt part : List (Contrib (2 * M) R) → List (Contrib (2 * M) R))
    (W avg : Nat) (hW : 0 < W)
    {partC sortC : List (WfnConstraint (2 * M) × Nat) → List (WfnConstraint (2 * M) × Nat)}
    (hpC : ∀ l, (partC l).Perm l) (hsC : ∀ l, (sortC l).Perm l) (draw : Nat → Nat) (partS nthS : Nat → List R → List R)
    (nd : Nat) {cdets : List (BitVec (2 * M))} (hc : ∀ s ∈ cdets, InSpace n s) (C : List R) :
    asciSearchDist J st n E0 srt part W avg partC sortC draw partS nthS nd cdets C =
      asciSearchDist I st n E0 srt part W avg partC sortC draw partS nthS nd cdets C := by
  have key : ∀ r ∈ List.range W, asciContributionsConstraint J st n E0 srt part W r avg partC sortC cdets C =
      asciContributionsConstraint I st n E0 srt part W r avg partC sortC cdets C := fun r hr =>
    asciContributionsConstraint_congr h hn h66 h64 st E0 srt part W r avg hW hpC hsC (List.mem_range.1 hr) hc C
  exact congrArg (fun p => Option.bind p fun pairs => asciSelectDist srt part draw partS nthS nd cdets C pairs) (mapM_congr_mem _ key)

theorem tri_search {st : ContribSettings ℝ} (h1 : st = ⟨1 / 100000000, 1 / 100000000, 500000000, false, 0⟩) :
    ∃ K : List (BitVec (2 * 32)), asciSearchDist triI st 4 0 exSort id 3 0 id id (fun _ => 0) (fun _ => id)
      (fun _ => List.insertionSort fun x y => y ≤ x) 3 [triDets.getD 0 0] [1] = some (K ++ [triDets.getD 0 0]) ∧
      K.length = 2 ∧ ∀ t ∈ K, t = triDets.getD 1 0 ∨ t = triDets.getD 4 0 := by
  have m0 : triDets.getD 0 0 ∈ triDets := List.mem_cons_self
  have s0 := tri_sector.1 _ m0
  have reach : ∀ t, SearchReach 4 false (triDets.getD 0 0) t → t ∈ triDets := fun t ht => by
    obtain ⟨a, b, c⟩ := searchReach_sector s0.1 ht
    exact tri_sector.2 t a (b.trans s0.2.1) (c.trans s0.2.2)
  have he : st.hElTol = 1 / 100000000 := by rw [h1]
  have cand : ∀ t, (rankedSearchScore triI 4 st.hElTol 0 ([triDets.getD 0 0].zip [1]) t ≠ 0 ∧ t ∉ [triDets.getD 0 0]) ↔
      t = triDets.getD 1 0 ∨ t = triDets.getD 4 0 := by
    intro t
    simp only [List.zip_cons_cons, List.zip_nil_right, List.mem_singleton, rankedSearchScore, List.map_cons, List.map_nil,
      List.sum_cons, List.sum_nil, add_zero]
    constructor
    · rintro ⟨h, hne⟩
      by_contra hcon
      refine h (if_neg ?_)
      rintro ⟨c1, c2⟩
      obtain ⟨i, hi, e⟩ := List.mem_iff_getElem.1 (reach t c1)
      have e' : t = triDets.getD i 0 := by rw [← e, List.getD_eq_getElem _ _ hi]
      rw [one_mul, ite_self, e', tri_ham, he] at c2
      have : triVal i 0 ≠ 0 := by
        intro hz
        rw [hz] at c2
        norm_num at c2
      rcases tri_vals.1 i hi this with rfl | rfl
      exacts [hcon (Or.inl e'), hcon (Or.inr e')]
    · intro ht
      obtain ⟨i, hi, e⟩ : ∃ i ∈ [1, 4], t = triDets.getD i 0 := by
        rcases ht with h | h
        exacts [⟨1, by simp, h⟩, ⟨4, by simp, h⟩]
      subst e
      have hi16 : i < triDets.length := by revert i; decide
      have mi : triDets.getD i 0 ∈ triDets := by
        rw [List.getD_eq_getElem triDets 0 hi16]; exact List.getElem_mem _
      have si := tri_sector.1 _ mi
      have hne : triDets.getD i 0 ≠ triDets.getD 0 0 := by
        have : ∀ i ∈ [1, 4], triDets.getD i 0 ≠ triDets.getD 0 0 := by decide
        exact this i hi
      have hv := tri_vals.2.2.2.2.1 i hi
      have hd : triVal i i = 1 := by
        have : i = 1 ∨ i = 4 := by simpa using hi
        rcases this with rfl | rfl
        exacts [tri_vals.2.2.1, tri_vals.2.2.2.1]
      refine ⟨?_, hne⟩
      rw [if_pos]
      · rw [pertScore, tri_ham, tri_ham, hd]
        simpa using hv
      · refine ⟨searchReach_of_close s0.1 si.1 ⟨si.2.1.trans s0.2.1.symm, si.2.2.trans s0.2.2.symm⟩ hne ?_, ?_⟩
        · have : ∀ i ∈ [1, 4], diffOrbitals (triDets.getD i 0) (triDets.getD 0 0) ≤ 4 := by decide +kernel
          exact this i hi
        · rw [one_mul, ite_self, tri_ham, he]
          have : (1 : ℝ) ≤ |(triVal i 0 : ℝ)| := by
            rw [← Int.cast_abs]
            exact_mod_cast Int.one_le_abs hv
          exact le_trans (by norm_num) this
  have hset : {t : BitVec (2 * 32) | t = triDets.getD 1 0 ∨ t = triDets.getD 4 0} =
      (({triDets.getD 1 0, triDets.getD 4 0} : Finset (BitVec (2 * 32))) : Set (BitVec (2 * 32))) := by
    ext t
    simp
  obtain ⟨K, k1, k2, -, k4⟩ := C103_search (I := triI) (norb := 4) triI_real st rfl (by norm_num) (by norm_num)
    (by norm_num) (srt := exSort) (part := id) exSort_sorts (fun l => List.Perm.refl l) 0 3 0 (by norm_num) (partC := id) (sortC := id)
    (fun l => List.Perm.refl l) (fun l => List.Perm.refl l) (fun _ => 0) (partS := fun _ => id)
    (nthS := fun _ => List.insertionSort fun x y => y ≤ x) (fun _ l => List.Perm.refl l) (exNth_spec (id : ℝ → ℝ) _ rfl) 3
    [triDets.getD 0 0] [1] le_rfl (by simp) (by
      intro s hs; rw [List.mem_singleton.1 hs]; exact ⟨s0.1, by rw [s0.2.1, h1, Nat.add_zero]⟩) (List.nodup_singleton _) (by simp)
      (by norm_num) (by
      simp only [List.map_cons, List.map_nil, List.sum_cons, List.sum_nil, add_zero]
      exact (tri_reach_card s0.1 s0.2.1 s0.2.2).trans (by rw [h1]; norm_num)) ⟨0, by
      have : {t | (rankedSearchScore triI 4 st.hElTol 0 ([triDets.getD 0 0].zip [1]) t ≠ 0 ∧
          t ∉ [triDets.getD 0 0]) ∧ 0 ≤ |rankedSearchScore triI 4 st.hElTol 0 ([triDets.getD 0 0].zip [1]) t|}
          = {t : BitVec (2 * 32) | t = triDets.getD 1 0 ∨ t = triDets.getD 4 0} := by
        ext t
        simp only [Set.mem_ofPred_eq, abs_nonneg, and_true]
        exact cand t
      rw [this, hset, Set.ncard_coe_finset]
      decide +kernel⟩
  refine ⟨K, k1, ?_, fun t ht => (cand t).1 (k2.sub t ht)⟩
  rw [List.length_append] at k4
  simp at k4
  omega


theorem tri_diag {a : AsciPar 32} (hP : a.P = 3) (hn : a.norb = 4) (hl : LowestPair a.eig) (hci : a.ci = ⟨9, 3, 1 / 2 ^ 52⟩)
    {Ta Va : Nat → ℝ} (hT : ∀ p q, p < 4 → q < 4 → asMat Ta 4 p q = triI.T p q)
    (hV : ∀ p q r s, p < 4 → q < 4 → r < 4 → s < 4 → asTen Va 4 p q r s = 0) {w : List (BitVec (2 * 32))}
    (hwl : w.length = 3) (hw : ∀ s ∈ w, ∃ k ∈ [0, 1, 4], s = triDets.getD k 0) (hz : triDets.getD 0 0 ∈ w)
    (ho : ∃ l ∈ [1, 4], triDets.getD l 0 ∈ w) : ∃ E Y, jointDiag a ⟨Ta, Va⟩ w = some (E, Y) := by
  have hzero : ∃ z : Fin w.length, w[z] = triDets.getD 0 0 := by
    obtain ⟨i, hi, e⟩ := List.mem_iff_getElem.1 hz
    exact ⟨⟨i, hi⟩, e⟩
  have hother : ∃ z : Fin w.length, ∃ l ∈ [1, 4], w[z] = triDets.getD l 0 := by
    obtain ⟨l, hl, h⟩ := ho
    obtain ⟨i, hi, e⟩ := List.mem_iff_getElem.1 h
    exact ⟨⟨i, hi⟩, l, hl, e⟩
  have wm : ∀ s ∈ w, s ∈ triDets := by
    intro s hs
    obtain ⟨k, hk, rfl⟩ := hw s hs
    have : k < triDets.length := by
      have : ∀ k ∈ [0, 1, 4], k < triDets.length := by decide
      exact this k hk
    rw [List.getD_eq_getElem triDets 0 this]; exact List.getElem_mem _
  have hSw : OneSector triI.norb w w :=
    ⟨fun s hs => (tri_sector.1 s (wm s hs)).1, fun s hs => (tri_sector.1 s (wm s hs)).1,
      fun s hs t ht => ⟨(tri_sector.1 s (wm s hs)).2.1.trans (tri_sector.1 t (wm t ht)).2.1.symm,
        (tri_sector.1 s (wm s hs)).2.2.trans (tri_sector.1 t (wm t ht)).2.2.symm⟩⟩
  set A := ciFull a ⟨Ta, Va⟩ w with hA
  have gen : ∀ (i j : Fin w.length) (k l : Nat), k ∈ [0, 1, 4] → l ∈ [0, 1, 4] → w[i] = triDets.getD k 0 →
      w[j] = triDets.getD l 0 → A i j = triVal k l := by
    intro i j k l hk hl ei ej
    have e0 : A i j = csrEntry ((viewInts a.norb Ta Va).csrHamiltonian w a.ci.matelTol) i j := rfl
    rw [e0, hn, C152_csr (M := 32) (I := triI) (J := viewInts 4 Ta Va) (dets := w) (by simp [triI]) hT hV
      (fun s hs => hSw.1 s hs) (fun s hs t ht => hSw.2.2 s hs t ht) a.ci.matelTol,
      ciMatrix_entry triI (by simp [triI]) triI_real (by rw [hci]; norm_num) hSw i.2 j.2, ciMatrix, List.getD_eq_getElem _ _ i.2,
      List.getD_eq_getElem _ _ j.2]
    rw [show w[(i : Nat)] = triDets.getD k 0 from ei, show w[(j : Nat)] = triDets.getD l 0 from ej, tri_ham]
    split
    · rfl
    · rename_i hc
      rw [not_lt, hci] at hc
      by_contra hne
      have hv : triVal k l ≠ 0 := fun e => hne (by rw [e]; simp)
      have : (1 : ℝ) ≤ |(triVal k l : ℝ)| := by
        rw [← Int.cast_abs]
        exact_mod_cast Int.one_le_abs hv
      have h2 := this.trans hc
      norm_num at h2
  have ent : ∀ i j : Fin w.length, ∃ k l, k ∈ [0, 1, 4] ∧ l ∈ [0, 1, 4] ∧ w[i] = triDets.getD k 0 ∧ w[j] = triDets.getD l 0 ∧
      A i j = triVal k l ∧ A j i = triVal l k := by
    intro i j
    obtain ⟨k, hk, ek⟩ := hw w[i] (List.getElem_mem _)
    obtain ⟨l, hl, el⟩ := hw w[j] (List.getElem_mem _)
    exact ⟨k, l, hk, hl, ek, el, gen i j k l hk hl ek el, gen j i l k hl hk el ek⟩
  have hsym : A.IsSymm := by
    ext i j
    obtain ⟨k, l, hk, hl, -, -, e1, e2⟩ := ent i j
    rw [Matrix.transpose_apply, e1, e2, (tri_vals.2.2.2.2.2 k hk l hl).2]
  have hne : (List.ofFn fun i => A i i) ≠ [] := by rw [← List.length_pos_iff]; simp [hwl]
  have hspec := minIdx_spec _ hne
  set i0 := minIdx (List.ofFn fun i => A i i) with hi0
  have hi0N : i0 < w.length := by have := firstMin_lt hspec; simpa using this
  have hg := distGuess_unit 3 (fun i => A i i) (i0 := ⟨i0, hi0N⟩) hspec (by simp only [hwl]; omega)
  have hconv := davidson_big_tol (N := w.length) (A := A) hsym (fun i => A i i) (tol := 9) (by norm_num) (by
    have : ∀ i j, A i j * A i j ≤ 1 := by
      intro i j
      obtain ⟨k, l, hk, hl, -, -, e1, -⟩ := ent i j
      rw [e1]
      have h := (tri_vals.2.2.2.2.2 k hk l hl).1
      have h2 : triVal k l * triVal k l ≤ 1 := by
        have := abs_le.1 h
        nlinarith
      exact_mod_cast h2
    refine lt_of_le_of_lt (Finset.sum_le_sum fun i _ => Finset.sum_le_sum fun j _ => this i j) ?_
    simp [hwl]; norm_num) hl 3 (Pi.single ⟨i0, hi0N⟩ 1) (by simp [Pi.single_apply]) (by norm_num) (by omega) (by
    rintro ⟨mu, hmu⟩
    obtain ⟨z, hz⟩ := hzero
    obtain ⟨y, hy⟩ := hother
    have key : ∀ j : Fin w.length, j ≠ ⟨i0, hi0N⟩ → A j ⟨i0, hi0N⟩ = 0 := by
      intro j hji
      have h1 := congrFun hmu j
      rw [Matrix.mulVec_single_one] at h1
      simpa only [Matrix.col_apply, Pi.smul_apply, Pi.single_eq_of_ne hji, smul_zero] using h1
    obtain ⟨k, hk, ek⟩ := hw w[(⟨i0, hi0N⟩ : Fin w.length)] (List.getElem_mem _)
    obtain ⟨l, hl, el⟩ := hy
    have hl' : l ∈ [0, 1, 4] := List.mem_cons_of_mem _ hl
    have hdd : ∀ i ∈ [1, 4], triDets.getD i 0 ≠ triDets.getD 0 0 := by decide
    have hd := hdd l hl
    by_cases hk0 : k = 0
    · subst hk0
      have := key y (by rintro rfl; exact hd (el.symm.trans ek))
      rw [gen y ⟨i0, hi0N⟩ l 0 hl' (by simp) el ek] at this
      exact tri_vals.2.2.2.2.1 l hl (by exact_mod_cast this)
    · have hk' : k ∈ [1, 4] := by simpa [hk0] using hk
      have hd' := hdd k hk'
      have := key z (by rintro rfl; exact hd' (ek.symm.trans hz))
      rw [gen z ⟨i0, hi0N⟩ 0 k (by simp) hk hz ek, (tri_vals.2.2.2.2.2 0 (by simp) k hk).2] at this
      exact tri_vals.2.2.2.2.1 k hk' (by exact_mod_cast this))
  obtain ⟨it, E, x, hr⟩ := hconv
  refine ⟨E, List.ofFn x, ?_⟩
  unfold jointDiag
  rw [← hA, hP, hg, hci]
  dsimp only
  rw [C161_same_limit _ _ _ _ (by omega), hr]

theorem tri_phases (eig : Nat → (Nat → Nat → ℝ) → ℝ × (Nat → ℝ)) (hl : LowestPair eig)
    (syev : Nat → (Nat → ℝ) → Nat → (Nat → ℝ) × (Nat → ℝ)) {o : DriverSettings} (h1 : o.ci = ⟨9, 3, 1 / 2 ^ 52⟩)
    (h2 : o.asci = ⟨3, 100, 100, 8, 0, 1 / 1000000, false, 1000⟩)
    (h3 : o.contrib = ⟨1 / 100000000, 1 / 100000000, 500000000, false, 0⟩)
    {Ta Va : Nat → ℝ} (hT : ∀ p q, p < 4 → q < 4 → asMat Ta 4 p q = triI.T p q)
    (hV : ∀ p q r s, p < 4 → q < 4 → r < 4 → s < 4 → asTen Va 4 p q r s = 0) {j : AsciJob} (hj : j.h = ⟨Ta, Va⟩)
    (hE : j.E0 = 0) (hd : j.dets = [triDets.getD 0 0]) (hC : j.C = [1]) :
    ∃ E w X, asciPhases (jointEnv (rankPar (triEnv eig syev) triRanks o 4)) o.asci 5 j = .ok (E, w, X) := by
  obtain ⟨K, hK, hlen, hmem⟩ := tri_search h3
  obtain ⟨E, Y, hdi⟩ := tri_diag (a := rankPar (triEnv eig syev) triRanks o 4) rfl rfl hl h1 hT hV
    (w := K ++ [triDets.getD 0 0]) (by rw [List.length_append, hlen]; rfl) (by
      intro s hs
      rcases List.mem_append.1 hs with h | h
      · rcases hmem s h with h | h
        exacts [⟨1, by simp, h⟩, ⟨4, by simp, h⟩]
      · exact ⟨0, by simp, List.mem_singleton.1 h⟩) (by simp) (by
      have hk0 : 0 < K.length := by omega
      have hk := List.getElem_mem hk0
      rcases hmem _ hk with h | h
      · exact ⟨1, by simp, by rw [← h]; exact List.mem_append_left _ hk⟩
      · exact ⟨4, by simp, by rw [← h]; exact List.mem_append_left _ hk⟩)
  have m0 : triDets.getD 0 0 ∈ triDets := List.mem_cons_self
  have hs : jointSearch (rankPar (triEnv eig syev) triRanks o 4) ⟨Ta, Va⟩ 3 [triDets.getD 0 0] 0 [1] =
      some (K ++ [triDets.getD 0 0]) := by
    unfold jointSearch
    rw [if_neg (by simp), ← hK]
    exact asciSearchDist_congr (n := 4) (I := triI) (J := viewInts 4 Ta Va) ⟨hT, hV⟩ (by norm_num) (by norm_num) (by norm_num) o.contrib 0
      _ _ 3 0 (by norm_num) (fun l => List.Perm.refl l) (fun l => List.Perm.refl l) _ _ _ 3
      (fun s hs => by rw [List.mem_singleton.1 hs]; exact (tri_sector.1 _ m0).1) _
  have hit : asciIter (jointEnv (rankPar (triEnv eig syev) triRanks o 4)) o.asci 3 ⟨Ta, Va⟩ 0 [triDets.getD 0 0] [1] =
      .ok (E, K ++ [triDets.getD 0 0], Y) := by
    unfold asciIter
    rw [if_neg (by simp)]
    dsimp only
    rw [show List.take (min o.asci.ncdetsMax [triDets.getD 0 0].length) [triDets.getD 0 0] = [triDets.getD 0 0] by
      rw [h2]; rfl, show (jointEnv (rankPar (triEnv eig syev) triRanks o 4)).search ⟨Ta, Va⟩ 3 [triDets.getD 0 0] 0 [1] = _ from hs]
    dsimp only
    rw [show (jointEnv (rankPar (triEnv eig syev) triRanks o 4)).diag ⟨Ta, Va⟩ _ = _ from hdi]
  have hgrow : ∃ st, asciGrow (jointEnv (rankPar (triEnv eig syev) triRanks o 4)) o.asci 5 ⟨Ta, Va⟩ 0 [triDets.getD 0 0] [1] = .ok st := by
    unfold asciGrow growLoop
    rw [if_pos (by rw [h2]; simp)]
    dsimp only
    unfold growBody
    dsimp only
    have hl3 : (K ++ [triDets.getD 0 0]).length = 3 := by rw [List.length_append, hlen]; rfl
    rw [show ndetsNew o.asci [triDets.getD 0 0].length = 3 by rw [h2]; rfl, hit]
    simp only [Run.bind]
    rw [if_neg (by omega), if_neg (by rw [h2]; simp)]
    unfold growLoop
    dsimp only
    rw [if_neg (by rw [h2]; simp only; omega)]
    exact ⟨_, rfl⟩
  obtain ⟨st, hgrow⟩ := hgrow
  unfold asciPhases
  rw [hj, hE, hd, hC, hgrow]
  simp only [Run.toOut, Out.bind]
  rw [if_neg (by rw [h2]; simp)]
  exact ⟨_, _, _, rfl⟩


end Macis
