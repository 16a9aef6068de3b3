import Verif.Lemmas.DriverExample
import Verif.Lemmas.DriverAsci
/-! A small ASCI calculation that the standalone program completes. -/
namespace Macis
open Spec Finset

/-- two orbitals of energies 0 and 1 coupled by 1, no interaction -/
noncomputable def stepI : Integrals ℝ := ⟨2, fun p q => if p = 0 ∧ q = 0 then 0 else 1, fun _ _ _ _ => 0⟩

theorem stepI_real : RealSymmetric stepI :=
  ⟨fun p q => by simp only [stepI, and_comm], fun _ _ _ _ => rfl, fun _ _ _ _ => rfl⟩

def stepVal (i j : Nat) : Int :=
  [[0, 1, 1, 0], [1, 1, 0, 1], [1, 0, 1, 1], [0, 1, 1, 2]].getD i [] |>.getD j 0

theorem step_ham {i j : Nat} (hi : i < 4) (hj : j < 4) :
    hamiltonian stepI (hopDets.getD i 0) (hopDets.getD j 0) = stepVal i j := by
  have e : ∀ i < 4, ∀ j < 4, rdm1 (M := 32) (hopDets.getD i 0) (hopDets.getD j 0) 0 1 +
      rdm1 (M := 32) (hopDets.getD i 0) (hopDets.getD j 0) 1 0 +
      rdm1 (M := 32) (hopDets.getD i 0) (hopDets.getD j 0) 1 1 = stepVal i j := by decide +kernel
  rw [hamiltonian_rdm, ← e i hi j hj]
  simp [stepI, sum_range_succ]
  ring

theorem step_diag {eig : Nat → (Nat → Nat → ℝ) → ℝ × (Nat → ℝ)} (he : LowestPair eig) {ci : CiSettings} (h1 : ci.resTol = 9)
    (h2 : 2 ≤ ci.maxSub) (h3 : 0 ≤ ci.matelTol) (h4 : ci.matelTol < 1) {idx : List Nat}
    (hx : idx = [1, 2, 0] ∨ idx = [2, 1, 0]) :
    ∃ it E x, selectedCiDiag eig stepI (idx.map fun i => hopDets.getD i 0) ci.matelTol ci.maxSub ci.resTol [] =
      .converged it E x := by
  have hn : stepI.norb ≤ 32 := by simp [stepI]
  obtain ⟨hS, -, -, ha, hb, -⟩ := hilbert_sector (M := 32) (n := 2) (by norm_num) (by norm_num) (by norm_num) hop_hilbert
  have hl : idx.length = 3 := by rcases hx with rfl | rfl <;> rfl
  have hlt : ∀ i < 3, idx.getD i 0 < 4 := by rcases hx with rfl | rfl <;> decide
  set w := idx.map fun i => hopDets.getD i 0
  have wl : w.length = 3 := by rw [List.length_map, hl]
  have wi : ∀ i < 3, w.getD i 0 = hopDets.getD (idx.getD i 0) 0 := by
    intro i hi
    rw [List.getD_eq_getElem w _ (by omega), List.getElem_map, List.getD_eq_getElem idx _ (by omega)]
  have wm : ∀ s ∈ w, s ∈ hopDets := by
    intro s hs
    obtain ⟨i, hi, rfl⟩ := List.mem_map.1 hs
    have : i < hopDets.length := by
      rcases hx with rfl | rfl <;> revert i <;> decide
    rw [List.getD_eq_getElem _ _ this]
    exact List.getElem_mem _
  have hSw : OneSector stepI.norb w w :=
    ⟨fun s hs => hS.1 s (wm s hs), fun s hs => hS.2.1 s (wm s hs),
      fun s hs t ht => hS.2.2 s (wm s hs) t (wm t ht)⟩
  have hm : (stepI.csrHamiltonian w ci.matelTol).m = 3 := (csrBlock_m stepI h3 w w).trans wl
  have hW : CsrWF (stepI.csrHamiltonian w ci.matelTol) := csrBlock_wf stepI h3 w w
  have hent : ∀ i j, i < 3 → j < 3 →
      csrEntry (stepI.csrHamiltonian w ci.matelTol) i j = stepVal (idx.getD i 0) (idx.getD j 0) := by
    intro i j hi hj
    rw [ciMatrix_entry stepI hn stepI_real h3 hSw (by omega) (by omega), ciMatrix]
    simp only [wi i hi, wi j hj, step_ham (hlt i hi) (hlt j hj)]
    have : ∀ i < 4, ∀ j < 4, stepVal i j = 0 ∨ stepVal i j = 1 ∨ stepVal i j = 2 := by decide
    rcases this _ (hlt i hi) _ (hlt j hj) with e | e | e <;> rw [e]
    · simp
    · rw [if_pos]; simpa using h4
    · rw [if_pos]; push_cast; rw [abs_of_pos (by norm_num)]; linarith
  obtain ⟨it, E, x, hr⟩ := serialDiag_big_tol (H := stepI.csrHamiltonian w ci.matelTol) hW
    (by rw [hm]; exact (csrBlock_n stepI h3 w w).trans wl) (by omega)
    (sorted_rowCols_nodup hW (csrBlock_sorted stepI h3 w w))
    (fun i j hi hj => by
      rw [hm] at hi hj
      rw [hent i j hi hj, hent j i hj hi]
      have : ∀ i < 4, ∀ j < 4, stepVal i j = stepVal j i := by decide
      rw [this _ (hlt i hi) _ (hlt j hj)])
    (fun m hlm => by
      rw [hm] at hlm
      have : ∀ m < 3, ∃ k < 3, k ≠ m ∧ stepVal (idx.getD k 0) (idx.getD m 0) ≠ 0 := by
        rcases hx with rfl | rfl <;> decide
      obtain ⟨k, k1, k2, k3⟩ := this m hlm
      exact ⟨k, by omega, k2, by rw [hent k m k1 hlm]; exact_mod_cast k3⟩)
    he h2 (tol := ci.resTol) (by rw [h1]; norm_num) (by
      rw [hm, h1, sum_congr rfl fun i hi => sum_congr rfl fun j hj => by
        rw [hent i j (mem_range.1 hi) (mem_range.1 hj)]]
      rcases hx with rfl | rfl <;> simp [sum_range_succ, stepVal] <;> norm_num)
  rw [selectedCiDiag, hr]
  exact ⟨_, _, _, rfl⟩

/-- the search from the first determinant finds the two singly excited ones -/
theorem step_search {srt part : List (Contrib (2 * 32) ℝ) → List (Contrib (2 * 32) ℝ)}
    {nth : Nat → List (Contrib (2 * 32) ℝ) → List (Contrib (2 * 32) ℝ)}
    (hs : SortsBy (fun x y => bitsetLess x.state y.state) srt) (hp : Rearranges part)
    (hnth : NthElement (fun p : Contrib (2 * 32) ℝ => |p.rv|) nth) {st : ContribSettings ℝ} (h1 : st.justSingles = false)
    (h2 : 4 ≤ st.pairSizeMax) (h3 : st.hElTol = 1 / 100000000) :
    ∃ idx, (idx = [1, 2, 0] ∨ idx = [2, 1, 0]) ∧
      asciSearchSerial stepI st 2 0 srt part nth 3 [hopDets.getD 0 0] [1] = some (idx.map fun i => hopDets.getD i 0) := by
  obtain ⟨hS, -, -, ha, hb, hall⟩ :=
    hilbert_sector (M := 32) (n := 2) (by norm_num) (by norm_num) (by norm_num) hop_hilbert
  have m0 : hopDets.getD 0 0 ∈ hopDets := List.mem_cons_self
  have reach : ∀ t, SearchReach 2 false (hopDets.getD 0 0) t → t ∈ hopDets := fun t ht => by
    obtain ⟨a, b, c⟩ := searchReach_sector (hS.1 _ m0) ht
    exact hall t a (b.trans (ha _ m0)) (c.trans (hb _ m0))
  obtain ⟨K, k1, k2, -, -⟩ := C102_search (I := stepI) (norb := 2) stepI_real st rfl (by norm_num) hs hp hnth 0 3
    [hopDets.getD 0 0] [1] rfl (by
      intro s hs; rw [List.mem_singleton.1 hs]; exact hS.1 _ m0) (by simp) (by norm_num) (List.nodup_singleton _) (by
      rw [h1]
      have : {t | SearchReach 2 false (hopDets.getD 0 0) t} ⊆ (hopDets.toFinset : Set (BitVec (2 * 32))) := by
        intro t ht
        simpa using reach t ht
      have := Set.ncard_le_ncard this (Finset.finite_toSet _)
      rw [Set.ncard_coe_finset] at this
      have := this.trans (List.toFinset_card_le _)
      simp only [List.map_cons, List.map_nil, List.sum_cons, List.sum_nil, add_zero]
      exact this.trans h2)
  have cand : ∀ t, (searchScore stepI 2 false st.hElTol 0 ([hopDets.getD 0 0].zip [1]) t ≠ 0 ∧ t ∉ [hopDets.getD 0 0]) ↔
      t = hopDets.getD 1 0 ∨ t = hopDets.getD 2 0 := by
    intro t
    simp only [List.zip_cons_cons, List.zip_nil_right, List.mem_singleton]
    constructor
    · rintro ⟨h, hne⟩
      simp only [searchScore, List.map_cons, List.map_nil, List.sum_cons, List.sum_nil, add_zero] at h
      split at h
      · rename_i c
        obtain ⟨i, hi, rfl⟩ := List.mem_iff_getElem.1 (reach t c.1)
        have hi4 : i < 4 := hi
        rw [← List.getD_eq_getElem hopDets 0 hi] at *
        have c2 := c.2
        rw [step_ham hi4 (by norm_num)] at c2
        have : i = 0 ∨ i = 1 ∨ i = 2 ∨ i = 3 := by omega
        rcases this with rfl | rfl | rfl | rfl
        · exact absurd rfl hne
        · exact Or.inl rfl
        · exact Or.inr rfl
        · rw [h3] at c2
          simp [stepVal] at c2
          norm_num at c2
      · exact absurd rfl h
    · have key : ∀ i, i = 1 ∨ i = 2 → searchScore stepI 2 false st.hElTol 0 [(hopDets.getD 0 0, 1)] (hopDets.getD i 0) ≠ 0 ∧
          hopDets.getD i 0 ≠ hopDets.getD 0 0 := by
        intro i hi
        have hi4 : i < 4 := by omega
        have mi : hopDets.getD i 0 ∈ hopDets := by
          rw [List.getD_eq_getElem hopDets 0 hi4]; exact List.getElem_mem _
        have hne : hopDets.getD i 0 ≠ hopDets.getD 0 0 := by rcases hi with rfl | rfl <;> decide
        refine ⟨?_, hne⟩
        simp only [searchScore, List.map_cons, List.map_nil, List.sum_cons, List.sum_nil, add_zero, h3]
        rw [if_pos, pertScore, step_ham hi4 (by norm_num), step_ham hi4 hi4]
        · rcases hi with rfl | rfl <;> simp [stepVal]
        · refine ⟨searchReach_of_close (hS.1 _ m0) (hS.1 _ mi) ⟨(ha _ mi).trans (ha _ m0).symm, (hb _ mi).trans (hb _ m0).symm⟩
            hne ?_, ?_⟩
          · rcases hi with rfl | rfl <;> decide +kernel
          · rw [step_ham hi4 (by norm_num), h3]
            rcases hi with rfl | rfl <;> simp [stepVal] <;> norm_num
      rintro (rfl | rfl)
      · exact key 1 (Or.inl rfl)
      · exact key 2 (Or.inr rfl)
  rw [h1] at k2
  have hne : hopDets.getD 1 0 ≠ hopDets.getD 2 0 := by decide
  have hmem : ∀ t, t ∈ K → t = hopDets.getD 1 0 ∨ t = hopDets.getD 2 0 := fun t ht => (cand t).1 (k2.sub t ht)
  have hlen : K.length = 2 := by
    have h1 := k2.atMost
    have h2 := k2.full
    change K.length ≤ 2 at h1
    by_contra hl
    have hf := h2 (by change K.length < 2; omega)
    have a := hf _ ((cand _).2 (Or.inl rfl))
    have b := hf _ ((cand _).2 (Or.inr rfl))
    match K, a, b, hl, h1 with
    | [], a, _, _, _ => cases a
    | [x], a, b, _, _ =>
      exact hne ((List.mem_singleton.1 a).trans (List.mem_singleton.1 b).symm)
    | [_, _], _, _, hl, _ => exact hl rfl
  match K, hlen, hmem, k2.nodup, k1 with
  | [x, y], _, hm, nd, k1 =>
    have hx := hm x (by simp)
    have hy := hm y (by simp)
    have hxy : x ≠ y := by simpa using nd
    rcases hx with rfl | rfl <;> rcases hy with rfl | rfl
    · exact absurd rfl hxy
    · exact ⟨[1, 2, 0], Or.inl rfl, k1⟩
    · exact ⟨[2, 1, 0], Or.inr rfl, k1⟩
    · exact absurd rfl hxy

/-! ### the run -/

def stepFci : List Char := "1. 1 2 0 0\n1. 2 2 0 0\n".toList

noncomputable def stepEntries : List (FciEntry ℝ) := [⟨1, 2, 0, 0, 1⟩, ⟨2, 2, 0, 0, 1⟩]

theorem stepFci_entries : Entries exIO (fileLines stepFci) stepEntries := by
  have e : fileLines stepFci = ["1. 1 2 0 0".toList, "1. 2 2 0 0".toList] := by decide +kernel
  rw [e]
  refine .entry ⟨"1.".toList, [], " ".toList, " ".toList, " ".toList, " ".toList, [], by simp [exIO], by decide, by decide,
    ⟨'.', by decide, Or.inr rfl⟩, by simp [Blank0], ?_, ?_, ?_, ?_, by simp [Blank0], Or.inr ?_⟩
    (by norm_num) (by norm_num) (by norm_num) (by norm_num) (.entry ⟨"1.".toList, [], " ".toList, " ".toList, " ".toList,
      " ".toList, [], by simp [exIO], by decide, by decide,
    ⟨'.', by decide, Or.inr rfl⟩, by simp [Blank0], ?_, ?_, ?_, ?_, by simp [Blank0], Or.inr ?_⟩
    (by norm_num) (by norm_num) (by norm_num) (by norm_num) .nil)
  · exact ⟨by decide, by decide⟩
  · exact ⟨by decide, by decide⟩
  · exact ⟨by decide, by decide⟩
  · exact ⟨by decide, by decide⟩
  · change _ = _ ++ showNat 1 ++ _ ++ showNat 2 ++ _ ++ showNat 0 ++ _ ++ showNat 0 ++ _
    decide +kernel
  · exact ⟨by decide, by decide⟩
  · exact ⟨by decide, by decide⟩
  · exact ⟨by decide, by decide⟩
  · exact ⟨by decide, by decide⟩
  · change _ = _ ++ showNat 2 ++ _ ++ showNat 2 ++ _ ++ showNat 0 ++ _ ++ showNat 0 ++ _
    decide +kernel

theorem stepEntries_std : ∀ e ∈ stepEntries, Standard e := by
  intro e he
  simp only [stepEntries, List.mem_cons, List.not_mem_nil, or_false] at he
  rcases he with rfl | rfl
  · exact Or.inr (Or.inl (by simp))
  · exact Or.inr (Or.inl (by simp))

theorem stepEntries_max : maxIdx stepEntries = 2 := by simp [maxIdx, stepEntries]

theorem stepEntries_T {p q : Nat} (hp : p < 2) (hq : q < 2) : (fileInts stepEntries).T p q = stepI.T p q := by
  have : p = 0 ∨ p = 1 := by omega
  have : q = 0 ∨ q = 1 := by omega
  rcases ‹p = 0 ∨ p = 1› with rfl | rfl <;> rcases ‹q = 0 ∨ q = 1› with rfl | rfl <;>
    simp [fileInts, stepEntries, lastSuch, givesOne, stepI]

theorem stepEntries_V {p q r s : Nat} : (fileInts stepEntries).V p q r s = 0 := by
  simp [fileInts, stepEntries, lastSuch, givesTwo]

/-- everything the program calls, with this file and working sorting routines -/
noncomputable def stepEnv (eig : Nat → (Nat → Nat → ℝ) → ℝ × (Nat → ℝ))
    (syev : Nat → (Nat → ℝ) → Nat → (Nat → ℝ) × (Nat → ℝ)) : DriverEnv where
  io := exIO
  text _ := stepFci
  rdmFile _ := none
  eig := eig
  syev := syev
  gelss _ _ _ := 0
  srtIdx C := List.insertionSort fun i j => |C.getD j 0| ≤ |C.getD i 0|
  srt := exSort
  part := id
  nth _ := List.insertionSort fun x y => |y.rv| ≤ |x.rv|
  fuel := 5

theorem stepEnv_sorts (eig : Nat → (Nat → Nat → ℝ) → ℝ × (Nat → ℝ))
    (syev : Nat → (Nat → ℝ) → Nat → (Nat → ℝ) × (Nat → ℝ)) : SortsOk (stepEnv eig syev) where
  idx := by
    intro C l
    refine ⟨List.perm_insertionSort _ _, ?_⟩
    have : Std.Total (fun i j : Nat => |C.getD j 0| ≤ |C.getD i 0|) := ⟨fun x y => le_total _ _⟩
    have : IsTrans Nat (fun i j : Nat => |C.getD j 0| ≤ |C.getD i 0|) := ⟨fun x y z h1 h2 => le_trans h2 h1⟩
    refine (List.pairwise_insertionSort (fun i j : Nat => |C.getD j 0| ≤ |C.getD i 0|) l).imp ?_
    intro x y hxy
    simpa using hxy
  srt := exSort_sorts
  part := fun l => List.Perm.refl l
  nth := exNth_spec (fun p : Contrib (2 * 32) ℝ => |p.rv|) _ rfl

/-- an ASCI calculation with three determinants -/
def asciInput : List Char :=
  "[CI]\nFCIDUMP = F\nNALPHA = 1\nNBETA = 1\nJOB = CI\nEXPANSION = ASCI\n[MCSCF]\nCI_RES_TOL = 9.\n[ASCI]\nNTDETS_MAX = 3\nMAX_REFINE_ITER = 0".toList

set_option maxHeartbeats 2000000 in
theorem asciInput_reads : ∃ d o, Ini.parse asciInput = .ok d ∧ Ini.getString d "CI.FCIDUMP".toList = .ok "F".toList ∧
    Ini.getSize d "CI.NALPHA".toList = .ok 1 ∧ Ini.getSize d "CI.NBETA".toList = .ok 1 ∧
    readOptions exIO d 2 = .ok (.ci, .asci, ⟨1, 1, 0, 2, 0⟩, o) ∧ o.ci = ⟨9, 20, 1 / 2 ^ 52⟩ ∧ o.mp2Guess = false ∧
    o.asci = ⟨3, 100, 100, 8, 0, 1 / 1000000, false, 1000⟩ ∧
    o.contrib = ⟨1 / 100000000, 1 / 100000000, 500000000, false, 2⟩ ∧ o.wfnFile = [] ∧ o.wfnOut = [] := by
  have hp : (Ini.parse asciInput).isOk = true := by decide +kernel
  cases hd : Ini.parse asciInput with
  | error e => rw [hd] at hp; cases hp
  | ok d =>
    have F : ∀ {q : String} {b : Bool}, (Ini.parse asciInput >>= fun d => Ini.containsData d q.toList) = .ok b →
        Ini.containsData d q.toList = .ok b := fun h => parse_fact hd _ h
    have a1 : Ini.getString d "CI.JOB".toList = .ok "CI".toList :=
      parse_fact hd (fun d => Ini.getString d "CI.JOB".toList) (by decide +kernel)
    have a1' : Ini.getString d "CI.EXPANSION".toList = .ok "ASCI".toList :=
      parse_fact hd (fun d => Ini.getString d "CI.EXPANSION".toList) (by decide +kernel)
    have a2 : Ini.getString d "MCSCF.CI_RES_TOL".toList = .ok "9.".toList :=
      parse_fact hd (fun d => Ini.getString d "MCSCF.CI_RES_TOL".toList) (by decide +kernel)
    have a3 : Ini.readSpace d 2 = .ok ⟨1, 1, 0, 2, 0⟩ :=
      parse_fact hd (fun d => Ini.readSpace d 2) (by decide +kernel)
    have b1 : Ini.getString d "CI.FCIDUMP".toList = .ok "F".toList :=
      parse_fact hd (fun d => Ini.getString d "CI.FCIDUMP".toList) (by decide +kernel)
    have b2 : Ini.getSize d "CI.NALPHA".toList = .ok 1 :=
      parse_fact hd (fun d => Ini.getSize d "CI.NALPHA".toList) (by decide +kernel)
    have b3 : Ini.getSize d "CI.NBETA".toList = .ok 1 :=
      parse_fact hd (fun d => Ini.getSize d "CI.NBETA".toList) (by decide +kernel)
    have b4 : Ini.getSize d "ASCI.NTDETS_MAX".toList = .ok 3 :=
      parse_fact hd (fun d => Ini.getSize d "ASCI.NTDETS_MAX".toList) (by decide +kernel)
    have b5 : Ini.getSize d "ASCI.MAX_REFINE_ITER".toList = .ok 0 :=
      parse_fact hd (fun d => Ini.getSize d "ASCI.MAX_REFINE_ITER".toList) (by decide +kernel)
    have a4 : readFileNames d = .ok ([], []) := by
      unfold readFileNames
      rw [optKey_absent (F (by decide +kernel)), optKey_absent (F (by decide +kernel))]
      rfl
    have a5 : readMcscf exIO d = .ok (⟨100, 1 / 2, 5 / 1000000, true, 3, 10⟩, ⟨9, 20, 1 / 2 ^ 52⟩) := by
      unfold readMcscf
      rw [optKey_absent (F (by decide +kernel)), optKey_absent (F (by decide +kernel)),
        optKey_absent (F (by decide +kernel)), optKey_absent (F (by decide +kernel)),
        optKey_absent (F (by decide +kernel)), optKey_absent (F (by decide +kernel)),
        optKey_present (q := "MCSCF.CI_RES_TOL") (F (by decide +kernel)), optKey_absent (F (by decide +kernel)),
        optKey_absent (F (by decide +kernel)), getDouble, a2]
      have : exIO.parse "9.".toList = some 9 := by
        change (if "9.".toList = "0.".toList then some (0 : ℝ) else if "9.".toList = "1.".toList then some 1 else
          if "9.".toList = "9.".toList then some 9 else none) = _
        rw [if_neg (by decide +kernel), if_neg (by decide +kernel), if_pos rfl]
      simp only [bind, Except.bind, this]
      rfl
    have a6 : readAsci exIO d = .ok (⟨3, 100, 100, 8, 0, 1 / 1000000, false, 1000⟩,
        ⟨1 / 100000000, 1 / 100000000, 500000000, false, 2⟩, [], [], none) := by
      unfold readAsci
      rw [optKey_present (q := "ASCI.NTDETS_MAX") (F (by decide +kernel)), b4,
        optKey_present (q := "ASCI.MAX_REFINE_ITER") (F (by decide +kernel)), b5]
      repeat rw [optKey_absent (F (by decide +kernel))]
      rfl
    have a7 : ∃ x, readPrint exIO d = .ok x := by
      unfold readPrint
      repeat rw [optKey_absent (F (by decide +kernel))]
      exact ⟨_, rfl⟩
    obtain ⟨⟨z1, z2⟩, a7⟩ := a7
    refine ⟨d, ⟨[], [], ⟨100, 1 / 2, 5 / 1000000, true, 3, 10⟩, ⟨9, 20, 1 / 2 ^ 52⟩,
      ⟨3, 100, 100, 8, 0, 1 / 1000000, false, 1000⟩, ⟨1 / 100000000, 1 / 100000000, 500000000, false, 2⟩, [], [], none,
      false, z1, z2⟩, rfl, b1, b2, b3, ?_, rfl, rfl, rfl, rfl, rfl, rfl⟩
    unfold readOptions
    rw [optKey_present (q := "CI.JOB") (F (by decide +kernel)), a1]
    simp only [bind, Except.bind]
    rw [optKey_present (q := "CI.EXPANSION") (F (by decide +kernel)), a1', a3, a4, a5, a6, a7]
    simp only
    rw [optKey_absent (q := "MCSCF.MP2_GUESS") (F (by decide +kernel))]
    rfl

theorem step_asci {eig : Nat → (Nat → Nat → ℝ) → ℝ × (Nat → ℝ)} (he : LowestPair eig)
    (syev : Nat → (Nat → ℝ) → Nat → (Nat → ℝ) × (Nat → ℝ)) {o : DriverSettings} (h1 : o.ci = ⟨9, 20, 1 / 2 ^ 52⟩)
    (h2 : o.asci = ⟨3, 100, 100, 8, 0, 1 / 1000000, false, 1000⟩)
    (h3 : o.contrib = ⟨1 / 100000000, 1 / 100000000, 500000000, false, 2⟩) (h4 : o.wfnFile = []) (h5 : o.wfnOut = [])
    {Ta Va : Nat → ℝ} (hT : ∀ p q, p < 2 → q < 2 → asMat Ta 2 p q = stepI.T p q)
    (hV : ∀ p q r s, p < 2 → q < 2 → r < 2 → s < 2 → asTen Va 2 p q r s = 0) (c eI : ℝ) :
    ∃ x, runAsci (stepEnv eig syev) o ⟨1, 1, 0, 2, 0⟩ c eI Ta Va = .ok x := by
  have agree : AgreeBelow 2 stepI (viewInts 2 Ta Va) := ⟨hT, hV⟩
  obtain ⟨hS, -, -, ha, hb, hall⟩ :=
    hilbert_sector (M := 32) (n := 2) (by norm_num) (by norm_num) (by norm_num) hop_hilbert
  have m0 : hopDets.getD 0 0 ∈ hopDets := List.mem_cons_self
  have hf : canonicalHF 32 (1 % 2 ^ 32) (1 % 2 ^ 32) = hopDets.getD 0 0 := by decide +kernel
  have ham : ∀ s t : BitVec (2 * 32), hamiltonian (viewInts 2 Ta Va) s t = hamiltonian stepI s t :=
    hamiltonian_congr_below (I := stepI) (J := viewInts 2 Ta Va) rfl hT hV
  have hE : (viewInts 2 Ta Va).matrixElement (hopDets.getD 0 0) (hopDets.getD 0 0) = 0 := by
    have := C152_slater_condon (M := 32) (viewInts 2 Ta Va) (by simp [viewInts]) two_ne_zero
      (fun p q r s hp hq hr hs => (hV p q r s hp hq hr hs).trans (hV r s p q hr hs hp hq).symm)
      (hS.1 _ m0) (hS.1 _ m0) ⟨rfl, rfl⟩
    rw [this, ham, step_ham (by norm_num) (by norm_num)]
    simp [stepVal]
  have ok := stepEnv_sorts eig syev
  obtain ⟨idx, hidx, hse⟩ := step_search ok.srt ok.part ok.nth (st := o.contrib) (by rw [h3]) (by rw [h3]; norm_num)
    (by rw [h3])
  obtain ⟨it, E, x, hdi⟩ := step_diag he (ci := o.ci) (by rw [h1]) (by rw [h1]; norm_num) (by rw [h1]; norm_num)
    (by rw [h1]; norm_num) hidx
  set w := idx.map fun i => hopDets.getD i 0 with hw
  have wm : ∀ s ∈ w, s ∈ hopDets := by
    intro s hs
    obtain ⟨i, hi, rfl⟩ := List.mem_map.1 hs
    have : i < hopDets.length := by
      clear hs
      rcases hidx with rfl | rfl <;> revert i <;> decide
    rw [List.getD_eq_getElem _ _ this]
    exact List.getElem_mem _
  have wl : w.length = 3 := by
    rw [hw, List.length_map]
    rcases hidx with rfl | rfl <;> rfl
  have hse' : asciSearchSerial (viewInts 2 Ta Va) o.contrib 2 0 (stepEnv eig syev).srt (stepEnv eig syev).part
      (stepEnv eig syev).nth 3 [hopDets.getD 0 0] [1] = some w := by
    rw [← hse]
    exact asciSearchSerial_congr agree (by norm_num) _ _ _ _ _ _
      (fun s hs => by rw [List.mem_singleton.1 hs]; exact hS.1 _ m0) _
  have hdi' : selectedCiDiag eig (viewInts 2 Ta Va) w o.ci.matelTol o.ci.maxSub o.ci.resTol [] = .converged it E x := by
    rw [← hdi]
    unfold selectedCiDiag
    rw [C152_csr (M := 32) (I := stepI) (J := viewInts 2 Ta Va) (dets := w) (by simp [stepI]) hT hV
      (fun s hs => hS.1 s (wm s hs)) (fun s hs t ht => hS.2.2 s (wm s hs) t (wm t ht)) o.ci.matelTol]
  have hit : asciIter (asciEnv (stepEnv eig syev) o 2) o.asci 3 ⟨Ta, Va⟩ 0 [hopDets.getD 0 0] [1] =
      .ok (E, w, (List.range w.length).map x) := by
    unfold asciIter
    rw [if_neg (by simp)]
    have : (asciEnv (stepEnv eig syev) o 2).search ⟨Ta, Va⟩ 3 [hopDets.getD 0 0] 0 [1] = some w := hse'
    have hd : (asciEnv (stepEnv eig syev) o 2).diag ⟨Ta, Va⟩ w = some (E, (List.range w.length).map x) := by
      change (match selectedCiDiag eig (viewInts 2 Ta Va) w o.ci.matelTol o.ci.maxSub o.ci.resTol [] with
        | .converged _ E x => some (E, (List.range w.length).map x)
        | _ => none) = _
      rw [hdi']
    dsimp only
    rw [show List.take (min o.asci.ncdetsMax [hopDets.getD 0 0].length) [hopDets.getD 0 0] = [hopDets.getD 0 0] by
      rw [h2]; rfl, this]
    dsimp only
    rw [hd]
  have hgrow : ∃ st, asciGrow (asciEnv (stepEnv eig syev) o 2) o.asci 5 ⟨Ta, Va⟩ 0 [hopDets.getD 0 0] [1] = .ok st := by
    unfold asciGrow growLoop
    rw [if_pos (by rw [h2]; simp)]
    dsimp only
    unfold growBody
    dsimp only
    rw [show ndetsNew o.asci [hopDets.getD 0 0].length = 3 by rw [h2]; rfl, hit]
    simp only [Run.bind]
    rw [if_neg (by omega), if_neg (by rw [h2]; simp)]
    unfold growLoop
    dsimp only
    rw [if_neg (by rw [h2]; simp only; omega)]
    exact ⟨_, rfl⟩
  obtain ⟨st, hgrow⟩ := hgrow
  unfold runAsci
  dsimp only
  unfold asciGuess
  rw [if_neg (by simp [h4])]
  dsimp only
  rw [hf, hE]
  simp only [Out.bind]
  rw [show asciGrow (asciEnv (stepEnv eig syev) o 2) o.asci (stepEnv eig syev).fuel ⟨Ta, Va⟩ 0 [hopDets.getD 0 0] [1] =
    .ok st from hgrow]
  simp only [Run.toOut]
  rw [if_neg (by rw [h2]; simp)]
  simp only
  rw [if_neg (by simp [h5])]
  exact ⟨_, rfl⟩

/-- The program completes this calculation. -/
theorem asci_example {eig : Nat → (Nat → Nat → ℝ) → ℝ × (Nat → ℝ)} (he : LowestPair eig)
    (syev : Nat → (Nat → ℝ) → Nat → (Nat → ℝ) × (Nat → ℝ)) : ∃ o out,
    Asks (stepEnv eig syev) asciInput stepEntries .ci .asci ⟨1, 1, 0, 2, 0⟩ o ∧ o.mp2Guess = false ∧
      o.asci.growWithRot = false ∧ o.asci.ntdetsMax = 3 ∧ GuessFile (stepEnv eig syev) o 2 1 1 ∧
      o.ci = ⟨9, 20, 1 / 2 ^ 52⟩ ∧ driver (stepEnv eig syev) asciInput = .ok out := by
  obtain ⟨d, o, h1, h2, h3, h4, h5, h6, h7, h8, h9, h10, h11⟩ := asciInput_reads
  obtain ⟨f, f1, f2, f3, f4, f5⟩ := readIntegrals_entries stepFci_entries stepEntries_std
  rw [stepEntries_max] at f2
  rw [f2] at f4 f5
  set H := activeHamiltonian 2 2 0 f.T 2 f.V 2 (fun _ => 0) 2 (fun _ => 0) 2 (fun _ => 0) 2 with hH
  have hT : ∀ p q, p < 2 → q < 2 → asMat H.2.1 2 p q = stepI.T p q := by
    intro p q hp hq
    have : H.2.1 (p + q * 2) = H.1 (p + 0 + (q + 0) * 2) :=
      (fill2 (le_refl 2) (fun _ => 0) (fun x => H.1 (x.1 + 0 + (x.2 + 0) * 2))).1 p q hp hq
    rw [asMat, this, Nat.add_zero, Nat.add_zero, ← stepEntries_T hp hq, ← f4 p q hp hq]
    have := inactiveFock_val (ldt := 2) (ldv := 2) (ni := 0) (le_refl 2) f.T f.V (fun _ => 0) hp hq
    refine this.trans ?_
    simp [fi]
  have hV : ∀ p q r s, p < 2 → q < 2 → r < 2 → s < 2 → asTen H.2.2 2 p q r s = 0 := by
    intro p q r s hp hq hr hs
    have : H.2.2 (addr4 2 p q r s) = f.V (p + 0 + (q + 0) * 2 + (r + 0) * (2 * 2) + (s + 0) * (2 * 2 * 2)) :=
      (fill4 (le_refl 2) (fun _ => 0) (fun x => f.V (x.1 + 0 + (x.2.1 + 0) * 2 + (x.2.2.1 + 0) * (2 * 2) +
        (x.2.2.2 + 0) * (2 * 2 * 2)))).1 p q r s hp hq hr hs
    rw [asTen, this, show p + 0 + (q + 0) * 2 + (r + 0) * (2 * 2) + (s + 0) * (2 * 2 * 2) = addr4 2 p q r s by
      unfold addr4; ring]
    exact (f5 p q r s hp hq hr hs).trans stepEntries_V
  have hrun : ∃ out, driver (stepEnv eig syev) asciInput = .ok out := by
    unfold driver
    rw [h1]
    simp only [ofExcept, Out.bind]
    rw [h2]
    simp only [ofExcept]
    rw [h3, h4]
    simp only [ofExcept]
    rw [if_neg (by simp)]
    rw [show readIntegrals (stepEnv eig syev).io ((stepEnv eig syev).text "F".toList) = .ok f from f1]
    simp only [Run.toOut]
    rw [f2, show readOptions (stepEnv eig syev).io d 2 = _ from h5]
    simp only [ofExcept]
    unfold runJob
    rw [h7]
    simp only [Bool.false_eq_true, if_false, Out.bind, f2]
    rw [← hH]
    obtain ⟨x, hx⟩ := step_asci he syev h6 h8 h9 h10 h11 hT hV f.core (inactiveEnergy 0 f.T 2 H.1 2)
    rw [show runAsci (stepEnv eig syev) o ⟨1, 1, 0, 2, 0⟩ f.core _ H.2.1 H.2.2 = .ok x from hx]
    exact ⟨_, rfl⟩
  obtain ⟨out, hout⟩ := hrun
  exact ⟨o, out, ⟨d, _, h1, h2, stepFci_entries, stepEntries_std, by rw [stepEntries_max]; exact h5⟩, h7,
    by rw [h8], by rw [h8], fun e => absurd h10 e, h6, hout⟩


/-! ### a run with the MP2 guess -/

/-- an ASCI calculation with one determinant in the MP2 guess orbitals -/
def guessInput : List Char :=
  "[CI]\nFCIDUMP = F\nNALPHA = 1\nNBETA = 1\nJOB = CI\nEXPANSION = ASCI\nFCIDUMP_OUT = G\n[MCSCF]\nMP2_GUESS = TRUE\n[ASCI]\nNTDETS_MAX = 1\nMAX_REFINE_ITER = 0".toList

set_option maxHeartbeats 2000000 in
theorem guessInput_reads : ∃ d o, Ini.parse guessInput = .ok d ∧ Ini.getString d "CI.FCIDUMP".toList = .ok "F".toList ∧
    Ini.getSize d "CI.NALPHA".toList = .ok 1 ∧ Ini.getSize d "CI.NBETA".toList = .ok 1 ∧
    readOptions exIO d 2 = .ok (.ci, .asci, ⟨1, 1, 0, 2, 0⟩, o) ∧ 0 ≤ o.ci.matelTol ∧ o.mp2Guess = true ∧
    o.asci.ntdetsMax = 1 ∧ o.asci.maxRefineIter = 0 ∧ o.wfnFile = [] ∧ o.wfnOut = [] ∧ o.fciOut = "G".toList := by
  have hp : (Ini.parse guessInput).isOk = true := by decide +kernel
  cases hd : Ini.parse guessInput with
  | error e => rw [hd] at hp; cases hp
  | ok d =>
    have F : ∀ {q : String} {b : Bool}, (Ini.parse guessInput >>= fun d => Ini.containsData d q.toList) = .ok b →
        Ini.containsData d q.toList = .ok b := fun h => parse_fact hd _ h
    have a1 : Ini.getString d "CI.JOB".toList = .ok "CI".toList :=
      parse_fact hd (fun d => Ini.getString d "CI.JOB".toList) (by decide +kernel)
    have a1' : Ini.getString d "CI.EXPANSION".toList = .ok "ASCI".toList :=
      parse_fact hd (fun d => Ini.getString d "CI.EXPANSION".toList) (by decide +kernel)
    have a2 : Ini.getBool d "MCSCF.MP2_GUESS".toList = .ok true :=
      parse_fact hd (fun d => Ini.getBool d "MCSCF.MP2_GUESS".toList) (by decide +kernel)
    have a3 : Ini.readSpace d 2 = .ok ⟨1, 1, 0, 2, 0⟩ :=
      parse_fact hd (fun d => Ini.readSpace d 2) (by decide +kernel)
    have b1 : Ini.getString d "CI.FCIDUMP".toList = .ok "F".toList :=
      parse_fact hd (fun d => Ini.getString d "CI.FCIDUMP".toList) (by decide +kernel)
    have b2 : Ini.getSize d "CI.NALPHA".toList = .ok 1 :=
      parse_fact hd (fun d => Ini.getSize d "CI.NALPHA".toList) (by decide +kernel)
    have b3 : Ini.getSize d "CI.NBETA".toList = .ok 1 :=
      parse_fact hd (fun d => Ini.getSize d "CI.NBETA".toList) (by decide +kernel)
    have b4 : Ini.getSize d "ASCI.NTDETS_MAX".toList = .ok 1 :=
      parse_fact hd (fun d => Ini.getSize d "ASCI.NTDETS_MAX".toList) (by decide +kernel)
    have b5 : Ini.getSize d "ASCI.MAX_REFINE_ITER".toList = .ok 0 :=
      parse_fact hd (fun d => Ini.getSize d "ASCI.MAX_REFINE_ITER".toList) (by decide +kernel)
    have b6 : Ini.getString d "CI.FCIDUMP_OUT".toList = .ok "G".toList :=
      parse_fact hd (fun d => Ini.getString d "CI.FCIDUMP_OUT".toList) (by decide +kernel)
    have a4 : readFileNames d = .ok ([], "G".toList) := by
      unfold readFileNames
      rw [optKey_absent (F (by decide +kernel)), optKey_present (q := "CI.FCIDUMP_OUT") (F (by decide +kernel)), b6]
      rfl
    have a5 : ∃ m, readMcscf exIO d = .ok (m, ⟨1 / 100000000, 20, 1 / 2 ^ 52⟩) := by
      unfold readMcscf
      repeat rw [optKey_absent (F (by decide +kernel))]
      exact ⟨_, rfl⟩
    obtain ⟨m, a5⟩ := a5
    have a6 : ∃ c e, readAsci exIO d = .ok (⟨1, 100, 100, 8, 0, 1 / 1000000, false, 1000⟩, c, [], [], e) := by
      unfold readAsci
      rw [optKey_present (q := "ASCI.NTDETS_MAX") (F (by decide +kernel)), b4,
        optKey_present (q := "ASCI.MAX_REFINE_ITER") (F (by decide +kernel)), b5]
      repeat rw [optKey_absent (F (by decide +kernel))]
      exact ⟨_, _, rfl⟩
    obtain ⟨c, e, a6⟩ := a6
    have a7 : ∃ x, readPrint exIO d = .ok x := by
      unfold readPrint
      repeat rw [optKey_absent (F (by decide +kernel))]
      exact ⟨_, rfl⟩
    obtain ⟨⟨z1, z2⟩, a7⟩ := a7
    refine ⟨d, ⟨[], "G".toList, m, ⟨1 / 100000000, 20, 1 / 2 ^ 52⟩, ⟨1, 100, 100, 8, 0, 1 / 1000000, false, 1000⟩, c, [], [], e,
      true, z1, z2⟩, rfl, b1, b2, b3, ?_, by norm_num, rfl, rfl, rfl, rfl, rfl, rfl⟩
    unfold readOptions
    rw [optKey_present (q := "CI.JOB") (F (by decide +kernel)), a1]
    simp only [bind, Except.bind]
    rw [optKey_present (q := "CI.EXPANSION") (F (by decide +kernel)), a1', a3, a4, a5, a6, a7]
    simp only
    rw [optKey_present (q := "MCSCF.MP2_GUESS") (F (by decide +kernel)), a2]
    rfl

theorem one_det_asci (env : DriverEnv) {o : DriverSettings} (h8 : o.asci.ntdetsMax = 1) (h9 : o.asci.maxRefineIter = 0)
    (h10 : o.wfnFile = []) (h11 : o.wfnOut = []) (sp : Ini.Space) (c eI : ℝ) (Ta Va : Nat → ℝ) :
    ∃ r, runAsci env o sp c eI Ta Va = .ok r := by
  unfold runAsci asciGuess asciGrow growLoop
  dsimp only
  rw [if_neg (show ¬ o.wfnFile ≠ [] by simp [h10])]
  simp only [Out.bind]
  rw [if_neg (by rw [h8]; simp)]
  simp only [Run.toOut]
  rw [if_neg (show ¬ o.asci.maxRefineIter ≠ 0 by rw [h9]; simp)]
  simp only
  rw [if_neg (show ¬ o.wfnOut ≠ [] by simp [h11])]
  exact ⟨_, rfl⟩

/-- The program completes this calculation. -/
theorem guess_example (eig : Nat → (Nat → Nat → ℝ) → ℝ × (Nat → ℝ))
    (syev : Nat → (Nat → ℝ) → Nat → (Nat → ℝ) × (Nat → ℝ)) : ∃ o out,
    Asks (stepEnv eig syev) guessInput stepEntries .ci .asci ⟨1, 1, 0, 2, 0⟩ o ∧ o.mp2Guess = true ∧
      GuessFile (stepEnv eig syev) o 2 1 1 ∧ 0 ≤ o.ci.matelTol ∧
      driver (stepEnv eig syev) guessInput = .ok out ∧ ∃ lines, out.fciOut = some lines := by
  obtain ⟨d, o, h1, h2, h3, h4, h5, h6, h7, h8, h9, h10, h11, h12⟩ := guessInput_reads
  obtain ⟨f, f1, f2, f3, f4, f5⟩ := readIntegrals_entries stepFci_entries stepEntries_std
  rw [stepEntries_max] at f2
  have hrun : ∃ out, driver (stepEnv eig syev) guessInput = .ok out ∧ ∃ lines, out.fciOut = some lines := by
    unfold driver
    rw [h1]
    simp only [ofExcept, Out.bind]
    rw [h2]
    simp only [ofExcept]
    rw [h3, h4]
    simp only [ofExcept]
    rw [if_neg (by simp)]
    rw [show readIntegrals (stepEnv eig syev).io ((stepEnv eig syev).text "F".toList) = .ok f from f1]
    simp only [Run.toOut]
    rw [f2, show readOptions (stepEnv eig syev).io d 2 = _ from h5]
    simp only [ofExcept]
    unfold runJob mp2Guess
    rw [h7]
    simp only [if_true, f2]
    rw [if_neg (by norm_num)]
    simp only [Out.bind]
    obtain ⟨r, hr⟩ := one_det_asci (stepEnv eig syev) h8 h9 h10 h11 ⟨1, 1, 0, 2, 0⟩ _ _ _ _
    rw [hr]
    simp only
    refine ⟨_, rfl, ?_⟩
    rw [if_pos (by rw [h12]; decide)]
    exact ⟨_, rfl⟩
  obtain ⟨out, hout, hlines⟩ := hrun
  exact ⟨o, out, ⟨d, _, h1, h2, stepFci_entries, stepEntries_std, by rw [stepEntries_max]; exact h5⟩, h7,
    fun e => absurd h10 e, h6, hout, hlines⟩

end Macis
