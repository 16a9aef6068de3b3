import Verif.Lemmas.DriverRun
/-! A small calculation that the standalone program completes. -/
namespace Macis
open Spec Finset

/-- the Davidson solver stops at once when the tolerance exceeds the norm of the matrix and the guess is no
eigenvector -/
theorem davidson_big_tol {N : Nat} {A : Matrix (Fin N) (Fin N) ℝ} (hA : A.IsSymm) (D : Fin N → ℝ) {tol : ℝ}
    (htol : 0 < tol) (hF : ∑ i, ∑ j, A i j * A i j < tol * tol)
    {eig : Nat → (Nat → Nat → ℝ) → ℝ × (Nat → ℝ)} (he : LowestPair eig) (maxM : Nat)
    (guess : Fin N → ℝ) (hg : (∑ t, guess t * guess t) = 1) (hM : 2 ≤ maxM) (hN : 2 ≤ N)
    (hne : ¬ ∃ mu : ℝ, A.mulVec guess = mu • guess) :
    ∃ iter lam x, davidson A.mulVec D tol eig maxM guess = .converged iter lam x := by
  have hV1 : OrthonormalCols 1 (fun _ => guess : Nat → Fin N → ℝ) := by
    intro p hp q hq
    rw [if_pos (by omega)]
    exact hg
  obtain ⟨m, hm⟩ : ∃ m, min maxM N - 1 = m + 1 := ⟨min maxM N - 2, by omega⟩
  unfold davidson davidsonRun
  rw [if_neg (by omega), if_neg (by omega)]
  dsimp only
  rw [hm]
  split
  · rename_i hw
    exfalso
    apply hne
    obtain ⟨b, hb⟩ := (C50_gram_schmidt_breakdown hV1).1 hw
    refine ⟨b 0, funext fun t => ?_⟩
    rw [hb t]; simp [mul_comm]
  · rename_i w hw
    obtain ⟨g1, g2, -⟩ := gramSchmidt_some hV1 hw
    have hV' := orthonormal_update hV1 g1 g2
    have hAV : ∀ j < 1 + 1, Function.update (fun _ => A.mulVec guess : Nat → Fin N → ℝ) 1
        (A.mulVec (Function.update (fun _ => guess) 1 w 1)) j = A.mulVec (Function.update (fun _ => guess) 1 w j) := by
      intro j hj
      by_cases c : j = 1
      · rw [c, Function.update_self]
      · rw [Function.update_of_ne c, Function.update_of_ne c]
    obtain ⟨r1, r2, r3, -⟩ := ritz_facts hA he (Nat.succ_pos 1) hV' hAV
    unfold davLoop
    dsimp only
    rw [r2, if_pos]
    · exact ⟨_, _, _, rfl⟩
    · set lam := (eig (1 + 1) fun p q => vdot (Function.update (fun _ => guess) 1 w p)
        (Function.update (fun _ => A.mulVec guess) 1 (A.mulVec (Function.update (fun _ => guess) 1 w 1)) q)).1
      set x := combine (1 + 1) (Function.update (fun _ => guess) 1 w) (eig (1 + 1) fun p q =>
        vdot (Function.update (fun _ => guess) 1 w p)
        (Function.update (fun _ => A.mulVec guess) 1 (A.mulVec (Function.update (fun _ => guess) 1 w 1)) q)).2
      have e1 : vdot (fun t => A.mulVec x t - lam * x t) (fun t => A.mulVec x t - lam * x t) =
          vdot (A.mulVec x) (A.mulVec x) - lam * lam := by
        have : ∀ t, (A.mulVec x t - lam * x t) * (A.mulVec x t - lam * x t) = A.mulVec x t * A.mulVec x t -
            2 * lam * (x t * A.mulVec x t) + lam * lam * (x t * x t) := fun t => by ring
        unfold vdot
        rw [Finset.sum_congr rfl fun t _ => this t, Finset.sum_add_distrib, Finset.sum_sub_distrib, ← Finset.mul_sum,
          ← Finset.mul_sum]
        have a1 : ∑ t, x t * A.mulVec x t = lam := r3
        have a2 : ∑ t, x t * x t = 1 := r1
        rw [a1, a2]; ring
      have e2 : vdot (A.mulVec x) (A.mulVec x) ≤ ∑ i, ∑ j, A i j * A i j := by
        refine Finset.sum_le_sum fun i _ => ?_
        have := Finset.sum_mul_sq_le_sq_mul_sq Finset.univ (fun j => A i j) x
        have a2 : ∑ t, x t ^ 2 = 1 := by
          have : ∑ t, x t * x t = 1 := r1
          rw [← this]; exact Finset.sum_congr rfl fun t _ => by ring
        rw [a2, mul_one] at this
        calc A.mulVec x i * A.mulVec x i = (∑ j, A i j * x j) ^ 2 := by rw [sq]; rfl
          _ ≤ ∑ j, A i j ^ 2 := this
          _ = _ := Finset.sum_congr rfl fun j _ => by ring
      unfold nrm2
      rw [e1, Real.sqrt_lt' htol]
      nlinarith [mul_self_nonneg lam]

/-- the serial solver from an unset vector, with a large tolerance -/
theorem serialDiag_big_tol {H : Csr ℝ} (hW : CsrWF H) (hn : H.n = H.m) (h2 : 2 ≤ H.m)
    (hnd : ∀ i < H.m, (H.rowCols i).Nodup)
    (hs : ∀ i j, i < H.m → j < H.m → csrEntry H i j = csrEntry H j i)
    (hc : ∀ m < H.m, ∃ k < H.m, k ≠ m ∧ csrEntry H k m ≠ 0)
    {eig : Nat → (Nat → Nat → ℝ) → ℝ × (Nat → ℝ)} (he : LowestPair eig) {maxM : Nat} (hM : 2 ≤ maxM)
    {tol : ℝ} (ht : 0 < tol)
    (hF : ∑ i ∈ range H.m, ∑ j ∈ range H.m, csrEntry H i j * csrEntry H i j < tol * tol) :
    ∃ iter E x, serialSelectedCiDiag eig H maxM tol [] = .converged iter E x := by
  have hd := C47_diagonal H hW hnd
  have hne : H.diagonal ≠ [] := by
    intro e; rw [e] at hd; simp at hd; omega
  obtain ⟨m, hm, hgm⟩ := C33_serial_guess H.diagonal hne
  rw [hd.1] at hgm
  have hml : m < H.m := by rw [← hd.1]; exact firstMin_lt hm
  have hg : serialGuess H [] = some ((List.replicate H.m 0).set m 1) := by
    unfold serialGuess
    rw [vresize_zero (by simp)]
    simp only [C74_fresh_vector_partial H.m (by omega)]
    exact hgm
  have hval : ∀ t : Fin H.m, ((List.replicate H.m (0 : ℝ)).set m 1).getD t 0 =
      if (t : Nat) = m then 1 else 0 := by
    intro t
    rw [List.getD_eq_getElem?_getD, List.getElem?_set]
    by_cases e : m = t
    · rw [if_pos e, if_pos (by simpa using e ▸ hml), if_pos e.symm]; rfl
    · rw [if_neg e, if_neg (fun x => e x.symm), List.getElem?_replicate, if_pos t.2]; rfl
  unfold serialSelectedCiDiag
  rw [hg]
  dsimp only
  rw [sparseOp_eq hW hn, funext hval]
  have hent : ∀ k : Fin H.m, (Matrix.of fun i j : Fin H.m => csrEntry H i j).mulVec
      (fun t => if (t : Nat) = m then 1 else 0) k = csrEntry H k m := by
    intro k
    simp only [Matrix.mulVec, dotProduct, Matrix.of_apply]
    rw [sum_eq_single (⟨m, hml⟩ : Fin H.m)]
    · simp
    · intro b _ hb
      rw [if_neg (fun e => hb (Fin.ext e)), mul_zero]
    · simp
  refine davidson_big_tol ?_ _ ht ?_ he maxM _ ?_ hM h2 ?_
  · ext i j
    simp only [Matrix.transpose_apply, Matrix.of_apply]
    exact hs j i j.2 i.2
  · simp only [Matrix.of_apply]
    rw [sum_range] at hF
    simp only [sum_range] at hF
    exact hF
  · rw [sum_eq_single (⟨m, hml⟩ : Fin H.m)]
    · simp
    · intro b _ hb
      rw [if_neg (fun e => hb (Fin.ext e)), mul_zero]
    · simp
  · rintro ⟨mu, hmu⟩
    obtain ⟨k, hk, hkm, hz⟩ := hc m hml
    have e := congrFun hmu ⟨k, hk⟩
    rw [hent, Pi.smul_apply, if_neg hkm, smul_zero] at e
    exact hz e

/-- two orbitals coupled by 1, no interaction -/
noncomputable def hopI : Integrals ℝ := ⟨2, fun p q => if p = q then 0 else 1, fun _ _ _ _ => 0⟩

theorem hopI_real : RealSymmetric hopI :=
  ⟨fun p q => by
    by_cases h : p = q
    · rw [h]
    · simp [hopI, h, Ne.symm h], fun _ _ _ _ => rfl, fun _ _ _ _ => rfl⟩

def hopDets : List (BitVec (2 * 32)) := [4294967297#64, 8589934593#64, 4294967298#64, 8589934594#64]

theorem hop_hilbert : generateHilbertSpace 32 2 1 1 = some hopDets := by decide +kernel

def hopVal (i j : Nat) : Int :=
  [[0, 1, 1, 0], [1, 0, 0, 1], [1, 0, 0, 1], [0, 1, 1, 0]].getD i [] |>.getD j 0

theorem hop_ham {i j : Nat} (hi : i < 4) (hj : j < 4) :
    hamiltonian hopI (hopDets.getD i 0) (hopDets.getD j 0) = hopVal i j := by
  have e : ∀ i < 4, ∀ j < 4, rdm1 (M := 32) (hopDets.getD i 0) (hopDets.getD j 0) 0 1 +
      rdm1 (M := 32) (hopDets.getD i 0) (hopDets.getD j 0) 1 0 = hopVal i j := by decide +kernel
  rw [hamiltonian_rdm, ← e i hi j hj]
  simp [hopI, sum_range_succ]

theorem hop_cas {eig : Nat → (Nat → Nat → ℝ) → ℝ × (Nat → ℝ)} (he : LowestPair eig) {ci : CiSettings} (h1 : ci.resTol = 9)
    (h2 : 2 ≤ ci.maxSub) (h3 : 0 ≤ ci.matelTol) (h4 : ci.matelTol < 1) {Ta Va : Nat → ℝ}
    (hT : ∀ p q, p < 2 → q < 2 → asMat Ta 2 p q = hopI.T p q)
    (hV : ∀ p q r s, p < 2 → q < 2 → r < 2 → s < 2 → asTen Va 2 p q r s = 0) (A1 A2 : Nat → ℝ) :
    ∃ x, casRdms eig ci 2 1 1 Ta Va A1 A2 [] = .ok x := by
  have hn : hopI.norb ≤ 32 := by simp [hopI]
  obtain ⟨hS, -⟩ := hilbert_sector (M := 32) hn (by simp [hopI]) (by simp [hopI]) hop_hilbert
  have hm : (hopI.csrHamiltonian hopDets ci.matelTol).m = 4 := csrBlock_m hopI h3 hopDets hopDets
  have hW : CsrWF (hopI.csrHamiltonian hopDets ci.matelTol) := csrBlock_wf hopI h3 hopDets hopDets
  have hent : ∀ i j, i < 4 → j < 4 → csrEntry (hopI.csrHamiltonian hopDets ci.matelTol) i j = hopVal i j := by
    intro i j hi hj
    rw [ciMatrix_entry hopI hn hopI_real h3 hS hi hj, ciMatrix]
    simp only [hop_ham hi hj]
    have : ∀ i < 4, ∀ j < 4, hopVal i j = 0 ∨ hopVal i j = 1 := by decide
    rcases this i hi j hj with e | e <;> rw [e]
    · simp
    · rw [if_pos]; simpa using h4
  obtain ⟨iter, E, x, hx⟩ := serialDiag_big_tol (H := hopI.csrHamiltonian hopDets ci.matelTol) hW
    (by rw [hm]; exact csrBlock_n hopI h3 hopDets hopDets) (by omega)
    (sorted_rowCols_nodup hW (csrBlock_sorted hopI h3 hopDets hopDets))
    (fun i j hi hj => by
      rw [hm] at hi hj
      rw [hent i j hi hj, hent j i hj hi]
      have : ∀ i < 4, ∀ j < 4, hopVal i j = hopVal j i := by decide
      rw [this i hi j hj])
    (fun m hlt => by
      rw [hm] at hlt
      have : ∀ m < 4, ∃ k < 4, k ≠ m ∧ hopVal k m ≠ 0 := by decide
      obtain ⟨k, k1, k2, k3⟩ := this m hlt
      exact ⟨k, by omega, k2, by rw [hent k m k1 hlt]; exact_mod_cast k3⟩)
    he h2 (tol := ci.resTol) (by rw [h1]; norm_num) (by
      rw [hm, h1, sum_congr rfl fun i hi => sum_congr rfl fun j hj => by
        rw [hent i j (mem_range.1 hi) (mem_range.1 hj)]]
      simp [sum_range_succ, hopVal]
      norm_num)
  have e0 : computeCasciRdms 32 eig (viewInts 2 Ta Va) 1 1 ci.matelTol ci.maxSub ci.resTol []
      ⟨fun p q => A1 (p + q * 2), fun p q r s => A2 (addr4 2 p q r s)⟩ =
      computeCasciRdms 32 eig hopI 1 1 ci.matelTol ci.maxSub ci.resTol []
      ⟨fun p q => A1 (p + q * 2), fun p q r s => A2 (addr4 2 p q r s)⟩ :=
    C152_casci (M := 32) (I := hopI) (J := viewInts 2 Ta Va) hn rfl hT hV eig (by simp [hopI]) (by simp [hopI]) _ _ _ _ _
  unfold casRdms
  rw [e0, hop_hilbert]
  unfold computeCasciRdms
  rw [show hopI.norb = 2 from rfl, hop_hilbert]
  dsimp only
  rw [selectedCiDiag, hx]
  exact ⟨_, rfl⟩

/-! ### the files -/

/-- numbers: `0.`, `1.` and `9.` -/
noncomputable def exIO : NumIO ℝ :=
  ⟨fun x => if x = 0 then "0.".toList else "1.".toList, fun s => if s = "0.".toList then some 0 else
    if s = "1.".toList then some 1 else if s = "9.".toList then some 9 else none⟩

theorem exIO_one : NumIO.FaithfulAt exIO 1 := by
  have e : exIO.fmt 1 = "1.".toList := by simp [exIO]
  refine ⟨?_, ?_, ?_⟩
  · rw [e]
    change (if "1.".toList = "0.".toList then some (0 : ℝ) else if "1.".toList = "1.".toList then some 1 else
      if "1.".toList = "9.".toList then some 9 else none) = _
    rw [if_neg (by decide +kernel), if_pos rfl]
  · rw [e]; decide
  · rw [e]; decide

theorem exIO_zero : NumIO.FaithfulAt exIO 0 := by
  have e : exIO.fmt 0 = "0.".toList := by simp [exIO]
  refine ⟨?_, ?_, ?_⟩
  · rw [e]
    change (if "0.".toList = "0.".toList then some (0 : ℝ) else if "0.".toList = "1.".toList then some 1 else
      if "0.".toList = "9.".toList then some 9 else none) = _
    rw [if_pos rfl]
  · rw [e]; decide
  · rw [e]; decide

def exFci : List Char := "1. 1 2 0 0\n".toList

noncomputable def exEntries : List (FciEntry ℝ) := [⟨1, 2, 0, 0, 1⟩]

theorem exFci_entries : Entries exIO (fileLines exFci) exEntries := by
  have e : fileLines exFci = ["1. 1 2 0 0".toList] := by decide +kernel
  rw [e]
  refine .entry ⟨"1.".toList, [], " ".toList, " ".toList, " ".toList, " ".toList, [], by simp [exIO, exEntries], by decide, by decide,
    ⟨'.', by decide, Or.inr rfl⟩, by simp [Blank0], ?_, ?_, ?_, ?_, by simp [Blank0], Or.inr ?_⟩
    (by norm_num) (by norm_num) (by norm_num) (by norm_num) .nil
  · exact ⟨by decide, by decide⟩
  · exact ⟨by decide, by decide⟩
  · exact ⟨by decide, by decide⟩
  · exact ⟨by decide, by decide⟩
  · change _ = _ ++ showNat 1 ++ _ ++ showNat 2 ++ _ ++ showNat 0 ++ _ ++ showNat 0 ++ _
    decide +kernel

theorem exEntries_std : ∀ e ∈ exEntries, Standard e := by
  intro e he
  simp only [exEntries, List.mem_singleton] at he
  subst he
  exact Or.inr (Or.inl (by simp))

theorem exEntries_max : maxIdx exEntries = 2 := by simp [maxIdx, exEntries]

theorem exEntries_T {p q : Nat} (hp : p < 2) (hq : q < 2) : (fileInts exEntries).T p q = hopI.T p q := by
  have : p = 0 ∨ p = 1 := by omega
  have : q = 0 ∨ q = 1 := by omega
  rcases ‹p = 0 ∨ p = 1› with rfl | rfl <;> rcases ‹q = 0 ∨ q = 1› with rfl | rfl <;>
    simp [fileInts, exEntries, lastSuch, givesOne, hopI]

theorem exEntries_V {p q r s : Nat} : (fileInts exEntries).V p q r s = 0 := by
  simp [fileInts, exEntries, lastSuch, givesTwo]

/-- everything the program calls, with only the given file -/
noncomputable def drvEnv (eig : Nat → (Nat → Nat → ℝ) → ℝ × (Nat → ℝ))
    (syev : Nat → (Nat → ℝ) → Nat → (Nat → ℝ) × (Nat → ℝ)) : DriverEnv where
  io := exIO
  text _ := exFci
  rdmFile _ := none
  eig := eig
  syev := syev
  gelss _ _ _ := 0
  srtIdx _ l := l
  srt := id
  part := id
  nth _ := id
  fuel := 5

theorem parse_fact {t : List Char} {d : Ini.Dict} (h : Ini.parse t = .ok d) {α : Type} (g : Ini.Dict → Except Ini.Err α) {v : α}
    (hd : (Ini.parse t >>= g) = .ok v) : g d = .ok v := by
  rw [h] at hd; exact hd

theorem optKey_absent {α : Type} {g : Ini.Dict → Ini.Str → Except Ini.Err α} {d : Ini.Dict} {q : String} {x : α}
    (h : Ini.containsData d q.toList = .ok false) : optKey g d q x = .ok x := by
  unfold optKey; rw [h]; rfl

theorem optKey_present {α : Type} {g : Ini.Dict → Ini.Str → Except Ini.Err α} {d : Ini.Dict} {q : String} {x : α}
    (h : Ini.containsData d q.toList = .ok true) : optKey g d q x = g d q.toList := by
  unfold optKey; rw [h]; rfl

/-- a CAS-CI calculation -/
def casInput : List Char :=
  "[CI]\nFCIDUMP = F\nNALPHA = 1\nNBETA = 1\nJOB = CI\nFCIDUMP_OUT = G\n[MCSCF]\nCI_RES_TOL = 9.".toList

set_option maxHeartbeats 2000000 in
theorem casInput_reads : ∃ d o, Ini.parse casInput = .ok d ∧ Ini.getString d "CI.FCIDUMP".toList = .ok "F".toList ∧
    Ini.getSize d "CI.NALPHA".toList = .ok 1 ∧ Ini.getSize d "CI.NBETA".toList = .ok 1 ∧
    readOptions exIO d 2 = .ok (.ci, .cas, ⟨1, 1, 0, 2, 0⟩, o) ∧ o.ci = ⟨9, 20, 1 / 2 ^ 52⟩ ∧ o.mp2Guess = false ∧
    o.fciOut = "G".toList ∧ o.wfnFile = [] := by
  have hp : (Ini.parse casInput).isOk = true := by decide +kernel
  cases hd : Ini.parse casInput with
  | error e => rw [hd] at hp; cases hp
  | ok d =>
    have F : ∀ {q : String} {b : Bool}, (Ini.parse casInput >>= fun d => Ini.containsData d q.toList) = .ok b →
        Ini.containsData d q.toList = .ok b := fun h => parse_fact hd _ h
    have a1 : Ini.getString d "CI.JOB".toList = .ok "CI".toList :=
      parse_fact hd (fun d => Ini.getString d "CI.JOB".toList) (by decide +kernel)
    have a2 : Ini.getString d "MCSCF.CI_RES_TOL".toList = .ok "9.".toList :=
      parse_fact hd (fun d => Ini.getString d "MCSCF.CI_RES_TOL".toList) (by decide +kernel)
    have a3 : Ini.readSpace d 2 = .ok ⟨1, 1, 0, 2, 0⟩ :=
      parse_fact hd (fun d => Ini.readSpace d 2) (by decide +kernel)
    have b1 : Ini.getString d "CI.FCIDUMP".toList = .ok "F".toList :=
      parse_fact hd (fun d => Ini.getString d "CI.FCIDUMP".toList) (by decide +kernel)
    have b2 : Ini.getSize d "CI.NALPHA".toList = .ok 1 :=
      parse_fact hd (fun d => Ini.getSize d "CI.NALPHA".toList) (by decide +kernel)
    have b3 : Ini.getSize d "CI.NBETA".toList = .ok 1 :=
      parse_fact hd (fun d => Ini.getSize d "CI.NBETA".toList) (by decide +kernel)
    have b4 : Ini.getString d "CI.FCIDUMP_OUT".toList = .ok "G".toList :=
      parse_fact hd (fun d => Ini.getString d "CI.FCIDUMP_OUT".toList) (by decide +kernel)
    have a4 : readFileNames d = .ok ([], "G".toList) := by
      unfold readFileNames
      rw [optKey_absent (F (by decide +kernel)), optKey_present (q := "CI.FCIDUMP_OUT") (F (by decide +kernel)), b4]
      rfl
    have a5 : readMcscf exIO d = .ok (⟨100, 1 / 2, 5 / 1000000, true, 3, 10⟩, ⟨9, 20, 1 / 2 ^ 52⟩) := by
      unfold readMcscf
      rw [optKey_absent (F (by decide +kernel)), optKey_absent (F (by decide +kernel)),
        optKey_absent (F (by decide +kernel)), optKey_absent (F (by decide +kernel)),
        optKey_absent (F (by decide +kernel)), optKey_absent (F (by decide +kernel)),
        optKey_present (q := "MCSCF.CI_RES_TOL") (F (by decide +kernel)), optKey_absent (F (by decide +kernel)),
        optKey_absent (F (by decide +kernel)), getDouble, a2]
      have : exIO.parse "9.".toList = some 9 := by
        change (if "9.".toList = "0.".toList then some (0 : ℝ) else if "9.".toList = "1.".toList then some 1 else
          if "9.".toList = "9.".toList then some 9 else none) = _
        rw [if_neg (by decide +kernel), if_neg (by decide +kernel), if_pos rfl]
      simp only [bind, Except.bind, this]
      rfl
    have a6 : ∃ y1 y2 y4 y5, readAsci exIO d = .ok (y1, y2, [], y4, y5) := by
      unfold readAsci
      repeat rw [optKey_absent (F (by decide +kernel))]
      exact ⟨_, _, _, _, rfl⟩
    obtain ⟨y1, y2, y4, y5, a6⟩ := a6
    have a7 : ∃ x, readPrint exIO d = .ok x := by
      unfold readPrint
      repeat rw [optKey_absent (F (by decide +kernel))]
      exact ⟨_, rfl⟩
    obtain ⟨⟨z1, z2⟩, a7⟩ := a7
    refine ⟨d, ⟨[], "G".toList, ⟨100, 1 / 2, 5 / 1000000, true, 3, 10⟩, ⟨9, 20, 1 / 2 ^ 52⟩, y1, y2, [], y4, y5, false, z1, z2⟩,
      rfl, b1, b2, b3, ?_, rfl, rfl, rfl, rfl⟩
    unfold readOptions
    rw [optKey_present (q := "CI.JOB") (F (by decide +kernel)), a1]
    simp only [bind, Except.bind]
    rw [optKey_absent (q := "CI.EXPANSION") (F (by decide +kernel)), a3, a4, a5, a6, a7]
    simp only
    rw [optKey_absent (q := "MCSCF.MP2_GUESS") (F (by decide +kernel))]
    rfl

/-- The program completes this calculation. -/
theorem cas_example {eig : Nat → (Nat → Nat → ℝ) → ℝ × (Nat → ℝ)} (he : LowestPair eig)
    (syev : Nat → (Nat → ℝ) → Nat → (Nat → ℝ) × (Nat → ℝ)) : ∃ o out,
    Asks (drvEnv eig syev) casInput exEntries .ci .cas ⟨1, 1, 0, 2, 0⟩ o ∧ o.mp2Guess = false ∧
      o.ci = ⟨9, 20, 1 / 2 ^ 52⟩ ∧ driver (drvEnv eig syev) casInput = .ok out ∧ o.fciOut = "G".toList ∧ o.wfnFile = [] ∧
      ∃ d, Ini.parse casInput = .ok d ∧ Ini.getString d "CI.FCIDUMP".toList = .ok "F".toList ∧
        readOptions exIO d (maxIdx exEntries) = .ok (.ci, .cas, ⟨1, 1, 0, 2, 0⟩, o) := by
  obtain ⟨d, o, h1, h2, h3, h4, h5, h6, h7, h8, h9⟩ := casInput_reads
  obtain ⟨f, f1, f2, f3, f4, f5⟩ := readIntegrals_entries exFci_entries exEntries_std
  rw [exEntries_max] at f2
  rw [f2] at f4 f5
  set H := activeHamiltonian 2 2 0 f.T 2 f.V 2 (fun _ => 0) 2 (fun _ => 0) 2 (fun _ => 0) 2 with hH
  have hT : ∀ p q, p < 2 → q < 2 → asMat H.2.1 2 p q = hopI.T p q := by
    intro p q hp hq
    have : H.2.1 (p + q * 2) = H.1 (p + 0 + (q + 0) * 2) :=
      (fill2 (le_refl 2) (fun _ => 0) (fun x => H.1 (x.1 + 0 + (x.2 + 0) * 2))).1 p q hp hq
    rw [asMat, this, Nat.add_zero, Nat.add_zero, ← exEntries_T hp hq, ← f4 p q hp hq]
    have := inactiveFock_val (ldt := 2) (ldv := 2) (ni := 0) (le_refl 2) f.T f.V (fun _ => 0) hp hq
    refine this.trans ?_
    simp [fi]
  have hV : ∀ p q r s, p < 2 → q < 2 → r < 2 → s < 2 → asTen H.2.2 2 p q r s = 0 := by
    intro p q r s hp hq hr hs
    have : H.2.2 (addr4 2 p q r s) = f.V (p + 0 + (q + 0) * 2 + (r + 0) * (2 * 2) + (s + 0) * (2 * 2 * 2)) :=
      (fill4 (le_refl 2) (fun _ => 0) (fun x => f.V (x.1 + 0 + (x.2.1 + 0) * 2 + (x.2.2.1 + 0) * (2 * 2) +
        (x.2.2.2 + 0) * (2 * 2 * 2)))).1 p q r s hp hq hr hs
    rw [asTen, this, show p + 0 + (q + 0) * 2 + (r + 0) * (2 * 2) + (s + 0) * (2 * 2 * 2) = addr4 2 p q r s by
      unfold addr4; ring]
    exact (f5 p q r s hp hq hr hs).trans exEntries_V
  obtain ⟨x, hx⟩ := hop_cas (Ta := H.2.1) (Va := H.2.2) he (ci := o.ci) (by rw [h6]) (by rw [h6]; norm_num)
    (by rw [h6]; norm_num) (by rw [h6]; norm_num) hT hV (fun _ => 0) (fun _ => 0)
  have hrun : ∃ out, driver (drvEnv eig syev) casInput = .ok out := by
    unfold driver
    rw [h1]
    simp only [ofExcept, Out.bind]
    rw [h2]
    simp only [ofExcept]
    rw [h3, h4]
    simp only [ofExcept]
    rw [if_neg (by simp)]
    rw [show readIntegrals (drvEnv eig syev).io ((drvEnv eig syev).text "F".toList) = .ok f from f1]
    simp only [Run.toOut]
    rw [f2, show readOptions (drvEnv eig syev).io d 2 = _ from h5]
    simp only [ofExcept]
    unfold runJob
    rw [h7]
    simp only [Bool.false_eq_true, if_false, Out.bind, f2]
    rw [← hH]
    unfold runCas
    simp only
    rw [show casRdms (drvEnv eig syev).eig o.ci 2 1 1 H.2.1 H.2.2 (fun _ => 0) (fun _ => 0) [] = .ok x from hx]
    exact ⟨_, rfl⟩
  obtain ⟨out, hout⟩ := hrun
  exact ⟨o, out, ⟨d, _, h1, h2, exFci_entries, exEntries_std, by rw [exEntries_max]; exact h5⟩, h7, h6, hout, h8, h9,
    d, h1, h2, by rw [exEntries_max]; exact h5⟩

end Macis
