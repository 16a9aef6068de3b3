import Verif.Model.Casci
import Verif.Spec.Casci
import Verif.Props.HamCsr
import Verif.Props.SpBlas
import Verif.Props.SpTri
import Verif.Props.SD
import Verif.Props.Rdm
import Verif.Props.Davidson
import Verif.Props.Dist
import Mathlib.Algebra.Order.Chebyshev

/-! Properties C119-C122: selected-CI diagonalisation and CAS-CI from determinants to RDMs. -/
namespace Macis
open Spec Finset

/-! ### the sparse operator is the matrix -/

theorem sparseOp_eq {H : Csr ℝ} (h : CsrWF H) (hn : H.n = H.m) :
    sparseOp H = (Matrix.of fun i j : Fin H.m => csrEntry H i j).mulVec := by
  funext x i
  have := (C44_csr_spmv_serial 1 1 0 H h (finArr x) (fun _ => 0) H.m H.m (le_refl _)) 0 (by omega) i i.2
  simp only [Nat.zero_mul, Nat.add_zero, one_mul, mul_zero, add_zero] at this
  rw [sparseOp, this, hn, sum_range]
  simp only [Matrix.mulVec, dotProduct, Matrix.of_apply]
  refine sum_congr rfl fun j _ => ?_
  simp [finArr]

theorem absMax_ge {cs : List ℝ} : ∀ (c : ℝ), ∀ x ∈ c :: cs,
    |x| ≤ |cs.foldl (fun m x => if |m| < |x| then x else m) c| := by
  induction cs with
  | nil => intro c x hx; simp at hx; subst hx; simp
  | cons d cs ih =>
    intro c x hx
    rw [List.foldl_cons]
    by_cases h : |c| < |d|
    · rw [if_pos h]
      rcases List.mem_cons.mp hx with rfl | hx
      · exact h.le.trans (ih d d (by simp))
      · exact ih d x hx
    · rw [if_neg h]
      rcases List.mem_cons.mp hx with rfl | hx
      · exact ih x x (by simp)
      · rcases List.mem_cons.mp hx with rfl | hx
        · exact (not_lt.mp h).trans (ih c c (by simp))
        · exact ih c x (by simp [hx])

theorem sum_list_fin (C : List ℝ) (n : Nat) (hn : C.length = n) (f : ℝ → ℝ) :
    ∑ i : Fin n, f (C.getD i 0) = (C.map f).sum := by
  subst hn
  induction C with
  | nil => simp
  | cons c C ih =>
    rw [List.map_cons, List.sum_cons, ← ih]
    erw [Fin.sum_univ_succ]
    simp

/-- a normalised vector of at least two entries is used as the guess -/
theorem uses_normalised {C : List ℝ} (h2 : 2 ≤ C.length) (hC : (C.map fun c => c * c).sum = 1) :
    usesPassedVector C = some true := by
  match C, h2 with
  | c :: cs, h2 =>
    unfold usesPassedVector
    simp only [Option.some.injEq, decide_eq_true_eq]
    set m := cs.foldl (fun m x => if |m| < |x| then x else m) c with hm
    by_contra hlt
    rw [not_lt] at hlt
    have hn : (0 : ℝ) < ((c :: cs).length : ℝ) := by simp; positivity
    have hb : ((c :: cs).map fun c => c * c).sum ≤ ((c :: cs).map fun _ => (1 / ((c :: cs).length : ℝ)) ^ 2).sum := by
      apply List.sum_le_sum
      intro x hx
      have := (absMax_ge c x hx).trans hlt
      rw [← sq, ← sq_abs]
      exact pow_le_pow_left₀ (abs_nonneg _) this 2
    rw [hC, List.map_const', List.sum_replicate, nsmul_eq_mul] at hb
    have h2' : (2 : ℝ) ≤ ((c :: cs).length : ℝ) := by exact_mod_cast h2
    rw [div_pow, one_pow, mul_one_div, sq, div_mul_cancel_left₀ hn.ne'] at hb
    have : ((c :: cs).length : ℝ)⁻¹ ≤ 2⁻¹ := inv_anti₀ (by norm_num) h2'
    have h3 : (2 : ℝ)⁻¹ < 1 := by norm_num
    exact absurd (hb.trans this) (not_le.mpr h3)

theorem vresize_length (C : List ℝ) (n : Nat) : (vresize C n).length = n := by
  simp [vresize]; omega

theorem vresize_zero {C : List ℝ} (h : ∀ c ∈ C, c = 0) (n : Nat) : vresize C n = List.replicate n 0 := by
  have h1 : C.take n = List.replicate (min n C.length) 0 := by
    apply List.eq_replicate_iff.mpr
    exact ⟨by simp, fun b hb => h b (List.mem_of_mem_take hb)⟩
  rw [vresize, h1, ← List.replicate_add]
  congr 1
  omega

theorem vresize_self {C : List ℝ} {n : Nat} (h : C.length = n) : vresize C n = C := by
  subst h; simp [vresize]

/-- What the serial solver returns for a square symmetric matrix and an unset or normalised vector. -/
theorem serialDiag_spec {H : Csr ℝ} (hW : CsrWF H) (hn : H.n = H.m)
    (hnd : ∀ i < H.m, (H.rowCols i).Nodup)
    (hs : ∀ i j, i < H.m → j < H.m → csrEntry H i j = csrEntry H j i)
    {eig : Nat → (Nat → Nat → ℝ) → ℝ × (Nat → ℝ)} (he : LowestPair eig) (maxM : Nat) (tol : ℝ)
    (C : List ℝ) (hC : (∀ c ∈ C, c = 0) ∨ (C.length = H.m ∧ (C.map fun c => c * c).sum = 1))
    {iter : Nat} {E : ℝ} {x : Fin H.m → ℝ}
    (h : serialSelectedCiDiag eig H maxM tol C = .converged iter E x) :
    let A := Matrix.of fun i j : Fin H.m => csrEntry H i j
    (∑ t, x t * x t) = 1 ∧
    Real.sqrt (∑ t, (A.mulVec x t - E * x t) * (A.mulVec x t - E * x t)) < tol ∧
    E = ∑ t, x t * A.mulVec x t ∧
    (∃ (mu : ℝ) (y : Fin H.m → ℝ), y ≠ 0 ∧ A.mulVec y = mu • y ∧ |mu - E| < tol) ∧
    ((∀ c ∈ C, c = 0) → ∀ i < H.m, E ≤ csrEntry H i i) := by
  intro A
  have hA : A.IsSymm := by
    ext i j
    simp only [A, Matrix.transpose_apply, Matrix.of_apply]
    exact hs j i j.2 i.2
  have h2 : 2 ≤ H.m := by
    by_contra hlt
    unfold serialSelectedCiDiag at h
    split at h
    · cases h
    · unfold davidson davidsonRun at h
      split_ifs at h with c1 c2
      omega
  unfold serialSelectedCiDiag at h
  split at h
  · cases h
  rename_i g hg
  rw [sparseOp_eq hW hn] at h
  have hd := C47_diagonal H hW hnd
  have key : (∑ t : Fin H.m, g.getD t 0 * g.getD t 0) = 1 ∧ ((∀ c ∈ C, c = 0) →
      ∃ m < H.m, (∀ t : Fin H.m, g.getD t 0 = if (t : Nat) = m then 1 else 0) ∧
        ∀ i < H.m, csrEntry H m m ≤ csrEntry H i i) := by
    unfold serialGuess at hg
    by_cases hz : ∀ c ∈ C, c = 0
    · rw [vresize_zero hz] at hg
      simp only [C74_fresh_vector_partial H.m (by omega)] at hg
      have hne : H.diagonal ≠ [] := by
        intro e; rw [e] at hd; simp at hd; omega
      obtain ⟨m, hm, hgm⟩ := C33_serial_guess H.diagonal hne
      rw [hd.1] at hgm
      rw [hgm, Option.some.injEq] at hg
      have hml : m < H.m := by rw [← hd.1]; exact firstMin_lt hm
      have hval : ∀ t : Fin H.m, g.getD t 0 = if (t : Nat) = m then 1 else 0 := by
        intro t
        rw [← hg, List.getD_eq_getElem?_getD, List.getElem?_set]
        by_cases e : m = t
        · rw [if_pos e, if_pos (by simpa using e ▸ hml), if_pos e.symm]; rfl
        · rw [if_neg e, if_neg (fun x => e x.symm), List.getElem?_replicate, if_pos t.2]; rfl
      refine ⟨?_, fun _ => ⟨m, hml, hval, ?_⟩⟩
      · rw [sum_congr rfl fun t _ => by rw [hval t]]
        rw [sum_eq_single (⟨m, hml⟩ : Fin H.m)]
        · simp
        · intro b _ hb
          rw [if_neg (fun e => hb (Fin.ext e))]; simp
        · simp
      · intro i hi
        obtain ⟨v, hv, hmin, -⟩ := hm
        have h1 := hd.2 m hml
        rw [List.getD_eq_getElem?_getD, hv] at h1
        have h3 := hd.2 i hi
        rw [← h1, ← h3]
        apply hmin
        exact getD_mem' 0 (by rw [hd.1]; exact hi)
    · obtain ⟨hl, hnrm⟩ := hC.resolve_left hz
      rw [vresize_self hl] at hg
      simp only [uses_normalised (by omega) hnrm, Option.some.injEq] at hg
      subst hg
      exact ⟨by rw [sum_list_fin C H.m hl (fun c => c * c), hnrm], fun hh => absurd hh hz⟩
  obtain ⟨-, -, r1, r2, r3, r4, -, r5⟩ := C50_davidson hA _ tol he maxM _ key.1 iter E x h
  refine ⟨r1, r2, r3, r5, fun hz i hi => ?_⟩
  obtain ⟨m, hm, hval, hmin⟩ := key.2 hz
  refine r4.trans (le_trans (le_of_eq ?_) (hmin i hi))
  rw [sum_eq_single (⟨m, hm⟩ : Fin H.m)]
  · rw [hval]
    simp only [if_true, one_mul, Matrix.mulVec, dotProduct]
    rw [sum_eq_single (⟨m, hm⟩ : Fin H.m)]
    · rw [hval]; simp [A]
    · intro b _ hb
      rw [hval b, if_neg (fun e => hb (Fin.ext e)), mul_zero]
    · simp
  · intro b _ hb
    rw [hval b, if_neg (fun e => hb (Fin.ext e)), zero_mul]
  · simp

/-! ### C119 -/
variable {M : Nat}

theorem ciMatrix_entry (I : Integrals ℝ) (hn : I.norb ≤ M) (hI : RealSymmetric I) {thresh : ℝ}
    (h0 : 0 ≤ thresh) {dets : List (BitVec (2 * M))} (hS : OneSector I.norb dets dets) {i j : Nat}
    (hi : i < dets.length) (hj : j < dets.length) :
    csrEntry (I.csrHamiltonian dets thresh) i j = ciMatrix I dets thresh i j := by
  rw [Integrals.csrHamiltonian, C17_csr_block_hamiltonian I hn two_ne_zero hI.2.1 thresh h0 dets dets hS.1 hS.2.1 hS.2.2 i j
    hi hj, ciMatrix]
  simp only [List.getD_eq_getElem _ _ hi, List.getD_eq_getElem _ _ hj]

theorem ciMatrix_symm (I : Integrals ℝ) (hn : I.norb ≤ M) (hI : RealSymmetric I) (thresh : ℝ)
    (dets : List (BitVec (2 * M))) (i j : Nat) :
    ciMatrix I dets thresh i j = ciMatrix I dets thresh j i := by
  simp only [ciMatrix]
  rw [hamiltonian_symm I hn hI]

/-- C119.  Serial `selected_ci_diag` on any list of determinants of one sector, started from an unset
(empty or zero) or a normalised vector, with an exact small eigensolver.  When it returns: the vector
is normalised, the energy is its expectation value over the CI matrix (elements up to the threshold
dropped), the residual is below the tolerance, an eigenvalue of the CI matrix lies within the
tolerance of the energy, and, from an unset vector, the energy is at most every diagonal element. -/
theorem C119_selected_ci (I : Integrals ℝ) (hn : I.norb ≤ M) (hI : RealSymmetric I) {thresh : ℝ}
    (h0 : 0 ≤ thresh) {dets : List (BitVec (2 * M))} (hS : OneSector I.norb dets dets)
    {eig : Nat → (Nat → Nat → ℝ) → ℝ × (Nat → ℝ)} (he : LowestPair eig) (maxM : Nat) (tol : ℝ)
    (C : List ℝ)
    (hC : (∀ c ∈ C, c = 0) ∨ (C.length = dets.length ∧ (C.map fun c => c * c).sum = 1))
    {iter : Nat} {E : ℝ} {x : Nat → ℝ}
    (h : selectedCiDiag eig I dets thresh maxM tol C = .converged iter E x) :
    let n := dets.length
    let H := ciMatrix I dets thresh
    (∑ i ∈ range n, x i * x i) = 1 ∧
    E = ∑ i ∈ range n, ∑ j ∈ range n, x i * x j * H i j ∧
    Real.sqrt (∑ i ∈ range n, ((∑ j ∈ range n, H i j * x j) - E * x i) ^ 2) < tol ∧
    (∃ (mu : ℝ) (y : Nat → ℝ), (∃ i < n, y i ≠ 0) ∧
      (∀ i < n, ∑ j ∈ range n, H i j * y j = mu * y i) ∧ |mu - E| < tol) ∧
    ((∀ c ∈ C, c = 0) → ∀ i < n, E ≤ H i i) := by
  intro n H
  set B := I.csrHamiltonian dets thresh with hB
  have hm : B.m = n := csrBlock_m I h0 dets dets
  have hn' : B.n = B.m := by rw [hm]; exact csrBlock_n I h0 dets dets
  have hW : CsrWF B := csrBlock_wf I h0 dets dets
  have hent : ∀ i j, i < n → j < n → csrEntry B i j = H i j :=
    fun i j hi hj => ciMatrix_entry I hn hI h0 hS hi hj
  unfold selectedCiDiag at h
  rw [← hB] at h
  cases hres : serialSelectedCiDiag eig B maxM tol C with
  | notConverged => rw [hres] at h; cases h
  | breakdown => rw [hres] at h; cases h
  | ub => rw [hres] at h; cases h
  | converged it E' x' =>
    rw [hres] at h
    simp only [DavResult.map, DavResult.converged.injEq] at h
    obtain ⟨rfl, rfl, rfl⟩ := h
    obtain ⟨r1, r2, r3, ⟨mu, y, hy0, hy, hmu⟩, r5⟩ := serialDiag_spec hW hn'
      (sorted_rowCols_nodup hW (csrBlock_sorted I h0 dets dets))
      (fun i j hi hj => by
        rw [hm] at hi hj
        rw [hent i j hi hj, hent j i hj hi]; exact ciMatrix_symm I hn hI thresh dets i j)
      he maxM tol C (by rw [hm]; exact hC) hres
    have hfin : ∀ (z : Fin B.m → ℝ) (t : Fin B.m), finArr z t = z t := by
      intro z t; simp [finArr]
    have hmv : ∀ (z : Fin B.m → ℝ) (t : Fin B.m),
        (Matrix.of fun i j : Fin B.m => csrEntry B i j).mulVec z t =
          ∑ j ∈ range n, H t j * finArr z j := by
      intro z t
      simp only [Matrix.mulVec, dotProduct, Matrix.of_apply]
      rw [← hm, sum_range]
      refine sum_congr rfl fun j _ => ?_
      rw [hfin, hent t j (hm ▸ t.2) (hm ▸ j.2)]
    have hsum : ∀ f : Nat → ℝ, ∑ i ∈ range n, f i = ∑ t : Fin B.m, f t := by
      intro f; rw [← hm, sum_range]
    refine ⟨?_, ?_, ?_, ⟨mu, finArr y, ?_, ?_, hmu⟩, ?_⟩
    · rw [hsum, ← r1]
      exact sum_congr rfl fun t _ => by rw [hfin]
    · rw [hsum]
      refine r3.trans (sum_congr rfl fun t _ => ?_)
      rw [hmv, hfin, mul_sum]
      exact sum_congr rfl fun j _ => by ring
    · rw [hsum]
      refine lt_of_eq_of_lt ?_ r2
      congr 1
      refine sum_congr rfl fun t _ => ?_
      rw [hmv, hfin]; ring
    · obtain ⟨t, ht⟩ := Function.ne_iff.mp hy0
      exact ⟨t, hm ▸ t.2, by rw [hfin]; exact ht⟩
    · intro i hi
      have e := congrFun hy ⟨i, hm ▸ hi⟩
      rw [hmv] at e
      refine e.trans ?_
      rw [Pi.smul_apply, smul_eq_mul, ← hfin y]
    · intro hz i hi
      have := r5 hz i (hm ▸ hi)
      rwa [hent i i hi hi] at this

/-! ### C120 -/

theorem hilbert_sector {n na nb : Nat} (hn : n ≤ M) (hna : na ≤ n) (hnb : nb ≤ n)
    {dets : List (BitVec (2 * M))} (h : generateHilbertSpace M n na nb = some dets) :
    OneSector n dets dets ∧ dets.Nodup ∧ dets.length = n.choose na * n.choose nb ∧
    (∀ s ∈ dets, alphaElectrons s = na) ∧ (∀ s ∈ dets, betaElectrons s = nb) ∧
    (∀ s, InSpace n s → alphaElectrons s = na → betaElectrons s = nb → s ∈ dets) := by
  obtain ⟨l, hl, nd, len, mem⟩ := C10_hilbert_space_exact M n na nb hn hna hnb
  rw [h, Option.some.injEq] at hl
  subst hl
  have ha : ∀ s ∈ dets, alphaElectrons s = na := fun s hs => by
    rw [alphaElectrons_eq]; exact ((mem s).1 hs).2.2.1
  have hb : ∀ s ∈ dets, betaElectrons s = nb := fun s hs => by
    rw [betaElectrons_eq]; exact ((mem s).1 hs).2.2.2
  have hin : ∀ s ∈ dets, InSpace n s := fun s hs =>
    (inSpace_iff s).2 ⟨((mem s).1 hs).1, ((mem s).1 hs).2.1⟩
  refine ⟨⟨hin, hin, fun s hs t ht => ⟨by rw [ha s hs, ha t ht], by rw [hb s hs, hb t ht]⟩⟩, nd, len,
    ha, hb, fun s hs h1 h2 => ?_⟩
  rw [mem s, ← alphaElectrons_eq, ← betaElectrons_eq]
  exact ⟨((inSpace_iff s).1 hs).1, ((inSpace_iff s).1 hs).2, h1, h2⟩

/-- a sum of products weighted in two ways -/
theorem two_thresholds {n : Nat} {x : Nat → ℝ} {h : Nat → Nat → ℝ} {thresh : ℝ} (h0 : 0 ≤ thresh)
    (hx : ∑ i ∈ range n, x i * x i = 1) :
    |(∑ i ∈ range n, ∑ j ∈ range n, x i * x j * (if |h i j| > thresh then h i j else 0)) -
      ∑ i ∈ range n, ∑ j ∈ range n, kept (x i * x j) * h i j| ≤
      thresh * n + 1 / 10 ^ 16 * ∑ i ∈ range n, ∑ j ∈ range n, |h i j| := by
  have hcs : ∑ i ∈ range n, ∑ j ∈ range n, |x i * x j| ≤ n := by
    have e : ∑ i ∈ range n, ∑ j ∈ range n, |x i * x j| = (∑ i ∈ range n, |x i|) ^ 2 := by
      rw [sq, sum_mul_sum]
      exact sum_congr rfl fun i _ => sum_congr rfl fun j _ => abs_mul _ _
    have := sq_sum_le_card_mul_sum_sq (s := range n) (f := fun i => |x i|)
    rw [card_range] at this
    rw [e]
    refine this.trans ?_
    rw [sum_congr rfl fun i _ => by rw [sq_abs, sq], hx, mul_one]
  have hpt : ∀ i j, |x i * x j * (if |h i j| > thresh then h i j else 0) - kept (x i * x j) * h i j| ≤
      thresh * |x i * x j| + 1 / 10 ^ 16 * |h i j| := by
    intro i j
    have p1 : 0 ≤ thresh * |x i * x j| := mul_nonneg h0 (abs_nonneg _)
    have p2 : (0 : ℝ) ≤ 1 / 10 ^ 16 * |h i j| := by positivity
    unfold kept
    by_cases c1 : |h i j| > thresh <;> by_cases c2 : |x i * x j| > 1 / 10 ^ 16
    · rw [if_pos c1, if_pos c2, sub_self, abs_zero]; linarith
    · rw [if_pos c1, if_neg c2, zero_mul, sub_zero, abs_mul]
      have := mul_le_mul_of_nonneg_right (not_lt.mp c2) (abs_nonneg (h i j))
      linarith
    · rw [if_neg c1, if_pos c2, mul_zero, zero_sub, abs_neg, abs_mul]
      have := mul_le_mul_of_nonneg_left (not_lt.mp c1) (abs_nonneg (x i * x j))
      linarith
    · rw [if_neg c1, if_neg c2, zero_mul, mul_zero, sub_self, abs_zero]; linarith
  rw [← sum_sub_distrib]
  refine (abs_sum_le_sum_abs _ _).trans ?_
  have : ∀ i ∈ range n, |∑ j ∈ range n, x i * x j * (if |h i j| > thresh then h i j else 0) -
      ∑ j ∈ range n, kept (x i * x j) * h i j| ≤
      ∑ j ∈ range n, (thresh * |x i * x j| + 1 / 10 ^ 16 * |h i j|) := by
    intro i _
    rw [← sum_sub_distrib]
    exact (abs_sum_le_sum_abs _ _).trans (sum_le_sum fun j _ => hpt i j)
  refine (sum_le_sum this).trans ?_
  simp only [sum_add_distrib, ← mul_sum]
  have := mul_le_mul_of_nonneg_left hcs h0
  linarith

/-- C120.  Serial `compute_casci_rdms` with zeroed RDM arrays, from an unset or a normalised vector.
When it returns, over the determinants of the whole sector (each once): the vector is normalised, its
energy is its expectation value over the CI matrix and within the residual tolerance of an eigenvalue
of it; contracting the returned RDMs with the integrals reproduces the returned energy up to the two
thresholds of the code; the trace of the 1-RDM is the number of electrons up to the weights dropped. -/
theorem C120_casci (I : Integrals ℝ) (hn : I.norb ≤ M) (hI : RealSymmetric I) {na nb : Nat}
    (hna : na ≤ I.norb) (hnb : nb ≤ I.norb) {thresh : ℝ} (h0 : 0 ≤ thresh)
    {eig : Nat → (Nat → Nat → ℝ) → ℝ × (Nat → ℝ)} (he : LowestPair eig) (maxM : Nat) (tol : ℝ)
    (C : List ℝ)
    (hC : (∀ c ∈ C, c = 0) ∨
      (C.length = I.norb.choose na * I.norb.choose nb ∧ (C.map fun c => c * c).sum = 1))
    {r : CasciResult} (h : computeCasciRdms M eig I na nb thresh maxM tol C zeroRdms = some r) :
    ∃ dets : List (BitVec (2 * M)), dets.Nodup ∧
      (∀ s, s ∈ dets ↔ InSpace I.norb s ∧ alphaElectrons s = na ∧ betaElectrons s = nb) ∧
      let n := dets.length
      let H := ciMatrix I dets thresh
      (∑ i ∈ range n, r.C i * r.C i) = 1 ∧
      r.E0 = ∑ i ∈ range n, ∑ j ∈ range n, r.C i * r.C j * H i j ∧
      (∃ (mu : ℝ) (y : Nat → ℝ), (∃ i < n, y i ≠ 0) ∧
        (∀ i < n, ∑ j ∈ range n, H i j * y j = mu * y i) ∧ |mu - r.E0| < tol) ∧
      ((∀ c ∈ C, c = 0) → ∀ i < n, r.E0 ≤ H i i) ∧
      |r.E0 - contractRdms I r.rdms| ≤ thresh * n + 1 / 10 ^ 16 *
        ∑ i ∈ range n, ∑ j ∈ range n, |hamiltonian I (dets.getD i 0) (dets.getD j 0)| ∧
      |(∑ p ∈ range I.norb, r.rdms.ordm p p) - ((na + nb : Nat) : ℝ)| ≤
        ((na + nb : Nat) : ℝ) * (n / 10 ^ 16) := by
  unfold computeCasciRdms at h
  cases hd : generateHilbertSpace M I.norb na nb with
  | none => rw [hd] at h; cases h
  | some dets =>
    rw [hd] at h
    obtain ⟨hS, nd, len, ha, hb, hall⟩ := hilbert_sector hn hna hnb hd
    dsimp only at h
    split at h
    · rename_i iter E x hres
      rw [Option.some.injEq] at h
      subst h
      obtain ⟨r1, r2, -, r4, r5⟩ := C119_selected_ci I hn hI h0 hS he maxM tol C (by rw [len]; exact hC)
        hres
      refine ⟨dets, nd, fun s => ⟨fun hs => ⟨hS.1 s hs, ha s hs, hb s hs⟩,
        fun hs => hall s hs.1 hs.2.1 hs.2.2⟩, r1, r2, r4, r5, ?_, ?_⟩
      · have e1 : contractRdms I (formRdms dets dets x true zeroRdms) =
            ∑ i ∈ range dets.length, ∑ j ∈ range dets.length,
              kept (x i * x j) * hamiltonian I (dets.getD i 0) (dets.getD j 0) := by
          rw [C19_energy I hn two_ne_zero hI dets dets x hS]
          unfold Spec.expect
          refine sum_congr rfl fun i hi => sum_congr rfl fun j hj => ?_
          have hi' := getD_mem' (0 : BitVec (2 * M)) (mem_range.1 hi)
          have hj' := getD_mem' (0 : BitVec (2 * M)) (mem_range.1 hj)
          dsimp only
          rw [C13_slater_condon M I hn two_ne_zero hI.2.1 _ _ (hS.1 _ hi') (hS.2.1 _ hj') (hS.2.2 _ hi' _ hj')]
        simp only
        rw [e1, r2]
        exact two_thresholds h0 r1
      · simp only
        rw [C20_trace I.norb hn two_ne_zero dets nd x hS na nb ha hb]
        have e : ((na + nb : Nat) : ℝ) * (∑ i ∈ range dets.length, kept (x i * x i)) -
            ((na + nb : Nat) : ℝ) = ((na + nb : Nat) : ℝ) *
              ∑ i ∈ range dets.length, (kept (x i * x i) - x i * x i) := by
          rw [sum_sub_distrib, r1]; ring
        rw [e, abs_mul, abs_of_nonneg (Nat.cast_nonneg _)]
        apply mul_le_mul_of_nonneg_left _ (Nat.cast_nonneg _)
        refine (abs_sum_le_sum_abs _ _).trans ?_
        have : ∀ i ∈ range dets.length, |kept (x i * x i) - x i * x i| ≤ 1 / 10 ^ 16 := by
          intro i _
          unfold kept
          by_cases c : |x i * x i| > 1 / 10 ^ 16
          · rw [if_pos c, sub_self, abs_zero]; positivity
          · rw [if_neg c, zero_sub, abs_neg]; exact not_lt.mp c
        refine (sum_le_sum this).trans (le_of_eq ?_)
        rw [sum_const, card_range, nsmul_eq_mul]; ring
    · cases h

/-! ### the hypotheses can be met -/

theorem two_levels_N {N : Nat} (hN : N = 2) {A : Matrix (Fin N) (Fin N) ℝ} (hA : A.IsSymm)
    (D : Fin N → ℝ) {tol : ℝ} (htol : 0 < tol) {eig : Nat → (Nat → Nat → ℝ) → ℝ × (Nat → ℝ)}
    (he : LowestPair eig) (maxM : Nat) (guess : Fin N → ℝ) (hg : (∑ t, guess t * guess t) = 1)
    (hM : 2 ≤ maxM) (hne : ¬ ∃ mu : ℝ, A.mulVec guess = mu • guess) :
    ∃ iter lam x, davidson A.mulVec D tol eig maxM guess = .converged iter lam x := by
  subst hN
  exact C50_two_levels hA D htol he maxM guess hg hM hne

/-- from an unset vector, a 2 x 2 problem with a coupling always converges -/
theorem serialDiag_two_levels {H : Csr ℝ} (hW : CsrWF H) (hn : H.n = H.m) (h2 : H.m = 2)
    (hnd : ∀ i < H.m, (H.rowCols i).Nodup)
    (hs : ∀ i j, i < H.m → j < H.m → csrEntry H i j = csrEntry H j i) (hc : csrEntry H 0 1 ≠ 0)
    {eig : Nat → (Nat → Nat → ℝ) → ℝ × (Nat → ℝ)} (he : LowestPair eig) {maxM : Nat} (hM : 2 ≤ maxM)
    {tol : ℝ} (ht : 0 < tol) :
    ∃ iter E x, serialSelectedCiDiag eig H maxM tol [] = .converged iter E x := by
  have hd := C47_diagonal H hW hnd
  have hne : H.diagonal ≠ [] := by
    intro e; rw [e] at hd; simp at hd; omega
  obtain ⟨m, hm, hgm⟩ := C33_serial_guess H.diagonal hne
  rw [hd.1] at hgm
  have hml : m < H.m := by rw [← hd.1]; exact firstMin_lt hm
  have hg : serialGuess H [] = some ((List.replicate H.m 0).set m 1) := by
    unfold serialGuess
    rw [vresize_zero (by simp)]
    simp only [C74_fresh_vector_partial H.m (by omega)]
    exact hgm
  have hval : ∀ t : Fin H.m, ((List.replicate H.m (0 : ℝ)).set m 1).getD t 0 =
      if (t : Nat) = m then 1 else 0 := by
    intro t
    rw [List.getD_eq_getElem?_getD, List.getElem?_set]
    by_cases e : m = t
    · rw [if_pos e, if_pos (by simpa using e ▸ hml), if_pos e.symm]; rfl
    · rw [if_neg e, if_neg (fun x => e x.symm), List.getElem?_replicate, if_pos t.2]; rfl
  unfold serialSelectedCiDiag
  rw [hg]
  dsimp only
  rw [sparseOp_eq hW hn, funext hval]
  have hent : ∀ k : Fin H.m, (Matrix.of fun i j : Fin H.m => csrEntry H i j).mulVec
      (fun t => if (t : Nat) = m then 1 else 0) k = csrEntry H k m := by
    intro k
    simp only [Matrix.mulVec, dotProduct, Matrix.of_apply]
    rw [sum_eq_single (⟨m, hml⟩ : Fin H.m)]
    · simp
    · intro b _ hb
      rw [if_neg (fun e => hb (Fin.ext e)), mul_zero]
    · simp
  refine two_levels_N h2 ?_ _ ht he maxM _ ?_ hM ?_
  · ext i j
    simp only [Matrix.transpose_apply, Matrix.of_apply]
    exact hs j i j.2 i.2
  · rw [sum_eq_single (⟨m, hml⟩ : Fin H.m)]
    · simp
    · intro b _ hb
      rw [if_neg (fun e => hb (Fin.ext e)), mul_zero]
    · simp
  · rintro ⟨mu, hmu⟩
    have : csrEntry H (1 - m) m = 0 := by
      have e := congrFun hmu ⟨1 - m, by omega⟩
      rw [hent, Pi.smul_apply, if_neg (by simp only; omega), smul_zero] at e
      exact e
    have hm2 : m = 0 ∨ m = 1 := by omega
    rcases hm2 with rfl | rfl
    · rw [hs _ _ (by omega) (by omega)] at this
      exact hc this
    · exact hc this

/-- two orbitals with levels 0 and 1 coupled by 1 -/
noncomputable def casI : Integrals ℝ :=
  { norb := 2, T := fun p q => if p = 0 ∧ q = 0 then 0 else 1, V := fun _ _ _ _ => 0 }

/-- `compute_casci_rdms` for one electron in these orbitals meets the hypotheses of C119-C121 and
returns. -/
theorem casci_example : RealSymmetric casI ∧ ∃ eig, LowestPair eig ∧
    ∃ r, computeCasciRdms 2 eig casI 1 0 0 2 1 [] zeroRdms = some r := by
  have hI : RealSymmetric casI := by
    refine ⟨fun p q => ?_, fun _ _ _ _ => rfl, fun _ _ _ _ => rfl⟩
    simp only [casI]
    congr 1
    exact propext and_comm
  refine ⟨hI, ?_⟩
  obtain ⟨eig, he⟩ := exists_lowestPair
  refine ⟨eig, he, ?_⟩
  have hd : generateHilbertSpace 2 casI.norb 1 0 = some [1#4, 2#4] := by
    change generateHilbertSpace 2 2 1 0 = _
    decide +kernel
  have hn : casI.norb ≤ 2 := le_refl 2
  obtain ⟨hS, -⟩ := hilbert_sector hn (by decide) (by decide) hd
  set dets : List (BitVec (2 * 2)) := [1#4, 2#4] with hdets
  have h0 : (0 : ℝ) ≤ 0 := le_refl 0
  have hm : (casI.csrHamiltonian dets 0).m = 2 := csrBlock_m casI h0 dets dets
  have hW : CsrWF (casI.csrHamiltonian dets 0) := csrBlock_wf casI h0 dets dets
  have hent : ∀ i j, i < 2 → j < 2 → csrEntry (casI.csrHamiltonian dets 0) i j = ciMatrix casI dets 0 i j :=
    fun i j hi hj => ciMatrix_entry casI hn hI h0 hS hi hj
  obtain ⟨iter, E, x, hx⟩ := serialDiag_two_levels (H := casI.csrHamiltonian dets 0) hW
    (by rw [hm]; exact csrBlock_n casI h0 dets dets) hm
    (sorted_rowCols_nodup hW (csrBlock_sorted casI h0 dets dets))
    (fun i j hi hj => by
      rw [hm] at hi hj
      rw [hent i j hi hj, hent j i hj hi]; exact ciMatrix_symm casI hn hI 0 dets i j)
    (by
      rw [hent 0 1 (by omega) (by omega), ciMatrix]
      have : hamiltonian casI (dets.getD 0 0) (dets.getD 1 0) = 1 := by
        rw [hamiltonian_rdm]
        have e : ∀ p < 2, ∀ q < 2, rdm1 (M := 2) (1#4) (2#4) p q = if p = 0 ∧ q = 1 then 1 else 0 := by
          decide +kernel
        have e2 : ∀ p ∈ range 2, ∀ q ∈ range 2, casI.T p q * ((rdm1 (M := 2) (dets.getD 0 0) (dets.getD 1 0) p q : Int) : ℝ) =
            if p = 0 ∧ q = 1 then 1 else 0 := by
          intro p hp q hq
          have := e p (mem_range.1 hp) q (mem_range.1 hq)
          simp only [hdets, List.getD_cons_zero, List.getD_cons_succ]
          rw [this]
          by_cases c : p = 0 ∧ q = 1
          · rw [if_pos c]; simp [casI, c.1, c.2]
          · rw [if_neg c, if_neg c]; simp
        have e3 : ∀ f : Nat → Nat → ℝ, (∀ p ∈ range 2, ∀ q ∈ range 2, f p q = if p = 0 ∧ q = 1 then 1 else 0) →
            ∑ p ∈ range 2, ∑ q ∈ range 2, f p q = 1 := by
          intro f hf
          rw [sum_congr rfl fun p hp => sum_congr rfl fun q hq => hf p hp q hq]
          simp [sum_range_succ]
        have := e3 _ e2
        have hV : ∀ p q r s, casI.V p q r s = 0 := fun _ _ _ _ => rfl
        simp only [hV, zero_mul, sum_const_zero, mul_zero, add_zero]
        exact this
      rw [this]
      norm_num)
    he (le_refl 2) (tol := 1) one_pos
  unfold computeCasciRdms
  rw [hd]
  dsimp only
  rw [selectedCiDiag, hx]
  exact ⟨_, rfl⟩

/-- so C120 applies to an actual run, whose energy is at most the diagonal element 0 -/
example : ∃ (eig : Nat → (Nat → Nat → ℝ) → ℝ × (Nat → ℝ)) (r : CasciResult)
    (dets : List (BitVec (2 * 2))), computeCasciRdms 2 eig casI 1 0 0 2 1 [] zeroRdms = some r ∧
    (∑ i ∈ range dets.length, r.C i * r.C i) = 1 ∧
    ∀ i < dets.length, r.E0 ≤ ciMatrix casI dets 0 i i := by
  obtain ⟨hI, eig, he, r, hr⟩ := casci_example
  obtain ⟨dets, -, -, h1, -, -, h4, -⟩ := C120_casci casI (le_refl 2) hI (by decide) (by decide)
    (le_refl 0) he 2 1 [] (Or.inl (by simp)) hr
  exact ⟨eig, r, dets, hr, h1, h4 (by simp)⟩

/-! ### C121 -/

/-- C121.  The documentation declares the RDM arrays as outputs, but the call adds to what they held:
every element of the 1-RDM array afterwards is its old value plus the value a call with zeroed arrays
would give.  So the result is the 1-RDM exactly when the array was zero there. -/
theorem C121_prior_contents_refuted (I : Integrals ℝ) {na nb : Nat} {thresh : ℝ}
    {eig : Nat → (Nat → Nat → ℝ) → ℝ × (Nat → ℝ)} (maxM : Nat) (tol : ℝ) (C : List ℝ)
    {r r0 : CasciResult} (st : Rdms ℝ)
    (h : computeCasciRdms M eig I na nb thresh maxM tol C st = some r)
    (h0 : computeCasciRdms M eig I na nb thresh maxM tol C zeroRdms = some r0) :
    r.E0 = r0.E0 ∧ r.C = r0.C ∧
    (∀ p q, r.rdms.ordm p q = st.ordm p q + r0.rdms.ordm p q) ∧
    (∀ p q s t, r.rdms.trdm p q s t = st.trdm p q s t + r0.rdms.trdm p q s t) := by
  unfold computeCasciRdms at h h0
  cases hd : generateHilbertSpace M I.norb na nb with
  | none => rw [hd] at h; cases h
  | some dets =>
    rw [hd] at h h0
    dsimp only at h h0
    cases hres : selectedCiDiag eig I dets thresh maxM tol C with
    | notConverged => rw [hres] at h; cases h
    | breakdown => rw [hres] at h; cases h
    | ub => rw [hres] at h; cases h
    | converged it E x =>
      rw [hres] at h h0
      simp only [Option.some.injEq] at h h0
      subst h h0
      refine ⟨rfl, rfl, fun p q => ?_, fun p q s t => ?_⟩
      · simp only [formRdms]
        rw [foldl_ordm _ st 0 p q, foldl_ordm _ zeroRdms 0 p q]
        simp [zeroRdms]
      · simp only [formRdms]
        rw [foldl_trdm _ st 0 p q s t, foldl_trdm _ zeroRdms 0 p q s t]
        simp [zeroRdms]

/-! ### C122 -/

theorem extents_lt {n P r st en : Nat} (hP : 2 ≤ P) (hn : P ≤ n) (hr : r < P)
    (h : (defaultExtents n P)[r]? = some (st, en)) : en - st < n := by
  rw [defaultExtents_eq _ _ (by omega), List.getElem?_map, List.getElem?_range hr] at h
  simp only [Option.map_some, Option.some.injEq, Prod.mk.injEq] at h
  obtain ⟨rfl, rfl⟩ := h
  have hq : 0 < n / P := Nat.div_pos hn (by omega)
  have hm : P * (n / P) ≤ n := Nat.mul_div_le n P
  by_cases e : r + 1 = P
  · rw [if_pos e]
    have : 1 * (n / P) ≤ r * (n / P) := Nat.mul_le_mul_right _ (by omega)
    omega
  · rw [if_neg e]
    have h1 : (r + 1) * (n / P) = r * (n / P) + n / P := by ring
    have h2 : 2 * (n / P) ≤ P * (n / P) := Nat.mul_le_mul_right _ hP
    omega

/-- C122.  With MPI, `compute_casci_rdms` passes the rank's piece of the CI vector to `form_rdms`
together with all determinants: on two or more ranks (no more than determinants) every rank reads
past the end of its vector. -/
theorem C122_several_ranks_refuted {n na nb : Nat} (hn : n ≤ M) (hna : na ≤ n) (hnb : nb ≤ n)
    (hel : 0 < na + nb) {dets : List (BitVec (2 * M))} (h : generateHilbertSpace M n na nb = some dets)
    {P : Nat} (hP : 2 ≤ P) (hPn : P ≤ dets.length) {r st en : Nat} (hr : r < P)
    (hext : (defaultExtents dets.length P)[r]? = some (st, en)) (Cloc : List ℝ)
    (hC : Cloc.length = en - st) (out : Rdms ℝ) :
    formRdmsBuf dets Cloc out = none := by
  have hlt := extents_lt hP hPn hr hext
  obtain ⟨hS, -, -, ha, hb, -⟩ := hilbert_sector hn hna hnb h
  unfold formRdmsBuf
  rw [if_neg]
  intro hall
  rw [List.all_eq_true] at hall
  have h1 := hall (dets.length - 1) (List.mem_range.mpr (by omega))
  rw [List.all_eq_true] at h1
  have h2 := h1 (dets.length - 1) (List.mem_range.mpr (by omega))
  set s := dets.getD (dets.length - 1) 0 with hs
  have hmem : s ∈ dets := getD_mem' 0 (by omega)
  have hne : count s ≠ 0 := by
    intro hc
    have hz : s = 0#(2 * M) := count_eq_zero_iff.1 hc
    have e1 := ha s hmem
    have e2 := hb s hmem
    rw [hz] at e1 e2
    simp [alphaElectrons, betaElectrons] at e1 e2
    omega
  have hx : count (s ^^^ s) = 0 := count_eq_zero_iff.2 (BitVec.xor_self)
  rw [hx] at h2
  simp only [ne_eq, hne, not_false_eq_true, decide_true, Bool.and_self, Nat.zero_le, Bool.not_true,
    Bool.false_or, decide_eq_true_eq] at h2
  omega

/-- C122.  `form_rdms` stays inside a coefficient vector exactly when every determinant with electrons
has its coefficient in it; then the result is the one over the whole vector. -/
theorem C122_reads_iff (dets : List (BitVec (2 * M))) (C : List ℝ) (out : Rdms ℝ) :
    formRdmsBuf dets C out = some (formRdms dets dets (fun i => C.getD i 0) true out) ∧
      (∀ i < dets.length, dets.getD i 0 ≠ 0 → i < C.length) ∨
    formRdmsBuf dets C out = none ∧ ∃ i < dets.length, dets.getD i 0 ≠ 0 ∧ C.length ≤ i := by
  have hz : ∀ s : BitVec (2 * M), count s ≠ 0 ↔ s ≠ 0 := fun s => not_congr count_eq_zero_iff
  by_cases h : ∀ i < dets.length, dets.getD i 0 ≠ 0 → i < C.length
  · refine Or.inl ⟨?_, h⟩
    unfold formRdmsBuf
    rw [if_pos]
    rw [List.all_eq_true]
    intro i hi
    rw [List.all_eq_true]
    intro j hj
    rw [List.mem_range] at hi hj
    by_cases c1 : dets.getD i 0 = 0
    · rw [c1, decide_eq_false (p := count (0 : BitVec (2 * M)) ≠ 0) (not_not.2 (count_eq_zero_iff.2 rfl))]; simp
    by_cases c2 : dets.getD j 0 = 0
    · rw [c2, decide_eq_false (p := count (0 : BitVec (2 * M)) ≠ 0) (not_not.2 (count_eq_zero_iff.2 rfl))]; simp
    rw [decide_eq_true (h i hi c1), decide_eq_true (h j hj c2)]
    simp
  · push Not at h
    obtain ⟨i, hi, hne, hC⟩ := h
    refine Or.inr ⟨?_, i, hi, hne, hC⟩
    unfold formRdmsBuf
    rw [if_neg]
    intro hall
    rw [List.all_eq_true] at hall
    have h1 := hall i (List.mem_range.mpr hi)
    rw [List.all_eq_true] at h1
    have h2 := h1 i (List.mem_range.mpr hi)
    have hx : count (dets.getD i 0 ^^^ dets.getD i 0) = 0 := count_eq_zero_iff.2 (BitVec.xor_self)
    rw [decide_eq_true ((hz _).2 hne), hx, decide_eq_false (not_lt.2 hC)] at h2
    simp at h2

/-- two orbitals, one electron, two ranks: the hypotheses of C122 hold -/
example : generateHilbertSpace 2 2 1 0 = some [1#4, 2#4] ∧ (defaultExtents 2 2)[1]? = some (1, 2) := by
  decide +kernel

end Macis
