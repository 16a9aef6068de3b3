import Verif.Model.Driver
import Verif.Spec.Driver
import Verif.Lemmas.CasBound
import Verif.Props.Mcscf
import Verif.Props.Fcidump
import Verif.Props.Ini
import Verif.Props.Mp2
/-! Facts about the parts of the standalone program. -/
namespace Macis
open Spec Finset

variable {M : Nat}

theorem viewInts_eq (n : Nat) (T V : Nat → ℝ) : viewInts n T V = ⟨n, asMat T n, asTen V n⟩ := rfl

/-- the result of `computeCasciRdms` with any old contents of the density arrays -/
theorem casci_any_st {eig : Nat → (Nat → Nat → ℝ) → ℝ × (Nat → ℝ)} {I : Integrals ℝ} {na nb : Nat} {thresh : ℝ}
    {maxM : Nat} {tol : ℝ} {C : List ℝ} {st : Rdms ℝ} {r : CasciResult}
    (h : computeCasciRdms M eig I na nb thresh maxM tol C st = some r) :
    ∃ r0, computeCasciRdms M eig I na nb thresh maxM tol C zeroRdms = some r0 ∧ r.E0 = r0.E0 ∧ r.C = r0.C ∧
      (∀ p q, r.rdms.ordm p q = st.ordm p q + r0.rdms.ordm p q) ∧
      (∀ p q s t, r.rdms.trdm p q s t = st.trdm p q s t + r0.rdms.trdm p q s t) := by
  have : ∃ r0, computeCasciRdms M eig I na nb thresh maxM tol C zeroRdms = some r0 := by
    unfold computeCasciRdms at h ⊢
    split at h
    · cases h
    · split at h
      · exact ⟨_, rfl⟩
      · cases h
  obtain ⟨r0, h0⟩ := this
  exact ⟨r0, h0, C121_prior_contents_refuted I maxM tol C st h h0⟩

theorem flat2_val {n : Nat} (A : Nat → Nat → ℝ) {p q : Nat} (hp : p < n) : flat2 n A (p + q * n) = A p q := by
  have hn : 0 < n := by omega
  unfold flat2
  rw [Nat.add_mul_mod_self_right, Nat.mod_eq_of_lt hp, Nat.add_mul_div_right _ _ hn, Nat.div_eq_of_lt hp, Nat.zero_add]

theorem flat4_val {n : Nat} (A : Nat → Nat → Nat → Nat → ℝ) {p q r s : Nat} (hp : p < n) (hq : q < n) (hr : r < n) :
    flat4 n A (addr4 n p q r s) = A p q r s := by
  have hn : 0 < n := by omega
  have e1 : addr4 n p q r s = p + (q + (r + s * n) * n) * n := by unfold addr4; ring
  have d1 : addr4 n p q r s / n = q + (r + s * n) * n := by
    rw [e1, Nat.add_mul_div_right _ _ hn, Nat.div_eq_of_lt hp, Nat.zero_add]
  have d2 : addr4 n p q r s / (n * n) = r + s * n := by
    rw [← Nat.div_div_eq_div_mul, d1, Nat.add_mul_div_right _ _ hn, Nat.div_eq_of_lt hq, Nat.zero_add]
  have d3 : addr4 n p q r s / (n * n * n) = s := by
    rw [← Nat.div_div_eq_div_mul, d2, Nat.add_mul_div_right _ _ hn, Nat.div_eq_of_lt hr, Nat.zero_add]
  unfold flat4
  rw [d1, d2, d3, e1, Nat.add_mul_mod_self_right, Nat.mod_eq_of_lt hp, Nat.add_mul_mod_self_right,
    Nat.mod_eq_of_lt hq, Nat.add_mul_mod_self_right, Nat.mod_eq_of_lt hr]

/-- the CAS functor in terms of `computeCasciRdms` with zeroed arrays -/
theorem casRdms_ok {eig : Nat → (Nat → Nat → ℝ) → ℝ × (Nat → ℝ)} {ci : CiSettings} {n na nb : Nat}
    {Ta Va A1 A2 : Nat → ℝ} {C : List ℝ} {x : ℝ × (Nat → ℝ) × (Nat → ℝ) × List ℝ}
    (h : casRdms eig ci n na nb Ta Va A1 A2 C = .ok x) :
    ∃ r dets, computeCasciRdms 32 eig (viewInts n Ta Va) na nb ci.matelTol ci.maxSub ci.resTol C zeroRdms = some r ∧
      generateHilbertSpace 32 n na nb = some dets ∧ x.1 = r.E0 ∧ x.2.2.2 = (List.range dets.length).map r.C ∧
      (∀ p q, p < n → q < n → asMat x.2.1 n p q = asMat A1 n p q + r.rdms.ordm p q) ∧
      (∀ p q s t, p < n → q < n → s < n → t < n → asTen x.2.2.1 n p q s t = asTen A2 n p q s t + r.rdms.trdm p q s t) := by
  unfold casRdms at h
  split at h
  · rename_i r dets h1 h2
    obtain ⟨r0, h0, e1, e2, e3, e4⟩ := casci_any_st h1
    cases h
    refine ⟨r0, dets, h0, h2, e1, by rw [e2], fun p q hp hq => ?_, fun p q s t hp hq hs ht => ?_⟩
    · exact (flat2_val _ hp).trans (e3 p q)
    · exact (flat4_val _ hp hq hs).trans (e4 p q s t)
  · cases h

theorem symBelow_of {n : Nat} {h : Nat → Nat → ℝ} {g : Nat → Nat → Nat → Nat → ℝ} (s : IntSym n h g) :
    SymBelow n ⟨n, h, g⟩ := ⟨s.h_symm, s.g_pair, s.g_left⟩

theorem toOut_ok {α : Type} {x : Run α} {a : α} (h : x.toOut = .ok a) : x = .ok a := by
  cases x <;> simp_all [Run.toOut]

theorem ofExcept_ok {α : Type} {x : Except Ini.Err α} {a : α} (h : ofExcept x = .ok a) : x = .ok a := by
  match x, h with
  | .ok b, h => cases h; rfl
  | .error e, h => cases e <;> cases h

/-! ### the FCIDUMP file -/

/-- What reading an FCIDUMP file gives. -/
theorem readIntegrals_entries {io : NumIO ℝ} {file : List Char} {es : List (FciEntry ℝ)}
    (h : Entries io (fileLines file) es) (hst : ∀ e ∈ es, Standard e) :
    ∃ f, readIntegrals io file = .ok f ∧ f.norb = maxIdx es ∧ f.core = fileCore es ∧
      (∀ p q, p < f.norb → q < f.norb → asMat f.T f.norb p q = (fileInts es).T p q) ∧
      (∀ p q r s, p < f.norb → q < f.norb → r < f.norb → s < f.norb →
        asTen f.V f.norb p q r s = (fileInts es).V p q r s) := by
  have hn := readNorb_entries h
  obtain ⟨T, t1, t2, -⟩ := C36_one_body io file es h hst _ (maxIdx es) hn le_rfl fun _ => 0
  obtain ⟨V, v1, v2, -⟩ := C36_two_body io file es h _ (maxIdx es) hn le_rfl fun _ => 0
  refine ⟨⟨maxIdx es, fileCore es, T, V⟩, ?_, rfl, rfl, fun p q hp hq => t2 p q hp hq,
    fun p q r s hp hq hr hs => v2 p q r s hp hq hr hs⟩
  unfold readIntegrals
  rw [hn, Run.bind, C36_core io file es h, Run.bind, t1, Run.bind, v1, Run.bind]
  rfl

/-- the integrals in a file have all symmetries -/
theorem fileInts_sym (es : List (FciEntry ℝ)) (n : Nat) : IntSym n (fileInts es).T (fileInts es).V := by
  refine ⟨fun p q _ _ => ?_, fun p q r s _ _ _ _ => ?_, fun p q r s _ _ _ _ => ?_, fun p q r s _ _ _ _ => ?_⟩ <;>
    simp only [fileInts]
  · rw [show givesOne (R := ℝ) p q = givesOne q p from funext (givesOne_comm p q)]
  · rw [show givesTwo (R := ℝ) q p r s = givesTwo p q r s from funext fun e => (givesTwo_swap p q r s e).1.symm]
  · rw [show givesTwo (R := ℝ) p q s r = givesTwo p q r s from funext fun e => (givesTwo_swap p q r s e).2.1.symm]
  · rw [show givesTwo (R := ℝ) r s p q = givesTwo p q r s from funext fun e => (givesTwo_swap p q r s e).2.2.symm]

theorem entries_lt {io : NumIO ℝ} {ls : List (List Char)} {es : List (FciEntry ℝ)} (h : Entries io ls es) :
    maxIdx es < 2 ^ 31 := by
  have key : ∀ e ∈ es, e.p < 2147483648 ∧ e.q < 2147483648 ∧ e.r < 2147483648 ∧ e.s < 2147483648 := by
    induction h with
    | nil => simp
    | entry _ h1 h2 h3 h4 _ ih =>
      intro e he
      rcases List.mem_cons.1 he with rfl | he
      · exact ⟨h1, h2, h3, h4⟩
      · exact ih e he
    | other _ _ ih => exact ih
  unfold maxIdx
  have : ∀ (l : List Nat) (a : Nat), a < 2 ^ 31 → (∀ x ∈ l, x < 2 ^ 31) → l.foldl max a < 2 ^ 31 := by
    intro l
    induction l with
    | nil => intro a ha _; exact ha
    | cons x l ih =>
      intro a ha hl
      rw [List.foldl_cons]
      exact ih _ (max_lt ha (hl x List.mem_cons_self)) fun y hy => hl y (List.mem_cons_of_mem _ hy)
  refine this _ 0 (by norm_num) fun x hx => ?_
  obtain ⟨e, he, hm⟩ := List.mem_flatMap.1 hx
  have := key e he
  simp at hm
  omega

/-! ### determinants of the CAS expansion -/

theorem casDet_iff {ni na nalpha nbeta : Nat} (h32 : na ≤ 32) (hM : ni + na ≤ M) {act : List (BitVec (2 * 32))}
    {full : List (BitVec (2 * M))}
    (mem : ∀ s, s ∈ act ↔ InSpace na s ∧ alphaElectrons s = nalpha ∧ betaElectrons s = nbeta)
    (hF : List.Forall₂ (WithCoreAt ni) act full)
    (hfull : ∀ s ∈ full, alphaElectrons s = ni + nalpha ∧ betaElectrons s = ni + nbeta) (s : BitVec (2 * M)) :
    s ∈ full ↔ CasDet ni na nalpha nbeta s := by
  have uniq : ∀ {a : BitVec (2 * 32)} {f g : BitVec (2 * M)}, WithCoreAt ni a f → WithCoreAt ni a g → f = g := by
    intro a f g hf hg
    refine BitVec.eq_of_getLsbD_eq fun i hi => ?_
    by_cases c : i < M
    · rw [(hf i c).1, (hg i c).1]
    · have := (hf (i - M) (by omega)).2
      have h2 := (hg (i - M) (by omega)).2
      rw [← this, show i - M + M = i by omega] at h2
      exact h2.symm
  constructor
  · intro hs
    obtain ⟨k, hk, rfl⟩ := List.mem_iff_getElem.1 hs
    have hk' : k < act.length := by rw [hF.length_eq]; exact hk
    have hw : WithCoreAt ni act[k] full[k] := (List.forall₂_iff_get.1 hF).2 k hk' hk
    have ha := (mem _).1 (List.getElem_mem hk')
    refine ⟨⟨fun i hi hb => ?_, fun i hi hb => ?_⟩, fun j hj => ?_, hfull _ hs⟩
    · rw [(hw i hi).1] at hb
      by_cases c : i < ni
      · omega
      · rw [if_neg c, Bool.and_eq_true, decide_eq_true_eq] at hb
        have := ha.1.1 (i - ni) hb.1 hb.2
        omega
    · rw [(hw i hi).2] at hb
      by_cases c : i < ni
      · omega
      · rw [if_neg c, Bool.and_eq_true, decide_eq_true_eq] at hb
        have := ha.1.2 (i - ni) hb.1 hb.2
        omega
    · have := hw j (by omega)
      rw [if_pos hj, if_pos hj] at this
      exact this
  · rintro ⟨hin, core, ea, eb⟩
    set mid : BitVec (2 * M) := joinSpin (loWord s >>> ni) (hiWord s >>> ni) with hmid
    have ba : ∀ j, j < M → mid.getLsbD j = (decide (ni + j < M) && s.getLsbD (ni + j)) := by
      intro j hj
      rw [hmid, join_alpha_bit _ _ hj, BitVec.getLsbD_ushiftRight, getLsbD_loWord]
    have bb : ∀ j, mid.getLsbD (j + M) = (decide (ni + j < M) && s.getLsbD (ni + j + M)) := by
      intro j
      rw [hmid, join_beta_bit, BitVec.getLsbD_ushiftRight, getLsbD_hiWord]
    have hw : WithCore ni mid s := by
      intro j hj
      by_cases c : j < ni
      · rw [if_pos c, if_pos c]; exact core j c
      · rw [if_neg c, if_neg c, ba _ (by omega), bb, show ni + (j - ni) = j by omega]
        simp [hj]
    have hmin : InSpace na mid := by
      refine ⟨fun i hi hb => ?_, fun i hi hb => ?_⟩
      · rw [ba i hi, Bool.and_eq_true, decide_eq_true_eq] at hb
        have := hin.1 _ hb.1 hb.2; omega
      · rw [bb i, Bool.and_eq_true, decide_eq_true_eq] at hb
        have := hin.2 _ hb.1 hb.2; omega
    obtain ⟨a, ha⟩ := exists_sameOcc (M' := 32) (by omega) h32 hmin
    have hs' : SameOcc na a mid := ⟨fun σ p hp => (ha.bit σ p hp).symm, ha.hi, ha.lo⟩
    have hwa : WithCoreAt ni a s := withCoreAt_of hM h32 hs' hw
    have s1 := (inSpace_iff mid).1 hmin
    have el := hs'.electrons h32 (by omega)
    have hmem : a ∈ act := by
      refine (mem a).2 ⟨(sameOcc_inSpace hs').1, ?_, ?_⟩
      · have := emb_electrons (withCore_lo hw hmin hM) s1.1 hM
        rw [← alphaElectrons_eq, ← alphaElectrons_eq, ea] at this
        rw [el.1]; omega
      · have := emb_electrons (withCore_hi hw hmin hM) s1.2 hM
        rw [← betaElectrons_eq, ← betaElectrons_eq, eb] at this
        rw [el.2]; omega
    obtain ⟨k, hk, rfl⟩ := List.mem_iff_getElem.1 hmem
    have hk' : k < full.length := by rw [← hF.length_eq]; exact hk
    have hw' : WithCoreAt ni act[k] full[k] := (List.forall₂_iff_get.1 hF).2 k hk hk'
    rw [uniq hwa hw']
    exact List.getElem_mem hk'

/-- the CAS functor on the active Hamiltonian of integrals over all orbitals -/
theorem casRdms_energy {no ni na nalpha nbeta : Nat} {T V Fi0 Ta0 Va0 : Nat → ℝ}
    (sym : IntSym no (asMat T no) (asTen V no)) (hn : ni + na ≤ no) (h32 : na ≤ 32) (hM : no ≤ M)
    (hα : nalpha ≤ na) (hβ : nbeta ≤ na) {eig : Nat → (Nat → Nat → ℝ) → ℝ × (Nat → ℝ)} (he : LowestPair eig)
    {ci : CiSettings} (h0 : 0 ≤ ci.matelTol) {A1 A2 : Nat → ℝ} {C : List ℝ}
    (hC : C = [] ∨ (C.length = na.choose nalpha * na.choose nbeta ∧ (C.map fun c => c * c).sum = 1))
    {x : ℝ × (Nat → ℝ) × (Nat → ℝ) × List ℝ} {H : (Nat → ℝ) × (Nat → ℝ) × (Nat → ℝ)}
    (hH : H = activeHamiltonian no na ni T no V no Fi0 no Ta0 na Va0 na)
    (h : casRdms eig ci na nalpha nbeta H.2.1 H.2.2 A1 A2 C = .ok x) :
    ∃ (full : List (BitVec (2 * M))) (ψ : Nat → ℝ), full.Nodup ∧ full.length = na.choose nalpha * na.choose nbeta ∧
      (∀ s, s ∈ full ↔ CasDet ni na nalpha nbeta s) ∧
      x.2.2.2 = (List.range full.length).map ψ ∧ (∑ i ∈ range full.length, ψ i * ψ i) = 1 ∧
      |inactiveEnergy ni T no H.1 no + x.1 - energyOf ⟨no, asMat T no, asTen V no⟩ full ψ| ≤
        ci.matelTol * full.length ∧
      (C = [] → ∀ s ∈ full, inactiveEnergy ni T no H.1 no + x.1 ≤
        hamiltonian ⟨no, asMat T no, asTen V no⟩ s s + ci.matelTol) := by
  obtain ⟨r, dets, hr, hd, e1, e2, -, -⟩ := casRdms_ok h
  obtain ⟨asym, -⟩ := active_sym (ldt := no) (ldv := no) hn (le_refl na) (le_refl na) T V Fi0 Ta0 Va0 sym
  rw [← hH] at asym
  have hsym : SymBelow na (viewInts na H.2.1 H.2.2) := symBelow_of asym
  obtain ⟨act, full, -, ndf, mem, len, hF, sec, h1, h2, h3⟩ := casci_total (M := 32) (M' := M)
    (ldt := no) (ldv := no) (ldf := no) (ldta := na) (ldva := na) (viewInts na H.2.1 H.2.2) hn h32 hM le_rfl
    le_rfl le_rfl T V Fi0 Ta0 Va0 sym.g_pair hH (fun _ _ _ _ => rfl) (fun _ _ _ _ _ _ _ _ => rfl) hsym hα hβ h0 he
    ci.maxSub ci.resTol C (hC.imp (fun e => by rw [e]; simp) id) hr
  have len' : full.length = na.choose nalpha * na.choose nbeta := hF.length_eq ▸ len
  refine ⟨full, r.C, ndf, len', casDet_iff h32 (by omega) mem hF fun s hs => (sec s hs).2, ?_, h1, ?_, ?_⟩
  · rw [e2, (hilbert_sector h32 hα hβ hd).2.2.1, len']
  · rw [e1]; exact h2
  · intro hz s hs
    obtain ⟨k, hk, rfl⟩ := List.mem_iff_getElem.1 hs
    have := h3 (by rw [hz]; simp) k hk
    rw [List.getD_eq_getElem _ _ hk] at this
    rw [e1]; exact this

/-! ### lower bounds -/

theorem isLowerBound_toList {I : Integrals ℝ} {na nb : Nat} {mu : ℝ} (h : IsLowerBound M I na nb mu)
    {fci : List (BitVec (2 * M))} (nd : fci.Nodup)
    (mem : ∀ s ∈ fci, InSpace I.norb s ∧ alphaElectrons s = na ∧ betaElectrons s = nb) : LowerBound I fci mu := by
  intro y
  set N := ∑ k ∈ range fci.length, y k * y k with hN
  have hN0 : 0 ≤ N := Finset.sum_nonneg fun k _ => mul_self_nonneg _
  rcases hN0.eq_or_lt with e | e
  · have hz : ∀ k ∈ range fci.length, y k = 0 := by
      intro k hk
      have := (Finset.sum_eq_zero_iff_of_nonneg fun k _ => mul_self_nonneg (y k)).1 e.symm k hk
      exact mul_self_eq_zero.1 this
    rw [← e, mul_zero]
    refine le_of_eq (Finset.sum_eq_zero fun k hk => Finset.sum_eq_zero fun l hl => ?_).symm
    rw [hz k hk]; ring
  · have hs : Real.sqrt N * Real.sqrt N = N := Real.mul_self_sqrt hN0
    have hp : 0 < Real.sqrt N := Real.sqrt_pos.2 e
    have := h fci nd mem (fun k => y k / Real.sqrt N) (by
      have : ∀ k, y k / Real.sqrt N * (y k / Real.sqrt N) = y k * y k / N := by
        intro k; rw [div_mul_div_comm, hs]
      rw [Finset.sum_congr rfl fun k _ => this k, ← Finset.sum_div, ← hN, div_self e.ne'])
    have e2 : energyOf I fci (fun k => y k / Real.sqrt N) = (∑ k ∈ range fci.length, ∑ l ∈ range fci.length,
        y k * y l * hamiltonian I (fci.getD k 0) (fci.getD l 0)) / N := by
      unfold energyOf
      rw [Finset.sum_div]
      refine Finset.sum_congr rfl fun k _ => ?_
      rw [Finset.sum_div]
      refine Finset.sum_congr rfl fun l _ => ?_
      rw [div_mul_div_comm, hs]; ring
    rw [e2, le_div_iff₀ e] at this
    exact this

theorem isLowerBound_congr {I J : Integrals ℝ} (hno : J.norb = I.norb)
    (hT : ∀ p q, p < I.norb → q < I.norb → J.T p q = I.T p q)
    (hV : ∀ p q r s, p < I.norb → q < I.norb → r < I.norb → s < I.norb → J.V p q r s = I.V p q r s)
    {na nb : Nat} {mu : ℝ} (h : IsLowerBound M I na nb mu) : IsLowerBound M J na nb mu := by
  intro dets nd mem c hc
  have : ∀ s t : BitVec (2 * M), hamiltonian J s t = hamiltonian I s t := by
    intro s t
    rw [← hamiltonian_cut J, ← hamiltonian_cut I]
    have : J.cut = I.cut := by
      unfold Integrals.cut
      rw [hno]
      congr 1
      · funext p q; split
        · rename_i h; exact hT p q h.1 h.2
        · rfl
      · funext p q r s; split
        · rename_i h; exact hV p q r s h.1.1 h.1.2 h.2.1 h.2.2
        · rfl
    rw [this]
  have h2 := h dets nd (fun s hs => by rw [← hno]; exact mem s hs) c hc
  unfold energyOf at h2 ⊢
  simp only [this]
  exact h2

/-- rotating the orbitals keeps lower bounds -/
theorem isLowerBound_rotate {no : Nat} (hn : no ≤ M) (T V C Y Z : Nat → ℝ)
    (hC : ∀ p q, p < no → q < no → ∑ i ∈ range no, C (i + p * no) * C (i + q * no) = if p = q then 1 else 0)
    {na nb : Nat} {mu : ℝ} (hna : na ≤ no) (hnb : nb ≤ no)
    (h : IsLowerBound M ⟨no, asMat T no, asTen V no⟩ na nb mu) :
    IsLowerBound M ⟨no, asMat (twoIndexTransform no no T no C no Y no) no,
      asTen (fourIndexTransform no no V no C no Z no) no⟩ na nb mu := by
  obtain ⟨fci, hf, -, -, -⟩ := C10_hilbert_space_exact M no na nb hn hna hnb
  obtain ⟨hS, nd, -, ha, hb, hall⟩ := hilbert_sector hn hna hnb hf
  have mem : ∀ s, s ∈ fci ↔ InSpace no s ∧ alphaElectrons s = na ∧ betaElectrons s = nb :=
    fun s => ⟨fun hs => ⟨hS.1 s hs, ha s hs, hb s hs⟩, fun ⟨x, y, z⟩ => hall s x y z⟩
  have hl := (isLowerBound_toList h nd fun s hs => (mem s).1 hs)
  have hr := LowerBound.rotate hn le_rfl T V C Y Z hC nd mem hl
  intro dets ndd md c hc
  exact hr.apply nd ndd (fun s hs => (mem s).2 (md s hs)) hc

end Macis
