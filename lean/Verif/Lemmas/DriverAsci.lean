import Verif.Lemmas.CoreLift
import Verif.Lemmas.DriverRun
import Verif.Lemmas.CutSearch
import Verif.Props.AsciContrib
import Verif.Spec.AsciDrive
import Verif.Spec.DriverEnv
/-! The ASCI branch of the standalone program. -/
namespace Macis
open Spec Finset

variable {M : Nat}

/-- `E` is, up to dropped matrix elements, the energy of a normalised state on `w` and not above any of its
determinants. -/
def EnergyOn (I : Integrals ℝ) (tol : ℝ) (w : List (BitVec (2 * M))) (E : ℝ) : Prop :=
  ∃ ψ : Nat → ℝ, (∑ i ∈ range w.length, ψ i * ψ i) = 1 ∧ |E - energyOf I w ψ| ≤ tol * w.length ∧
    ∀ i < w.length, E ≤ hamiltonian I (w.getD i 0) (w.getD i 0) + tol

/-- The same with the coefficients `Y` of that state. -/
def EnergyVec (I : Integrals ℝ) (tol : ℝ) (w : List (BitVec (2 * M))) (E : ℝ) (Y : List ℝ) : Prop :=
  ∃ ψ : Nat → ℝ, Y = (List.range w.length).map ψ ∧ (∑ i ∈ range w.length, ψ i * ψ i) = 1 ∧
    |E - energyOf I w ψ| ≤ tol * w.length ∧ ∀ i < w.length, E ≤ hamiltonian I (w.getD i 0) (w.getD i 0) + tol

theorem EnergyVec.on {I : Integrals ℝ} {tol : ℝ} {w : List (BitVec (2 * M))} {E : ℝ} {Y : List ℝ}
    (h : EnergyVec I tol w E Y) : EnergyOn I tol w E := by
  obtain ⟨ψ, -, a, b, c⟩ := h
  exact ⟨ψ, a, b, c⟩

theorem selectedCi_energy {I : Integrals ℝ} (hn : I.norb ≤ M) (hI : SymBelow I.norb I) {tol : ℝ} (h0 : 0 ≤ tol)
    {na nb : Nat} {w : List (BitVec (2 * M))} (hw : InSector I.norb na nb w)
    {eig : Nat → (Nat → Nat → ℝ) → ℝ × (Nat → ℝ)} (he : LowestPair eig) {maxM : Nat} {res : ℝ} {it : Nat} {E : ℝ}
    {x : Nat → ℝ} (h : selectedCiDiag eig I w tol maxM res [] = .converged it E x) :
    EnergyVec I tol w E ((List.range w.length).map x) := by
  have hc : selectedCiDiag eig I.cut w tol maxM res [] = .converged it E x := by
    rw [← h]
    unfold selectedCiDiag
    have : I.cut.csrHamiltonian w tol = I.csrHamiltonian w tol :=
      C152_csr (I := I) (J := I.cut) hn (fun p q hp hq => if_pos ⟨hp, hq⟩)
        (fun p q r s hp hq hr hs => if_pos ⟨⟨hp, hq⟩, hr, hs⟩) hw.one.1 hw.one.2.2 tol
    rw [this]
  obtain ⟨r1, r2, -, -, r5⟩ := C119_selected_ci I.cut hn (cut_real hI) h0 hw.one he maxM res [] (Or.inl (by simp)) hc
  refine ⟨x, rfl, r1, ?_, fun i hi => ?_⟩
  · have := quad_thresh (h := fun i j => hamiltonian I (w.getD i 0) (w.getD j 0)) h0 r1
    rw [r2]
    simp only [ciMatrix, hamiltonian_cut]
    exact this
  · have := r5 (by simp) i hi
    unfold ciMatrix at this
    simp only [hamiltonian_cut] at this
    split at this
    · linarith
    · rename_i c
      have := (abs_le.1 (not_lt.1 c)).1
      linarith

/-- the selection adds to the core only states that were scored, each once, whatever the limits are -/
theorem asciSelectSerial_sub {N : Nat} {srt part : List (Contrib N ℝ) → List (Contrib N ℝ)}
    {nth : Nat → List (Contrib N ℝ) → List (Contrib N ℝ)}
    (hs : SortsBy (fun x y => bitsetLess x.state y.state) srt) (hp : Rearranges part)
    (hn : NthElement (fun p : Contrib N ℝ => |p.rv|) nth) {ndetsMax : Nat} {cdets : List (BitVec N)} {C : List ℝ}
    {contribs : List (Contrib N ℝ)} (hcd : cdets.Nodup) {w : List (BitVec N)}
    (h : asciSelectSerial srt part nth ndetsMax cdets C contribs = some w) :
    w.Nodup ∧ ∀ s ∈ w, s ∈ cdets ∨ ∃ p ∈ contribs, p.state = s := by
  unfold asciSelectSerial at h
  split at h
  · cases h
  rename_i hC
  dsimp only at h
  obtain rfl := Option.some.inj h
  obtain ⟨a1, a2, -⟩ := sortAccumulate_spec hs contribs
  have hmem := fun x => mem_searchCandidates hs hp (not_lt.1 hC) (nodup_of_lt a1) x
  have hnd := nodup_searchCandidates hs hp cdets C (sortAccumulate srt contribs)
  generalize searchCandidates srt part cdets C (sortAccumulate srt contribs) = cs at hmem hnd
  set k := topKElements ndetsMax cdets.length
  have key : ∀ l : List (Contrib N ℝ), (l.map (·.state)).Nodup → (∀ x ∈ l, x ∈ cs) →
      (l.map (·.state) ++ cdets).Nodup ∧ ∀ s ∈ l.map (·.state) ++ cdets, s ∈ cdets ∨ ∃ p ∈ contribs, p.state = s := by
    intro l nd sub
    constructor
    · rw [List.nodup_append]
      refine ⟨nd, hcd, ?_⟩
      rintro s hs' t ht rfl
      obtain ⟨x, hx, rfl⟩ := List.mem_map.1 hs'
      obtain ⟨p, -, -, hc, rfl⟩ := (hmem x).1 (sub x hx)
      exact hc ht
    · intro s hs'
      rcases List.mem_append.1 hs' with h | h
      · obtain ⟨x, hx, rfl⟩ := List.mem_map.1 h
        obtain ⟨p, hp', -, -, rfl⟩ := (hmem x).1 (sub x hx)
        exact Or.inr ((a2 p.state).1 ⟨p, hp', rfl⟩)
      · exact Or.inl h
  split
  · refine key _ ?_ fun x hx => ?_
    · have := ((hn k cs).1.map (fun p : Contrib N ℝ => p.state)).nodup_iff.2 hnd
      exact this.sublist ((List.take_sublist _ _).map _)
    · exact (hn k cs).1.mem_iff.1 (List.take_subset _ _ hx)
  · exact key _ hnd fun x hx => hx

/-- the search stays in the sector of the core -/
theorem asciSearch_sector {I : Integrals ℝ} (hn : I.norb ≤ M) (hI : SymBelow I.norb I) {st : ContribSettings ℝ} {E0 : ℝ}
    {srt part : List (Contrib (2 * M) ℝ) → List (Contrib (2 * M) ℝ)}
    {nth : Nat → List (Contrib (2 * M) ℝ) → List (Contrib (2 * M) ℝ)}
    (hs : SortsBy (fun x y => bitsetLess x.state y.state) srt) (hp : Rearranges part)
    (hnth : NthElement (fun p : Contrib (2 * M) ℝ => |p.rv|) nth) {ndetsMax na nb : Nat}
    {cdets w : List (BitVec (2 * M))} {C : List ℝ} (hc : InSector I.norb na nb cdets)
    (h : asciSearchSerial I st I.norb E0 srt part nth ndetsMax cdets C = some w) : InSector I.norb na nb w := by
  have hcut : asciSearchSerial I.cut st I.norb E0 srt part nth ndetsMax cdets C = some w := by
    rw [← h]
    exact asciSearchSerial_congr (I := I) (J := I.cut) (n := I.norb)
      ⟨fun p q hp hq => if_pos ⟨hp, hq⟩, fun p q r s hp hq hr hs => if_pos ⟨⟨hp, hq⟩, hr, hs⟩⟩ hn st E0 srt part nth
      ndetsMax (fun s hs => (hc.2 s hs).1) C
  unfold asciSearchSerial at hcut
  by_cases hC : cdets.length ≤ C.length
  · obtain ⟨pairs, -, e, hr, -, -⟩ := C104_pruning (cut_real hI) st (show I.cut.norb = I.norb from rfl) hn hs hp E0 cdets C
      hC fun s hs => (hc.2 s hs).1
    rw [e] at hcut
    obtain ⟨nd, hm⟩ := asciSelectSerial_sub hs hp hnth hc.1 hcut
    refine ⟨nd, fun s hs' => ?_⟩
    rcases hm s hs' with h | ⟨p, hp', rfl⟩
    · exact hc.2 s h
    · obtain ⟨t, ht, hreach, -⟩ := hr p hp'
      obtain ⟨a, b⟩ := searchReach_sector (hc.2 t ht).1 hreach
      exact ⟨a, b.1.trans (hc.2 t ht).2.1, b.2.trans (hc.2 t ht).2.2⟩
  · unfold asciContributionsStandard at hcut
    rw [if_pos (by omega)] at hcut
    cases hcut

/-! ### the loops -/

theorem viewSym {n : Nat} {T V : Nat → ℝ} (h : IntSym n (asMat T n) (asTen V n)) : SymBelow n (viewInts n T V) :=
  ⟨h.h_symm, h.g_pair, h.g_left⟩

/-- Hamiltonians the growth phase can work with: the given one or, with natural-orbital rotations, one with the
same symmetry and the same lower bounds -/
structure Reached (n na nb : Nat) (rot : Bool) (h0 h : GenState) : Prop where
  sym : IntSym n (asMat h.T n) (asTen h.V n)
  same : rot = false → h = h0
  lower : ∀ mu, IsLowerBound 32 (viewInts n h0.T h0.V) na nb mu → IsLowerBound 32 (viewInts n h.T h.V) na nb mu

/-- What the growth and refinement phases rely on: the sort of the indices is a sort, the search stays in the sector,
the diagonalisation gives the energy of a normalised state, the rotation keeps symmetry and lower bounds. -/
structure GoodEnv (n na nb : Nat) (s : AsciSettings ℝ) (tol : ℝ) (e : AsciEnv (2 * 32) ℝ GenState) : Prop where
  idx : SortsCoeffs e.srtIdx
  search : ∀ (h : GenState) ndets cdets E0 C w, IntSym n (asMat h.T n) (asTen h.V n) → InSector n na nb cdets →
    cdets.length ≤ s.ncdetsMax → e.search h ndets cdets E0 C = some w → InSector n na nb w
  diag : ∀ (h : GenState) w E Y, IntSym n (asMat h.T n) (asTen h.V n) → InSector n na nb w →
    e.diag h w = some (E, Y) → EnergyVec (viewInts n h.T h.V) tol w E Y
  rotate : s.growWithRot = true → ∀ (h0 h : GenState) w X, Reached n na nb true h0 h →
    Reached n na nb true h0 (e.rotate h w X)

variable {n na nb : Nat} {s : AsciSettings ℝ} {tol : ℝ} {e : AsciEnv (2 * 32) ℝ GenState}

theorem asciIter_sector (hg : GoodEnv n na nb s tol e) {h : GenState}
    (sym : IntSym n (asMat h.T n) (asTen h.V n)) {ndets : Nat} {E0 E : ℝ} {wfn w : List (BitVec (2 * 32))} {X Y : List ℝ}
    (hw : InSector n na nb wfn) (hr : asciIter e s ndets h E0 wfn X = .ok (E, w, Y)) :
    InSector n na nb w ∧ EnergyVec (viewInts n h.T h.V) tol w E Y := by
  unfold asciIter at hr
  have hsorted : ∀ w1 X1, (if wfn.length > 1 then reorderCi (e.srtIdx X) wfn X 0 0 else some (wfn, X)) =
      some (w1, X1) → InSector n na nb w1 := by
    intro w1 X1 eq
    split at eq
    · by_cases hl : X.length = wfn.length
      · obtain ⟨w2, X2, e2, l1, l2, hp, -⟩ := C27_reorder_ci wfn X 0 hl (hg.idx X)
        rw [e2] at eq
        cases eq
        have hperm : w1.Perm wfn := by
          have := hp.map Prod.fst
          rwa [List.map_fst_zip (by omega), List.map_fst_zip (by omega)] at this
        exact ⟨hperm.nodup_iff.2 hw.1, fun s hs => hw.2 s (hperm.mem_iff.1 hs)⟩
      · unfold reorderCi at eq
        rw [if_neg hl] at eq
        cases eq
    · cases eq
      exact hw
  generalize (if wfn.length > 1 then reorderCi (e.srtIdx X) wfn X 0 0 else some (wfn, X)) = so at hr hsorted
  match so, hr with
  | none, hr => cases hr
  | some (w1, X1), hr =>
    have hw1 := hsorted w1 X1 rfl
    dsimp only at hr
    cases hse : e.search h ndets (w1.take (min s.ncdetsMax w1.length)) E0 X1 with
    | none => rw [hse] at hr; cases hr
    | some w2 =>
      rw [hse] at hr
      dsimp only at hr
      have hcore : InSector n na nb (w1.take (min s.ncdetsMax w1.length)) :=
        ⟨hw1.1.sublist (List.take_sublist _ _), fun s hs => hw1.2 s (List.take_subset _ _ hs)⟩
      have h2 : InSector n na nb w2 :=
        hg.search h _ _ _ _ _ sym hcore (by rw [List.length_take]; omega) hse
      cases hd : e.diag h w2 with
      | none => rw [hd] at hr; cases hr
      | some r =>
        rw [hd] at hr
        obtain ⟨E', X'⟩ := r
        cases hr
        exact ⟨h2, hg.diag h _ _ _ sym h2 hd⟩

theorem Reached.rotate {n na nb : Nat} {h0 h : GenState} (hr : Reached n na nb true h0 h)
    {syev : Nat → (Nat → ℝ) → Nat → (Nat → ℝ) × (Nat → ℝ)} (hsy : SyevSpec syev) (hn : n ≤ 32) (hna : na ≤ n) (hnb : nb ≤ n) (w : List (BitVec (2 * 32))) (X : List ℝ) :
    Reached n na nb true h0 (asciRotate syev n h w X) := by
  unfold asciRotate
  dsimp only
  set A : Nat → ℝ := fun m => flat2 n (formRdms w w (fun i => X.getD i 0) true ⟨fun _ _ => 0, fun _ _ _ _ => 0⟩).ordm m *
    (-1)
  have ortho := (hsy n A n le_rfl).ortho
  set C := (syev n A n).1
  obtain ⟨t1, t2⟩ := transform_val (ldt := n) (ldu := n) (no := n) h.T h.V C h.T h.V
  exact ⟨intSym_congr t1 t2 (tr_sym hr.sym (asMat C n)), fun e => absurd e (by decide),
    fun mu hmu => isLowerBound_rotate hn h.T h.V C h.T h.V (fun p q hp hq => ortho p q hp hq) hna hnb (hr.lower mu hmu)⟩

/-- what the growth phase knows about its state -/
structure GrowInv (n na nb : Nat) (rot : Bool) (tol : ℝ) (h0 : GenState) (st : GrowState (2 * 32) ℝ GenState) : Prop where
  reach : Reached n na nb rot h0 st.h
  wfn : InSector n na nb st.wfn
  energy : ∃ h', Reached n na nb rot h0 h' ∧ EnergyOn (viewInts n h'.T h'.V) tol st.wfn st.E0 ∧
    (rot = false → EnergyVec (viewInts n h'.T h'.V) tol st.wfn st.E0 st.X)

theorem growBody_inv (hg : GoodEnv n na nb s tol e) {g0 : GenState} {st st' : GrowState (2 * 32) ℝ GenState}
    (hr : Reached n na nb s.growWithRot g0 st.h) (hw : InSector n na nb st.wfn)
    (h : growBody e s st = .ok st') : GrowInv n na nb s.growWithRot tol g0 st' := by
  unfold growBody at h
  dsimp only at h
  cases hi : asciIter e s (ndetsNew s st.wfn.length) st.h st.E0 st.wfn st.X with
  | throw => rw [hi] at h; cases h
  | ub => rw [hi] at h; cases h
  | timeout => rw [hi] at h; cases h
  | ok r =>
    obtain ⟨E, w, Y⟩ := r
    rw [hi] at h
    obtain ⟨h1, h2⟩ := asciIter_sector hg hr.sym hw hi
    simp only [Run.bind] at h
    split at h
    · cases h
    split at h
    · rename_i hrot
      cases hd : e.diag (e.rotate st.h w Y) w with
      | none => rw [hd] at h; cases h
      | some r =>
        rw [hd] at h
        obtain ⟨E', X'⟩ := r
        cases h
        rw [hrot.1] at hr ⊢
        exact ⟨hg.rotate hrot.1 _ _ w Y hr, h1, st.h, hr, h2.on, fun e => absurd e (by decide)⟩
    · cases h
      exact ⟨hr, h1, st.h, hr, h2.on, fun _ => h2⟩

theorem growLoop_inv (hg : GoodEnv n na nb s tol e) {g0 : GenState} (fuel : Nat) {st st' : GrowState (2 * 32) ℝ GenState}
    (hr : Reached n na nb s.growWithRot g0 st.h) (hw : InSector n na nb st.wfn)
    (h : growLoop e s fuel st = .ok st') :
    s.ntdetsMax ≤ st'.wfn.length ∧ ((s.ntdetsMax ≤ st.wfn.length ∧ st' = st) ∨
      GrowInv n na nb s.growWithRot tol g0 st') := by
  induction fuel generalizing st with
  | zero =>
    unfold growLoop at h
    split at h
    · cases h
    · cases h; exact ⟨by omega, Or.inl ⟨by omega, rfl⟩⟩
  | succ fuel ih =>
    unfold growLoop at h
    split at h
    · dsimp only at h
      cases hb : growBody e s st with
      | throw => rw [hb] at h; cases h
      | ub => rw [hb] at h; cases h
      | timeout => rw [hb] at h; cases h
      | ok st1 =>
        rw [hb] at h
        have hi := growBody_inv hg hr hw hb
        obtain ⟨h1, h2⟩ := ih hi.reach hi.wfn h
        refine ⟨h1, Or.inr ?_⟩
        rcases h2 with ⟨-, rfl⟩ | h2
        exacts [hi, h2]
    · cases h; exact ⟨by omega, Or.inl ⟨by omega, rfl⟩⟩

theorem refineLoop_energy (hg : GoodEnv n na nb s tol e) {h : GenState}
    (sym : IntSym n (asMat h.T n) (asTen h.V n)) {ndets : Nat} (k : Nat) {E0 : ℝ} {past : List ℝ}
    {wfn : List (BitVec (2 * 32))} {X : List ℝ} {Es : List ℝ} {w : List (BitVec (2 * 32))} {Y : List ℝ}
    (hw : InSector n na nb wfn)
    (hr : refineLoop e s h ndets k E0 past wfn X = .ok (Es, w, Y)) :
    w.length = ndets ∧ InSector n na nb w ∧ EnergyVec (viewInts n h.T h.V) tol w (Es.headD 0) Y := by
  induction k generalizing E0 past wfn X with
  | zero => cases hr
  | succ k ih =>
    unfold refineLoop at hr
    cases hi : asciIter e s ndets h E0 wfn X with
    | throw => rw [hi] at hr; cases hr
    | ub => rw [hi] at hr; cases hr
    | timeout => rw [hi] at hr; cases hr
    | ok r =>
      obtain ⟨E, w1, Y1⟩ := r
      rw [hi] at hr
      obtain ⟨h1, h2⟩ := asciIter_sector hg sym hw hi
      simp only [Run.bind] at hr
      split at hr
      · cases hr
      rename_i hl
      split at hr
      · cases hr
        exact ⟨not_not.1 hl, h1, h2⟩
      · exact ih h1 hr

theorem canonicalHF_sector {n k : Nat} (hn : n ≤ 32) (hk : k ≤ n) :
    InSector n k k [canonicalHF 32 (k % 2 ^ 32) (k % 2 ^ 32)] := by
  rw [Nat.mod_eq_of_lt (by omega)]
  obtain ⟨h1, h2⟩ := C06_canonical_hf 32 k k (by omega) (by omega)
  have cnt : ∀ x : BitVec 32, (∀ i, x.getLsbD i = true ↔ i < k) → SupportedOn n x ∧ electrons x = k := by
    intro x hx
    refine ⟨fun i hi => lt_of_lt_of_le ((hx i).1 hi) hk, ?_⟩
    rw [electrons_eq_count, ← card_bitSet]
    have : bitSet x = range k := by
      ext i
      rw [mem_bitSet, hx, Finset.mem_range]
    rw [this, Finset.card_range]
  refine ⟨List.nodup_singleton _, fun s hs => ?_⟩
  rw [List.mem_singleton.1 hs, inSpace_iff, alphaElectrons_eq, betaElectrons_eq]
  obtain ⟨a1, a2⟩ := cnt _ h1
  obtain ⟨b1, b2⟩ := cnt _ h2
  exact ⟨⟨a1, b1⟩, a2, b2⟩

/-- one determinant -/
theorem energyOn_single {I : Integrals ℝ} (hn : I.norb ≤ M) (hI : SymBelow I.norb I) {tol : ℝ} (h0 : 0 ≤ tol)
    {s : BitVec (2 * M)} (hs : InSpace I.norb s) : EnergyVec I tol [s] (I.matrixElement s s) [1] := by
  have e : I.matrixElement s s = hamiltonian I s s :=
    C152_slater_condon I hn two_ne_zero hI.pair hs hs ⟨rfl, rfl⟩
  refine ⟨fun _ => 1, rfl, by simp, ?_, fun i hi => ?_⟩
  · have : energyOf I [s] (fun _ => 1) = hamiltonian I s s := by simp [energyOf]
    rw [this, e, sub_self, abs_zero]
    exact mul_nonneg h0 (Nat.cast_nonneg _)
  · have : i = 0 := by simpa using hi
    subst this
    rw [e]
    simpa using h0

/-- the program on one rank provides what the phases rely on -/
theorem asciEnv_good {env : DriverEnv} (he : LowestPair env.eig) (hs : SortsOk env) {o : DriverSettings}
    (hsy : o.asci.growWithRot = true → SyevSpec env.syev) (h0 : 0 ≤ o.ci.matelTol) (hn : n ≤ 32)
    (hna : na ≤ n) (hnb : nb ≤ n) : GoodEnv n na nb o.asci o.ci.matelTol (asciEnv env o n) where
  idx := hs.idx
  search h _ _ _ _ _ sym hc _ e := asciSearch_sector (I := viewInts n h.T h.V) hn (viewSym sym) hs.srt hs.part hs.nth hc e
  diag h w E Y sym hw hd := by
    change (match selectedCiDiag env.eig (viewInts n h.T h.V) w o.ci.matelTol o.ci.maxSub o.ci.resTol [] with
      | .converged _ E x => some (E, (List.range w.length).map x)
      | _ => none) = some (E, Y) at hd
    split at hd
    · rename_i it E' x hres
      cases hd
      exact selectedCi_energy (I := viewInts n h.T h.V) hn (viewSym sym) h0 hw he hres
    · cases hd
  rotate hr _ _ w X r := r.rotate (hsy hr) hn hna hnb w X

/-- the guess -/
theorem guess_sector {env : DriverEnv} {o : DriverSettings} (h0 : 0 ≤ o.ci.matelTol) {sp : Ini.Space}
    (h32 : sp.nactive ≤ 32) (hab : sp.nalpha = sp.nbeta) (hα : sp.nalpha ≤ sp.nactive) {Ta Va : Nat → ℝ}
    (sym : IntSym sp.nactive (asMat Ta sp.nactive) (asTen Va sp.nactive))
    (hg : GuessFile env o sp.nactive sp.nalpha sp.nbeta) {c eI E0 : ℝ} {dets : List (BitVec (2 * 32))} {C : List ℝ}
    (hge : asciGuess env o (viewInts sp.nactive Ta Va) sp.nalpha c eI = .ok (E0, dets, C)) :
    InSector sp.nactive sp.nalpha sp.nbeta dets ∧ (o.asci.ntdetsMax ≤ dets.length →
      o.asci.maxRefineIter = 0 → EnergyVec (viewInts sp.nactive Ta Va) o.ci.matelTol dets E0 C) := by
  unfold asciGuess at hge
  split at hge
  · rename_i hf
    obtain ⟨⟨d1, C1⟩, e1, hge⟩ := out_bind_ok hge
    obtain ⟨g1, g2⟩ := hg hf d1 C1 (toOut_ok e1)
    have : d1 = dets := by
      dsimp only at hge
      split at hge
      · obtain ⟨e, -, hge⟩ := out_bind_ok hge
        cases hge; rfl
      · cases hge; rfl
    subst this
    exact ⟨g1, fun a b => by omega⟩
  · dsimp only at hge
    have hh := canonicalHF_sector h32 hα
    rw [hab] at hh hge ⊢
    cases hge
    exact ⟨hh, fun _ _ => energyOn_single (I := viewInts sp.nactive Ta Va) h32 (viewSym sym) h0
      (hh.2 _ (List.mem_singleton_self _)).1⟩

/-- growth followed by refinement -/
theorem phases_run (hge : GoodEnv n na nb s tol e) {h0 : GenState} (r0 : Reached n na nb s.growWithRot h0 h0)
    {fuel : Nat} {E0 E1 : ℝ} {dets w : List (BitVec (2 * 32))} {C Y : List ℝ} (hd : InSector n na nb dets)
    (hE : s.ntdetsMax ≤ dets.length → s.maxRefineIter = 0 → EnergyVec (viewInts n h0.T h0.V) tol dets E0 C)
    {g : GrowState (2 * 32) ℝ GenState} (hgr : asciGrow e s fuel h0 E0 dets C = .ok g)
    (hre : (if s.maxRefineIter ≠ 0 then
        (asciRefine e s g.h g.E0 g.wfn g.X).toOut.bind fun (Es, dets, C) => .ok (Es.headD 0, dets, C)
      else Out.ok (g.E0, g.wfn, g.X)) = .ok (E1, w, Y)) :
    ∃ h', Reached n na nb s.growWithRot h0 h' ∧ InSector n na nb w ∧ s.ntdetsMax ≤ w.length ∧
      EnergyOn (viewInts n h'.T h'.V) tol w E1 ∧
      (s.growWithRot = false ∨ s.maxRefineIter ≠ 0 → EnergyVec (viewInts n h'.T h'.V) tol w E1 Y) := by
  obtain ⟨gl, gi⟩ := growLoop_inv hge fuel r0 hd hgr
  have gs : Reached n na nb s.growWithRot h0 g.h ∧ InSector n na nb g.wfn := by
    rcases gi with ⟨-, rfl⟩ | gi
    exacts [⟨r0, hd⟩, ⟨gi.reach, gi.wfn⟩]
  split at hre
  · obtain ⟨⟨Es, w1, Y1⟩, e2, hre⟩ := out_bind_ok hre
    obtain ⟨q1, q2, q3⟩ := refineLoop_energy hge gs.1.sym _ gs.2 (toOut_ok e2)
    cases hre
    exact ⟨g.h, gs.1, q2, q1 ▸ gl, q3.on, fun _ => q3⟩
  · rename_i hz
    cases hre
    rcases gi with ⟨a, rfl⟩ | gi
    · exact ⟨_, r0, hd, gl, (hE a (not_not.1 hz)).on, fun _ => hE a (not_not.1 hz)⟩
    · obtain ⟨h', a, b, c⟩ := gi.energy
      exact ⟨h', a, gi.wfn, gl, b, fun x => c (x.resolve_right hz)⟩

/-- the result of the ASCI branch -/
theorem asci_run {env : DriverEnv} (he : LowestPair env.eig) (hs : SortsOk env) {o : DriverSettings}
    (hsy : o.asci.growWithRot = true → SyevSpec env.syev) (h0 : 0 ≤ o.ci.matelTol) {sp : Ini.Space}
    (h32 : sp.nactive ≤ 32) (hab : sp.nalpha = sp.nbeta) (hα : sp.nalpha ≤ sp.nactive) {Ta Va : Nat → ℝ}
    (sym : IntSym sp.nactive (asMat Ta sp.nactive) (asTen Va sp.nactive))
    (hg : GuessFile env o sp.nactive sp.nalpha sp.nbeta) {c eI : ℝ} {r : CalcOut}
    (h : runAsci env o sp c eI Ta Va = .ok r) :
    ∃ (h' : GenState) (w : List (BitVec (2 * 32))) (E : ℝ) (Y : List ℝ), Reached sp.nactive sp.nalpha sp.nbeta o.asci.growWithRot ⟨Ta, Va⟩ h' ∧
      InSector sp.nactive sp.nalpha sp.nbeta w ∧ o.asci.ntdetsMax ≤ w.length ∧
      EnergyOn (viewInts sp.nactive h'.T h'.V) o.ci.matelTol w E ∧ r.eCI = E + (eI + c) ∧
      (o.asci.growWithRot = false ∨ o.asci.maxRefineIter ≠ 0 →
        EnergyVec (viewInts sp.nactive h'.T h'.V) o.ci.matelTol w E Y) ∧
      (o.wfnOut = [] → r.wfnOut = none) ∧ (o.wfnOut ≠ [] → writeWavefunction env.io sp.nactive w Y = .ok r.wfnOut) := by
  unfold runAsci at h
  dsimp only at h
  obtain ⟨⟨E0, dets, C⟩, hge, h⟩ := out_bind_ok h
  dsimp only at h
  obtain ⟨g1, g2⟩ := guess_sector h0 h32 hab hα sym hg hge
  obtain ⟨g, hgr, h⟩ := out_bind_ok h
  obtain ⟨⟨E1, w, Y⟩, hre, h⟩ := out_bind_ok h
  obtain ⟨h', f1, f2, f3, f4, f5⟩ := phases_run (asciEnv_good he hs hsy h0 h32 hα (hab ▸ hα))
    (h0 := ⟨Ta, Va⟩) ⟨sym, fun _ => rfl, fun _ h => h⟩ g1 g2 (toOut_ok hgr) hre
  obtain ⟨wo, hwo, h⟩ := out_bind_ok h
  cases h
  refine ⟨h', w, E1, Y, f1, f2, f3, f4, rfl, f5, fun hz => ?_, fun hz => ?_⟩
  · rw [if_neg (not_not.2 hz)] at hwo
    exact (Out.ok.inj hwo).symm
  · rw [if_pos hz] at hwo
    exact toOut_ok hwo

end Macis
