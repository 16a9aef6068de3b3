import Verif.Lemmas.MpiPort
import Verif.Props.MpiDav
import Verif.Props.MpiSearch
import Verif.Props.PSpmv
import Verif.Props.AsciDrive
import Verif.Spec.MpiIter
/-! Lemmas for C163: the parts of `asci_iter` on several ranks. -/
namespace Macis
open Spec Spec.Mpi Mpi
variable {M : Nat}

/-! ### the diagonalisation -/

theorem ham_global (I : Integrals ℝ) (thresh : ℝ) (h0 : 0 ≤ thresh) (dets : List (BitVec (2 * M))) (P : Nat) :
    IsGlobal (fun r => I.distHamiltonian dets thresh P r) P (defaultExtents dets.length P)
      (fun i j : Fin dets.length => csrEntry (I.csrHamiltonian dets thresh) i j) := by
  intro r hr t ht i j hi
  obtain ⟨st, en, D, h1, h2, hb, hd, -, -, -, -, -, -, hall⟩ := C18_distributed_hamiltonian I thresh h0 dets P r hr
  have hb' : (defaultExtents dets.length P).getD r (0, 0) = (st, en) := hb
  rw [hb']
  unfold rowsOf at ht
  unfold startOf at hi
  rw [hb'] at ht hi
  dsimp only at ht hi ⊢
  rw [hi, (hall t ht j j.2).1]
  unfold distEntry
  rw [hd]
  rfl

theorem ham_noDup (I : Integrals ℝ) (thresh : ℝ) (h0 : 0 ≤ thresh) (dets : List (BitVec (2 * M))) (P : Nat) :
    NoDuplicates (fun r => I.distHamiltonian dets thresh P r) P := by
  intro r hr T hT i hi
  obtain ⟨st, en, D, h1, h2, hb, hd, wf, hs, -⟩ := C18_distributed_hamiltonian I thresh h0 dets P r hr
  dsimp only at hT
  rw [hd] at hT
  cases hT
  exact sorted_rowCols_nodup wf hs i hi

/-- the eigensolver of the ranks, called without a start vector -/
theorem fresh_reach {A : Nat → DistCsr ℝ} {P N : Nat}
    (h : DistributedMatrix A P N (defaultExtents N P)) {M : Matrix (Fin N) (Fin N) ℝ}
    (hM : IsGlobal A P (defaultExtents N P) M) (hnd : NoDuplicates A P)
    {eig : Nat → (Nat → Nat → ℝ) → ℝ × (Nat → ℝ)} (he : EigLocal eig) (hP : 0 < P) (hPN : P ≤ N)
    (garbage : Nat → Nat → Nat → ℝ) (tol : ℝ) (maxM : Nat) (h0 : maxM ≠ 0)
    (mem : Nat → DavSt) (hn : ∀ r < P, (mem r).2.nan = false) :
    ∃ st, Reach (ranks P (fun r => ciDiagProg eig P r (A r) (garbage r) tol maxM []) mem) (ranks P (fun _ => []) st) ∧
      ∀ r < P, (st r).1.err = (mem r).1.err ∧ (st r).2.err = (mem r).2.err ∧
        EndsLike (defaultExtents N P)
          (davidsonRun M.mulVec (fun i => M i i) tol eig maxM (distGuess P fun i => M i i)) r (st r).2 := by
  have hD := diag_piece h hM hnd
  have hall := allDiags_eq h hP hD
  have hne : (List.ofFn fun i => M i i) ≠ [] := by
    rw [← List.length_pos_iff]; simp; omega
  have huse : ∀ r < P, usesPassedVector (resizeVec [] (rowsOf (defaultExtents N P) r)) = some false := by
    intro r hr
    rw [resize_zero (by simp)]
    exact C74_fresh_vector_partial _ (rowsOf_default_pos hP hPN hr)
  have hq : 0 < N / P := Nat.div_pos hPN hP
  have hlen : (List.ofFn fun i => M i i).length = N := by simp
  set i0 := minIdx (List.ofFn fun i => M i i) with hi0
  have hspec := minIdx_spec _ hne
  have hi0N : i0 < N := by have := firstMin_lt hspec; rwa [hlen] at this
  have huniq : ∀ m, FirstMin (List.ofFn fun i => M i i) m → m = i0 := by
    rintro m ⟨v, hv, hle, hlt⟩
    obtain ⟨w, hw, hle', hlt'⟩ := hspec
    rcases Nat.lt_trichotomy m i0 with hc | hc | hc
    · have := hlt' m hc v hv
      exact absurd (hle w (List.mem_of_getElem? hw)) (not_le.2 this)
    · exact hc
    · have := hlt i0 hc w hw
      exact absurd (hle' v (List.mem_of_getElem? hv)) (not_le.2 this)
  have hiff : ∀ m, FirstMin (List.ofFn fun i => M i i) m ↔ m = i0 := fun m => ⟨huniq m, fun e => e ▸ hspec⟩
  by_cases hrow : i0 < P * (N / P)
  · obtain ⟨m, hm, hguess⟩ := C33_distributed_guess (List.ofFn fun i => M i i) P hP (by rw [hlen]; exact hPN)
      (by intro m hm; rw [huniq m hm, hlen]; exact hrow)
    obtain rfl := huniq m hm
    rw [hlen] at hguess
    exact ci_reach h hM he hP garbage hD tol maxM h0 (fun _ => []) false huse (g := distGuess P fun i => M i i)
      (fun r => ((((List.replicate N (0 : ℝ)).set i0 1).drop (startOf (defaultExtents N P) r)).take (rowsOf (defaultExtents N P) r)))
      (fun r hr => by
        simp only [StartPiece, Bool.false_eq_true, if_false]
        rw [hall]
        exact hguess r hr _ _ (ext_getD h.partition hr))
      (by
        intro r hr t ht i hi
        dsimp only
        rw [List.getD_eq_getElem?_getD, List.getElem?_take, if_pos ht, List.getElem?_drop, ← hi, List.getElem?_set]
        unfold distGuess
        simp only [hiff]
        by_cases e : i0 = i
        · have hc : (i : Nat) = i0 ∧ (i : Nat) < P * (N / P) := ⟨e.symm, e ▸ hrow⟩
          rw [if_pos e, if_pos (by simpa using hi0N), if_pos hc]; rfl
        · have hc : ¬ ((i : Nat) = i0 ∧ (i : Nat) < P * (N / P)) := fun hc => e hc.1.symm
          rw [if_neg e, if_neg hc]; simp)
      mem hn
  · have hP1 : P ≠ 1 := by rintro rfl; simp at hrow; omega
    have hg : ∀ r < P, pDiagonalGuess (defaultExtents N P) (List.ofFn fun i => M i i) r =
        some (List.replicate (rowsOf (defaultExtents N P) r) 0) := by
      intro r hr
      have e0 : (defaultExtents N P).getD 0 (0, 0) = (0, N / P) := by
        rw [defaultExtents_eq _ _ hP]
        simp [List.getD, hP, hP1.symm]
      rw [pDiagonalGuess_eq (List.ofFn fun i => M i i) (rank := r) e0 rfl, if_neg (by omega), if_neg]
      · rfl
      · rw [← hi0, Nat.sub_zero]
        have : P ≤ i0 / (N / P) := (Nat.le_div_iff_mul_le hq).2 (not_lt.1 hrow)
        omega
    exact ci_reach h hM he hP garbage hD tol maxM h0 (fun _ => []) false huse (g := distGuess P fun i => M i i)
      (fun r => List.replicate (rowsOf (defaultExtents N P) r) 0)
      (fun r hr => by
        simp only [StartPiece, Bool.false_eq_true, if_false]
        rw [hall]
        exact hg r hr)
      (by
        intro r hr t ht i hi
        unfold distGuess
        have hc : ¬ ((i : Nat) = i0 ∧ (i : Nat) < P * (N / P)) := fun hc => hrow (hc.1 ▸ hc.2)
        simp only [hiff]
        rw [if_neg hc]
        simp [List.getD_eq_getElem?_getD, List.getElem?_replicate, ht])
      mem hn

theorem log_reach (P n : Nat) (s : Nat → AsciMem M) :
    Reach (ranks P (fun _ => logProg P n) s) (ranks P (fun _ => []) s) := by
  induction n with
  | zero => exact Reach.refl _
  | succ n ih =>
    refine Reach.trans ?_ ih
    have := ranks_gather P coll (fun _ _ => (.stat : AsciMsg M)) (fun _ => putLog) (fun _ => logProg P n) s
    refine cast ?_ this
    congr 2
    funext r
    have : ∀ (L : List Nat) (x : AsciMem M), L.foldl (fun x _ => putLog .stat x) x = x := by
      intro L
      induction L with
      | nil => intro x; rfl
      | cons a L ih => intro x; exact ih x
    rw [this]
    simp

theorem lawful_search : LawfulPort (searchPort (M := M)) := ⟨fun _ _ => rfl, fun _ _ _ => rfl, fun _ => rfl, fun _ => rfl⟩
theorem lawful_dav : LawfulPort (davPort (M := M)) := ⟨fun _ _ => rfl, fun _ _ _ => rfl, fun _ => rfl, fun _ => rfl⟩

/-- a rank's piece of a vector -/
def pieceOf (P : Nat) (x : List ℝ) (r : Nat) : List ℝ :=
  (x.drop (startOf (defaultExtents x.length P) r)).take (rowsOf (defaultExtents x.length P) r)

theorem diag_reach {a : AsciPar M} (hb : Behaves a) (hP : 0 < a.P) (ht : 0 ≤ a.ci.matelTol) (hm : a.ci.maxSub ≠ 0)
    (garbage : Nat → Nat → Nat → ℝ) (h : GenState) (wfn : List (BitVec (2 * M))) (hw : a.P ≤ wfn.length)
    (s : Nat → AsciMem M) (hs : ∀ r < a.P, (s r).h = h ∧ (s r).wfn = wfn) :
    ∃ s', Reach (ranks a.P (fun r => diagProg a r (garbage r)) s) (ranks a.P (fun _ => []) s') ∧
      ∀ r < a.P, ∃ d, match jointDiag a h wfn with
        | some (E, x) => s' r = { s r with dav := d, diagE := E, Xl := pieceOf a.P x r } ∧ x.length = wfn.length
        | none => s' r = { s r with dav := d, thrown := true } := by
  set I := viewInts a.norb h.T h.V with hI
  have hdist := distHamiltonian_distributed I a.ci.matelTol ht wfn a.P hP
  have hglob := ham_global I a.ci.matelTol ht wfn a.P
  have hnd := ham_noDup I a.ci.matelTol ht wfn a.P
  set s1 : Nat → AsciMem M := fun r => if r < a.P then diagStart (s r) else s r with hs1
  obtain ⟨st, hr, hst⟩ := fresh_reach hdist hglob hnd hb.eig hP hw garbage a.ci.resTol a.ci.maxSub hm
    (fun r => davPort.get (s1 r)) (by intro r hr; simp [hs1, hr, davPort, diagStart])
  have hham : ∀ r < a.P, a.ham r (s1 r) = I.distHamiltonian wfn a.ci.matelTol a.P r := by
    intro r hr
    have := hs r hr
    simp only [AsciPar.ham, hs1, hr, if_true, diagStart, this.1, this.2, hI]
  have hext : ∀ r < a.P, (I.distHamiltonian wfn a.ci.matelTol a.P r).localRowExtent = rowsOf (defaultExtents wfn.length a.P) r :=
    fun r hr => localRowExtent_eq hdist hr
  have r1 := log_reach a.P 8 s
  have r2 := ranks_local (T := AsciMsg M) a.P (fun _ => [diagStart]) s
  have r3 : Reach (ranks a.P (fun r => callL davPort (ciDiagProg a.eig a.P r (a.ham r (s1 r)) (garbage r) a.ci.resTol
      a.ci.maxSub [])) s1) (ranks a.P (fun _ => []) fun r => davPort.set (st r) (s1 r)) := by
    have := ranks_port a.P lawful_dav _ s1 st hr
    refine cast ?_ this
    congr 1
    apply ranks_congr
    intro r hr
    rw [hham r hr]
  have r4 := ranks_local (T := AsciMsg M) a.P (fun r => [diagEnd (a.ham r (s1 r)).localRowExtent])
    (fun r => davPort.set (st r) (s1 r))
  refine ⟨_, ranks_seq a.P r1 (ranks_seq a.P r2 (ranks_choice a.P (fun r m =>
    callL davPort (ciDiagProg a.eig a.P r (a.ham r m) (garbage r) a.ci.resTol a.ci.maxSub []) ++
    comps [diagEnd (a.ham r m).localRowExtent]) (ranks_seq a.P r3 r4))), ?_⟩
  intro r hr
  refine ⟨st r, ?_⟩
  obtain ⟨e1, e2, e3⟩ := hst r hr
  have e1' : (st r).1.err = false := by rw [e1]; simp [hs1, hr, davPort, diagStart]
  have e2' : (st r).2.err = false := by rw [e2]; simp [hs1, hr, davPort, diagStart]
  rw [hham r hr, hext r hr]
  simp only [hr, if_true, runComps, List.foldl_cons, List.foldl_nil]
  have hEnd : EndsLike (defaultExtents wfn.length a.P) (davidsonRun (ciFull a h wfn).mulVec (fun i => ciFull a h wfn i i)
    a.ci.resTol a.eig a.ci.maxSub (distGuess a.P fun i => ciFull a h wfn i i)) r (st r).2 := e3
  unfold jointDiag
  cases hrun : davidsonRun (ciFull a h wfn).mulVec (fun i => ciFull a h wfn i i)
    a.ci.resTol a.eig a.ci.maxSub (distGuess a.P fun i => ciFull a h wfn i i) with
  | converged it E x =>
    rw [hrun] at hEnd
    obtain ⟨ho, hx⟩ := hEnd
    dsimp only
    refine ⟨?_, by simp⟩
    have hpiece : (List.range (rowsOf (defaultExtents wfn.length a.P) r)).map (st r).2.X = pieceOf a.P (List.ofFn x) r := by
      unfold pieceOf
      rw [List.length_ofFn]
      have hle := ext_le hdist.partition hr
      apply List.ext_getElem
      · simp only [List.length_map, List.length_range, List.length_take, List.length_drop, List.length_ofFn]
        unfold rowsOf startOf
        omega
      · intro t h1 h2
        simp only [List.length_map, List.length_range] at h1
        simp only [List.getElem_map, List.getElem_range, List.getElem_take, List.getElem_drop, List.getElem_ofFn]
        exact hx t h1 _ rfl
    unfold diagEnd
    simp only [davPort, ho, hpiece, hs1, hr, if_true, diagStart, e1', e2', Bool.or_false]
  | notConverged =>
    rw [hrun] at hEnd
    have ho : (st r).2.out = .failed := hEnd
    dsimp only
    unfold diagEnd
    simp only [davPort, ho, hs1, hr, if_true, diagStart, e1', e2', Bool.or_false]
  | breakdown =>
    rw [hrun] at hEnd
    have ho : (st r).2.out = .failed := hEnd
    dsimp only
    unfold diagEnd
    simp only [davPort, ho, hs1, hr, if_true, diagStart, e1', e2', Bool.or_false]
  | ub => rw [hrun] at hEnd; exact hEnd.elim

/-! ### gathering -/

theorem foldl_putPiece (n : Nat) (c : Nat → List ℝ) (L : List Nat) (h : ∀ s ∈ L, (c s).length = n) : ∀ m : AsciMem M,
    L.foldl (fun x s => putPiece n s (.piece (c s)) x) m
      = { m with X := L.foldl (fun X s => writeAt X (s * n) (c s)) m.X } := by
  induction L with
  | nil => intro m; rfl
  | cons a L ih =>
    intro m
    have ha : (c a).length = n := h a List.mem_cons_self
    rw [List.foldl_cons, ih (fun s hs => h s (List.mem_cons_of_mem _ hs)), List.foldl_cons]
    simp [putPiece, ha]

theorem extents_getD (n P r : Nat) (hr : r < P) : (defaultExtents n P).getD r (0, 0)
    = (r * (n / P), if r + 1 = P then n else (r + 1) * (n / P)) := by
  rw [defaultExtents_eq _ _ (by omega)]
  simp [List.getD, hr]

theorem piece_take (P : Nat) (x : List ℝ) {r : Nat} (hr : r < P) :
    (pieceOf P x r).take (x.length / P) = (x.drop (r * (x.length / P))).take (x.length / P) ∧
    ((pieceOf P x r).take (x.length / P)).length = x.length / P := by
  have hdm : P * (x.length / P) + x.length % P = x.length := Nat.div_add_mod _ _
  have h1 : (r + 1) * (x.length / P) ≤ P * (x.length / P) := Nat.mul_le_mul_right _ hr
  rw [Nat.succ_mul] at h1
  have hrows : x.length / P ≤ rowsOf (defaultExtents x.length P) r := by
    unfold rowsOf
    rw [extents_getD _ _ _ hr]
    dsimp only
    split
    · omega
    · rw [Nat.succ_mul]; omega
  have e : (pieceOf P x r).take (x.length / P) = (x.drop (r * (x.length / P))).take (x.length / P) := by
    unfold pieceOf
    rw [List.take_take, Nat.min_eq_left hrows]
    unfold startOf
    rw [extents_getD _ _ _ hr]
  refine ⟨e, ?_⟩
  rw [e, List.length_take, List.length_drop]
  omega

theorem piece_last (P : Nat) (hP : 0 < P) (x : List ℝ) :
    pieceOf P x (P - 1) = x.drop ((P - 1) * (x.length / P)) := by
  unfold pieceOf startOf rowsOf
  rw [extents_getD _ _ _ (by omega)]
  dsimp only
  rw [if_pos (by omega)]
  exact List.take_of_length_le (by rw [List.length_drop])

theorem gather_reach (P : Nat) (hP : 0 < P) (x : List ℝ) (s : Nat → AsciMem M)
    (hw : ∀ r < P, (s r).wfn.length = x.length) (hx : ∀ r < P, (s r).Xl = pieceOf P x r) :
    ∃ s', Reach (ranks P (fun r => gatherProg P r) s) (ranks P (fun _ => []) s') ∧
      ∀ r < P, s' r = { s r with X := x } := by
  set n := x.length with hn
  set lc := n / P with hlc
  have hdm : P * lc + n % P = n := Nat.div_add_mod _ _
  -- after the all-gather
  set X1 : Nat → List ℝ := fun r => (List.range P).foldl (fun X q => writeAt X (q * lc) ((pieceOf P x q).take lc))
    (resizeVec (s r).X n) with hX1
  have hpre : ∀ r, (X1 r).length = n ∧ (X1 r).take (P * lc) = x.take (P * lc) := by
    intro r
    have hb : (resizeVec (s r).X n).length = n := by unfold resizeVec; simp; omega
    have hfold : ∀ k, k ≤ P → ((List.range k).foldl (fun X q => writeAt X (q * lc) ((pieceOf P x q).take lc))
        (resizeVec (s r).X n)).length = n ∧ ((List.range k).foldl (fun X q => writeAt X (q * lc) ((pieceOf P x q).take lc))
        (resizeVec (s r).X n)).take (k * lc) = x.take (k * lc) := by
      intro k
      induction k with
      | zero => intro _; exact ⟨hb, by simp⟩
      | succ k ih =>
        intro hk
        obtain ⟨i1, i2⟩ := ih (by omega)
        rw [List.range_succ, List.foldl_append, List.foldl_cons, List.foldl_nil,
          show (pieceOf P x k).take lc = (x.drop (k * lc)).take lc from (piece_take P x (r := k) (by omega)).1]
        have h1 : (k + 1) * lc ≤ P * lc := Nat.mul_le_mul_right _ hk
        rw [Nat.succ_mul] at h1 ⊢
        exact writeAt_prefix _ x _ _ i1 i2 (by omega)
    exact hfold P le_rfl
  set s1 : Nat → AsciMem M := fun r => if r < P then gatherStart (s r) else s r with hs1
  have r1 := ranks_local (T := AsciMsg M) P (fun _ => [gatherStart]) s
  have hs1w : ∀ r < P, (s1 r).wfn.length = n := by
    intro r hr; simp only [hs1, hr, if_true, gatherStart]; exact hw r hr
  set s2 : Nat → AsciMem M := fun r => if r < P then { s r with X := X1 r } else s r with hs2
  have r2 : ∀ rest : Nat → List (Instr (AsciMem M) (AsciMsg M)),
      Reach (ranks P (fun r => isends coll ((List.range P).map fun d => (d, fun m : AsciMem M => AsciMsg.piece (m.Xl.take lc))) ++
        (recvs coll ((List.range P).map fun s => (s, putPiece lc s)) ++ rest r)) s1) (ranks P rest s2) := by
    intro rest
    have := ranks_gather P coll (fun _ (m : AsciMem M) => AsciMsg.piece (m.Xl.take lc)) (fun q => putPiece lc q) rest s1
    refine cast ?_ this
    congr 2
    funext r
    by_cases hr : r < P
    · simp only [hr, if_true, hs2]
      have hm : ∀ q ∈ List.range P, ((s1 q).Xl.take lc) = (pieceOf P x q).take lc := by
        intro q hq
        rw [List.mem_range] at hq
        simp only [hs1, hq, if_true, gatherStart]
        rw [hx q hq]
      have hfc : ∀ (L : List Nat) (m : AsciMem M), (∀ q ∈ L, q ∈ List.range P) →
          L.foldl (fun x q => putPiece lc q (AsciMsg.piece ((s1 q).Xl.take lc)) x) m =
          L.foldl (fun y q => putPiece lc q (AsciMsg.piece ((pieceOf P x q).take lc)) y) m := by
        intro L
        induction L with
        | nil => intro m _; rfl
        | cons a L ih =>
          intro m hL
          rw [List.foldl_cons, List.foldl_cons, hm a (hL a List.mem_cons_self)]
          exact ih _ fun q hq => hL q (List.mem_cons_of_mem _ hq)
      rw [hfc _ _ fun q hq => hq, foldl_putPiece lc (fun q => (pieceOf P x q).take lc) _ (fun q hq =>
        (piece_take P x (List.mem_range.1 hq)).2)]
      simp only [hs1, hr, if_true, gatherStart, hX1, hw r hr]
    · simp only [hr, if_false, hs2, hs1]
  -- the rest
  obtain ⟨s', r3, hs'⟩ : ∃ s', Reach (ranks P (fun r => if n % P = 0 then []
     else comps (if r = P - 1 then [gatherRest P] else []) ++
      castProg P (P - 1) r (fun m => .piece ((m.X.drop (P * lc)).take (n % P))) (putRest (P * lc) (n % P))) s2)
      (ranks P (fun _ => []) s') ∧ ∀ r < P, s' r = { s r with X := x } := by
    by_cases hz : n % P = 0
    · refine ⟨s2, ?_, ?_⟩
      · simp only [hz, if_true]; exact Reach.refl _
      · intro r hr
        simp only [hs2, hr, if_true]
        have := hpre r
        rw [hz, Nat.add_zero] at hdm
        rw [hdm, List.take_of_length_le (by omega), hn, List.take_length] at this
        rw [this.2]
    · simp only [hz, if_false]
      have q1 := ranks_local (T := AsciMsg M) P (fun r => if r = P - 1 then [gatherRest P] else []) s2
      set s3 : Nat → AsciMem M := fun r => if r < P then runComps (if r = P - 1 then [gatherRest P] else []) (s2 r) else s2 r
        with hs3
      have hWm : (P - 1) * lc + lc = P * lc := by
        obtain ⟨k, rfl⟩ : ∃ k, P = k + 1 := ⟨P - 1, by omega⟩
        rw [Nat.add_sub_cancel]; ring
      have hrest : ((pieceOf P x (P - 1)).drop lc).take (n % P) = (x.drop (P * lc)).take (n % P) := by
        rw [piece_last P hP, List.drop_drop, ← hlc, hWm]
      have hfull : ∀ r, writeAt (X1 r) (P * lc) ((x.drop (P * lc)).take (n % P)) = x := by
        intro r
        obtain ⟨a1, a2⟩ := hpre r
        have := writeAt_prefix (X1 r) x (P * lc) (n % P) a1 a2 (by omega)
        rw [hdm] at this
        have h2 := this.2
        rw [List.take_of_length_le (by omega), hn, List.take_length] at h2
        exact h2
      have hlast : s3 (P - 1) = { s (P - 1) with X := x } := by
        have hlt : P - 1 < P := by omega
        simp only [hs3, hlt, if_true, runComps, List.foldl_cons, List.foldl_nil, gatherRest, hs2, hw _ hlt, hx _ hlt]
        rw [← hlc, hrest, hfull]
        have : ¬ (pieceOf P x (P - 1)).length < lc + n % P := by
          rw [piece_last P hP, List.length_drop, ← hlc]; omega
        simp [this]
      have hother : ∀ r < P, r ≠ P - 1 → s3 r = { s r with X := X1 r } := by
        intro r hr hne
        simp only [hs3, hr, if_true, hne, if_false, runComps, List.foldl_nil, hs2]
      have q2 := ranks_bcast P coll (P - 1) (by omega) (fun m : AsciMem M => AsciMsg.piece ((m.X.drop (P * lc)).take (n % P)))
        (putRest (P * lc) (n % P)) (fun _ => []) s3
      have q3 : Reach (ranks P (fun r => castProg P (P - 1) r (fun m : AsciMem M =>
          AsciMsg.piece ((m.X.drop (P * lc)).take (n % P))) (putRest (P * lc) (n % P))) s3) _ := cast (by
        congr 1
        apply ranks_congr
        intro r hr
        simp only [castProg, List.append_nil]) q2
      refine ⟨_, ranks_seq P q1 q3, ?_⟩
      · intro r hr
        simp only [hr, if_true]
        by_cases e : r = P - 1
        · subst e; simp only [if_true]; exact hlast
        · rw [if_neg e, hlast, hother r hr e]
          have hl : ((x.drop (P * lc)).take (n % P)).length = n % P := by
            rw [List.length_take, List.length_drop]; omega
          simp only [putRest, hfull, hl]
          simp
  refine ⟨s', ?_, hs'⟩
  refine ranks_seq P r1 (ranks_choice P (fun r m =>
    let n := m.wfn.length
    isends coll ((List.range P).map fun d => (d, fun m => .piece (m.Xl.take (n / P)))) ++
    (recvs coll ((List.range P).map fun s => (s, putPiece (n / P) s)) ++
    (if n % P = 0 then []
     else comps (if r = P - 1 then [gatherRest P] else []) ++
      castProg P (P - 1) r (fun m => .piece ((m.X.drop (P * (n / P))).take (n % P))) (putRest (P * (n / P)) (n % P))))) ?_)
  refine Reach.trans (cast ?_ (r2 fun r => if n % P = 0 then []
     else comps (if r = P - 1 then [gatherRest P] else []) ++
      castProg P (P - 1) r (fun m => .piece ((m.X.drop (P * lc)).take (n % P))) (putRest (P * lc) (n % P)))) r3
  congr 1
  apply ranks_congr
  intro r hr
  have e : (s1 r).wfn.length = n := hs1w r hr
  dsimp only
  rw [show (if r < P then runComps [gatherStart] (s r) else s r) = s1 r from rfl, e]

end Macis
