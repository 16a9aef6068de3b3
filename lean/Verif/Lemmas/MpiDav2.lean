import Verif.Lemmas.MpiDav
import Verif.Lemmas.Dist
/-! The distributed solver and the serial one; the eigensolver as it is called. -/
namespace Macis.Mpi
open Spec Spec.Mpi

/-! ### pieces of a global vector -/

section split
variable {P N : Nat} {nl : Fin P → Nat} (idx : (r : Fin P) → Fin (nl r) → Fin N)

/-- the pieces of `x` -/
def pieces (x : Fin N → ℝ) : DistVec nl := fun r t => x (idx r t)

theorem pieces_gs (hdot : ∀ x y, pdot (pieces idx x) (pieces idx y) = vdot x y) (k : Nat) (V : Nat → Fin N → ℝ) (w : Fin N → ℝ) :
    pgramSchmidt k (fun j => pieces idx (V j)) (pieces idx w) = (gramSchmidt k V w).map (pieces idx) := by
  have hp : ∀ w, pprojectOut k (fun j => pieces idx (V j)) (pieces idx w) = pieces idx (projectOut k V w) := by
    intro w
    funext r t
    simp only [pprojectOut, projectOut, hdot]
    rfl
  unfold pgramSchmidt gramSchmidt
  dsimp only
  rw [hp, hp, hdot]
  unfold nrm2
  split_ifs
  · rfl
  · rfl

theorem pieces_update (V : Nat → Fin N → ℝ) (k : Nat) (w : Fin N → ℝ) :
    Function.update (fun j => pieces idx (V j)) k (pieces idx w) = fun j => pieces idx (Function.update V k w j) := by
  funext j
  by_cases h : j = k
  · subst h; simp
  · simp [Function.update_of_ne h]

theorem pieces_loop (hdot : ∀ x y, pdot (pieces idx x) (pieces idx y) = vdot x y) (hsurj : ∀ i, ∃ r t, idx r t = i)
    {A : DistVec nl → DistVec nl} {B : (Fin N → ℝ) → Fin N → ℝ} (hA : ∀ x, A (pieces idx x) = pieces idx (B x))
    (D : Fin N → ℝ) (tol : ℝ) (eig : Nat → (Nat → Nat → ℝ) → ℝ × (Nat → ℝ)) (f : Nat) : ∀ (i : Nat) (V AV : Nat → Fin N → ℝ),
    pdavLoop A (pieces idx D) tol eig f i (fun j => pieces idx (V j)) (fun j => pieces idx (AV j)) =
      (davLoop B D tol eig f i V AV).map (pieces idx) := by
  induction f with
  | zero => intro i V AV; rfl
  | succ f ih =>
    intro i V AV
    unfold pdavLoop davLoop
    dsimp only
    rw [hA, pieces_update]
    simp only [hdot]
    set AV' := Function.update AV i (B (V i))
    set E := eig (i + 1) fun p q => vdot (V p) (AV' q)
    have hc : ∀ U : Nat → Fin N → ℝ, pcombine (i + 1) (fun j => pieces idx (U j)) E.2 = pieces idx (combine (i + 1) U E.2) :=
      fun U => rfl
    have hr : (fun r t => pcombine (i + 1) (fun j => pieces idx (AV' j)) E.2 r t -
        E.1 * pcombine (i + 1) (fun j => pieces idx (V j)) E.2 r t : DistVec nl) =
        pieces idx fun t => combine (i + 1) AV' E.2 t - E.1 * combine (i + 1) V E.2 t := rfl
    rw [hr, hdot]
    change (if nrm2 _ < tol then _ else _) = DavResult.map _ (if nrm2 _ < tol then _ else _)
    have hD : (∃ r t, pieces idx D r t - E.1 = 0) ↔ ∃ t, D t - E.1 = 0 := by
      constructor
      · rintro ⟨r, t, e⟩; exact ⟨_, e⟩
      · rintro ⟨i, e⟩
        obtain ⟨r, t, rfl⟩ := hsurj i
        exact ⟨r, t, e⟩
    by_cases h1 : nrm2 (fun t => combine (i + 1) AV' E.2 t - E.1 * combine (i + 1) V E.2 t) < tol
    · rw [if_pos h1, if_pos h1]; rfl
    · rw [if_neg h1, if_neg h1]
      by_cases h2 : f = 0
      · rw [if_pos h2, if_pos h2]; rfl
      · rw [if_neg h2, if_neg h2]
        by_cases h3 : ∃ t, D t - E.1 = 0
        · rw [if_pos h3, if_pos (hD.2 h3)]; rfl
        · rw [if_neg h3, if_neg (fun h => h3 (hD.1 h))]
          have hg := pieces_gs idx hdot (i + 1) V (fun t =>
            -(combine (i + 1) AV' E.2 t - E.1 * combine (i + 1) V E.2 t) / (D t - E.1))
          have hw' : (fun q t => -(pcombine (i + 1) (fun j => pieces idx (AV' j)) E.2 q t -
              E.1 * pcombine (i + 1) (fun j => pieces idx (V j)) E.2 q t) / (pieces idx D q t - E.1) : DistVec nl) =
              pieces idx (fun t => -(combine (i + 1) AV' E.2 t - E.1 * combine (i + 1) V E.2 t) / (D t - E.1)) := rfl
          rw [hw', hg]
          cases gramSchmidt (i + 1) V (fun t => -(combine (i + 1) AV' E.2 t - E.1 * combine (i + 1) V E.2 t) / (D t - E.1)) with
          | none => rfl
          | some w =>
            dsimp only [Option.map_some]
            rw [pieces_update, ih]

theorem pieces_dav (hdot : ∀ x y, pdot (pieces idx x) (pieces idx y) = vdot x y) (hsurj : ∀ i, ∃ r t, idx r t = i)
    {A : DistVec nl → DistVec nl} {B : (Fin N → ℝ) → Fin N → ℝ} (hA : ∀ x, A (pieces idx x) = pieces idx (B x))
    (D : Fin N → ℝ) (tol : ℝ) (eig : Nat → (Nat → Nat → ℝ) → ℝ × (Nat → ℝ)) (maxM : Nat) (g : Fin N → ℝ) :
    pdavidson A (pieces idx D) tol eig maxM (pieces idx g) = (davidsonRun B D tol eig maxM g).map (pieces idx) := by
  unfold pdavidson davidsonRun
  split_ifs
  · rfl
  · rfl
  · dsimp only
    rw [hA]
    have hg := pieces_gs idx hdot 1 (fun _ => g) (B g)
    rw [hg]
    cases gramSchmidt 1 (fun _ => g) (B g) with
    | none => rfl
    | some w =>
      dsimp only [Option.map_some]
      rw [pieces_update idx (fun _ => g) 1 w]
      exact pieces_loop idx hdot hsurj hA D tol eig _ _ _ _

end split

/-! ### the rows of the ranks -/

theorem ext_getD {N P : Nat} {ext : List (Nat × Nat)} (h : RowPartition N P ext) {r : Nat} (hr : r < P) :
    ext[r]? = some (ext.getD r (0, 0)) := by
  have hl : r < ext.length := by rw [h.length_eq]; exact hr
  rw [List.getElem?_eq_getElem hl, List.getD_eq_getElem _ _ hl]

theorem ext_le {N P : Nat} {ext : List (Nat × Nat)} (h : RowPartition N P ext) {r : Nat} (hr : r < P) :
    (ext.getD r (0, 0)).1 ≤ (ext.getD r (0, 0)).2 ∧ (ext.getD r (0, 0)).2 ≤ N := by
  have e := ext_getD h hr
  refine ⟨h.ordered _ (List.mem_of_getElem? e), ?_⟩
  rcases Nat.lt_or_ge r (P - 1) with hlt | hge
  · have e2 := ext_getD h (show P - 1 < P by omega)
    have h1 := h.mono hlt e e2
    have h2 := h.ordered _ (List.mem_of_getElem? e2)
    rw [h.ends _ e2] at h2
    omega
  · obtain rfl : r = P - 1 := by omega
    exact (h.ends _ e).le

theorem row_lt {N P : Nat} {ext : List (Nat × Nat)} (h : RowPartition N P ext) {r : Nat} (hr : r < P) {t : Nat}
    (ht : t < rowsOf ext r) : startOf ext r + t < N := by
  have := ext_le h hr
  unfold startOf rowsOf at *
  omega

/-- row `t` of rank `r` in the whole -/
def rowIdx {N P : Nat} {ext : List (Nat × Nat)} (h : RowPartition N P ext) (r : Fin P) (t : Fin (rowsOf ext r)) : Fin N :=
  ⟨startOf ext r + t, row_lt h r.2 t.2⟩

theorem sum_rows {N P : Nat} {ext : List (Nat × Nat)} (h : RowPartition N P ext) (hP : 0 < P) (f : Nat → ℝ) :
    ∑ r ∈ Finset.range P, ∑ t ∈ Finset.range (rowsOf ext r), f (startOf ext r + t) = ∑ i ∈ Finset.range N, f i := by
  have key : ∀ k, 0 < k → k ≤ P → ∑ r ∈ Finset.range k, ∑ t ∈ Finset.range (rowsOf ext r), f (startOf ext r + t)
      = ∑ i ∈ Finset.range (ext.getD (k - 1) (0, 0)).2, f i := by
    intro k
    induction k with
    | zero => intro h; omega
    | succ k ih =>
      intro _ hk
      rw [Finset.sum_range_succ]
      have hle := (ext_le h (show k < P by omega)).1
      have e : (ext.getD k (0, 0)).2 = startOf ext k + rowsOf ext k := by unfold startOf rowsOf; omega
      rw [Nat.add_sub_cancel, e, Finset.sum_range_add]
      congr 1
      rcases Nat.eq_zero_or_pos k with rfl | hk0
      · have : startOf ext 0 = 0 := h.starts _ (ext_getD h hP)
        simp [this]
      · rw [ih hk0 (by omega)]
        congr 2
        have := h.contiguous (k - 1) _ _ (ext_getD h (by omega)) (by
          rw [Nat.sub_add_cancel hk0]; exact ext_getD h (by omega))
        exact this
  rw [key P hP le_rfl, h.ends _ (ext_getD h (by omega))]

theorem rowIdx_dot {N P : Nat} {ext : List (Nat × Nat)} (h : RowPartition N P ext) (hP : 0 < P) (x y : Fin N → ℝ) :
    pdot (pieces (nl := fun r : Fin P => rowsOf ext r) (rowIdx h) x) (pieces (rowIdx h) y) = vdot x y := by
  unfold vdot
  have := sum_rows h hP fun i => if hi : i < N then x ⟨i, hi⟩ * y ⟨i, hi⟩ else 0
  have e : ∑ i, x i * y i = ∑ i ∈ Finset.range N, if hi : i < N then x ⟨i, hi⟩ * y ⟨i, hi⟩ else 0 := by
    rw [Finset.sum_range]
    apply Finset.sum_congr rfl
    intro i _
    rw [dif_pos i.2]
  rw [e, ← this]
  unfold pdot
  rw [Finset.sum_range]
  apply Finset.sum_congr rfl
  intro r _
  rw [Finset.sum_range]
  apply Finset.sum_congr rfl
  intro t _
  rw [dif_pos (row_lt h r.2 t.2)]
  rfl

theorem rowIdx_surj {N P : Nat} {ext : List (Nat × Nat)} (h : RowPartition N P ext) (hP : 0 < P) (i : Fin N) :
    ∃ (r : Fin P) (t : Fin (rowsOf ext r)), rowIdx h r t = i := by
  by_contra hc
  push Not at hc
  have := sum_rows h hP fun k => if k = i then 1 else 0
  rw [Finset.sum_ite_eq' , if_pos (Finset.mem_range.2 i.2)] at this
  rw [Finset.sum_eq_zero] at this
  · exact absurd this (by simp)
  · intro r hr
    apply Finset.sum_eq_zero
    intro t ht
    rw [if_neg]
    intro e
    exact hc ⟨r, Finset.mem_range.1 hr⟩ ⟨t, Finset.mem_range.1 ht⟩ (Fin.ext e)

theorem distOp_pieces {A : Nat → DistCsr ℝ} {P N : Nat} {ext : List (Nat × Nat)} (h : DistributedMatrix A P N ext)
    (hP : 0 < P) {M : Matrix (Fin N) (Fin N) ℝ} (hM : IsGlobal A P ext M) (x : Fin N → ℝ) :
    distOp A N ext (fun r : Fin P => rowsOf ext r) (pieces (rowIdx h.partition) x) =
      pieces (rowIdx h.partition) (M.mulVec x) := by
  funext r t
  simp only [distOp, pieces, Matrix.mulVec, dotProduct]
  rw [Finset.sum_range]
  apply Finset.sum_congr rfl
  intro j _
  rw [hM r r.2 t t.2 (rowIdx h.partition r t) j rfl]
  congr 1
  obtain ⟨q, s, rfl⟩ := rowIdx_surj h.partition hP j
  have e := globalVec_eq h.partition (fun q i => if h' : q < P then (if h'' : i < rowsOf ext q then
    x (rowIdx h.partition ⟨q, h'⟩ ⟨i, h''⟩) else 0) else 0) (ext_getD h.partition q.2) (k := s) s.2
  refine Eq.trans e ?_
  rw [dif_pos q.2, dif_pos s.2]

theorem reports_ends {P N : Nat} {ext : List (Nat × Nat)} (h : RowPartition N P ext) (R : DavResult (Fin N → ℝ)) (r : Fin P)
    (m : DavMem) (hr : Reports (R.map (pieces (nl := fun r : Fin P => rowsOf ext r) (rowIdx h))) r m) : EndsLike ext R r m := by
  cases R with
  | converged i lam x =>
    refine ⟨hr.1, ?_⟩
    intro t ht i hi
    have := hr.2 ⟨t, ht⟩
    rw [this]
    simp only [pieces, rowIdx]
    congr 1
    exact Fin.ext hi.symm
  | notConverged => exact hr
  | breakdown => exact hr
  | ub => exact hr

theorem dav_global {A : Nat → DistCsr ℝ} {P N : Nat} {ext : List (Nat × Nat)} (h : DistributedMatrix A P N ext)
    {M : Matrix (Fin N) (Fin N) ℝ} (hM : IsGlobal A P ext M) {eig : Nat → (Nat → Nat → ℝ) → ℝ × (Nat → ℝ)}
    (he : EigLocal eig) (hP : 0 < P) (garbage : Nat → Nat → Nat → ℝ) {D : Fin N → ℝ} {Dl : Nat → Nat → ℝ}
    (hD : ∀ r < P, IsPiece ext D r (Dl r)) (tol : ℝ) (maxM : Nat) (h0 : maxM ≠ 0) (st : Nat → DavSt) {g : Fin N → ℝ}
    (hg : ∀ r < P, IsPiece ext g r (st r).2.X)
    (hi : ∀ r < P, (st r).1.info = spmvInfo A r) (hn : ∀ r < P, (st r).2.nan = false) :
    ∃ st', Reach (ranks P (fun r => davProg eig P r (rowsOf ext r) (A r) (garbage r) (Dl r) tol maxM) st)
        (ranks P (fun _ => []) st') ∧
      ∀ r < P, (st' r).1.err = (st r).1.err ∧ (st' r).2.err = (st r).2.err ∧
        EndsLike ext (davidsonRun M.mulVec D tol eig maxM g) r (st' r).2 := by
  obtain ⟨st', hr, hp⟩ := dav_reach h he hP garbage Dl tol maxM h0 st hi hn
  refine ⟨st', hr, fun r hr => ?_⟩
  obtain ⟨e1, e2, e3⟩ := hp ⟨r, hr⟩
  refine ⟨e1, e2, ?_⟩
  apply reports_ends h.partition _ ⟨r, hr⟩
  rw [← pieces_dav (rowIdx h.partition) (rowIdx_dot h.partition hP) (rowIdx_surj h.partition hP)
    (distOp_pieces h hP hM) D tol eig maxM g]
  have eD : pieces (nl := fun r : Fin P => rowsOf ext r) (rowIdx h.partition) D = fun (r : Fin P) (t : Fin (rowsOf ext r)) => Dl r t := by
    funext r t; exact (hD r r.2 t t.2 _ rfl).symm
  have eg : pieces (nl := fun r : Fin P => rowsOf ext r) (rowIdx h.partition) g = fun (r : Fin P) (t : Fin (rowsOf ext r)) => (st r).2.X t := by
    funext r t; exact (hg r r.2 t t.2 _ rfl).symm
  rw [eD, eg]
  exact e3

/-! ### `parallel_selected_ci_diag` -/

theorem barrier_reach (P : Nat) (rest : Nat → List (Instr DavSt DavMs)) (st : Nat → DavSt) :
    Reach (ranks P (fun r => barrierProg P ++ rest r) st) (ranks P rest st) := by
  have := ranks_gather P coll (fun _ _ => (.inr .token : DavMs)) (fun _ => putToken) rest st
  refine cast ?_ this
  congr 1
  · apply ranks_congr
    intro r _
    simp only [barrierProg, List.append_assoc]
  · congr 1
    funext r
    have : ∀ (L : List Nat) (x : DavSt), L.foldl (fun x _ => putToken (.inr .token) x) x = x := by
      intro L
      induction L with
      | nil => intro x; rfl
      | cons a L ih => intro x; exact ih x
    rw [this]
    simp

theorem foldl_putDiag (n : Nat → Nat) (c : Nat → List ℝ) (L : List Nat) (h : ∀ s ∈ L, (c s).length = n s) : ∀ m : DavSt,
    L.foldl (fun x s => putDiag (n s) s (.inr (.diag (c s))) x) m
      = (m.1, { m.2 with diags := fun i => if i ∈ L then c i else m.2.diags i }) := by
  induction L with
  | nil => intro m; simp
  | cons a L ih =>
    intro m
    rw [List.foldl_cons, ih (fun s hs => h s (List.mem_cons_of_mem _ hs))]
    simp only [putDiag, h a (by simp), bne_self_eq_false, Bool.or_false, List.mem_cons]
    congr 2
    funext i
    by_cases hi : i ∈ L
    · simp [hi]
    · by_cases ha : i = a
      · subst ha; simp [hi]
      · simp [hi, ha]

theorem localDiag_length {A : Nat → DistCsr ℝ} {P N : Nat} {ext : List (Nat × Nat)} (h : DistributedMatrix A P N ext)
    {r : Nat} (hr : r < P) : (localDiag (A r)).length = rowsOf ext r := by
  obtain ⟨D, e, -, -, hm, -⟩ := h.diag_ok r hr _ _ (ext_getD h.partition hr)
  unfold localDiag
  rw [e]
  show D.diagonal.length = _
  rw [show D.diagonal.length = D.m by simp [Csr.diagonal], hm]
  rfl

/-- the diagonal of the whole matrix -/
def allDiags (A : Nat → DistCsr ℝ) (P : Nat) : List ℝ := (List.range P).flatMap fun s => localDiag (A s)

theorem guess_reach {A : Nat → DistCsr ℝ} {P N : Nat} {ext : List (Nat × Nat)} (h : DistributedMatrix A P N ext)
    (X : Nat → List ℝ) (hX : ∀ r < P, pDiagonalGuess ext (allDiags A P) r = some (X r))
    (rest : Nat → List (Instr DavSt DavMs)) (st : Nat → DavSt) :
    Reach (ranks P (fun r => guessProg P r (A r) ++ rest r) st)
      (ranks P rest fun r => if r < P then ((st r).1, { (st r).2 with
        diags := fun i => if i < P then localDiag (A i) else (st r).2.diags i, X := fun t => (X r).getD t 0 }) else st r) := by
  have r1 := ranks_gather P coll (fun r _ => (.inr (.diag (localDiag (A r))) : DavMs))
    (fun s => putDiag (rowsOf ext s) s) (fun r => comps [guessStore P r (A r)] ++ rest r) st
  set st1 : Nat → DavSt := fun r => if r < P then (List.range P).foldl
    (fun x s => putDiag (rowsOf ext s) s (.inr (.diag (localDiag (A s)))) x) (st r) else st r with hst1
  have r2 := ranks_comps (μ := DavMs) P (fun r => [guessStore P r (A r)]) rest st1
  refine cast ?_ (r1.trans r2)
  congr 1
  · apply ranks_congr
    intro r hr
    have : ∀ s, (A r).rowExtent s = rowsOf ext s := by
      intro s
      simp only [DistCsr.rowExtent, DistCsr.rowBounds, h.extents_eq r hr, rowsOf]
    simp only [guessProg, List.append_assoc, this]
  · congr 1
    funext r
    by_cases hr : r < P
    · have e1 : st1 r = ((st r).1, { (st r).2 with diags := fun i => if i < P then localDiag (A i) else (st r).2.diags i }) := by
        simp only [hst1, hr, if_true]
        rw [foldl_putDiag _ _ _ (fun s hs => localDiag_length h (by simpa using hs))]
        simp only [List.mem_range]
      simp only [hr, if_true, runComps, List.foldl_cons, List.foldl_nil, e1, guessStore, h.extents_eq r hr]
      have e2 : ((List.range P).flatMap fun i => if i < P then localDiag (A i) else (st r).2.diags i) = allDiags A P := by
        unfold allDiags
        rw [List.flatMap_def, List.flatMap_def]
        congr 1
        apply List.map_congr_left
        intro s hs
        rw [if_pos (by simpa using hs)]
      rw [e2, hX r hr]
    · simp [hr, hst1]

/-- what the solver starts from when all ranks make the choice `b` -/
def StartPiece (A : Nat → DistCsr ℝ) (P : Nat) (ext : List (Nat × Nat)) (C : Nat → List ℝ) (b : Bool) (r : Nat) (X : List ℝ) : Prop :=
  if b then X = resizeVec (C r) (rowsOf ext r) else pDiagonalGuess ext (allDiags A P) r = some X

theorem localRowExtent_eq {A : Nat → DistCsr ℝ} {P N : Nat} {ext : List (Nat × Nat)} (h : DistributedMatrix A P N ext)
    {r : Nat} (hr : r < P) : (A r).localRowExtent = rowsOf ext r := by
  simp only [DistCsr.localRowExtent, DistCsr.rowExtent, DistCsr.rowBounds, h.extents_eq r hr, h.rank_eq r hr, rowsOf]

theorem finish_diag_reach (P : Nat) (hP : 0 < P) (st : Nat → DavSt)
    (hu : (∃ i lam, ∀ r < P, (st r).2.out = .converged i lam) ∨ ∀ r < P, (st r).2.out = .failed) :
    Reach (ranks P (fun _ => [.dyn (ciFinish P)]) st) (ranks P (fun _ => []) st) := by
  have r1 := ranks_dyn P (fun _ => ciFinish P) (fun _ => []) st
  rcases hu with ⟨i, lam, hu⟩ | hu
  · have r2 := barrier_reach P (fun _ => []) st
    refine Reach.trans r1 (cast ?_ r2)
    congr 1
    apply ranks_congr
    intro r hr
    simp only [ciFinish, hu r hr]
  · refine cast ?_ r1
    congr 1
    apply ranks_congr
    intro r hr
    simp only [ciFinish, hu r hr, List.append_nil]

theorem ci_reach {A : Nat → DistCsr ℝ} {P N : Nat} {ext : List (Nat × Nat)} (h : DistributedMatrix A P N ext)
    {M : Matrix (Fin N) (Fin N) ℝ} (hM : IsGlobal A P ext M) {eig : Nat → (Nat → Nat → ℝ) → ℝ × (Nat → ℝ)}
    (he : EigLocal eig) (hP : 0 < P) (garbage : Nat → Nat → Nat → ℝ) {D : Fin N → ℝ}
    (hD : ∀ r < P, IsPiece ext D r fun t => (localDiag (A r)).getD t 0) (tol : ℝ) (maxM : Nat) (h0 : maxM ≠ 0)
    (C : Nat → List ℝ) (b : Bool) (hb : ∀ r < P, usesPassedVector (resizeVec (C r) (rowsOf ext r)) = some b)
    {g : Fin N → ℝ} (X : Nat → List ℝ) (hX : ∀ r < P, StartPiece A P ext C b r (X r))
    (hg : ∀ r < P, IsPiece ext g r fun t => (X r).getD t 0)
    (st : Nat → DavSt) (hn : ∀ r < P, (st r).2.nan = false) :
    ∃ st', Reach (ranks P (fun r => ciDiagProg eig P r (A r) (garbage r) tol maxM (C r)) st) (ranks P (fun _ => []) st') ∧
      ∀ r < P, (st' r).1.err = (st r).1.err ∧ (st' r).2.err = (st r).2.err ∧
        EndsLike ext (davidsonRun M.mulVec D tol eig maxM g) r (st' r).2 := by
  set tail : Nat → List (Instr DavSt DavMs) := fun r => davProg eig P r (rowsOf ext r) (A r) (garbage r)
    (fun t => (localDiag (A r)).getD t 0) tol maxM ++ [.dyn (ciFinish P)] with htail
  set mid : Nat → List (Instr DavSt DavMs) := fun r => liftL (fun e : DavMem => { e with err := true }) (genProg (A r) r) ++
    (barrierProg P ++ tail r) with hmid
  have hstart : ranks P (fun r => ciDiagProg eig P r (A r) (garbage r) tol maxM (C r)) st =
      ranks P (fun r => comps [fun m : DavSt => (m.1, { m.2 with X := fun t => (resizeVec (C r) (rowsOf ext r)).getD t 0 })] ++
        ((if b then [] else guessProg P r (A r)) ++ mid r)) st := by
    apply ranks_congr
    intro r hr
    simp only [ciDiagProg, localRowExtent_eq h hr, hb r hr, hmid, htail]
  rw [hstart]
  have r1 := ranks_comps (μ := DavMs) P (fun r => [fun m : DavSt => (m.1, { m.2 with X := fun t => (resizeVec (C r) (rowsOf ext r)).getD t 0 })])
    (fun r => (if b then [] else guessProg P r (A r)) ++ mid r) st
  set st1 : Nat → DavSt := fun r => if r < P then runComps [fun m : DavSt => (m.1, { m.2 with X := fun t => (resizeVec (C r) (rowsOf ext r)).getD t 0 })]
    (st r) else st r with hst1
  have e1 : ∀ r < P, st1 r = ((st r).1, { (st r).2 with X := fun t => (resizeVec (C r) (rowsOf ext r)).getD t 0 }) := by
    intro r hr; simp [hst1, hr, runComps]
  -- the guess
  obtain ⟨st2, r2, p2⟩ : ∃ st2, Reach (ranks P (fun r => (if b then [] else guessProg P r (A r)) ++ mid r) st1) (ranks P mid st2) ∧
      ∀ r < P, (st2 r).1 = (st r).1 ∧ (st2 r).2.err = (st r).2.err ∧ (st2 r).2.nan = false ∧
        (st2 r).2.X = fun t => (X r).getD t 0 := by
    cases b with
    | true =>
      refine ⟨st1, ?_, ?_⟩
      · simp only [if_true, List.nil_append]
        exact Reach.refl _
      · intro r hr
        have hx := hX r hr
        simp only [StartPiece, if_true] at hx
        rw [e1 r hr, hx]
        exact ⟨rfl, rfl, hn r hr, rfl⟩
    | false =>
      have hx : ∀ r < P, pDiagonalGuess ext (allDiags A P) r = some (X r) := by
        intro r hr
        have := hX r hr
        simpa only [StartPiece, Bool.false_eq_true, if_false] using this
      have := guess_reach h X hx mid st1
      refine ⟨_, this, ?_⟩
      · intro r hr
        simp only [hr, if_true, e1 r hr]
        exact ⟨trivial, trivial, hn r hr, trivial⟩
  -- the set-up of the products
  obtain ⟨q, hq, hq1, -⟩ := gen_reach h (fun _ => []) (fun r => (st2 r).1)
  simp only [List.append_nil] at hq
  have r3 := ranks_call P (fun e : DavMem => { e with err := true }) (fun r => genProg (A r) r)
    (fun r => barrierProg P ++ tail r) (fun r => (st2 r).1) q (fun r => (st2 r).2) hq
  have r4 := barrier_reach P tail (fun r => (q r, (st2 r).2))
  obtain ⟨st5, r5, p5⟩ := dav_global h hM he hP garbage hD tol maxM h0 (fun r => (q r, (st2 r).2)) (g := g)
    (by intro r hr; show IsPiece ext g r (st2 r).2.X; rw [(p2 r hr).2.2.2]; exact hg r hr)
    (fun r hr => (hq1 r hr).1) (fun r hr => (p2 r hr).2.2.1)
  have r5' := ranks_frame P _ (fun _ => [Instr.dyn (ciFinish P)]) _ _ r5
  have r6 := finish_diag_reach P hP st5 (by
    cases hR : davidsonRun M.mulVec D tol eig maxM g with
    | converged i lam x =>
      left
      refine ⟨i, lam, fun r hr => ?_⟩
      have := (p5 r hr).2.2
      rw [hR] at this
      exact this.1
    | notConverged =>
      right; intro r hr
      have := (p5 r hr).2.2
      rw [hR] at this
      exact this
    | breakdown =>
      right; intro r hr
      have := (p5 r hr).2.2
      rw [hR] at this
      exact this
    | ub =>
      have := (p5 0 hP).2.2
      rw [hR] at this
      exact this.elim)
  refine ⟨st5, r1.trans (r2.trans (r3.trans (r4.trans (r5'.trans r6)))), ?_⟩
  intro r hr
  obtain ⟨c1, c2, c3⟩ := p5 r hr
  refine ⟨?_, ?_, c3⟩
  · rw [c1]
    show (q r).err = _
    rw [(hq1 r hr).2.2.2, (p2 r hr).1]
  · rw [c2]
    exact (p2 r hr).2.1

end Macis.Mpi
