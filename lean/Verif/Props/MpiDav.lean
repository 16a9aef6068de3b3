import Verif.Lemmas.MpiDav3
import Verif.Props.Davidson
import Verif.Props.SpTri
/-
C161: the distributed Davidson solver under every schedule of the ranks.
C162: the distributed eigensolver as the programs call it, with its choice of a guess.
-/
namespace Macis
open Spec Spec.Mpi Mpi

/-- C161: any number of ranks hold a consistent distributed matrix `M`, their pieces of its diagonal `D` and of a
guess `g`, and have set up the products; all call `p_davidson`.  Whatever order the ranks run in and whichever sends
the MPI library buffers: nothing deadlocks, the program ends, every message fits the collective it arrives in, and all
ranks end in the same way, as the serial solver does on the whole matrix: with the same number of iterations, the same
eigenvalue and their pieces of the same vector, or all with the exception. -/
theorem C161_davidson_every_schedule {A : Nat → DistCsr ℝ} {P N : Nat} {ext : List (Nat × Nat)}
    (h : DistributedMatrix A P N ext) {M : Matrix (Fin N) (Fin N) ℝ} (hM : IsGlobal A P ext M)
    {eig : Nat → (Nat → Nat → ℝ) → ℝ × (Nat → ℝ)} (he : EigLocal eig) (hP : 0 < P) (garbage : Nat → Nat → Nat → ℝ)
    {D : Fin N → ℝ} {Dl : Nat → Nat → ℝ} (hD : ∀ r < P, IsPiece ext D r (Dl r)) (tol : ℝ) (maxM : Nat) (h0 : maxM ≠ 0)
    (mem : Nat → DavSt) {g : Fin N → ℝ} (hg : ∀ r < P, IsPiece ext g r (mem r).2.X)
    (hi : ∀ r < P, (mem r).1.info = spmvInfo A r) (hn : ∀ r < P, (mem r).2.nan = false) :
    ∃ st, AlwaysEnds (⟨fun r => if r < P then davProg eig P r (rowsOf ext r) (A r) (garbage r) (Dl r) tol maxM else [],
        mem, fun _ => []⟩ : World DavSt DavMs) st ∧
      ∀ r < P, (st r).1.err = (mem r).1.err ∧ (st r).2.err = (mem r).2.err ∧
        EndsLike ext (davidsonRun M.mulVec D tol eig maxM g) r (st r).2 := by
  obtain ⟨st, ⟨n, hn⟩, hp⟩ := dav_global h hM he hP garbage hD tol maxM h0 mem hg hi hn
  exact ⟨st, always_ends hn (fun r => by simp [ranks]) (fun k => rfl), hp⟩

/-- C161: with a subspace limit of at most the dimension this is the serial solver itself. -/
theorem C161_same_limit {N : Nat} (B : (Fin N → ℝ) → (Fin N → ℝ)) (D : Fin N → ℝ) (tol : ℝ)
    (eig : Nat → (Nat → Nat → ℝ) → ℝ × (Nat → ℝ)) {maxM : Nat} (h : maxM ≤ N) (g : Fin N → ℝ) :
    davidsonRun B D tol eig maxM g = davidson B D tol eig maxM g := by
  unfold davidson
  rw [min_eq_left h]

/-- C161: so when one rank returns, all return the same energy: the Rayleigh quotient of a normalised vector with
residual below the tolerance, not above that of the guess, within the tolerance of an eigenvalue. -/
theorem C161_energy {A : Nat → DistCsr ℝ} {P N : Nat} {ext : List (Nat × Nat)}
    (h : DistributedMatrix A P N ext) {M : Matrix (Fin N) (Fin N) ℝ} (hM : IsGlobal A P ext M) (hs : M.IsSymm)
    {eig : Nat → (Nat → Nat → ℝ) → ℝ × (Nat → ℝ)} (he : EigLocal eig) (hl : LowestPair eig) (hP : 0 < P)
    (garbage : Nat → Nat → Nat → ℝ)
    {D : Fin N → ℝ} {Dl : Nat → Nat → ℝ} (hD : ∀ r < P, IsPiece ext D r (Dl r)) (tol : ℝ) (maxM : Nat) (h0 : maxM ≠ 0)
    (hN : maxM ≤ N) (mem : Nat → DavSt) {g : Fin N → ℝ} (hg : ∀ r < P, IsPiece ext g r (mem r).2.X)
    (hg1 : (∑ t, g t * g t) = 1)
    (hi : ∀ r < P, (mem r).1.info = spmvInfo A r) (hn : ∀ r < P, (mem r).2.nan = false) :
    ∃ st, AlwaysEnds (⟨fun r => if r < P then davProg eig P r (rowsOf ext r) (A r) (garbage r) (Dl r) tol maxM else [],
        mem, fun _ => []⟩ : World DavSt DavMs) st ∧
      ((∀ r < P, (st r).2.out = .failed) ∨
       ∃ iter lam x, (∀ r < P, (st r).2.out = .converged iter lam ∧ IsPiece ext x r (st r).2.X) ∧
        (∑ t, x t * x t) = 1 ∧
        Real.sqrt (∑ t, (M.mulVec x t - lam * x t) * (M.mulVec x t - lam * x t)) < tol ∧
        lam = ∑ t, x t * M.mulVec x t ∧ lam ≤ ∑ t, g t * M.mulVec g t ∧
        ∃ (mu : ℝ) (y : Fin N → ℝ), y ≠ 0 ∧ M.mulVec y = mu • y ∧ |mu - lam| < tol) := by
  obtain ⟨st, ha, hp⟩ := C161_davidson_every_schedule h hM he hP garbage hD tol maxM h0 mem hg hi hn
  refine ⟨st, ha, ?_⟩
  rw [C161_same_limit M.mulVec D tol eig hN g] at hp
  cases hR : davidson M.mulVec D tol eig maxM g with
  | converged iter lam x =>
    right
    obtain ⟨-, -, c3, c4, c5, c6, -, c8⟩ := C50_davidson hs D tol hl maxM g hg1 iter lam x hR
    refine ⟨iter, lam, x, fun r hr => ?_, c3, c4, c5, c6, c8⟩
    have := (hp r hr).2.2
    rw [hR] at this
    exact this
  | notConverged =>
    left; intro r hr
    have := (hp r hr).2.2
    rw [hR] at this
    exact this
  | breakdown =>
    left; intro r hr
    have := (hp r hr).2.2
    rw [hR] at this
    exact this
  | ub =>
    have := (hp 0 hP).2.2
    rw [hR] at this
    exact this.elim

/-! ### C162 -/

/-- no position of a diagonal tile is stored twice -/
def NoDuplicates (A : Nat → DistCsr ℝ) (P : Nat) : Prop :=
  ∀ r < P, ∀ T, (A r).diag = some T → ∀ i < T.m, (T.rowCols i).Nodup

theorem csrEntry_absent {R : Type} [AddCommMonoid R] {O : Csr R} (wf : CsrWF O) (h0 : O.indexing = 0) {i j : Nat} (hi : i < O.m)
    (h : ∀ c ∈ O.colind, c ≠ j) : csrEntry O i j = 0 := by
  unfold csrEntry
  apply Finset.sum_eq_zero
  intro k hk
  rw [if_neg]
  intro e
  have hmono : ∀ a b, a ≤ b → b ≤ O.m → O.rowptr.getD a 0 ≤ O.rowptr.getD b 0 := by
    intro a b hab
    induction b with
    | zero => intro _; rw [show a = 0 by omega]
    | succ b ih =>
      intro hb
      rcases Nat.lt_or_ge a (b + 1) with h' | h'
      · exact (ih (by omega) (by omega)).trans (wf.rowptr_mono b (by omega))
      · rw [show a = b + 1 by omega]
  have h2 := hmono (i + 1) O.m hi le_rfl
  rw [wf.rowptr_last] at h2
  rw [Finset.mem_Ico] at hk
  have hlt : k < O.colind.length := by rw [wf.colind_length]; omega
  rw [List.getD_eq_getElem _ _ hlt, h0, Nat.add_zero] at e
  exact h _ (List.getElem_mem hlt) e

theorem diag_piece {A : Nat → DistCsr ℝ} {P N : Nat} {ext : List (Nat × Nat)} (h : DistributedMatrix A P N ext)
    {M : Matrix (Fin N) (Fin N) ℝ} (hM : IsGlobal A P ext M) (hd : NoDuplicates A P) :
    ∀ r < P, IsPiece ext (fun i => M i i) r fun t => (localDiag (A r)).getD t 0 := by
  intro r hr t ht i hi
  have hle := ext_le h.partition hr
  obtain ⟨T, e, wf, h0, hm, -⟩ := h.diag_ok r hr _ _ (ext_getD h.partition hr)
  change t < (ext.getD r (0, 0)).2 - (ext.getD r (0, 0)).1 at ht
  change T.m = (ext.getD r (0, 0)).2 - (ext.getD r (0, 0)).1 at hm
  change (i : Nat) = (ext.getD r (0, 0)).1 + t at hi
  show (localDiag (A r)).getD t 0 = M i i
  rw [hM r hr t ht i i hi]
  unfold distEntry localDiag
  rw [e, if_pos (by omega)]
  dsimp only [Option.elim_some]
  rw [show (i : Nat) - (ext.getD r (0, 0)).1 = t by omega]
  rw [(C47_diagonal T wf (hd r hr T e)).2 t (by omega)]
  have : (A r).offdiag.elim 0 (fun O => csrEntry O t i) = 0 := by
    cases hO : (A r).offdiag with
    | none => rfl
    | some O =>
      obtain ⟨wfO, hO0, hOm, -, hc⟩ := h.offdiag_ok r hr _ _ (ext_getD h.partition hr) O hO
      change O.m = (ext.getD r (0, 0)).2 - (ext.getD r (0, 0)).1 at hOm
      refine csrEntry_absent wfO hO0 (by omega) fun c hcm e => hc c hcm ?_
      change (ext.getD r (0, 0)).1 ≤ c ∧ c < (ext.getD r (0, 0)).2
      omega
  rw [this, add_zero]

theorem allDiags_eq {A : Nat → DistCsr ℝ} {P N : Nat} {ext : List (Nat × Nat)} (h : DistributedMatrix A P N ext) (hP : 0 < P)
    {D : Fin N → ℝ} (hD : ∀ r < P, IsPiece ext D r fun t => (localDiag (A r)).getD t 0) : allDiags A P = List.ofFn D := by
  set d : Nat → ℝ := fun i => if hi : i < N then D ⟨i, hi⟩ else 0 with hd
  have key : ∀ k, 0 < k → k ≤ P → (List.range k).flatMap (fun s => localDiag (A s))
      = (List.range (ext.getD (k - 1) (0, 0)).2).map d := by
    intro k
    induction k with
    | zero => intro h; omega
    | succ k ih =>
      intro _ hk
      have hle := ext_le h.partition (show k < P by omega)
      have e : (ext.getD k (0, 0)).2 = startOf ext k + rowsOf ext k := by unfold startOf rowsOf; omega
      rw [List.range_succ, List.flatMap_append, Nat.add_sub_cancel, e, List.range_add, List.map_append]
      congr 1
      · rcases Nat.eq_zero_or_pos k with rfl | hk0
        · have : startOf ext 0 = 0 := h.partition.starts _ (ext_getD h.partition hP)
          simp [this]
        · rw [ih hk0 (by omega)]
          congr 2
          exact h.partition.contiguous (k - 1) _ _ (ext_getD h.partition (by omega)) (by
            rw [Nat.sub_add_cancel hk0]; exact ext_getD h.partition (by omega))
      · simp only [List.flatMap_cons, List.flatMap_nil, List.append_nil, List.map_map]
        apply List.ext_getElem
        · rw [localDiag_length h (by omega)]; simp
        · intro t h1 h2
          have ht : t < rowsOf ext k := by simpa using h2
          have hlt := row_lt h.partition (show k < P by omega) ht
          have : (localDiag (A k)).getD t 0 = _ := hD k (by omega) t ht ⟨startOf ext k + t, hlt⟩ rfl
          rw [List.getD_eq_getElem _ _ h1] at this
          rw [this]
          simp [hd, hlt]
  unfold allDiags
  rw [key P hP le_rfl, h.partition.ends _ (ext_getD h.partition (by omega))]
  apply List.ext_getElem
  · simp
  · intro i h1 h2
    have hi : i < N := by simpa using h2
    simp [hd, hi]

/-- all ranks calling `parallel_selected_ci_diag`, each with its piece `C r` of a start vector -/
noncomputable def ciDiagWorld (eig : Nat → (Nat → Nat → ℝ) → ℝ × (Nat → ℝ)) (P : Nat) (A : Nat → DistCsr ℝ)
    (garbage : Nat → Nat → Nat → ℝ) (tol : ℝ) (maxM : Nat) (C : Nat → List ℝ) (mem : Nat → DavSt) : World DavSt DavMs :=
  ⟨fun r => if r < P then ciDiagProg eig P r (A r) (garbage r) tol maxM (C r) else [], mem, fun _ => []⟩

/-- C162 (`parallel_selected_ci_diag` finds the eigenpair from any start vector): what holds is that when the largest
coefficient on every rank exceeds one over the number of its rows, then under every schedule all ranks use the passed
vector and end like the serial solver does from it. -/
theorem C162_passed_vector_partial {A : Nat → DistCsr ℝ} {P N : Nat} {ext : List (Nat × Nat)}
    (h : DistributedMatrix A P N ext) {M : Matrix (Fin N) (Fin N) ℝ} (hM : IsGlobal A P ext M) (hnd : NoDuplicates A P)
    {eig : Nat → (Nat → Nat → ℝ) → ℝ × (Nat → ℝ)} (he : EigLocal eig) (hP : 0 < P) (garbage : Nat → Nat → Nat → ℝ)
    (tol : ℝ) (maxM : Nat) (h0 : maxM ≠ 0) (C : Nat → List ℝ) {g : Fin N → ℝ}
    (hlen : ∀ r < P, (C r).length = rowsOf ext r) (hg : ∀ r < P, IsPiece ext g r fun t => (C r).getD t 0)
    (hbig : ∀ r < P, ∃ x ∈ C r, 1 / ((C r).length : ℝ) < |x|)
    (mem : Nat → DavSt) (hn : ∀ r < P, (mem r).2.nan = false) :
    ∃ st, AlwaysEnds (ciDiagWorld eig P A garbage tol maxM C mem) st ∧
      ∀ r < P, (st r).1.err = (mem r).1.err ∧ (st r).2.err = (mem r).2.err ∧
        EndsLike ext (davidsonRun M.mulVec (fun i => M i i) tol eig maxM g) r (st r).2 := by
  have hres : ∀ r < P, resizeVec (C r) (rowsOf ext r) = C r := by
    intro r hr
    unfold resizeVec
    rw [← hlen r hr]; simp
  have hmax : ∀ (cs : List ℝ) (c : ℝ) (x : ℝ), (x = c ∨ x ∈ cs) →
      |x| ≤ |cs.foldl (fun m x => if |m| < |x| then x else m) c| := by
    intro cs
    induction cs with
    | nil => intro c x hx; rcases hx with rfl | hx <;> simp_all
    | cons a cs ih =>
      intro c x hx
      rw [List.foldl_cons]
      rcases hx with rfl | hx
      · split_ifs with hlt
        · exact hlt.le.trans (ih a a (.inl rfl))
        · exact ih x x (.inl rfl)
      · rcases List.mem_cons.1 hx with rfl | hx
        · split_ifs with hlt
          · exact ih x x (.inl rfl)
          · exact (not_lt.1 hlt).trans (ih c c (.inl rfl))
        · exact ih _ x (.inr hx)
  have huse : ∀ r < P, usesPassedVector (resizeVec (C r) (rowsOf ext r)) = some true := by
    intro r hr
    rw [hres r hr]
    obtain ⟨x, hx, hlt⟩ := hbig r hr
    cases hC : C r with
    | nil => rw [hC] at hx; simp at hx
    | cons c cs =>
      rw [hC] at hx hlt
      unfold usesPassedVector
      dsimp only
      congr 1
      rw [decide_eq_true_eq]
      exact lt_of_lt_of_le hlt (hmax cs c x (by simpa using hx))
  obtain ⟨st, ⟨n, hr⟩, hp⟩ := ci_reach h hM he hP garbage (diag_piece h hM hnd) tol maxM h0 C true huse (g := g)
    C (fun r hr => by simp only [StartPiece, if_true]; exact (hres r hr).symm) hg mem hn
  exact ⟨st, always_ends hr (fun r => by simp [ranks]) (fun k => rfl), hp⟩

theorem resize_zero {C : List ℝ} (hC : ∀ x ∈ C, x = 0) (n : Nat) : resizeVec C n = List.replicate n 0 := by
  unfold resizeVec
  have : C = List.replicate C.length 0 := List.eq_replicate_of_mem hC
  rw [this, List.take_replicate, List.length_replicate, List.replicate_append_replicate]
  congr 1; omega

theorem rowsOf_default_pos {N P : Nat} (hP : 0 < P) (hPN : P ≤ N) {r : Nat} (hr : r < P) : 0 < rowsOf (defaultExtents N P) r := by
  have hq : 0 < N / P := Nat.div_pos hPN hP
  have h1 : P * (N / P) ≤ N := Nat.mul_div_le N P
  have e : (defaultExtents N P).getD r (0, 0) = (r * (N / P), if r + 1 = P then N else (r + 1) * (N / P)) := by
    rw [defaultExtents_eq _ _ hP]
    simp [List.getD, hr]
  unfold rowsOf
  rw [e]
  dsimp only
  split
  · rename_i hl
    have : r * (N / P) + N / P = P * (N / P) := by rw [← hl]; ring
    omega
  · have : (r + 1) * (N / P) = r * (N / P) + N / P := by ring
    omega

/-- C162: without a start vector (empty or zero), at most as many ranks as rows, the default distribution, and the
first smallest diagonal entry not among the last `N % P` rows: under every schedule all ranks end like the serial
solver does from the unit vector of that entry. -/
theorem C162_fresh_vector_partial {A : Nat → DistCsr ℝ} {P N : Nat}
    (h : DistributedMatrix A P N (defaultExtents N P)) {M : Matrix (Fin N) (Fin N) ℝ}
    (hM : IsGlobal A P (defaultExtents N P) M) (hnd : NoDuplicates A P)
    {eig : Nat → (Nat → Nat → ℝ) → ℝ × (Nat → ℝ)} (he : EigLocal eig) (hP : 0 < P) (hPN : P ≤ N)
    (garbage : Nat → Nat → Nat → ℝ) (tol : ℝ) (maxM : Nat) (h0 : maxM ≠ 0) (C : Nat → List ℝ)
    (hC : ∀ r < P, ∀ x ∈ C r, x = 0) {i0 : Fin N} (hmin : FirstMin (List.ofFn fun i => M i i) i0)
    (hrow : (i0 : Nat) < P * (N / P))
    (mem : Nat → DavSt) (hn : ∀ r < P, (mem r).2.nan = false) :
    ∃ st, AlwaysEnds (ciDiagWorld eig P A garbage tol maxM C mem) st ∧
      ∀ r < P, (st r).1.err = (mem r).1.err ∧ (st r).2.err = (mem r).2.err ∧
        EndsLike (defaultExtents N P)
          (davidsonRun M.mulVec (fun i => M i i) tol eig maxM (Pi.single i0 1)) r (st r).2 := by
  have hD := diag_piece h hM hnd
  have hall := allDiags_eq h hP hD
  have huniq : ∀ m, FirstMin (List.ofFn fun i => M i i) m → m = i0 := by
    rintro m ⟨v, hv, hle, hlt⟩
    obtain ⟨w, hw, hle', hlt'⟩ := hmin
    rcases Nat.lt_trichotomy m i0 with hc | hc | hc
    · have := hlt' m hc v hv
      exact absurd (hle w (List.mem_of_getElem? hw)) (not_le.2 this)
    · exact hc
    · have := hlt i0 hc w hw
      exact absurd (hle' v (List.mem_of_getElem? hv)) (not_le.2 this)
  have huse : ∀ r < P, usesPassedVector (resizeVec (C r) (rowsOf (defaultExtents N P) r)) = some false := by
    intro r hr
    rw [resize_zero (hC r hr)]
    exact C74_fresh_vector_partial _ (rowsOf_default_pos hP hPN hr)
  have hlen : (List.ofFn fun i => M i i).length = N := by simp
  obtain ⟨m, hm, hguess⟩ := C33_distributed_guess (List.ofFn fun i => M i i) P hP (by rw [hlen]; exact hPN)
    (by intro m hm; rw [huniq m hm, hlen]; exact hrow)
  obtain rfl := huniq m hm
  rw [hlen] at hguess
  obtain ⟨st, ⟨n, hr⟩, hp⟩ := ci_reach h hM he hP garbage hD tol maxM h0 C false huse (g := Pi.single i0 1)
    (fun r => ((((List.replicate N (0 : ℝ)).set i0 1).drop (startOf (defaultExtents N P) r)).take (rowsOf (defaultExtents N P) r)))
    (fun r hr => by
      simp only [StartPiece, Bool.false_eq_true, if_false]
      rw [hall]
      exact hguess r hr _ _ (ext_getD h.partition hr))
    (by
      intro r hr t ht i hi
      dsimp only
      rw [List.getD_eq_getElem?_getD, List.getElem?_take, if_pos ht, List.getElem?_drop, ← hi, List.getElem?_set]
      by_cases e : i0 = i
      · subst e; simp
      · have e' : (i0 : Nat) ≠ i := fun e2 => e (Fin.ext e2)
        simp [e', Pi.single_eq_of_ne (Ne.symm e)])
    mem hn
  exact ⟨st, always_ends hr (fun r => by simp [ranks]) (fun k => rfl), hp⟩

theorem zero_guess_fails {N : Nat} (M : Matrix (Fin N) (Fin N) ℝ) (D : Fin N → ℝ) (tol : ℝ)
    (eig : Nat → (Nat → Nat → ℝ) → ℝ × (Nat → ℝ)) {maxM : Nat} (h0 : maxM ≠ 0) :
    davidsonRun M.mulVec D tol eig maxM 0 = .notConverged ∨ davidsonRun M.mulVec D tol eig maxM 0 = .breakdown := by
  unfold davidsonRun
  rw [if_neg h0]
  split_ifs
  · exact .inl rfl
  · right
    dsimp only
    have hz : ∀ w : Fin N → ℝ, projectOut 1 (fun _ => (0 : Fin N → ℝ)) w = w := by
      intro w; funext t; simp [projectOut, combine]
    have : gramSchmidt 1 (fun _ => (0 : Fin N → ℝ)) (M.mulVec 0) = none := by
      unfold gramSchmidt
      dsimp only
      rw [hz, hz, Matrix.mulVec_zero, if_pos]
      simp [nrm2, vdot]
    rw [this]

/-- C162 is violated: if the first smallest diagonal entry is among the last `N % P` rows, no rank sets it in the
guess, and under every schedule every rank ends with the exception. -/
theorem C162_lost_guess_refuted {A : Nat → DistCsr ℝ} {P N : Nat}
    (h : DistributedMatrix A P N (defaultExtents N P)) {M : Matrix (Fin N) (Fin N) ℝ}
    (hM : IsGlobal A P (defaultExtents N P) M) (hnd : NoDuplicates A P)
    {eig : Nat → (Nat → Nat → ℝ) → ℝ × (Nat → ℝ)} (he : EigLocal eig) (hP : 0 < P) (hPN : P ≤ N)
    (garbage : Nat → Nat → Nat → ℝ) (tol : ℝ) (maxM : Nat) (h0 : maxM ≠ 0) (C : Nat → List ℝ)
    (hC : ∀ r < P, ∀ x ∈ C r, x = 0) {i0 : Fin N} (hmin : FirstMin (List.ofFn fun i => M i i) i0)
    (hrow : P * (N / P) ≤ i0)
    (mem : Nat → DavSt) (hn : ∀ r < P, (mem r).2.nan = false) :
    ∃ st, AlwaysEnds (ciDiagWorld eig P A garbage tol maxM C mem) st ∧ ∀ r < P, (st r).2.out = .failed := by
  have hD := diag_piece h hM hnd
  have hall := allDiags_eq h hP hD
  have hne : (List.ofFn fun i => M i i) ≠ [] := by
    rw [← List.length_pos_iff]; simp; omega
  have hidx : minIdx (List.ofFn fun i => M i i) = i0 := by
    obtain ⟨v, hv, hle, hlt⟩ := minIdx_spec _ hne
    obtain ⟨w, hw, hle', hlt'⟩ := hmin
    rcases Nat.lt_trichotomy (minIdx (List.ofFn fun i => M i i)) i0 with hc | hc | hc
    · have := hlt' _ hc v hv
      exact absurd (hle w (List.mem_of_getElem? hw)) (not_le.2 this)
    · exact hc
    · have := hlt i0 hc w hw
      exact absurd (hle' v (List.mem_of_getElem? hv)) (not_le.2 this)
  have huse : ∀ r < P, usesPassedVector (resizeVec (C r) (rowsOf (defaultExtents N P) r)) = some false := by
    intro r hr
    rw [resize_zero (hC r hr)]
    exact C74_fresh_vector_partial _ (rowsOf_default_pos hP hPN hr)
  have hq : 0 < N / P := Nat.div_pos hPN hP
  have hP1 : P ≠ 1 := by rintro rfl; simp at hrow; omega
  have hg : ∀ r < P, pDiagonalGuess (defaultExtents N P) (List.ofFn fun i => M i i) r =
      some (List.replicate (rowsOf (defaultExtents N P) r) 0) := by
    intro r hr
    have e0 : (defaultExtents N P).getD 0 (0, 0) = (0, N / P) := by
      rw [defaultExtents_eq _ _ hP]
      simp [List.getD, hP, hP1.symm]
    rw [pDiagonalGuess_eq (List.ofFn fun i => M i i) (rank := r) e0 rfl, if_neg (by omega), if_neg]
    · rfl
    · rw [hidx, Nat.sub_zero]
      have : P ≤ (i0 : Nat) / (N / P) := (Nat.le_div_iff_mul_le hq).2 hrow
      omega
  obtain ⟨st, ⟨n, hr⟩, hp⟩ := ci_reach h hM he hP garbage hD tol maxM h0 C false huse (g := 0)
    (fun r => List.replicate (rowsOf (defaultExtents N P) r) 0)
    (fun r hr => by
      simp only [StartPiece, Bool.false_eq_true, if_false]
      rw [hall]
      exact hg r hr)
    (by
      intro r hr t ht i hi
      simp [List.getD_eq_getElem?_getD, List.getElem?_replicate, ht])
    mem hn
  refine ⟨st, always_ends hr (fun r => by simp [ranks]) (fun k => rfl), fun r hr => ?_⟩
  have := (hp r hr).2.2
  rcases zero_guess_fails M (fun i => M i i) tol eig h0 with e | e <;> (rw [e] at this; exact this)

/-- C162 is violated: when the ranks do not all make the same choice (or one holds no rows), under every schedule
every execution that ends or cannot go on has run into an error on some rank: a message that does not fit the
collective it arrives in, or the largest element of an empty range. -/
theorem C162_disagreement_refuted {A : Nat → DistCsr ℝ} {P N : Nat} {ext : List (Nat × Nat)}
    (h : DistributedMatrix A P N ext) (eig : Nat → (Nat → Nat → ℝ) → ℝ × (Nat → ℝ)) (garbage : Nat → Nat → Nat → ℝ)
    (tol : ℝ) (maxM : Nat) (C : Nat → List ℝ)
    (hd : ¬ ∃ b, ∀ r < P, usesPassedVector (resizeVec (C r) (rowsOf ext r)) = some b) (mem : Nat → DavSt) :
    ∃ r < P, ∀ eager n F, Run eager n (ciDiagWorld eig P A garbage tol maxM C mem) F → (∀ w', ¬ Step eager F w') →
      (F.st r).2.err = true := by
  obtain ⟨w1, r, hr, hreach, herr⟩ := disagree_reach h eig garbage tol maxM C hd mem
  refine ⟨r, hr, fun eager n F hrun hstuck => ?_⟩
  refine flag_always (B := HasErr) ?_ hreach herr eager hrun hstuck
  intro q
  simp only [ranks]
  split_ifs
  · exact keeps_ci _ _ _ _ _ _ _ _
  · trivial

/-! ### instances -/

/-- two ranks with one row each of `[[1, 2], [2, 3]]` -/
noncomputable def exPair : Nat → DistCsr ℝ
  | 0 => { size := 2, rank := 0, m := 2, n := 2, extents := [(0, 1), (1, 2)],
           diag := some { m := 1, n := 1, indexing := 0, rowptr := [0, 1], colind := [0], nzval := [1] },
           offdiag := some { m := 1, n := 2, indexing := 0, rowptr := [0, 1], colind := [1], nzval := [2] } }
  | r => { size := 2, rank := r, m := 2, n := 2, extents := [(0, 1), (1, 2)],
           diag := some { m := 1, n := 1, indexing := 0, rowptr := [0, 1], colind := [0], nzval := [3] },
           offdiag := some { m := 1, n := 2, indexing := 0, rowptr := [0, 1], colind := [0], nzval := [2] } }

theorem exPair_distributed : DistributedMatrix exPair 2 2 (defaultExtents 2 2) := by
  have e : defaultExtents 2 2 = [(0, 1), (1, 2)] := by decide
  rw [e]
  constructor
  · exact ⟨rfl, by simp, by simp, by simp, by
      intro r s t hs ht
      match r with
      | 0 => simp at hs ht; rw [← hs, ← ht]
      | r + 1 => simp at ht⟩
  · intro r hr; match r with | 0 => rfl | 1 => rfl
  · intro r hr; match r with | 0 => rfl | 1 => rfl
  · intro r hr; match r with | 0 => rfl | 1 => rfl
  · intro r hr; match r with | 0 => rfl | 1 => rfl
  · intro r hr st en hse
    match r with
    | 0 => simp at hse; obtain ⟨rfl, rfl⟩ := hse; exact ⟨_, rfl, by constructor <;> simp, rfl, rfl, rfl⟩
    | 1 => simp at hse; obtain ⟨rfl, rfl⟩ := hse; exact ⟨_, rfl, by constructor <;> simp, rfl, rfl, rfl⟩
  · intro r hr st en hse O hO
    match r with
    | 0 =>
      simp at hse; obtain ⟨rfl, rfl⟩ := hse
      simp only [exPair, Option.some.injEq] at hO; subst hO
      exact ⟨by constructor <;> simp, rfl, rfl, rfl, by simp⟩
    | 1 =>
      simp at hse; obtain ⟨rfl, rfl⟩ := hse
      simp only [exPair, Option.some.injEq] at hO; subst hO
      exact ⟨by constructor <;> simp, rfl, rfl, rfl, by simp⟩

theorem exPair_global : IsGlobal exPair 2 (defaultExtents 2 2) !![1, 2; 2, 3] := by
  have e : defaultExtents 2 2 = [(0, 1), (1, 2)] := by decide
  rw [e]
  intro r hr t ht i j hi
  match r with
  | 0 =>
    simp [rowsOf] at ht; subst ht
    simp [startOf] at hi
    obtain rfl : i = 0 := by simpa using hi
    fin_cases j <;> simp [distEntry, exPair, csrEntry]
  | 1 =>
    simp [rowsOf] at ht; subst ht
    simp [startOf] at hi
    obtain rfl : i = 1 := by first | exact hi | exact Fin.ext hi | (fin_cases i <;> simp_all)
    fin_cases j <;> simp [distEntry, exPair, csrEntry]

/-- the lowest eigenpair of the `k × k` part -/
theorem exists_eigLocal : ∃ eig, EigLocal eig ∧ LowestPair eig := by
  obtain ⟨eig, he⟩ := exists_lowestPair
  refine ⟨fun k M => eig k fun p q => if p < k ∧ q < k then M p q else 0, ?_, ?_⟩
  · intro k M M' h
    have e : (fun p q => if p < k ∧ q < k then M p q else 0) = fun p q => if p < k ∧ q < k then M' p q else 0 := by
      funext p q
      split_ifs with hc
      · exact h p hc.1 q hc.2
      · rfl
    show eig k _ = eig k _
    rw [e]
  · intro k M hk
    have := he k (fun p q => if p < k ∧ q < k then M p q else 0) hk
    dsimp only at this ⊢
    obtain ⟨h1, h2, h3⟩ := this
    have hS : ∀ p < k, ∀ q < k, (if q ≤ p then (if p < k ∧ q < k then M p q else 0) else if q < k ∧ p < k then M q p else 0)
        = if q ≤ p then M p q else M q p := by
      intro p hp q hq
      simp [hp, hq]
    refine ⟨h1, ?_, ?_⟩
    · intro p hp
      rw [← h2 p hp]
      apply Finset.sum_congr rfl
      intro q hq
      rw [hS p hp q (Finset.mem_range.1 hq)]
    · intro d
      refine (h3 d).trans (le_of_eq ?_)
      apply Finset.sum_congr rfl
      intro p hp
      apply Finset.sum_congr rfl
      intro q hq
      rw [hS p (Finset.mem_range.1 hp) q (Finset.mem_range.1 hq)]

/-- C161, C162: a two-rank matrix, an eigensolver and start vectors as the theorems ask for exist: ... -/
example : ∃ eig, EigLocal eig ∧ LowestPair eig ∧ DistributedMatrix exPair 2 2 (defaultExtents 2 2) ∧
    IsGlobal exPair 2 (defaultExtents 2 2) !![1, 2; 2, 3] ∧ NoDuplicates exPair 2 ∧
    (!![1, 2; 2, 3] : Matrix (Fin 2) (Fin 2) ℝ).IsSymm ∧
    FirstMin (List.ofFn fun i => (!![1, 2; 2, 3] : Matrix (Fin 2) (Fin 2) ℝ) i i) (0 : Fin 2) := by
  obtain ⟨eig, h1, h2⟩ := exists_eigLocal
  refine ⟨eig, h1, h2, exPair_distributed, exPair_global, ?_, ?_, ?_⟩
  · intro r hr T hT i hi
    match r with
    | 0 =>
      simp only [exPair, Option.some.injEq] at hT; subst hT
      obtain rfl : i = 0 := by simpa using hi
      simp [Csr.rowCols, Csr.rp]
    | 1 =>
      simp only [exPair, Option.some.injEq] at hT; subst hT
      obtain rfl : i = 0 := by simpa using hi
      simp [Csr.rowCols, Csr.rp]
  · ext i j; fin_cases i <;> fin_cases j <;> rfl
  · refine ⟨1, by simp, ?_, by simp⟩
    intro d hd
    simp [List.mem_ofFn] at hd
    rcases hd with rfl | rfl <;> norm_num

/-- ... and so do start vectors on which the ranks disagree: five rows, the vector `(0.9, 0.1, 0.1, 0.1, 0.1)` on one
rank and zeros on the other. -/
example : ¬ ∃ b, ∀ r < 2, usesPassedVector (resizeVec ((fun r => if r = 0 then [9/10, 1/10] else [0, 0, 1/10]) r : List ℝ)
    (rowsOf (defaultExtents 5 2) r)) = some b := by
  rintro ⟨b, hb⟩
  have h0 := hb 0 (by omega)
  have h1 := hb 1 (by omega)
  have e : defaultExtents 5 2 = [(0, 2), (2, 5)] := by decide
  rw [e] at h0 h1
  have e0 : usesPassedVector (resizeVec ([9/10, 1/10] : List ℝ) 2) = some true := by
    simp only [resizeVec, usesPassedVector, List.length, List.take, Nat.sub_self, List.replicate, List.append_nil, List.foldl]
    congr 1
    rw [decide_eq_true_eq, if_neg]
    · norm_num [abs_of_pos]
    · norm_num [abs_of_pos]
  have e1 : usesPassedVector (resizeVec ([0, 0, 1/10] : List ℝ) 3) = some false := by
    simp only [resizeVec, usesPassedVector, List.length, List.take, Nat.sub_self, List.replicate, List.append_nil, List.foldl]
    congr 1
    rw [decide_eq_false_iff_not]
    norm_num [abs_of_pos]
  have h0' : some true = some b := by rw [← e0]; simpa [rowsOf] using h0
  have h1' : some false = some b := by rw [← e1]; simpa [rowsOf] using h1
  rw [← h0'] at h1'
  simp at h1'

end Macis
