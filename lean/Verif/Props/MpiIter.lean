import Verif.Lemmas.MpiGrow
import Verif.Props.Casci
import Verif.Lemmas.DavRun
import Verif.Lemmas.Transform
/-
C163: `asci_iter`, `asci_grow` and `asci_refine` on several ranks, rank by rank, under every schedule.
-/
namespace Macis
open Spec Spec.Mpi Mpi
variable {M : Nat}

theorem world_start (a : AsciPar M) (prog : Nat → List (Instr (AsciMem M) (AsciMsg M))) (h : GenState) (E0 : ℝ)
    (wfn : List (BitVec (2 * M))) (X : List ℝ) (mem : Nat → AsciMem M) :
    asciWorld a prog h E0 wfn X mem = ranks a.P prog fun r => asciStart h E0 wfn X (mem r) := rfl

theorem start_have (P : Nat) (h : GenState) (E0 : ℝ) (wfn : List (BitVec (2 * M))) (X : List ℝ) (mem : Nat → AsciMem M) :
    AllHave P (fun r => asciStart h E0 wfn X (mem r)) h E0 wfn X [E0] :=
  ⟨fun _ _ => rfl, fun _ _ => rfl, fun _ _ => rfl, fun _ _ => rfl, fun _ _ => rfl, fun _ _ => rfl, fun _ _ => rfl⟩

theorem ends_of_reach {P : Nat} {p : Nat → List (Instr (AsciMem M) (AsciMsg M))} {s s' : Nat → AsciMem M}
    (h : Reach (ranks P p s) (ranks P (fun _ => []) s')) : AlwaysEnds (ranks P p s) s' := by
  obtain ⟨n, h⟩ := h
  exact always_ends h (fun r => by simp [ranks]) (fun _ => rfl)

/-- C163 (iteration): every number of ranks from two on, every Hamiltonian, wave function and settings, every memory
content the ranks start with, every behaviour of the library sorts (which may differ between the ranks), every schedule
and every buffering of messages: when one iteration around the joint search and the whole matrix returns, `asci_iter`
ends on every rank with exactly that energy, those determinants and the whole CI vector; when it throws, every rank
ends with the exception.  Required: at least as many determinants asked for as there are ranks. -/
theorem C163_iteration_partial {a : AsciPar M} (hb : Behaves a) (hP : 2 ≤ a.P) (ht : 0 ≤ a.ci.matelTol) (hm : a.ci.maxSub ≠ 0)
    (garbage : Nat → Nat → Nat → ℝ) (mem : Nat → AsciMem M) (fuel n : Nat) (hn : n < 2 ^ 64) (hPn : a.P ≤ n)
    (hf : a.P * 2 ^ (2 * M) < fuel) (h : GenState) (E0 : ℝ) (wfn : List (BitVec (2 * M))) (X : List ℝ) :
    (∀ E w Y, asciIter (jointEnv a) a.asci n h E0 wfn X = .ok (E, w, Y) →
      w.length = n ∧ Y.length = n ∧
      ∃ st, AlwaysEnds (asciWorld a (fun r => iterProg a r fuel n (garbage r)) h E0 wfn X mem) st ∧
        ∀ r < a.P, (st r).err = false ∧ (st r).thrown = false ∧ (st r).E = E ∧ (st r).wfn = w ∧ (st r).X = Y ∧ (st r).h = h) ∧
    (asciIter (jointEnv a) a.asci n h E0 wfn X = .throw →
      ∃ st, AlwaysEnds (asciWorld a (fun r => iterProg a r fuel n (garbage r)) h E0 wfn X mem) st ∧
        ∀ r < a.P, (st r).err = false ∧ (st r).thrown = true) := by
  have key := asciIter_reach hb hP ht hm garbage fuel n hn hPn hf h E0 wfn X [E0] _ (start_have a.P h E0 wfn X mem)
  constructor
  · intro E w Y hok
    rw [hok] at key
    obtain ⟨hw, s', hr, hh, hE⟩ := key
    refine ⟨hw, ?_, s', ends_of_reach hr, fun r hr => ⟨hh.err r hr, hh.thrown r hr, hE r hr, hh.wfn r hr, hh.X r hr, hh.h r hr⟩⟩
    unfold asciIter at hok
    dsimp only at hok
    split at hok
    · cases hok
    split at hok
    · cases hok
    split at hok
    · cases hok
    rename_i hd
    cases hok
    have hd' : jointDiag a h w = some (E, Y) := hd
    unfold jointDiag at hd'
    split at hd'
    · cases hd'
      rw [List.length_ofFn, hw]
    · cases hd'
  · intro hth
    rw [hth] at key
    obtain ⟨s', hr, hh⟩ := key
    exact ⟨s', ends_of_reach hr, fun r hr => ⟨(hh r hr).2, (hh r hr).1⟩⟩

/-- C163 (growth): the same for `asci_grow`, rotated integrals included; all ranks return the same determinants,
energy, CI vector and integrals. -/
theorem C163_growth_partial {a : AsciPar M} (hb : Behaves a) (hP : 2 ≤ a.P) (ht : 0 ≤ a.ci.matelTol) (hm : a.ci.maxSub ≠ 0)
    (hmin : a.P ≤ a.asci.ntdetsMin) (hmax : a.P ≤ a.asci.ntdetsMax) (h64 : a.asci.ntdetsMax < 2 ^ 64)
    (garbage : Nat → Nat → Nat → Nat → ℝ) (mem : Nat → AsciMem M) (fuel : Nat) (hf : a.P * 2 ^ (2 * M) < fuel) (rounds : Nat)
    (h : GenState) (E0 : ℝ) (wfn : List (BitVec (2 * M))) (X : List ℝ) :
    (∀ g, asciGrow (jointEnv a) a.asci rounds h E0 wfn X = .ok g →
      ∃ st, AlwaysEnds (asciWorld a (fun r => growProg a r fuel (garbage r) rounds) h E0 wfn X mem) st ∧
        ∀ r < a.P, (st r).err = false ∧ (st r).thrown = false ∧ (st r).E0 = g.E0 ∧ (st r).wfn = g.wfn ∧ (st r).X = g.X ∧
          (st r).h = g.h) ∧
    (asciGrow (jointEnv a) a.asci rounds h E0 wfn X = .throw →
      ∃ st, AlwaysEnds (asciWorld a (fun r => growProg a r fuel (garbage r) rounds) h E0 wfn X mem) st ∧
        ∀ r < a.P, (st r).err = false ∧ (st r).thrown = true) := by
  have key := grow_reach hb hP ht hm hmin hmax h64 garbage fuel hf [E0] rounds ⟨h, E0, wfn, X, []⟩ _ (start_have a.P h E0 wfn X mem)
  unfold asciGrow
  constructor
  · intro g hok
    rw [hok] at key
    obtain ⟨s', hr, hh⟩ := key
    exact ⟨s', ends_of_reach hr, fun r hr => ⟨hh.err r hr, hh.thrown r hr, hh.E0 r hr, hh.wfn r hr, hh.X r hr, hh.h r hr⟩⟩
  · intro hth
    rw [hth] at key
    obtain ⟨s', hr, hh⟩ := key
    exact ⟨s', ends_of_reach hr, fun r hr => ⟨(hh r hr).2, (hh r hr).1⟩⟩

/-- C163 (growth ends): with a growth factor of at least two and sizes that fit `size_t`, the growth on several ranks
needs at most `ntdets_max - |wfn|` rounds, and when it returns there are `ntdets_max` determinants (more only if there
were more to begin with). -/
theorem C163_growth_ends {a : AsciPar M} (hb : Behaves a) (hP : 2 ≤ a.P) (hg : 2 ≤ a.asci.growFactor)
    (h64 : a.asci.ntdetsMax * a.asci.growFactor < 2 ^ 64) (rounds : Nat) :
    ∀ st : GrowState (2 * M) ℝ GenState, st.wfn ≠ [] → a.asci.ntdetsMax - st.wfn.length ≤ rounds →
    growLoop (jointEnv a) a.asci rounds st ≠ .timeout ∧
    ∀ g, growLoop (jointEnv a) a.asci rounds st = .ok g → g.wfn.length = max st.wfn.length a.asci.ntdetsMax := by
  induction rounds with
  | zero =>
    intro st hne hr
    unfold growLoop
    rw [if_neg (by omega)]
    refine ⟨by simp, fun g e => ?_⟩
    cases e
    omega
  | succ rounds ih =>
    intro st hne hr
    unfold growLoop
    by_cases hl : st.wfn.length < a.asci.ntdetsMax
    swap
    · rw [if_neg hl]
      refine ⟨by simp, fun g e => ?_⟩
      cases e
      omega
    rw [if_pos hl]
    dsimp only
    have hpos : 0 < st.wfn.length := List.length_pos_iff.2 hne
    have hmul : st.wfn.length * a.asci.growFactor < 2 ^ 64 :=
      lt_of_le_of_lt (Nat.mul_le_mul_right _ hl.le) h64
    have hnew : st.wfn.length < ndetsNew a.asci st.wfn.length ∧ ndetsNew a.asci st.wfn.length ≤ a.asci.ntdetsMax := by
      unfold ndetsNew
      rw [Nat.mod_eq_of_lt hmul]
      have : st.wfn.length * 2 ≤ st.wfn.length * a.asci.growFactor := Nat.mul_le_mul_left _ hg
      omega
    have hn64 : ndetsNew a.asci st.wfn.length < 2 ^ 64 := by
      have : a.asci.ntdetsMax ≤ a.asci.ntdetsMax * a.asci.growFactor := Nat.le_mul_of_pos_right _ (by omega)
      omega
    unfold growBody
    dsimp only
    set n := ndetsNew a.asci st.wfn.length with hn
    have hlen : ∀ E w Y, asciIter (jointEnv a) a.asci n st.h st.E0 st.wfn st.X = .ok (E, w, Y) → w.length = n := by
      intro E w Y hok
      unfold asciIter at hok
      dsimp only at hok
      split at hok
      · cases hok
      split at hok
      · cases hok
      split at hok
      · cases hok
      rename_i hsr _ _ _ _
      cases hok
      exact (search_all hb hP (a.P * 2 ^ (2 * M) + 1) n hn64 (by omega) _ _ _ _ _ hsr).1
    cases hI : asciIter (jointEnv a) a.asci n st.h st.E0 st.wfn st.X with
    | ub => simp [Run.bind]
    | throw => simp [Run.bind]
    | timeout =>
      exfalso
      unfold asciIter at hI
      dsimp only at hI
      split at hI
      · cases hI
      split at hI
      · cases hI
      split at hI <;> cases hI
    | ok v =>
      obtain ⟨E, w, X⟩ := v
      have hw := hlen E w X hI
      have hgo : ∀ h' X', _ := fun h' X' => ih ⟨h', E, w, X', st.reqs ++ [n]⟩ (by
        rw [← List.length_pos_iff]; show 0 < w.length; omega) (by show _ - w.length ≤ _; omega)
      simp only [Run.bind]
      rw [if_neg (by omega)]
      by_cases hrot : a.asci.growWithRot ∧ w.length ≥ a.asci.rotSizeStart
      · rw [if_pos hrot]
        cases hd : (jointEnv a).diag ((jointEnv a).rotate st.h w X) w with
        | none => simp
        | some Ex =>
          obtain ⟨E', X'⟩ := Ex
          dsimp only
          refine ⟨(hgo _ _).1, fun g e => ?_⟩
          rw [(hgo _ _).2 g e]
          dsimp only
          omega
      · rw [if_neg hrot]
        dsimp only
        refine ⟨(hgo _ _).1, fun g e => ?_⟩
        rw [(hgo _ _).2 g e]
        dsimp only
        omega

/-- C163 (refinement): the same for `asci_refine`; all ranks have the same energies of all iterations (the last one
first) and return the same energy, determinants and CI vector. -/
theorem C163_refinement_partial {a : AsciPar M} (hb : Behaves a) (hP : 2 ≤ a.P) (ht : 0 ≤ a.ci.matelTol) (hm : a.ci.maxSub ≠ 0)
    (garbage : Nat → Nat → Nat → Nat → ℝ) (mem : Nat → AsciMem M) (fuel : Nat) (hf : a.P * 2 ^ (2 * M) < fuel)
    (h : GenState) (E0 : ℝ) (wfn : List (BitVec (2 * M))) (X : List ℝ) (hw : a.P ≤ wfn.length) (h64 : wfn.length < 2 ^ 64) :
    (∀ Es w Y, asciRefine (jointEnv a) a.asci h E0 wfn X = .ok (Es, w, Y) →
      ∃ st E, AlwaysEnds (asciWorld a (fun r => refineProg a r fuel wfn.length (garbage r) a.asci.maxRefineIter) h E0 wfn X mem) st ∧
        Es.head? = some E ∧
        ∀ r < a.P, (st r).err = false ∧ (st r).thrown = false ∧ (st r).energies = Es ∧ (st r).E = E ∧ (st r).wfn = w ∧
          (st r).X = Y ∧ (st r).h = h) ∧
    (asciRefine (jointEnv a) a.asci h E0 wfn X = .throw →
      ∃ st, AlwaysEnds (asciWorld a (fun r => refineProg a r fuel wfn.length (garbage r) a.asci.maxRefineIter) h E0 wfn X mem) st ∧
        ∀ r < a.P, (st r).err = false ∧ (st r).thrown = true) := by
  have key := refine_reach hb hP ht hm garbage fuel wfn.length hf hw h64 h a.asci.maxRefineIter E0 [] wfn X _
    (start_have a.P h E0 wfn X mem)
  unfold asciRefine
  constructor
  · intro Es w Y hok
    rw [hok] at key
    obtain ⟨s', E, hr, hh, hE, hEs⟩ := key
    exact ⟨s', E, ends_of_reach hr, hEs, fun r hr => ⟨hh.err r hr, hh.thrown r hr, hh.energies r hr, hE r hr, hh.wfn r hr, hh.X r hr, hh.h r hr⟩⟩
  · intro hth
    rw [hth] at key
    obtain ⟨s', hr, hh⟩ := key
    exact ⟨s', ends_of_reach hr, fun r hr => ⟨(hh r hr).2, (hh r hr).1⟩⟩

/-! ### what the energy is -/

theorem firstMin_unique {D : List ℝ} {m k : Nat} (h1 : FirstMin D m) (h2 : FirstMin D k) : m = k := by
  obtain ⟨v, hv, hle, hlt⟩ := h1
  obtain ⟨w, hw, hle', hlt'⟩ := h2
  rcases Nat.lt_trichotomy m k with hc | hc | hc
  · have := hlt' m hc v hv
    exact absurd (hle w (List.mem_of_getElem? hw)) (not_le.2 this)
  · exact hc
  · have := hlt k hc w hw
    exact absurd (hle' v (List.mem_of_getElem? hv)) (not_le.2 this)

theorem distGuess_unit {n : Nat} (P : Nat) (D : Fin n → ℝ) {i0 : Fin n} (h : FirstMin (List.ofFn D) i0)
    (hr : (i0 : Nat) < P * (n / P)) : distGuess P D = Pi.single i0 1 := by
  funext i
  unfold distGuess
  by_cases e : i = i0
  · subst e; rw [if_pos ⟨h, hr⟩, Pi.single_eq_same]
  · rw [Pi.single_eq_of_ne e, if_neg]
    rintro ⟨h', -⟩
    exact e (Fin.ext (firstMin_unique h' h))

theorem distGuess_lost {n : Nat} (P : Nat) (D : Fin n → ℝ) {i0 : Fin n} (h : FirstMin (List.ofFn D) i0)
    (hr : P * (n / P) ≤ (i0 : Nat)) : distGuess P D = 0 := by
  funext i
  unfold distGuess
  rw [if_neg]
  · rfl
  · rintro ⟨h', h2⟩
    rw [firstMin_unique h' h] at h2
    omega

/-- C163 (energy): the energy and CI vector all ranks return are, for a symmetric matrix and every subspace limit, a
normalised vector with residual below the tolerance, its Rayleigh quotient, not above the smallest diagonal element,
within the tolerance of an eigenvalue. -/
theorem C163_energy {a : AsciPar M} (hl : LowestPair a.eig) (h : GenState) (w : List (BitVec (2 * M)))
    (hs : (ciFull a h w).IsSymm) (E : ℝ) (Y : List ℝ) (hd : jointDiag a h w = some (E, Y)) :
    ∃ x : Fin w.length → ℝ, Y = List.ofFn x ∧ (∑ t, x t * x t) = 1 ∧
      Real.sqrt (∑ t, ((ciFull a h w).mulVec x t - E * x t) * ((ciFull a h w).mulVec x t - E * x t)) < a.ci.resTol ∧
      E = ∑ t, x t * (ciFull a h w).mulVec x t ∧ (∀ i, E ≤ ciFull a h w i i) ∧
      ∃ (mu : ℝ) (y : Fin w.length → ℝ), y ≠ 0 ∧ (ciFull a h w).mulVec y = mu • y ∧ |mu - E| < a.ci.resTol := by
  set A := ciFull a h w with hA
  unfold jointDiag at hd
  rw [← hA] at hd
  by_cases h0 : a.ci.maxSub = 0
  · unfold davidsonRun at hd
    rw [if_pos h0] at hd
    cases hd
  cases hR : davidsonRun A.mulVec (fun i => A i i) a.ci.resTol a.eig a.ci.maxSub (distGuess a.P fun i => A i i) with
  | notConverged => rw [hR] at hd; cases hd
  | breakdown => rw [hR] at hd; cases hd
  | ub => rw [hR] at hd; cases hd
  | converged iter lam x =>
  rw [hR] at hd
  cases hd
  by_cases hpos : 0 < w.length
  swap
  · rw [show distGuess a.P (fun i => A i i) = 0 from funext fun i => absurd i.pos hpos] at hR
    rcases zero_guess_fails A (fun i => A i i) a.ci.resTol a.eig h0 with e | e <;> (rw [e] at hR; cases hR)
  have hne : (List.ofFn fun i => A i i) ≠ [] := by
    rw [← List.length_pos_iff]; simpa using hpos
  have hspec := minIdx_spec _ hne
  set i0 := minIdx (List.ofFn fun i => A i i) with hi0
  have hi0N : i0 < w.length := by have := firstMin_lt hspec; simpa using this
  by_cases hrow : i0 < a.P * (w.length / a.P)
  · rw [distGuess_unit a.P (fun i => A i i) (i0 := ⟨i0, hi0N⟩) hspec hrow] at hR
    obtain ⟨-, -, c3, c4, c5, c6, c8⟩ := davidsonRun_spec hs (fun i => A i i) a.ci.resTol hl a.ci.maxSub
      (Pi.single ⟨i0, hi0N⟩ 1) (by simp [Pi.single_apply]) iter E x hR
    refine ⟨x, rfl, c3, c4, c5, fun i => c6.trans ?_, c8⟩
    have : ∑ t, (Pi.single (⟨i0, hi0N⟩ : Fin w.length) (1 : ℝ) : Fin w.length → ℝ) t *
        A.mulVec (Pi.single ⟨i0, hi0N⟩ 1) t = A ⟨i0, hi0N⟩ ⟨i0, hi0N⟩ := by
      simp [Pi.single_apply, Matrix.mulVec, dotProduct]
    rw [this]
    obtain ⟨v, hv, hle, -⟩ := hspec
    rw [List.getElem?_ofFn, dif_pos hi0N] at hv
    cases hv
    exact hle _ (List.mem_ofFn.2 ⟨i, rfl⟩)
  · rw [distGuess_lost a.P (fun i => A i i) (i0 := ⟨i0, hi0N⟩) hspec (by simpa using hrow)] at hR
    rcases zero_guess_fails A (fun i => A i i) a.ci.resTol a.eig h0 with e | e <;> (rw [e] at hR; cases hR)

/-! ### the same as on one rank -/

theorem serial_as_joint {n : Nat} (H : Csr ℝ) (hm : H.m = n) (hW : CsrWF H) (hn : H.n = H.m) (hp : 0 < n)
    (hnd : ∀ i < H.m, (H.rowCols i).Nodup) (eig : Nat → (Nat → Nat → ℝ) → ℝ × (Nat → ℝ)) (maxM : Nat) (tol : ℝ) {i0 : Fin n}
    (h0 : FirstMin (List.ofFn fun i : Fin n => csrEntry H i i) i0) :
    (match (serialSelectedCiDiag eig H maxM tol []).map finArr with
      | .converged _ E x => some (E, (List.range n).map x)
      | _ => none) =
    (match davidson (Matrix.of fun i j : Fin n => csrEntry H i j).mulVec (fun i => csrEntry H i i) tol eig maxM (Pi.single i0 1) with
      | .converged _ E x => some (E, List.ofFn x)
      | _ => none) := by
  subst hm
  have hd := C47_diagonal H hW hnd
  have hdl : H.diagonal = List.ofFn fun i : Fin H.m => csrEntry H i i := by
    apply List.ext_getElem
    · rw [hd.1]; simp
    · intro i h1 h2
      rw [List.getElem_ofFn]
      have := hd.2 i (by rw [hd.1] at h1; exact h1)
      rw [List.getD_eq_getElem _ _ h1] at this
      exact this
  have hne : H.diagonal ≠ [] := by
    intro e; rw [e] at hd; simp at hd; omega
  obtain ⟨m, hm, hgm⟩ := C33_serial_guess H.diagonal hne
  rw [hd.1] at hgm
  rw [hdl] at hm
  have hmi := firstMin_unique hm h0
  subst hmi
  have hg : serialGuess H [] = some ((List.replicate H.m 0).set i0 1) := by
    unfold serialGuess
    rw [vresize_zero (by simp)]
    simp only [C74_fresh_vector_partial H.m (by omega)]
    exact hgm
  have hval : (fun t : Fin H.m => ((List.replicate H.m (0 : ℝ)).set i0 1).getD t 0) = Pi.single i0 1 := by
    funext t
    rw [List.getD_eq_getElem?_getD, List.getElem?_set]
    by_cases e : (i0 : Nat) = t
    · have e' : i0 = t := Fin.ext e
      subst e'
      simp
    · rw [if_neg e, List.getElem?_replicate, if_pos t.2, Pi.single_eq_of_ne (fun x => e (by rw [x]))]; rfl
  have hD : (fun i : Fin H.m => H.diagonal.getD i 0) = fun i : Fin H.m => csrEntry H i i := by
    funext i
    exact hd.2 i i.2
  unfold serialSelectedCiDiag
  rw [hg]
  dsimp only
  rw [sparseOp_eq hW hn, hval, hD]
  cases hR : davidson (Matrix.of fun i j : Fin H.m => csrEntry H i j).mulVec (fun i : Fin H.m => csrEntry H i i) tol eig maxM
    (Pi.single i0 1) with
  | converged it E x =>
    simp only [DavResult.map, Option.some.injEq, Prod.mk.injEq, true_and]
    apply List.ext_getElem
    · simp
    · intro i h1 h2
      simp only [List.getElem_map, List.getElem_range, List.getElem_ofFn]
      rw [List.length_ofFn] at h2
      simp [finArr, h2]
  | notConverged => rfl
  | breakdown => rfl
  | ub => rfl

/-- C163 (diagonalisation as on one rank): if the first smallest diagonal element of the matrix is not in its last
`n % P` rows and the subspace limit is at most the dimension, the diagonalisation on several ranks gives the energy
and vector of the diagonalisation on one rank. -/
theorem C163_diagonalisation_serial {a : AsciPar M} (ht : 0 ≤ a.ci.matelTol) (h : GenState) (w : List (BitVec (2 * M)))
    (hN : a.ci.maxSub ≤ w.length) {i0 : Fin w.length} (h0 : FirstMin (List.ofFn fun i => ciFull a h w i i) i0)
    (hrow : (i0 : Nat) < a.P * (w.length / a.P)) :
    jointDiag a h w =
      match selectedCiDiag a.eig (viewInts a.norb h.T h.V) w a.ci.matelTol a.ci.maxSub a.ci.resTol [] with
      | .converged _ E x => some (E, (List.range w.length).map x)
      | _ => none := by
  set I := viewInts a.norb h.T h.V with hI
  have hm : (I.csrHamiltonian w a.ci.matelTol).m = w.length := csrBlock_m I ht w w
  have hW : CsrWF (I.csrHamiltonian w a.ci.matelTol) := csrBlock_wf I ht w w
  have := serial_as_joint (I.csrHamiltonian w a.ci.matelTol) hm hW
    (by rw [hm]; exact csrBlock_n I ht w w) i0.pos
    (sorted_rowCols_nodup hW (csrBlock_sorted I ht w w)) a.eig a.ci.maxSub a.ci.resTol (i0 := i0) h0
  unfold selectedCiDiag
  rw [this]
  unfold jointDiag
  rw [distGuess_unit a.P _ h0 hrow, C161_same_limit _ _ _ _ hN]
  have e : ciFull a h w = Matrix.of fun i j : Fin w.length => csrEntry (I.csrHamiltonian w a.ci.matelTol) i j := rfl
  rw [e]
  simp only [Matrix.of_apply]
  generalize davidson _ _ _ _ _ _ = R
  cases R <;> rfl

/-! ### the start vector is lost -/

/-- C163 is violated: if the first smallest diagonal element of the Hamiltonian in the determinants the search finds
is in the last `n % P` rows, `asci_iter` ends with the exception on every rank under every schedule. -/
theorem C163_lost_start_refuted {a : AsciPar M} (hb : Behaves a) (hP : 2 ≤ a.P) (ht : 0 ≤ a.ci.matelTol) (hm : a.ci.maxSub ≠ 0)
    (garbage : Nat → Nat → Nat → ℝ) (mem : Nat → AsciMem M) (fuel n : Nat) (hn : n < 2 ^ 64) (hPn : a.P ≤ n)
    (hf : a.P * 2 ^ (2 * M) < fuel) (h : GenState) (E0 : ℝ) (d : BitVec (2 * M)) (x : ℝ) (hc : a.asci.ncdetsMax ≠ 0)
    (K : List (BitVec (2 * M))) (hK : jointSearch a h n [d] E0 [x] = some (K ++ [d]))
    (hlow : ∀ i : Fin (K ++ [d]).length, (i : Nat) < K.length →
      ciFull a h (K ++ [d]) ⟨K.length, by simp⟩ ⟨K.length, by simp⟩ < ciFull a h (K ++ [d]) i i)
    (hrem : n % a.P ≠ 0) :
    ∃ st, AlwaysEnds (asciWorld a (fun r => iterProg a r fuel n (garbage r)) h E0 [d] [x] mem) st ∧
      ∀ r < a.P, (st r).err = false ∧ (st r).thrown = true := by
  have hlen := (search_all hb hP fuel n hn hf h E0 [d] [x] _ hK).1
  have hlen' : n = K.length + 1 := by rw [← hlen]; simp
  refine (C163_iteration_partial hb hP ht hm garbage mem fuel n hn hPn hf h E0 [d] [x]).2 ?_
  unfold asciIter
  dsimp only
  rw [if_neg (by simp)]
  dsimp only
  have hcore : [d].take (min a.asci.ncdetsMax [d].length) = [d] := by
    rw [List.take_of_length_le]
    simp only [List.length_singleton]
    omega
  rw [hcore, show (jointEnv a).search h n [d] E0 [x] = some (K ++ [d]) from hK]
  dsimp only
  have hfm : FirstMin (List.ofFn fun i => ciFull a h (K ++ [d]) i i) ((⟨K.length, by simp⟩ : Fin (K ++ [d]).length) : Nat) := by
    refine ⟨ciFull a h (K ++ [d]) ⟨K.length, by simp⟩ ⟨K.length, by simp⟩, ?_, ?_, ?_⟩
    · rw [List.getElem?_ofFn, dif_pos]
    · intro v hv
      obtain ⟨i, rfl⟩ := List.mem_ofFn.1 hv
      by_cases hi : (i : Nat) < K.length
      · exact (hlow i hi).le
      · have h2 : (i : Nat) < K.length + 1 := lt_of_lt_of_eq i.2 (by simp)
        have e : i = ⟨K.length, by simp⟩ := Fin.ext (show (i : Nat) = K.length by omega)
        rw [e]
    · intro j hj v hv
      have hj' : j < (K ++ [d]).length := by rw [List.length_append]; exact Nat.lt_add_right _ hj
      rw [List.getElem?_ofFn, dif_pos hj'] at hv
      cases hv
      exact hlow ⟨j, hj'⟩ hj
  have hz : distGuess a.P (fun i => ciFull a h (K ++ [d]) i i) = 0 := by
    refine distGuess_lost a.P _ hfm ?_
    show a.P * ((K ++ [d]).length / a.P) ≤ K.length
    have := Nat.div_add_mod n a.P
    rw [hlen]
    omega
  have hnone : jointDiag a h (K ++ [d]) = none := by
    unfold jointDiag
    rw [hz]
    rcases zero_guess_fails (ciFull a h (K ++ [d])) (fun i => ciFull a h (K ++ [d]) i i) a.ci.resTol a.eig hm with e | e <;> rw [e]
  rw [show (jointEnv a).diag h (K ++ [d]) = none from hnone]

/-- the natural-orbital rotation of the program changes no memory outside the integrals -/
theorem asciRotate_frame (syev : Nat → (Nat → ℝ) → Nat → (Nat → ℝ) × (Nat → ℝ)) (norb : Nat) (h : GenState)
    (wfn : List (BitVec (2 * 32))) (X : List ℝ) :
    (∀ i, norb * norb ≤ i → (asciRotate syev norb h wfn X).T i = h.T i) ∧
    ∀ i, norb * norb * norb * norb ≤ i → (asciRotate syev norb h wfn X).V i = h.V i := by
  unfold asciRotate
  constructor
  · intro i hi
    dsimp only
    unfold twoIndexTransform
    refine (gemm_spec true norb norb norb _ norb _ norb h.T 0 norb le_rfl).2 i ?_
    intro p q hp hq e
    have : p + q * norb < norb * norb := by nlinarith
    omega
  · intro i hi
    dsimp only
    unfold fourIndexTransform
    refine (gemm_spec false (norb * norb * norb) norb norb _ _ _ norb h.V 0 _ le_rfl).2 i ?_
    intro p q hp hq e
    have : p + q * (norb * norb * norb) < norb * norb * norb * norb := by nlinarith
    omega

end Macis
