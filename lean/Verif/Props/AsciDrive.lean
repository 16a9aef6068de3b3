import Verif.Lemmas.AsciDrive
import Verif.Lemmas.Dist
/-! Properties C31, C32, C67-C70: the ASCI drivers (`asci/iteration.hpp`, `asci/grow.hpp`,
`asci/refine.hpp`). -/
namespace Macis
open Spec
variable {N : Nat} {R H : Type} [AddCommGroup R] [LinearOrder R]

theorem serialSearch_contract [IsOrderedAddMonoid R] {srt part : List (Contrib N R) → List (Contrib N R)}
    {nth : Nat → List (Contrib N R) → List (Contrib N R)}
    (hs : SortsBy (fun x y => bitsetLess x.state y.state) srt) (hp : Rearranges part)
    (hn : NthElement (fun p : Contrib N R => |p.rv|) nth)
    (contribs : H → List (BitVec N) → R → List R → List (Contrib N R)) :
    SearchContract (serialSearch srt part nth contribs) := by
  intro h nmax cdets E C h1 h2 h3 h4
  obtain ⟨K, k1, -, k3, k4⟩ := C28_search hs hp hn nmax cdets C (contribs h cdets E C) h2 h3 h4 h1
  exact ⟨K, k1, k3, k4⟩

theorem growLoop_spec {env : AsciEnv N R H} (hs : SortsCoeffs env.srtIdx)
    (hse : SearchContract env.search) (hd : DiagContract env.diag) (s : AsciSettings R)
    (hgf : 2 ≤ s.growFactor) (h64 : s.ntdetsMax * s.growFactor < 2 ^ 64) :
    ∀ (fuel : Nat) (st : GrowState N R H), st.X.length = st.wfn.length → st.wfn.Nodup → st.wfn ≠ [] →
      st.wfn.length ≤ s.ntdetsMax → s.ntdetsMax - st.wfn.length ≤ fuel →
    growLoop env s fuel st = .throw ∨
    ∃ st' l, growLoop env s fuel st = .ok st' ∧ st'.reqs = st.reqs ++ l ∧
      (st.wfn.length :: l).Pairwise (· < ·) ∧ (∀ r ∈ l, r ≤ s.ntdetsMax) ∧
      st'.wfn.length = s.ntdetsMax ∧ st'.wfn.Nodup ∧ st'.X.length = st'.wfn.length := by
  intro fuel
  induction fuel with
  | zero =>
    intro st h1 h2 h3 h4 h5
    right
    refine ⟨st, [], ?_, by simp, by simp, by simp, by omega, h2, h1⟩
    unfold growLoop
    rw [if_neg (by omega)]
  | succ fuel ih =>
    intro st h1 h2 h3 h4 h5
    have hpos : 0 < st.wfn.length := List.length_pos_iff.2 h3
    unfold growLoop
    by_cases hlt : st.wfn.length < s.ntdetsMax
    · rw [if_pos hlt]
      dsimp only
      rcases growBody_orderly hs hse hd s (by omega) h64 st h1 h2 hlt with h | ⟨st1, e1, e2, e3, e4, e5⟩
      · left; rw [h]; rfl
      · have hmul : st.wfn.length * s.growFactor < 2 ^ 64 :=
          lt_of_le_of_lt (Nat.mul_le_mul_right _ hlt.le) h64
        have h2x : st.wfn.length * 2 ≤ st.wfn.length * s.growFactor := Nat.mul_le_mul_left _ hgf
        have hN : st.wfn.length < ndetsNew s st.wfn.length ∧ ndetsNew s st.wfn.length ≤ s.ntdetsMax := by
          unfold ndetsNew
          rw [Nat.mod_eq_of_lt hmul]
          omega
        rw [e1]
        dsimp only [Run.bind]
        rcases ih st1 e2 e3 (by rw [← List.length_pos_iff]; omega) (by omega) (by omega) with
          h | ⟨st', l, f1, f2, f3, f4, f5, f6, f7⟩
        · left; exact h
        · right
          refine ⟨st', ndetsNew s st.wfn.length :: l, f1, by rw [f2, e5]; simp, ?_, ?_, f5, f6, f7⟩
          · rw [e4] at f3
            refine List.pairwise_cons.2 ⟨?_, f3⟩
            intro r hr
            rcases List.mem_cons.1 hr with rfl | hr
            · exact hN.1
            · exact hN.1.trans ((List.pairwise_cons.1 f3).1 r hr)
          · intro r hr
            rcases List.mem_cons.1 hr with rfl | hr
            · exact hN.2
            · exact f4 r hr
    · rw [if_neg hlt]
      right
      exact ⟨st, [], rfl, by simp, by simp, by simp, by omega, h2, h1⟩

/-- C31: with a growth factor of at least two (and sizes that do not overflow `size_t`) the growth
loop on one rank ends after at most `ntdets_max - |wfn|` rounds, by an exception or with exactly
`ntdets_max` distinct determinants and as many coefficients; the sizes requested strictly increase,
starting above the initial size, and never exceed `ntdets_max`.  For every Hamiltonian, every
contribution list, every diagonaliser and every behaviour of the library sorts. -/
theorem C31_grow [IsOrderedAddMonoid R] {env : AsciEnv N R H} {srt part : List (Contrib N R) → List (Contrib N R)}
    {nth : Nat → List (Contrib N R) → List (Contrib N R)}
    {contribs : H → List (BitVec N) → R → List R → List (Contrib N R)}
    (henv : env.search = serialSearch srt part nth contribs)
    (hs : SortsBy (fun x y => bitsetLess x.state y.state) srt) (hp : Rearranges part)
    (hn : NthElement (fun p : Contrib N R => |p.rv|) nth) (hc : SortsCoeffs env.srtIdx)
    (hd : DiagContract env.diag) (s : AsciSettings R) (hgf : 2 ≤ s.growFactor)
    (h64 : s.ntdetsMax * s.growFactor < 2 ^ 64) (h : H) (E0 : R) (wfn : List (BitVec N)) (X : List R)
    (hX : X.length = wfn.length) (hnd : wfn.Nodup) (hne : wfn ≠ []) (hle : wfn.length ≤ s.ntdetsMax)
    (fuel : Nat) (hf : s.ntdetsMax - wfn.length ≤ fuel) :
    Orderly (asciGrow env s fuel h E0 wfn X) ∧
    ∀ st, asciGrow env s fuel h E0 wfn X = .ok st →
      st.wfn.length = s.ntdetsMax ∧ st.wfn.Nodup ∧ st.X.length = st.wfn.length ∧
      (wfn.length :: st.reqs).Pairwise (· < ·) ∧ ∀ r ∈ st.reqs, r ≤ s.ntdetsMax := by
  have hse : SearchContract env.search := henv ▸ serialSearch_contract hs hp hn contribs
  rcases growLoop_spec hc hse hd s hgf h64 fuel ⟨h, E0, wfn, X, []⟩ hX hnd hne hle hf with
    e | ⟨st', l, e, f2, f3, f4, f5, f6, f7⟩
  · exact ⟨.inr e, fun st hst => by rw [asciGrow, e] at hst; cases hst⟩
  · refine ⟨.inl ⟨_, e⟩, fun st hst => ?_⟩
    rw [asciGrow, e] at hst
    cases hst
    have : st'.reqs = l := by simpa using f2
    rw [this]
    exact ⟨f5, f6, f7, f3, f4⟩

/-- A wave function that is large enough is returned as it is. -/
theorem C31_no_growth_needed (env : AsciEnv N R H) (s : AsciSettings R) (fuel : Nat) (h : H) (E0 : R)
    (wfn : List (BitVec N)) (X : List R) (hge : s.ntdetsMax ≤ wfn.length) :
    asciGrow env s fuel h E0 wfn X = .ok ⟨h, E0, wfn, X, []⟩ := by
  unfold asciGrow growLoop
  rw [if_neg (by dsimp only; omega)]

/-- a small search space: every determinant gets the score 1 + (its value) from the core -/
def exEnv : AsciEnv 4 Int Unit where
  srtIdx C := List.insertionSort fun i j => |C.getD j 0| ≤ |C.getD i 0|
  search := serialSearch exSort id (fun _ => List.insertionSort fun x y => |y.rv| ≤ |x.rv|)
    fun _ _ _ _ => (List.range 12).map fun i => ⟨BitVec.ofNat 4 i, 1 + i⟩
  diag _ w := some (-w.length, w.map fun x => x.toNat)
  rotate h _ _ := h

def exSettings : AsciSettings Int where
  ntdetsMax := 7
  ntdetsMin := 2
  ncdetsMax := 2
  growFactor := 2
  maxRefineIter := 5
  refineEnergyTol := 1
  growWithRot := false
  rotSizeStart := 0

example : asciGrow exEnv exSettings 10 () 0 [3#4] [1]
    = .ok ⟨(), -7, [9, 8, 7, 6, 5, 11, 10], [9, 8, 7, 6, 5, 11, 10], [2, 4, 7]⟩ := by decide +kernel

/-- the hypotheses of C31 are met by the example -/
example : SortsCoeffs exEnv.srtIdx ∧ DiagContract exEnv.diag := by
  constructor
  · intro C l
    refine ⟨List.perm_insertionSort _ _, ?_⟩
    have : Std.Total (fun i j : Nat => |C.getD j 0| ≤ |C.getD i 0|) := ⟨fun x y => le_total _ _⟩
    have : IsTrans Nat (fun i j : Nat => |C.getD j 0| ≤ |C.getD i 0|) := ⟨fun x y z h1 h2 => le_trans h2 h1⟩
    refine (List.pairwise_insertionSort (fun i j : Nat => |C.getD j 0| ≤ |C.getD i 0|) l).imp ?_
    intro x y hxy
    simpa using hxy
  · intro h w E X e
    simp only [exEnv, Option.some.injEq, Prod.mk.injEq] at e
    rw [← e.2]; simp

/-- C67 (growth with a factor of 0 or 1): what still holds is that a normal return has at least the
target size. -/
theorem C67_result_size_partial (env : AsciEnv N R H) (s : AsciSettings R) (fuel : Nat) (h : H) (E0 : R)
    (wfn : List (BitVec N)) (X : List R) (st : GrowState N R H)
    (hok : asciGrow env s fuel h E0 wfn X = .ok st) : s.ntdetsMax ≤ st.wfn.length := by
  unfold asciGrow at hok
  generalize (⟨h, E0, wfn, X, []⟩ : GrowState N R H) = st0 at hok
  induction fuel generalizing st0 with
  | zero =>
    unfold growLoop at hok
    split_ifs at hok with hc
    cases hok; omega
  | succ fuel ih =>
    unfold growLoop at hok
    split_ifs at hok with hc
    · dsimp only at hok
      cases hb : growBody env s st0 with
      | ok st1 => rw [hb] at hok; exact ih st1 hok
      | throw => rw [hb] at hok; cases hok
      | ub => rw [hb] at hok; cases hok
      | timeout => rw [hb] at hok; cases hok
    · cases hok; omega

theorem growLoop_step (env : AsciEnv N R H) (s : AsciSettings R) (fuel : Nat) (st : GrowState N R H)
    (h : st.wfn.length < s.ntdetsMax) :
    growLoop env s (fuel + 1) st = (growBody env s st).bind (growLoop env s fuel) := by
  conv_lhs => unfold growLoop
  rw [if_pos h]

def exSettings1 : AsciSettings Int := { exSettings with growFactor := 1 }

/-- C67 is violated: with growth factor 1 and a wave function of `ntdets_min` determinants the loop
never ends, whatever number of rounds it is given. -/
theorem C67_factor_one_refuted : ∀ fuel,
    asciGrow exEnv exSettings1 fuel () (-2) [11#4, 10#4] [11, 10] = .timeout := by
  have key : asciIter exEnv exSettings1 2 () (-2) [11#4, 10#4] [11, 10]
    = .ok (-2, [11#4, 10#4], [11, 10]) := by decide +kernel
  have hn : ndetsNew exSettings1 2 = 2 := by decide +kernel
  have hb' : ∀ l, growBody exEnv exSettings1 ⟨(), -2, [11#4, 10#4], [11, 10], l⟩
      = .ok ⟨(), -2, [11#4, 10#4], [11, 10], l ++ [2]⟩ := by
    intro l
    unfold growBody
    dsimp only [List.length_cons, List.length_nil, Nat.reduceAdd]
    rw [hn, key]
    dsimp only [Run.bind]
    rw [if_neg (by decide), if_neg (by decide)]
  intro fuel
  unfold asciGrow
  generalize ([] : List Nat) = l
  induction fuel generalizing l with
  | zero => unfold growLoop; rw [if_pos (by dsimp only; decide)]
  | succ fuel ih =>
    rw [growLoop_step _ _ _ _ (by dsimp only; decide), hb']
    exact ih _

theorem refineLoop_spec {env : AsciEnv N R H} (hs : SortsCoeffs env.srtIdx)
    (hse : SearchContract env.search) (hd : DiagContract env.diag) (s : AsciSettings R) (h : H) (ndets : Nat)
    (h64 : ndets < 2 ^ 64) :
    ∀ (n : Nat) (E0 : R) (past : List R) (wfn : List (BitVec N)) (X : List R),
      X.length = wfn.length → wfn.Nodup → wfn.length = ndets →
      (E0 :: past).IsChain (fun a b => s.refineEnergyTol ≤ |a - b|) →
    refineLoop env s h ndets n E0 past wfn X = .throw ∨
    ∃ E Ep l w Y, refineLoop env s h ndets n E0 past wfn X = .ok (E :: Ep :: l, w, Y) ∧
      |E - Ep| < s.refineEnergyTol ∧ (Ep :: l).IsChain (fun a b => s.refineEnergyTol ≤ |a - b|) ∧
      (E0 :: past) <:+ (Ep :: l) ∧ l.length < past.length + n ∧
      w.length = ndets ∧ w.Nodup ∧ env.diag h w = some (E, Y) := by
  intro n
  induction n with
  | zero => intro E0 past wfn X _ _ _ _; left; rfl
  | succ n ih =>
    intro E0 past wfn X h1 h2 h3 h4
    unfold refineLoop
    rcases asciIter_orderly hs hse hd s ndets h E0 wfn X h1 h2 (by omega) h64 with
      e | ⟨E, w, Y, e1, e2, e3, e4, e5⟩
    · left; rw [e]; rfl
    · rw [e1]
      dsimp only [Run.bind]
      by_cases hsz : w.length = ndets
      · rw [if_neg (by simpa using hsz)]
        by_cases hc : |E - E0| < s.refineEnergyTol
        · rw [if_pos hc]
          right
          exact ⟨E, E0, past, w, Y, rfl, hc, h4, List.suffix_rfl, by omega, hsz, e3, e2⟩
        · rw [if_neg hc]
          rcases ih E (E0 :: past) w Y e5 e3 hsz (List.isChain_cons_cons.2 ⟨not_lt.1 hc, h4⟩) with
            g | ⟨F, Fp, l, w', Y', g1, g2, g3, g4, g5, g6⟩
          · left; exact g
          · right
            exact ⟨F, Fp, l, w', Y', g1, g2, g3, (List.suffix_cons _ _).trans g4,
              by rw [List.length_cons] at g5; omega, g6⟩
      · left; rw [if_pos (by simpa using hsz)]

/-- C32: on one rank `asci_refine` ends by an exception or returns normally.  In the latter case the
last energy change is below the tolerance, every earlier one was not, at most `max_refine_iter`
iterations were made, the number of determinants is that of the input, and energy and coefficients
are those of the returned determinants. -/
theorem C32_refine [IsOrderedAddMonoid R] {env : AsciEnv N R H} {srt part : List (Contrib N R) → List (Contrib N R)}
    {nth : Nat → List (Contrib N R) → List (Contrib N R)}
    {contribs : H → List (BitVec N) → R → List R → List (Contrib N R)}
    (henv : env.search = serialSearch srt part nth contribs)
    (hs : SortsBy (fun x y => bitsetLess x.state y.state) srt) (hp : Rearranges part)
    (hn : NthElement (fun p : Contrib N R => |p.rv|) nth) (hc : SortsCoeffs env.srtIdx)
    (hd : DiagContract env.diag) (s : AsciSettings R) (h : H) (E0 : R) (wfn : List (BitVec N)) (X : List R)
    (hX : X.length = wfn.length) (hnd : wfn.Nodup) (h64 : wfn.length < 2 ^ 64) :
    Orderly (asciRefine env s h E0 wfn X) ∧
    ∀ Es w Y, asciRefine env s h E0 wfn X = .ok (Es, w, Y) →
      ∃ E Eprev earlier, Es = E :: Eprev :: earlier ∧ |E - Eprev| < s.refineEnergyTol ∧
        (Eprev :: earlier).IsChain (fun a b => s.refineEnergyTol ≤ |a - b|) ∧ Es.getLast? = some E0 ∧
        Es.length - 1 ≤ s.maxRefineIter ∧
        w.length = wfn.length ∧ w.Nodup ∧ env.diag h w = some (E, Y) := by
  have hse : SearchContract env.search := henv ▸ serialSearch_contract hs hp hn contribs
  unfold asciRefine
  rcases refineLoop_spec hc hse hd s h wfn.length h64 s.maxRefineIter E0 [] wfn X hX hnd rfl
    (List.isChain_singleton _) with e | ⟨E, Ep, l, w, Y, e, g2, g3, g4, g5, g6⟩
  · exact ⟨.inr e, fun Es w Y hok => by rw [e] at hok; cases hok⟩
  · refine ⟨.inl ⟨_, e⟩, fun Es w Y hok => ?_⟩
    rw [e] at hok
    cases hok
    obtain ⟨t, ht⟩ := g4
    refine ⟨E, Ep, l, rfl, g2, g3, ?_, ?_, g6⟩
    · rw [← ht]; simp [List.getLast?_cons, List.getLast?_append]
    · simp at g5 ⊢; omega

/-- With `max_refine_iter = 0` the call always throws. -/
theorem C32_no_iterations (env : AsciEnv N R H) (s : AsciSettings R) (h : H) (E0 : R) (wfn : List (BitVec N))
    (X : List R) (h0 : s.maxRefineIter = 0) : asciRefine env s h E0 wfn X = .throw := by
  unfold asciRefine; rw [h0]; rfl

example : asciRefine exEnv { exSettings with ncdetsMax := 1 } () 0 [3#4, 5#4] [1, 2]
    = .ok ([-2, -2, 0], [10, 11], [10, 11]) := by
  decide +kernel

/-- C68: one ASCI iteration on one rank keeps the `min(ncdets_max, |wfn|)` determinants of largest
absolute coefficient as core, adds a best choice of the candidates scored from that core, has no
repetitions and at most `ndets_max` determinants, and returns the energy and coefficients the
diagonalisation gives for exactly these determinants. -/
theorem C68_iteration [IsOrderedAddMonoid R] {env : AsciEnv N R H} {srt part : List (Contrib N R) → List (Contrib N R)}
    {nth : Nat → List (Contrib N R) → List (Contrib N R)}
    {contribs : H → List (BitVec N) → R → List R → List (Contrib N R)}
    (henv : env.search = serialSearch srt part nth contribs)
    (hs : SortsBy (fun x y => bitsetLess x.state y.state) srt) (hp : Rearranges part)
    (hn : NthElement (fun p : Contrib N R => |p.rv|) nth) (hc : SortsCoeffs env.srtIdx)
    (s : AsciSettings R) (ndetsMax : Nat) (h : H) (E0 : R) (wfn : List (BitVec N)) (X : List R)
    (hX : X.length = wfn.length) (hnd : wfn.Nodup)
    (hmax : min s.ncdetsMax wfn.length ≤ ndetsMax) (h64 : ndetsMax < 2 ^ 64) :
    ∃ (w : List (BitVec N)) (C : List R) (K : List (BitVec N)), (w.zip C).Perm (wfn.zip X) ∧ C.length = w.length ∧ (C.Pairwise fun x y => |y| ≤ |x|) ∧
      let core := w.take (min s.ncdetsMax wfn.length)
      let cs := contribs h core E0 C
      BestOf (Candidate cs core) (fun d => |totalScore cs d|) (ndetsMax - core.length) K ∧
      (K ++ core).Nodup ∧ (K ++ core).length ≤ ndetsMax ∧
      asciIter env s ndetsMax h E0 wfn X = match env.diag h (K ++ core) with
        | some (E, Y) => .ok (E, K ++ core, Y)
        | none => .throw := by
  obtain ⟨w', X', e1, l1, l2, hp', hpw⟩ := sorted_wfn hc hX
  have hnd' : w'.Nodup := (perm_of_zip_perm hp' (by omega) (by omega)).nodup_iff.2 hnd
  obtain ⟨K, k1, k2, k3, k4⟩ := C28_search hs hp hn ndetsMax (w'.take (min s.ncdetsMax wfn.length)) X'
    (contribs h (w'.take (min s.ncdetsMax wfn.length)) E0 X') (by simp; omega) (by simp; omega) h64
    (hnd'.sublist (List.take_sublist _ _))
  refine ⟨w', X', K, hp', by omega, hpw, k2, k3, k4, ?_⟩
  unfold asciIter
  dsimp only
  rw [e1]
  dsimp only
  rw [henv, l1]
  unfold serialSearch
  rw [k1]
  dsimp only
  cases env.diag h (K ++ w'.take (min s.ncdetsMax wfn.length)) <;> rfl

/-- C69: without orbital rotation the energy and coefficients returned by a growth that made at least
one round are those of the returned determinants under the returned Hamiltonian. -/
theorem C69_energy_consistent_partial (env : AsciEnv N R H) (s : AsciSettings R) (hrot : s.growWithRot = false)
    (fuel : Nat) (h : H) (E0 : R) (wfn : List (BitVec N)) (X : List R) (st : GrowState N R H)
    (hok : asciGrow env s fuel h E0 wfn X = .ok st) (hlt : wfn.length < s.ntdetsMax) :
    st.h = h ∧ env.diag st.h st.wfn = some (st.E0, st.X) := by
  unfold asciGrow at hok
  have key : ∀ fuel (st0 : GrowState N R H), growLoop env s fuel st0 = .ok st →
      (st0.wfn.length < s.ntdetsMax ∨ env.diag st0.h st0.wfn = some (st0.E0, st0.X)) →
      st.h = st0.h ∧ env.diag st.h st.wfn = some (st.E0, st.X) := by
    intro fuel
    induction fuel with
    | zero =>
      intro st0 hok hd
      unfold growLoop at hok
      split_ifs at hok with hc
      cases hok
      exact ⟨rfl, hd.resolve_left hc⟩
    | succ fuel ih =>
      intro st0 hok hd
      unfold growLoop at hok
      split_ifs at hok with hc
      · dsimp only at hok
        have hb : ∀ st1, growBody env s st0 = .ok st1 →
            st1.h = st0.h ∧ env.diag st1.h st1.wfn = some (st1.E0, st1.X) := by
          intro st1 hst1
          unfold growBody asciIter at hst1
          dsimp only at hst1
          split at hst1
          · cases hst1
          · rename_i w' X' _
            split at hst1
            · cases hst1
            · rename_i w2 _
              cases hdg : env.diag st0.h w2 with
              | none => rw [hdg] at hst1; cases hst1
              | some r =>
                rw [hdg] at hst1
                dsimp only [Run.bind] at hst1
                split_ifs at hst1 with c1 c2
                · rw [hrot] at c2; cases c2.1
                · cases hst1; exact ⟨rfl, hdg⟩
        cases hb' : growBody env s st0 with
        | ok st1 =>
          rw [hb'] at hok
          obtain ⟨a, b⟩ := hb st1 hb'
          obtain ⟨c, d⟩ := ih st1 hok (.inr b)
          exact ⟨c.trans a, d⟩
        | throw => rw [hb'] at hok; cases hok
        | ub => rw [hb'] at hok; cases hok
        | timeout => rw [hb'] at hok; cases hok
      · cases hok
        exact ⟨rfl, hd.resolve_left hc⟩
  exact key fuel _ hok (.inl hlt)

/-- C69 is violated with orbital rotation: the energy returned is that of the Hamiltonian before the
last rotation (here every rotation lowers the energy by 100). -/
def exRotEnv : AsciEnv 4 Int Int where
  srtIdx := exEnv.srtIdx
  search _ := exEnv.search ()
  diag h w := some (h - w.length, w.map fun x => x.toNat)
  rotate h _ _ := h - 100

theorem C69_rotation_refuted :
    ∃ st, asciGrow exRotEnv { exSettings with growWithRot := true } 10 0 0 [3#4] [1] = .ok st ∧
      st.E0 = -207 ∧ (exRotEnv.diag st.h st.wfn).map (·.1) = some (-307) :=
  ⟨⟨-300, -207, [9, 8, 7, 6, 5, 11, 10], [9, 8, 7, 6, 5, 11, 10], [2, 4, 7]⟩,
    by decide +kernel, by decide +kernel, by decide +kernel⟩

theorem writeAt_prefix {α : Type} (buf x : List α) (k m : Nat) (hl : buf.length = x.length)
    (hpre : buf.take k = x.take k) (hkm : k + m ≤ x.length) :
    (writeAt buf k ((x.drop k).take m)).length = x.length ∧
    (writeAt buf k ((x.drop k).take m)).take (k + m) = x.take (k + m) := by
  have hlen : ((x.drop k).take m).length = m := by simp; omega
  have hA : (x.take k ++ (x.drop k).take m) = x.take (k + m) := by
    rw [List.take_add]
  constructor
  · unfold writeAt
    simp only [List.length_append, List.length_take, List.length_drop, hlen]
    omega
  · unfold writeAt
    rw [hpre, hA, List.take_append_of_le_length (by simp; omega), List.take_take, min_self]

/-- C70: gathering the CI vector from the ranks gives every rank the whole vector, for every length,
every number of ranks and whatever the receiving vector held before. -/
theorem C70_gather {α : Type} (zero : α) (x old : List α) (W : Nat) (hW : 0 < W) :
    gatherX zero x.length
      ((defaultExtents x.length W).map fun t => (x.drop t.1).take (t.2 - t.1)) old = some x := by
  rw [defaultExtents_eq _ _ hW, List.map_map]
  set n := x.length with hn
  set lc := n / W with hlc
  have hdm : W * lc + n % W = n := Nat.div_add_mod n W
  set loc : Nat → List α := fun r => (x.drop (r * lc)).take ((if r + 1 = W then n else (r + 1) * lc) - r * lc)
    with hloc
  have hrW : ∀ r, r < W → (r + 1) * lc ≤ W * lc := fun r hr => Nat.mul_le_mul_right _ hr
  have hext : ∀ r, r < W → r * lc + lc ≤ (if r + 1 = W then n else (r + 1) * lc) ∧
      (if r + 1 = W then n else (r + 1) * lc) ≤ n := by
    intro r hr
    have h1 := hrW r hr
    rw [Nat.succ_mul] at h1
    split
    · omega
    · rw [Nat.succ_mul]; omega
  have hlen : ∀ r, r < W → (loc r).length = (if r + 1 = W then n else (r + 1) * lc) - r * lc := by
    intro r hr
    have := hext r hr
    simp only [hloc, List.length_take, List.length_drop]
    omega
  have htake : ∀ r, r < W → (loc r).take lc = (x.drop (r * lc)).take lc := by
    intro r hr
    have := hext r hr
    simp only [hloc, List.take_take]
    congr 1; omega
  have hmap : (List.range W).map ((fun t : Nat × Nat => (x.drop t.1).take (t.2 - t.1)) ∘
      fun r => (r * lc, if r + 1 = W then n else (r + 1) * lc)) = (List.range W).map loc := rfl
  rw [hmap]
  have hget : ∀ r, r < W → ((List.range W).map loc).getD r [] = loc r := by
    intro r hr
    simp [List.getD, hr]
  unfold gatherX
  simp only [List.length_map, List.length_range]
  rw [← hlc, if_neg]
  · have hfold : ∀ k, k ≤ W → ∀ buf : List α, buf.length = n →
        ((List.range k).foldl (fun X r => writeAt X (r * lc) ((((List.range W).map loc).getD r []).take lc)) buf).length = n ∧
        ((List.range k).foldl (fun X r => writeAt X (r * lc) ((((List.range W).map loc).getD r []).take lc)) buf).take (k * lc)
          = x.take (k * lc) := by
      intro k
      induction k with
      | zero => intro _ buf hb; exact ⟨hb, by simp⟩
      | succ k ih =>
        intro hk buf hb
        obtain ⟨i1, i2⟩ := ih (by omega) buf hb
        rw [List.range_succ, List.foldl_append, List.foldl_cons, List.foldl_nil, hget k (by omega), htake k (by omega)]
        have h1 := hrW k (by omega)
        rw [Nat.succ_mul] at h1 ⊢
        exact writeAt_prefix _ x _ _ i1 i2 (by omega)
    obtain ⟨f1, f2⟩ := hfold W le_rfl ((old ++ List.replicate (n - old.length) zero).take n)
      (by simp; omega)
    by_cases hr : n % W = 0
    · rw [if_neg (by simpa using hr)]
      rw [hr, Nat.add_zero] at hdm
      rw [hdm, List.take_of_length_le (by omega), hn, List.take_length] at f2
      rw [f2]
    · rw [if_pos hr, hget (W - 1) (by omega)]
      have hlast := hlen (W - 1) (by omega)
      rw [if_pos (by omega)] at hlast
      have hWm : (W - 1) * lc + lc = W * lc := by
        obtain ⟨k, rfl⟩ : ∃ k, W = k + 1 := ⟨W - 1, by omega⟩
        rw [Nat.add_sub_cancel, Nat.succ_mul]
      rw [if_neg (by omega)]
      have hdrop : ((loc (W - 1)).drop lc).take (n % W) = (x.drop (W * lc)).take (n % W) := by
        simp only [hloc]
        rw [if_pos (by omega), List.drop_take, List.drop_drop, hWm, List.take_take]
        congr 1; omega
      rw [hdrop]
      obtain ⟨g1, g2⟩ := writeAt_prefix _ x (W * lc) (n % W) f1 f2 (by omega)
      rw [hdm, List.take_of_length_le (by omega), hn, List.take_length] at g2
      rw [g2]
  · simp only [List.any_eq_true, List.mem_map, List.mem_range, decide_eq_true_eq, not_exists, not_and]
    rintro _ ⟨r, hr, rfl⟩
    have := hext r hr
    rw [hlen r hr]
    omega

example : gatherX 0 7 ((defaultExtents 7 3).map fun t => (([1, 2, 3, 4, 5, 6, 7] : List Int).drop t.1).take (t.2 - t.1)) [9]
    = some [1, 2, 3, 4, 5, 6, 7] := by decide +kernel

end Macis
