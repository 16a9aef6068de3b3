import Verif.Lemmas.MpiIter2
/-! Lemmas for C163: `asci_grow` and `asci_refine` on several ranks. -/
namespace Macis
open Spec Spec.Mpi Mpi
variable {M : Nat}

theorem cast_reach (P o : Nat) (ho : o < P) (m : AsciMem M → AsciMsg M) (k : AsciMsg M → AsciMem M → AsciMem M)
    (s : Nat → AsciMem M) : Reach (ranks P (fun r => castProg P o r m k) s)
      (ranks P (fun _ => []) fun r => if r < P then (if r = o then s r else k (m (s o)) (s r)) else s r) := by
  refine cast ?_ (ranks_bcast P coll o ho m k (fun _ => []) s)
  congr 1
  apply ranks_congr
  intro r hr
  simp only [castProg, List.append_nil]

theorem rotate_reach {a : AsciPar M} (hb : Behaves a) (hP : 0 < a.P) (ht : 0 ≤ a.ci.matelTol) (hm : a.ci.maxSub ≠ 0)
    (garbage : Nat → Nat → Nat → ℝ) (h : GenState) (E0 : ℝ) (wfn : List (BitVec (2 * M))) (hw : a.P ≤ wfn.length) (X Es : List ℝ)
    (s : Nat → AsciMem M) (hs : AllHave a.P s h E0 wfn X Es) (E : ℝ) (hE : ∀ r < a.P, (s r).E = E) :
    match jointDiag a (a.rotate h wfn X) wfn with
    | some (_, X') => ∃ s',
        Reach (ranks a.P (fun r => rotateProg a r (garbage r)) s) (ranks a.P (fun _ => []) s') ∧
        AllHave a.P s' (a.rotate h wfn X) E0 wfn X' Es ∧ ∀ r < a.P, (s' r).E = E
    | none => ∃ s',
        Reach (ranks a.P (fun r => rotateProg a r (garbage r)) s) (ranks a.P (fun _ => []) s') ∧ AllThrew a.P s' := by
  set h' := a.rotate h wfn X with hh'
  have r1 := ranks_local (T := AsciMsg M) a.P (fun r => if r = 0 then [rotateRoot a] else []) s
  set s1 : Nat → AsciMem M := fun r => if r < a.P then runComps (if r = 0 then [rotateRoot a] else []) (s r) else s r with hs1
  have es10 : s1 0 = { s 0 with h := h' } := by
    simp only [hs1, hP, if_true, runComps, List.foldl_cons, List.foldl_nil, rotateRoot, hs.h 0 hP, hs.wfn 0 hP, hs.X 0 hP, hh']
  have es1 : ∀ r < a.P, r ≠ 0 → s1 r = s r := by
    intro r hr h0
    simp only [hs1, hr, if_true, h0, if_false, runComps, List.foldl_nil]
  have r2 := cast_reach a.P 0 hP (fun m : AsciMem M => .ints ((List.range (a.norb * a.norb)).map m.h.T)) (putT (a.norb * a.norb)) s1
  set s2 : Nat → AsciMem M := fun r => if r < a.P then (if r = 0 then s1 r else putT (a.norb * a.norb)
    (.ints ((List.range (a.norb * a.norb)).map (s1 0).h.T)) (s1 r)) else s1 r with hs2
  have es20 : s2 0 = { s 0 with h := h' } := by
    simp only [hs2, hP, if_true]; exact es10
  have es2 : ∀ r < a.P, r ≠ 0 → s2 r = { s r with h := ⟨h'.T, h.V⟩ } := by
    intro r hr h0
    simp only [hs2, hr, if_true, h0, if_false, es10, es1 r hr h0, putT, List.length_map, List.length_range, hs.h r hr]
    have : (fun i => if i < a.norb * a.norb then ((List.range (a.norb * a.norb)).map h'.T).getD i 0 else h.T i) = h'.T := by
      funext i
      split
      · rename_i hi
        exact getD_map_range _ _ hi
      · rename_i hi
        exact (hb.rotT h wfn X i (by omega)).symm
    rw [this]
    simp
  have r3 := cast_reach a.P 0 hP (fun m : AsciMem M => .ints ((List.range (a.norb * a.norb * a.norb * a.norb)).map m.h.V))
    (putV (a.norb * a.norb * a.norb * a.norb)) s2
  set s3 : Nat → AsciMem M := fun r => if r < a.P then (if r = 0 then s2 r else putV (a.norb * a.norb * a.norb * a.norb)
    (.ints ((List.range (a.norb * a.norb * a.norb * a.norb)).map (s2 0).h.V)) (s2 r)) else s2 r with hs3
  have es3 : ∀ r < a.P, s3 r = { s r with h := h' } := by
    intro r hr
    by_cases h0 : r = 0
    · subst h0
      simp only [hs3, hP, if_true]; exact es20
    · simp only [hs3, hr, if_true, h0, if_false, es20, es2 r hr h0, putV, List.length_map, List.length_range]
      have : (fun i => if i < a.norb * a.norb * a.norb * a.norb then ((List.range (a.norb * a.norb * a.norb * a.norb)).map h'.V).getD i 0
          else h.V i) = h'.V := by
        funext i
        split
        · rename_i hi
          exact getD_map_range _ _ hi
        · rename_i hi
          exact (hb.rotV h wfn X i (by omega)).symm
      rw [this]
      simp
  obtain ⟨s4, r4, es4⟩ := diag_reach hb hP ht hm garbage h' wfn hw s3 (fun r hr => by
        rw [es3 r hr]; exact ⟨rfl, hs.wfn r hr⟩)
  have hpre := fun (q : Nat → List (Instr (AsciMem M) (AsciMsg M))) s' (hq : Reach (ranks a.P q s4) (ranks a.P (fun _ => []) s')) =>
    ranks_seq a.P r1 (ranks_seq a.P r2 (ranks_seq a.P r3 (ranks_seq a.P r4 hq)))
  cases hd : jointDiag a h' wfn with
  | none =>
    dsimp only
    refine ⟨s4, hpre _ s4 (andThen_skip a.P (fun r => gatherProg a.P r) s4 ?_), ?_⟩
    · intro r hr
      obtain ⟨d, e⟩ := es4 r hr
      rw [hd] at e
      dsimp only at e
      rw [e]
    · intro r hr
      obtain ⟨d, e⟩ := es4 r hr
      rw [hd] at e
      dsimp only at e
      rw [e, es3 r hr]
      exact ⟨rfl, hs.err r hr⟩
  | some Ex =>
    obtain ⟨E', x⟩ := Ex
    dsimp only
    have es4' : ∀ r < a.P, ∃ d, s4 r = { s r with h := h', dav := d, diagE := E', Xl := pieceOf a.P x r } := by
      intro r hr
      obtain ⟨d, e⟩ := es4 r hr
      rw [hd] at e
      dsimp only at e
      refine ⟨d, ?_⟩
      rw [e.1, es3 r hr]
    have hxl : x.length = wfn.length := by
      obtain ⟨d, e⟩ := es4 0 (by omega)
      rw [hd] at e
      exact e.2
    obtain ⟨s5, r5, es5⟩ := gather_reach a.P (by omega) x s4
      (fun r hr => by obtain ⟨d, e⟩ := es4' r hr; rw [e]; dsimp only; rw [hs.wfn r hr]; exact hxl.symm)
      (fun r hr => by obtain ⟨d, e⟩ := es4' r hr; rw [e])
    refine ⟨_, hpre _ _ (andThen_go a.P (fun r => gatherProg a.P r) ?_ r5), ?_, ?_⟩
    · intro r hr
      obtain ⟨d, e⟩ := es4' r hr
      rw [e]; exact hs.thrown r hr
    · constructor <;> intro r hr <;> obtain ⟨d, e⟩ := es4' r hr <;> rw [es5 r hr, e]
      · exact hs.E0 r hr
      · exact hs.wfn r hr
      · exact hs.energies r hr
      · exact hs.thrown r hr
      · exact hs.err r hr
    · intro r hr
      obtain ⟨d, e⟩ := es4' r hr
      rw [es5 r hr, e]; exact hE r hr

/-- the program of all ranks takes the same branch -/
theorem branch_reach (P : Nat) (f : Nat → AsciMem M → List (Instr (AsciMem M) (AsciMsg M)))
    (p : Nat → List (Instr (AsciMem M) (AsciMsg M))) {s s' : Nat → AsciMem M} (h : ∀ r < P, f r (s r) = p r)
    (hr : Reach (ranks P p s) (ranks P (fun _ => []) s')) :
    Reach (ranks P (fun r => [.dyn (f r)]) s) (ranks P (fun _ => []) s') := by
  refine ranks_choice P f (cast ?_ hr)
  congr 1
  apply ranks_congr
  intro r hr
  exact (h r hr).symm

theorem throwing_reach (P : Nat) (s : Nat → AsciMem M) (he : ∀ r < P, (s r).err = false) :
    ∃ s', Reach (ranks (μ := AsciMsg M) P (fun _ => comps [throwing]) s) (ranks P (fun _ => []) s') ∧ AllThrew P s' := by
  refine ⟨_, ranks_local (T := AsciMsg M) P (fun _ => [throwing]) s, ?_⟩
  intro r hr
  simp only [hr, if_true, runComps, List.foldl_cons, List.foldl_nil, throwing]
  exact ⟨trivial, he r hr⟩

theorem growNext_reach (P : Nat) (s : Nat → AsciMem M) {h : GenState} {E0 : ℝ} {wfn : List (BitVec (2 * M))} {X Es : List ℝ}
    (hs : AllHave P s h E0 wfn X Es) {E : ℝ} (hE : ∀ r < P, (s r).E = E) :
    ∃ s', Reach (ranks (μ := AsciMsg M) P (fun _ => comps [growNext]) s) (ranks P (fun _ => []) s') ∧
      AllHave P s' h E wfn X Es := by
  refine ⟨_, ranks_local (T := AsciMsg M) P (fun _ => [growNext]) s, ?_⟩
  constructor <;> intro r hr <;> simp only [hr, if_true, runComps, List.foldl_cons, List.foldl_nil, growNext]
  · exact hs.h r hr
  · exact hE r hr
  · exact hs.wfn r hr
  · exact hs.X r hr
  · exact hs.energies r hr
  · exact hs.thrown r hr
  · exact hs.err r hr

theorem grow_reach {a : AsciPar M} (hb : Behaves a) (hP : 2 ≤ a.P) (ht : 0 ≤ a.ci.matelTol) (hm : a.ci.maxSub ≠ 0)
    (hmin : a.P ≤ a.asci.ntdetsMin) (hmax : a.P ≤ a.asci.ntdetsMax) (h64 : a.asci.ntdetsMax < 2 ^ 64)
    (garbage : Nat → Nat → Nat → Nat → ℝ) (fuel : Nat) (hf : a.P * 2 ^ (2 * M) < fuel) (Es : List ℝ) (rounds : Nat) :
    ∀ (st : GrowState (2 * M) ℝ GenState) (s : Nat → AsciMem M), AllHave a.P s st.h st.E0 st.wfn st.X Es →
    match growLoop (jointEnv a) a.asci rounds st with
    | .ok st' => ∃ s',
        Reach (ranks a.P (fun r => growProg a r fuel (garbage r) rounds) s) (ranks a.P (fun _ => []) s') ∧
        AllHave a.P s' st'.h st'.E0 st'.wfn st'.X Es
    | .throw => ∃ s',
        Reach (ranks a.P (fun r => growProg a r fuel (garbage r) rounds) s) (ranks a.P (fun _ => []) s') ∧ AllThrew a.P s'
    | _ => True := by
  induction rounds with
  | zero =>
    intro st s hs
    unfold growLoop
    by_cases hl : st.wfn.length < a.asci.ntdetsMax
    · rw [if_pos hl]; trivial
    · rw [if_neg hl]
      exact ⟨s, Reach.refl _, hs⟩
  | succ rounds ih =>
    intro st s hs
    unfold growLoop
    by_cases hl : st.wfn.length < a.asci.ntdetsMax
    swap
    · rw [if_neg hl]
      refine ⟨s, branch_reach a.P _ (fun _ => []) ?_ (Reach.refl _), hs⟩
      intro r hr
      rw [hs.wfn r hr, if_neg hl]
    rw [if_pos hl]
    dsimp only
    set n := ndetsNew a.asci st.wfn.length with hn
    have hnle : n ≤ a.asci.ntdetsMax := by rw [hn]; unfold ndetsNew; omega
    have hnge : a.P ≤ n := by rw [hn]; unfold ndetsNew; omega
    have hiter := asciIter_reach hb hP ht hm (fun r => garbage r (2 * rounds)) fuel n (by omega) hnge hf st.h st.E0 st.wfn st.X Es s hs
    set tail : Nat → List (Instr (AsciMem M) (AsciMsg M)) := fun r => [.dyn fun m =>
          if n > m.wfn.length then comps [throwing]
          else if a.asci.growWithRot ∧ m.wfn.length ≥ a.asci.rotSizeStart then
            rotateProg a r (garbage r (2 * rounds + 1)) ++ andThen (comps [growNext] ++ growProg a r fuel (garbage r) rounds)
          else comps [growNext] ++ growProg a r fuel (garbage r) rounds] with htail
    have hprog : ∀ s', Reach (ranks a.P (fun r => iterProg a r fuel n (garbage r (2 * rounds)) ++ andThen (tail r)) s)
        (ranks a.P (fun _ => []) s') →
        Reach (ranks a.P (fun r => growProg a r fuel (garbage r) (rounds + 1)) s) (ranks a.P (fun _ => []) s') := by
      intro s' h'
      refine branch_reach a.P _ _ ?_ h'
      intro r hr
      rw [hs.wfn r hr, if_pos hl]
    unfold growBody
    dsimp only
    rw [← hn]
    cases hI : asciIter (jointEnv a) a.asci n st.h st.E0 st.wfn st.X with
    | ub => trivial
    | timeout => trivial
    | throw =>
      rw [hI] at hiter
      obtain ⟨s1, r1, t1⟩ := hiter
      exact ⟨s1, hprog _ (ranks_seq a.P r1 (andThen_skip a.P tail s1 fun r hr => (t1 r hr).1)), t1⟩
    | ok v =>
      obtain ⟨E, w, X⟩ := v
      rw [hI] at hiter
      obtain ⟨hwl, s1, r1, hs1, hE1⟩ := hiter
      have hgo : ∀ s', Reach (ranks a.P tail s1) (ranks a.P (fun _ => []) s') →
          Reach (ranks a.P (fun r => growProg a r fuel (garbage r) (rounds + 1)) s) (ranks a.P (fun _ => []) s') :=
        fun s' h' => hprog _ (ranks_seq a.P r1 (andThen_go a.P tail (fun r hr => hs1.thrown r hr) h'))
      simp only [Run.bind]
      rw [if_neg (by omega)]
      by_cases hrot : a.asci.growWithRot ∧ w.length ≥ a.asci.rotSizeStart
      · rw [if_pos hrot]
        have hbr : ∀ s', Reach (ranks a.P (fun r => rotateProg a r (garbage r (2 * rounds + 1)) ++
            andThen (comps [growNext] ++ growProg a r fuel (garbage r) rounds)) s1) (ranks a.P (fun _ => []) s') →
            Reach (ranks a.P tail s1) (ranks a.P (fun _ => []) s') := by
          intro s' h'
          refine branch_reach a.P _ _ ?_ h'
          intro r hr
          rw [hs1.wfn r hr, if_neg (by omega), if_pos hrot]
        have hR := rotate_reach hb (by omega) ht hm (fun r => garbage r (2 * rounds + 1)) st.h st.E0 w (by omega) X Es s1 hs1 E hE1
        cases hd : (jointEnv a).diag ((jointEnv a).rotate st.h w X) w with
        | none =>
          rw [show jointDiag a (a.rotate st.h w X) w = none from hd] at hR
          obtain ⟨s2, r2, t2⟩ := hR
          exact ⟨s2, hgo _ (hbr _ (ranks_seq a.P r2 (andThen_skip a.P _ s2 fun r hr => (t2 r hr).1))), t2⟩
        | some Ex =>
          obtain ⟨E', x⟩ := Ex
          rw [show jointDiag a (a.rotate st.h w X) w = some (E', x) from hd] at hR
          obtain ⟨s2, r2, hs2, hE2⟩ := hR
          obtain ⟨s3, r3, hs3⟩ := growNext_reach a.P s2 hs2 hE2
          have := ih ⟨a.rotate st.h w X, E, w, x, st.reqs ++ [n]⟩ s3 hs3
          dsimp only
          have hre : ∀ s', Reach (ranks a.P (fun r => growProg a r fuel (garbage r) rounds) s3) (ranks a.P (fun _ => []) s') →
              Reach (ranks a.P (fun r => growProg a r fuel (garbage r) (rounds + 1)) s) (ranks a.P (fun _ => []) s') :=
            fun s' h' => hgo _ (hbr _ (ranks_seq a.P r2 (andThen_go a.P
              (fun r => comps [growNext] ++ growProg a r fuel (garbage r) rounds) (fun r hr => hs2.thrown r hr)
              (ranks_seq a.P r3 h'))))
          show match growLoop (jointEnv a) a.asci rounds ⟨a.rotate st.h w X, E, w, x, st.reqs ++ [n]⟩ with
            | .ok st' => _
            | .throw => _
            | _ => True
          cases hG : growLoop (jointEnv a) a.asci rounds ⟨a.rotate st.h w X, E, w, x, st.reqs ++ [n]⟩ with
          | ub => trivial
          | timeout => trivial
          | throw =>
            rw [hG] at this
            obtain ⟨s4, r4, t4⟩ := this
            exact ⟨s4, hre _ r4, t4⟩
          | ok st' =>
            rw [hG] at this
            obtain ⟨s4, r4, t4⟩ := this
            exact ⟨s4, hre _ r4, t4⟩
      · rw [if_neg hrot]
        have hbr : ∀ s', Reach (ranks a.P (fun r => comps [growNext] ++ growProg a r fuel (garbage r) rounds) s1)
            (ranks a.P (fun _ => []) s') → Reach (ranks a.P tail s1) (ranks a.P (fun _ => []) s') := by
          intro s' h'
          refine branch_reach a.P _ _ ?_ h'
          intro r hr
          rw [hs1.wfn r hr, if_neg (by omega), if_neg hrot]
        obtain ⟨s3, r3, hs3⟩ := growNext_reach a.P s1 hs1 hE1
        have := ih ⟨st.h, E, w, X, st.reqs ++ [n]⟩ s3 hs3
        have hre : ∀ s', Reach (ranks a.P (fun r => growProg a r fuel (garbage r) rounds) s3) (ranks a.P (fun _ => []) s') →
            Reach (ranks a.P (fun r => growProg a r fuel (garbage r) (rounds + 1)) s) (ranks a.P (fun _ => []) s') :=
          fun s' h' => hgo _ (hbr _ (ranks_seq a.P r3 h'))
        dsimp only
        cases hG : growLoop (jointEnv a) a.asci rounds ⟨st.h, E, w, X, st.reqs ++ [n]⟩ with
        | ub => trivial
        | timeout => trivial
        | throw =>
          rw [hG] at this
          obtain ⟨s4, r4, t4⟩ := this
          exact ⟨s4, hre _ r4, t4⟩
        | ok st' =>
          rw [hG] at this
          obtain ⟨s4, r4, t4⟩ := this
          exact ⟨s4, hre _ r4, t4⟩

theorem refine_reach {a : AsciPar M} (hb : Behaves a) (hP : 2 ≤ a.P) (ht : 0 ≤ a.ci.matelTol) (hm : a.ci.maxSub ≠ 0)
    (garbage : Nat → Nat → Nat → Nat → ℝ) (fuel ndets : Nat) (hf : a.P * 2 ^ (2 * M) < fuel) (hn : a.P ≤ ndets)
    (h64 : ndets < 2 ^ 64) (h : GenState) (rounds : Nat) :
    ∀ (E0 : ℝ) (past : List ℝ) (wfn : List (BitVec (2 * M))) (X : List ℝ) (s : Nat → AsciMem M),
    AllHave a.P s h E0 wfn X (E0 :: past) →
    match refineLoop (jointEnv a) a.asci h ndets rounds E0 past wfn X with
    | .ok (Es, wfn', X') => ∃ s', ∃ E,
        Reach (ranks a.P (fun r => refineProg a r fuel ndets (garbage r) rounds) s) (ranks a.P (fun _ => []) s') ∧
        AllHave a.P s' h E wfn' X' Es ∧ (∀ r < a.P, (s' r).E = E) ∧ Es.head? = some E
    | .throw => ∃ s',
        Reach (ranks a.P (fun r => refineProg a r fuel ndets (garbage r) rounds) s) (ranks a.P (fun _ => []) s') ∧ AllThrew a.P s'
    | _ => True := by
  induction rounds with
  | zero =>
    intro E0 past wfn X s hs
    exact throwing_reach a.P s hs.err
  | succ rounds ih =>
    intro E0 past wfn X s hs
    unfold refineLoop
    have hiter := asciIter_reach hb hP ht hm (fun r => garbage r rounds) fuel ndets h64 hn hf h E0 wfn X (E0 :: past) s hs
    set tail : Nat → List (Instr (AsciMem M) (AsciMsg M)) := fun r => [.dyn fun m =>
      if m.wfn.length ≠ ndets then comps [throwing]
      else if |m.E - m.E0| < a.asci.refineEnergyTol then comps [refineNext]
      else comps [refineNext] ++ refineProg a r fuel ndets (garbage r) rounds] with htail
    cases hI : asciIter (jointEnv a) a.asci ndets h E0 wfn X with
    | ub => trivial
    | timeout => trivial
    | throw =>
      rw [hI] at hiter
      obtain ⟨s1, r1, t1⟩ := hiter
      exact ⟨s1, ranks_seq a.P r1 (andThen_skip a.P tail s1 fun r hr => (t1 r hr).1), t1⟩
    | ok v =>
      obtain ⟨E, w, X1⟩ := v
      rw [hI] at hiter
      obtain ⟨hwl, s1, r1, hs1, hE1⟩ := hiter
      have hgo : ∀ s', Reach (ranks a.P tail s1) (ranks a.P (fun _ => []) s') →
          Reach (ranks a.P (fun r => refineProg a r fuel ndets (garbage r) (rounds + 1)) s) (ranks a.P (fun _ => []) s') :=
        fun s' h' => ranks_seq a.P r1 (andThen_go a.P tail (fun r hr => hs1.thrown r hr) h')
      have rn := ranks_local (T := AsciMsg M) a.P (fun _ => [refineNext]) s1
      set s2 : Nat → AsciMem M := fun r => if r < a.P then runComps [refineNext] (s1 r) else s1 r with hs2
      have hs2' : AllHave a.P s2 h E w X1 (E :: E0 :: past) ∧ ∀ r < a.P, (s2 r).E = E := by
        constructor
        · constructor <;> intro r hr <;> simp only [hs2, hr, if_true, runComps, List.foldl_cons, List.foldl_nil, refineNext]
          · exact hs1.h r hr
          · exact hE1 r hr
          · exact hs1.wfn r hr
          · exact hs1.X r hr
          · rw [hE1 r hr, hs1.energies r hr]
          · exact hs1.thrown r hr
          · exact hs1.err r hr
        · intro r hr
          simp only [hs2, hr, if_true, runComps, List.foldl_cons, List.foldl_nil, refineNext]
          exact hE1 r hr
      simp only [Run.bind]
      rw [if_neg (by simpa using hwl)]
      by_cases hc : |E - E0| < a.asci.refineEnergyTol
      · rw [if_pos hc]
        dsimp only
        refine ⟨s2, E, hgo _ (branch_reach a.P _ (fun _ => comps [refineNext]) ?_ rn), hs2'.1, hs2'.2, rfl⟩
        intro r hr
        rw [hs1.wfn r hr, if_neg (by simpa using hwl), hE1 r hr, hs1.E0 r hr, if_pos hc]
      · rw [if_neg hc]
        have := ih E (E0 :: past) w X1 s2 hs2'.1
        have hre : ∀ s', Reach (ranks a.P (fun r => refineProg a r fuel ndets (garbage r) rounds) s2) (ranks a.P (fun _ => []) s') →
            Reach (ranks a.P (fun r => refineProg a r fuel ndets (garbage r) (rounds + 1)) s) (ranks a.P (fun _ => []) s') := by
          intro s' h'
          refine hgo _ (branch_reach a.P _ (fun r => comps [refineNext] ++ refineProg a r fuel ndets (garbage r) rounds) ?_
            (ranks_seq a.P rn h'))
          intro r hr
          rw [hs1.wfn r hr, if_neg (by simpa using hwl), hE1 r hr, hs1.E0 r hr, if_neg hc]
        cases hG : refineLoop (jointEnv a) a.asci h ndets rounds E (E0 :: past) w X1 with
        | ub => trivial
        | timeout => trivial
        | throw =>
          rw [hG] at this
          obtain ⟨s4, r4, t4⟩ := this
          exact ⟨s4, hre _ r4, t4⟩
        | ok v =>
          obtain ⟨Es, w', X'⟩ := v
          rw [hG] at this
          obtain ⟨s4, E4, r4, t4⟩ := this
          exact ⟨s4, E4, hre _ r4, t4⟩

end Macis
