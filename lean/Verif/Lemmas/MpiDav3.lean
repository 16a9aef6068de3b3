import Verif.Lemmas.MpiDav2
import Verif.Lemmas.MpiStick
/-! `parallel_selected_ci_diag` when the ranks disagree about the guess. -/
namespace Macis.Mpi
open Spec Spec.Mpi

/-- the rank has detected an error -/
def HasErr (x : DavSt) : Prop := x.2.err = true

theorem keeps_reduce (P : Nat) (f : DavMem → List ℝ) : keepsL HasErr (reduceProg P f) := by
  simp only [reduceProg, keepsL_append]
  refine ⟨keepsL_comps _ _ ?_, keepsL_isends _ _ _, keepsL_recvs _ _ _ ?_⟩
  · intro g hg x hx
    obtain rfl := List.mem_singleton.1 hg
    exact hx
  · intro a ha v x hx
    obtain ⟨s, -, rfl⟩ := List.mem_map.1 ha
    show HasErr (putPart v x)
    unfold putPart
    split
    · simp only [HasErr] at hx ⊢; simp [hx]
    · rfl

theorem keeps_bcast (P r : Nat) (m : DavSt → DavMs) (k : DavMs → DavSt → DavSt) (hk : ∀ v x, HasErr x → HasErr (k v x)) :
    keepsL HasErr (bcastProg P r m k) := by
  simp only [bcastProg, keepsL_append]
  refine ⟨keepsL_isends _ _ _, keepsL_recvs _ _ _ ?_, keepsL_wsends _ _ _⟩
  intro a ha v x hx
  obtain ⟨s, -, rfl⟩ := List.mem_map.1 ha
  exact hk v x hx

theorem keeps_barrier (P : Nat) : keepsL HasErr (barrierProg P) := by
  simp only [barrierProg, keepsL_append]
  refine ⟨keepsL_isends _ _ _, keepsL_recvs _ _ _ ?_⟩
  intro a ha v x hx
  obtain ⟨s, -, rfl⟩ := List.mem_map.1 ha
  show HasErr (putToken v x)
  unfold putToken
  split
  · exact hx
  · rfl

theorem keeps_comp1 (f : DavSt → DavSt) (hf : ∀ x, HasErr x → HasErr (f x)) : keepsL (μ := DavMs) HasErr (comps [f]) :=
  keepsL_comps _ _ fun g hg x hx => by
    obtain rfl := List.mem_singleton.1 hg
    exact hf x hx

theorem keeps_gs (P n k : Nat) : keepsL HasErr (gsProg P n k) := by
  simp only [gsProg, gsPass, dotProg, keepsL_append]
  exact ⟨⟨keeps_reduce _ _, keeps_comp1 _ fun _ h => h⟩, ⟨keeps_reduce _ _, keeps_comp1 _ fun _ h => h⟩,
    keeps_reduce _ _, keeps_comp1 _ fun _ h => h⟩

theorem keeps_act (A : DistCsr ℝ) (g : Nat → ℝ) (i : Nat) : keepsL HasErr (actProg A g i) := by
  simp only [actProg, keepsL_append]
  exact ⟨keeps_comp1 _ fun _ h => h, keepsL_lift (fun e : DavMem => e.err = true) _ (fun _ _ => rfl) _, keeps_comp1 _ fun _ h => h⟩

theorem keeps_rr (eig : Nat → (Nat → Nat → ℝ) → ℝ × (Nat → ℝ)) (P r n k : Nat) : keepsL HasErr (rrProg eig P r n k) := by
  simp only [rrProg, keepsL_append]
  refine ⟨keeps_reduce _ _, ?_, keeps_bcast _ _ _ _ ?_, keeps_bcast _ _ _ _ ?_⟩
  · refine keepsL_comps _ _ fun f hf x hx => ?_
    split at hf
    · obtain rfl := List.mem_singleton.1 hf
      exact hx
    · simp at hf
  · intro v x hx
    unfold putValue
    split
    · exact hx
    · rfl
  · intro v x hx
    unfold putVector
    split
    · simp only [HasErr] at hx ⊢; simp [hx]
    · rfl

theorem keeps_iter (eig : Nat → (Nat → Nat → ℝ) → ℝ × (Nat → ℝ)) (P r n : Nat) (A : DistCsr ℝ)
    (garbage : Nat → Nat → ℝ) (D : Nat → ℝ) (tol : ℝ) (f : Nat) : ∀ i,
    keepsL HasErr (davIter eig P r n A garbage D tol f i) := by
  induction f with
  | zero => intro i; exact keeps_comp1 _ fun _ h => h
  | succ f ih =>
    intro i
    simp only [davIter, dotProg, keepsL_append]
    refine ⟨keeps_act _ _ _, keeps_rr _ _ _ _ _, keeps_comp1 _ fun _ h => h, keeps_reduce _ _, ?_, trivial⟩
    intro x
    dsimp only
    split_ifs
    · exact keeps_comp1 _ fun _ h => h
    · simp only [keepsL_append]
      exact ⟨keeps_comp1 _ fun _ h => h, keeps_gs _ _ _, ih _⟩

theorem keeps_dav (eig : Nat → (Nat → Nat → ℝ) → ℝ × (Nat → ℝ)) (P r n : Nat) (A : DistCsr ℝ)
    (garbage : Nat → Nat → ℝ) (D : Nat → ℝ) (tol : ℝ) (maxM : Nat) :
    keepsL HasErr (davProg eig P r n A garbage D tol maxM) := by
  simp only [davProg, keepsL_append]
  exact ⟨keeps_comp1 _ fun _ h => h, keeps_act _ _ _, keeps_comp1 _ fun _ h => h, keeps_gs _ _ _, keeps_iter _ _ _ _ _ _ _ _ _ _⟩

theorem keeps_putDiag (n s : Nat) (v : DavMs) (x : DavSt) (hx : HasErr x) : HasErr (putDiag n s v x) := by
  unfold putDiag
  split
  · simp only [HasErr] at hx ⊢; simp [hx]
  · rfl

theorem keeps_ci (eig : Nat → (Nat → Nat → ℝ) → ℝ × (Nat → ℝ)) (P r : Nat) (A : DistCsr ℝ)
    (garbage : Nat → Nat → ℝ) (tol : ℝ) (maxM : Nat) (C : List ℝ) :
    keepsL HasErr (ciDiagProg eig P r A garbage tol maxM C) := by
  unfold ciDiagProg
  dsimp only
  split
  · exact keeps_comp1 _ fun _ _ => rfl
  · simp only [keepsL_append]
    refine ⟨keeps_comp1 _ fun _ h => h, ?_, keepsL_lift (fun e : DavMem => e.err = true) _ (fun _ _ => rfl) _,
      keeps_barrier _, keeps_dav _ _ _ _ _ _ _ _ _, ?_, trivial⟩
    · split_ifs
      · trivial
      · simp only [guessProg, keepsL_append]
        refine ⟨keepsL_isends _ _ _, keepsL_recvs _ _ _ ?_, keeps_comp1 _ ?_⟩
        · intro a ha v x hx
          obtain ⟨s, -, rfl⟩ := List.mem_map.1 ha
          exact keeps_putDiag _ _ _ _ hx
        · intro x hx
          unfold guessStore
          split
          · exact hx
          · rfl
    · intro x
      unfold ciFinish
      split
      · exact keeps_barrier _
      · trivial

theorem liftL_comps {σ τ μ ν : Type} (bad : τ → τ) (F : List (σ → σ)) :
    (liftL bad (comps F : List (Instr σ μ)) : List (Instr (σ × τ) (μ ⊕ ν))) = comps (F.map fun f x => (f x.1, x.2)) := by
  induction F with
  | nil => rfl
  | cons a L ih =>
    simp only [comps, List.map_cons] at ih ⊢
    rw [liftL, ih]
    rfl

theorem liftL_isends {σ τ μ ν : Type} (bad : τ → τ) (t : Nat) (L : List (Nat × (σ → μ))) :
    (liftL bad (isends t L) : List (Instr (σ × τ) (μ ⊕ ν))) = isends t (L.map fun a => (a.1, fun x => .inl (a.2 x.1))) := by
  induction L with
  | nil => rfl
  | cons a L ih =>
    simp only [isends, List.map_cons] at ih ⊢
    rw [liftL, ih]
    rfl

theorem liftL_recvs {σ τ μ ν : Type} (bad : τ → τ) (t : Nat) (L : List (Nat × (μ → σ → σ))) :
    (liftL bad (recvs t L) : List (Instr (σ × τ) (μ ⊕ ν))) = recvs t (L.map fun a => (a.1, fun v x => match v with
      | .inl v => (a.2 v x.1, x.2)
      | .inr _ => (x.1, bad x.2))) := by
  induction L with
  | nil => rfl
  | cons a L ih =>
    simp only [recvs, List.map_cons] at ih ⊢
    rw [liftL, ih]
    rfl

theorem foldl_err {P n : Nat} (k : Nat → DavMs → DavSt → DavSt) (hk : ∀ s v x, HasErr x → HasErr (k s v x)) (v : Nat → DavMs)
    {s0 : Nat} (hs : s0 < P) (h0 : ∀ x, HasErr (k s0 (v s0) x)) (x : DavSt) :
    HasErr ((List.range P).foldl (fun x s => k s (v s) x) x) := by
  have : ∀ (L : List Nat) (x : DavSt), (HasErr x ∨ s0 ∈ L) → HasErr (L.foldl (fun x s => k s (v s) x) x) := by
    intro L
    induction L with
    | nil => intro x h; exact h.resolve_right (by simp)
    | cons a L ih =>
      intro x h
      rw [List.foldl_cons]
      apply ih
      by_cases ha : s0 = a
      · subst ha; exact .inl (h0 x)
      · rcases h with h | h
        · exact .inl (hk _ _ _ h)
        · rcases List.mem_cons.1 h with h | h
          · exact absurd h ha
          · exact .inr h
  exact this _ _ (.inr (by simpa using hs))

/-- One rank generates a guess, another does not: the collectives they call do not match. -/
theorem mismatch_reach {A : Nat → DistCsr ℝ} {P N : Nat} {ext : List (Nat × Nat)} (h : DistributedMatrix A P N ext)
    (eig : Nat → (Nat → Nat → ℝ) → ℝ × (Nat → ℝ)) (garbage : Nat → Nat → Nat → ℝ) (tol : ℝ) (maxM : Nat) (C : Nat → List ℝ)
    (b : Nat → Bool) (hb : ∀ r < P, usesPassedVector (resizeVec (C r) (rowsOf ext r)) = some (b r))
    {r0 s0 : Nat} (hr : r0 < P) (hs : s0 < P) (h0 : b r0 = false) (h1 : b s0 = true) (st : Nat → DavSt) :
    ∃ p' st', Reach (ranks P (fun r => ciDiagProg eig P r (A r) (garbage r) tol maxM (C r)) st) (ranks P p' st') ∧
      HasErr (st' r0) := by
  set tail : Nat → List (Instr DavSt DavMs) := fun r => barrierProg P ++ (davProg eig P r (rowsOf ext r) (A r) (garbage r)
    (fun t => (localDiag (A r)).getD t 0) tol maxM ++ [.dyn (ciFinish P)]) with htail
  set bad : DavMem → DavMem := fun e => { e with err := true } with hbad
  set F0 : Nat → DavSt → DavSt := fun r m => (m.1, { m.2 with X := fun t => (resizeVec (C r) (rowsOf ext r)).getD t 0 }) with hF0
  set F1 : DavSt → DavSt := fun m => ({ m.1 with sendBy := fun _ => [] }, m.2) with hF1
  set msg : Nat → DavSt → DavMs := fun r _ => if b r then .inl (.counts ((recvByRank (A r)).map List.length))
    else .inr (.diag (localDiag (A r))) with hmsg
  set k : Nat → Nat → DavMs → DavSt → DavSt := fun r s => if b r then (fun v x => match v with
      | .inl v => (putCounts P s v x.1, x.2)
      | .inr _ => (x.1, bad x.2)) else putDiag ((A r).rowExtent s) s with hk
  -- every rank: local work, then one collective
  have hform : ∃ rest : Nat → List (Instr DavSt DavMs), ∀ r < P, ciDiagProg eig P r (A r) (garbage r) tol maxM (C r) =
      comps (F0 r :: if b r then [F1] else []) ++ (isends coll ((List.range P).map fun d => (d, msg r)) ++
        (recvs coll ((List.range P).map fun s => (s, k r s)) ++ rest r)) := by
    refine ⟨fun r => if b r then liftL bad [.dyn fun m : SpmvMem ℝ =>
        let recvBy := recvByRank (A r)
        let recvCounts := recvBy.map List.length
        let srcs := (List.range (A r).size).filter fun i => decide (i ≠ r) && (m.gathered i).getD r 0 != 0
        let dsts := (List.range (A r).size).filter fun i => recvCounts.getD i 0 != 0
        isends p2p (dsts.map fun i => (i, fun _ => .indices (recvBy.getD i []))) ++
        (recvs p2p (srcs.map fun i => (i, putIndices ((m.gathered i).getD r 0) i)) ++
        (comps [fun m =>
          let sendBy := (List.range (A r).size).map m.sendBy
          let sendCounts := sendBy.map List.length
          { m with info :=
            { sendIndices := sendBy.flatten.map fun i => i - (A r).localRowStart
              recvIndices := recvBy.flatten
              sendOffsets := exclusiveScan sendCounts
              recvOffsets := exclusiveScan recvCounts
              sendCounts := sendCounts
              recvCounts := recvCounts } }] ++
        wsends p2p dsts))] ++ tail r
      else comps [guessStore P r (A r)] ++ (liftL bad (genProg (A r) r) ++ tail r), ?_⟩
    intro r hr
    cases hbr : b r with
    | true =>
      simp only [ciDiagProg, localRowExtent_eq h hr, hb r hr, hbr, if_true, List.nil_append, hmsg, hk, htail]
      simp only [genProg, liftL_append, liftL_comps, liftL_isends, liftL_recvs, List.append_assoc, List.map_map,
        List.map_cons, List.map_nil, h.size_eq r hr]
      show comps [_] ++ (comps [_] ++ _) = comps ([_] ++ [_]) ++ _
      simp only [comps, List.map_append, List.append_assoc]
      refine congrArg₂ (· ++ ·) rfl (congrArg₂ (· ++ ·) rfl (congrArg₂ (· ++ ·) ?_ (congrArg₂ (· ++ ·) ?_ ?_)))
      · rfl
      · refine congrArg (recvs coll) (List.map_congr_left fun s _ => Prod.ext rfl ?_)
        funext v x
        cases v <;> rfl
      · rfl
    | false =>
      simp only [ciDiagProg, localRowExtent_eq h hr, hb r hr, hbr, Bool.false_eq_true, if_false, hmsg, hk, htail,
        guessProg, List.append_assoc]
      rfl
  obtain ⟨rest, hform⟩ := hform
  have r1 := ranks_comps (μ := DavMs) P (fun r => F0 r :: if b r then [F1] else []) (fun r =>
    isends coll ((List.range P).map fun d => (d, msg r)) ++ (recvs coll ((List.range P).map fun s => (s, k r s)) ++ rest r)) st
  set st1 : Nat → DavSt := fun r => if r < P then runComps (F0 r :: if b r then [F1] else []) (st r) else st r with hst1
  have r2 := ranks_superstep P coll (fun _ => List.range P) (fun _ => List.range P) (fun _ => [])
    (fun r _ => msg r) k (fun _ => []) (fun _ => []) rest st1
    (fun _ _ => List.nodup_range) (fun _ _ => List.nodup_range) (fun _ _ d hd => by simpa using hd)
    (fun _ _ s hs => by simpa using hs) (fun r hr d hd => by simp [hr, hd])
  simp only [comps, wsends, List.map_nil, List.nil_append, runComps, List.foldl_nil] at r2
  have r3 := r1.trans r2
  rw [← ranks_congr hform] at r3
  refine ⟨rest, _, r3, ?_⟩
  · simp only [hr, if_true]
    apply foldl_err (P := P) (n := 0) (k r0) _ (fun s => msg s (st1 s)) hs
    · intro x
      simp only [hk, h0, Bool.false_eq_true, if_false, hmsg, h1, if_true]
      rfl
    · intro s v x hx
      simp only [hk, h0, Bool.false_eq_true, if_false]
      exact keeps_putDiag _ _ _ _ hx

theorem disagree_reach {A : Nat → DistCsr ℝ} {P N : Nat} {ext : List (Nat × Nat)} (h : DistributedMatrix A P N ext)
    (eig : Nat → (Nat → Nat → ℝ) → ℝ × (Nat → ℝ)) (garbage : Nat → Nat → Nat → ℝ) (tol : ℝ) (maxM : Nat) (C : Nat → List ℝ)
    (hd : ¬ ∃ b, ∀ r < P, usesPassedVector (resizeVec (C r) (rowsOf ext r)) = some b) (st : Nat → DavSt) :
    ∃ w1 r, r < P ∧ Reach (ranks P (fun r => ciDiagProg eig P r (A r) (garbage r) tol maxM (C r)) st) w1 ∧
      HasErr (w1.st r) := by
  by_cases hnone : ∃ r < P, usesPassedVector (resizeVec (C r) (rowsOf ext r)) = none
  · obtain ⟨r, hr, hn⟩ := hnone
    refine ⟨_, r, hr, Reach.step r (w' := ⟨Function.update (ranks P (fun r => ciDiagProg eig P r (A r) (garbage r) tol maxM (C r)) st).prog r [],
      Function.update st r ((st r).1, { (st r).2 with err := true }), fun _ => []⟩) ?_, ?_⟩
    · have : (ranks P (fun r => ciDiagProg eig P r (A r) (garbage r) tol maxM (C r)) st).prog r =
          [.comp fun m : DavSt => (m.1, { m.2 with err := true })] := by
        simp only [ranks, hr, if_true, ciDiagProg, localRowExtent_eq h hr, hn]
        rfl
      unfold stepRank
      rw [this]
      rfl
    · simp only [Function.update_self]
      rfl
  · have hsome : ∀ r, ∃ c, r < P → usesPassedVector (resizeVec (C r) (rowsOf ext r)) = some c := by
      intro r
      cases hc : usesPassedVector (resizeVec (C r) (rowsOf ext r)) with
      | none => exact ⟨true, fun hr => absurd ⟨r, hr, hc⟩ hnone⟩
      | some c => exact ⟨c, fun _ => rfl⟩
    choose b hb using hsome
    have hboth : (∃ r < P, b r = false) ∧ ∃ s < P, b s = true := by
      constructor
      · by_contra hc
        apply hd
        refine ⟨true, fun r hr => ?_⟩
        rw [hb r hr]
        cases hbr : b r with
        | true => rfl
        | false => exact absurd ⟨r, hr, hbr⟩ hc
      · by_contra hc
        apply hd
        refine ⟨false, fun r hr => ?_⟩
        rw [hb r hr]
        cases hbr : b r with
        | false => rfl
        | true => exact absurd ⟨r, hr, hbr⟩ hc
    obtain ⟨⟨r0, hr0, h0⟩, s0, hs0, h1⟩ := hboth
    obtain ⟨p', st', hreach, herr⟩ := mismatch_reach h eig garbage tol maxM C b hb hr0 hs0 h0 h1 st
    exact ⟨_, r0, hr0, hreach, herr⟩

end Macis.Mpi
