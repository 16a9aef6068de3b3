import Verif.Lemmas.Mpi
import Mathlib.Data.List.Nodup
/-! Running the ranks one after the other, phase by phase: the execution from which `always_ends` concludes. -/
namespace Macis.Mpi
open Spec.Mpi
variable {σ μ : Type}

abbrev Key := Nat × Nat × Nat

def Reach (w w' : World σ μ) : Prop := ∃ n, Run strict n w w'

theorem Reach.refl (w : World σ μ) : Reach w w := ⟨0, .nil w⟩

theorem Reach.trans {w w' w'' : World σ μ} (h : Reach w w') (h' : Reach w' w'') : Reach w w'' := by
  obtain ⟨m, hm⟩ := h
  obtain ⟨n, hn⟩ := h'
  exact ⟨m + n, Run.trans hm hn⟩

theorem Reach.step {w w' : World σ μ} (r : Nat) (h : stepRank strict w r = some w') : Reach w w' :=
  ⟨1, .cons ⟨r, h⟩ (.nil _)⟩

/-- rank `r` changed its program, its memory, and the messages it owns -/
def override (w : World σ μ) (own : Key → Nat) (r : Nat) (p : List (Instr σ μ)) (s : σ) (c : Key → List μ) :
    World σ μ :=
  ⟨Function.update w.prog r p, Function.update w.st r s, fun k => if own k = r then c k else w.chan k⟩

@[simp] theorem override_prog (w : World σ μ) (own : Key → Nat) (r : Nat) (p : List (Instr σ μ)) (s : σ)
    (c : Key → List μ) : (override w own r p s c).prog r = p := by simp [override]

/-- all ranks below `P` did -/
def overrideAll (w : World σ μ) (own : Key → Nat) (P : Nat) (p : Nat → List (Instr σ μ)) (s : Nat → σ)
    (c : Key → List μ) : World σ μ :=
  ⟨fun r => if r < P then p r else w.prog r, fun r => if r < P then s r else w.st r,
    fun k => if own k < P then c k else w.chan k⟩

/-- a phase in which every rank works on its own memory and its own messages -/
theorem phase (own : Key → Nat) (w : World σ μ) (P : Nat) (p1 : Nat → List (Instr σ μ)) (s1 : Nat → σ) (c1 : Key → List μ)
    (h : ∀ r < P, ∀ w' : World σ μ, w'.prog r = w.prog r → w'.st r = w.st r →
      (∀ k, own k = r → w'.chan k = w.chan k) → Reach w' (override w' own r (p1 r) (s1 r) c1)) :
    Reach w (overrideAll w own P p1 s1 c1) := by
  induction P with
  | zero =>
    have : overrideAll w own 0 p1 s1 c1 = w := by cases w; simp [overrideAll]
    rw [this]
    exact .refl w
  | succ P ih =>
    have h1 := ih fun r hr => h r (by omega)
    have h2 := h P (by omega) (overrideAll w own P p1 s1 c1) (by simp [overrideAll]) (by simp [overrideAll])
      (by intro k hk; simp [overrideAll, hk])
    have e : override (overrideAll w own P p1 s1 c1) own P (p1 P) (s1 P) c1 = overrideAll w own (P + 1) p1 s1 c1 := by
      simp only [override, overrideAll, World.mk.injEq]
      refine ⟨?_, ?_, ?_⟩
      · funext r
        by_cases e : r = P
        · subst e; simp
        · rw [Function.update_of_ne e]
          by_cases h : r < P
          · rw [if_pos h, if_pos (by omega)]
          · rw [if_neg h, if_neg (by omega)]
      · funext r
        by_cases e : r = P
        · subst e; simp
        · rw [Function.update_of_ne e]
          by_cases h : r < P
          · rw [if_pos h, if_pos (by omega)]
          · rw [if_neg h, if_neg (by omega)]
      · funext k
        by_cases e : own k = P
        · rw [if_pos e, if_pos (by omega)]
        · rw [if_neg e]
          by_cases h : own k < P
          · rw [if_pos h, if_pos (by omega)]
          · rw [if_neg h, if_neg (by omega)]
    rw [← e]
    exact h1.trans h2

/-- the messages of a list of sends with destination `d` -/
def sentTo (L : List (Nat × (σ → μ))) (s : σ) (d : Nat) : List μ :=
  (L.filter fun x => x.1 = d).map fun x => x.2 s


def source (k : Key) : Nat := k.2.1
def dest (k : Key) : Nat := k.2.2

theorem solo_isends (t r : Nat) (L : List (Nat × (σ → μ))) : ∀ (w : World σ μ) (p : List (Instr σ μ)),
    w.prog r = isends t L ++ p →
    Reach w (override w source r p (w.st r)
      fun k => w.chan k ++ if k.1 = t then sentTo L (w.st r) k.2.2 else []) := by
  induction L with
  | nil =>
    intro w p h
    have : override w source r p (w.st r) (fun k => w.chan k ++ if k.1 = t then sentTo [] (w.st r) k.2.2 else []) = w := by
      cases w with
      | mk wp ws wc =>
      simp only [override, sentTo, List.filter_nil, List.map_nil, ite_self, List.append_nil,
        Function.update_eq_self, World.mk.injEq, and_true, true_and]
      have : wp r = p := by simpa [isends] using h
      rw [← this]; simp
    rw [this]
    exact .refl w
  | cons x L ih =>
    intro w p h
    have h1 : stepRank strict w r = some ⟨Function.update w.prog r (isends t L ++ p), w.st,
        Function.update w.chan (t, r, x.1) (w.chan (t, r, x.1) ++ [x.2 (w.st r)])⟩ := by
      rw [stepRank, h]; rfl
    refine (Reach.step r h1).trans ?_
    have h2 := ih ⟨Function.update w.prog r (isends t L ++ p), w.st,
        Function.update w.chan (t, r, x.1) (w.chan (t, r, x.1) ++ [x.2 (w.st r)])⟩ p (by simp)
    refine cast ?_ h2
    congr 1
    simp only [override, Function.update_idem, World.mk.injEq, true_and]
    funext k
    obtain ⟨t', s', d'⟩ := k
    simp only [source]
    by_cases e : s' = r
    · subst e
      simp only [if_true]
      by_cases e1 : t' = t
      · subst e1
        simp only [if_true]
        by_cases e2 : d' = x.1
        · subst e2
          simp [sentTo]
        · rw [Function.update_of_ne (by simp [e2])]
          have : ¬ x.1 = d' := fun h => e2 h.symm
          simp [sentTo, this]
      · rw [Function.update_of_ne (by simp [e1])]
        simp [e1]
    · rw [if_neg e, if_neg e, Function.update_of_ne (by simp [e])]

theorem solo_recvs (t r : Nat) (L : List (Nat × (μ → σ → σ))) : ∀ (w : World σ μ) (p : List (Instr σ μ))
    (m : Nat → μ) (tl : Nat → List μ), w.prog r = recvs t L ++ p → (L.map (·.1)).Nodup →
    (∀ s ∈ L.map (·.1), w.chan (t, s, r) = m s :: tl s) →
    Reach w (override w dest r p (L.foldl (fun s x => x.2 (m x.1) s) (w.st r))
      fun k => if k.1 = t ∧ k.2.1 ∈ L.map (·.1) then tl k.2.1 else w.chan k) := by
  induction L with
  | nil =>
    intro w p m tl h _ _
    have : override w dest r p (w.st r) (fun k => if k.1 = t ∧ k.2.1 ∈ ([] : List Nat) then tl k.2.1 else w.chan k) = w := by
      cases w with
      | mk wp ws wc =>
      simp only [override, List.not_mem_nil, and_false, if_false, ite_self, Function.update_eq_self, World.mk.injEq,
        and_true, true_and]
      have : wp r = p := by simpa [recvs] using h
      rw [← this]; simp
    simp only [List.map_nil, List.foldl_nil]
    rw [this]
    exact .refl w
  | cons x L ih =>
    intro w p m tl h nd hc
    have hx := hc x.1 (by simp)
    have h1 : stepRank strict w r = some ⟨Function.update w.prog r (recvs t L ++ p),
        Function.update w.st r (x.2 (m x.1) (w.st r)), Function.update w.chan (t, x.1, r) (tl x.1)⟩ := by
      rw [stepRank, h]
      simp only [recvs, List.map_cons, List.cons_append, hx]
    refine (Reach.step r h1).trans ?_
    rw [List.map_cons, List.nodup_cons] at nd
    have h2 := ih ⟨Function.update w.prog r (recvs t L ++ p), Function.update w.st r (x.2 (m x.1) (w.st r)),
        Function.update w.chan (t, x.1, r) (tl x.1)⟩ p m tl (by simp) nd.2 (by
          intro s hs
          have : s ≠ x.1 := fun e => nd.1 (e ▸ hs)
          show Function.update _ _ _ _ = _
          rw [Function.update_of_ne (by simp [this])]
          exact hc s (by rw [List.map_cons]; exact List.mem_cons_of_mem _ hs))
    refine cast ?_ h2
    congr 1
    simp only [override, Function.update_idem, Function.update_self, World.mk.injEq, true_and, List.foldl_cons]
    funext k
    obtain ⟨t', s', d'⟩ := k
    simp only [dest, List.map_cons, List.mem_cons]
    by_cases e : d' = r
    · subst e
      simp only [if_true]
      by_cases e1 : t' = t
      · subst e1
        by_cases e2 : s' = x.1
        · subst e2
          simp [nd.1]
        · rw [Function.update_of_ne (by simp [e2])]
          simp only [e2, false_or]
      · rw [Function.update_of_ne (by simp [e1])]
        simp [e1]
    · rw [if_neg e, if_neg e, Function.update_of_ne (by simp [e])]

theorem solo_wsends (t r : Nat) (L : List Nat) : ∀ (w : World σ μ) (p : List (Instr σ μ)),
    w.prog r = wsends t L ++ p → (∀ d ∈ L, w.chan (t, r, d) = []) →
    Reach w ⟨Function.update w.prog r p, w.st, w.chan⟩ := by
  induction L with
  | nil =>
    intro w p h _
    have : w.prog r = p := by simpa [wsends] using h
    rw [← this, Function.update_eq_self]
    exact .refl w
  | cons d L ih =>
    intro w p h hc
    have h1 : stepRank strict w r = some ⟨Function.update w.prog r (wsends t L ++ p), w.st, w.chan⟩ := by
      rw [stepRank, h]
      simp only [wsends, List.map_cons, List.cons_append]
      rw [if_pos (.inr (hc d (by simp)))]
    refine (Reach.step r h1).trans ?_
    have h2 := ih ⟨Function.update w.prog r (wsends t L ++ p), w.st, w.chan⟩ p (by simp)
      (fun d hd => hc d (List.mem_cons_of_mem _ hd))
    simpa only [Function.update_idem] using h2

theorem solo_comp (r : Nat) (w : World σ μ) (f : σ → σ) (p : List (Instr σ μ)) (h : w.prog r = .comp f :: p) :
    Reach w ⟨Function.update w.prog r p, Function.update w.st r (f (w.st r)), w.chan⟩ :=
  Reach.step r (by rw [stepRank, h])

theorem solo_dyn (r : Nat) (w : World σ μ) (f : σ → List (Instr σ μ)) (p : List (Instr σ μ)) (h : w.prog r = .dyn f :: p) :
    Reach w ⟨Function.update w.prog r (f (w.st r) ++ p), w.st, w.chan⟩ :=
  Reach.step r (by rw [stepRank, h])

def runComps (F : List (σ → σ)) (s : σ) : σ := F.foldl (fun s f => f s) s

theorem solo_comps (r : Nat) (F : List (σ → σ)) : ∀ (w : World σ μ) (p : List (Instr σ μ)), w.prog r = comps F ++ p →
    Reach w ⟨Function.update w.prog r p, Function.update w.st r (runComps F (w.st r)), w.chan⟩ := by
  induction F with
  | nil =>
    intro w p h
    have : w.prog r = p := by simpa [comps] using h
    simp only [runComps, List.foldl_nil, ← this, Function.update_eq_self]
    exact .refl w
  | cons f F ih =>
    intro w p h
    refine (solo_comp r w f (comps F ++ p) (by rw [h]; rfl)).trans ?_
    have := ih ⟨Function.update w.prog r (comps F ++ p), Function.update w.st r (f (w.st r)), w.chan⟩ p (by simp)
    simpa only [Function.update_idem, Function.update_self, runComps, List.foldl_cons] using this

theorem sentTo_mem {dsts : List Nat} (nd : dsts.Nodup) (m : Nat → σ → μ) (s : σ) (d : Nat) :
    sentTo (dsts.map fun d => (d, m d)) s d = if d ∈ dsts then [m d s] else [] := by
  induction dsts with
  | nil => simp [sentTo]
  | cons x l ih =>
    rw [List.nodup_cons] at nd
    have ih := ih nd.2
    simp only [sentTo, List.map_cons, List.filter_cons] at ih ⊢
    by_cases e : x = d
    · subst e
      rw [if_neg nd.1] at ih
      simp only [decide_true, if_true, List.map_cons, List.mem_cons, true_or, ih]
    · have : ¬ d = x := fun h => e h.symm
      simp only [e, decide_false, Bool.false_eq_true, if_false, List.mem_cons, this, false_or, ih]

/-- All ranks post one message to each of their destinations, compute, receive one message from each of their
sources, compute, and wait for their sends. -/
theorem superstep (w : World σ μ) (P t : Nat) (dsts srcs D : Nat → List Nat) (m : Nat → Nat → σ → μ)
    (k : Nat → Nat → μ → σ → σ) (F G : Nat → List (σ → σ)) (rest : Nat → List (Instr σ μ))
    (hp : ∀ r < P, w.prog r = isends t ((dsts r).map fun d => (d, m r d)) ++ (comps (F r) ++
      (recvs t ((srcs r).map fun s => (s, k r s)) ++ (comps (G r) ++ (wsends t (D r) ++ rest r)))))
    (hz : ∀ s d, w.chan (t, s, d) = []) (ndd : ∀ r < P, (dsts r).Nodup) (nds : ∀ r < P, (srcs r).Nodup)
    (hd : ∀ r < P, ∀ d ∈ dsts r, d < P) (hs : ∀ r < P, ∀ s ∈ srcs r, s < P)
    (hm : ∀ r < P, ∀ d < P, d ∈ dsts r ↔ r ∈ srcs d) :
    Reach w ⟨fun r => if r < P then rest r else w.prog r,
      fun r => if r < P then runComps (G r) ((srcs r).foldl (fun x s => k r s (m s r (w.st s)) x) (runComps (F r) (w.st r)))
        else w.st r, w.chan⟩ := by
  have hA : Reach w (overrideAll w source P
      (fun r => recvs t ((srcs r).map fun s => (s, k r s)) ++ (comps (G r) ++ (wsends t (D r) ++ rest r)))
      (fun r => runComps (F r) (w.st r))
      (fun q => w.chan q ++ if q.1 = t then
        sentTo ((dsts q.2.1).map fun d => (d, m q.2.1 d)) (w.st q.2.1) q.2.2 else [])) := by
    refine phase source w P _ _ _ ?_
    intro r hr w' hpr hst hch
    rw [hp r hr] at hpr
    have h1 := solo_isends t r _ w' _ hpr
    refine cast ?_ (h1.trans (solo_comps r (F r) _ _ (override_prog _ _ _ _ _ _)))
    congr 1
    simp only [override, Function.update_idem, Function.update_self, hst, World.mk.injEq, true_and]
    funext q
    by_cases e : source q = r
    · rw [if_pos e, if_pos e, hch q e]
      have : q.2.1 = r := e
      rw [this]
    · rw [if_neg e, if_neg e]
  set wA := overrideAll w source P
      (fun r => recvs t ((srcs r).map fun s => (s, k r s)) ++ (comps (G r) ++ (wsends t (D r) ++ rest r)))
      (fun r => runComps (F r) (w.st r))
      (fun q => w.chan q ++ if q.1 = t then
        sentTo ((dsts q.2.1).map fun d => (d, m q.2.1 d)) (w.st q.2.1) q.2.2 else []) with hwA
  have chA : ∀ s < P, ∀ d, wA.chan (t, s, d) = if d ∈ dsts s then [m s d (w.st s)] else [] := by
    intro s hs' d
    simp only [hwA, overrideAll, source, if_pos hs', hz, List.nil_append, if_true]
    exact sentTo_mem (ndd s hs') _ _ _
  have hB : Reach wA (overrideAll wA dest P (fun r => wsends t (D r) ++ rest r)
      (fun r => runComps (G r) ((srcs r).foldl (fun x s => k r s (m s r (w.st s)) x) (runComps (F r) (w.st r))))
      (fun q => if q.1 = t ∧ q.2.1 ∈ srcs q.2.2 then [] else wA.chan q)) := by
    refine phase dest wA P _ _ _ ?_
    intro r hr w' hpr hst hch
    have hpr' : w'.prog r = recvs t ((srcs r).map fun s => (s, k r s)) ++ (comps (G r) ++ (wsends t (D r) ++ rest r)) := by
      rw [hpr, hwA]; simp [overrideAll, hr]
    have hst' : w'.st r = runComps (F r) (w.st r) := by
      rw [hst, hwA]; simp [overrideAll, hr]
    have mm : ((srcs r).map fun s => (s, k r s)).map (·.1) = srcs r := by
      rw [List.map_map]; exact List.map_id _
    have h1 := solo_recvs t r _ w' _ (fun s => m s r (w.st s)) (fun _ => []) hpr' (by rw [mm]; exact nds r hr) (by
      rw [mm]
      intro s hs'
      have hsP := hs r hr s hs'
      rw [hch (t, s, r) rfl, chA s hsP, if_pos ((hm s hsP r hr).2 hs')])
    refine cast ?_ (h1.trans (solo_comps r (G r) _ _ (override_prog _ _ _ _ _ _)))
    congr 1
    simp only [override, Function.update_idem, Function.update_self, hst', World.mk.injEq, true_and, List.foldl_map]
    funext q
    by_cases e : dest q = r
    · rw [if_pos e, if_pos e, hch q e]
      have : q.2.2 = r := e
      rw [this]
      rw [mm]
    · rw [if_neg e, if_neg e]
  set wB := overrideAll wA dest P (fun r => wsends t (D r) ++ rest r)
      (fun r => runComps (G r) ((srcs r).foldl (fun x s => k r s (m s r (w.st s)) x) (runComps (F r) (w.st r))))
      (fun q => if q.1 = t ∧ q.2.1 ∈ srcs q.2.2 then [] else wA.chan q) with hwB
  have chB : wB.chan = w.chan := by
    funext q
    obtain ⟨t', s, d⟩ := q
    by_cases et : t' = t
    · subst et
      rw [hz]
      simp only [hwB, overrideAll, dest]
      by_cases hdP : d < P
      · rw [if_pos hdP]
        by_cases hsd : s ∈ srcs d
        · rw [if_pos ⟨trivial, hsd⟩]
        · rw [if_neg (fun h => hsd h.2)]
          by_cases hsP : s < P
          · rw [chA s hsP, if_neg (fun h => hsd ((hm s hsP d hdP).1 h))]
          · simp only [hwA, overrideAll, source, if_neg hsP, hz]
      · rw [if_neg hdP]
        by_cases hsP : s < P
        · rw [chA s hsP, if_neg (fun h => hdP (hd s hsP d h))]
        · simp only [hwA, overrideAll, source, if_neg hsP, hz]
    · simp only [hwB, hwA, overrideAll, dest, source, et, false_and, if_false, List.append_nil, ite_self]
  have hC : Reach wB (overrideAll wB source P rest wB.st wB.chan) := by
    refine phase source wB P _ _ _ ?_
    intro r hr w' hpr hst hch
    have hpr' : w'.prog r = wsends t (D r) ++ rest r := by rw [hpr, hwB]; simp [overrideAll, hr]
    have h1 := solo_wsends t r (D r) w' (rest r) hpr' (by
      intro d _
      rw [hch (t, r, d) rfl, chB, hz])
    refine cast ?_ h1
    congr 1
    simp only [override, World.mk.injEq, true_and, ← hst, Function.update_eq_self]
    funext q
    by_cases e : source q = r
    · rw [if_pos e, hch q e]
    · rw [if_neg e]
  refine cast ?_ (hA.trans (hB.trans hC))
  congr 1
  simp only [overrideAll, World.mk.injEq, chB, ite_self, and_true]
  refine ⟨?_, ?_⟩
  · funext r
    by_cases h : r < P
    · rw [if_pos h, if_pos h]
    · rw [if_neg h, if_neg h, hwB, hwA]; simp [overrideAll, h]
  · funext r
    by_cases h : r < P
    · rw [if_pos h, hwB]; simp [overrideAll, h]
    · rw [if_neg h, hwB, hwA]; simp [overrideAll, h]

/-- all ranks work on their own memory -/
theorem all_local (w : World σ μ) (P : Nat) (p1 : Nat → List (Instr σ μ)) (s1 : Nat → σ)
    (h : ∀ r < P, ∀ w' : World σ μ, w'.prog r = w.prog r → w'.st r = w.st r →
      Reach w' ⟨Function.update w'.prog r (p1 r), Function.update w'.st r (s1 r), w'.chan⟩) :
    Reach w ⟨fun r => if r < P then p1 r else w.prog r, fun r => if r < P then s1 r else w.st r, w.chan⟩ := by
  refine cast ?_ (phase source w P p1 s1 w.chan ?_)
  · congr 1
    simp only [overrideAll, ite_self]
  · intro r hr w' hp hs hc
    refine cast ?_ (h r hr w' hp hs)
    congr 1
    simp only [override, World.mk.injEq, true_and]
    funext q
    by_cases e : source q = r
    · rw [if_pos e, hc q e]
    · rw [if_neg e]

theorem all_comps (w : World σ μ) (P : Nat) (F : Nat → List (σ → σ)) (rest : Nat → List (Instr σ μ))
    (hp : ∀ r < P, w.prog r = comps (F r) ++ rest r) :
    Reach w ⟨fun r => if r < P then rest r else w.prog r, fun r => if r < P then runComps (F r) (w.st r) else w.st r,
      w.chan⟩ :=
  all_local w P _ _ fun r hr w' h1 h2 => by
    rw [← h2]
    exact solo_comps r (F r) w' (rest r) (by rw [h1, hp r hr])

theorem all_dyn (w : World σ μ) (P : Nat) (f : Nat → σ → List (Instr σ μ)) (rest : Nat → List (Instr σ μ))
    (hp : ∀ r < P, w.prog r = .dyn (f r) :: rest r) :
    Reach w ⟨fun r => if r < P then f r (w.st r) ++ rest r else w.prog r, w.st, w.chan⟩ := by
  have := all_local w P (fun r => f r (w.st r) ++ rest r) w.st fun r hr w' h1 h2 => by
    have := solo_dyn r w' (f r) (rest r) (by rw [h1, hp r hr])
    rw [← h2, Function.update_eq_self]
    exact this
  simpa only [ite_self] using this

end Macis.Mpi
