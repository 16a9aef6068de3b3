import Verif.Lemmas.MpiIter
import Verif.Props.AsciSelect
/-! Lemmas for C163: `asci_iter` on several ranks. -/
namespace Macis
open Spec Spec.Mpi Mpi
variable {M : Nat}

/-! ### the search -/

theorem candidates_le {N : Nat} {srt part : List (Contrib N ℝ) → List (Contrib N ℝ)}
    (hs : SortsBy (fun x y => bitsetLess x.state y.state) srt) (hp : Rearranges part) (cdets : List (BitVec N)) (C : List ℝ)
    (pairs : List (Contrib N ℝ)) : (searchCandidates srt part cdets C pairs).length ≤ 2 ^ N := by
  unfold searchCandidates
  refine (List.length_filter_le _ _).trans ?_
  rw [(hp _).length_eq]
  have hnd := nodup_of_lt (keepLargest_spec hs ((pairs.map fun x => { x with rv := -|x.rv| }) ++
    (cdets.zip C).map fun x => (⟨x.1, |x.2|⟩ : Contrib N ℝ))).1
  have hnd2 : (((keepLargestCopy srt ((pairs.map fun x => { x with rv := -|x.rv| }) ++
    (cdets.zip C).map fun x => (⟨x.1, |x.2|⟩ : Contrib N ℝ))).map (·.state)).map BitVec.toNat).Nodup :=
    hnd.map (fun a b h => BitVec.eq_of_toNat_eq h)
  have hle := hnd2.length_le_of_subset (l₂ := List.range (2 ^ N)) (by
    intro x hx
    rw [List.mem_map] at hx
    obtain ⟨b, -, rfl⟩ := hx
    exact List.mem_range.2 b.isLt)
  simpa using hle

theorem flatten_length_le {α : Type} (B : Nat) : ∀ L : List (List α), (∀ l ∈ L, l.length ≤ B) → L.flatten.length ≤ L.length * B
  | [], _ => by simp
  | l :: L, h => by
    have h1 := h l List.mem_cons_self
    have h2 := flatten_length_le B L fun l hl => h l (List.mem_cons_of_mem _ hl)
    rw [List.flatten_cons, List.length_append, List.length_cons, Nat.succ_mul]
    omega

theorem mapM_range_some {β : Type} [Inhabited β] (f : Nat → Option β) (P : Nat) (L : List β) (h : (List.range P).mapM f = some L) :
    L = (List.range P).map (fun r => (f r).getD default) ∧ ∀ r < P, f r = some ((f r).getD default) := by
  have gen : ∀ (l : List Nat) (L : List β), l.mapM f = some L →
      L = l.map (fun r => (f r).getD default) ∧ ∀ r ∈ l, f r = some ((f r).getD default) := by
    intro l
    induction l with
    | nil => intro L h; rw [List.mapM_nil] at h; cases h; simp
    | cons x l ih =>
      intro L h
      rw [List.mapM_cons] at h
      cases hx : f x with
      | none => rw [hx] at h; cases h
      | some b =>
        rw [hx] at h
        cases hl : l.mapM f with
        | none => rw [hl] at h; cases h
        | some K =>
          rw [hl] at h
          cases h
          obtain ⟨h1, h2⟩ := ih K hl
          refine ⟨by rw [List.map_cons, hx, ← h1]; rfl, ?_⟩
          intro r hr
          rcases List.mem_cons.1 hr with rfl | hr
          · rw [hx]; rfl
          · exact h2 r hr
  obtain ⟨h1, h2⟩ := gen _ L h
  exact ⟨h1, fun r hr => h2 r (List.mem_range.2 hr)⟩

/-- this rank's contributions -/
noncomputable def contribsOf (a : AsciPar M) (h : GenState) (E0 : ℝ) (cdets : List (BitVec (2 * M))) (C : List ℝ) (r : Nat) :
    Option (List (Contrib (2 * M) ℝ)) :=
  asciContributionsConstraint (viewInts a.norb h.T h.V) a.contrib a.norb E0 a.srt a.part a.P r
      (a.avg cdets) a.partC a.sortC cdets C

theorem search_all {a : AsciPar M} (hb : Behaves a) (hP : 2 ≤ a.P) (fuel n : Nat) (hn : n < 2 ^ 64)
    (hf : a.P * 2 ^ (2 * M) < fuel) (h : GenState) (E0 : ℝ) (cdets : List (BitVec (2 * M))) (C : List ℝ)
    (w : List (BitVec (2 * M))) (hw : jointSearch a h n cdets E0 C = some w) :
    w.length = n ∧ ∃ pairs : Nat → List (Contrib (2 * M) ℝ),
      (∀ r < a.P, contribsOf a h E0 cdets C r = some (pairs r)) ∧
      ∃ st', Reach (ranks a.P (fun r => searchProg a.P r a.srt a.part a.draw (a.partS r) (a.nthS r) fuel n cdets C)
          fun r => searchStart (pairs r)) (ranks a.P (fun _ => []) st') ∧
        ∀ r < a.P, (st' r).2.err = false ∧ (st' r).2.out = some w := by
  unfold jointSearch at hw
  split at hw
  · cases hw
  rename_i hlt
  rw [not_le] at hlt
  unfold asciSearchDist at hw
  cases hm : (List.range a.P).mapM fun rank => asciContributionsConstraint (viewInts a.norb h.T h.V) a.contrib a.norb E0 a.srt
    a.part a.P rank (a.avg cdets) a.partC a.sortC cdets C with
  | none => rw [hm] at hw; cases hw
  | some L =>
    rw [hm] at hw
    simp only [bind, Option.bind] at hw
    obtain ⟨hL, hall⟩ := mapM_range_some _ _ _ hm
    set pairs : Nat → List (Contrib (2 * M) ℝ) := fun r => (contribsOf a h E0 cdets C r).getD default with hpairs
    have hL' : L = (List.range a.P).map pairs := hL
    subst hL'
    have hC : cdets.length ≤ C.length := by
      by_contra hc
      unfold asciSelectDist at hw
      rw [if_pos (by omega)] at hw
      cases hw
    have htop := topK_eq hlt.le hn
    have henough := (C66_defined_iff_partial (srt := a.srt) a.draw hb.part (hb.partS 0) (hb.nthS 0) n cdets C
      ((List.range a.P).map pairs) hC hlt hn).1 (by rw [hw]; rfl)
    rw [List.map_map] at henough
    have h2 : topKElements n cdets.length ≤
      (((List.range a.P).map fun r => searchCandidates a.srt a.part cdets C (pairs r)).flatten).length := by
      rw [htop]; exact henough
    have h1 : 1 ≤ topKElements n cdets.length := by rw [htop]; omega
    have hfu : (((List.range a.P).map fun r => searchCandidates a.srt a.part cdets C (pairs r)).flatten).length < fuel := by
      refine lt_of_le_of_lt (flatten_length_le (2 ^ (2 * M)) _ ?_) (by simpa using hf)
      intro l hl
      rw [List.mem_map] at hl
      obtain ⟨r, -, rfl⟩ := hl
      exact candidates_le hb.srt hb.part _ _ _
    obtain ⟨st', v, hreach, hv, hres⟩ := search_reach a.P hP a.draw hb.partS hb.nthS fuel n cdets C pairs hC h1 h2 hfu
    have hjoint := asciSelectDist_of_kth (srt := a.srt) a.draw (hb.partS 0) (hb.nthS 0) n cdets C ((List.range a.P).map pairs) hC h1
      (by rw [List.map_map]; exact h2) v (by rw [List.map_map]; exact hv)
    rw [hw, List.map_map] at hjoint
    have hjoint := Option.some.inj hjoint
    refine ⟨?_, pairs, fun r hr => hall r hr, st', hreach, fun r hr => ⟨(hres r hr).1, ?_⟩⟩
    · obtain ⟨v', K, -, hK, hKl, -⟩ := C66_kept_are_good_partial a.draw hb.part (hb.partS 0) (hb.nthS 0) (topKElements n cdets.length)
        (((List.range a.P).map pairs).map (searchCandidates a.srt a.part cdets C)) h1 (by rw [List.map_map]; exact h2)
      unfold asciSelectDist at hw
      rw [if_neg (by omega), hK] at hw
      have := Option.some.inj hw
      rw [← this, List.length_append, hKl, htop]
      omega
    · rw [(hres r hr).2, hjoint]
      rfl

/-! ### asci_iter -/

/-- all ranks have these values and no exception or error has occurred -/
structure AllHave (P : Nat) (s : Nat → AsciMem M) (h : GenState) (E0 : ℝ) (wfn : List (BitVec (2 * M))) (X Es : List ℝ) : Prop where
  h : ∀ r < P, (s r).h = h
  E0 : ∀ r < P, (s r).E0 = E0
  wfn : ∀ r < P, (s r).wfn = wfn
  X : ∀ r < P, (s r).X = X
  energies : ∀ r < P, (s r).energies = Es
  thrown : ∀ r < P, (s r).thrown = false
  err : ∀ r < P, (s r).err = false

/-- an exception has left the program on all ranks -/
def AllThrew (P : Nat) (s : Nat → AsciMem M) : Prop := ∀ r < P, (s r).thrown = true ∧ (s r).err = false

theorem andThen_skip (P : Nat) (p : Nat → List (Instr (AsciMem M) (AsciMsg M))) (s : Nat → AsciMem M)
    (h : ∀ r < P, (s r).thrown = true) : Reach (ranks P (fun r => andThen (p r)) s) (ranks P (fun _ => []) s) := by
  refine ranks_choice P (fun r m => if m.thrown then [] else p r) (cast ?_ (Reach.refl (ranks (μ := AsciMsg M) P (fun _ => []) s)))
  congr 1
  apply ranks_congr
  intro r hr
  rw [h r hr]; rfl

theorem andThen_go (P : Nat) (p : Nat → List (Instr (AsciMem M) (AsciMsg M))) {s s' : Nat → AsciMem M}
    (h : ∀ r < P, (s r).thrown = false) (hr : Reach (ranks P p s) (ranks P (fun _ => []) s')) :
    Reach (ranks P (fun r => andThen (p r)) s) (ranks P (fun _ => []) s') := by
  refine ranks_choice P (fun r m => if m.thrown then [] else p r) (cast ?_ hr)
  congr 1
  apply ranks_congr
  intro r hr
  rw [h r hr]; rfl

theorem asciIter_reach {a : AsciPar M} (hb : Behaves a) (hP : 2 ≤ a.P) (ht : 0 ≤ a.ci.matelTol) (hm : a.ci.maxSub ≠ 0)
    (garbage : Nat → Nat → Nat → ℝ) (fuel n : Nat) (hn : n < 2 ^ 64) (hPn : a.P ≤ n)
    (hf : a.P * 2 ^ (2 * M) < fuel) (h : GenState) (E0 : ℝ) (wfn : List (BitVec (2 * M))) (X Es : List ℝ)
    (s : Nat → AsciMem M) (hs : AllHave a.P s h E0 wfn X Es) :
    match asciIter (jointEnv a) a.asci n h E0 wfn X with
    | .ok (E, wfn', X') => wfn'.length = n ∧ ∃ s',
        Reach (ranks a.P (fun r => iterProg a r fuel n (garbage r)) s) (ranks a.P (fun _ => []) s') ∧
        AllHave a.P s' h E0 wfn' X' Es ∧ ∀ r < a.P, (s' r).E = E
    | .throw => ∃ s',
        Reach (ranks a.P (fun r => iterProg a r fuel n (garbage r)) s) (ranks a.P (fun _ => []) s') ∧ AllThrew a.P s'
    | _ => True := by
  unfold asciIter
  dsimp only
  cases hsort : (if wfn.length > 1 then reorderCi ((jointEnv a).srtIdx X) wfn X 0 0 else some (wfn, X)) with
  | none => trivial
  | some p =>
    obtain ⟨w1, X1⟩ := p
    dsimp only
    cases hsearch : (jointEnv a).search h n (w1.take (min a.asci.ncdetsMax w1.length)) E0 X1 with
    | none => trivial
    | some w2 =>
      dsimp only
      set core := w1.take (min a.asci.ncdetsMax w1.length) with hcore
      obtain ⟨hw2, pairs, hpairs, st', hreach, hst'⟩ := search_all hb hP fuel n hn hf h E0 core X1 w2 hsearch
      -- sorting and contributions
      have hsorted : ∀ r < a.P, iterSort a (s r) = { s r with wfn := w1, X := X1 } := by
        intro r hr
        unfold iterSort
        rw [hs.wfn r hr, hs.X r hr]
        split
        · rename_i hl
          rw [if_pos hl] at hsort
          rw [show reorderCi (a.srtIdx X) wfn X 0 0 = some (w1, X1) from hsort]
        · rename_i hl
          rw [if_neg hl] at hsort
          cases hsort
          rw [← hs.wfn r hr, ← hs.X r hr]
      have r1 := ranks_local (T := AsciMsg M) a.P (fun r => [iterSort a, iterContribs a r]) s
      set s1 : Nat → AsciMem M := fun r => if r < a.P then runComps [iterSort a, iterContribs a r] (s r) else s r with hs1
      have es1 : ∀ r < a.P, s1 r = { s r with wfn := w1, X := X1, search := searchStart (pairs r) } := by
        intro r hr
        simp only [hs1, hr, if_true, runComps, List.foldl_cons, List.foldl_nil]
        rw [hsorted r hr]
        have hp := hpairs r hr
        unfold contribsOf at hp
        unfold iterContribs
        simp only [AsciPar.core, hs.h r hr, hs.E0 r hr, ← hcore, hp]
      -- the search
      set st2 : Nat → SearchSt (2 * M) ℝ := fun r => if r < a.P then st' r else searchPort.get (s1 r) with hst2
      have r2 : Reach (ranks a.P (fun r => callL searchPort (searchProg a.P r a.srt a.part a.draw (a.partS r) (a.nthS r) fuel n
          core X1)) s1) (ranks a.P (fun _ => []) fun r => searchPort.set (st2 r) (s1 r)) := by
        refine ranks_port a.P lawful_search _ s1 st2 ?_
        exact ranks_outside a.P _ (fun r hr => by rw [es1 r hr]; rfl) hreach
      have r2' : Reach (ranks a.P (fun r => [.dyn fun m => callL searchPort (searchProg a.P r a.srt a.part a.draw (a.partS r)
          (a.nthS r) fuel n (a.core m) m.X)]) s1) (ranks a.P (fun _ => []) fun r => searchPort.set (st2 r) (s1 r)) := by
        refine ranks_choice a.P (fun r m => callL searchPort (searchProg a.P r a.srt a.part a.draw (a.partS r)
          (a.nthS r) fuel n (a.core m) m.X)) (cast ?_ r2)
        congr 1
        apply ranks_congr
        intro r hr
        simp only [AsciPar.core, es1 r hr, ← hcore]
      have r3 := ranks_local (T := AsciMsg M) a.P (fun _ => [iterFound]) (fun r => searchPort.set (st2 r) (s1 r))
      set s3 : Nat → AsciMem M := fun r => if r < a.P then runComps [iterFound] (searchPort.set (st2 r) (s1 r))
        else searchPort.set (st2 r) (s1 r) with hs3
      have es3 : ∀ r < a.P, s3 r = { s r with wfn := w2, X := X1, search := st' r } := by
        intro r hr
        obtain ⟨e1, e2⟩ := hst' r hr
        simp only [hs3, hr, if_true, runComps, List.foldl_cons, List.foldl_nil, es1 r hr, hst2, searchPort, iterFound, e2, e1,
          hs.err r hr, Bool.or_false]
      -- the diagonalisation
      obtain ⟨s4, r4, es4⟩ := diag_reach hb (by omega) ht hm garbage h w2 (by omega) s3 (fun r hr => by
        rw [es3 r hr]; exact ⟨hs.h r hr, rfl⟩)
      have hpre := fun (q : Nat → List (Instr (AsciMem M) (AsciMsg M))) s' (hq : Reach (ranks a.P q s4) (ranks a.P (fun _ => []) s')) =>
        ranks_seq a.P r1 (ranks_seq a.P r2' (ranks_seq a.P r3 (ranks_seq a.P r4 hq)))
      cases hd : (jointEnv a).diag h w2 with
      | none =>
        have hd' : jointDiag a h w2 = none := hd
        dsimp only
        refine ⟨s4, hpre _ s4 (andThen_skip a.P (fun r => gatherProg a.P r ++ comps [iterEnergy]) s4 ?_), ?_⟩
        · intro r hr
          obtain ⟨d, hd⟩ := es4 r hr
          rw [hd'] at hd
          dsimp only at hd
          rw [hd]
        · intro r hr
          obtain ⟨d, hd⟩ := es4 r hr
          rw [hd'] at hd
          dsimp only at hd
          rw [hd, es3 r hr]
          exact ⟨rfl, hs.err r hr⟩
      | some Ex =>
        obtain ⟨E, x⟩ := Ex
        have hd' : jointDiag a h w2 = some (E, x) := hd
        dsimp only
        have es4' : ∀ r < a.P, ∃ d, s4 r =
            { s r with wfn := w2, X := X1, search := st' r, dav := d, diagE := E, Xl := pieceOf a.P x r } := by
          intro r hr
          obtain ⟨d, hd⟩ := es4 r hr
          rw [hd'] at hd
          dsimp only at hd
          refine ⟨d, ?_⟩
          rw [hd.1, es3 r hr]
        have hxl : x.length = w2.length := by
          obtain ⟨d, hd⟩ := es4 0 (by omega)
          rw [hd'] at hd
          exact hd.2
        obtain ⟨s5, r5, es5⟩ := gather_reach a.P (by omega) x s4
          (fun r hr => by obtain ⟨d, e⟩ := es4' r hr; rw [e]; exact hxl.symm)
          (fun r hr => by obtain ⟨d, e⟩ := es4' r hr; rw [e])
        have r6 := ranks_local (T := AsciMsg M) a.P (fun _ => [iterEnergy]) s5
        refine ⟨hw2, _, hpre _ _ (andThen_go a.P (fun r => gatherProg a.P r ++ comps [iterEnergy]) ?_ (ranks_seq a.P r5 r6)), ?_, ?_⟩
        · intro r hr
          obtain ⟨d, e⟩ := es4' r hr
          rw [e]; exact hs.thrown r hr
        · constructor <;> intro r hr <;> obtain ⟨d, e⟩ := es4' r hr <;>
            simp only [hr, if_true, runComps, List.foldl_cons, List.foldl_nil, iterEnergy, es5 r hr, e]
          · exact hs.h r hr
          · exact hs.E0 r hr
          · exact hs.energies r hr
          · exact hs.thrown r hr
          · exact hs.err r hr
        · intro r hr
          obtain ⟨d, e⟩ := es4' r hr
          simp only [hr, if_true, runComps, List.foldl_cons, List.foldl_nil, iterEnergy, es5 r hr, e]

end Macis
