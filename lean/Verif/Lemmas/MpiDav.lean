import Verif.Lemmas.MpiQuick
import Verif.Lemmas.MpiLift
import Verif.Spec.MpiDav
import Verif.Props.MpiSpmv
/-! `p_davidson` rank by rank: the execution in which all ranks proceed phase by phase. -/
namespace Macis.Mpi
open Spec Spec.Mpi

/-- some rank's numbers are not finite -/
def anyNan (P : Nat) (st : Nat → DavSt) : Bool := (List.range P).any fun s => (st s).2.nan

theorem anyNan_of_uniform {P : Nat} (hP : 0 < P) {st : Nat → DavSt} {b : Bool} (h : ∀ r < P, (st r).2.nan = b) :
    anyNan P st = b := by
  unfold anyNan
  cases b with
  | true => exact List.any_eq_true.2 ⟨0, by simpa using hP, h 0 hP⟩
  | false =>
    rw [List.any_eq_false]
    intro r hr
    rw [h r (by simpa using hr)]
    simp

theorem foldl_putPart (L : Nat) (c : Nat → Nat → ℝ) (b : Nat → Bool) (S : List Nat) : ∀ (m : DavSt) (g : Nat → ℝ),
    m.2.sum = (List.range L).map g →
    S.foldl (fun x s => putPart (.inr (.part (b s) ((List.range L).map (c s)))) x) m
      = (m.1, { m.2 with sum := (List.range L).map fun j => g j + (S.map fun s => c s j).sum
                         nan := m.2.nan || S.any b }) := by
  induction S with
  | nil => intro m g hg; simp [← hg]
  | cons a S ih =>
    intro m g hg
    rw [List.foldl_cons]
    have e : putPart (.inr (.part (b a) ((List.range L).map (c a)))) m =
        (m.1, { m.2 with sum := (List.range L).map fun j => g j + c a j, nan := m.2.nan || b a }) := by
      simp only [putPart, hg, List.length_map, List.length_range, bne_self_eq_false, Bool.or_false]
      congr 2
      rw [List.zipWith_map]
      simp [List.zipWith_self]
    rw [e, ih _ (fun j => g j + c a j) rfl]
    simp only [List.map_cons, List.sum_cons, List.any_cons, Bool.or_assoc, add_assoc]

/-- the state after a reduction -/
def redState (P L : Nat) (f : Nat → DavMem → Nat → ℝ) (st : Nat → DavSt) : Nat → DavSt := fun r =>
  if r < P then ((st r).1, { (st r).2 with
    buf := (List.range L).map (f r (st r).2)
    sum := (List.range L).map fun j => ∑ s ∈ Finset.range P, f s (st s).2 j
    nan := anyNan P st }) else st r

theorem reduce_reach (P L : Nat) (f : Nat → DavMem → Nat → ℝ) (rest : Nat → List (Instr DavSt DavMs))
    (st : Nat → DavSt) :
    Reach (ranks P (fun r => reduceProg P (fun m => (List.range L).map (f r m)) ++ rest r) st)
      (ranks P rest (redState P L f st)) := by
  have r1 := ranks_comps (μ := DavMs) P (fun r => [fun m : DavSt => (m.1, { m.2 with
      buf := (List.range L).map (f r m.2), sum := List.replicate ((List.range L).map (f r m.2)).length 0 })])
    (fun r => isends coll ((List.range P).map fun d => (d, fun m : DavSt => (.inr (.part m.2.nan m.2.buf) : DavMs))) ++
      (recvs coll ((List.range P).map fun s => (s, putPart)) ++ rest r)) st
  set st1 : Nat → DavSt := fun r => if r < P then runComps [fun m : DavSt => (m.1, { m.2 with
      buf := (List.range L).map (f r m.2), sum := List.replicate ((List.range L).map (f r m.2)).length 0 })] (st r)
      else st r with hst1
  have r2 := ranks_gather P coll (fun _ m => (.inr (.part m.2.nan m.2.buf) : DavMs)) (fun _ => putPart) rest st1
  refine cast ?_ (r1.trans r2)
  congr 1
  · apply ranks_congr
    intro r _
    simp only [reduceProg, List.append_assoc]
  · congr 1
    funext r
    by_cases hr : r < P
    · have e : ∀ s < P, st1 s = ((st s).1, { (st s).2 with
          buf := (List.range L).map (f s (st s).2), sum := (List.range L).map fun _ => 0 }) := by
        intro s hs
        simp only [hst1, hs, if_true, runComps, List.foldl_cons, List.foldl_nil, List.length_map, List.length_range]
        congr 2
        simp
      simp only [redState, hr, if_true]
      have e2 : (List.range P).foldl (fun x s => putPart (.inr (.part (st1 s).2.nan (st1 s).2.buf)) x) (st1 r)
          = (List.range P).foldl (fun x s => putPart (.inr (.part (st s).2.nan ((List.range L).map (f s (st s).2)))) x) (st1 r) := by
        apply List.foldl_ext
        intro a s hs
        rw [e s (by simpa using hs)]
      rw [e2, foldl_putPart L (fun s => f s (st s).2) (fun s => (st s).2.nan) _ _ (fun _ => 0) (by rw [e r hr])]
      simp only [e r hr, zero_add]
      have e3 : ((st r).2.nan || anyNan P st) = anyNan P st := by
        cases hn : (st r).2.nan with
        | false => rfl
        | true =>
          rw [Bool.true_or]
          exact (List.any_eq_true.2 ⟨r, by simpa using hr, hn⟩).symm
      congr 2
    · simp [redState, hr, hst1]

/-- the pieces of column `j` of `V` -/
def colV {P : Nat} (nl : Fin P → Nat) (st : Nat → DavSt) (j : Nat) : DistVec nl := fun r t => (st r).2.V j t
/-- the pieces of column `j` of `AV` -/
def colAV {P : Nat} (nl : Fin P → Nat) (st : Nat → DavSt) (j : Nat) : DistVec nl := fun r t => (st r).2.AV j t

theorem pdot_range {P : Nat} (n : Nat → Nat) (x y : Nat → Nat → ℝ) :
    ∑ s ∈ Finset.range P, ∑ t ∈ Finset.range (n s), x s t * y s t
      = pdot (nl := fun r : Fin P => n r) (fun r t => x r t) (fun r t => y r t) := by
  unfold pdot
  rw [Finset.sum_range]
  apply Finset.sum_congr rfl
  intro r _
  rw [Finset.sum_range]

/-- what a block of work on column `k` of `V` leaves alone -/
structure SameBut (P k : Nat) (st st' : Nat → DavSt) : Prop where
  spmv : ∀ r < P, (st' r).1 = (st r).1
  V : ∀ r < P, ∀ j, j ≠ k → (st' r).2.V j = (st r).2.V j
  AV : ∀ r < P, (st' r).2.AV = (st r).2.AV
  X : ∀ r < P, (st' r).2.X = (st r).2.X
  lam : ∀ r < P, (st' r).2.lam = (st r).2.lam
  c : ∀ r < P, (st' r).2.c = (st r).2.c
  out : ∀ r < P, (st' r).2.out = (st r).2.out
  err : ∀ r < P, (st' r).2.err = (st r).2.err

theorem SameBut.trans {P k : Nat} {a b c : Nat → DavSt} (h : SameBut P k a b) (h' : SameBut P k b c) : SameBut P k a c where
  spmv r hr := (h'.spmv r hr).trans (h.spmv r hr)
  V r hr j hj := (h'.V r hr j hj).trans (h.V r hr j hj)
  AV r hr := (h'.AV r hr).trans (h.AV r hr)
  X r hr := (h'.X r hr).trans (h.X r hr)
  lam r hr := (h'.lam r hr).trans (h.lam r hr)
  c r hr := (h'.c r hr).trans (h.c r hr)
  out r hr := (h'.out r hr).trans (h.out r hr)
  err r hr := (h'.err r hr).trans (h.err r hr)

theorem redState_same (P k L : Nat) (f : Nat → DavMem → Nat → ℝ) (st : Nat → DavSt) :
    SameBut P k st (redState P L f st) := by
  constructor <;> (intro r hr; simp [redState, hr])

theorem getD_map_range (L : Nat) (f : Nat → ℝ) {j : Nat} (h : j < L) : ((List.range L).map f).getD j 0 = f j := by
  rw [List.getD_eq_getElem _ _ (by simpa using h)]
  simp

theorem gsPass_reach (P : Nat) (n : Nat → Nat) (k : Nat) (rest : Nat → List (Instr DavSt DavMs)) (st : Nat → DavSt) :
    ∃ st', Reach (ranks P (fun r => gsPass P (n r) k ++ rest r) st) (ranks P rest st') ∧ SameBut P k st st' ∧
      (∀ r < P, (st' r).2.nan = anyNan P st) ∧
      colV (fun r : Fin P => n r) st' k = pprojectOut k (colV (fun r : Fin P => n r) st) (colV (fun r : Fin P => n r) st k) := by
  have r1 := reduce_reach P k (fun r m j => ∑ t ∈ Finset.range (n r), m.V j t * m.V k t)
    (fun r => comps [gsProject k] ++ rest r) st
  set st1 := redState P k (fun r m j => ∑ t ∈ Finset.range (n r), m.V j t * m.V k t) st with hst1
  have r2 := ranks_comps (μ := DavMs) P (fun _ => [gsProject k]) rest st1
  set st2 : Nat → DavSt := fun r => if r < P then runComps [gsProject k] (st1 r) else st1 r with hst2
  have e2 : ∀ r < P, st2 r = gsProject k (st1 r) := by intro r hr; simp [hst2, hr, runComps]
  refine ⟨st2, ?_, ?_, ?_, ?_⟩
  · refine cast ?_ (r1.trans r2)
    congr 1
    apply ranks_congr
    intro r _
    simp only [gsPass, List.append_assoc]
  · have h1 : SameBut P k st st1 := redState_same P k k _ st
    refine h1.trans ?_
    constructor <;> intro r hr <;> rw [e2 r hr] <;> try rfl
    intro j hj
    simp [gsProject, hj]
  · intro r hr
    rw [e2 r hr]
    simp [gsProject, hr, hst1, redState]
  · funext r t
    simp only [colV, e2 r r.2, gsProject, Function.update_self, pprojectOut, pcombine]
    simp only [hst1, redState, r.2, if_true]
    congr 1
    apply Finset.sum_congr rfl
    intro j hj
    rw [getD_map_range _ _ (Finset.mem_range.1 hj)]
    congr 1
    exact pdot_range n (fun r t => (st r).2.V j t) (fun r t => (st r).2.V k t)

theorem anyNan_congr {P : Nat} {st st' : Nat → DavSt} (h : ∀ r < P, (st' r).2.nan = (st r).2.nan) :
    anyNan P st' = anyNan P st := by
  unfold anyNan
  rw [Bool.eq_iff_iff, List.any_eq_true, List.any_eq_true]
  constructor
  · rintro ⟨r, hr, e⟩
    exact ⟨r, hr, by rw [← h r (by simpa using hr)]; exact e⟩
  · rintro ⟨r, hr, e⟩
    exact ⟨r, hr, by rw [h r (by simpa using hr)]; exact e⟩

theorem SameBut.colV_ne {P k : Nat} {st st' : Nat → DavSt} (h : SameBut P k st st') (nl : Fin P → Nat) {j : Nat} (hj : j ≠ k) :
    colV nl st' j = colV nl st j := by
  funext r t
  simp only [colV, h.V r r.2 j hj]

theorem pprojectOut_congr {P : Nat} {nl : Fin P → Nat} (k : Nat) {V V' : Nat → DistVec nl} (h : ∀ j < k, V j = V' j) (w : DistVec nl) :
    pprojectOut k V w = pprojectOut k V' w := by
  funext r t
  simp only [pprojectOut, pcombine]
  congr 1
  apply Finset.sum_congr rfl
  intro j hj
  rw [h j (Finset.mem_range.1 hj)]

/-- `p_gram_schmidt`, all ranks together -/
theorem gs_reach (P : Nat) (hP : 0 < P) (n : Nat → Nat) (k : Nat) (rest : Nat → List (Instr DavSt DavMs)) (st : Nat → DavSt) :
    ∃ st', Reach (ranks P (fun r => gsProg P (n r) k ++ rest r) st) (ranks P rest st') ∧ SameBut P k st st' ∧
      match pgramSchmidt k (colV (fun r : Fin P => n r) st) (colV (fun r : Fin P => n r) st k) with
      | none => ∀ r < P, (st' r).2.nan = true
      | some w => (∀ r < P, (st' r).2.nan = anyNan P st) ∧ colV (fun r : Fin P => n r) st' k = w := by
  set nl : Fin P → Nat := fun r => n r with hnl
  obtain ⟨st1, r1, s1, n1, v1⟩ := gsPass_reach P n k (fun r => gsPass P (n r) k ++
    (dotProg P (n r) k ++ (comps [gsScale k] ++ rest r))) st
  obtain ⟨st2, r2, s2, n2, v2⟩ := gsPass_reach P n k (fun r => dotProg P (n r) k ++ (comps [gsScale k] ++ rest r)) st1
  have r3 := reduce_reach P 1 (fun r m _ => ∑ t ∈ Finset.range (n r), m.V k t * m.V k t) (fun r => comps [gsScale k] ++ rest r) st2
  set st3 := redState P 1 (fun r m _ => ∑ t ∈ Finset.range (n r), m.V k t * m.V k t) st2 with hst3
  have r4 := ranks_comps (μ := DavMs) P (fun _ => [gsScale k]) rest st3
  set st4 : Nat → DavSt := fun r => if r < P then runComps [gsScale k] (st3 r) else st3 r with hst4
  have e4 : ∀ r < P, st4 r = gsScale k (st3 r) := by intro r hr; simp [hst4, hr, runComps]
  have hsum : ∀ r < P, (st3 r).2.sum.getD 0 0 = pdot (colV nl st2 k) (colV nl st2 k) := by
    intro r hr
    simp only [hst3, redState, hr, if_true]
    exact pdot_range n (fun r t => (st2 r).2.V k t) (fun r t => (st2 r).2.V k t)
  have hV3 : ∀ r < P, (st3 r).2.V = (st2 r).2.V := by
    intro r hr
    simp only [hst3, redState, hr, if_true]
  have hn3 : ∀ r < P, (st3 r).2.nan = anyNan P st := by
    intro r hr
    simp only [hst3, redState, hr, if_true]
    rw [anyNan_of_uniform hP n2, anyNan_of_uniform hP n1]
  have hw : colV nl st2 k = pprojectOut k (colV nl st) (pprojectOut k (colV nl st) (colV nl st k)) := by
    rw [v2, v1]
    exact pprojectOut_congr k (fun j hj => s1.colV_ne nl (by omega)) _
  refine ⟨st4, ?_, ?_, ?_⟩
  · refine cast ?_ (r1.trans (r2.trans (r3.trans r4)))
    congr 1
    apply ranks_congr
    intro r _
    simp only [gsProg, List.append_assoc]
  · have h1 : SameBut P k st2 st3 := redState_same P k 1 _ st2
    refine (s1.trans (s2.trans h1)).trans ?_
    constructor <;> intro r hr <;> rw [e4 r hr] <;> try rfl
    intro j hj
    simp [gsScale, hj]
  · unfold pgramSchmidt
    dsimp only
    rw [← hw]
    by_cases h0 : Real.sqrt (pdot (colV nl st2 k) (colV nl st2 k)) = 0
    · rw [if_pos h0]
      intro r hr
      rw [e4 r hr]
      simp only [gsScale, hsum r hr, h0, decide_true, Bool.or_true]
    · rw [if_neg h0]
      refine ⟨?_, ?_⟩
      · intro r hr
        rw [e4 r hr]
        simp only [gsScale, hsum r hr, h0, decide_false, Bool.or_false, hn3 r hr]
      · funext r t
        simp only [colV, e4 r r.2, gsScale, hsum r r.2, Function.update_self, hV3 r r.2]

/-! ### the product -/

/-- the distributed matrix as an operator on the pieces of a vector -/
noncomputable def distOp {P : Nat} (A : Nat → DistCsr ℝ) (N : Nat) (ext : List (Nat × Nat)) (nl : Fin P → Nat) (x : DistVec nl) :
    DistVec nl := fun r t =>
  ∑ j ∈ Finset.range N, distEntry (A r) (ext.getD r (0, 0)).1 (ext.getD r (0, 0)).2 t j *
    globalVec ext (fun q i => if h : q < P then (if h' : i < nl ⟨q, h⟩ then x ⟨q, h⟩ ⟨i, h'⟩ else 0) else 0) j

theorem globalVec_congr' {ext : List (Nat × Nat)} {V V' : Nat → Nat → ℝ}
    (h : ∀ q < ext.length, ∀ i < rowsOf ext q, V q i = V' q i) (j : Nat) : globalVec ext V j = globalVec ext V' j := by
  unfold globalVec
  split
  · rename_i q hq
    obtain ⟨hq', h1, -⟩ := List.findIdx?_eq_some_iff_getElem.1 hq
    apply h q hq'
    simp only [Bool.and_eq_true, decide_eq_true_eq] at h1
    unfold rowsOf
    rw [List.getD_eq_getElem _ _ hq']
    omega
  · rfl

theorem act_reach {A : Nat → DistCsr ℝ} {P N : Nat} {ext : List (Nat × Nat)} (h : DistributedMatrix A P N ext)
    (garbage : Nat → Nat → ℝ) (i : Nat) (rest : Nat → List (Instr DavSt DavMs)) (st : Nat → DavSt)
    (hinfo : ∀ r < P, (st r).1.info = spmvInfo A r) :
    ∃ st', Reach (ranks P (fun r => actProg (A r) (garbage r) i ++ rest r) st) (ranks P rest st') ∧
      (∀ r < P, (st' r).1.info = spmvInfo A r ∧ (st' r).1.err = (st r).1.err ∧
        ∃ w, (st' r).2 = { (st r).2 with AV := Function.update (st r).2.AV i w }) ∧
      colAV (fun r : Fin P => rowsOf ext r) st' i =
        distOp A N ext (fun r : Fin P => rowsOf ext r) (colV (fun r : Fin P => rowsOf ext r) st i) := by
  have r1 := ranks_comps (μ := DavMs) P (fun _ => [actLoad i]) (fun r =>
    liftL (fun e : DavMem => { e with err := true }) (spmvProg (A r) 1 0 (garbage r)) ++ (comps [actStore i] ++ rest r)) st
  set st1 : Nat → DavSt := fun r => if r < P then runComps [actLoad i] (st r) else st r with hst1
  have e1 : ∀ r < P, st1 r = actLoad i (st r) := by intro r hr; simp [hst1, hr, runComps]
  obtain ⟨q, hq, hq1, -⟩ := spmv_reach h 1 0 garbage (fun _ => []) (fun r => (st1 r).1) (by
    intro r hr; rw [e1 r hr]; exact hinfo r hr)
  simp only [List.append_nil] at hq
  have r2 := ranks_call P (fun e : DavMem => { e with err := true }) (fun r => spmvProg (A r) 1 0 (garbage r))
    (fun r => comps [actStore i] ++ rest r) (fun r => (st1 r).1) q (fun r => (st1 r).2) hq
  have r3 := ranks_comps (μ := DavMs) P (fun _ => [actStore i]) rest (fun r => (q r, (st1 r).2))
  set st3 : Nat → DavSt := fun r => if r < P then runComps [actStore i] (q r, (st1 r).2) else (q r, (st1 r).2) with hst3
  have e3 : ∀ r < P, st3 r = actStore i (q r, (st1 r).2) := by intro r hr; simp [hst3, hr, runComps]
  refine ⟨st3, ?_, ?_, ?_⟩
  · refine cast ?_ (r1.trans (r2.trans r3))
    congr 1
  · intro r hr
    obtain ⟨a, -, -, d⟩ := hq1 r hr
    rw [e3 r hr]
    refine ⟨a, ?_, (q r).AV, ?_⟩
    · show (q r).err = _
      rw [d, e1 r hr, actLoad]
    · simp only [actStore, e1 r hr, actLoad]
  · funext r t
    obtain ⟨-, -, c, -⟩ := hq1 r r.2
    simp only [colAV, e3 r r.2, actStore, Function.update_self]
    rw [c, pgespmv_full h _ _ _ _ _ r.2]
    have ht : (t : Nat) < (ext.getD r (0, 0)).2 - (ext.getD r (0, 0)).1 := t.2
    dsimp only
    rw [if_pos ht, one_mul, zero_mul, add_zero]
    unfold distOp
    apply Finset.sum_congr rfl
    intro j _
    congr 1
    apply globalVec_congr'
    intro s hs k hk
    rw [h.partition.length_eq] at hs
    rw [dif_pos hs, dif_pos hk, e1 s hs]
    rfl

/-! ### Rayleigh-Ritz -/

theorem bcast_reach (P : Nat) (hP : 0 < P) (m : DavSt → DavMs) (k : DavMs → DavSt → DavSt)
    (rest : Nat → List (Instr DavSt DavMs)) (st : Nat → DavSt) :
    Reach (ranks P (fun r => bcastProg P r m k ++ rest r) st)
      (ranks P rest fun r => if r < P then (if r = 0 then st r else k (m (st 0)) (st r)) else st r) := by
  refine cast ?_ (ranks_bcast P coll 0 hP m k rest st)
  congr 1
  apply ranks_congr
  intro r _
  simp only [bcastProg, List.append_assoc]

theorem rr_reach {eig : Nat → (Nat → Nat → ℝ) → ℝ × (Nat → ℝ)} (he : EigLocal eig) (P : Nat) (hP : 0 < P) (n : Nat → Nat)
    (k : Nat) (rest : Nat → List (Instr DavSt DavMs)) (st : Nat → DavSt) :
    ∃ st', Reach (ranks P (fun r => rrProg eig P r (n r) k ++ rest r) st) (ranks P rest st') ∧
      ∀ r < P, (st' r).1 = (st r).1 ∧ (st' r).2.V = (st r).2.V ∧ (st' r).2.AV = (st r).2.AV ∧
        (st' r).2.X = (st r).2.X ∧ (st' r).2.out = (st r).2.out ∧ (st' r).2.err = (st r).2.err ∧
        (st' r).2.nan = anyNan P st ∧
        (st' r).2.lam = (eig k fun p q => pdot (colV (fun r : Fin P => n r) st p) (colAV (fun r : Fin P => n r) st q)).1 ∧
        ∀ j < k, (st' r).2.c j =
          (eig k fun p q => pdot (colV (fun r : Fin P => n r) st p) (colAV (fun r : Fin P => n r) st q)).2 j := by
  set nl : Fin P → Nat := fun r => n r with hnl
  have r1 := reduce_reach P (k * k) (fun r m e => ∑ t ∈ Finset.range (n r), m.V (e % k) t * m.AV (e / k) t) (fun r =>
    comps (if r = 0 then [rrSolve eig k] else []) ++ (bcastProg P r (fun m => .inr (.value m.2.nan m.2.lam)) putValue ++
    (bcastProg P r (fun m => .inr (.vector m.2.nan ((List.range k).map m.2.c))) (putVector k) ++ rest r))) st
  set st1 := redState P (k * k) (fun r m e => ∑ t ∈ Finset.range (n r), m.V (e % k) t * m.AV (e / k) t) st with hst1
  have r2 := ranks_comps (μ := DavMs) P (fun r => if r = 0 then [rrSolve eig k] else []) (fun r =>
    bcastProg P r (fun m => .inr (.value m.2.nan m.2.lam)) putValue ++
    (bcastProg P r (fun m => .inr (.vector m.2.nan ((List.range k).map m.2.c))) (putVector k) ++ rest r)) st1
  set st2 : Nat → DavSt := fun r => if r < P then runComps (if r = 0 then [rrSolve eig k] else []) (st1 r) else st1 r with hst2
  have r3 := bcast_reach P hP (fun m => .inr (.value m.2.nan m.2.lam)) putValue (fun r =>
    bcastProg P r (fun m => .inr (.vector m.2.nan ((List.range k).map m.2.c))) (putVector k) ++ rest r) st2
  set st3 : Nat → DavSt := fun r => if r < P then (if r = 0 then st2 r else
    putValue (.inr (.value (st2 0).2.nan (st2 0).2.lam)) (st2 r)) else st2 r with hst3
  have r4 := bcast_reach P hP (fun m => .inr (.vector m.2.nan ((List.range k).map m.2.c))) (putVector k) rest st3
  set st4 : Nat → DavSt := fun r => if r < P then (if r = 0 then st3 r else
    putVector k (.inr (.vector (st3 0).2.nan ((List.range k).map (st3 0).2.c))) (st3 r)) else st3 r with hst4
  have hsum : ∀ p < k, ∀ q < k, (st1 0).2.sum.getD (p + q * k) 0 = pdot (colV nl st p) (colAV nl st q) := by
    intro p hp q hq
    simp only [hst1, redState, hP, if_true]
    have hlt : p + q * k < k * k := by
      calc p + q * k < k + q * k := by omega
        _ = (q + 1) * k := by ring
        _ ≤ k * k := Nat.mul_le_mul_right _ (by omega)
    rw [getD_map_range _ _ hlt, Nat.add_mul_mod_self_right, Nat.mod_eq_of_lt hp, Nat.add_mul_div_right _ _ (by omega),
      Nat.div_eq_of_lt hp, Nat.zero_add]
    exact pdot_range n (fun r t => (st r).2.V p t) (fun r t => (st r).2.AV q t)
  have heig : eig k (fun p q => (st1 0).2.sum.getD (p + q * k) 0) =
      eig k fun p q => pdot (colV nl st p) (colAV nl st q) := he k _ _ hsum
  set E := eig k fun p q => pdot (colV nl st p) (colAV nl st q) with hE
  have e1 : ∀ r < P, st1 r = ((st r).1, { (st r).2 with
      buf := (st1 r).2.buf, sum := (st1 r).2.sum, nan := anyNan P st }) := by
    intro r hr
    simp only [hst1, redState, hr, if_true]
  have e20 : st2 0 = ((st 0).1, { (st 0).2 with
      buf := (st1 0).2.buf, sum := (st1 0).2.sum, nan := anyNan P st, lam := E.1, c := E.2 }) := by
    have : st2 0 = rrSolve eig k (st1 0) := by simp [hst2, hP, runComps]
    rw [this]
    simp only [rrSolve, heig]
    rw [e1 0 hP]
  have e2 : ∀ r < P, r ≠ 0 → st2 r = st1 r := by
    intro r hr h0
    simp [hst2, hr, h0, runComps]
  have e30 : st3 0 = st2 0 := by simp [hst3]
  refine ⟨st4, ?_, ?_⟩
  · refine cast ?_ (r1.trans (r2.trans (r3.trans r4)))
    congr 1
    apply ranks_congr
    intro r _
    simp only [rrProg, List.append_assoc]
  · intro r hr
    by_cases h0 : r = 0
    · subst h0
      have : st4 0 = st2 0 := by simp [hst4, hst3]
      rw [this, e20]
      exact ⟨rfl, rfl, rfl, rfl, rfl, rfl, rfl, rfl, fun _ _ => rfl⟩
    · have e4 : st4 r = putVector k (.inr (.vector (st2 0).2.nan ((List.range k).map (st2 0).2.c)))
          (putValue (.inr (.value (st2 0).2.nan (st2 0).2.lam)) (st1 r)) := by
        simp only [hst4, hr, h0, if_true, if_false, e30]
        congr 1
        simp only [hst3, hr, h0, if_true, if_false, e2 r hr h0]
      rw [e4, e20]
      simp only [putVector, putValue, List.length_map, List.length_range, bne_self_eq_false, Bool.or_false]
      rw [e1 r hr]
      simp only [true_and, Bool.or_self]
      intro j hj
      exact getD_map_range _ _ hj

/-! ### the iterations -/

/-- what a rank reports for a result of the solver -/
def Reports {P : Nat} {nl : Fin P → Nat} (R : DavResult (DistVec nl)) (r : Fin P) (m : DavMem) : Prop :=
  match R with
  | .converged i lam x => m.out = .converged i lam ∧ ∀ t : Fin (nl r), m.X t = x r t
  | .notConverged => m.out = .failed
  | .breakdown => m.out = .failed
  | .ub => False

theorem pcombine_congr {P : Nat} {nl : Fin P → Nat} (k : Nat) (V : Nat → DistVec nl) {c c' : Nat → ℝ} (h : ∀ j < k, c j = c' j) :
    pcombine k V c = pcombine k V c' := by
  funext r t
  apply Finset.sum_congr rfl
  intro j hj
  rw [h j (Finset.mem_range.1 hj)]

open Classical in
theorem iter_reach {A : Nat → DistCsr ℝ} {P N : Nat} {ext : List (Nat × Nat)} (h : DistributedMatrix A P N ext)
    {eig : Nat → (Nat → Nat → ℝ) → ℝ × (Nat → ℝ)} (he : EigLocal eig) (hP : 0 < P) (garbage : Nat → Nat → Nat → ℝ)
    (D : Nat → Nat → ℝ) (tol : ℝ) (f : Nat) : ∀ (i : Nat) (st : Nat → DavSt) (b : Bool),
    (∀ r < P, (st r).1.info = spmvInfo A r) → (∀ r < P, (st r).2.nan = b) →
    ∃ st', Reach (ranks P (fun r => davIter eig P r (rowsOf ext r) (A r) (garbage r) (D r) tol f i) st)
        (ranks P (fun _ => []) st') ∧
      ∀ r : Fin P, (st' r).1.err = (st r).1.err ∧ (st' r).2.err = (st r).2.err ∧
        (b = true → (st' r).2.out = .failed) ∧
        (b = false → Reports (pdavLoop (distOp A N ext fun r : Fin P => rowsOf ext r) (fun r t => D r t) tol eig f i
          (colV _ st) (colAV _ st)) r (st' r).2) := by
  set nl : Fin P → Nat := fun r => rowsOf ext r with hnl
  induction f with
  | zero =>
    intro i st b hi hn
    have r1 := ranks_comps (μ := DavMs) P (fun _ => [davFail]) (fun _ => []) st
    refine ⟨fun r => if r < P then runComps [davFail] (st r) else st r, ?_, ?_⟩
    · refine cast ?_ r1
      congr 1
    · intro r
      simp only [r.2, if_true, runComps, List.foldl_cons, List.foldl_nil, pdavLoop]
      exact ⟨rfl, rfl, fun _ => rfl, fun _ => rfl⟩
  | succ f ih =>
    intro i st b hi hn
    set dynf : Nat → DavSt → List (Instr DavSt DavMs) := fun r m =>
      if m.2.nan = false ∧ Real.sqrt (m.2.sum.getD 0 0) < tol then
        comps [davAccept i]
      else (comps [davDivide (rowsOf ext r) (D r) i] ++ (gsProg P (rowsOf ext r) (i + 1) ++
          davIter eig P r (rowsOf ext r) (A r) (garbage r) (D r) tol f (i + 1))) with hdyn
    obtain ⟨st1, r1, p1, a1⟩ := act_reach h (fun r => garbage r i) i (fun r => rrProg eig P r (rowsOf ext r) (i + 1) ++
      (comps [davResidual i] ++ (dotProg P (rowsOf ext r) (i + 1) ++ [.dyn (dynf r)]))) st hi
    obtain ⟨st2, r2, p2⟩ := rr_reach he P hP (rowsOf ext) (i + 1) (fun r =>
      comps [davResidual i] ++ (dotProg P (rowsOf ext r) (i + 1) ++ [.dyn (dynf r)])) st1
    have r3 := ranks_comps (μ := DavMs) P (fun _ => [davResidual i]) (fun r =>
      dotProg P (rowsOf ext r) (i + 1) ++ [.dyn (dynf r)]) st2
    set st3 : Nat → DavSt := fun r => if r < P then runComps [davResidual i] (st2 r) else st2 r with hst3
    have e3 : ∀ r < P, st3 r = davResidual i (st2 r) := by intro r hr; simp [hst3, hr, runComps]
    have r4 := reduce_reach P 1 (fun r m _ => ∑ t ∈ Finset.range (rowsOf ext r), m.V (i + 1) t * m.V (i + 1) t)
      (fun r => [.dyn (dynf r)]) st3
    set st4 := redState P 1 (fun r m _ => ∑ t ∈ Finset.range (rowsOf ext r), m.V (i + 1) t * m.V (i + 1) t) st3 with hst4
    have r5 := ranks_dyn P dynf (fun _ => []) st4
    have hV1 : ∀ r < P, (st1 r).2.V = (st r).2.V := by
      intro r hr; obtain ⟨-, -, w, e⟩ := p1 r hr; rw [e]
    have hn1 : anyNan P st1 = b := anyNan_of_uniform hP (by
      intro r hr; obtain ⟨-, -, w, e⟩ := p1 r hr; rw [e]; exact hn r hr)
    have hcV1 : colV nl st1 = colV nl st := by funext j r t; simp only [colV, hV1 r r.2]
    have hcA1 : colAV nl st1 = Function.update (colAV nl st) i (distOp A N ext nl (colV nl st i)) := by
      funext j
      by_cases hj : j = i
      · subst hj; rw [Function.update_self]; exact a1
      · rw [Function.update_of_ne hj]
        funext r t
        obtain ⟨-, -, w, e⟩ := p1 r r.2
        simp only [colAV, e, Function.update_of_ne hj]
    set V := colV nl st with hV
    set AV := Function.update (colAV nl st) i (distOp A N ext nl (V i)) with hAV
    set E := eig (i + 1) fun p q => pdot (V p) (AV q) with hE
    have p2' : ∀ r < P, (st2 r).1 = (st1 r).1 ∧ (st2 r).2.V = (st r).2.V ∧ (st2 r).2.AV = (st1 r).2.AV ∧
        (st2 r).2.out = (st1 r).2.out ∧ (st2 r).2.err = (st r).2.err ∧ (st2 r).2.nan = b ∧
        (st2 r).2.lam = E.1 ∧ ∀ j < i + 1, (st2 r).2.c j = E.2 j := by
      intro r hr
      obtain ⟨q1, q2, q3, -, q5, q6, q7, q8, q9⟩ := p2 r hr
      obtain ⟨-, -, w, e⟩ := p1 r hr
      rw [hcV1, hcA1] at q8 q9
      refine ⟨q1, q2.trans (hV1 r hr), q3, q5, ?_, q7.trans hn1, q8, q9⟩
      rw [q6, e]
    set x : DistVec nl := pcombine (i + 1) V E.2 with hx
    set res : DistVec nl := fun r t => pcombine (i + 1) AV E.2 r t - E.1 * x r t with hres
    have hX3 : ∀ r : Fin P, ∀ t : Fin (nl r), (st3 r).2.X t = x r t := by
      intro r t
      obtain ⟨-, q2, -, -, -, -, -, q8⟩ := p2' r r.2
      simp only [e3 r r.2, davResidual, hx, pcombine, q2]
      apply Finset.sum_congr rfl
      intro j hj
      rw [q8 j (Finset.mem_range.1 hj)]
      rfl
    have hR3 : colV nl st3 = Function.update V (i + 1) res := by
      funext j
      by_cases hj : j = i + 1
      · subst hj
        rw [Function.update_self]
        funext r t
        obtain ⟨-, q2, q3, -, -, -, q7, q8⟩ := p2' r r.2
        have hx' := hX3 r t
        simp only [e3 r r.2, davResidual] at hx'
        simp only [colV, e3 r r.2, davResidual, Function.update_self, hres]
        rw [hx', q7]
        congr 1
        apply Finset.sum_congr rfl
        intro j hj
        rw [q8 j (Finset.mem_range.1 hj), q3, ← hcA1]
        rfl
      · rw [Function.update_of_ne hj]
        funext r t
        obtain ⟨-, q2, -⟩ := p2' r r.2
        simp only [colV, e3 r r.2, davResidual, Function.update_of_ne hj, q2, hV]
    have hn3 : ∀ r < P, (st3 r).2.nan = b := by
      intro r hr
      obtain ⟨-, -, -, -, -, q6, -⟩ := p2' r hr
      rw [e3 r hr]; exact q6
    have e4 : ∀ r < P, (st4 r).1 = (st1 r).1 ∧ (st4 r).2.V = (st3 r).2.V ∧ (st4 r).2.AV = (st1 r).2.AV ∧
        (st4 r).2.X = (st3 r).2.X ∧ (st4 r).2.err = (st r).2.err ∧ (st4 r).2.nan = b ∧ (st4 r).2.lam = E.1 ∧
        (st4 r).2.sum.getD 0 0 = pdot res res := by
      intro r hr
      obtain ⟨q1, q2, q3, q4, q5, q6, q7, q8⟩ := p2' r hr
      simp only [hst4, redState, hr, if_true]
      refine ⟨?_, trivial, ?_, trivial, ?_, anyNan_of_uniform hP hn3, ?_, ?_⟩
      · rw [e3 r hr]; exact q1
      · rw [e3 r hr]; exact q3
      · rw [e3 r hr]; exact q5
      · rw [e3 r hr]; exact q7
      · have := pdot_range (P := P) (rowsOf ext) (fun r t => (st3 r).2.V (i + 1) t) (fun r t => (st3 r).2.V (i + 1) t)
        have hc : colV nl st3 (i + 1) = res := by rw [hR3, Function.update_self]
        rw [← hc]
        exact this
    have r14 := r1.trans (r2.trans (r3.trans (r4.trans r5)))
    have hstart : ranks P (fun r => davIter eig P r (rowsOf ext r) (A r) (garbage r) (D r) tol (f + 1) i) st =
        ranks P (fun r => actProg (A r) (garbage r i) i ++ (rrProg eig P r (rowsOf ext r) (i + 1) ++
          (comps [davResidual i] ++ (dotProg P (rowsOf ext r) (i + 1) ++ [.dyn (dynf r)])))) st := by
      apply ranks_congr
      intro r _
      rw [davIter]
    rw [hstart]
    by_cases hconv : b = false ∧ Real.sqrt (pdot res res) < tol
    · -- converged
      have hd : ranks P (fun r => dynf r (st4 r) ++ []) st4 = ranks P (fun _ =>
          comps [davAccept i] ++ []) st4 := by
        apply ranks_congr
        intro r hr
        obtain ⟨-, -, -, -, -, q6, -, q8⟩ := e4 r hr
        simp only [hdyn]
        rw [if_pos (by rw [q6, q8]; exact hconv)]
      rw [hd] at r14
      have r6 := ranks_comps (μ := DavMs) P (fun _ => [davAccept i])
        (fun _ => []) st4
      refine ⟨fun r => if r < P then runComps [davAccept i] (st4 r) else st4 r, r14.trans r6, ?_⟩
      intro r
      obtain ⟨q1, -, -, q4, q5, -, q7, -⟩ := e4 r r.2
      simp only [r.2, if_true, runComps, List.foldl_cons, List.foldl_nil]
      refine ⟨?_, q5, ?_, ?_⟩
      · show (st4 r).1.err = _
        rw [q1]; exact (p1 r r.2).2.1
      · intro hb; rw [hconv.1] at hb; simp at hb
      · intro _
        unfold pdavLoop
        dsimp only
        rw [if_pos hconv.2]
        refine ⟨?_, ?_⟩
        · simp only [davAccept, q7, hE]
          rfl
        · intro t
          simp only [davAccept, q4]
          exact hX3 r t
    · -- another direction
      have hd : ranks P (fun r => dynf r (st4 r) ++ []) st4 = ranks P (fun r =>
          comps [davDivide (rowsOf ext r) (D r) i] ++ (gsProg P (rowsOf ext r) (i + 1) ++
          davIter eig P r (rowsOf ext r) (A r) (garbage r) (D r) tol f (i + 1))) st4 := by
        apply ranks_congr
        intro r hr
        obtain ⟨-, -, -, -, -, q6, -, q8⟩ := e4 r hr
        simp only [hdyn]
        rw [if_neg (by rw [q6, q8]; exact hconv), List.append_nil]
      rw [hd] at r14
      have r6 := ranks_comps (μ := DavMs) P (fun r => [davDivide (rowsOf ext r) (D r) i]) (fun r =>
        gsProg P (rowsOf ext r) (i + 1) ++ davIter eig P r (rowsOf ext r) (A r) (garbage r) (D r) tol f (i + 1)) st4
      set st5 : Nat → DavSt := fun r => if r < P then runComps [davDivide (rowsOf ext r) (D r) i] (st4 r) else st4 r with hst5
      have e5 : ∀ r < P, st5 r = davDivide (rowsOf ext r) (D r) i (st4 r) := by intro r hr; simp [hst5, hr, runComps]
      obtain ⟨st6, r7, s6, g6⟩ := gs_reach P hP (rowsOf ext) (i + 1) (fun r =>
        davIter eig P r (rowsOf ext r) (A r) (garbage r) (D r) tol f (i + 1)) st5
      have hinfo6 : ∀ r < P, (st6 r).1.info = spmvInfo A r := by
        intro r hr
        rw [s6.spmv r hr, e5 r hr]
        show (st4 r).1.info = _
        rw [(e4 r hr).1]
        exact (p1 r hr).1
      have herr6 : ∀ r < P, (st6 r).1.err = (st r).1.err ∧ (st6 r).2.err = (st r).2.err := by
        intro r hr
        rw [s6.spmv r hr, s6.err r hr, e5 r hr]
        show (st4 r).1.err = _ ∧ (st4 r).2.err = _
        rw [(e4 r hr).1]
        exact ⟨(p1 r hr).2.1, (e4 r hr).2.2.2.2.1⟩
      have hD0 : anyNan P st5 = true ↔ b = true ∨ ∃ (r : Fin P) (t : Fin (nl r)), D r t - E.1 = 0 := by
        unfold anyNan
        rw [List.any_eq_true]
        constructor
        · rintro ⟨r, hr, e⟩
          have hr : r < P := by simpa using hr
          rw [e5 r hr] at e
          obtain ⟨-, -, -, -, -, q6, q7, -⟩ := e4 r hr
          simp only [davDivide, q6, q7, Bool.or_eq_true, decide_eq_true_eq] at e
          rcases e with e | ⟨t, ht, e⟩
          · exact .inl e
          · exact .inr ⟨⟨r, hr⟩, ⟨t, ht⟩, e⟩
        · intro e
          rcases e with e | ⟨r, t, e⟩
          · refine ⟨0, by simpa using hP, ?_⟩
            rw [e5 0 hP]
            simp only [davDivide, (e4 0 hP).2.2.2.2.2.1, e, Bool.true_or]
          · refine ⟨r, by simp, ?_⟩
            rw [e5 r r.2]
            obtain ⟨-, -, -, -, -, q6, q7, -⟩ := e4 r r.2
            simp only [davDivide, q6, q7, Bool.or_eq_true, decide_eq_true_eq]
            exact .inr ⟨t, t.2, e⟩
      set w0 : DistVec nl := fun q t => -res q t / (D q t - E.1) with hw0
      have hV5 : colV nl st5 = Function.update V (i + 1) w0 := by
        funext j
        by_cases hj : j = i + 1
        · subst hj
          rw [Function.update_self]
          funext r t
          obtain ⟨-, q2, -, -, -, -, q7, -⟩ := e4 r r.2
          have : (st3 r).2.V (i + 1) t = res r t := by
            have := congrFun (congrFun (congrFun hR3 (i + 1)) r) t
            rw [Function.update_self] at this
            exact this
          simp only [colV, e5 r r.2, davDivide, Function.update_self, q2, q7, this, hw0]
        · rw [Function.update_of_ne hj]
          funext r t
          obtain ⟨-, q2, -⟩ := e4 r r.2
          have : (st3 r).2.V j t = V j r t := by
            have := congrFun (congrFun (congrFun hR3 j) r) t
            rw [Function.update_of_ne hj] at this
            exact this
          simp only [colV, e5 r r.2, davDivide, Function.update_of_ne hj, q2, this]
      have hgs : pgramSchmidt (i + 1) (colV nl st5) (colV nl st5 (i + 1)) = pgramSchmidt (i + 1) V w0 := by
        rw [hV5, Function.update_self]
        have hpp : ∀ w, pprojectOut (i + 1) (Function.update V (i + 1) w0) w = pprojectOut (i + 1) V w := by
          intro w
          apply pprojectOut_congr
          intro j hj
          rw [Function.update_of_ne (by omega)]
        unfold pgramSchmidt
        simp only [hpp]
      have hA6 : colAV nl st6 = AV := by
        rw [← hcA1]
        funext j r t
        simp only [colAV, s6.AV r r.2, e5 r r.2, davDivide, (e4 r r.2).2.2.1]
      rw [hgs] at g6
      -- the state before the next iteration
      have hnext : ∃ b', (∀ r < P, (st6 r).2.nan = b') ∧ (b = true → b' = true) ∧
          (b' = true → b = true ∨ (∃ (r : Fin P) (t : Fin (nl r)), D r t - E.1 = 0) ∨ pgramSchmidt (i + 1) V w0 = none) ∧
          (b' = false → b = false ∧ (¬ ∃ (r : Fin P) (t : Fin (nl r)), D r t - E.1 = 0) ∧
            ∃ w, pgramSchmidt (i + 1) V w0 = some w ∧ colV nl st6 = Function.update V (i + 1) w) := by
        cases hg : pgramSchmidt (i + 1) V w0 with
        | none =>
          rw [hg] at g6
          exact ⟨true, g6, fun _ => rfl, fun _ => .inr (.inr rfl), by simp⟩
        | some w =>
          rw [hg] at g6
          refine ⟨anyNan P st5, g6.1, fun hb => hD0.2 (.inl hb), ?_, ?_⟩
          · intro hb
            rcases hD0.1 hb with hb | hb
            · exact .inl hb
            · exact .inr (.inl hb)
          · intro hb
            have : ¬ (b = true ∨ ∃ (r : Fin P) (t : Fin (nl r)), D r t - E.1 = 0) := by
              rw [← hD0, hb]; simp
            rw [not_or] at this
            refine ⟨by simpa using this.1, this.2, w, rfl, ?_⟩
            funext j
            by_cases hj : j = i + 1
            · subst hj; rw [Function.update_self]; exact g6.2
            · rw [Function.update_of_ne hj, s6.colV_ne nl hj, hV5, Function.update_of_ne hj]
      obtain ⟨b', hb1, hb2, hb3, hb4⟩ := hnext
      obtain ⟨st7, r8, p7⟩ := ih (i + 1) st6 b' hinfo6 hb1
      refine ⟨st7, r14.trans (r6.trans (r7.trans r8)), ?_⟩
      intro r
      obtain ⟨c1, c2, c3, c4⟩ := p7 r
      refine ⟨c1.trans (herr6 r r.2).1, c2.trans (herr6 r r.2).2, fun hb => c3 (hb2 hb), ?_⟩
      intro hb
      have hnt : ¬ Real.sqrt (pdot res res) < tol := fun hc => hconv ⟨hb, hc⟩
      unfold pdavLoop
      dsimp only
      rw [if_neg hnt]
      cases hb' : b' with
      | true =>
        have hfail := c3 hb'
        have hcase := hb3 hb'
        rw [hb] at hcase
        split_ifs with h1 h2
        · exact hfail
        · exact hfail
        · rcases hcase with hcase | hcase | hcase
          · simp at hcase
          · exact absurd hcase h2
          · simp only [hw0] at hcase
            rw [hcase]
            exact hfail
      | false =>
        obtain ⟨-, hd0, w, hw, hV6⟩ := hb4 hb'
        have hrep := c4 hb'
        rw [hA6, hV6] at hrep
        by_cases hf : f = 0
        · rw [if_pos hf]
          subst hf
          exact hrep
        · rw [if_neg hf, if_neg hd0]
          simp only [hw0] at hw
          rw [hw]
          exact hrep

/-- What runs to its end alone runs to its end when more follows. -/
theorem ranks_frame {σ μ : Type} (P : Nat) (p rest : Nat → List (Instr σ μ)) (st st' : Nat → σ)
    (h : Reach (ranks P p st) (ranks P (fun _ => []) st')) :
    Reach (ranks P (fun r => p r ++ rest r) st) (ranks P rest st') := by
  set more : World σ μ → World σ μ := fun w => ⟨fun r => w.prog r ++ if r < P then rest r else [], w.st, w.chan⟩ with hmore
  have hpr : ∀ (w : World σ μ) r q, (fun i => Function.update w.prog r q i ++ if i < P then rest i else []) =
      Function.update (fun i => w.prog i ++ if i < P then rest i else []) r (q ++ if r < P then rest r else []) := by
    intro w r q; funext i
    by_cases hi : i = r
    · subst hi; simp
    · simp [hi]
  have hstep : ∀ w w', Step strict w w' → Step strict (more w) (more w') := by
    rintro w w' ⟨r, h⟩
    refine ⟨r, ?_⟩
    unfold stepRank at h
    split at h
    · exact absurd h (by simp)
    · rename_i f q hq
      cases h
      simp only [stepRank, hmore, hq, List.cons_append, hpr]
    · rename_i t d m q hq
      cases h
      simp only [stepRank, hmore, hq, List.cons_append, hpr]
    · rename_i t s k q hq
      split at h
      · exact absurd h (by simp)
      · rename_i m ms hc
        cases h
        simp only [stepRank, hmore, hq, List.cons_append, hpr, hc]
    · rename_i t d q hq
      split at h
      · rename_i hc
        cases h
        have hc' : w.chan (t, r, d) = [] := by simpa [strict] using hc
        simp [stepRank, hmore, hq, hpr, hc']
      · exact absurd h (by simp)
    · rename_i f q hq
      cases h
      simp only [stepRank, hmore, hq, List.cons_append, hpr, List.append_assoc]
  have hrun : ∀ {n w w'}, Run strict n w w' → Run strict n (more w) (more w') := by
    intro n w w' h
    induction h with
    | nil w => exact .nil _
    | cons h _ ih => exact .cons (hstep _ _ h) ih
  obtain ⟨n, h⟩ := h
  refine ⟨n, cast ?_ (hrun h)⟩
  congr 1
  · simp only [hmore, ranks, World.mk.injEq, and_true]
    funext r
    by_cases hr : r < P <;> simp [hr]
  · simp only [hmore, ranks, World.mk.injEq, and_true]
    funext r
    by_cases hr : r < P <;> simp [hr]

/-- the solver reads the columns filled so far only -/
theorem pdavLoop_congr {P : Nat} {nl : Fin P → Nat} {A : DistVec nl → DistVec nl} (D : DistVec nl) (tol : ℝ)
    {eig : Nat → (Nat → Nat → ℝ) → ℝ × (Nat → ℝ)} (he : EigLocal eig) (f : Nat) : ∀ (i : Nat) {V V' AV AV' : Nat → DistVec nl},
    (∀ j ≤ i, V j = V' j) → (∀ j < i, AV j = AV' j) →
    pdavLoop A D tol eig f i V AV = pdavLoop A D tol eig f i V' AV' := by
  induction f with
  | zero => intro i V V' AV AV' _ _; rfl
  | succ f ih =>
    intro i V V' AV AV' hV hAV
    unfold pdavLoop
    dsimp only
    have hA : ∀ j ≤ i, Function.update AV i (A (V i)) j = Function.update AV' i (A (V' i)) j := by
      intro j hj
      by_cases e : j = i
      · subst e; rw [Function.update_self, Function.update_self, hV j le_rfl]
      · rw [Function.update_of_ne e, Function.update_of_ne e, hAV j (by omega)]
    set B := Function.update AV i (A (V i))
    set B' := Function.update AV' i (A (V' i))
    have hE : eig (i + 1) (fun p q => pdot (V p) (B q)) = eig (i + 1) fun p q => pdot (V' p) (B' q) :=
      he _ _ _ fun p hp q hq => by rw [hV p (by omega), hA q (by omega)]
    rw [hE]
    have hc : ∀ {U U' : Nat → DistVec nl} c, (∀ j ≤ i, U j = U' j) → pcombine (i + 1) U c = pcombine (i + 1) U' c := by
      intro U U' c hU
      funext r t
      apply Finset.sum_congr rfl
      intro j hj
      rw [hU j (by have := Finset.mem_range.1 hj; omega)]
    rw [hc _ hV, hc _ hA]
    have hg : ∀ w, pgramSchmidt (i + 1) V w = pgramSchmidt (i + 1) V' w := by
      intro w
      have hpp : ∀ w, pprojectOut (i + 1) V w = pprojectOut (i + 1) V' w := fun w =>
        pprojectOut_congr _ (fun j hj => hV j (by omega)) w
      unfold pgramSchmidt
      simp only [hpp]
    rw [hg]
    split_ifs
    · rfl
    · rfl
    · rfl
    · split
      · rfl
      · rename_i w _
        apply ih
        · intro j hj
          by_cases e : j = i + 1
          · subst e; rw [Function.update_self, Function.update_self]
          · rw [Function.update_of_ne e, Function.update_of_ne e, hV j (by omega)]
        · intro j hj; exact hA j (by omega)

theorem dav_reach {A : Nat → DistCsr ℝ} {P N : Nat} {ext : List (Nat × Nat)} (h : DistributedMatrix A P N ext)
    {eig : Nat → (Nat → Nat → ℝ) → ℝ × (Nat → ℝ)} (he : EigLocal eig) (hP : 0 < P) (garbage : Nat → Nat → Nat → ℝ)
    (D : Nat → Nat → ℝ) (tol : ℝ) (maxM : Nat) (hM : maxM ≠ 0) (st : Nat → DavSt)
    (hi : ∀ r < P, (st r).1.info = spmvInfo A r) (hn : ∀ r < P, (st r).2.nan = false) :
    ∃ st', Reach (ranks P (fun r => davProg eig P r (rowsOf ext r) (A r) (garbage r) (D r) tol maxM) st)
        (ranks P (fun _ => []) st') ∧
      ∀ r : Fin P, (st' r).1.err = (st r).1.err ∧ (st' r).2.err = (st r).2.err ∧
        Reports (pdavidson (distOp A N ext fun r : Fin P => rowsOf ext r) (fun r t => D r t) tol eig maxM
          (fun r t => (st r).2.X t)) r (st' r).2 := by
  set nl : Fin P → Nat := fun r => rowsOf ext r with hnl
  have r1 := ranks_comps (μ := DavMs) P (fun _ => [fun m : DavSt => (m.1, { m.2 with V := Function.update m.2.V 0 m.2.X })])
    (fun r => actProg (A r) (garbage r 0) 0 ++
      (comps [fun m => (m.1, { m.2 with V := Function.update m.2.V 1 (m.2.AV 0) })] ++
      (gsProg P (rowsOf ext r) 1 ++ davIter eig P r (rowsOf ext r) (A r) (garbage r) (D r) tol (maxM - 1) 1))) st
  set st1 : Nat → DavSt := fun r => if r < P then runComps [fun m : DavSt => (m.1, { m.2 with V := Function.update m.2.V 0 m.2.X })]
    (st r) else st r with hst1
  have e1 : ∀ r < P, st1 r = ((st r).1, { (st r).2 with V := Function.update (st r).2.V 0 (st r).2.X }) := by
    intro r hr; simp [hst1, hr, runComps]
  obtain ⟨st2, r2, p2, a2⟩ := act_reach h (fun r => garbage r 0) 0 (fun r =>
    comps [fun m => (m.1, { m.2 with V := Function.update m.2.V 1 (m.2.AV 0) })] ++
      (gsProg P (rowsOf ext r) 1 ++ davIter eig P r (rowsOf ext r) (A r) (garbage r) (D r) tol (maxM - 1) 1)) st1
    (by intro r hr; rw [e1 r hr]; exact hi r hr)
  have r3 := ranks_comps (μ := DavMs) P (fun _ => [fun m : DavSt => (m.1, { m.2 with V := Function.update m.2.V 1 (m.2.AV 0) })])
    (fun r => gsProg P (rowsOf ext r) 1 ++ davIter eig P r (rowsOf ext r) (A r) (garbage r) (D r) tol (maxM - 1) 1) st2
  set st3 : Nat → DavSt := fun r => if r < P then runComps [fun m : DavSt => (m.1, { m.2 with V := Function.update m.2.V 1 (m.2.AV 0) })]
    (st2 r) else st2 r with hst3
  have e3 : ∀ r < P, st3 r = ((st2 r).1, { (st2 r).2 with V := Function.update (st2 r).2.V 1 ((st2 r).2.AV 0) }) := by
    intro r hr; simp [hst3, hr, runComps]
  obtain ⟨st4, r4, s4, g4⟩ := gs_reach P hP (rowsOf ext) 1 (fun r =>
    davIter eig P r (rowsOf ext r) (A r) (garbage r) (D r) tol (maxM - 1) 1) st3
  set g : DistVec nl := fun r t => (st r).2.X t with hg
  have hV1 : colV nl st1 0 = g := by
    funext r t
    simp only [colV, e1 r r.2, Function.update_self, hg]
  have hV2 : ∀ r < P, (st2 r).2.V = (st1 r).2.V := by
    intro r hr; obtain ⟨-, -, w, e⟩ := p2 r hr; rw [e]
  have hV30 : colV nl st3 0 = g := by
    rw [← hV1]
    funext r t
    simp only [colV, e3 r r.2, ne_eq, zero_ne_one, not_false_eq_true, Function.update_of_ne, hV2 r r.2]
  have hV31 : colV nl st3 1 = distOp A N ext nl g := by
    rw [← hV1, ← a2]
    funext r t
    simp only [colV, colAV, e3 r r.2, Function.update_self]
  have hn3 : anyNan P st3 = false := anyNan_of_uniform hP (by
    intro r hr
    obtain ⟨-, -, w, e⟩ := p2 r hr
    rw [e3 r hr, e, e1 r hr]
    exact hn r hr)
  have hgs : pgramSchmidt 1 (colV nl st3) (colV nl st3 1) = pgramSchmidt 1 (fun _ => g) (distOp A N ext nl g) := by
    have hpp : ∀ w, pprojectOut 1 (colV nl st3) w = pprojectOut 1 (fun _ => g) w := by
      intro w
      apply pprojectOut_congr
      intro j hj
      rw [show j = 0 by omega, hV30]
    unfold pgramSchmidt
    simp only [hpp, hV31]
  have hi4 : ∀ r < P, (st4 r).1.info = spmvInfo A r := by
    intro r hr
    rw [s4.spmv r hr, e3 r hr]
    exact (p2 r hr).1
  have he4 : ∀ r < P, (st4 r).1.err = (st r).1.err ∧ (st4 r).2.err = (st r).2.err := by
    intro r hr
    obtain ⟨-, q, w, e⟩ := p2 r hr
    rw [s4.spmv r hr, s4.err r hr, e3 r hr]
    refine ⟨?_, ?_⟩
    · show (st2 r).1.err = _
      rw [q, e1 r hr]
    · show (st2 r).2.err = _
      rw [e, e1 r hr]
  have hreach : ∀ st5, Reach (ranks P (fun r => davIter eig P r (rowsOf ext r) (A r) (garbage r) (D r) tol (maxM - 1) 1) st4)
      (ranks P (fun _ => []) st5) →
      Reach (ranks P (fun r => davProg eig P r (rowsOf ext r) (A r) (garbage r) (D r) tol maxM) st) (ranks P (fun _ => []) st5) := by
    intro st5 r5
    exact r1.trans (r2.trans (r3.trans (r4.trans r5)))
  have hnan : ∃ b, (∀ r < P, (st4 r).2.nan = b) ∧ (b = true → pgramSchmidt 1 (fun _ => g) (distOp A N ext nl g) = none) ∧
      (b = false → ∃ w, pgramSchmidt 1 (fun _ => g) (distOp A N ext nl g) = some w ∧ colV nl st4 1 = w) := by
    rw [hgs] at g4
    cases hc : pgramSchmidt 1 (fun _ => g) (distOp A N ext nl g) with
    | none => rw [hc] at g4; exact ⟨true, g4, fun _ => rfl, by simp⟩
    | some w => rw [hc] at g4; rw [hn3] at g4; exact ⟨false, g4.1, by simp, fun _ => ⟨w, rfl, g4.2⟩⟩
  obtain ⟨b, hb, hb1, hb2⟩ := hnan
  obtain ⟨st5, r5, p5⟩ := iter_reach h he hP garbage D tol (maxM - 1) 1 st4 b hi4 hb
  refine ⟨st5, hreach st5 r5, ?_⟩
  intro r
  obtain ⟨c1, c2, c3, c4⟩ := p5 r
  refine ⟨c1.trans (he4 r r.2).1, c2.trans (he4 r r.2).2, ?_⟩
  unfold pdavidson
  rw [if_neg hM]
  by_cases hM1 : maxM = 1
  · rw [if_pos hM1]
    cases hb' : b with
    | true => exact c3 hb'
    | false =>
      have := c4 hb'
      rw [hM1] at this
      exact this
  · rw [if_neg hM1]
    cases hb' : b with
    | true =>
      dsimp only
      rw [hb1 hb']
      exact c3 hb'
    | false =>
      obtain ⟨w, hw, hw4⟩ := hb2 hb'
      have hrep := c4 hb'
      dsimp only
      rw [hw]
      dsimp only
      have := pdavLoop_congr (A := distOp A N ext nl) (fun r t => D r t) tol he (maxM - 1) 1 (V := colV nl st4)
        (V' := Function.update (fun _ => g) 1 w) (AV := colAV nl st4) (AV' := fun _ => distOp A N ext nl g)
        (by
          intro j hj
          have : j = 0 ∨ j = 1 := by omega
          rcases this with rfl | rfl
          · rw [s4.colV_ne nl (by omega), hV30, Function.update_of_ne (by omega)]
          · rw [hw4, Function.update_self])
        (by
          intro j hj
          obtain rfl : j = 0 := by omega
          rw [← hV1, ← a2]
          funext r t
          simp only [colAV, s4.AV r r.2, e3 r r.2])
      rw [this] at hrep
      exact hrep

end Macis.Mpi
