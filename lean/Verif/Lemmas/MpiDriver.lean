import Verif.Model.MpiDriver
import Verif.Lemmas.DriverDist
/-! The standalone program on several ranks. -/
namespace Macis
open Spec Spec.Mpi Mpi Finset

/-- the program on any input: the files, then the calculation -/
theorem driver_readJob (env : DriverEnv) (input : List Char) :
    driver env input = (readJob env input).bind fun (job, exp, sp, o, f) => runJob env job exp sp o f := by
  unfold driver readJob
  cases ofExcept (Ini.parse input) <;> simp only [Out.bind]
  rename_i d
  cases ofExcept (Ini.getString d "CI.FCIDUMP".toList) <;> simp only
  cases ofExcept (Ini.getSize d "CI.NALPHA".toList) <;> simp only
  cases ofExcept (Ini.getSize d "CI.NBETA".toList) <;> simp only
  split
  · rfl
  rename_i name _ _ _
  cases (readIntegrals env.io (env.text name)).toOut <;> simp only
  rename_i f
  cases ofExcept (readOptions env.io d f.norb) <;> rfl

theorem out_bind_assoc {α β γ : Type} (x : Out α) (f : α → Out β) (g : β → Out γ) :
    (x.bind f).bind g = x.bind fun a => (f a).bind g := by cases x <;> rfl

/-- the ASCI branch on one rank is the guess, the phases and the output of rank 0 -/
theorem runJob_asci (env : DriverEnv) (sp : Ini.Space) (o : DriverSettings) (f : FciData) :
    runJob env .ci .asci sp o f = (asciJob env sp o f).bind fun j =>
      (asciPhases (asciEnv env o sp.nactive) o.asci env.fuel j).bind fun (E, w, X) => rankEnd env sp o j 0 E w X := by
  unfold runJob asciJob
  rw [out_bind_assoc]
  congr 1
  funext f
  dsimp only
  unfold runAsci asciPhases rankEnd
  dsimp only
  simp only [out_bind_assoc, and_true]
  congr 1


variable {a : AsciPar 32}

theorem grow_len {M : Nat} {a : AsciPar M} (hb : Behaves a) (hP : 2 ≤ a.P) (h64 : a.asci.ntdetsMax < 2 ^ 64) (rounds : Nat) :
    ∀ st g : GrowState (2 * M) ℝ GenState, growLoop (jointEnv a) a.asci rounds st = .ok g →
    a.asci.ntdetsMax ≤ g.wfn.length ∧ (g = st ∨ g.wfn.length < 2 ^ 64) := by
  induction rounds with
  | zero =>
    intro st g h
    unfold growLoop at h
    split at h
    · cases h
    · cases h; exact ⟨by omega, Or.inl rfl⟩
  | succ rounds ih =>
    intro st g h
    unfold growLoop at h
    split at h
    swap
    · cases h; exact ⟨by omega, Or.inl rfl⟩
    dsimp only at h
    have hn : ndetsNew a.asci st.wfn.length < 2 ^ 64 := by unfold ndetsNew; omega
    cases hB : growBody (jointEnv a) a.asci st with
    | throw => rw [hB] at h; cases h
    | ub => rw [hB] at h; cases h
    | timeout => rw [hB] at h; cases h
    | ok st1 =>
      rw [hB] at h
      obtain ⟨h1, h2⟩ := ih st1 g h
      refine ⟨h1, Or.inr ?_⟩
      have hl : st1.wfn.length < 2 ^ 64 := by
        unfold growBody at hB
        dsimp only at hB
        cases hI : asciIter (jointEnv a) a.asci (ndetsNew a.asci st.wfn.length) st.h st.E0 st.wfn st.X with
        | throw => rw [hI] at hB; cases hB
        | ub => rw [hI] at hB; cases hB
        | timeout => rw [hI] at hB; cases hB
        | ok v =>
          obtain ⟨E, w, X⟩ := v
          rw [hI] at hB
          have hw : w.length < 2 ^ 64 := by
            unfold asciIter at hI
            dsimp only at hI
            split at hI
            · cases hI
            split at hI
            · cases hI
            split at hI
            · cases hI
            rename_i hsr _ _ _ _
            cases hI
            rw [(search_all hb hP (a.P * 2 ^ (2 * M) + 1) _ hn (by omega) _ _ _ _ _ hsr).1]
            exact hn
          simp only [Run.bind] at hB
          split at hB
          · cases hB
          split at hB
          · split at hB
            · cases hB
            · cases hB; exact hw
          · cases hB; exact hw
      rcases h2 with rfl | h2
      exacts [hl, h2]

/-- growth and refinement, all ranks together -/
theorem phases_reach (hb : Behaves a) (hP : 2 ≤ a.P) (ht : 0 ≤ a.ci.matelTol) (hm : a.ci.maxSub ≠ 0)
    (hmin : a.P ≤ a.asci.ntdetsMin) (hmax : a.P ≤ a.asci.ntdetsMax) (h64 : a.asci.ntdetsMax < 2 ^ 64)
    (garbage garbage' : Nat → Nat → Nat → Nat → ℝ) (mem : Nat → AsciMem 32) (fuel : Nat) (hf : a.P * 2 ^ (2 * 32) < fuel)
    (rounds : Nat) (j : AsciJob) (hj : j.dets.length < 2 ^ 64) :
    match asciPhases (jointEnv a) a.asci rounds j with
    | .ok (E, w, X) => ∃ s', Reach (jobWorld a j fuel rounds garbage garbage' mem) (ranks a.P (fun _ => []) s') ∧
        ∃ h Es, AllHave a.P s' h E w X Es
    | .throw => ∃ s', Reach (jobWorld a j fuel rounds garbage garbage' mem) (ranks a.P (fun _ => []) s') ∧ AllThrew a.P s'
    | _ => True := by
  have key := grow_reach hb hP ht hm hmin hmax h64 garbage fuel hf [j.E0] rounds ⟨j.h, j.E0, j.dets, j.C, []⟩ _
    (start_have a.P j.h j.E0 j.dets j.C mem)
  unfold asciPhases asciGrow
  unfold jobWorld
  rw [world_start]
  set tail : Nat → List (Instr (AsciMem 32) (AsciMsg 32)) := fun r => if a.asci.maxRefineIter ≠ 0 then
    comps [refineStart] ++ [.dyn fun m => refineProg a r fuel m.wfn.length (garbage' r) a.asci.maxRefineIter]
    else [] with htail
  cases hg : growLoop (jointEnv a) a.asci rounds ⟨j.h, j.E0, j.dets, j.C, []⟩ with
  | ub => trivial
  | timeout => trivial
  | throw =>
    rw [hg] at key
    obtain ⟨s1, r1, t1⟩ := key
    exact ⟨s1, ranks_seq a.P r1 (andThen_skip a.P tail s1 fun r hr => (t1 r hr).1), t1⟩
  | ok g =>
    rw [hg] at key
    obtain ⟨s1, r1, t1⟩ := key
    obtain ⟨l1, l2⟩ := grow_len hb hP h64 rounds _ g hg
    have hgo := fun s' h' => ranks_seq (s2 := s') a.P r1 (andThen_go a.P tail (fun r hr => t1.thrown r hr) h')
    have hlen : g.wfn.length < 2 ^ 64 := by
      rcases l2 with rfl | h
      exacts [hj, h]
    simp only [Run.toOut, Out.bind]
    by_cases hz : a.asci.maxRefineIter ≠ 0
    swap
    · rw [if_neg hz]
      refine ⟨s1, hgo s1 ?_, _, _, t1⟩
      simp only [htail, if_neg hz]
      exact Reach.refl _
    · rw [if_pos hz]
      have htl : tail = fun r => comps [refineStart] ++
          [.dyn fun m => refineProg a r fuel m.wfn.length (garbage' r) a.asci.maxRefineIter] := by
        rw [htail]
        funext r
        rw [if_pos hz]
      have r2 := ranks_local (T := AsciMsg 32) a.P (fun _ => [refineStart]) s1
      set s2 : Nat → AsciMem 32 := fun r => if r < a.P then runComps [refineStart] (s1 r) else s1 r with hs2
      have t2 : AllHave a.P s2 g.h g.E0 g.wfn g.X (g.E0 :: []) := by
        constructor <;> intro r hr <;> simp only [hs2, hr, if_true, runComps, List.foldl_cons, List.foldl_nil, refineStart]
        · exact t1.h r hr
        · exact t1.E0 r hr
        · exact t1.wfn r hr
        · exact t1.X r hr
        · rw [t1.E0 r hr]
        · exact t1.thrown r hr
        · exact t1.err r hr
      have key2 := refine_reach hb hP ht hm garbage' fuel g.wfn.length hf (by omega) hlen g.h a.asci.maxRefineIter g.E0 [] g.wfn
        g.X s2 t2
      have hbr := fun s' => branch_reach (s' := s') a.P (fun r m => refineProg a r fuel m.wfn.length (garbage' r) a.asci.maxRefineIter)
        (fun r => refineProg a r fuel g.wfn.length (garbage' r) a.asci.maxRefineIter) (s := s2)
        (fun r hr => by rw [t2.wfn r hr])
      unfold asciRefine
      cases hR : refineLoop (jointEnv a) a.asci g.h g.wfn.length a.asci.maxRefineIter g.E0 [] g.wfn g.X with
      | ub => trivial
      | timeout => trivial
      | throw =>
        rw [hR] at key2
        obtain ⟨s3, r3, t3⟩ := key2
        exact ⟨s3, hgo s3 (by rw [htl]; exact ranks_seq a.P r2 (hbr s3 r3)), t3⟩
      | ok v =>
        obtain ⟨Es, w, X⟩ := v
        rw [hR] at key2
        obtain ⟨s3, E, r3, t3, -, hE⟩ := key2
        refine ⟨s3, hgo s3 (by rw [htl]; exact ranks_seq a.P r2 (hbr s3 r3)), g.h, Es, ?_⟩
        have : Es.headD 0 = E := by
          cases Es with
          | nil => cases hE
          | cons x l => cases hE; rfl
        dsimp only
        rw [this]
        exact t3

/-- the ranks provide what the phases rely on -/
theorem jointEnv_good (hb : Behaves a) (hi : SortsCoeffs a.srtIdx) (hl : LowestPair a.eig) (hP : 2 ≤ a.P)
    (hpC : ∀ l, (a.partC l).Perm l) (hsC : ∀ l, (a.sortC l).Perm l) (hn : a.norb ≤ 32) (h0 : 0 ≤ a.ci.matelTol) {na nb : Nat}
    (hna : na ≤ a.norb) (hnb : nb ≤ a.norb) (hlev : 3 + a.contrib.constraintLevel ≤ na) (hroom : RoomFor a na nb)
    {syev : Nat → (Nat → ℝ) → Nat → (Nat → ℝ) × (Nat → ℝ)} (hrot : a.rotate = asciRotate syev a.norb)
    (hsy : a.asci.growWithRot = true → SyevSpec syev) : GoodEnv a.norb na nb a.asci a.ci.matelTol (jointEnv a) where
  idx := hi
  search h ndets cdets E0 C w sym hc hlen hw := jointSearch_sector hb hP hpC hsC hn (by omega) (by norm_num) sym hlev hroom hc hlen hw
  diag h w E Y sym hw hd := jointDiag_energy hl hn h0 sym hw hd
  rotate hr g0 g w X r := by
    change Reached a.norb na nb true g0 (a.rotate g w X)
    rw [hrot]
    exact r.rotate (hsy hr) hn hna hnb w X

/-- what is read -/
theorem job_reads {env : DriverEnv} {input : List Char} {es : List (FciEntry ℝ)} {job : Job} {exp : Expansion}
    {sp : Ini.Space} {o : DriverSettings} (ha : Asks env input es job exp sp o)
    {x : Job × Expansion × Ini.Space × DriverSettings × FciData} (h : readJob env input = .ok x) :
    ∃ f : FciData, x = (job, exp, sp, o, f) ∧ f.norb = maxIdx es ∧ f.core = fileCore es ∧
      (∀ p q, p < f.norb → q < f.norb → asMat f.T f.norb p q = (fileInts es).T p q) ∧
      (∀ p q r s, p < f.norb → q < f.norb → r < f.norb → s < f.norb →
        asTen f.V f.norb p q r s = (fileInts es).V p q r s) ∧
      sp.ninactive + sp.nactive + sp.nvirtual = f.norb ∧ sp.ninactive < f.norb ∧ sp.nactive ≤ 32 ∧
      sp.nalpha = sp.nbeta := by
  obtain ⟨d, name, h1, h2, h3, h4, h5⟩ := ha
  obtain ⟨f, f1, f2, f3, f4, f5⟩ := readIntegrals_entries h3 h4
  have hlt := entries_lt h3
  unfold readJob at h
  obtain ⟨d', e1, h⟩ := out_bind_ok h
  obtain rfl : d = d' := Except.ok.inj (h1.symm.trans (ofExcept_ok e1))
  obtain ⟨name', e2, h⟩ := out_bind_ok h
  obtain rfl : name = name' := Except.ok.inj (h2.symm.trans (ofExcept_ok e2))
  obtain ⟨na, -, h⟩ := out_bind_ok h
  obtain ⟨nb, -, h⟩ := out_bind_ok h
  split at h
  · exact absurd h (fun h => by cases h)
  obtain ⟨f', e3, h⟩ := out_bind_ok h
  obtain rfl : f = f' := Run.ok.inj (f1.symm.trans (toOut_ok e3))
  obtain ⟨x', e4, h⟩ := out_bind_ok h
  rw [f2] at e4
  obtain rfl : _ = x' := Except.ok.inj (h5.symm.trans (ofExcept_ok e4))
  have := Ini.C143_space_partial d (maxIdx es) (by omega) sp (readOptions_space h5)
  cases h
  exact ⟨f, rfl, f2, f3, f4, f5, by rw [f2]; exact this⟩

/-- the energy of a calculation without rotations, in the orbitals of the file -/
theorem job_energy {M : Nat} {env : DriverEnv} {input : List Char} {es : List (FciEntry ℝ)} {sp : Ini.Space}
    {o : DriverSettings} (ha : Asks env input es .ci .asci sp o) (hg : o.mp2Guess = false)
    (hrot : o.asci.growWithRot = false) (hα : sp.nalpha ≤ sp.nactive) (hf : GuessFile env o sp.nactive sp.nalpha sp.nbeta)
    (h0 : 0 ≤ o.ci.matelTol) (hM : maxIdx es ≤ M) {f : FciData} (h : readJob env input = .ok (.ci, .asci, sp, o, f))
    {j : AsciJob} (hj : asciJob env sp o f = .ok j) {e : AsciEnv (2 * 32) ℝ GenState}
    (he : GoodEnv sp.nactive sp.nalpha sp.nbeta o.asci o.ci.matelTol e) {fuel : Nat} {E : ℝ} {w : List (BitVec (2 * 32))} {X : List ℝ}
    (hp : asciPhases e o.asci fuel j = .ok (E, w, X)) :
    ∃ (full : List (BitVec (2 * M))) (ψ : Nat → ℝ), full.Nodup ∧ o.asci.ntdetsMax ≤ full.length ∧
      (∀ s ∈ full, CasDet sp.ninactive sp.nactive sp.nalpha sp.nbeta s) ∧
      (∑ i ∈ range full.length, ψ i * ψ i) = 1 ∧
      |E + (j.eInactive + j.f.core) - (fileCore es + energyOf (fileInts es) full ψ)| ≤ o.ci.matelTol * full.length ∧
      ∀ s ∈ full, E + (j.eInactive + j.f.core) ≤ fileCore es + hamiltonian (fileInts es) s s + o.ci.matelTol := by
  obtain ⟨f', e1, f2, f3, f4, f5, s1, -, s3, hab⟩ := job_reads ha h
  obtain rfl : f = f' := by simpa using e1
  have sym : IntSym f.norb (asMat f.T f.norb) (asTen f.V f.norb) := intSym_congr f4 f5 (fileInts_sym es f.norb)
  unfold asciJob at hj
  rw [hg] at hj
  obtain ⟨f', e, hj⟩ := out_bind_ok hj
  obtain rfl : f = f' := Out.ok.inj e
  obtain ⟨⟨E0, dets, C⟩, hge, hj⟩ := out_bind_ok hj
  set H := activeHamiltonian f.norb sp.nactive sp.ninactive f.T f.norb f.V f.norb (fun _ => 0) f.norb (fun _ => 0)
    sp.nactive (fun _ => 0) sp.nactive with hH
  have hn : sp.ninactive + sp.nactive ≤ f.norb := by omega
  obtain ⟨asym, -⟩ := active_sym (ldt := f.norb) (ldv := f.norb) hn (le_refl sp.nactive) (le_refl sp.nactive) f.T f.V
    (fun _ => 0) (fun _ => 0) (fun _ => 0) sym
  rw [← hH] at asym
  obtain ⟨g1, g2⟩ := guess_sector h0 s3 hab hα asym hf hge
  cases hj
  unfold asciPhases at hp
  obtain ⟨g, hgr, hre⟩ := out_bind_ok hp
  obtain ⟨h', r1, r2, r3, ⟨ψ, p1, p2, p3⟩, -⟩ := phases_run he
    (h0 := ⟨H.2.1, H.2.2⟩) ⟨asym, fun _ => rfl, fun _ h => h⟩ g1 g2 (toOut_ok hgr) hre
  obtain rfl : h' = ⟨H.2.1, H.2.2⟩ := r1.same hrot
  obtain ⟨full, nd, len, cd, hd, hE⟩ := active_lift (M' := M) sym hn s3 (f2 ▸ hM) hH r2
  have hham : ∀ s t : BitVec (2 * M), hamiltonian (dataInts f) s t = hamiltonian (fileInts es) s t := fun s t =>
    (hamiltonian_congr_below (I := dataInts f) (J := fileInts es) f2.symm (fun p q hp hq => (f4 p q hp hq).symm)
      (fun p q r s hp hq hr hs => (f5 p q r s hp hq hr hs).symm) s t).symm
  have hen : energyOf (dataInts f) full ψ = energyOf (fileInts es) full ψ := by
    unfold energyOf
    simp only [hham]
  refine ⟨full, ψ, nd, len ▸ r3, cd, len ▸ p1, ?_, fun s hs => ?_⟩
  · have := hE ψ p1
    change energyOf (dataInts f) full ψ = _ at this
    rw [len, ← hen, this, ← f3]
    change |E + (inactiveEnergy sp.ninactive f.T f.norb H.1 f.norb + f.core) - _| ≤ _
    dsimp only at p2
    rw [show ∀ a b c d : ℝ, a + (b + c) - (c + (b + d)) = a - d from fun a b c d => by ring]
    exact p2
  · obtain ⟨k, hk, rfl⟩ := List.mem_iff_getElem.1 hs
    have hk' : k < w.length := len ▸ hk
    have a := p3 k hk'
    have b := hd k hk'
    change hamiltonian (dataInts f) _ _ = _ at b
    rw [List.getD_eq_getElem _ _ hk, hham] at b
    rw [b, ← f3]
    change E + (inactiveEnergy sp.ninactive f.T f.norb H.1 f.norb + f.core) ≤ _
    dsimp only at a
    linarith

/-- the energy of any calculation is variational -/
theorem job_variational {M : Nat} {env : DriverEnv} {input : List Char} {es : List (FciEntry ℝ)} {sp : Ini.Space}
    {o : DriverSettings} (ha : Asks env input es .ci .asci sp o) (hsy : o.mp2Guess = true → SyevSpec env.syev)
    (hα : sp.nalpha ≤ sp.nactive) (hf : GuessFile env o sp.nactive sp.nalpha sp.nbeta)
    (h0 : 0 ≤ o.ci.matelTol) (hM : maxIdx es ≤ M) {mu : ℝ}
    (hmu : IsLowerBound M (fileInts es) (sp.ninactive + sp.nalpha) (sp.ninactive + sp.nbeta) mu)
    {f : FciData} (h : readJob env input = .ok (.ci, .asci, sp, o, f))
    {j : AsciJob} (hj : asciJob env sp o f = .ok j) {e : AsciEnv (2 * 32) ℝ GenState}
    (he : GoodEnv sp.nactive sp.nalpha sp.nbeta o.asci o.ci.matelTol e) {fuel : Nat} {E : ℝ} {w : List (BitVec (2 * 32))} {X : List ℝ}
    (hp : asciPhases e o.asci fuel j = .ok (E, w, X)) :
    fileCore es + mu ≤ E + (j.eInactive + j.f.core) +
      o.ci.matelTol * (sp.nactive.choose sp.nalpha * sp.nactive.choose sp.nbeta : Nat) := by
  obtain ⟨f', e1, f2, f3, f4, f5, s1, -, s3, hab⟩ := job_reads ha h
  obtain rfl : f = f' := by simpa using e1
  have sym : IntSym f.norb (asMat f.T f.norb) (asTen f.V f.norb) := intSym_congr f4 f5 (fileInts_sym es f.norb)
  have hmu' : IsLowerBound M (dataInts f) (sp.ninactive + sp.nalpha) (sp.ninactive + sp.nbeta) mu :=
    isLowerBound_congr (I := fileInts es) f2 (fun p q hp hq => f4 p q (f2 ▸ hp) (f2 ▸ hq))
      (fun p q r s hp hq hr hs => f5 p q r s (f2 ▸ hp) (f2 ▸ hq) (f2 ▸ hr) (f2 ▸ hs)) hmu
  unfold asciJob at hj
  obtain ⟨f', e, hj⟩ := out_bind_ok hj
  obtain ⟨g1, g2, g3, -, g5⟩ := guess_step (M := M) hsy sym e
  obtain ⟨⟨E0, dets, C⟩, hge, hj⟩ := out_bind_ok hj
  set H := activeHamiltonian f'.norb sp.nactive sp.ninactive f'.T f'.norb f'.V f'.norb (fun _ => 0) f'.norb
    (fun _ => 0) sp.nactive (fun _ => 0) sp.nactive with hH
  have hn : sp.ninactive + sp.nactive ≤ f'.norb := by omega
  obtain ⟨asym, -⟩ := active_sym (ldt := f'.norb) (ldv := f'.norb) hn (le_refl sp.nactive) (le_refl sp.nactive) f'.T f'.V
    (fun _ => 0) (fun _ => 0) (fun _ => 0) g3
  rw [← hH] at asym
  obtain ⟨q1, q2⟩ := guess_sector h0 s3 hab hα asym hf hge
  cases hj
  unfold asciPhases at hp
  obtain ⟨g, hgr, hre⟩ := out_bind_ok hp
  obtain ⟨h', r1, r2, -, ⟨ψ, p1, p2, -⟩, -⟩ := phases_run he
    (h0 := ⟨H.2.1, H.2.2⟩) ⟨asym, fun _ => rfl, fun _ h => h⟩ q1 q2 (toOut_ok hgr) hre
  have hb := g5 _ _ mu (by omega) (by omega) (by omega) hmu'
  have hl := r1.lower _ (active_lower (M' := M) g3 hn s3 (by omega) hH hb)
  have := hl w r2.1 r2.2 ψ p1
  have hlen := r2.length_le s3 hα (hab ▸ hα)
  have e3 := (abs_le.1 p2).1
  have e4 : o.ci.matelTol * w.length ≤
      o.ci.matelTol * (sp.nactive.choose sp.nalpha * sp.nactive.choose sp.nbeta : Nat) :=
    mul_le_mul_of_nonneg_left (by exact_mod_cast hlen) h0
  change _ ≤ E + (inactiveEnergy sp.ninactive f'.T f'.norb H.1 f'.norb + f'.core) + _
  rw [g2, f3]
  linarith

end Macis
