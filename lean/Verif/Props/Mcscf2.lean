import Verif.Props.Mcscf
import Verif.Props.Diis
/-! Property C106: what a macro-iteration of the MCSCF driver does to the orbitals. -/
namespace Macis
open Spec Finset
variable {X : Type}

/-- the last `n` elements of a list -/
def lastN {α : Type} (n : Nat) (l : List α) : List α := l.drop (l.length - n)

theorem diisAdd_last {α : Type} {nmax : Nat} (h0 : 0 < nmax) (l : List α) (hl : l.length ≤ nmax) (x : α) :
    diisAdd nmax l x = .ok (lastN nmax (l ++ [x])) := by
  have h1 := C41_window nmax h0 l
  have h2 := C41_window nmax h0 (l ++ [x])
  rw [diisRun, List.foldl_append, List.foldl_cons, List.foldl_nil] at h2
  change (diisRun nmax l).bind _ = _ at h2
  rw [h1, Nat.sub_eq_zero_of_le hl, List.drop_zero] at h2
  exact h2

theorem lastN_length {α : Type} (n : Nat) (l : List α) : (lastN n l).length ≤ n := by
  rw [lastN, List.length_drop]; omega

/-- the rotation matrix only depends on the elements of the generator -/
theorem rotation_congr {no : Nat} {K K' : Nat → ℝ} (U0 U0' : Nat → ℝ)
    (h : ∀ m, m < no * no → K m = K' m) (t : ℝ) {i j : Nat} (hi : i < no) (hj : j < no) :
    asMat (computeOrbitalRotation no t K no U0 no) no i j =
      asMat (computeOrbitalRotation no t K' no U0' no) no i j := by
  rw [rotation_val (le_refl _) K U0 t hi hj, rotation_val (le_refl _) K' U0' t hi hj]
  have : matOf no K no = matOf no K' no := by
    ext a b
    have ha := a.2
    have hb := b.2
    simp only [matOf, Matrix.of_apply]
    apply h
    calc (a : Nat) + b * no < no + b * no := by omega
      _ = (b + 1) * no := by ring
      _ ≤ no * no := Nat.mul_le_mul_right _ hb
  rw [this]

/-- the trial generator of a macro-iteration: the current total generator plus the step `k` -/
noncomputable def trialK (p : McInput) (s : McState X) (k : Nat → ℝ) : Nat → ℝ :=
  axpyN (p.no * p.no) 1 (linearOrbRotToMatrix p.ni p.na p.nv k (fun _ => 0) p.no) s.K

/-- Parts of a macro-iteration: `k` is the step, `K` the new total generator and `pairs` the stored
pairs. -/
theorem mcStep_parts {env : McEnv X} {st : McSettings} {p : McInput} {iter : Nat} {s s' : McState X}
    (inv : McInv p iter s) (e : mcStep env st p iter s = .ok s') :
    ∃ k, mcStepLin st p s = .ok k ∧
      mcDiis env st p iter (trialK p s k) s.OG s.diis = .ok (s'.K, s'.diis) ∧
      ∀ i j, i < p.no → j < p.no → mcOrbs p (iter + 1) s' i j = ∑ l ∈ range p.no, mcOrbs p iter s i l *
        asMat (computeOrbitalRotation p.no 1 (fun m => s'.K m - s.K m) p.no (fun _ => 0) p.no) p.no l j := by
  rw [mcStep] at e
  simp only at e
  obtain ⟨k, ek, e⟩ := bind_ok e
  obtain ⟨⟨K, pairs⟩, ed, e⟩ := bind_ok e
  simp only at e
  obtain ⟨r, er, e⟩ := bind_ok e
  simp only [Out.ok.injEq] at e
  have hK : s'.K = K := by rw [← e]; rfl
  have hp : s'.diis = pairs := by rw [← e]; rfl
  refine ⟨k, ek, by rw [hK, hp]; exact ed, ?_⟩
  intro i j hi hj
  rw [mcOrbs, if_neg (by omega), hK]
  have hU : s'.U = (if iter = 0 then computeOrbitalRotation p.no 1 K p.no s.U p.no
    else gemm false p.no p.no p.no s.U p.no
      (computeOrbitalRotation p.no 1 (scalN (p.no * p.no) (-1) (axpyN (p.no * p.no) (-1) K s.K)) p.no
        (fun _ => 0) p.no) p.no (fun _ => 0) 0 p.no) := by rw [← e]; rfl
  rw [hU]
  by_cases h0 : iter = 0
  · rw [if_pos h0]
    have : ∀ l, mcOrbs p iter s i l = if i = l then 1 else 0 := by
      intro l; rw [mcOrbs, if_pos h0]
    simp only [this, ite_mul, one_mul, zero_mul, Finset.sum_ite_eq, mem_range, hi, if_true]
    exact rotation_congr _ _ (fun m _ => by rw [inv.k0 h0 m, sub_zero]) 1 hi hj
  · rw [if_neg h0]
    have := (gemm_spec false p.no p.no p.no s.U p.no (computeOrbitalRotation p.no 1
        (scalN (p.no * p.no) (-1) (axpyN (p.no * p.no) (-1) K s.K)) p.no (fun _ => 0) p.no) p.no
        (fun _ => (0 : ℝ)) 0 p.no (le_refl p.no)).1 i j hi hj
    rw [Nat.zero_add] at this
    rw [asMat, this]
    simp only [Bool.false_eq_true, if_false]
    apply Finset.sum_congr rfl
    intro l hl
    rw [mem_range] at hl
    rw [mcOrbs, if_neg h0]
    congr 1
    exact rotation_congr _ _ (fun m hm => by simp only [scalN, axpyN, if_pos hm]; ring) 1 hl hj

/-- C106: one macro-iteration without extrapolation takes the orbitals `u` to `u exp(-K)` for the step `K`
of the iteration (see C91), and the energies before and after are the energies in these orbitals of the
RDMs before and after. -/
theorem C106_plain_step {env : McEnv X} {st : McSettings} {p : McInput} (ok : McOk p)
    (hc : RdmContract p.na env) {ci0 : X} {A1 A2 : Nat → ℝ}
    (den : DenSym p.na (asMat A1 p.na) (asTen A2 p.na)) {iter : Nat} {s s' : McState X}
    (reach : McReach env st p ci0 A1 A2 iter s) (e : mcStep env st p iter s = .ok s')
    (plain : st.enableDiis = false ∨ iter < st.diisStart + 2) :
    ∃ k u, mcStepLin st p s = .ok k ∧ Orthogonal p.no u ∧ s.E0 = mcEnergy p s.A1 s.A2 u ∧
      s'.E0 = mcEnergy p s'.A1 s'.A2 (fun i j => ∑ l ∈ range p.no, u i l *
        asMat (computeOrbitalRotation p.no 1 (linearOrbRotToMatrix p.ni p.na p.nv k (fun _ => 0) p.no)
          p.no (fun _ => 0) p.no) p.no l j) := by
  have inv := reach.inv ok hc den
  obtain ⟨k, ek, ed, eo⟩ := mcStep_parts inv e
  have inv' := (mcStep_inv ok hc.toIf iter inv e).1
  have hK : s'.K = trialK p s k := by
    rw [mcDiis] at ed
    simp only at ed
    split at ed
    · rename_i h
      obtain ⟨l, _, ed⟩ := bind_ok ed
      rw [if_neg] at ed
      · simp only [Out.ok.injEq, Prod.mk.injEq] at ed
        exact ed.1.symm
      · rcases plain with h' | h'
        · rw [h'] at h; simp at h
        · omega
    · simp only [Out.ok.injEq, Prod.mk.injEq] at ed
      exact ed.1.symm
  refine ⟨k, mcOrbs p iter s, ek, inv.orth, inv.en trivial, ?_⟩
  rw [inv'.en trivial, mcEnergy, mcEnergy]
  congr 1
  have h : ∀ i j, i < p.no → j < p.no → mcOrbs p (iter + 1) s' i j =
      (fun i j => ∑ l ∈ range p.no, mcOrbs p iter s i l *
        asMat (computeOrbitalRotation p.no 1 (linearOrbRotToMatrix p.ni p.na p.nv k (fun _ => 0) p.no)
          p.no (fun _ => 0) p.no) p.no l j) i j := by
    intro i j hi hj
    rw [eo i j hi hj]
    apply Finset.sum_congr rfl
    intro l hl
    rw [mem_range] at hl
    congr 1
    exact rotation_congr _ _ (fun m hm => by
      rw [hK, trialK, axpyN, if_pos hm]; ring) 1 hl hj
  apply energy_congr
  · intro a b ha hb
    rw [tr2, tr2]
    apply Finset.sum_congr rfl; intro i hi
    apply Finset.sum_congr rfl; intro j hj
    rw [mem_range] at hi hj
    rw [h i a hi ha, h j b hj hb]
  · intro a b c d ha hb hc hd
    rw [tr4, tr4]
    apply Finset.sum_congr rfl; intro i hi
    apply Finset.sum_congr rfl; intro j hj
    apply Finset.sum_congr rfl; intro k hk
    apply Finset.sum_congr rfl; intro l hl
    rw [mem_range] at hi hj hk hl
    rw [h i a hi ha, h j b hj hb, h k c hk hc, h l d hl hd]

/-- the stored pairs never outgrow the window -/
theorem McReach.diis_length {env : McEnv X} {st : McSettings} {p : McInput} (ok : McOk p)
    (hc : RdmContract p.na env) {ci0 : X} {A1 A2 : Nat → ℝ}
    (den : DenSym p.na (asMat A1 p.na) (asTen A2 p.na)) (hk : 0 < st.diisNkeep) {iter : Nat}
    {s : McState X} (reach : McReach env st p ci0 A1 A2 iter s) :
    s.diis.length ≤ st.diisNkeep ∧ (st.enableDiis = false ∨ iter ≤ st.diisStart → s.diis = []) ∧
      (st.enableDiis = true → st.diisStart < iter → s.diis ≠ []) := by
  induction reach with
  | init e =>
    have := (mcInit_inv ok hc.toIf ci0 A1 A2 (fun _ : True => den) e).1.d0 rfl
    rw [this]
    exact ⟨Nat.zero_le _, fun _ => rfl, fun _ h => absurd h (by omega)⟩
  | @step iter s s' r _ _ e ih =>
    obtain ⟨k, _, ed, _⟩ := mcStep_parts (r.inv ok hc den) e
    obtain ⟨i1, i2, i3⟩ := ih
    rw [mcDiis] at ed
    simp only at ed
    split at ed
    · rename_i h
      rw [diisAdd_last hk _ i1] at ed
      obtain ⟨l, el, ed⟩ := bind_ok ed
      simp only [Run.toOut, Out.ok.injEq] at el
      have hd : s'.diis = l := by
        split at ed
        · obtain ⟨_, _, ed⟩ := bind_ok ed
          simp only [Out.ok.injEq, Prod.mk.injEq] at ed
          exact ed.2.symm
        · simp only [Out.ok.injEq, Prod.mk.injEq] at ed
          exact ed.2.symm
      rw [hd, ← el]
      refine ⟨lastN_length _ _, fun h' => ?_, fun _ _ h' => ?_⟩
      · rcases h' with h' | h'
        · rw [h'] at h; simp at h
        · omega
      · have := congrArg List.length h'
        rw [lastN, List.length_drop, List.length_append, List.length_singleton, List.length_nil] at this
        omega
    · rename_i h
      simp only [Out.ok.injEq, Prod.mk.injEq] at ed
      rw [← ed.2]
      refine ⟨i1, fun h' => i2 ?_, fun h1 h2 => absurd ⟨h1, by omega⟩ h⟩
      rcases h' with h' | h'
      · exact .inl h'
      · exact .inr (by omega)

/-- C106: with DIIS enabled the pairs the driver keeps are the last `diis_nkeep` of the pairs (trial
generator, gradient at the start of the iteration) of the iterations since `diis_start`; from iteration
`diis_start + 2` on the new total generator is the combination of the kept generators with coefficients
adding up to one that makes the same combination of the kept gradients shortest, and the orbitals are
rotated by the difference of the new and the old total generator.  The least-squares solver is assumed to
return a solution of the equations when there is one. -/
theorem C106_diis_step {env : McEnv X} {st : McSettings} {p : McInput} (ok : McOk p)
    (hc : RdmContract p.na env) {ci0 : X} {A1 A2 : Nat → ℝ}
    (den : DenSym p.na (asMat A1 p.na) (asTen A2 p.na)) {iter : Nat} {s s' : McState X}
    (hls : ∀ nd B, (∃ y, diisResidual nd B y = 0) → diisResidual nd B (env.gelss nd B) = 0)
    (hk : 0 < st.diisNkeep) (hen : st.enableDiis = true)
    (reach : McReach env st p ci0 A1 A2 iter s) (e : mcStep env st p iter s = .ok s') :
    ∃ k, mcStepLin st p s = .ok k ∧
      (iter < st.diisStart → s'.diis = []) ∧
      (st.diisStart ≤ iter → s'.diis = lastN st.diisNkeep (s.diis ++ [(trialK p s k, s.OG)])) ∧
      (st.diisStart + 2 ≤ iter → ∃ c : Nat → ℝ,
        (∀ m, s'.K m = ∑ i ∈ range s'.diis.length, c i * (s'.diis.getD i default).1 m) ∧
        (∑ i ∈ range s'.diis.length, c i) = 1 ∧
        ∀ c' : Nat → ℝ, (∑ i ∈ range s'.diis.length, c' i) = 1 →
          (∑ m ∈ range (nRot p.ni p.na p.nv),
            (∑ i ∈ range s'.diis.length, c i * (s'.diis.getD i default).2 m) ^ 2) ≤
          ∑ m ∈ range (nRot p.ni p.na p.nv),
            (∑ i ∈ range s'.diis.length, c' i * (s'.diis.getD i default).2 m) ^ 2) ∧
      ∀ i j, i < p.no → j < p.no → mcOrbs p (iter + 1) s' i j = ∑ l ∈ range p.no, mcOrbs p iter s i l *
        asMat (computeOrbitalRotation p.no 1 (fun m => s'.K m - s.K m) p.no (fun _ => 0) p.no) p.no l j := by
  have hsz : p.nv * (p.ni + p.na) + p.na * p.ni = nRot p.ni p.na p.nv := by rw [nRot]; ring
  obtain ⟨i1, i2, i3⟩ := reach.diis_length ok hc den hk
  obtain ⟨k, ek, ed, eo⟩ := mcStep_parts (reach.inv ok hc den) e
  refine ⟨k, ek, ?_, ?_, ?_, eo⟩
  · intro h
    rw [mcDiis] at ed
    simp only [if_neg (show ¬ (st.enableDiis = true ∧ st.diisStart ≤ iter) by omega), Out.ok.injEq,
      Prod.mk.injEq] at ed
    rw [← ed.2]
    exact i2 (.inr (by omega))
  · intro h
    rw [mcDiis] at ed
    simp only [if_pos (show st.enableDiis = true ∧ st.diisStart ≤ iter from ⟨hen, h⟩)] at ed
    rw [diisAdd_last hk _ i1] at ed
    simp only [Run.toOut, Out.bind] at ed
    split at ed
    · obtain ⟨_, _, ed⟩ := bind_ok ed
      simp only [Out.ok.injEq, Prod.mk.injEq] at ed
      exact ed.2.symm
    · simp only [Out.ok.injEq, Prod.mk.injEq] at ed
      exact ed.2.symm
  · intro h
    rw [mcDiis] at ed
    simp only [if_pos (show st.enableDiis = true ∧ st.diisStart ≤ iter from ⟨hen, by omega⟩)] at ed
    rw [diisAdd_last hk _ i1] at ed
    simp only [Run.toOut, Out.bind, if_pos h, hsz] at ed
    set l := lastN st.diisNkeep (s.diis ++ [(trialK p s k, s.OG)]) with hl
    have hpos : 0 < l.length := by
      rw [hl, lastN, List.length_drop, List.length_append, List.length_singleton]; omega
    obtain ⟨x, ex, v1, v2, v3⟩ := C80_extrapolation_optimal l.length (nRot p.ni p.na p.nv) hpos
      (fun i => (l.getD i (trialK p s k, s.OG)).1) (fun i => (l.getD i (trialK p s k, s.OG)).2)
      (env.gelss l.length (diisMatrix l.length (nRot p.ni p.na p.nv)
        fun i => (l.getD i (trialK p s k, s.OG)).2)) (fun y => by
          rw [hls _ _ (diis_consistent _ _ hpos _)]
          exact Finset.sum_nonneg fun _ _ => sq_nonneg _)
    rw [ex] at ed
    simp only [Out.ok.injEq, Prod.mk.injEq] at ed
    have gd : ∀ i, i ∈ range l.length → l.getD i (trialK p s k, s.OG) = l.getD i default := by
      intro i hi
      rw [mem_range] at hi
      simp [List.getD, hi]
    rw [← ed.1, ← ed.2]
    refine ⟨_, ?_, v2, ?_⟩
    · intro m
      rw [v1 m]
      apply Finset.sum_congr rfl; intro i hi
      simp only [gd i hi]
    · intro c' hc'
      have := v3 c' hc'
      have cg : ∀ (c : Nat → ℝ) m, (∑ i ∈ range l.length, c i * (l.getD i default).2 m) =
          ∑ i ∈ range l.length, c i * (l.getD i (trialK p s k, s.OG)).2 m := by
        intro c m
        apply Finset.sum_congr rfl; intro i hi
        rw [gd i hi]
      simp only [cg]
      exact this

/-- a first macro-iteration with a nonzero step: the hypotheses of `C106_plain_step` are met -/
example : ∃ s s', McReach mcEnv ⟨1, 1 / 2, 1 / 100, true, 3, 10⟩ (mcIn 5) () (fun m => if m = 0 then 1 else 0)
    (fun _ => 0) 0 s ∧ mcStep mcEnv ⟨1, 1 / 2, 1 / 100, true, 3, 10⟩ (mcIn 5) 0 s = .ok s' ∧ s.OG 0 = -2 := by
  obtain ⟨s, e, h1, h2, h3⟩ := mcExInit 5 ⟨1, 1 / 2, 1 / 100, true, 3, 10⟩
  have hz : ¬ ∃ q < (mcIn 5).nv * ((mcIn 5).na + (mcIn 5).ni) + (mcIn 5).na * (mcIn 5).ni,
      approxDiagHessian (mcIn 5).ni (mcIn 5).na (mcIn 5).nv s.Fi (mcIn 5).no s.Fa (mcIn 5).no s.A1
        (mcIn 5).ldd1 s.F (mcIn 5).no (fun _ => 0) q = 0 := by
    rintro ⟨q, hq, h⟩
    have : q = 0 := by simp [mcIn] at hq; exact hq
    rw [this] at h
    simp only [mcIn] at h
    rw [h3] at h
    norm_num at h
  have hsz : ¬ (mcIn 5).nv * ((mcIn 5).ni + (mcIn 5).na) + (mcIn 5).na * (mcIn 5).ni = 0 := by simp [mcIn]
  have : ∃ s', mcStep mcEnv ⟨1, 1 / 2, 1 / 100, true, 3, 10⟩ (mcIn 5) 0 s = .ok s' := by
    rw [mcStep, mcStepLin, precondStep]
    simp only [if_neg hz, Out.bind, if_neg hsz, mcDiis]
    simp only [show ¬ (true = true ∧ 3 ≤ 0) by simp, if_false, mcEnv]
    exact ⟨_, rfl⟩
  obtain ⟨s', e'⟩ := this
  exact ⟨s, s', .init e, e', h1⟩

/-- two orbitals with energies 0 and 1, one electron in the first -/
noncomputable def mcDiag : McInput :=
  ⟨1, 0, 0, 1, 1, 2, 0, fun a => if a = 3 then 1 else 0, 2, fun _ => 0, 2, 1, 1⟩

open Classical in
/-- `mcEnv` with a solver of the DIIS equations -/
noncomputable def mcEnvLs : McEnv Unit :=
  ⟨mcEnv.rdms, fun nd B => if h : ∃ y, diisResidual nd B y = 0 then h.choose else fun _ => 0⟩

/-- settings: DIIS from the start, no convergence -/
noncomputable def mcSetLs : McSettings := ⟨10, 1 / 2, 0, true, 0, 2⟩

structure StillAt (iter : Nat) (s : McState Unit) : Prop where
  og : s.OG 0 = 0
  a1 : s.A1 0 = 1
  hess : approxDiagHessian 0 1 1 s.Fi 2 s.Fa 2 s.A1 1 s.F 2 (fun _ => 0) 0 = 2
  kz : ∀ m, s.K m = 0
  uz : iter ≠ 0 → ∀ i j, i < 2 → j < 2 → asMat s.U 2 i j = if i = j then 1 else 0
  dz : ∀ x ∈ s.diis, ∀ m, x.1 m = 0
  dl : s.diis.length ≤ 2

theorem still_step {iter : Nat} {s : McState Unit} (h : StillAt iter s) :
    ∃ s', mcStep mcEnvLs mcSetLs mcDiag iter s = .ok s' ∧ StillAt (iter + 1) s' ∧ s'.conv = false := by
  have hz : ¬ ∃ q < mcDiag.nv * (mcDiag.na + mcDiag.ni) + mcDiag.na * mcDiag.ni,
      approxDiagHessian mcDiag.ni mcDiag.na mcDiag.nv s.Fi mcDiag.no s.Fa mcDiag.no s.A1
        mcDiag.ldd1 s.F mcDiag.no (fun _ => 0) q = 0 := by
    rintro ⟨q, hq, h'⟩
    have : q = 0 := by simp [mcDiag] at hq; exact hq
    rw [this] at h'
    simp only [mcDiag] at h'
    rw [h.hess] at h'
    norm_num at h'
  have hsz : ¬ mcDiag.nv * (mcDiag.ni + mcDiag.na) + mcDiag.na * mcDiag.ni = 0 := by simp [mcDiag]
  have lin : ∃ k, mcStepLin mcSetLs mcDiag s = .ok k ∧ ∀ m, k m = 0 := by
    have e0 : precondStep mcDiag.ni mcDiag.na mcDiag.nv s.Fi mcDiag.no s.Fa mcDiag.no s.F mcDiag.no s.A1
        mcDiag.ldd1 s.OG = .ok fun _ => 0 := by
      rw [precondStep]
      simp only [if_neg hz]
      congr 1
      funext q
      split
      · rename_i hq
        have : q = 0 := by simp [mcDiag] at hq; exact hq
        rw [this, h.og, neg_zero, zero_div]
      · rfl
    rw [mcStepLin, e0, Out.bind, if_neg hsz]
    refine ⟨_, rfl, ?_⟩
    intro m
    split
    · simp [scalN]
    · rfl
  obtain ⟨k, ek, hk⟩ := lin
  have tk : ∀ m, trialK mcDiag s k m = 0 := by
    intro m
    rw [trialK, axpyN]
    split
    · rw [h.kz m]
      simp [mcDiag, linearOrbRotToMatrix, splitLinearOrbRot, rotBlock, storeAll, memSet, hk, pairsMN,
        List.range_succ]
    · exact h.kz m
  have di : ∃ K l, mcDiis mcEnvLs mcSetLs mcDiag iter (trialK mcDiag s k) s.OG s.diis = .ok (K, l) ∧
      (∀ m, K m = 0) ∧ (∀ x ∈ l, ∀ m, x.1 m = 0) ∧ l.length ≤ 2 := by
    have mem : ∀ x ∈ lastN 2 (s.diis ++ [(trialK mcDiag s k, s.OG)]), ∀ m, x.1 m = 0 := by
      intro x hx
      rw [lastN] at hx
      rcases List.mem_append.mp (List.mem_of_mem_drop hx) with hx | hx
      · exact h.dz x hx
      · rw [List.mem_singleton.mp hx]; exact tk
    rw [mcDiis]
    simp only []
    rw [if_pos (show mcSetLs.enableDiis = true ∧ mcSetLs.diisStart ≤ iter from ⟨rfl, Nat.zero_le _⟩),
      diisAdd_last (nmax := mcSetLs.diisNkeep) Nat.two_pos _ h.dl, show mcSetLs.diisNkeep = 2 from rfl]
    simp only [Run.toOut, Out.bind]
    by_cases h2 : mcSetLs.diisStart + 2 ≤ iter
    · rw [if_pos h2, diisExtrapolate, if_neg]
      · refine ⟨_, _, rfl, ?_, mem, lastN_length _ _⟩
        intro m
        apply Finset.sum_eq_zero
        intro i hi
        rw [mem _ (by
          rw [mem_range] at hi
          simp [List.getD, hi]) m, mul_zero]
      · rw [lastN, List.length_drop, List.length_append, List.length_singleton]; omega
    · rw [if_neg h2]
      exact ⟨_, _, rfl, tk, mem, lastN_length _ _⟩
  obtain ⟨K, l, ed, hK, hl, hll⟩ := di
  have hu : ∀ U, U = (if iter = 0 then computeOrbitalRotation mcDiag.no 1 K mcDiag.no s.U mcDiag.no
        else
          gemm false mcDiag.no mcDiag.no mcDiag.no s.U mcDiag.no
            (computeOrbitalRotation mcDiag.no 1 (scalN (mcDiag.no * mcDiag.no) (-1)
              (axpyN (mcDiag.no * mcDiag.no) (-1) K s.K)) mcDiag.no (fun _ => 0) mcDiag.no) mcDiag.no
              (fun _ => 0) 0 mcDiag.no) →
      ∀ i j, i < 2 → j < 2 → asMat U 2 i j = if i = j then 1 else 0 := by
    intro U hU i j hi hj
    have one : ∀ K' U0 : Nat → ℝ, (∀ m, K' m = 0) → ∀ i j, i < 2 → j < 2 →
        asMat (computeOrbitalRotation 2 1 K' 2 U0 2) 2 i j = if i = j then 1 else 0 := by
      intro K' U0 hK' i j hi hj
      rw [rotation_val (le_refl _) K' U0 1 hi hj]
      have : matOf 2 K' 2 = 0 := by ext a b; simp [matOf, hK']
      rw [this, smul_zero, NormedSpace.exp_zero, Matrix.one_apply]
      simp only [Fin.mk.injEq]
    rw [hU]
    split
    · exact one _ _ hK i j hi hj
    · rename_i h0
      have := (gemm_spec false 2 2 2 s.U 2 (computeOrbitalRotation 2 1
        (scalN (2 * 2) (-1) (axpyN (2 * 2) (-1) K s.K)) 2 (fun _ => 0) 2) 2
        (fun _ => (0 : ℝ)) 0 2 (le_refl 2)).1 i j hi hj
      rw [Nat.zero_add] at this
      refine Eq.trans ?_ (this.trans ?_)
      · rfl
      simp only [Bool.false_eq_true, if_false]
      have o := one (scalN (2 * 2) (-1) (axpyN (2 * 2) (-1) K s.K)) (fun _ => 0)
        (fun m => by simp [scalN, axpyN, hK, h.kz])
      simp only [asMat] at o
      have u := h.uz h0
      simp only [asMat] at u
      rw [Finset.sum_range_succ, Finset.sum_range_one, u i 0 hi (by omega), u i 1 hi (by omega),
        o 0 j (by omega) hj, o 1 j (by omega) hj]
      have : i = 0 ∨ i = 1 := by omega
      rcases this with rfl | rfl <;> simp
  have ed' : mcDiis mcEnvLs mcSetLs mcDiag iter (axpyN (mcDiag.no * mcDiag.no) 1
      (linearOrbRotToMatrix mcDiag.ni mcDiag.na mcDiag.nv k (fun _ => 0) mcDiag.no) s.K) s.OG s.diis =
      .ok (K, l) := ed
  rw [mcStep, ek]
  simp only [Out.bind, ed']
  generalize hU : (if iter = 0 then _ else _) = U
  have hu' := hu U hU.symm
  obtain ⟨t1, t2⟩ := transform_val (no := 2) (ldt := 2) (ldu := 2) mcDiag.T mcDiag.V U s.Tt s.Vt
  rw [show mcDiag.no = 2 from rfl, show mcDiag.ldt = 2 from rfl, show mcDiag.ldv = 2 from rfl,
    show mcDiag.na = 1 from rfl, show mcDiag.ni = 0 from rfl, show mcDiag.nv = 1 from rfl]
  generalize twoIndexTransform 2 2 mcDiag.T 2 U 2 s.Tt 2 = Tt at t1 ⊢
  generalize fourIndexTransform 2 2 mcDiag.V 2 U 2 s.Vt 2 = Vt at t2 ⊢
  obtain ⟨o1, o2⟩ := tr_one hu' (asMat mcDiag.T 2) (asTen mcDiag.V 2)
  have T0 : Tt 0 = 0 := by
    have := t1 0 0 (by omega) (by omega); rw [o1 0 0 (by omega) (by omega)] at this; simpa [asMat, mcDiag] using this
  have T1 : Tt 1 = 0 := by
    have := t1 1 0 (by omega) (by omega); rw [o1 1 0 (by omega) (by omega)] at this; simpa [asMat, mcDiag] using this
  have T2 : Tt 2 = 0 := by
    have := t1 0 1 (by omega) (by omega); rw [o1 0 1 (by omega) (by omega)] at this; simpa [asMat, mcDiag] using this
  have T3 : Tt 3 = 1 := by
    have := t1 1 1 (by omega) (by omega); rw [o1 1 1 (by omega) (by omega)] at this; simpa [asMat, mcDiag] using this
  have hV : ∀ a b c d, a < 2 → b < 2 → c < 2 → d < 2 → asTen Vt 2 a b c d = 0 := by
    intro a b c d ha hb hc hd
    rw [t2 a b c d ha hb hc hd, o2 a b c d ha hb hc hd]; rfl
  have hv : ∀ n, n < 16 → Vt n = 0 := by
    intro n hn
    have := hV (n % 2) (n / 2 % 2) (n / 4 % 2) (n / 8) (by omega) (by omega) (by omega) (by omega)
    rw [asTen, addr4] at this
    rwa [show n = n % 2 + n / 2 % 2 * 2 + n / 4 % 2 * 2 * 2 + n / 8 * 2 * 2 * 2 by omega]
  simp only [mcEnvLs, mcEnv]
  refine ⟨_, rfl, ⟨?_, ?_, ?_, ?_, ?_, ?_, ?_⟩, ?_⟩
  · simp [mcGradient, mcDiag, activeHamiltonian, activeSubtensor2body, activeSubmatrix1body,
      inactiveFockMatrix, activeFockMatrix, auxQMatrix, generalizedFockMatrix, fockToLinearOrbGrad,
      splitLinearOrbRot, packBlock, storeAll, memSet, pairsMN, pairs2, quads, gemm, List.range_succ,
      fillZero, T0, T1, T2, T3, hv]
  · simp [mcGradient]
  · simp [mcGradient, mcDiag, activeHamiltonian, activeSubtensor2body, activeSubmatrix1body,
      inactiveFockMatrix, activeFockMatrix, auxQMatrix, generalizedFockMatrix, fockToLinearOrbGrad,
      splitLinearOrbRot, packBlock, storeAll, memSet, pairsMN, pairs2, quads, gemm, List.range_succ,
      fillZero, T0, T1, T2, T3, hv,
      approxDiagHessian]
  · exact hK
  · intro _; exact hu'
  · exact hl
  · exact hll
  · exact decide_eq_false (not_lt.mpr (div_nonneg (Real.sqrt_nonneg _) (Real.sqrt_nonneg _)))

theorem still_init : ∃ s, mcInit mcEnvLs mcSetLs mcDiag () (fun m => if m = 0 then 1 else 0) (fun _ => 0) =
    .ok s ∧ StillAt 0 s ∧ s.conv = false := by
  have tr : ¬ |(∑ i ∈ Finset.range mcDiag.na, (fun m => if m = 0 then (1 : ℝ) else 0)
      (i * (mcDiag.ldd1 + 1))) - mcDiag.nalpha - mcDiag.nbeta| > 1 / 1000000 := by
    norm_num [mcDiag]
  rw [mcInit]
  simp only [if_neg tr, Out.bind]
  refine ⟨_, rfl, ⟨?_, ?_, ?_, ?_, fun h => absurd rfl h, ?_, ?_⟩, ?_⟩
  · simp [mcGradient, mcDiag, activeHamiltonian, activeSubtensor2body, activeSubmatrix1body,
      inactiveFockMatrix, activeFockMatrix, auxQMatrix, generalizedFockMatrix, fockToLinearOrbGrad,
      splitLinearOrbRot, packBlock, storeAll, memSet, pairsMN, pairs2, quads, gemm, List.range_succ]
  · simp [mcGradient]
  · simp [mcGradient, mcDiag, activeHamiltonian, activeSubtensor2body, activeSubmatrix1body,
      inactiveFockMatrix, activeFockMatrix, auxQMatrix, generalizedFockMatrix, fockToLinearOrbGrad,
      splitLinearOrbRot, packBlock, storeAll, memSet, pairsMN, pairs2, quads, gemm, List.range_succ,
      approxDiagHessian]
  · intro m; rfl
  · intro x hx; exact absurd hx (by simp [mcGradient])
  · simp [mcGradient]
  · exact decide_eq_false (not_lt.mpr (Real.sqrt_nonneg _))

/-- the third macro-iteration is reached and extrapolates: the hypotheses of `C106_diis_step` are met -/
example : ∃ s s', McReach mcEnvLs mcSetLs mcDiag () (fun m => if m = 0 then 1 else 0) (fun _ => 0) 2 s ∧
    mcStep mcEnvLs mcSetLs mcDiag 2 s = .ok s' ∧
    (∀ nd B, (∃ y, diisResidual nd B y = 0) → diisResidual nd B (mcEnvLs.gelss nd B) = 0) ∧
    mcSetLs.diisStart + 2 ≤ 2 ∧ 0 < mcSetLs.diisNkeep ∧ mcSetLs.enableDiis = true := by
  obtain ⟨s0, e0, h0, c0⟩ := still_init
  obtain ⟨s1, e1, h1, c1⟩ := still_step h0
  obtain ⟨s2, e2, h2, c2⟩ := still_step h1
  obtain ⟨s3, e3, _, _⟩ := still_step h2
  have lt : ∀ n, n < 10 → n < mcSetLs.maxMacroIter := fun n hn => hn
  refine ⟨s2, s3, .step (.step (.init e0) (lt 0 (by omega)) c0 e1) (lt 1 (by omega)) c1 e2, e3, ?_,
    le_refl _, Nat.two_pos, rfl⟩
  intro nd B h
  simp only [mcEnvLs, dif_pos h]
  exact h.choose_spec

end Macis
