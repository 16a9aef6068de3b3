import Verif.Lemmas.DriverMcscf
import Verif.Lemmas.DriverExampleMc
/-! Property C155: an MCSCF calculation of the standalone program. -/
namespace Macis
open Spec Finset

variable {M : Nat}

theorem tr2_congr_fun {n : Nat} {u h h' : Nat → Nat → ℝ} (e : ∀ i j, i < n → j < n → h i j = h' i j) : tr2 n u h = tr2 n u h' := by
  funext p q
  exact Finset.sum_congr rfl fun i hi => Finset.sum_congr rfl fun j hj => by rw [e i j (mem_range.1 hi) (mem_range.1 hj)]

theorem tr4_congr_fun {n : Nat} {u : Nat → Nat → ℝ} {g g' : Nat → Nat → Nat → Nat → ℝ}
    (e : ∀ i j k l, i < n → j < n → k < n → l < n → g i j k l = g' i j k l) : tr4 n u g = tr4 n u g' := by
  funext p q r s
  exact Finset.sum_congr rfl fun i hi => Finset.sum_congr rfl fun j hj => Finset.sum_congr rfl fun k hk =>
    Finset.sum_congr rfl fun l hl => by rw [e i j k l (mem_range.1 hi) (mem_range.1 hj) (mem_range.1 hk) (mem_range.1 hl)]

/-- the guess orbitals: the input orbitals, or orthonormal combinations of them -/
theorem guess_orbs {env : DriverEnv} {o : DriverSettings} (hs : o.mp2Guess = true → SyevSpec env.syev) {f f' : FciData}
    {nocc : Nat} (h : (if o.mp2Guess then mp2Guess env nocc f else .ok f) = .ok f') :
    ∃ C, Orthogonal f.norb C ∧ (o.mp2Guess = false → C = fun i j => if i = j then 1 else 0) ∧ f'.norb = f.norb ∧
      f'.core = f.core ∧ (∀ p q, p < f.norb → q < f.norb → asMat f'.T f.norb p q = tr2 f.norb C (asMat f.T f.norb) p q) ∧
      ∀ p q r s, p < f.norb → q < f.norb → r < f.norb → s < f.norb →
        asTen f'.V f.norb p q r s = tr4 f.norb C (asTen f.V f.norb) p q r s := by
  by_cases c : o.mp2Guess = true
  · rw [if_pos c] at h
    unfold mp2Guess at h
    split at h
    · cases h
    rename_i hno
    have ortho := (natorb_eig (ldt := f.norb) (ldv := f.norb) (show nocc + (f.norb - nocc) = f.norb by omega)
      (le_refl f.norb) (hs c) f.T f.V fun _ => 0).ortho
    set C := (mp2NaturalOrbitals env.syev f.norb nocc (f.norb - nocc) f.T f.norb f.V f.norb (fun _ => 0) f.norb).2
    cases h
    obtain ⟨t1, t2⟩ := transform_val (ldt := f.norb) (ldu := f.norb) (no := f.norb) f.T f.V C f.T f.V
    exact ⟨asMat C f.norb, ⟨fun p q hp hq => ortho p q hp hq, fun p q hp hq =>
      ortho_rows (Z := asMat C f.norb) (fun p q hp hq => ortho p q hp hq) hp hq⟩,
      fun e => absurd (c.symm.trans e) (by decide), rfl, rfl, t1, t2⟩
  · rw [if_neg c] at h
    cases h
    obtain ⟨i1, i2⟩ := tr_id (no := f.norb) (asMat f.T f.norb) (asTen f.V f.norb)
    refine ⟨fun i j => if i = j then 1 else 0, ⟨fun p q hp hq => ?_, fun p q hp hq => ?_⟩, fun _ => rfl, rfl, rfl,
      fun p q hp hq => (i1 p q hp hq).symm, fun p q r s hp hq hr hs => (i2 p q r s hp hq hr hs).symm⟩
    · rw [Finset.sum_congr rfl fun i _ => ite_mul _ _ _ _]
      simp only [one_mul, zero_mul]
      rw [Finset.sum_ite_eq' (range f.norb) p, if_pos (mem_range.2 hp)]
    · rw [Finset.sum_congr rfl fun i _ => ite_mul _ _ _ _]
      simp only [one_mul, zero_mul]
      rw [Finset.sum_ite_eq (range f.norb) p, if_pos (mem_range.2 hp)]
      exact if_congr eq_comm rfl rfl

/-- lower bounds in rotated orbitals -/
theorem isLowerBound_tr {n : Nat} (hn : n ≤ M) {h : Nat → Nat → ℝ} {g : Nat → Nat → Nat → Nat → ℝ} {u : Nat → Nat → ℝ}
    (hu : Orthogonal n u) {na nb : Nat} {mu : ℝ} (hna : na ≤ n) (hnb : nb ≤ n) (hb : IsLowerBound M ⟨n, h, g⟩ na nb mu) :
    IsLowerBound M ⟨n, tr2 n u h, tr4 n u g⟩ na nb mu := by
  set T : Nat → ℝ := fun m => h (m % n) (m / n) with hT
  set C : Nat → ℝ := fun m => u (m % n) (m / n) with hC
  set V : Nat → ℝ := fun m => g (m % n) (m / n % n) (m / n / n % n) (m / n / n / n) with hV
  have a1 : ∀ (x : Nat → Nat → ℝ) i j, i < n → asMat (fun m => x (m % n) (m / n)) n i j = x i j := by
    intro x i j hi
    have hn : 0 < n := by omega
    simp only [asMat]
    rw [Nat.add_mul_mod_self_right, Nat.mod_eq_of_lt hi, Nat.add_mul_div_right _ _ hn, Nat.div_eq_of_lt hi, Nat.zero_add]
  have a2 : ∀ i j k l, i < n → j < n → k < n → l < n → asTen V n i j k l = g i j k l := by
    intro i j k l hi hj hk hl
    have hn : 0 < n := by omega
    have e : addr4 n i j k l = i + (j + (k + l * n) * n) * n := by unfold addr4; ring
    simp only [asTen, hV, e]
    rw [Nat.add_mul_mod_self_right, Nat.mod_eq_of_lt hi, Nat.add_mul_div_right _ _ hn, Nat.div_eq_of_lt hi, Nat.zero_add,
      Nat.add_mul_mod_self_right, Nat.mod_eq_of_lt hj, Nat.add_mul_div_right _ _ hn, Nat.div_eq_of_lt hj, Nat.zero_add,
      Nat.add_mul_mod_self_right, Nat.mod_eq_of_lt hk, Nat.add_mul_div_right _ _ hn, Nat.div_eq_of_lt hk, Nat.zero_add]
  have hb' : IsLowerBound M ⟨n, asMat T n, asTen V n⟩ na nb mu :=
    isLowerBound_congr (I := ⟨n, h, g⟩) (J := ⟨n, asMat T n, asTen V n⟩) rfl (fun p q hp hq => a1 h p q hp) (fun p q r s hp hq hr hs => a2 p q r s hp hq hr hs) hb
  have hcol : ∀ p q, p < n → q < n → ∑ i ∈ range n, C (i + p * n) * C (i + q * n) = if p = q then 1 else 0 := by
    intro p q hp hq
    rw [← hu.1 p q hp hq]
    refine Finset.sum_congr rfl fun i hi => ?_
    have e1 := a1 u i p (mem_range.1 hi)
    have e2 := a1 u i q (mem_range.1 hi)
    simp only [asMat] at e1 e2
    simp only [hC, e1, e2]
  have r := isLowerBound_rotate hn T V C T V hcol hna hnb hb'
  obtain ⟨t1, t2⟩ := transform_val (ldt := n) (ldu := n) (no := n) T V C T V
  have eU : ∀ i j, i < n → asMat C n i j = u i j := fun i j hi => a1 u i j hi
  refine isLowerBound_congr (I := ⟨n, asMat (twoIndexTransform n n T n C n T n) n, asTen (fourIndexTransform n n V n C n V n) n⟩)
    (J := ⟨n, tr2 n u h, tr4 n u g⟩) rfl (fun p q hp hq => ?_) (fun p q r s hp hq hr hs => ?_) r
  · refine Eq.trans ?_ (t1 p q hp hq).symm
    change tr2 n u h p q = _
    unfold tr2
    refine Finset.sum_congr rfl fun i hi => Finset.sum_congr rfl fun j hj => ?_
    rw [eU _ _ (mem_range.1 hi), eU _ _ (mem_range.1 hj), a1 h i j (mem_range.1 hi)]
  · refine Eq.trans ?_ (t2 p q r s hp hq hr hs).symm
    change tr4 n u g p q r s = _
    unfold tr4
    refine Finset.sum_congr rfl fun i hi => Finset.sum_congr rfl fun j hj => Finset.sum_congr rfl fun k hk =>
      Finset.sum_congr rfl fun l hl => ?_
    rw [eU _ _ (mem_range.1 hi), eU _ _ (mem_range.1 hj), eU _ _ (mem_range.1 hk), eU _ _ (mem_range.1 hl),
      a2 i j k l (mem_range.1 hi) (mem_range.1 hj) (mem_range.1 hk) (mem_range.1 hl)]

/-- the MCSCF branch of the program -/
theorem runMcscf_out {env : DriverEnv} {exp : Expansion} {sp : Ini.Space} {o : DriverSettings} {f : FciData}
    {out : DriverOut} (h : runJob env .mcscf exp sp o f = .ok out) :
    ∃ f', (if o.mp2Guess then mp2Guess env ((sp.ninactive + sp.nalpha) % 2 ^ 64) f else .ok f) = .ok f' ∧
      ∀ p : McInput, p = ⟨sp.nalpha, sp.nbeta, sp.ninactive, sp.nactive, sp.nvirtual, f'.norb, f'.core, f'.T, f'.norb, f'.V,
          f'.norb, sp.nactive, sp.nactive⟩ →
        ∃ A1 A2 s, mcscf (casEnv env.eig o.ci env.gelss p) o.mc p [] A1 A2 = .ok s ∧ out.eCI = s.E0 ∧
          out.eInactive = inactiveEnergy p.ni p.T p.no (inputActive p).1 p.no ∧
          ((o.rdmFile = [] ∧ A1 = (fun _ => 0) ∧ A2 = fun _ => 0) ∨
            (o.rdmFile ≠ [] ∧ out.eRDM = some (dotN (p.na * p.na) A1 (inputActive p).2.1 +
              dotN (p.na * p.na * (p.na * p.na)) A2 (inputActive p).2.2 +
              inactiveEnergy p.ni p.T p.no (inputActive p).1 p.no + p.eCore))) := by
  unfold runJob at h
  obtain ⟨f', e, h⟩ := out_bind_ok h
  refine ⟨f', e, fun p hp => ?_⟩
  subst hp
  obtain ⟨r, e, h⟩ := out_bind_ok h
  obtain rfl := Out.ok.inj h
  unfold runMcscf at e
  obtain ⟨⟨x, A1, A2⟩, e1, e⟩ := out_bind_ok e
  obtain ⟨s, e2, e⟩ := out_bind_ok e
  obtain rfl := Out.ok.inj e
  refine ⟨A1, A2, s, e2, rfl, rfl, ?_⟩
  by_cases c : o.rdmFile = []
  · rw [if_neg (by simpa using c)] at e1
    cases e1
    exact Or.inl ⟨c, rfl, rfl⟩
  · rw [if_pos c] at e1
    obtain ⟨-, -, e1⟩ := out_bind_ok e1
    cases e1
    exact Or.inr ⟨c, rfl⟩

/-- C155: an MCSCF calculation of the standalone program.  Unless the printed `E(CI)` is the energy `E(RDM)` of the RDM
file the calculation was started from (no macro-iteration was made), it is, up to the thresholds below which Hamiltonian
elements and RDM weights are dropped, the core energy in the file plus the energy expectation value, with the
Hamiltonian in the file, of a normalised CAS state in some orthonormal orbitals `u`.  The orbitals `C` are those the
calculation starts from: the ones in the file or the MP2 guess. -/
theorem C155_mcscf_energy {env : DriverEnv} (he : LowestPair env.eig) {input : List Char} {es : List (FciEntry ℝ)}
    {exp : Expansion} {sp : Ini.Space} {o : DriverSettings} (ha : Asks env input es .mcscf exp sp o)
    (hg : o.mp2Guess = true → SyevSpec env.syev) (h0 : 0 ≤ o.ci.matelTol) (hel : 0 < sp.nalpha) (hM : maxIdx es ≤ M)
    {out : DriverOut} (h : driver env input = .ok out) :
    (o.rdmFile ≠ [] ∧ out.eRDM = some out.eCI) ∨
    ∃ (C u : Nat → Nat → ℝ) (full : List (BitVec (2 * M))) (ψ : Nat → ℝ), Orthogonal (maxIdx es) C ∧
      (o.mp2Guess = false → C = fun i j => if i = j then 1 else 0) ∧ Orthogonal (maxIdx es) u ∧ full.Nodup ∧
      (∀ s, s ∈ full ↔ CasDet sp.ninactive sp.nactive sp.nalpha sp.nbeta s) ∧
      full.length = sp.nactive.choose sp.nalpha * sp.nactive.choose sp.nbeta ∧
      (∑ i ∈ range full.length, ψ i * ψ i) = 1 ∧
      |out.eCI - (fileCore es + energyOf ⟨maxIdx es, tr2 (maxIdx es) u (fileInts es).T, tr4 (maxIdx es) u (fileInts es).V⟩ full ψ)| ≤
        o.ci.matelTol * full.length + 1 / 10 ^ 16 * ∑ i ∈ range full.length, ∑ j ∈ range full.length,
          |hamiltonian ⟨maxIdx es, tr2 (maxIdx es) C (fileInts es).T, tr4 (maxIdx es) C (fileInts es).V⟩
              (full.getD i 0) (full.getD j 0) - if i = j then out.eInactive else 0| := by
  obtain ⟨f, hr, f2, f3, f4, f5, s1, -, s3, hab⟩ := driver_runs ha h
  have sym : IntSym f.norb (asMat f.T f.norb) (asTen f.V f.norb) := intSym_congr f4 f5 (fileInts_sym es f.norb)
  obtain ⟨f', e, hr⟩ := runMcscf_out hr
  obtain ⟨C, c1, c2, c3, c4, c5, c6⟩ := guess_orbs hg e
  obtain ⟨g1, g2, g3, -, -⟩ := guess_step (M := M) hg sym e
  set p : McInput := ⟨sp.nalpha, sp.nbeta, sp.ninactive, sp.nactive, sp.nvirtual, f'.norb, f'.core, f'.T, f'.norb, f'.V,
    f'.norb, sp.nactive, sp.nactive⟩ with hp
  obtain ⟨A1, A2, s, e1, e2, e3, e4⟩ := hr p rfl
  have ok : McOk p := ⟨show f'.norb = sp.ninactive + sp.nactive + sp.nvirtual by omega, rfl, rfl, rfl, g3⟩
  obtain ⟨k, inv, hE⟩ := mcscf_cas (M := M) (D := False) he h0 ok rfl s3 (show f'.norb ≤ M by omega) (ci0 := []) (Or.inl rfl) (fun h => h.elim) e1
  rcases hE with ⟨q1, q2⟩ | ⟨full, ψ, nd, mem, len, norm, q, -⟩
  · left
    rcases e4 with ⟨r1, rfl, rfl⟩ | ⟨r1, r2⟩
    · exfalso
      change |∑ i ∈ range sp.nactive, (0 : ℝ) - sp.nalpha - sp.nbeta| ≤ 1 / 1000000 at q1
      rw [Finset.sum_const_zero, ← hab] at q1
      have : (1 : ℝ) ≤ sp.nalpha := by exact_mod_cast hel
      have := (abs_le.1 q1).1
      norm_num at this
      linarith
    · refine ⟨r1, ?_⟩
      rw [r2, e2, q2]
      congr 1
      ring
  · right
    have n1 : f'.norb = maxIdx es := g1.trans f2
    rw [n1] at hp
    have orb := orthogonal_mul c1 (g1 ▸ inv.orth : Orthogonal f.norb (mcOrbs p k s))
    obtain ⟨m1, m2⟩ := tr_mul (no := f.norb) C (mcOrbs p k s) (asMat f.T f.norb) (asTen f.V f.norb)
    have hT : ∀ v : Nat → Nat → ℝ, tr2 f.norb v (asMat f.T f.norb) = tr2 f.norb v (fileInts es).T := fun v => tr2_congr_fun f4
    have hV : ∀ v : Nat → Nat → ℝ, tr4 f.norb v (asTen f.V f.norb) = tr4 f.norb v (fileInts es).V := fun v => tr4_congr_fun f5
    refine ⟨C, fun i j => ∑ k' ∈ range f.norb, C i k' * mcOrbs p k s k' j, full, ψ, f2 ▸ c1, c2, f2 ▸ orb, nd, mem, len, norm, ?_⟩
    have w1 : tr2 p.no (mcOrbs p k s) (asMat p.T p.no) =
        tr2 (maxIdx es) (fun i j => ∑ k' ∈ range f.norb, C i k' * mcOrbs p k s k' j) (fileInts es).T := by
      rw [← f2, ← hT]
      funext a b
      rw [m1]
      exact congrFun (congrFun (show tr2 f'.norb (mcOrbs p k s) (asMat f'.T f'.norb) = _ by
        rw [g1]; exact tr2_congr_fun c5) a) b
    have w2 : tr4 p.no (mcOrbs p k s) (asTen p.V p.no) =
        tr4 (maxIdx es) (fun i j => ∑ k' ∈ range f.norb, C i k' * mcOrbs p k s k' j) (fileInts es).V := by
      rw [← f2, ← hV]
      funext a b c d
      rw [m2]
      exact congrFun (congrFun (congrFun (congrFun (show tr4 f'.norb (mcOrbs p k s) (asTen f'.V f'.norb) = _ by
        rw [g1]; exact tr4_congr_fun c6) a) b) c) d
    have w3 : ∀ s t : BitVec (2 * M), hamiltonian ⟨maxIdx es, tr2 (maxIdx es) C (fileInts es).T, tr4 (maxIdx es) C (fileInts es).V⟩ s t =
        hamiltonian ⟨p.no, asMat p.T p.no, asTen p.V p.no⟩ s t := by
      refine hamiltonian_congr_below (I := ⟨p.no, asMat p.T p.no, asTen p.V p.no⟩) n1.symm (fun a b ha hb => ?_) (fun a b c d ha hb hc hd => ?_)
      · change a < f'.norb at ha
        change b < f'.norb at hb
        change tr2 _ _ _ a b = asMat f'.T f'.norb a b
        rw [g1] at ha hb
        rw [g1, ← f2, ← hT, c5 a b ha hb]
      · change a < f'.norb at ha
        change b < f'.norb at hb
        change c < f'.norb at hc
        change d < f'.norb at hd
        change tr4 _ _ _ a b c d = asTen f'.V f'.norb a b c d
        rw [g1] at ha hb hc hd
        rw [g1, ← f2, ← hV, c6 a b c d ha hb hc hd]
    simp only [w3]
    rw [← w1, ← w2, e2, e3]
    have : p.eCore = fileCore es := g2.trans f3
    rw [← this, ← n1]
    exact q

/-- C155: the energy of an MCSCF calculation that is not just the energy of the RDM file is variational: not below the
core energy plus any lower bound of the Hamiltonian in the file for the given numbers of electrons, up to the thresholds
below which Hamiltonian elements and RDM weights are dropped. -/
theorem C155_mcscf_variational {env : DriverEnv} (he : LowestPair env.eig) {input : List Char} {es : List (FciEntry ℝ)}
    {exp : Expansion} {sp : Ini.Space} {o : DriverSettings} (ha : Asks env input es .mcscf exp sp o)
    (hg : o.mp2Guess = true → SyevSpec env.syev) (h0 : 0 ≤ o.ci.matelTol) (hel : 0 < sp.nalpha) (hM : maxIdx es ≤ M)
    {mu : ℝ} (hmu : IsLowerBound M (fileInts es) (sp.ninactive + sp.nalpha) (sp.ninactive + sp.nbeta) mu)
    {out : DriverOut} (h : driver env input = .ok out) (hfile : out.eRDM ≠ some out.eCI) :
    ∃ (C : Nat → Nat → ℝ) (full : List (BitVec (2 * M))), Orthogonal (maxIdx es) C ∧
      (o.mp2Guess = false → C = fun i j => if i = j then 1 else 0) ∧ full.Nodup ∧
      (∀ s, s ∈ full ↔ CasDet sp.ninactive sp.nactive sp.nalpha sp.nbeta s) ∧
      fileCore es + mu ≤ out.eCI +
        (o.ci.matelTol * full.length + 1 / 10 ^ 16 * ∑ i ∈ range full.length, ∑ j ∈ range full.length,
          |hamiltonian ⟨maxIdx es, tr2 (maxIdx es) C (fileInts es).T, tr4 (maxIdx es) C (fileInts es).V⟩
              (full.getD i 0) (full.getD j 0) - if i = j then out.eInactive else 0|) := by
  rcases C155_mcscf_energy he ha hg h0 hel hM h with ⟨-, hx⟩ | ⟨C, u, full, ψ, a1, a2, a3, a4, a5, a6, a7, a8⟩
  · exact absurd hx hfile
  refine ⟨C, full, a1, a2, a4, a5, ?_⟩
  obtain ⟨f, -, f2, -, -, -, s1, -, -, -⟩ := driver_runs ha h
  have hpos : full.length ≠ 0 := fun e => by rw [e] at a7; simp at a7
  rw [a6] at hpos
  have hα : sp.nalpha ≤ sp.nactive := by
    by_contra hc
    exact hpos (by rw [Nat.choose_eq_zero_of_lt (not_le.1 hc), Nat.zero_mul])
  have hβ : sp.nbeta ≤ sp.nactive := by
    by_contra hc
    exact hpos (by rw [Nat.choose_eq_zero_of_lt (not_le.1 hc), Nat.mul_zero])
  have hb := isLowerBound_tr (M := M) (n := maxIdx es) (h := (fileInts es).T) (g := (fileInts es).V) hM a3 (by omega) (by omega) hmu full a4 (fun s hs => by
    have := (a5 s).1 hs
    refine ⟨⟨fun i hi hb => ?_, fun i hi hb => ?_⟩, this.2.2.1, this.2.2.2⟩
    · have := this.1.1 i hi hb
      change i < maxIdx es
      omega
    · have := this.1.2 i hi hb
      change i < maxIdx es
      omega) ψ a7
  have := (abs_le.1 a8).1
  linarith

/-- the hypotheses of `C155_mcscf_energy` and `C155_mcscf_variational` are met by a calculation that the program
completes: one alpha and one beta electron in two coupled orbitals -/
example : ∃ (env : DriverEnv) (o : DriverSettings) (out : DriverOut), LowestPair env.eig ∧ SyevSpec env.syev ∧
    Asks env mcInput exEntries .mcscf .cas ⟨1, 1, 0, 2, 0⟩ o ∧ o.mp2Guess = false ∧ 0 ≤ o.ci.matelTol ∧
    driver env mcInput = .ok out ∧ out.eRDM ≠ some out.eCI := by
  obtain ⟨eig, he⟩ := exists_lowestPair
  obtain ⟨syev, hs⟩ := exists_syev
  obtain ⟨o, out, h1, h2, h3, h4, h5, -⟩ := mcscf_example he syev
  exact ⟨_, o, out, he, hs, h1, h2, by rw [h3]; norm_num, h4, by rw [h5]; exact fun h => by cases h⟩

/-- C155: what convergence of a CASSCF calculation means.  When `casscf_diis`, started without RDMs, reports
convergence, then there are orthonormal orbitals `u` and a normalised CAS state such that the energy it returns is,
within the thresholds, the energy of the state in these orbitals, the RDMs it hands back are RDMs of this energy, and
this energy is stationary with respect to orbital rotations: for every rotation `exp(-t K)` its derivative at `t = 0` is
at most `tol * sqrt(max 1 n_rot) * |K|`. -/
theorem C155_casscf_converged {eig : Nat → (Nat → Nat → ℝ) → ℝ × (Nat → ℝ)} (he : LowestPair eig) {ci : CiSettings}
    (h0 : 0 ≤ ci.matelTol) {gelss : Nat → (Nat → ℝ) → Nat → ℝ} {st : McSettings} {p : McInput} (ok : McOk p)
    (hld : p.ldt = p.no) (h32 : p.na ≤ 32) (hel : 0 < p.nalpha + p.nbeta) (hM : p.no ≤ M) {s : McState (List ℝ)}
    (e : mcscf ⟨casRdms eig ci p.na p.nalpha p.nbeta, gelss⟩ st p [] (fun _ => 0) (fun _ => 0) = .ok s)
    (conv : s.conv = true) :
    ∃ (u : Nat → Nat → ℝ) (full : List (BitVec (2 * M))) (ψ : Nat → ℝ) (eps : ℝ), Orthogonal p.no u ∧ full.Nodup ∧
      (∀ s, s ∈ full ↔ CasDet p.ni p.na p.nalpha p.nbeta s) ∧ (∑ i ∈ range full.length, ψ i * ψ i) = 1 ∧
      |s.E0 - (p.eCore + energyOf ⟨p.no, tr2 p.no u (asMat p.T p.no), tr4 p.no u (asTen p.V p.no)⟩ full ψ)| ≤
        ci.matelTol * full.length + 1 / 10 ^ 16 * ∑ i ∈ range full.length, ∑ j ∈ range full.length,
          |hamiltonian ⟨p.no, asMat p.T p.no, asTen p.V p.no⟩ (full.getD i 0) (full.getD j 0) -
            if i = j then inactiveEnergy p.ni p.T p.no (inputActive p).1 p.no else 0| ∧
      |mcEnergy p s.A1 s.A2 u -
          (p.eCore + energyOf ⟨p.no, tr2 p.no u (asMat p.T p.no), tr4 p.no u (asTen p.V p.no)⟩ full ψ)| ≤
        1 / 10 ^ 16 * ∑ i ∈ range full.length, ∑ j ∈ range full.length,
          |hamiltonian ⟨p.no, tr2 p.no u (asMat p.T p.no), tr4 p.no u (asTen p.V p.no)⟩ (full.getD i 0) (full.getD j 0) -
            if i = j then eps else 0| ∧
      ∀ Klin U0 : Nat → ℝ, ∃ d : ℝ,
        HasDerivAt (fun t => mcEnergy p s.A1 s.A2 (fun i j => ∑ k ∈ range p.no, u i k *
          asMat (computeOrbitalRotation p.no t (linearOrbRotToMatrix p.ni p.na p.nv Klin (fun _ => 0) p.no)
            p.no U0 p.no) p.no k j)) d 0 ∧
        |d| ≤ st.tol * Real.sqrt (max 1 (nRot p.ni p.na p.nv)) * nrmN (nRot p.ni p.na p.nv) Klin := by
  have den : DenSym p.na (asMat (fun _ : Nat => (0 : ℝ)) p.na) (asTen (fun _ : Nat => (0 : ℝ)) p.na) :=
    ⟨fun _ _ _ _ => rfl, fun _ _ _ _ _ _ _ _ => rfl, fun _ _ _ _ _ _ _ _ => rfl⟩
  obtain ⟨k, inv, hE⟩ := mcscf_cas (M := M) (D := True) he h0 ok hld h32 hM (ci0 := []) (Or.inl rfl) (fun _ => den) e
  rcases hE with ⟨q1, -⟩ | ⟨full, ψ, nd, mem, -, norm, q, eps, qe⟩
  · exfalso
    rw [Finset.sum_const_zero] at q1
    have : (1 : ℝ) ≤ p.nalpha + p.nbeta := by exact_mod_cast hel
    have := (abs_le.1 q1).1
    norm_num at this
    linarith
  refine ⟨mcOrbs p k s, full, ψ, eps, inv.orth, nd, mem, norm, q, qe, fun Klin U0 => ?_⟩
  refine ⟨∑ m ∈ range (nRot p.ni p.na p.nv), s.OG m * Klin m, inv_deriv_at ok inv Klin U0, ?_⟩
  exact converged_bound ok (casRdms_contract h32 eig ci gelss) e conv Klin

/-- without orbital rotations the iterations are converged at once -/
theorem no_rotations_conv {X : Type} {env : McEnv X} {st : McSettings} {p : McInput} (h1 : p.nv = 0) (h2 : p.ni = 0) (ht : 0 < st.tol)
    {ci0 : X} {A1 A2 : Nat → ℝ} {s : McState X} (e : mcInit env st p ci0 A1 A2 = .ok s) : s.conv = true := by
  rw [mcInit] at e
  dsimp only at e
  obtain ⟨r, -, e⟩ := bind_ok e
  cases e
  refine decide_eq_true ?_
  rw [h1, h2, Nat.zero_mul, Nat.mul_zero, nrmN_zero]
  exact ht

/-- the hypotheses of `C155_casscf_converged` are met: the same calculation converges (all orbitals are active) -/
example : ∃ (eig : Nat → (Nat → Nat → ℝ) → ℝ × (Nat → ℝ)) (ci : CiSettings) (gelss : Nat → (Nat → ℝ) → Nat → ℝ)
    (st : McSettings) (p : McInput) (s : McState (List ℝ)), LowestPair eig ∧ 0 ≤ ci.matelTol ∧ McOk p ∧ p.ldt = p.no ∧
    p.na ≤ 32 ∧ 0 < p.nalpha + p.nbeta ∧
    mcscf ⟨casRdms eig ci p.na p.nalpha p.nbeta, gelss⟩ st p [] (fun _ => 0) (fun _ => 0) = .ok s ∧ s.conv = true := by
  obtain ⟨eig, he⟩ := exists_lowestPair
  obtain ⟨syev, hs⟩ := exists_syev
  obtain ⟨o, out, ha, h2, h3, h4, h5, ht⟩ := mcscf_example he syev
  obtain ⟨f, hr, f2, f3, f4, f5, s1, -, s3, hab⟩ := driver_runs ha h4
  have sym : IntSym f.norb (asMat f.T f.norb) (asTen f.V f.norb) := intSym_congr f4 f5 (fileInts_sym exEntries f.norb)
  obtain ⟨f', e, hr⟩ := runMcscf_out hr
  rw [h2] at e
  obtain rfl : f = f' := Out.ok.inj e
  obtain ⟨A1, A2, s, e1, -, -, e4⟩ := hr _ rfl
  rcases e4 with ⟨-, rfl, rfl⟩ | ⟨-, e4⟩
  · have e1' := e1
    obtain ⟨s0, e0, e2⟩ := bind_ok e1
    have hc : s0.conv = true := no_rotations_conv rfl rfl ht e0
    have hs0 : s = s0 := by
      revert e2
      cases o.mc.maxMacroIter with
      | zero => intro e2; cases e2; rfl
      | succ n => intro e2; rw [mcLoop, if_pos hc] at e2; cases e2; rfl
    exact ⟨eig, o.ci, (drvEnv eig syev).gelss, o.mc, ⟨1, 1, 0, 2, 0, f.norb, f.core, f.T, f.norb, f.V, f.norb, 2, 2⟩, s, he,
      by rw [h3]; norm_num, ⟨s1.symm, rfl, rfl, rfl, sym⟩, rfl, by norm_num, by norm_num, e1', hs0 ▸ hc⟩
  · rw [h5] at e4; cases e4

end Macis
