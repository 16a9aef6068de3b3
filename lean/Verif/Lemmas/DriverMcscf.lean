import Verif.Lemmas.CoreLift
import Verif.Lemmas.DriverRun
import Verif.Props.RdmSym
import Verif.Props.RdmBin
import Verif.Spec.DriverEnv
/-! The MCSCF branch of the standalone program. -/
namespace Macis
open Spec Finset

variable {M : Nat}

/-- the energy of RDMs with small weights dropped -/
theorem energy_kept {n : Nat} {x : Nat → ℝ} {h : Nat → Nat → ℝ} (hx : ∑ i ∈ range n, x i * x i = 1) :
    |(∑ i ∈ range n, ∑ j ∈ range n, kept (x i * x j) * h i j) - ∑ i ∈ range n, ∑ j ∈ range n, x i * x j * h i j| ≤
      1 / 10 ^ 16 * ∑ i ∈ range n, ∑ j ∈ range n, |h i j| := by
  have := two_thresholds (h := h) (le_refl (0 : ℝ)) hx
  have e : ∀ i j, (if |h i j| > 0 then h i j else 0) = h i j := by
    intro i j
    by_cases c : |h i j| > 0
    · rw [if_pos c]
    · rw [if_neg c]; exact (abs_nonpos_iff.1 (not_lt.1 c)).symm
  simp only [e, zero_mul, zero_add] at this
  rw [abs_sub_comm]
  exact this

/-- one CI solution of the CAS functor -/
structure CasSolved (n na nb : Nat) (tol : ℝ) (Ta Va A1 A2 : Nat → ℝ) (E : ℝ) (C : List ℝ)
    (act : List (BitVec (2 * 32))) (ψ : Nat → ℝ) : Prop where
  sector : InSector n na nb act
  all : ∀ s : BitVec (2 * 32), InSpace n s ∧ alphaElectrons s = na ∧ betaElectrons s = nb → s ∈ act
  len : act.length = n.choose na * n.choose nb
  vec : C = (List.range act.length).map ψ
  norm : (∑ i ∈ range act.length, ψ i * ψ i) = 1
  energy : |E - energyOf (viewInts n Ta Va) act ψ| ≤ tol * act.length
  rdms : |Spec.energy n (asMat Ta n) (asTen Va n) (asMat A1 n) (asTen A2 n) - energyOf (viewInts n Ta Va) act ψ| ≤
    1 / 10 ^ 16 * ∑ i ∈ range act.length, ∑ j ∈ range act.length,
      |hamiltonian (viewInts n Ta Va) (act.getD i 0) (act.getD j 0)|

theorem energy_congr_den {n : Nat} {h : Nat → Nat → ℝ} {g : Nat → Nat → Nat → Nat → ℝ} {D D' : Nat → Nat → ℝ}
    {d d' : Nat → Nat → Nat → Nat → ℝ} (eD : ∀ p q, p < n → q < n → D p q = D' p q)
    (ed : ∀ p q r s, p < n → q < n → r < n → s < n → d p q r s = d' p q r s) :
    Spec.energy n h g D d = Spec.energy n h g D' d' := by
  unfold Spec.energy
  congr 1
  · refine Finset.sum_congr rfl fun p hp => Finset.sum_congr rfl fun q hq => ?_
    rw [eD p q (mem_range.1 hp) (mem_range.1 hq)]
  · refine Finset.sum_congr rfl fun p hp => Finset.sum_congr rfl fun q hq => Finset.sum_congr rfl fun r hr =>
      Finset.sum_congr rfl fun s hs => ?_
    rw [ed p q r s (mem_range.1 hp) (mem_range.1 hq) (mem_range.1 hr) (mem_range.1 hs)]

theorem addr4_lt {n p q r s : Nat} (hp : p < n) (hq : q < n) (hr : r < n) (hs : s < n) :
    addr4 n p q r s < n * n * (n * n) := by
  have h1 := lt_sq hp hq
  have h2 := lt_sq hr hs
  have : addr4 n p q r s = (p + q * n) + (r + s * n) * (n * n) := by unfold addr4; ring
  rw [this]
  exact lt_sq h1 h2

/-- a CI vector the solver is started from: unset, or normalised and of the right length -/
def CiOk (n na nb : Nat) (C : List ℝ) : Prop :=
  C = [] ∨ (C.length = n.choose na * n.choose nb ∧ (C.map fun c => c * c).sum = 1)

theorem casRdms_form {n na nb : Nat} {Ta Va : Nat → ℝ} {eig : Nat → (Nat → Nat → ℝ) → ℝ × (Nat → ℝ)} {ci : CiSettings}
    {A1 A2 : Nat → ℝ} {C : List ℝ} (z1 : ∀ m, m < n * n → A1 m = 0) (z2 : ∀ m, m < n * n * (n * n) → A2 m = 0)
    {x : ℝ × (Nat → ℝ) × (Nat → ℝ) × List ℝ} (h : casRdms eig ci n na nb Ta Va A1 A2 C = .ok x) :
    ∃ dets it ψ, generateHilbertSpace 32 n na nb = some dets ∧
      selectedCiDiag eig (viewInts n Ta Va) dets ci.matelTol ci.maxSub ci.resTol C = .converged it x.1 ψ ∧
      x.2.2.2 = (List.range dets.length).map ψ ∧
      (∀ p q, p < n → q < n → asMat x.2.1 n p q = (formRdms dets dets ψ true zeroRdms).ordm p q) ∧
      ∀ p q r s, p < n → q < n → r < n → s < n →
        asTen x.2.2.1 n p q r s = (formRdms dets dets ψ true zeroRdms).trdm p q r s := by
  obtain ⟨r, dets, hr, hd, e1, e2, e3, e4⟩ := casRdms_ok h
  unfold computeCasciRdms at hr
  rw [show generateHilbertSpace 32 (viewInts n Ta Va).norb na nb = some dets from hd] at hr
  dsimp only at hr
  split at hr
  case h_2 => cases hr
  rename_i it E ψ hres
  obtain rfl := Option.some.inj hr
  dsimp only at e1 e2 e3 e4
  refine ⟨dets, it, ψ, hd, e1 ▸ hres, e2, fun p q hp hq => ?_, fun p q r s hp hq hr hs => ?_⟩
  · rw [e3 p q hp hq, show asMat A1 n p q = 0 from z1 _ (lt_sq hp hq), zero_add]
  · rw [e4 p q r s hp hq hr hs, show asTen A2 n p q r s = 0 from z2 _ (addr4_lt hp hq hr hs), zero_add]

/-- the CAS functor always makes symmetric RDMs -/
theorem casRdms_contract {n na nb : Nat} (h32 : n ≤ 32) (eig : Nat → (Nat → Nat → ℝ) → ℝ × (Nat → ℝ)) (ci : CiSettings)
    (gelss : Nat → (Nat → ℝ) → Nat → ℝ) : RdmContractIf False n ⟨casRdms eig ci n na nb, gelss⟩ := by
  intro Ta Va A1 A2 c r _ z1 z2 h
  refine ⟨fun h => h.elim, ?_⟩
  obtain ⟨dets, it, ψ, hd, -, -, v1, v2⟩ := casRdms_form z1 z2 h
  obtain ⟨hna, hnb⟩ := hilbert_le hd
  obtain ⟨hS, -⟩ := hilbert_sector h32 hna hnb hd
  have dsym := C158_rdm_symmetry n h32 (two_ne_zero (α := ℝ)) dets ψ hS
  refine ⟨fun p q hp hq => ?_, fun p q r s hp hq hr hs => ?_, fun p q r s hp hq hr hs => ?_⟩
  · rw [v1 p q hp hq, v1 q p hq hp]; exact dsym.D_symm p q hp hq
  · rw [v2 p q r s hp hq hr hs, v2 q p s r hq hp hs hr]; exact dsym.d_herm p q r s hp hq hr hs
  · rw [v2 p q r s hp hq hr hs, v2 r s p q hr hs hp hq]; exact dsym.d_pair p q r s hp hq hr hs

theorem casRdms_solved_all {n na nb : Nat} (h32 : n ≤ 32) {Ta Va : Nat → ℝ} (sym : IntSym n (asMat Ta n) (asTen Va n))
    {eig : Nat → (Nat → Nat → ℝ) → ℝ × (Nat → ℝ)} (he : LowestPair eig) {ci : CiSettings} (h0 : 0 ≤ ci.matelTol)
    {A1 A2 : Nat → ℝ} {C : List ℝ} (z1 : ∀ m, m < n * n → A1 m = 0) (z2 : ∀ m, m < n * n * (n * n) → A2 m = 0)
    (hC : CiOk n na nb C)
    {x : ℝ × (Nat → ℝ) × (Nat → ℝ) × List ℝ} (h : casRdms eig ci n na nb Ta Va A1 A2 C = .ok x) :
    ∃ act ψ, generateHilbertSpace 32 n na nb = some act ∧
      CasSolved n na nb ci.matelTol Ta Va x.2.1 x.2.2.1 x.1 x.2.2.2 act ψ := by
  obtain ⟨dets, it, ψ, hd, hres, e2, v1, v2⟩ := casRdms_form z1 z2 h
  obtain ⟨hna, hnb⟩ := hilbert_le hd
  obtain ⟨hS, nd, len, ha, hb, hall⟩ := hilbert_sector h32 hna hnb hd
  have hsym : SymBelow n (viewInts n Ta Va) := symBelow_of sym
  have sec : InSector n na nb dets := ⟨nd, fun s hs => ⟨hS.1 s hs, ha s hs, hb s hs⟩⟩
  have hc : selectedCiDiag eig (viewInts n Ta Va).cut dets ci.matelTol ci.maxSub ci.resTol C = .converged it x.1 ψ := by
    rw [← hres]
    unfold selectedCiDiag
    have : (viewInts n Ta Va).cut.csrHamiltonian dets ci.matelTol = (viewInts n Ta Va).csrHamiltonian dets ci.matelTol :=
      C152_csr (I := viewInts n Ta Va) (J := (viewInts n Ta Va).cut) (n := n) h32 (fun p q hp hq => if_pos ⟨hp, hq⟩)
        (fun p q r s hp hq hr hs => if_pos ⟨⟨hp, hq⟩, hr, hs⟩) hS.1 hS.2.2 ci.matelTol
    rw [this]
  obtain ⟨r1, r2, -, -, -⟩ := C119_selected_ci (viewInts n Ta Va).cut h32 (cut_real hsym) h0 hS he ci.maxSub ci.resTol C
    (hC.imp (fun e => by rw [e]; simp) fun e => ⟨by rw [len]; exact e.1, e.2⟩) hc
  refine ⟨dets, ψ, hd, sec, fun s hs => hall s hs.1 hs.2.1 hs.2.2, len, e2, r1, ?_, ?_⟩
  · have := quad_thresh (h := fun i j => hamiltonian (viewInts n Ta Va) (dets.getD i 0) (dets.getD j 0)) h0 r1
    rw [r2]
    simp only [ciMatrix, hamiltonian_cut]
    exact this
  · rw [energy_congr_den v1 v2]
    have e5 : Spec.energy n (asMat Ta n) (asTen Va n) (formRdms dets dets ψ true zeroRdms).ordm
        (formRdms dets dets ψ true zeroRdms).trdm =
        contractRdms (viewInts n Ta Va).cut (formRdms dets dets ψ true zeroRdms) := by
      refine energy_congr (fun p q hp hq => (if_pos ⟨hp, hq⟩).symm)
        (fun p q r s hp hq hr hs => (if_pos ⟨⟨hp, hq⟩, hr, hs⟩).symm)
    rw [e5, C19_energy (viewInts n Ta Va).cut h32 two_ne_zero (cut_real hsym) dets dets ψ hS]
    have e6 : (Spec.expect dets dets ψ fun b k => (viewInts n Ta Va).cut.matrixElement b k) =
        ∑ i ∈ range dets.length, ∑ j ∈ range dets.length,
          kept (ψ i * ψ j) * hamiltonian (viewInts n Ta Va) (dets.getD i 0) (dets.getD j 0) := by
      unfold Spec.expect
      refine sum_congr rfl fun i hi => sum_congr rfl fun j hj => ?_
      have hi' := getD_mem' (0 : BitVec (2 * 32)) (mem_range.1 hi)
      have hj' := getD_mem' (0 : BitVec (2 * 32)) (mem_range.1 hj)
      dsimp only
      rw [C13_slater_condon 32 (viewInts n Ta Va).cut h32 two_ne_zero (cut_real hsym).2.1 _ _ (hS.1 _ hi') (hS.2.1 _ hj')
        (hS.2.2 _ hi' _ hj'), hamiltonian_cut]
    rw [e6]
    exact energy_kept r1

theorem casRdms_solved {n na nb : Nat} (h32 : n ≤ 32) {Ta Va : Nat → ℝ} (sym : IntSym n (asMat Ta n) (asTen Va n))
    {eig : Nat → (Nat → Nat → ℝ) → ℝ × (Nat → ℝ)} (he : LowestPair eig) {ci : CiSettings} (h0 : 0 ≤ ci.matelTol)
    {A1 A2 : Nat → ℝ} {C : List ℝ} (z1 : ∀ m, m < n * n → A1 m = 0) (z2 : ∀ m, m < n * n * (n * n) → A2 m = 0)
    (hC : CiOk n na nb C)
    {x : ℝ × (Nat → ℝ) × (Nat → ℝ) × List ℝ} (h : casRdms eig ci n na nb Ta Va A1 A2 C = .ok x) :
    ∃ act ψ, CasSolved n na nb ci.matelTol Ta Va x.2.1 x.2.2.1 x.1 x.2.2.2 act ψ := by
  obtain ⟨act, ψ, -, hc⟩ := casRdms_solved_all h32 sym he h0 z1 z2 hC h
  exact ⟨act, ψ, hc⟩

theorem CasSolved.ciOk {n na nb : Nat} {tol : ℝ} {Ta Va A1 A2 : Nat → ℝ} {E : ℝ} {C : List ℝ}
    {act : List (BitVec (2 * 32))} {ψ : Nat → ℝ} (h : CasSolved n na nb tol Ta Va A1 A2 E C act ψ) : CiOk n na nb C := by
  refine Or.inr ⟨by rw [h.vec, List.length_map, List.length_range, h.len], ?_⟩
  rw [h.vec, List.map_map]
  have := h.norm
  rw [← list_range_sum] at this
  exact this

/-- `E` is the energy of a normalised CAS state in the orbitals `u`, up to dropped matrix elements and dropped weights
(for those the Hamiltonian in the input orbitals counts, with `e` taken off the diagonal), and `A1`, `A2` are RDMs of the
same energy up to dropped weights -/
def FullEnergy (M : Nat) (p : McInput) (tol e E : ℝ) (A1 A2 : Nat → ℝ) (u : Nat → Nat → ℝ) : Prop :=
  ∃ (full : List (BitVec (2 * M))) (ψ : Nat → ℝ), full.Nodup ∧ (∀ s, s ∈ full ↔ CasDet p.ni p.na p.nalpha p.nbeta s) ∧
    full.length = p.na.choose p.nalpha * p.na.choose p.nbeta ∧
    (∑ i ∈ range full.length, ψ i * ψ i) = 1 ∧
    |E - (p.eCore + energyOf ⟨p.no, tr2 p.no u (asMat p.T p.no), tr4 p.no u (asTen p.V p.no)⟩ full ψ)| ≤
      tol * full.length + 1 / 10 ^ 16 * ∑ i ∈ range full.length, ∑ j ∈ range full.length,
        |hamiltonian ⟨p.no, asMat p.T p.no, asTen p.V p.no⟩ (full.getD i 0) (full.getD j 0) - if i = j then e else 0| ∧
    ∃ e', |mcEnergy p A1 A2 u -
        (p.eCore + energyOf ⟨p.no, tr2 p.no u (asMat p.T p.no), tr4 p.no u (asTen p.V p.no)⟩ full ψ)| ≤
      1 / 10 ^ 16 * ∑ i ∈ range full.length, ∑ j ∈ range full.length,
        |hamiltonian ⟨p.no, tr2 p.no u (asMat p.T p.no), tr4 p.no u (asTen p.V p.no)⟩ (full.getD i 0) (full.getD j 0) -
          if i = j then e' else 0|

theorem fullEnergy_of {p : McInput} (ok : McOk p) (hld : p.ldt = p.no) (h32 : p.na ≤ 32) (hn : p.ni + p.na ≤ p.no) (hM : p.no ≤ M) {u : Nat → Nat → ℝ}
    {T V Fi0 Ta0 Va0 : Nat → ℝ} (sym : IntSym p.no (asMat T p.no) (asTen V p.no))
    (t1 : ∀ i j, i < p.no → j < p.no → asMat T p.no i j = tr2 p.no u (asMat p.T p.no) i j)
    (t2 : ∀ i j k l, i < p.no → j < p.no → k < p.no → l < p.no → asTen V p.no i j k l = tr4 p.no u (asTen p.V p.no) i j k l)
    {H : (Nat → ℝ) × (Nat → ℝ) × (Nat → ℝ)}
    (hH : H = activeHamiltonian p.no p.na p.ni T p.no V p.no Fi0 p.no Ta0 p.na Va0 p.na)
    {tol : ℝ} (h0 : 0 ≤ tol) {A1 A2 : Nat → ℝ} {E : ℝ} {C : List ℝ} {act : List (BitVec (2 * 32))} {ψ : Nat → ℝ}
    (h : CasSolved p.na p.nalpha p.nbeta tol H.2.1 H.2.2 A1 A2 E C act ψ) :
    (∀ e, FullEnergy M p tol e (E + (inactiveEnergy p.ni T p.no H.1 p.no + p.eCore)) A1 A2 u) ∧
    (T = p.T → V = p.V → FullEnergy M p tol (inactiveEnergy p.ni T p.no H.1 p.no)
      (Spec.energy p.na (asMat H.2.1 p.na) (asTen H.2.2 p.na) (asMat A1 p.na) (asTen A2 p.na) +
        (inactiveEnergy p.ni T p.no H.1 p.no + p.eCore)) A1 A2 u) := by
  obtain ⟨full, nd, hF, cd, hh⟩ := core_lift (M := 32) (M' := M) (ldt := p.no) (ldv := p.no) (ldf := p.no) (ldta := p.na)
    (ldva := p.na) (viewInts p.na H.2.1 H.2.2) hn h32 hM le_rfl le_rfl le_rfl T V Fi0 Ta0 Va0 sym.g_pair hH
    (fun _ _ _ _ => rfl) (fun _ _ _ _ _ _ _ _ => rfl) h.sector
  have mem := casDet_iff (na := p.na) h32 (by omega)
    (fun s => ⟨fun hs => h.sector.2 s hs, fun hs => h.all s hs⟩) hF fun s hs => (cd s hs).2.2
  have hl := hF.length_eq
  have hu : ∀ s t : BitVec (2 * M), hamiltonian ⟨p.no, tr2 p.no u (asMat p.T p.no), tr4 p.no u (asTen p.V p.no)⟩ s t =
      hamiltonian (⟨p.no, asMat T p.no, asTen V p.no⟩ : Integrals ℝ) s t := fun s t =>
    hamiltonian_congr_below (I := ⟨p.no, asMat T p.no, asTen V p.no⟩)
      (J := ⟨p.no, tr2 p.no u (asMat p.T p.no), tr4 p.no u (asTen p.V p.no)⟩) rfl
      (fun i j hi hj => (t1 i j hi hj).symm) (fun i j k l hi hj hk hl => (t2 i j k l hi hj hk hl).symm) s t
  set Ein := inactiveEnergy p.ni T p.no H.1 p.no with hEin
  have hE : energyOf ⟨p.no, tr2 p.no u (asMat p.T p.no), tr4 p.no u (asTen p.V p.no)⟩ full ψ =
      Ein + energyOf (viewInts p.na H.2.1 H.2.2) act ψ := by
    unfold energyOf
    rw [← hl, Finset.sum_congr rfl fun i hi => Finset.sum_congr rfl fun j hj => by
      rw [hu, hh i (Finset.mem_range.1 hi) j (Finset.mem_range.1 hj)]]
    simp only [mul_add, Finset.sum_add_distrib, mul_ite, mul_zero]
    congr 1
    rw [Finset.sum_congr rfl fun i hi => Finset.sum_ite_eq (Finset.range act.length) i (fun j => ψ i * ψ j * Ein)]
    rw [Finset.sum_congr rfl fun i hi => if_pos hi, ← Finset.sum_mul, h.norm, one_mul]
  have hS : ∀ e, 0 ≤ 1 / 10 ^ 16 * ∑ i ∈ range full.length, ∑ j ∈ range full.length,
        |hamiltonian ⟨p.no, asMat p.T p.no, asTen p.V p.no⟩ (full.getD i 0) (full.getD j 0) -
          if i = j then e else 0| := fun e =>
    mul_nonneg (by positivity) (Finset.sum_nonneg fun i _ => Finset.sum_nonneg fun j _ => abs_nonneg _)
  have hR : |mcEnergy p A1 A2 u -
        (p.eCore + energyOf ⟨p.no, tr2 p.no u (asMat p.T p.no), tr4 p.no u (asTen p.V p.no)⟩ full ψ)| ≤
      1 / 10 ^ 16 * ∑ i ∈ range full.length, ∑ j ∈ range full.length,
        |hamiltonian ⟨p.no, tr2 p.no u (asMat p.T p.no), tr4 p.no u (asTen p.V p.no)⟩ (full.getD i 0) (full.getD j 0) -
          if i = j then Ein else 0| := by
    have hm : mcEnergy p A1 A2 u = Spec.energy p.na (asMat H.2.1 p.na) (asTen H.2.2 p.na) (asMat A1 p.na) (asTen A2 p.na) +
        (Ein + p.eCore) := by
      rw [hEin, hH, mc_energy ok T V Fi0 Ta0 Va0 A1 A2 p.no sym, energy_congr t1 t2, mcEnergy, hld]
    rw [hE, hm, show ∀ a b c d : ℝ, a + (b + c) - (c + (b + d)) = a - d from fun a b c d => by ring]
    have h1 := h.rdms
    have h2 : ∑ i ∈ range full.length, ∑ j ∈ range full.length,
        |hamiltonian ⟨p.no, tr2 p.no u (asMat p.T p.no), tr4 p.no u (asTen p.V p.no)⟩ (full.getD i 0) (full.getD j 0) -
          if i = j then Ein else 0| = ∑ i ∈ range act.length, ∑ j ∈ range act.length,
        |hamiltonian (viewInts p.na H.2.1 H.2.2) (act.getD i 0) (act.getD j 0)| := by
      rw [← hl]
      refine Finset.sum_congr rfl fun i hi => Finset.sum_congr rfl fun j hj => ?_
      rw [hu, hh i (Finset.mem_range.1 hi) j (Finset.mem_range.1 hj), add_sub_cancel_left]
    rw [h2]
    exact h1
  refine ⟨fun e => ⟨full, ψ, nd, mem, hl ▸ h.len, hl ▸ h.norm, ?_, Ein, hR⟩,
    fun eT eV => ⟨full, ψ, nd, mem, hl ▸ h.len, hl ▸ h.norm, ?_, Ein, hR⟩⟩
  · rw [hE, show ∀ a b c d : ℝ, a + (b + c) - (c + (b + d)) = a - d from fun a b c d => by ring]
    have := h.energy
    rw [hl] at this
    linarith [hS e]
  · rw [hE, show ∀ a b c d : ℝ, a + (b + c) - (c + (b + d)) = a - d from fun a b c d => by ring]
    have h1 := h.rdms
    have h2 : ∑ i ∈ range full.length, ∑ j ∈ range full.length,
        |hamiltonian ⟨p.no, asMat p.T p.no, asTen p.V p.no⟩ (full.getD i 0) (full.getD j 0) -
          if i = j then Ein else 0| = ∑ i ∈ range act.length, ∑ j ∈ range act.length,
        |hamiltonian (viewInts p.na H.2.1 H.2.2) (act.getD i 0) (act.getD j 0)| := by
      rw [← hl]
      refine Finset.sum_congr rfl fun i hi => Finset.sum_congr rfl fun j hj => ?_
      rw [← eT, ← eV, hh i (Finset.mem_range.1 hi) j (Finset.mem_range.1 hj), add_sub_cancel_left]
    rw [h2]
    have : 0 ≤ tol * full.length := mul_nonneg h0 (Nat.cast_nonneg _)
    linarith

/-- the driver with the CAS functor as CI solver -/
noncomputable abbrev casEnv (eig : Nat → (Nat → Nat → ℝ) → ℝ × (Nat → ℝ)) (ci : CiSettings)
    (gelss : Nat → (Nat → ℝ) → Nat → ℝ) (p : McInput) : McEnv (List ℝ) :=
  ⟨casRdms eig ci p.na p.nalpha p.nbeta, gelss⟩

/-- the active Hamiltonian in the input orbitals -/
noncomputable abbrev inputActive (p : McInput) : (Nat → ℝ) × (Nat → ℝ) × (Nat → ℝ) :=
  activeHamiltonian p.no p.na p.ni p.T p.no p.V p.no (fun _ => 0) p.no (fun _ => 0) p.na (fun _ => 0) p.na

theorem mcInit_cas {eig : Nat → (Nat → Nat → ℝ) → ℝ × (Nat → ℝ)} (he : LowestPair eig) {ci : CiSettings}
    (h0 : 0 ≤ ci.matelTol) {gelss : Nat → (Nat → ℝ) → Nat → ℝ} {st : McSettings} {p : McInput} (ok : McOk p)
    (hld : p.ldt = p.no) (h32 : p.na ≤ 32) (hM : p.no ≤ M) {ci0 : List ℝ} (hc : CiOk p.na p.nalpha p.nbeta ci0)
    {A1 A2 : Nat → ℝ} {s : McState (List ℝ)} (e : mcInit (casEnv eig ci gelss p) st p ci0 A1 A2 = .ok s) :
    CiOk p.na p.nalpha p.nbeta s.ci ∧
    ((|∑ i ∈ range p.na, A1 (i * (p.na + 1)) - p.nalpha - p.nbeta| ≤ 1 / 1000000 ∧
        s.E0 = dotN (p.na * p.na) A1 (inputActive p).2.1 + dotN (p.na * p.na * (p.na * p.na)) A2 (inputActive p).2.2 +
          (inactiveEnergy p.ni p.T p.no (inputActive p).1 p.no + p.eCore)) ∨
      FullEnergy M p ci.matelTol (inactiveEnergy p.ni p.T p.no (inputActive p).1 p.no) s.E0 s.A1 s.A2 (mcOrbs p 0 s)) := by
  have hn : p.ni + p.na ≤ p.no := by have := ok.no_eq; omega
  have sym := ok.sym
  rw [hld] at sym
  obtain ⟨asym, -⟩ := active_sym (ldt := p.no) (ldv := p.no) hn (le_refl p.na) (le_refl p.na) p.T p.V
    (fun _ => 0) (fun _ => 0) (fun _ => 0) sym
  obtain ⟨i1, i2⟩ := tr_id (no := p.no) (asMat p.T p.no) (asTen p.V p.no)
  rw [mcInit] at e
  dsimp only at e
  rw [ok.ldv_eq, hld, ok.ldd1_eq] at e
  split at e
  · obtain ⟨⟨B1, B2, c, k⟩, e1, e⟩ := bind_ok e
    obtain ⟨r, er, e1⟩ := bind_ok e1
    cases e1
    cases e
    obtain ⟨act, ψ, hs⟩ := casRdms_solved h32 asym he h0 (fun m hm => if_pos hm) (fun m hm => if_pos hm) hc er
    refine ⟨hs.ciOk, Or.inr ?_⟩
    have := (fullEnergy_of (M := M) (u := fun i j => if i = j then 1 else 0) ok hld h32 hn hM sym
      (fun i j hi hj => (i1 i j hi hj).symm) (fun i j k l hi hj hk hl => (i2 i j k l hi hj hk hl).symm) rfl h0 hs).2 rfl rfl
    rw [← dot_energy] at this
    exact this
  · rename_i hx
    obtain ⟨⟨B1, B2, c, k⟩, e1, e⟩ := bind_ok e
    cases e1
    cases e
    exact ⟨hc, Or.inl ⟨not_lt.1 hx, rfl⟩⟩

theorem mcStep_cas {eig : Nat → (Nat → Nat → ℝ) → ℝ × (Nat → ℝ)} (he : LowestPair eig) {ci : CiSettings}
    (h0 : 0 ≤ ci.matelTol) {gelss : Nat → (Nat → ℝ) → Nat → ℝ} {st : McSettings} {p : McInput} (ok : McOk p)
    (hld : p.ldt = p.no) (h32 : p.na ≤ 32) (hM : p.no ≤ M) {iter : Nat} {s s' : McState (List ℝ)}
    (hc : CiOk p.na p.nalpha p.nbeta s.ci) (e : mcStep (casEnv eig ci gelss p) st p iter s = .ok s') :
    CiOk p.na p.nalpha p.nbeta s'.ci ∧ ∀ c, FullEnergy M p ci.matelTol c s'.E0 s'.A1 s'.A2 (mcOrbs p (iter + 1) s') := by
  have hn : p.ni + p.na ≤ p.no := by have := ok.no_eq; omega
  have sym := ok.sym
  rw [hld] at sym
  rw [mcStep] at e
  dsimp only at e
  obtain ⟨klin, _, e⟩ := bind_ok e
  obtain ⟨⟨K, pairs⟩, ed, e⟩ := bind_ok e
  dsimp only at e
  rw [ok.ldv_eq, hld] at e
  generalize hU : (if iter = 0 then computeOrbitalRotation p.no 1 K p.no s.U p.no
    else gemm false p.no p.no p.no s.U p.no
      (computeOrbitalRotation p.no 1 (scalN (p.no * p.no) (-1) (axpyN (p.no * p.no) (-1) K s.K)) p.no
        (fun _ => 0) p.no) p.no (fun _ => 0) 0 p.no) = U at e
  obtain ⟨t1, t2⟩ := transform_val (no := p.no) (ldt := p.no) (ldu := p.no) p.T p.V U s.Tt s.Vt
  have hs' := intSym_congr t1 t2 (tr_sym sym _)
  obtain ⟨asym, -⟩ := active_sym (ldt := p.no) (ldv := p.no) hn (le_refl p.na) (le_refl p.na) _ _ s.Fi s.Ta s.Va hs'
  obtain ⟨r, er, e⟩ := bind_ok e
  obtain ⟨act, ψ, hs⟩ := casRdms_solved h32 asym he h0 (fun m hm => if_pos hm) (fun m hm => if_pos hm) hc er
  cases e
  refine ⟨hs.ciOk, fun c => ?_⟩
  have := (fullEnergy_of (M := M) (u := asMat U p.no) ok hld h32 hn hM hs' t1 t2 rfl h0 hs).1 c
  have ou : ∀ s'' : McState (List ℝ), mcOrbs p (iter + 1) s'' = asMat s''.U p.no := fun s'' => by
    rw [mcOrbs, if_neg (by omega)]
  rw [ou]
  exact this

theorem mcLoop_cas {eig : Nat → (Nat → Nat → ℝ) → ℝ × (Nat → ℝ)} (he : LowestPair eig) {ci : CiSettings}
    (h0 : 0 ≤ ci.matelTol) {gelss : Nat → (Nat → ℝ) → Nat → ℝ} {st : McSettings} {p : McInput} (ok : McOk p)
    (hld : p.ldt = p.no) (h32 : p.na ≤ 32) (hM : p.no ≤ M) {D : Prop} (n : Nat) : ∀ (iter : Nat) (s s' : McState (List ℝ)),
    CiOk p.na p.nalpha p.nbeta s.ci → McInvIf False D p iter s → mcLoop (casEnv eig ci gelss p) st p n iter s = .ok s' →
    s' = s ∨ ∃ k, McInvIf False D p k s' ∧ ∀ c, FullEnergy M p ci.matelTol c s'.E0 s'.A1 s'.A2 (mcOrbs p k s') := by
  induction n with
  | zero => intro iter s s' _ _ e; cases e; exact Or.inl rfl
  | succ n ih =>
    intro iter s s' hc inv e
    rw [mcLoop] at e
    split at e
    · cases e; exact Or.inl rfl
    · obtain ⟨s1, e1, e⟩ := bind_ok e
      obtain ⟨c1, f1⟩ := mcStep_cas (M := M) he h0 ok hld h32 hM hc e1
      have i1 := (mcStep_inv ok (casRdms_contract h32 eig ci gelss) iter inv e1).1
      rcases ih (iter + 1) s1 s' c1 i1.mono e with rfl | h
      · exact Or.inr ⟨iter + 1, i1.mono, f1⟩
      · exact Or.inr h

/-- `casscf_diis`: the energy it returns -/
theorem mcscf_cas {eig : Nat → (Nat → Nat → ℝ) → ℝ × (Nat → ℝ)} (he : LowestPair eig) {ci : CiSettings}
    (h0 : 0 ≤ ci.matelTol) {gelss : Nat → (Nat → ℝ) → Nat → ℝ} {st : McSettings} {p : McInput} (ok : McOk p)
    (hld : p.ldt = p.no) (h32 : p.na ≤ 32) (hM : p.no ≤ M) {D : Prop} {ci0 : List ℝ}
    (hc : CiOk p.na p.nalpha p.nbeta ci0) {A1 A2 : Nat → ℝ} (hD : D → DenSym p.na (asMat A1 p.na) (asTen A2 p.na))
    {s : McState (List ℝ)} (e : mcscf (casEnv eig ci gelss p) st p ci0 A1 A2 = .ok s) :
    ∃ k, McInvIf False D p k s ∧
      ((|∑ i ∈ range p.na, A1 (i * (p.na + 1)) - p.nalpha - p.nbeta| ≤ 1 / 1000000 ∧
        s.E0 = dotN (p.na * p.na) A1 (inputActive p).2.1 + dotN (p.na * p.na * (p.na * p.na)) A2 (inputActive p).2.2 +
          (inactiveEnergy p.ni p.T p.no (inputActive p).1 p.no + p.eCore)) ∨
      FullEnergy M p ci.matelTol (inactiveEnergy p.ni p.T p.no (inputActive p).1 p.no) s.E0 s.A1 s.A2 (mcOrbs p k s)) := by
  obtain ⟨s0, e0, e⟩ := bind_ok e
  have i1 := (mcInit_inv (D := D) ok (casRdms_contract h32 eig ci gelss) ci0 A1 A2 hD e0).1
  obtain ⟨c1, h1⟩ := mcInit_cas (M := M) he h0 ok hld h32 hM hc e0
  rcases mcLoop_cas (M := M) he h0 ok hld h32 hM st.maxMacroIter 0 s0 s c1 i1 e with rfl | ⟨k, inv, h⟩
  · exact ⟨0, i1, h1⟩
  · exact ⟨k, inv, Or.inr (h _)⟩

end Macis
