import Verif.Props.Mcscf

/-! Exact statements beside the refuted claims C92 (downhill steps) and C93 (padded RDM arrays). -/
namespace Macis
open Spec Finset
variable {X : Type}

/-- the orbital step is a positive multiple of minus the preconditioned gradient -/
theorem mcStepLin_val {st : McSettings} {p : McInput} {s : McState X} (hm : 0 < st.maxStep) {k : Nat → ℝ}
    (e : mcStepLin st p s = .ok k) :
    (∀ m < nRot p.ni p.na p.nv, approxDiagHessian p.ni p.na p.nv s.Fi p.no s.Fa p.no s.A1 p.ldd1 s.F p.no
      (fun _ => 0) m ≠ 0) ∧
    ∃ c > 0, c ≤ 1 ∧ ∀ m < nRot p.ni p.na p.nv, k m = -(c * s.OG m / approxDiagHessian p.ni p.na p.nv s.Fi
      p.no s.Fa p.no s.A1 p.ldd1 s.F p.no (fun _ => 0) m) := by
  have hsz : p.nv * (p.ni + p.na) + p.na * p.ni = nRot p.ni p.na p.nv := by rw [nRot]; ring
  have hsz' : p.nv * (p.na + p.ni) + p.na * p.ni = nRot p.ni p.na p.nv := rfl
  rw [mcStepLin] at e
  obtain ⟨k0, e0, e⟩ := bind_ok e
  rw [precondStep] at e0
  simp only [hsz'] at e0
  split at e0
  · exact absurd e0 (by simp)
  rename_i hnz
  simp only [Out.ok.injEq] at e0
  simp only [hsz] at e
  split at e
  · exact absurd e (by simp)
  simp only [Out.ok.injEq] at e
  refine ⟨fun m hm' h0 => hnz ⟨m, hm', h0⟩, ?_⟩
  split at e
  · rename_i hgt
    have hpos : 0 < amaxN (nRot p.ni p.na p.nv) k0 := hm.trans hgt
    refine ⟨st.maxStep / amaxN (nRot p.ni p.na p.nv) k0, div_pos hm hpos, ?_, ?_⟩
    · rw [div_le_one hpos]; exact le_of_lt hgt
    · intro m hm'
      rw [← e, scalN, if_pos hm', ← e0]
      simp only [if_pos hm']
      ring
  · refine ⟨1, one_pos, le_refl 1, ?_⟩
    intro m hm'
    rw [← e, ← e0]
    simp only [if_pos hm']
    ring

/-- C92 (exact): in every state the driver reaches, the slope of the energy along the step of the
macro-iteration is minus a positive number times `sum_m g_m^2 / h_m`, `g` the orbital gradient and `h`
the approximate Hessian diagonal; so the step is downhill exactly when that sum is positive. -/
theorem C92_slope {env : McEnv X} {st : McSettings} {p : McInput} (ok : McOk p)
    (hc : RdmContract p.na env) {ci0 : X} {A1 A2 : Nat → ℝ}
    (den : DenSym p.na (asMat A1 p.na) (asTen A2 p.na)) {iter : Nat} {s : McState X}
    (reach : McReach env st p ci0 A1 A2 iter s) (hm : 0 < st.maxStep) {k : Nat → ℝ}
    (e : mcStepLin st p s = .ok k) :
    ∃ u d c, Orthogonal p.no u ∧ s.E0 = mcEnergy p s.A1 s.A2 u ∧
      HasDerivAt (fun t => mcEnergy p s.A1 s.A2 (fun i j => ∑ l ∈ range p.no, u i l *
        asMat (computeOrbitalRotation p.no t (linearOrbRotToMatrix p.ni p.na p.nv k (fun _ => 0) p.no)
          p.no (fun _ => 0) p.no) p.no l j)) d 0 ∧
      0 < c ∧
      d = -c * ∑ m ∈ range (nRot p.ni p.na p.nv), s.OG m ^ 2 /
        approxDiagHessian p.ni p.na p.nv s.Fi p.no s.Fa p.no s.A1 p.ldd1 s.F p.no (fun _ => 0) m ∧
      (d < 0 ↔ 0 < ∑ m ∈ range (nRot p.ni p.na p.nv), s.OG m ^ 2 /
        approxDiagHessian p.ni p.na p.nv s.Fi p.no s.Fa p.no s.A1 p.ldd1 s.F p.no (fun _ => 0) m) := by
  obtain ⟨hnz, c, hcp, _, hk⟩ := mcStepLin_val hm e
  obtain ⟨u, hu, he, hd⟩ := inv_deriv ok (reach.inv ok hc den)
  have val : (∑ m ∈ range (nRot p.ni p.na p.nv), s.OG m * k m) =
      -c * ∑ m ∈ range (nRot p.ni p.na p.nv), s.OG m ^ 2 /
        approxDiagHessian p.ni p.na p.nv s.Fi p.no s.Fa p.no s.A1 p.ldd1 s.F p.no (fun _ => 0) m := by
    rw [Finset.mul_sum]
    apply Finset.sum_congr rfl
    intro m hm'
    rw [mem_range] at hm'
    rw [hk m hm']
    have := hnz m hm'
    field_simp
  refine ⟨u, _, c, hu, he, hd k (fun _ => 0), hcp, val, ?_⟩
  rw [val, neg_mul, neg_lt_zero, mul_pos_iff_of_pos_left hcp]

/-- C93 (exact, initial energy): whatever the leading dimensions of the RDM arrays, the energy before the
first iteration is the energy of the RDMs read from the arrays without padding. -/
theorem C93_initial_energy {env : McEnv X} {st : McSettings} {p : McInput}
    (hno : p.no = p.ni + p.na + p.nv) (hldv : p.ldv = p.no)
    (hs : IntSym p.no (asMat p.T p.ldt) (asTen p.V p.no)) {ci0 : X} {A1 A2 : Nat → ℝ} {s : McState X}
    (e : mcInit env st p ci0 A1 A2 = .ok s) :
    s.E0 = p.eCore + energy p.no (asMat p.T p.ldt) (asTen p.V p.no) (full1 p.ni p.na (asMat s.A1 p.na))
      (full2 p.ni p.na (asMat s.A1 p.na) (asTen s.A2 p.na)) := by
  rw [mcInit] at e
  simp only at e
  obtain ⟨⟨B1, B2, ci, calls⟩, _, e⟩ := bind_ok e
  simp only [Out.ok.injEq] at e
  rw [← e]
  simp only [mcGradient]
  rw [dot_energy, hldv]
  exact mc_energy (p := { p with ldd1 := p.na, ldd2 := p.na }) ⟨hno, hldv, rfl, rfl, hs⟩ p.T p.V
    (fun _ => 0) (fun _ => 0) (fun _ => 0) B1 B2 p.ldt hs

/-- a driver state whose step exists, so the theorems above are not empty (the case of
`C92_uphill_refuted`): the input is admissible and the initial state is reachable -/
example : ∃ (st : McSettings) (s : McState Unit), 0 < st.maxStep ∧ McOk (mcIn (-5)) ∧
    RdmContract (mcIn (-5)).na mcEnv ∧ ∃ A1 A2, McReach mcEnv st (mcIn (-5)) () A1 A2 0 s := by
  let st : McSettings := ⟨1, 1 / 2, 1 / 100, true, 3, 10⟩
  obtain ⟨s, e, _, _, _⟩ := mcExInit (-5) st
  exact ⟨st, s, by norm_num [st], mcIn_ok _, mcEnv_contract, _, _, McReach.init e⟩

end Macis
