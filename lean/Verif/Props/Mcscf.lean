import Verif.Lemmas.Mcscf
import Mathlib.Analysis.InnerProductSpace.Basic
import Mathlib.Algebra.Order.Chebyshev
/-! Properties C88-C93: the MCSCF driver. -/
namespace Macis
open Spec Finset
variable {X : Type}

/-- What is assumed of the input: symmetric integrals, the orbital counts add up, contiguous two-body
integrals and RDMs. -/
structure McOk (p : McInput) : Prop where
  no_eq : p.no = p.ni + p.na + p.nv
  ldv_eq : p.ldv = p.no
  ldd1_eq : p.ldd1 = p.na
  ldd2_eq : p.ldd2 = p.na
  sym : IntSym p.no (asMat p.T p.ldt) (asTen p.V p.no)

/-- What is assumed of the CI solver: for symmetric integrals and RDM arrays filled with zeros it leaves
symmetric RDMs in them, and the energy it returns is the energy of these RDMs. -/
def RdmContract (na : Nat) (env : McEnv X) : Prop :=
  ∀ Ta Va A1 A2 c r, IntSym na (asMat Ta na) (asTen Va na) → (∀ m, m < na * na → A1 m = 0) →
    (∀ m, m < na * na * (na * na) → A2 m = 0) → env.rdms Ta Va A1 A2 c = .ok r →
    r.1 = energy na (asMat Ta na) (asTen Va na) (asMat r.2.1 na) (asTen r.2.2.1 na) ∧
    DenSym na (asMat r.2.1 na) (asTen r.2.2.1 na)

/-- the same, claiming the energy only under the condition `E` -/
def RdmContractIf (E : Prop) (na : Nat) (env : McEnv X) : Prop :=
  ∀ Ta Va A1 A2 c r, IntSym na (asMat Ta na) (asTen Va na) → (∀ m, m < na * na → A1 m = 0) →
    (∀ m, m < na * na * (na * na) → A2 m = 0) → env.rdms Ta Va A1 A2 c = .ok r →
    (E → r.1 = energy na (asMat Ta na) (asTen Va na) (asMat r.2.1 na) (asTen r.2.2.1 na)) ∧
    DenSym na (asMat r.2.1 na) (asTen r.2.2.1 na)

theorem RdmContract.toIf {na : Nat} {env : McEnv X} (h : RdmContract na env) : RdmContractIf True na env :=
  fun Ta Va A1 A2 c r a b d e => ⟨fun _ => (h Ta Va A1 A2 c r a b d e).1, (h Ta Va A1 A2 c r a b d e).2⟩

/-- The energy of the state with RDMs `A1`, `A2` in the orbitals `u` (columns, in terms of the input
orbitals), all orbitals included. -/
noncomputable def mcEnergy (p : McInput) (A1 A2 : Nat → ℝ) (u : Nat → Nat → ℝ) : ℝ :=
  p.eCore + energy p.no (tr2 p.no u (asMat p.T p.ldt)) (tr4 p.no u (asTen p.V p.no))
    (full1 p.ni p.na (asMat A1 p.na)) (full2 p.ni p.na (asMat A1 p.na) (asTen A2 p.na))

/-- antisymmetric generator -/
def AntiK (no : Nat) (K : Nat → ℝ) : Prop :=
  ∀ a b, a < no → b < no → asMat K no a b = -asMat K no b a

/-- the orbitals in use at the start of macro-iteration `iter`: the array `U` is first written in the
first macro-iteration -/
noncomputable def mcOrbs (p : McInput) (iter : Nat) (s : McState X) : Nat → Nat → ℝ :=
  if iter = 0 then fun i j => if i = j then 1 else 0 else asMat s.U p.no

/-- invariant of the iterations; the energy is claimed under the condition `E`, what depends on symmetric RDMs under
the condition `D` -/
structure McInvIf (E D : Prop) (p : McInput) (iter : Nat) (s : McState X) : Prop where
  kanti : AntiK p.no s.K
  danti : ∀ x ∈ s.diis, AntiK p.no x.1
  den : D → DenSym p.na (asMat s.A1 p.na) (asTen s.A2 p.na)
  k0 : iter = 0 → ∀ m, s.K m = 0
  d0 : iter = 0 → s.diis = []
  orth : Orthogonal p.no (mcOrbs p iter s)
  en : E → s.E0 = mcEnergy p s.A1 s.A2 (mcOrbs p iter s)
  grad : D → ∀ a b, a < p.no → orbKind p.ni p.na b < orbKind p.ni p.na a →
      s.OG (rotPos p.ni p.na p.nv a b) =
        2 * (genFock p.no (tr2 p.no (mcOrbs p iter s) (asMat p.T p.ldt))
            (tr4 p.no (mcOrbs p iter s) (asTen p.V p.no))
            (full1 p.ni p.na (asMat s.A1 p.na)) (full2 p.ni p.na (asMat s.A1 p.na) (asTen s.A2 p.na)) a b -
          genFock p.no (tr2 p.no (mcOrbs p iter s) (asMat p.T p.ldt))
            (tr4 p.no (mcOrbs p iter s) (asTen p.V p.no))
            (full1 p.ni p.na (asMat s.A1 p.na)) (full2 p.ni p.na (asMat s.A1 p.na) (asTen s.A2 p.na)) b a)

/-- the invariant with all its claims -/
abbrev McInv (p : McInput) (iter : Nat) (s : McState X) : Prop := McInvIf True True p iter s

theorem McInvIf.uorth {E D : Prop} {p : McInput} {iter : Nat} {s : McState X} (inv : McInvIf E D p iter s) (h : iter ≠ 0) :
    Orthogonal p.no (asMat s.U p.no) := by
  have := inv.orth
  rwa [mcOrbs, if_neg h] at this

theorem genFock_congr {n : Nat} {h h' : Nat → Nat → ℝ} {g g' : Nat → Nat → Nat → Nat → ℝ}
    {D : Nat → Nat → ℝ} {d : Nat → Nat → Nat → Nat → ℝ}
    (eh : ∀ p q, p < n → q < n → h p q = h' p q)
    (eg : ∀ p q r s, p < n → q < n → r < n → s < n → g p q r s = g' p q r s) {p o : Nat} (ho : o < n) :
    genFock n h g D d p o = genFock n h' g' D d p o := by
  rw [genFock, genFock]
  congr 1
  · apply Finset.sum_congr rfl; intro q hq
    rw [eh o q ho (mem_range.mp hq)]
  · congr 1
    apply Finset.sum_congr rfl; intro q hq
    apply Finset.sum_congr rfl; intro r hr
    apply Finset.sum_congr rfl; intro s hs
    rw [eg o q r s ho (mem_range.mp hq) (mem_range.mp hr) (mem_range.mp hs)]

theorem kind_lt {ni na nv a b : Nat} (ha : a < ni + na + nv) (hk : orbKind ni na b < orbKind ni na a) :
    b < ni + na + nv := by
  rcases kind_cases ha hk with ⟨a, i, ha, hi, rfl, rfl⟩ | ⟨a, x, ha, hx, rfl, rfl⟩ |
    ⟨x, i, hx, hi, rfl, rfl⟩ <;> omega

/-- the gradient part of the driver -/
theorem mcGradient_val {p : McInput} (ok : McOk p) (T V : Nat → ℝ) (ldt : Nat) (F0 : Nat → ℝ)
    (s : McState X) (den : DenSym p.na (asMat s.A1 p.na) (asTen s.A2 p.na))
    (vi : ∀ a b, a < p.no → b < p.no → asMat s.Fi p.no a b = fi p.ni (asMat T ldt) (asTen V p.no) a b)
    (v0 : ∀ m, m < p.no * p.no → F0 m = 0) :
    ∀ a b, a < p.no → orbKind p.ni p.na b < orbKind p.ni p.na a →
      (mcGradient p V p.no F0 s).OG (rotPos p.ni p.na p.nv a b) =
        2 * (genFock p.no (asMat T ldt) (asTen V p.no)
            (full1 p.ni p.na (asMat s.A1 p.na)) (full2 p.ni p.na (asMat s.A1 p.na) (asTen s.A2 p.na)) a b -
          genFock p.no (asMat T ldt) (asTen V p.no)
            (full1 p.ni p.na (asMat s.A1 p.na)) (full2 p.ni p.na (asMat s.A1 p.na) (asTen s.A2 p.na)) b a) := by
  intro a b ha hk
  have hn : p.ni + p.na ≤ p.no := by have := ok.no_eq; omega
  have hb : b < p.no := by rw [ok.no_eq] at ha ⊢; exact kind_lt ha hk
  have e : (mcGradient p V p.no F0 s).F = generalizedFockMatrix p.no p.ni p.na s.Fi p.no
      (activeFockMatrix p.no p.ni p.na V p.no s.A1 p.na s.Fa p.no) p.no s.A1 p.na
      (auxQMatrix p.na p.no p.ni V p.no s.A2 p.na s.Q p.na) p.na F0 p.no := by
    simp only [mcGradient, ok.ldd1_eq, ok.ldd2_eq]
  have hF : ∀ x y, x < p.no → y < p.no → asMat (mcGradient p V p.no F0 s).F p.no x y = _ :=
    fun x y hx hy => (congrArg (fun f => asMat f p.no x y) e).trans <| fock_of_vals (R := ℝ) (by norm_num) hn s.Fi
      (activeFockMatrix p.no p.ni p.na V p.no s.A1 p.na s.Fa p.no) s.A1
      (auxQMatrix p.na p.no p.ni V p.no s.A2 p.na s.Q p.na) F0 vi
      (fun a b ha hb => activeFock_val (le_refl _) V s.A1 s.Fa ha hb)
      (fun v o hv ho => auxQ_val (le_refl _) V s.A2 s.Q hv ho)
      (fun x y _ hx hy => v0 _ (by
        calc x + y * p.no < p.no + y * p.no := by omega
          _ = (y + 1) * p.no := by ring
          _ ≤ p.no * p.no := Nat.mul_le_mul_right _ hy)) den.D_symm hx hy
  have := (fockToLinear_val p.ni p.na p.nv p.no (mcGradient p V p.no F0 s).F s.OG).1 a b
    (by rw [← ok.no_eq]; exact ha) hk
  refine Eq.trans this ?_
  have h1 := hF a b ha hb
  have h2 := hF b a hb ha
  rw [asMat] at h1 h2
  rw [h1, h2]

/-- the driver's inactive energy plus the CI energy is the energy of the whole orbital space -/
theorem mc_energy {p : McInput} (ok : McOk p) (T V Fi Ta Va A1 A2 : Nat → ℝ) (ldt : Nat)
    (hs : IntSym p.no (asMat T ldt) (asTen V p.no)) :
    let H := activeHamiltonian p.no p.na p.ni T ldt V p.no Fi p.no Ta p.na Va p.na
    energy p.na (asMat H.2.1 p.na) (asTen H.2.2 p.na) (asMat A1 p.na) (asTen A2 p.na) +
      (inactiveEnergy p.ni T ldt H.1 p.no + p.eCore) =
    p.eCore + energy p.no (asMat T ldt) (asTen V p.no) (full1 p.ni p.na (asMat A1 p.na))
      (full2 p.ni p.na (asMat A1 p.na) (asTen A2 p.na)) := by
  intro H
  have hn : p.ni + p.na ≤ p.no := by have := ok.no_eq; omega
  have := C39_energy_split (R := ℝ) (by norm_num) (ldt := ldt) (ldv := p.no) (ldf := p.no)
    (ldta := p.na) (ldva := p.na) (ldd1 := p.na) (ldd2 := p.na) hn (le_refl _) (le_refl _) (le_refl _)
    T V Fi Ta Va A1 A2 hs.g_pair
  rw [← this]
  ring

theorem tr_id {no : Nat} (h : Nat → Nat → ℝ) (g : Nat → Nat → Nat → Nat → ℝ) :
    (∀ p q, p < no → q < no → tr2 no (fun i j => if i = j then 1 else 0) h p q = h p q) ∧
    (∀ p q r s, p < no → q < no → r < no → s < no →
      tr4 no (fun i j => if i = j then 1 else 0) g p q r s = g p q r s) :=
  tr_one (fun _ _ _ _ => rfl) h g

/-- the state before the first iteration -/
theorem mcInit_inv {E D : Prop} {env : McEnv X} {st : McSettings} {p : McInput} (ok : McOk p)
    (hc : RdmContractIf E p.na env) (ci0 : X) (A1 A2 : Nat → ℝ)
    (den : D → DenSym p.na (asMat A1 p.na) (asTen A2 p.na)) {s : McState X}
    (e : mcInit env st p ci0 A1 A2 = .ok s) :
    McInvIf E D p 0 s ∧ s.calls ≤ 1 ∧
      (s.conv = true → nrmN (p.nv * (p.ni + p.na) + p.na * p.ni) s.OG < st.tol) := by
  have hn : p.ni + p.na ≤ p.no := by have := ok.no_eq; omega
  obtain ⟨asym, vi⟩ := active_sym (ldt := p.ldt) (ldv := p.no) hn (le_refl p.na) (le_refl p.na) p.T p.V
    (fun _ => 0) (fun _ => 0) (fun _ => 0) ok.sym
  -- the RDMs in use
  have key : ∀ (B1 B2 : Nat → ℝ) (ci : X) (calls : Nat), calls ≤ 1 →
      (D → DenSym p.na (asMat B1 p.na) (asTen B2 p.na)) →
      ∀ s' : McState X, s' = mcGradient p p.V p.ldv (fun _ => 0)
        ⟨dotN (p.na * p.na) B1 (activeHamiltonian p.no p.na p.ni p.T p.ldt p.V p.ldv (fun _ => 0) p.no
            (fun _ => 0) p.na (fun _ => 0) p.na).2.1 +
          dotN (p.na * p.na * (p.na * p.na)) B2 (activeHamiltonian p.no p.na p.ni p.T p.ldt p.V p.ldv
            (fun _ => 0) p.no (fun _ => 0) p.na (fun _ => 0) p.na).2.2 +
          (inactiveEnergy p.ni p.T p.ldt (activeHamiltonian p.no p.na p.ni p.T p.ldt p.V p.ldv
            (fun _ => 0) p.no (fun _ => 0) p.na (fun _ => 0) p.na).1 p.no + p.eCore), false,
          (activeHamiltonian p.no p.na p.ni p.T p.ldt p.V p.ldv (fun _ => 0) p.no
            (fun _ => 0) p.na (fun _ => 0) p.na).2.1,
          (activeHamiltonian p.no p.na p.ni p.T p.ldt p.V p.ldv (fun _ => 0) p.no
            (fun _ => 0) p.na (fun _ => 0) p.na).2.2, ci, fun _ => 0, fun _ => 0,
          (activeHamiltonian p.no p.na p.ni p.T p.ldt p.V p.ldv (fun _ => 0) p.no
            (fun _ => 0) p.na (fun _ => 0) p.na).1, fun _ => 0, fun _ => 0, p.T, p.V, fun _ => 0,
          fun _ => 0, [], B1, B2, calls⟩ →
      ∀ c : Bool, McInvIf E D p 0 { s' with conv := c } := by
    intro B1 B2 ci calls hcalls hden s' hs' c
    rw [ok.ldv_eq] at hs'
    obtain ⟨i1, i2⟩ := tr_id (no := p.no) (asMat p.T p.ldt) (asTen p.V p.no)
    have ou : mcOrbs p 0 { s' with conv := c } = fun i j => if i = j then 1 else 0 := if_pos rfl
    refine ⟨?_, ?_, ?_, ?_, ?_, ou ▸ orthogonal_one p.no, ?_, ?_⟩
    · subst hs'; intro a b _ _; simp [mcGradient, asMat]
    · subst hs'; intro x hx; simp [mcGradient] at hx
    · subst hs'; exact hden
    · subst hs'; intro _ m; rfl
    · subst hs'; intro _; rfl
    · rw [ou]; subst hs'
      intro _
      simp only [mcGradient, mcEnergy]
      rw [dot_energy, mc_energy ok p.T p.V _ _ _ B1 B2 p.ldt ok.sym,
        energy_congr (h := tr2 p.no _ _) i1 i2]
    · rw [ou]; intro hD a b ha hk
      have hb : b < p.no := by rw [ok.no_eq] at ha ⊢; exact kind_lt ha hk
      subst hs'
      rw [genFock_congr i1 i2 hb, genFock_congr i1 i2 ha]
      apply mcGradient_val ok p.T p.V p.ldt (fun _ => 0) _ _ _ (fun _ _ => rfl) a b ha hk
      · exact hden hD
      · exact vi
  rw [mcInit] at e
  simp only at e
  split at e
  · rename_i hx
    cases hr : env.rdms (activeHamiltonian p.no p.na p.ni p.T p.ldt p.V p.ldv (fun _ => 0) p.no
            (fun _ => 0) p.na (fun _ => 0) p.na).2.1 (activeHamiltonian p.no p.na p.ni p.T p.ldt p.V
            p.ldv (fun _ => 0) p.no (fun _ => 0) p.na (fun _ => 0) p.na).2.2
            (fillZero (p.na * p.na) A1) (fillZero (p.na * p.na * (p.na * p.na)) A2) ci0 with
    | ok r =>
      rw [hr] at e
      simp only [Out.bind, Out.ok.injEq] at e
      have hd := (hc _ _ _ _ _ r (by rw [ok.ldv_eq]; exact asym) (fun m hm => if_pos hm)
        (fun m hm => if_pos hm) hr).2
      refine ⟨?_, ?_, ?_⟩
      · rw [← e]; exact key _ _ _ 1 (le_refl _) (fun _ => hd) _ rfl _
      · rw [← e]; simp [mcGradient]
      · rw [← e]; simp
    | nonfinite => rw [hr] at e; simp [Out.bind] at e
    | throw => rw [hr] at e; simp [Out.bind] at e
    | ub => rw [hr] at e; simp [Out.bind] at e
  · simp only [Out.bind, Out.ok.injEq] at e
    refine ⟨?_, ?_, ?_⟩
    · rw [← e]; exact key _ _ _ 0 (by omega) den _ rfl _
    · rw [← e]; simp [mcGradient]
    · rw [← e]; simp

theorem antiK_axpy {no : Nat} {a : ℝ} {x y : Nat → ℝ} (hx : AntiK no x) (hy : AntiK no y) :
    AntiK no (axpyN (no * no) a x y) := by
  intro i j hi hj
  have lt : ∀ i j, i < no → j < no → i + j * no < no * no := by
    intro i j hi hj
    calc i + j * no < no + j * no := by omega
      _ = (j + 1) * no := by ring
      _ ≤ no * no := Nat.mul_le_mul_right _ hj
  simp only [asMat, axpyN, if_pos (lt i j hi hj), if_pos (lt j i hj hi)]
  have h1 := hx i j hi hj
  have h2 := hy i j hi hj
  simp only [asMat] at h1 h2
  rw [h1, h2]; ring

theorem antiK_scal {no : Nat} {a : ℝ} {x : Nat → ℝ} (hx : AntiK no x) :
    AntiK no (scalN (no * no) a x) := by
  intro i j hi hj
  have lt : ∀ i j, i < no → j < no → i + j * no < no * no := by
    intro i j hi hj
    calc i + j * no < no + j * no := by omega
      _ = (j + 1) * no := by ring
      _ ≤ no * no := Nat.mul_le_mul_right _ hj
  simp only [asMat, scalN, if_pos (lt i j hi hj), if_pos (lt j i hj hi)]
  have h1 := hx i j hi hj
  simp only [asMat] at h1
  rw [h1]; ring

/-- members of the stored pairs after an addition -/
theorem diisAdd_mem {α : Type} {nmax : Nat} {l l' : List α} {x : α} (h : diisAdd nmax l x = .ok l') :
    ∀ y ∈ l', y ∈ l ∨ y = x := by
  intro y hy
  rw [diisAdd] at h
  split at h
  · simp only [Run.ok.injEq] at h
    subst h
    simpa using hy
  · split at h
    · exact absurd h (by simp)
    · simp only at h
      split at h
      · simp only [Run.ok.injEq] at h
        subst h
        rcases List.mem_or_eq_of_mem_set hy with h' | h'
        · left
          rcases List.mem_append.mp h' with h' | h'
          · exact List.mem_of_mem_drop h'
          · exact List.mem_of_mem_drop h'
        · right; exact h'
      · exact absurd h (by simp)

/-- DIIS keeps generators antisymmetric -/
theorem mcDiis_anti {env : McEnv X} {st : McSettings} {p : McInput} {iter : Nat} {K OG : Nat → ℝ}
    {pairs : List ((Nat → ℝ) × (Nat → ℝ))} (hK : AntiK p.no K) (hp : ∀ x ∈ pairs, AntiK p.no x.1)
    {r : (Nat → ℝ) × List ((Nat → ℝ) × (Nat → ℝ))} (e : mcDiis env st p iter K OG pairs = .ok r) :
    AntiK p.no r.1 ∧ ∀ x ∈ r.2, AntiK p.no x.1 := by
  rw [mcDiis] at e
  simp only at e
  split at e
  · cases ha : diisAdd st.diisNkeep pairs (K, OG) with
    | ok l =>
      rw [ha] at e
      simp only [Run.toOut, Out.bind] at e
      have hl : ∀ x ∈ l, AntiK p.no x.1 := by
        intro x hx
        rcases diisAdd_mem ha x hx with h | h
        · exact hp x h
        · rw [h]; exact hK
      split at e
      · cases hx : diisExtrapolate l.length (fun i => (l.getD i (K, OG)).1)
            (env.gelss l.length (diisMatrix l.length (p.nv * (p.ni + p.na) + p.na * p.ni)
              fun i => (l.getD i (K, OG)).2)) with
        | ok k =>
          rw [hx] at e
          simp only [Out.ok.injEq] at e
          rw [← e]
          refine ⟨?_, hl⟩
          rw [diisExtrapolate] at hx
          split at hx
          · exact absurd hx (by simp)
          · simp only [Run.ok.injEq] at hx
            rw [← hx]
            intro a b ha' hb'
            simp only [asMat, ← Finset.sum_neg_distrib]
            apply Finset.sum_congr rfl
            intro i hi
            rw [mem_range] at hi
            have := hl (l.getD i (K, OG)) (by
              simp [List.getD, hi]) a b ha' hb'
            simp only [asMat] at this
            rw [this]; ring
        | throw => rw [hx] at e; simp at e
        | ub => rw [hx] at e; simp at e
        | timeout => rw [hx] at e; simp at e
      · simp only [Out.ok.injEq] at e
        rw [← e]
        exact ⟨hK, hl⟩
    | throw => rw [ha] at e; simp [Run.toOut, Out.bind] at e
    | ub => rw [ha] at e; simp [Run.toOut, Out.bind] at e
    | timeout => rw [ha] at e; simp [Run.toOut, Out.bind] at e
  · simp only [Out.ok.injEq] at e
    rw [← e]
    exact ⟨hK, hp⟩

theorem bind_ok {α β : Type} {x : Out α} {f : α → Out β} {b : β} (h : x.bind f = .ok b) :
    ∃ a, x = .ok a ∧ f a = .ok b := by
  cases x with
  | ok a => exact ⟨a, rfl, h⟩
  | nonfinite => exact absurd h (by simp [Out.bind])
  | throw => exact absurd h (by simp [Out.bind])
  | ub => exact absurd h (by simp [Out.bind])

/-- one iteration -/
theorem mcStep_inv {E D : Prop} {env : McEnv X} {st : McSettings} {p : McInput} (ok : McOk p)
    (hc : RdmContractIf E p.na env) (iter : Nat) {s s' : McState X} (inv : McInvIf E D p iter s)
    (e : mcStep env st p iter s = .ok s') :
    McInvIf E True p (iter + 1) s' ∧ s'.calls = s.calls + 1 ∧
      (s'.conv = true → nrmN (p.nv * (p.ni + p.na) + p.na * p.ni) s'.OG /
        Real.sqrt ((p.nv * (p.ni + p.na) + p.na * p.ni : Nat) : ℝ) < st.tol) := by
  have hn : p.ni + p.na ≤ p.no := by have := ok.no_eq; omega
  rw [mcStep] at e
  simp only at e
  obtain ⟨klin, _, e⟩ := bind_ok e
  obtain ⟨⟨K, pairs⟩, ed, e⟩ := bind_ok e
  simp only at e
  have kst : AntiK p.no (linearOrbRotToMatrix p.ni p.na p.nv klin (fun _ => 0) p.no) := by
    have := (unpacked p.ni p.na p.nv klin).1
    rw [← ok.no_eq] at this
    exact this
  obtain ⟨hK, hpairs⟩ := mcDiis_anti (antiK_axpy kst inv.kanti) inv.danti ed
  simp only at hK hpairs
  -- the new orbitals
  set U := (if iter = 0 then computeOrbitalRotation p.no 1 K p.no s.U p.no
    else gemm false p.no p.no p.no s.U p.no
      (computeOrbitalRotation p.no 1 (scalN (p.no * p.no) (-1) (axpyN (p.no * p.no) (-1) K s.K)) p.no
        (fun _ => 0) p.no) p.no (fun _ => 0) 0 p.no) with hU
  have orth : Orthogonal p.no (asMat U p.no) := by
    by_cases h0 : iter = 0
    · rw [hU, if_pos h0]
      exact C83_orthogonal (le_refl _) K s.U 1 hK
    · rw [hU, if_neg h0]
      refine orthogonal_congr ?_ (orthogonal_mul (inv.uorth h0)
        (C83_orthogonal (le_refl p.no) (scalN (p.no * p.no) (-1) (axpyN (p.no * p.no) (-1) K s.K))
          (fun _ => 0) 1 (antiK_scal (antiK_axpy hK inv.kanti))))
      intro i j hi hj
      have := (gemm_spec false p.no p.no p.no s.U p.no (computeOrbitalRotation p.no 1
        (scalN (p.no * p.no) (-1) (axpyN (p.no * p.no) (-1) K s.K)) p.no (fun _ => 0) p.no) p.no
        (fun _ => (0 : ℝ)) 0 p.no (le_refl p.no)).1 i j hi hj
      rw [Nat.zero_add] at this
      rw [asMat, this]
      simp only [Bool.false_eq_true, if_false]
      rfl
  -- transformed integrals
  rw [ok.ldv_eq] at e
  set Tt := twoIndexTransform p.no p.no p.T p.ldt U p.no s.Tt p.no with hTt
  set Vt := fourIndexTransform p.no p.no p.V p.no U p.no s.Vt p.no with hVt
  obtain ⟨t1, t2⟩ := transform_val (no := p.no) (ldt := p.ldt) (ldu := p.no) p.T p.V U s.Tt s.Vt
  rw [← hTt] at t1
  rw [← hVt] at t2
  have hs' : IntSym p.no (asMat Tt p.no) (asTen Vt p.no) := intSym_congr t1 t2 (tr_sym ok.sym _)
  obtain ⟨asym, vi⟩ := active_sym (ldt := p.no) (ldv := p.no) hn (le_refl p.na) (le_refl p.na) Tt Vt
    s.Fi s.Ta s.Va hs'
  obtain ⟨r, er, e⟩ := bind_ok e
  obtain ⟨c1, c2⟩ := hc _ _ _ _ _ r asym (fun m hm => if_pos hm) (fun m hm => if_pos hm) er
  simp only [Out.ok.injEq] at e
  have ou : mcOrbs p (iter + 1) s' = asMat U p.no := by
    rw [mcOrbs, if_neg (by omega), ← e]; rfl
  refine ⟨⟨?_, ?_, ?_, fun h => absurd h (by omega), fun h => absurd h (by omega), ?_, ?_, ?_⟩, ?_, ?_⟩
  · rw [← e]; exact hK
  · rw [← e]; exact hpairs
  · rw [← e]; exact fun _ => c2
  · rw [ou]; exact orth
  · rw [ou, ← e]
    intro hE
    simp only [mcGradient, mcEnergy]
    rw [c1 hE, mc_energy ok Tt Vt s.Fi s.Ta s.Va r.2.1 r.2.2.1 p.no hs']
    rw [energy_congr t1 t2]
  · intro _ a b ha hk
    have hb : b < p.no := by rw [ok.no_eq] at ha ⊢; exact kind_lt ha hk
    rw [ou, ← e]
    rw [← genFock_congr t1 t2 hb, ← genFock_congr t1 t2 ha]
    apply mcGradient_val ok Tt Vt p.no _ _ _ _ _ a b ha hk
    · exact c2
    · exact vi
    · exact fun m hm => if_pos hm
  · rw [← e]; rfl
  · rw [← e]; simp

theorem McInvIf.mono {E D : Prop} {p : McInput} {iter : Nat} {s : McState X} (h : McInvIf E True p iter s) :
    McInvIf E D p iter s :=
  ⟨h.kanti, h.danti, fun _ => h.den trivial, h.k0, h.d0, h.orth, h.en, fun _ => h.grad trivial⟩

/-- all iterations -/
theorem mcLoop_inv {E D : Prop} {env : McEnv X} {st : McSettings} {p : McInput} (ok : McOk p)
    (hc : RdmContractIf E p.na env) (n : Nat) : ∀ (iter : Nat) (s : McState X), McInvIf E D p iter s →
    ∀ s', mcLoop env st p n iter s = .ok s' →
      (∃ k, McInvIf E D p k s') ∧ s'.calls ≤ s.calls + n ∧ (s'.conv = false → s'.calls = s.calls + n) ∧
      (s'.conv = true → s' = s ∨ nrmN (p.nv * (p.ni + p.na) + p.na * p.ni) s'.OG /
        Real.sqrt ((p.nv * (p.ni + p.na) + p.na * p.ni : Nat) : ℝ) < st.tol) := by
  induction n with
  | zero =>
    intro iter s inv s' e
    simp only [mcLoop, Out.ok.injEq] at e
    subst e
    exact ⟨⟨iter, inv⟩, by omega, by simp, fun _ => .inl rfl⟩
  | succ n ih =>
    intro iter s inv s' e
    rw [mcLoop] at e
    split at e
    · rename_i h
      simp only [Out.ok.injEq] at e
      subst e
      exact ⟨⟨iter, inv⟩, by omega, fun h' => absurd h (by simp [h']), fun _ => .inl rfl⟩
    · obtain ⟨s1, e1, e⟩ := bind_ok e
      obtain ⟨i1, i2, i3⟩ := mcStep_inv ok hc iter inv e1
      obtain ⟨j1, j2, j3, j4⟩ := ih (iter + 1) s1 i1.mono s' e
      refine ⟨j1, by omega, fun h => by have := j3 h; omega, fun h => .inr ?_⟩
      rcases j4 h with h' | h'
      · rw [h'] at h ⊢; exact i3 h
      · exact h'

/-- C88: whatever the number of iterations, steps, extrapolations and restarts of the CI solver, the
returned energy is the core energy plus the energy, in some orthonormal set of orbitals, of the whole
orbital space with the RDMs handed back. -/
theorem C88_energy {env : McEnv X} {st : McSettings} {p : McInput} (ok : McOk p)
    (hc : RdmContract p.na env) (ci0 : X) (A1 A2 : Nat → ℝ)
    (den : DenSym p.na (asMat A1 p.na) (asTen A2 p.na)) (s : McState X)
    (e : mcscf env st p ci0 A1 A2 = .ok s) :
    ∃ u, Orthogonal p.no u ∧ s.E0 = mcEnergy p s.A1 s.A2 u := by
  obtain ⟨s0, e0, e⟩ := bind_ok e
  obtain ⟨i1, _, _⟩ := mcInit_inv ok hc.toIf ci0 A1 A2 (fun _ : True => den) e0
  obtain ⟨⟨k, inv⟩, _⟩ := mcLoop_inv ok hc.toIf _ 0 s0 i1 s e
  exact ⟨_, inv.orth, inv.en trivial⟩

/-- C89: at most `max_macro_iter` CI solutions besides the initial one; a run that ends without
convergence has used all its iterations. -/
theorem C89_iterations {env : McEnv X} {st : McSettings} {p : McInput} (ok : McOk p)
    (hc : RdmContract p.na env) (ci0 : X) (A1 A2 : Nat → ℝ)
    (den : DenSym p.na (asMat A1 p.na) (asTen A2 p.na)) (s : McState X)
    (e : mcscf env st p ci0 A1 A2 = .ok s) :
    s.calls ≤ st.maxMacroIter + 1 ∧ (s.conv = false → st.maxMacroIter ≤ s.calls) := by
  obtain ⟨s0, e0, e⟩ := bind_ok e
  obtain ⟨i1, i2, _⟩ := mcInit_inv ok hc.toIf ci0 A1 A2 (fun _ : True => den) e0
  obtain ⟨_, j2, j3, _⟩ := mcLoop_inv ok hc.toIf _ 0 s0 i1 s e
  exact ⟨by omega, fun h => by have := j3 h; omega⟩

/-- Cauchy-Schwarz for packed vectors -/
theorem dot_le_nrm (n : Nat) (x y : Nat → ℝ) :
    |∑ m ∈ range n, x m * y m| ≤ nrmN n x * nrmN n y := by
  rw [nrmN, nrmN, ← Real.sqrt_mul (Finset.sum_nonneg fun _ _ => sq_nonneg _)]
  apply Real.abs_le_sqrt
  exact Finset.sum_mul_sq_le_sq_mul_sq _ _ _

/-- transforming with a product is transforming twice -/
theorem tr_mul {R : Type} [Field R] {no : Nat} (u a : Nat → Nat → R) (h : Nat → Nat → R)
    (g : Nat → Nat → Nat → Nat → R) :
    (∀ p q, tr2 no (fun i j => ∑ k ∈ range no, u i k * a k j) h p q = tr2 no a (tr2 no u h) p q) ∧
    (∀ p q r s, tr4 no (fun i j => ∑ k ∈ range no, u i k * a k j) g p q r s =
      tr4 no a (tr4 no u g) p q r s) := by
  obtain ⟨S, hS⟩ : ∃ S : (Nat → Nat → R) → (Nat → R) → Nat → R,
      ∀ a f p, S a f p = ∑ i ∈ range no, a i p * f i := ⟨_, fun _ _ _ => rfl⟩
  have e2 : ∀ (a : Nat → Nat → R) (h : Nat → Nat → R) p q,
      tr2 no a h p q = S a (fun i => S a (fun j => h i j) q) p := by
    intro a h p q
    simp only [hS, tr2, mul_sum, mul_assoc]
  have e4 : ∀ (a : Nat → Nat → R) (g : Nat → Nat → Nat → Nat → R) p q r s,
      tr4 no a g p q r s =
        S a (fun i => S a (fun j => S a (fun k => S a (fun l => g i j k l) s) r) q) p := by
    intro a g p q r s
    simp only [hS, tr4, mul_sum, mul_assoc]
  have comp : ∀ f p, S (fun i j => ∑ k ∈ range no, u i k * a k j) f p = S a (fun k => S u f k) p := by
    intro f p
    simp only [hS, Finset.sum_mul, mul_sum]
    rw [Finset.sum_comm]
    apply Finset.sum_congr rfl; intro i _
    apply Finset.sum_congr rfl; intro k _
    ring
  have swap : ∀ (F : Nat → Nat → R) p q,
      S u (fun i => S a (fun j => F i j) q) p = S a (fun j => S u (fun i => F i j) p) q := by
    intro F p q
    simp only [hS]
    exact slot_cross (fun i => u i p) (fun j => a j q) F
  constructor
  · intro p q
    rw [e2, e2]
    simp only [e2, comp, swap]
  · intro p q r s
    rw [e4, e4]
    simp only [e4, comp, swap]

/-- in any state of the driver the packed gradient is the derivative of the energy -/
theorem inv_deriv_at {E : Prop} {p : McInput} (ok : McOk p) {iter : Nat} {s : McState X} (inv : McInvIf E True p iter s) :
      ∀ Klin U0 : Nat → ℝ,
        HasDerivAt (fun t => mcEnergy p s.A1 s.A2 (fun i j => ∑ k ∈ range p.no, mcOrbs p iter s i k *
          asMat (computeOrbitalRotation p.no t (linearOrbRotToMatrix p.ni p.na p.nv Klin (fun _ => 0) p.no)
            p.no U0 p.no) p.no k j)) (∑ m ∈ range (nRot p.ni p.na p.nv), s.OG m * Klin m) 0 := by
  have hg := inv.grad trivial
  generalize mcOrbs p iter s = u at hg ⊢
  intro Klin U0
  set h' := tr2 p.no u (asMat p.T p.ldt) with hh'
  set g' := tr4 p.no u (asTen p.V p.no) with hg'
  have sym' : IntSym p.no h' g' := tr_sym ok.sym u
  -- the derivative
  have d1 := (curve_deriv (ni := p.ni) (na := p.na) (nv := p.nv) (ldu := p.no) (by rw [ok.no_eq]) h' g'
    Klin U0 (full1 p.ni p.na (asMat s.A1 p.na))
    (full2 p.ni p.na (asMat s.A1 p.na) (asTen s.A2 p.na)) 0).1
  rw [← ok.no_eq] at d1
  simp only at d1
  -- its value is the packed gradient times the parameters
  obtain ⟨o1, o2⟩ := tr_one (fun i q hi hq => rotation_zero (no := p.no) (ldk := p.no) (le_refl p.no)
    (linearOrbRotToMatrix p.ni p.na p.nv Klin (fun _ => 0) p.no) U0 hi hq) h' g'
  have val : energy p.no
      (rot1 p.no (asMat (linearOrbRotToMatrix p.ni p.na p.nv Klin (fun _ => 0) p.no) p.no)
        (tr2 p.no (asMat (computeOrbitalRotation p.no 0 (linearOrbRotToMatrix p.ni p.na p.nv Klin
          (fun _ => 0) p.no) p.no U0 p.no) p.no) h'))
      (rot2 p.no (asMat (linearOrbRotToMatrix p.ni p.na p.nv Klin (fun _ => 0) p.no) p.no)
        (tr4 p.no (asMat (computeOrbitalRotation p.no 0 (linearOrbRotToMatrix p.ni p.na p.nv Klin
          (fun _ => 0) p.no) p.no U0 p.no) p.no) g'))
      (full1 p.ni p.na (asMat s.A1 p.na)) (full2 p.ni p.na (asMat s.A1 p.na) (asTen s.A2 p.na)) =
      ∑ m ∈ range (nRot p.ni p.na p.nv), s.OG m * Klin m := by
    rw [energy_congr (fun p q hp hq => rot1_congr _ o1 hp hq)
      (fun p q r s hp hq hr hs => rot2_congr _ o2 hp hq hr hs),
      energy_rot sym' (full_sym p.no (inv.den trivial))]
    obtain ⟨u1, u2, u3⟩ := unpacked p.ni p.na p.nv Klin
    rw [← ok.no_eq] at u1 u2 u3
    rw [antisym_dot (orbKind p.ni p.na) _ _ u1 (fun p q hp hq e => u2 p q hp hq e),
      packed_sum p.ni p.na p.nv (fun m => s.OG m * Klin m) (fun a b => s.OG (rotPos p.ni p.na p.nv a b) *
        Klin (rotPos p.ni p.na p.nv a b)) (fun _ _ _ _ => rfl), ← ok.no_eq, mul_sum]
    apply Finset.sum_congr rfl; intro a ha
    rw [mul_sum]
    apply Finset.sum_congr rfl; intro b hb
    rw [mem_range] at ha hb
    split
    · rename_i hk
      rw [hg a b ha hk, u3 a b ha hk]; ring
    · ring
  rw [← val]
  refine (d1.const_add p.eCore).congr_of_eventuallyEq (Filter.Eventually.of_forall ?_)
  intro t
  obtain ⟨m1, m2⟩ := tr_mul (no := p.no) u (asMat (computeOrbitalRotation p.no t
    (linearOrbRotToMatrix p.ni p.na p.nv Klin (fun _ => 0) p.no) p.no U0 p.no) p.no)
    (asMat p.T p.ldt) (asTen p.V p.no)
  simp only [mcEnergy]
  congr 1
  exact energy_congr (fun a b _ _ => m1 a b) (fun a b c d _ _ _ _ => m2 a b c d)

theorem inv_deriv {p : McInput} (ok : McOk p) {iter : Nat} {s : McState X} (inv : McInv p iter s) :
    ∃ u, Orthogonal p.no u ∧ s.E0 = mcEnergy p s.A1 s.A2 u ∧
      ∀ Klin U0 : Nat → ℝ,
        HasDerivAt (fun t => mcEnergy p s.A1 s.A2 (fun i j => ∑ k ∈ range p.no, u i k *
          asMat (computeOrbitalRotation p.no t (linearOrbRotToMatrix p.ni p.na p.nv Klin (fun _ => 0) p.no)
            p.no U0 p.no) p.no k j)) (∑ m ∈ range (nRot p.ni p.na p.nv), s.OG m * Klin m) 0 :=
  ⟨_, inv.orth, inv.en trivial, inv_deriv_at ok inv⟩

/-- the gradient after convergence -/
theorem converged_bound {E : Prop} {env : McEnv X} {st : McSettings} {p : McInput} (ok : McOk p)
    (hc : RdmContractIf E p.na env) {ci0 : X} {A1 A2 : Nat → ℝ} {s : McState X}
    (e : mcscf env st p ci0 A1 A2 = .ok s) (conv : s.conv = true) (Klin : Nat → ℝ) :
    |∑ m ∈ range (nRot p.ni p.na p.nv), s.OG m * Klin m| ≤
      st.tol * Real.sqrt (max 1 (nRot p.ni p.na p.nv)) * nrmN (nRot p.ni p.na p.nv) Klin := by
  obtain ⟨s0, e0, e⟩ := bind_ok e
  obtain ⟨i1, _, i3⟩ := mcInit_inv ok hc ci0 A1 A2 (fun h : False => h.elim) e0
  obtain ⟨_, _, _, j4⟩ := mcLoop_inv ok hc _ 0 s0 i1 s e
  have hsz : p.nv * (p.ni + p.na) + p.na * p.ni = nRot p.ni p.na p.nv := by rw [nRot]; ring
  rw [hsz] at i3 j4
  refine (dot_le_nrm _ _ _).trans (mul_le_mul_of_nonneg_right ?_ (Real.sqrt_nonneg _))
  have one : (1 : ℝ) ≤ Real.sqrt (max 1 (nRot p.ni p.na p.nv)) := by
    rw [Real.one_le_sqrt]; exact le_max_left _ _
  rcases j4 conv with h | h
  · rw [h] at conv ⊢
    have h1 := i3 conv
    have h0 : 0 ≤ nrmN (nRot p.ni p.na p.nv) s0.OG := Real.sqrt_nonneg _
    nlinarith
  · rcases Nat.eq_zero_or_pos (nRot p.ni p.na p.nv) with hz | hz
    · have : nrmN (nRot p.ni p.na p.nv) s.OG = 0 := by rw [hz]; simp [nrmN]
      rw [this] at h ⊢
      rw [zero_div] at h
      nlinarith
    · have hp : 0 < Real.sqrt ((nRot p.ni p.na p.nv : Nat) : ℝ) :=
        Real.sqrt_pos.mpr (by exact_mod_cast hz)
      rw [div_lt_iff₀ hp] at h
      have : max (1 : ℝ) (nRot p.ni p.na p.nv) = (nRot p.ni p.na p.nv : ℝ) :=
        max_eq_right (by exact_mod_cast hz)
      rw [this]
      exact h.le

/-- C90: when the driver reports convergence, then in the final orbitals `u` and with the RDMs handed
back the energy is stationary to within the tolerance: for every rotation `exp(-t K)` the derivative of
the energy at `t = 0` is at most `tol * sqrt(max 1 n_rot) * |K|`. -/
theorem C90_converged_stationary {env : McEnv X} {st : McSettings} {p : McInput} (ok : McOk p)
    (hc : RdmContract p.na env) (ci0 : X) (A1 A2 : Nat → ℝ)
    (den : DenSym p.na (asMat A1 p.na) (asTen A2 p.na)) (s : McState X)
    (e : mcscf env st p ci0 A1 A2 = .ok s) (conv : s.conv = true) :
    ∃ u, Orthogonal p.no u ∧ s.E0 = mcEnergy p s.A1 s.A2 u ∧
      ∀ Klin U0 : Nat → ℝ, ∃ d : ℝ,
        HasDerivAt (fun t => mcEnergy p s.A1 s.A2 (fun i j => ∑ k ∈ range p.no, u i k *
          asMat (computeOrbitalRotation p.no t (linearOrbRotToMatrix p.ni p.na p.nv Klin (fun _ => 0) p.no)
            p.no U0 p.no) p.no k j)) d 0 ∧
        |d| ≤ st.tol * Real.sqrt (max 1 (nRot p.ni p.na p.nv)) * nrmN (nRot p.ni p.na p.nv) Klin := by
  have e' := e
  obtain ⟨s0, e0, e⟩ := bind_ok e
  obtain ⟨i1, _, _⟩ := mcInit_inv ok hc.toIf ci0 A1 A2 (fun _ : True => den) e0
  obtain ⟨⟨k, inv⟩, _, _, _⟩ := mcLoop_inv ok hc.toIf _ 0 s0 i1 s e
  obtain ⟨u, hu, he, hd⟩ := inv_deriv ok inv
  refine ⟨u, hu, he, ?_⟩
  intro Klin U0
  exact ⟨∑ m ∈ range (nRot p.ni p.na p.nv), s.OG m * Klin m, hd Klin U0, converged_bound ok hc.toIf e' conv Klin⟩

theorem amax_ge (n : Nat) (x : Nat → ℝ) : 0 ≤ amaxN n x ∧ ∀ m < n, |x m| ≤ amaxN n x := by
  have step : amaxN (n + 1) x = max (amaxN n x) |x n| := by
    simp [amaxN, List.range_succ, List.foldl_append]
  clear step
  induction n with
  | zero => exact ⟨le_of_eq rfl, fun m h => absurd h (by omega)⟩
  | succ n ih =>
    have step : amaxN (n + 1) x = max (amaxN n x) |x n| := by
      simp [amaxN, List.range_succ, List.foldl_append]
    rw [step]
    refine ⟨le_max_of_le_left ih.1, ?_⟩
    intro m hm
    rcases Nat.lt_succ_iff_lt_or_eq.mp hm with h | h
    · exact le_max_of_le_left (ih.2 m h)
    · rw [h]; exact le_max_right _ _

/-- C91 from the invariant -/
theorem step_of_inv {st : McSettings} {p : McInput} (ok : McOk p) {iter : Nat} {s : McState X}
    (inv : McInv p iter s) (hm : 0 < st.maxStep) {k : Nat → ℝ} (e : mcStepLin st p s = .ok k) :
    (∀ m < nRot p.ni p.na p.nv, |k m| ≤ st.maxStep) ∧
    ((∀ m < nRot p.ni p.na p.nv, 0 < approxDiagHessian p.ni p.na p.nv s.Fi p.no s.Fa p.no s.A1 p.ldd1 s.F
        p.no (fun _ => 0) m) →
      (∃ m < nRot p.ni p.na p.nv, s.OG m ≠ 0) →
      ∃ u d, Orthogonal p.no u ∧ s.E0 = mcEnergy p s.A1 s.A2 u ∧ d < 0 ∧
        HasDerivAt (fun t => mcEnergy p s.A1 s.A2 (fun i j => ∑ l ∈ range p.no, u i l *
          asMat (computeOrbitalRotation p.no t (linearOrbRotToMatrix p.ni p.na p.nv k (fun _ => 0) p.no)
            p.no (fun _ => 0) p.no) p.no l j)) d 0) := by
  have hsz : p.nv * (p.ni + p.na) + p.na * p.ni = nRot p.ni p.na p.nv := by rw [nRot]; ring
  have hsz' : p.nv * (p.na + p.ni) + p.na * p.ni = nRot p.ni p.na p.nv := rfl
  rw [mcStepLin] at e
  obtain ⟨k0, e0, e⟩ := bind_ok e
  rw [precondStep] at e0
  simp only [hsz'] at e0
  split at e0
  · exact absurd e0 (by simp)
  rename_i hnz
  simp only [Out.ok.injEq] at e0
  simp only [hsz] at e
  split at e
  · exact absurd e (by simp)
  simp only [Out.ok.injEq] at e
  obtain ⟨a0, a1⟩ := amax_ge (nRot p.ni p.na p.nv) k0
  -- the step is a positive multiple of the preconditioned gradient
  obtain ⟨c, hc, hk, hle⟩ : ∃ c > 0, (∀ m < nRot p.ni p.na p.nv, k m = c * k0 m) ∧
      c * amaxN (nRot p.ni p.na p.nv) k0 ≤ st.maxStep := by
    split at e
    · rename_i hgt
      have hpos : 0 < amaxN (nRot p.ni p.na p.nv) k0 := hm.trans hgt
      refine ⟨st.maxStep / amaxN (nRot p.ni p.na p.nv) k0, div_pos hm hpos, ?_, ?_⟩
      · intro m hm'
        rw [← e, scalN, if_pos hm']
      · rw [div_mul_cancel₀ _ hpos.ne']
    · rename_i hgt
      refine ⟨1, one_pos, fun m _ => by rw [← e, one_mul], ?_⟩
      rw [one_mul]; exact not_lt.mp hgt
  refine ⟨?_, ?_⟩
  · intro m hm'
    rw [hk m hm', abs_mul, abs_of_pos hc]
    exact (mul_le_mul_of_nonneg_left (a1 m hm') hc.le).trans hle
  · intro hpos ⟨m0, hm0, hne⟩
    obtain ⟨u, hu, he, hd⟩ := inv_deriv ok inv
    refine ⟨u, _, hu, he, ?_, hd k (fun _ => 0)⟩
    have val : ∀ m < nRot p.ni p.na p.nv, s.OG m * k m = -(c * (s.OG m ^ 2 /
        approxDiagHessian p.ni p.na p.nv s.Fi p.no s.Fa p.no s.A1 p.ldd1 s.F p.no (fun _ => 0) m)) := by
      intro m hm'
      rw [hk m hm', ← e0]
      simp only [if_pos hm']
      have := (hpos m hm').ne'
      field_simp
    rw [Finset.sum_congr rfl (fun m hm' => val m (mem_range.mp hm')), Finset.sum_neg_distrib]
    rw [neg_lt_zero]
    apply Finset.sum_pos'
    · intro m hm'
      have := hpos m (mem_range.mp hm')
      positivity
    · refine ⟨m0, mem_range.mpr hm0, ?_⟩
      have h1 := hpos m0 hm0
      have h2 : 0 < s.OG m0 ^ 2 := by positivity
      positivity

/-- The states the driver is in at the start of macro-iteration `iter`. -/
inductive McReach (env : McEnv X) (st : McSettings) (p : McInput) (ci0 : X) (A1 A2 : Nat → ℝ) :
    Nat → McState X → Prop
  | init {s} : mcInit env st p ci0 A1 A2 = .ok s → McReach env st p ci0 A1 A2 0 s
  | step {iter s s'} : McReach env st p ci0 A1 A2 iter s → iter < st.maxMacroIter → s.conv = false →
      mcStep env st p iter s = .ok s' → McReach env st p ci0 A1 A2 (iter + 1) s'

theorem McReach.inv {env : McEnv X} {st : McSettings} {p : McInput} (ok : McOk p)
    (hc : RdmContract p.na env) {ci0 : X} {A1 A2 : Nat → ℝ}
    (den : DenSym p.na (asMat A1 p.na) (asTen A2 p.na)) {iter : Nat} {s : McState X}
    (h : McReach env st p ci0 A1 A2 iter s) : McInv p iter s := by
  induction h with
  | init e => exact (mcInit_inv ok hc.toIf ci0 A1 A2 (fun _ : True => den) e).1
  | step _ _ _ e ih => exact (mcStep_inv ok hc.toIf _ ih e).1

/-- C91: in every state the driver reaches, no parameter of the orbital step of the macro-iteration exceeds
the step restriction, and when the approximate Hessian diagonal is positive and the gradient is not zero,
the energy goes down along the step: its derivative along `exp(-t K)` at the current orbitals is
negative. -/
theorem C91_step {env : McEnv X} {st : McSettings} {p : McInput} (ok : McOk p)
    (hc : RdmContract p.na env) {ci0 : X} {A1 A2 : Nat → ℝ}
    (den : DenSym p.na (asMat A1 p.na) (asTen A2 p.na)) {iter : Nat} {s : McState X}
    (reach : McReach env st p ci0 A1 A2 iter s) (hm : 0 < st.maxStep) {k : Nat → ℝ}
    (e : mcStepLin st p s = .ok k) :
    (∀ m < nRot p.ni p.na p.nv, |k m| ≤ st.maxStep) ∧
    ((∀ m < nRot p.ni p.na p.nv, 0 < approxDiagHessian p.ni p.na p.nv s.Fi p.no s.Fa p.no s.A1 p.ldd1 s.F
        p.no (fun _ => 0) m) →
      (∃ m < nRot p.ni p.na p.nv, s.OG m ≠ 0) →
      ∃ u d, Orthogonal p.no u ∧ s.E0 = mcEnergy p s.A1 s.A2 u ∧ d < 0 ∧
        HasDerivAt (fun t => mcEnergy p s.A1 s.A2 (fun i j => ∑ l ∈ range p.no, u i l *
          asMat (computeOrbitalRotation p.no t (linearOrbRotToMatrix p.ni p.na p.nv k (fun _ => 0) p.no)
            p.no (fun _ => 0) p.no) p.no l j)) d 0) :=
  step_of_inv ok (reach.inv ok hc den) hm e

/-- two orbitals, one of them active with one electron; the other has orbital energy `e` -/
noncomputable def mcIn (e : ℝ) : McInput :=
  ⟨1, 0, 0, 1, 1, 2, 0, fun a => if a = 1 ∨ a = 2 then 1 else if a = 3 then e else 0, 2, fun _ => 0, 2,
    1, 1⟩

/-- a CI solver for one electron in one active orbital -/
noncomputable def mcEnv : McEnv Unit :=
  ⟨fun Ta _ _ _ c => .ok (Ta 0, fun m => if m = 0 then 1 else 0, fun _ => 0, c), fun _ _ _ => 0⟩

theorem mcIn_ok (e : ℝ) : McOk (mcIn e) := by
  refine ⟨rfl, rfl, rfl, rfl, ⟨?_, fun _ _ _ _ _ _ _ _ => rfl, fun _ _ _ _ _ _ _ _ => rfl,
    fun _ _ _ _ _ _ _ _ => rfl⟩⟩
  intro p q hp hq
  have hp' : p = 0 ∨ p = 1 := by simp only [mcIn] at hp; omega
  have hq' : q = 0 ∨ q = 1 := by simp only [mcIn] at hq; omega
  rcases hp' with rfl | rfl <;> rcases hq' with rfl | rfl <;> simp [asMat, mcIn]

theorem mcDen (D2 : Nat → ℝ) (h : ∀ m, D2 m = 0) :
    DenSym 1 (asMat (fun m => if m = 0 then (1 : ℝ) else 0) 1) (asTen D2 1) := by
  refine ⟨?_, fun p q r s _ _ _ _ => by simp [asTen, h], fun p q r s _ _ _ _ => by simp [asTen, h]⟩
  intro p q hp hq
  obtain rfl : p = 0 := by omega
  obtain rfl : q = 0 := by omega
  rfl

theorem mcEnv_contract : RdmContract 1 mcEnv := by
  intro Ta Va A1 A2 c r _ _ _ e
  simp only [mcEnv, Out.ok.injEq] at e
  rw [← e]
  exact ⟨by simp [energy, asMat, asTen], mcDen _ (fun _ => rfl)⟩

theorem mcExInit (e : ℝ) (st : McSettings) :
    ∃ s, mcInit mcEnv st (mcIn e) () (fun m => if m = 0 then 1 else 0) (fun _ => 0) = .ok s ∧
      s.OG 0 = -2 ∧ s.conv = decide (2 < st.tol) ∧
      approxDiagHessian 0 1 1 s.Fi 2 s.Fa 2 s.A1 1 s.F 2 (fun _ => 0) 0 = 2 * e := by
  rw [mcInit]
  have : ¬ |(∑ i ∈ Finset.range (mcIn e).na, (fun m => if m = 0 then (1 : ℝ) else 0)
      (i * ((mcIn e).ldd1 + 1))) - (mcIn e).nalpha - (mcIn e).nbeta| > 1 / 1000000 := by
    norm_num [mcIn]
  simp only [if_neg this, Out.bind]
  refine ⟨_, rfl, ?_, ?_, ?_⟩
  · simp [mcGradient, mcIn, activeHamiltonian, activeSubtensor2body, activeSubmatrix1body,
      inactiveFockMatrix, activeFockMatrix, auxQMatrix, generalizedFockMatrix, fockToLinearOrbGrad,
      splitLinearOrbRot, packBlock, storeAll, memSet, pairsMN, pairs2, quads, gemm, List.range_succ]
  · simp [mcGradient, mcIn, activeHamiltonian, activeSubtensor2body, activeSubmatrix1body,
      inactiveFockMatrix, activeFockMatrix, auxQMatrix, generalizedFockMatrix, fockToLinearOrbGrad,
      splitLinearOrbRot, packBlock, storeAll, memSet, pairsMN, pairs2, quads, gemm, List.range_succ, nrmN]
  · simp [mcGradient, mcIn, activeHamiltonian, activeSubtensor2body, activeSubmatrix1body,
      inactiveFockMatrix, activeFockMatrix, auxQMatrix, generalizedFockMatrix, fockToLinearOrbGrad,
      splitLinearOrbRot, packBlock, storeAll, memSet, pairsMN, pairs2, quads, gemm, List.range_succ,
      approxDiagHessian]

/-- a run with one macro-iteration returns: the hypotheses of C88 and C89 are met after an orbital step -/
example : ∃ s, mcscf mcEnv ⟨1, 1 / 2, 1 / 100, true, 3, 10⟩ (mcIn 5) () (fun m => if m = 0 then 1 else 0)
    (fun _ => 0) = .ok s ∧ s.calls = 1 := by
  obtain ⟨s, e, h1, h2, h3⟩ := mcExInit 5 ⟨1, 1 / 2, 1 / 100, true, 3, 10⟩
  have hc : s.conv = false := by rw [h2]; norm_num
  have hcalls : s.calls = 0 := by
    have : ¬ |(∑ i ∈ Finset.range (mcIn 5).na, (fun m => if m = 0 then (1 : ℝ) else 0)
        (i * ((mcIn 5).ldd1 + 1))) - (mcIn 5).nalpha - (mcIn 5).nbeta| > 1 / 1000000 := by
      norm_num [mcIn]
    rw [mcInit] at e
    simp only [if_neg this, Out.bind, Out.ok.injEq] at e
    rw [← e]; rfl
  rw [mcscf, e, Out.bind, mcLoop, if_neg (by rw [hc]; simp), mcStep, mcStepLin, precondStep]
  have hz : ¬ ∃ q < (mcIn 5).nv * ((mcIn 5).na + (mcIn 5).ni) + (mcIn 5).na * (mcIn 5).ni,
      approxDiagHessian (mcIn 5).ni (mcIn 5).na (mcIn 5).nv s.Fi (mcIn 5).no s.Fa (mcIn 5).no s.A1
        (mcIn 5).ldd1 s.F (mcIn 5).no (fun _ => 0) q = 0 := by
    rintro ⟨q, hq, h⟩
    have : q = 0 := by simp [mcIn] at hq; exact hq
    rw [this] at h
    simp only [mcIn] at h
    rw [h3] at h
    norm_num at h
  have hsz : ¬ (mcIn 5).nv * ((mcIn 5).ni + (mcIn 5).na) + (mcIn 5).na * (mcIn 5).ni = 0 := by simp [mcIn]
  simp only [if_neg hz, Out.bind, if_neg hsz, mcDiis]
  simp only [show ¬ (true = true ∧ 3 ≤ 0) by simp, if_false, mcEnv, mcLoop]
  refine ⟨_, rfl, ?_⟩
  simp only [mcGradient, hcalls]

/-- a run that reports convergence without iterating -/
example : ∃ s, mcscf mcEnv ⟨1, 1 / 2, 3, true, 3, 10⟩ (mcIn 5) () (fun m => if m = 0 then 1 else 0)
    (fun _ => 0) = .ok s ∧ s.conv = true := by
  obtain ⟨s, e, h1, h2, h3⟩ := mcExInit 5 ⟨1, 1 / 2, 3, true, 3, 10⟩
  have hc : s.conv = true := by rw [h2]; norm_num
  exact ⟨s, by rw [mcscf, e, Out.bind, mcLoop, if_pos hc], hc⟩

/-- C92 (refuted): nothing in the driver makes sure that a step lowers the energy.  In the initial state
of this case the step follows the gradient uphill. -/
theorem C92_uphill_refuted :
    ¬ ∀ (st : McSettings) (p : McInput) (env : McEnv Unit) (A1 A2 : Nat → ℝ) (s : McState Unit)
        (k : Nat → ℝ), McOk p → RdmContract p.na env → DenSym p.na (asMat A1 p.na) (asTen A2 p.na) →
      0 < st.maxStep → mcInit env st p () A1 A2 = .ok s → mcStepLin st p s = .ok k →
      ∑ m ∈ range (nRot p.ni p.na p.nv), s.OG m * k m ≤ 0 := by
  intro h
  let st : McSettings := ⟨1, 1 / 2, 1 / 100, true, 3, 10⟩
  obtain ⟨s, e, h1, h2, h3⟩ := mcExInit (-5) st
  have hz : ¬ ∃ q < (mcIn (-5)).nv * ((mcIn (-5)).na + (mcIn (-5)).ni) + (mcIn (-5)).na * (mcIn (-5)).ni,
      approxDiagHessian (mcIn (-5)).ni (mcIn (-5)).na (mcIn (-5)).nv s.Fi (mcIn (-5)).no s.Fa
        (mcIn (-5)).no s.A1 (mcIn (-5)).ldd1 s.F (mcIn (-5)).no (fun _ => 0) q = 0 := by
    rintro ⟨q, hq, h⟩
    have : q = 0 := by simp [mcIn] at hq; exact hq
    rw [this] at h
    simp only [mcIn] at h
    rw [h3] at h
    norm_num at h
  have hsz : ¬ (mcIn (-5)).nv * ((mcIn (-5)).ni + (mcIn (-5)).na) + (mcIn (-5)).na * (mcIn (-5)).ni = 0 := by
    simp [mcIn]
  have hk : mcStepLin st (mcIn (-5)) s = .ok fun q => if q < 1 then -s.OG q / approxDiagHessian 0 1 1 s.Fi 2
      s.Fa 2 s.A1 1 s.F 2 (fun _ => 0) q else 0 := by
    rw [mcStepLin, precondStep]
    simp only [if_neg hz, Out.bind, if_neg hsz]
    have : (mcIn (-5)).nv * ((mcIn (-5)).ni + (mcIn (-5)).na) + (mcIn (-5)).na * (mcIn (-5)).ni = 1 := rfl
    rw [this, if_neg]
    · rfl
    · have v : -s.OG 0 / approxDiagHessian 0 1 1 s.Fi 2 s.Fa 2 s.A1 1 s.F 2 (fun _ => 0) 0 = -(1 / 5) := by
        rw [h1, h3]; norm_num
      have : amaxN 1 (fun q => if q < 1 then -s.OG q / approxDiagHessian 0 1 1 s.Fi 2
          s.Fa 2 s.A1 1 s.F 2 (fun _ => 0) q else 0) = 1 / 5 := by
        simp only [amaxN, List.range_succ, List.range_zero, List.nil_append, List.foldl_cons,
          List.foldl_nil, Nat.lt_irrefl, Nat.zero_lt_one, if_true, v]
        norm_num
      have hmx : st.maxStep = 1 / 2 := rfl
      rw [hmx]
      refine not_lt.mpr (le_of_eq_of_le (this : _) (by norm_num))
  have := h st (mcIn (-5)) mcEnv _ _ s _ (mcIn_ok _) mcEnv_contract (mcDen _ (fun _ => rfl)) (by norm_num [st])
    e hk
  have hn : nRot (mcIn (-5)).ni (mcIn (-5)).na (mcIn (-5)).nv = 1 := rfl
  rw [hn, Finset.sum_range_one, if_pos (by omega), h1, h3] at this
  norm_num at this

/-- two active orbitals of different energy, one electron in each, RDM arrays with leading dimension 3 -/
noncomputable def padIn : McInput :=
  ⟨1, 1, 0, 2, 0, 2, 0, fun a => if a = 3 then 1 else 0, 2, fun _ => 0, 2, 3, 3⟩

/-- C93 (refuted): with padded RDM arrays the energy is not the energy of the RDMs in them. -/
theorem C93_padded_rdm_refuted :
    ¬ ∀ (st : McSettings) (p : McInput) (env : McEnv Unit) (A1 A2 : Nat → ℝ) (s : McState Unit),
      p.no = p.ni + p.na + p.nv → p.ldv = p.no → p.na ≤ p.ldd1 → p.na ≤ p.ldd2 →
      IntSym p.no (asMat p.T p.ldt) (asTen p.V p.no) → DenSym p.na (asMat A1 p.ldd1) (asTen A2 p.ldd2) →
      mcInit env st p () A1 A2 = .ok s → s.calls = 0 →
      s.E0 = p.eCore + energy p.no (asMat p.T p.ldt) (asTen p.V p.no) (full1 p.ni p.na (asMat A1 p.ldd1))
        (full2 p.ni p.na (asMat A1 p.ldd1) (asTen A2 p.ldd2)) := by
  intro h
  let st : McSettings := ⟨1, 1 / 2, 1 / 100, true, 3, 10⟩
  let A1 : Nat → ℝ := fun m => if m = 0 ∨ m = 4 then 1 else 0
  have tr : ¬ |(∑ i ∈ Finset.range padIn.na, A1 (i * (padIn.ldd1 + 1))) - padIn.nalpha - padIn.nbeta| >
      1 / 1000000 := by
    have e : (∑ i ∈ Finset.range padIn.na, A1 (i * (padIn.ldd1 + 1))) = 2 := by
      show ∑ i ∈ Finset.range 2, A1 (i * 4) = 2
      rw [Finset.sum_range_succ, Finset.sum_range_one]
      show (if 0 * 4 = 0 ∨ 0 * 4 = 4 then (1 : ℝ) else 0) + (if 1 * 4 = 0 ∨ 1 * 4 = 4 then 1 else 0) = 2
      norm_num
    rw [e]
    norm_num [padIn]
  have init : ∃ s, mcInit mcEnv st padIn () A1 (fun _ => 0) = .ok s ∧ s.calls = 0 ∧ s.E0 = 0 := by
    rw [mcInit]
    simp only [if_neg tr, Out.bind]
    refine ⟨_, rfl, rfl, ?_⟩
    simp [mcGradient, padIn, dotN, inactiveEnergy, activeHamiltonian, activeSubmatrix1body, A1,
      inactiveFockMatrix, storeAll, memSet, pairs2, List.range_succ, Finset.sum_range_succ]
  obtain ⟨s, e, hcalls, hE⟩ := init
  have hs : IntSym 2 (asMat padIn.T 2) (asTen padIn.V 2) := by
    refine ⟨?_, fun _ _ _ _ _ _ _ _ => rfl, fun _ _ _ _ _ _ _ _ => rfl, fun _ _ _ _ _ _ _ _ => rfl⟩
    intro p q hp hq
    have hp' : p = 0 ∨ p = 1 := by omega
    have hq' : q = 0 ∨ q = 1 := by omega
    rcases hp' with rfl | rfl <;> rcases hq' with rfl | rfl <;> simp [asMat, padIn]
  have hd : DenSym 2 (asMat A1 3) (asTen (fun _ => (0 : ℝ)) 3) := by
    refine ⟨?_, fun _ _ _ _ _ _ _ _ => rfl, fun _ _ _ _ _ _ _ _ => rfl⟩
    intro p q hp hq
    have hp' : p = 0 ∨ p = 1 := by omega
    have hq' : q = 0 ∨ q = 1 := by omega
    rcases hp' with rfl | rfl <;> rcases hq' with rfl | rfl <;> simp [asMat, A1]
  have := h st padIn mcEnv A1 (fun _ => 0) s rfl rfl (by simp [padIn]) (by simp [padIn]) hs hd e hcalls
  rw [hE] at this
  simp [padIn, energy, full1, full2, core1, act1, act2, asMat, asTen, A1, Finset.sum_range_succ] at this

end Macis
