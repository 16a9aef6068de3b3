import Verif.Model.OrbGrad
/-
Model of the finite-difference routines of src/macis/orbital_gradient.cxx.
-/
namespace Macis

/-- The work arrays `F`, `T_trans`, `V_trans`, `U` shared by all energy evaluations of one call
(orbital_gradient.cxx:130-131, 172-173). -/
structure NumWork where
  F : Nat → ℝ
  Tt : Nat → ℝ
  Vt : Nat → ℝ
  U : Nat → ℝ

/-- One energy evaluation: `compute_orbital_rotation(_norb, alpha, K, norb, U, norb)` followed by the
lambda `energy` (orbital_gradient.cxx:133-137, 146-147).  The work arrays keep what the previous
evaluation left. -/
noncomputable def numEnergy (no ni na : Nat) (T : Nat → ℝ) (ldt : Nat) (V : Nat → ℝ) (ldv : Nat)
    (D1 : Nat → ℝ) (ldd1 : Nat) (D2 : Nat → ℝ) (ldd2 : Nat) (alpha : ℝ) (K : Nat → ℝ) (w : NumWork) :
    ℝ × NumWork :=
  let U := computeOrbitalRotation no alpha K no w.U no
  let (Tt, Vt, F) := orbitalRotatedGeneralizedFock no ni na T ldt V ldv D1 ldd1 D2 ldd2 U no w.Tt no w.Vt no
    w.F no
  (energyFromGeneralizedFock ni na Tt no D1 ldd1 F no, ⟨F, Tt, Vt, U⟩)

/-- `fill(K, 0); K[a + i * norb] = dk; K[i + a * norb] = -dk` (orbital_gradient.cxx:142-144, 186-191). -/
def planeRot (no a i : Nat) (dk : ℝ) : Nat → ℝ :=
  memSet (memSet (fun _ => 0) (a + i * no) dk) (i + a * no) (-dk)

/-- The loop indices `i < a` of `numerical_orbital_gradient` (orbital_gradient.cxx:140-141). -/
def gradPairs (no : Nat) : List (Nat × Nat) :=
  (List.range no).flatMap fun i => ((List.range no).filter fun a => i < a).map fun a => (i, a)

/-- Loop body of `numerical_orbital_gradient` (orbital_gradient.cxx:142-159): `OG[a + i * norb]`, whatever
the leading dimension `LDOG` that was passed. -/
noncomputable def numGradStep (no ni na : Nat) (T : Nat → ℝ) (ldt : Nat) (V : Nat → ℝ) (ldv : Nat)
    (D1 : Nat → ℝ) (ldd1 : Nat) (D2 : Nat → ℝ) (ldd2 : Nat) (dk : ℝ) (st : (Nat → ℝ) × NumWork)
    (x : Nat × Nat) : (Nat → ℝ) × NumWork :=
  let (i, a) := x
  let K := planeRot no a i dk
  let e := numEnergy no ni na T ldt V ldv D1 ldd1 D2 ldd2
  let (Ep2, w) := e 2 K st.2
  let (Ep1, w) := e 1 K w
  let (Em1, w) := e (-1) K w
  let (Em2, w) := e (-2) K w
  (memSet st.1 (a + i * no) ((Em2 - Ep2 + 8 * (Ep1 - Em1)) / (12 * dk)), w)

/-- `numerical_orbital_gradient` (orbital_gradient.cxx:120-161): the array `OG` afterwards.  The step
`dk = 0.001` is a parameter of the model; the vectors start out zero. -/
noncomputable def numericalOrbitalGradient (no ni na : Nat) (T : Nat → ℝ) (ldt : Nat) (V : Nat → ℝ)
    (ldv : Nat) (D1 : Nat → ℝ) (ldd1 : Nat) (D2 : Nat → ℝ) (ldd2 : Nat) (OG : Nat → ℝ) (_ldog : Nat)
    (dk : ℝ) : Nat → ℝ :=
  ((gradPairs no).foldl (numGradStep no ni na T ldt V ldv D1 ldd1 D2 ldd2 dk)
    (OG, ⟨fun _ => 0, fun _ => 0, fun _ => 0, fun _ => 0⟩)).1

/-- The loop indices of `numerical_orbital_hessian` (orbital_gradient.cxx:182-185); `b` starts at `i + 1`. -/
def hessQuads (no : Nat) : List (Nat × Nat × Nat × Nat) :=
  (List.range no).flatMap fun i => ((List.range no).filter fun a => i < a).flatMap fun a =>
    (List.range no).flatMap fun j => ((List.range no).filter fun b => i < b).map fun b => (i, a, j, b)

/-- The order in which the sixteen energies are computed (orbital_gradient.cxx:193-287), as multiples of
`Kx` and `Ky`. -/
def hessPoints : List (Int × Int) :=
  [(1, 1), (2, 1), (1, 2), (2, 2), (1, -1), (2, -1), (1, -2), (2, -2),
   (-1, 1), (-2, 1), (-1, 2), (-2, 2), (-1, -1), (-2, -1), (-1, -2), (-2, -2)]

/-- The sixteen evaluations, each with `K[p] = sx * Kx[p] + sy * Ky[p]` and `alpha = 1`
(orbital_gradient.cxx:193-287). -/
noncomputable def hessEnergies (no ni na : Nat) (T : Nat → ℝ) (ldt : Nat) (V : Nat → ℝ) (ldv : Nat)
    (D1 : Nat → ℝ) (ldd1 : Nat) (D2 : Nat → ℝ) (ldd2 : Nat) (Kx Ky : Nat → ℝ) :
    List (Int × Int) → NumWork → List ((Int × Int) × ℝ) × NumWork
  | [], w => ([], w)
  | s :: ss, w =>
    let (E, w) := numEnergy no ni na T ldt V ldv D1 ldd1 D2 ldd2 1
      (fun p => s.1 * Kx p + s.2 * Ky p) w
    let (l, w) := hessEnergies no ni na T ldt V ldv D1 ldd1 D2 ldd2 Kx Ky ss w
    ((s, E) :: l, w)

/-- `e[p][q]` of the table `{e_p2, e_p1, e_m1, e_m2}` (orbital_gradient.cxx:294-302). -/
def hessLookup (es : List ((Int × Int) × ℝ)) (s : Int × Int) : ℝ :=
  ((es.find? fun x => x.1 == s).map (·.2)).getD 0

/-- the weights `c` with the displacement each row or column of `e` stands for
(orbital_gradient.cxx:293-302) -/
def hessWeights : List (Int × Int) := [(2, -1), (1, 8), (-1, -8), (-2, 1)]

/-- Loop body of `numerical_orbital_hessian` (orbital_gradient.cxx:186-310). -/
noncomputable def numHessStep (no ni na : Nat) (T : Nat → ℝ) (ldt : Nat) (V : Nat → ℝ) (ldv : Nat)
    (D1 : Nat → ℝ) (ldd1 : Nat) (D2 : Nat → ℝ) (ldd2 : Nat) (ldoh : Nat) (dk : ℝ)
    (st : (Nat → ℝ) × NumWork) (x : Nat × Nat × Nat × Nat) : (Nat → ℝ) × NumWork :=
  let (i, a, j, b) := x
  let (es, w) := hessEnergies no ni na T ldt V ldv D1 ldd1 D2 ldd2 (planeRot no a i dk) (planeRot no b j dk)
    hessPoints st.2
  let tmp := (hessWeights.flatMap fun p => hessWeights.map fun q =>
    (p.2 : ℝ) * (q.2 : ℝ) * hessLookup es (p.1, q.1)).sum
  (memSet st.1 (a + i * ldoh + b * ldoh * ldoh + j * ldoh * ldoh * ldoh) (tmp / (144 * dk * dk)), w)

/-- `numerical_orbital_hessian` (orbital_gradient.cxx:163-312): the array `OH` afterwards. -/
noncomputable def numericalOrbitalHessian (no ni na : Nat) (T : Nat → ℝ) (ldt : Nat) (V : Nat → ℝ)
    (ldv : Nat) (D1 : Nat → ℝ) (ldd1 : Nat) (D2 : Nat → ℝ) (ldd2 : Nat) (OH : Nat → ℝ) (ldoh : Nat)
    (dk : ℝ) : Nat → ℝ :=
  ((hessQuads no).foldl (numHessStep no ni na T ldt V ldv D1 ldd1 D2 ldd2 ldoh dk)
    (OH, ⟨fun _ => 0, fun _ => 0, fun _ => 0, fun _ => 0⟩)).1

end Macis
