import Verif.Lemmas.Davidson
import Verif.Lemmas.Dist
import Mathlib.Tactic.Positivity
import Mathlib.Analysis.Matrix.Spectrum
/-! Properties C33, C50, C71-C75: the Davidson eigensolver and its initial guess
(`solvers/davidson.hpp`, `solvers/selected_ci_diag.hpp`). -/
namespace Macis
open Spec Finset

/-! ### C50 -/
section serial
variable {ι : Type} [Fintype ι] [DecidableEq ι]

/-- C50: in exact arithmetic `gram_schmidt` against orthonormal vectors gives a unit vector
orthogonal to all of them, a non-zero multiple of the new direction minus its projection (so the span
is that of the old vectors and the new direction). -/
theorem C50_gram_schmidt {k : Nat} {V : Nat → ι → ℝ} (hV : OrthonormalCols k V) {w w' : ι → ℝ}
    (h : gramSchmidt k V w = some w') :
    (∀ p < k, ∑ t, V p t * w' t = 0) ∧ (∑ t, w' t * w' t) = 1 ∧
    ∃ a : ℝ, a ≠ 0 ∧ ∃ b : Nat → ℝ, ∀ t, w' t = a * (w t - ∑ j ∈ range k, V j t * b j) := by
  obtain ⟨h1, h2, a, ha, h3⟩ := gramSchmidt_some hV h
  exact ⟨h1, h2, a, ha, fun j => vdot (V j) w, fun t => congrFun h3 t⟩

/-- C50: it breaks down (division by a zero norm) exactly when the new direction is a combination of
the old vectors. -/
theorem C50_gram_schmidt_breakdown {k : Nat} {V : Nat → ι → ℝ} (hV : OrthonormalCols k V) {w : ι → ℝ} :
    gramSchmidt k V w = none ↔ ∃ b : Nat → ℝ, ∀ t, w t = ∑ j ∈ range k, V j t * b j := by
  rw [gramSchmidt_none hV]
  constructor
  · intro h; exact ⟨fun j => vdot (V j) w, h⟩
  · rintro ⟨b, hb⟩ t
    have hw : w = combine k V b := funext hb
    have : ∀ j < k, vdot (V j) w = b j := by
      intro j hj
      rw [hw, vdot_combine_right, Finset.sum_congr rfl (g := fun q => if j = q then b q else 0)]
      · rw [Finset.sum_ite_eq, if_pos (Finset.mem_range.2 hj)]
      · intro q hq
        have := hV j hj q (Finset.mem_range.1 hq)
        change vdot _ _ = _ at this
        rw [this]; split <;> simp
    rw [hb t]
    unfold combine
    exact Finset.sum_congr rfl fun j hj => by dsimp only; rw [this j (Finset.mem_range.1 hj)]

theorem davLoop_spec {A : Matrix ι ι ℝ} (hA : A.IsSymm) (D : ι → ℝ) (tol : ℝ)
    {eig : Nat → (Nat → Nat → ℝ) → ℝ × (Nat → ℝ)} (he : LowestPair eig) :
    ∀ (n i : Nat) (V AV : Nat → ι → ℝ), OrthonormalCols (i + 1) V → (∀ j < i, AV j = A.mulVec (V j)) →
    davLoop A.mulVec D tol eig n i V AV ≠ .ub ∧
    ∀ iter lam x, davLoop A.mulVec D tol eig n i V AV = .converged iter lam x →
      i ≤ iter ∧ iter < i + n ∧ vdot x x = 1 ∧ nrm2 (fun t => A.mulVec x t - lam * x t) < tol ∧
      vdot x (A.mulVec x) = lam ∧ lam ≤ vdot (V 0) (A.mulVec (V 0)) := by
  intro n
  induction n with
  | zero => intro i V AV _ _; exact ⟨by simp [davLoop], fun _ _ _ h => by cases h⟩
  | succ n ih =>
    intro i V AV hV hAV
    have hAV' : ∀ j < i + 1, Function.update AV i (A.mulVec (V i)) j = A.mulVec (V j) := by
      intro j hj
      rcases Nat.lt_succ_iff_lt_or_eq.1 hj with hj | rfl
      · rw [Function.update_of_ne hj.ne, hAV j hj]
      · rw [Function.update_self]
    obtain ⟨r1, r2, r3, r4⟩ := ritz_facts hA he (Nat.succ_pos i) hV hAV'
    have h0 : (eig (i + 1) fun p q => vdot (V p) (Function.update AV i (A.mulVec (V i)) q)).1
        ≤ vdot (V 0) (A.mulVec (V 0)) := by
      have := r4 (fun j => if j = 0 then 1 else 0)
      have hc : combine (i + 1) V (fun j => if j = 0 then 1 else 0) = V 0 := by
        funext t
        unfold combine
        simp
      rw [hc] at this
      have h00 := hV 0 (by omega) 0 (by omega)
      change vdot (V 0) (V 0) = _ at h00
      rw [h00, if_pos rfl, mul_one] at this
      exact this
    unfold davLoop
    dsimp only
    rw [r2]
    split_ifs with c1 c2 c3
    · refine ⟨by simp, ?_⟩
      intro iter lam x h
      cases h
      exact ⟨le_rfl, by omega, r1, c1, r3, h0⟩
    · exact ⟨by simp, fun _ _ _ h => by cases h⟩
    · exact ⟨by simp, fun _ _ _ h => by cases h⟩
    · split
      · exact ⟨by simp, fun _ _ _ h => by cases h⟩
      · rename_i w hw
        obtain ⟨g1, g2, -⟩ := gramSchmidt_some hV hw
        have hV' := orthonormal_update hV g1 g2
        have hAV2 : ∀ j < i + 1, Function.update AV i (A.mulVec (V i)) j
            = A.mulVec (Function.update V (i + 1) w j) := by
          intro j hj
          rw [hAV' j hj, Function.update_of_ne (by omega)]
        obtain ⟨i0, i1⟩ := ih (i + 1) (Function.update V (i + 1) w) _ hV' hAV2
        refine ⟨i0, fun iter lam x h => ?_⟩
        obtain ⟨j1, j2, j3, j4, j5, j6⟩ := i1 iter lam x h
        rw [Function.update_of_ne (by omega)] at j6
        exact ⟨by omega, by omega, j3, j4, j5, j6⟩

/-- A normalised vector with small residual is close to an eigenvalue. -/
theorem eigenvalue_near {A : Matrix ι ι ℝ} (hA : A.IsSymm) {x : ι → ℝ} (hx : vdot x x = 1) {lam tol : ℝ}
    (hr : nrm2 (fun t => A.mulVec x t - lam * x t) < tol) :
    ∃ (mu : ℝ) (y : ι → ℝ), y ≠ 0 ∧ A.mulVec y = mu • y ∧ |mu - lam| < tol := by
  obtain ⟨mu, b, h1, h2, h3⟩ := spectral hA
  by_contra hcon
  push Not at hcon
  have hev : ∀ i, tol ≤ |mu i - lam| := by
    intro i
    refine hcon (mu i) (b i) ?_ (h1 i)
    intro h
    have := h2 i
    rw [h] at this
    simp [vdot] at this
  have htol : 0 < tol := lt_of_le_of_lt (Real.sqrt_nonneg _) hr
  have hcoef : ∀ i, vdot (b i) (fun t => A.mulVec x t - lam * x t) = (mu i - lam) * vdot (b i) x := by
    intro i
    rw [vdot_sub_right, vdot_smul_right, vdot_mulVec_symm hA, h1 i, vdot_comm, vdot_pismul_left, sub_mul]
  have hge : tol ^ 2 ≤ vdot (fun t => A.mulVec x t - lam * x t) (fun t => A.mulVec x t - lam * x t) := by
    rw [h3]
    calc tol ^ 2 = ∑ i, tol ^ 2 * (vdot (b i) x * vdot (b i) x) := by
          rw [← Finset.mul_sum, ← h3 x, hx, mul_one]
      _ ≤ _ := by
          apply Finset.sum_le_sum
          intro i _
          rw [hcoef i]
          have e : (mu i - lam) * vdot (b i) x * ((mu i - lam) * vdot (b i) x)
              = |mu i - lam| ^ 2 * (vdot (b i) x * vdot (b i) x) := by rw [sq_abs]; ring
          rw [e]
          exact mul_le_mul_of_nonneg_right (pow_le_pow_left₀ htol.le (hev i) 2) (mul_self_nonneg _)
  have : tol ≤ nrm2 (fun t => A.mulVec x t - lam * x t) := Real.le_sqrt_of_sq_le hge
  linarith

/-- An exact diagonaliser exists, so the hypothesis on `eig` can be met. -/
theorem exists_lowestPair : ∃ eig, LowestPair eig := by
  have key : ∀ (k : Nat) (M : Nat → Nat → ℝ), 0 < k → ∃ r : ℝ × (Nat → ℝ),
      (∑ p ∈ range k, r.2 p * r.2 p) = 1 ∧
      (∀ p < k, ∑ q ∈ range k, (if q ≤ p then M p q else M q p) * r.2 q = r.1 * r.2 p) ∧
      ∀ d : Nat → ℝ, r.1 * (∑ p ∈ range k, d p * d p)
        ≤ ∑ p ∈ range k, ∑ q ∈ range k, d p * ((if q ≤ p then M p q else M q p) * d q) := by
    intro k M hk
    let S : Matrix (Fin k) (Fin k) ℝ := fun p q => if q.1 ≤ p.1 then M p q else M q p
    have hS : S.IsSymm := by
      ext p q
      change (if p.1 ≤ q.1 then M q p else M p q) = if q.1 ≤ p.1 then M p q else M q p
      rcases lt_trichotomy p.1 q.1 with h | h | h
      · rw [if_pos h.le, if_neg (by omega)]
      · rw [if_pos h.le, if_pos h.ge, Fin.ext h]
      · rw [if_neg (by omega), if_pos h.le]
    obtain ⟨mu, b, h1, h2, h3⟩ := spectral hS
    have : Nonempty (Fin k) := ⟨⟨0, hk⟩⟩
    obtain ⟨i0, hi0⟩ := Finite.exists_min mu
    refine ⟨(mu i0, fun p => if h : p < k then b i0 ⟨p, h⟩ else 0), ?_, ?_, ?_⟩
    · dsimp only
      rw [Finset.sum_range (fun p => (if h : p < k then b i0 ⟨p, h⟩ else 0) * (if h : p < k then b i0 ⟨p, h⟩ else 0))]
      have := h2 i0
      unfold vdot at this
      simpa using this
    · intro p hp
      dsimp only
      rw [Finset.sum_range (fun q => (if q ≤ p then M p q else M q p) * (if h : q < k then b i0 ⟨q, h⟩ else 0))]
      have := congrFun (h1 i0) ⟨p, hp⟩
      simp only [Matrix.mulVec, dotProduct, Pi.smul_apply, smul_eq_mul] at this
      rw [dif_pos hp, ← this]
      apply Finset.sum_congr rfl
      intro q _
      rw [dif_pos q.2]
    · intro d
      dsimp only
      have hq : ∑ p ∈ range k, ∑ q ∈ range k, d p * ((if q ≤ p then M p q else M q p) * d q)
          = vdot (fun t : Fin k => d t) (S.mulVec fun t => d t) := by
        rw [Finset.sum_range (fun p => ∑ q ∈ range k, d p * ((if q ≤ p then M p q else M q p) * d q))]
        unfold vdot Matrix.mulVec dotProduct
        apply Finset.sum_congr rfl
        intro p _
        rw [Finset.sum_range (fun q => d p * ((if q ≤ p.1 then M p q else M q p) * d q)), Finset.mul_sum]
      have hd : ∑ p ∈ range k, d p * d p = vdot (fun t : Fin k => d t) (fun t : Fin k => d t) := by
        rw [Finset.sum_range (fun p => d p * d p)]; rfl
      rw [hq, hd, h3, h3, Finset.mul_sum]
      apply Finset.sum_le_sum
      intro i _
      rw [vdot_mulVec_symm hS, h1 i, vdot_comm _ (mu i • b i), vdot_pismul_left]
      nlinarith [hi0 i, mul_self_nonneg (vdot (b i) fun t : Fin k => d t)]
  choose! eig h using key
  exact ⟨eig, fun k M hk => h k M hk⟩

/-- C50: the solver, given a symmetric operator, a normalised guess and any subspace limit, either
throws, breaks down on a division by zero, or returns after at most `min(max_m, N) - 1` iterations a
normalised vector whose residual is below the tolerance.  The returned number is the Rayleigh
quotient of that vector, is not above that of the guess nor below the bottom of the spectrum, and
lies within the tolerance of an eigenvalue. -/
theorem C50_davidson {N : Nat} {A : Matrix (Fin N) (Fin N) ℝ} (hA : A.IsSymm) (D : Fin N → ℝ) (tol : ℝ)
    {eig : Nat → (Nat → Nat → ℝ) → ℝ × (Nat → ℝ)} (he : LowestPair eig) (maxM : Nat) (guess : Fin N → ℝ)
    (hg : (∑ t, guess t * guess t) = 1) (iter : Nat) (lam : ℝ) (x : Fin N → ℝ)
    (h : davidson A.mulVec D tol eig maxM guess = .converged iter lam x) :
    1 ≤ iter ∧ iter ≤ min maxM N - 1 ∧ (∑ t, x t * x t) = 1 ∧
    Real.sqrt (∑ t, (A.mulVec x t - lam * x t) * (A.mulVec x t - lam * x t)) < tol ∧
    lam = ∑ t, x t * A.mulVec x t ∧
    lam ≤ ∑ t, guess t * A.mulVec guess t ∧
    (∀ m : ℝ, (∀ y : Fin N → ℝ, m * ∑ t, y t * y t ≤ ∑ t, y t * A.mulVec y t) → m ≤ lam) ∧
    ∃ (mu : ℝ) (y : Fin N → ℝ), y ≠ 0 ∧ A.mulVec y = mu • y ∧ |mu - lam| < tol := by
  unfold davidson davidsonRun at h
  split_ifs at h with c1 c2
  dsimp only at h
  have hV1 : OrthonormalCols 1 (fun _ => guess : Nat → Fin N → ℝ) := by
    intro p hp q hq
    rw [if_pos (by omega)]
    exact hg
  split at h
  · cases h
  · rename_i w hw
    obtain ⟨g1, g2, -⟩ := gramSchmidt_some hV1 hw
    have hV' := orthonormal_update hV1 g1 g2
    obtain ⟨-, j⟩ := davLoop_spec hA D tol he (min maxM N - 1) 1 _ (fun _ => A.mulVec guess) hV'
      (by intro j hj; rw [Function.update_of_ne (by omega)])
    obtain ⟨j1, j2, j3, j4, j5, j6⟩ := j iter lam x h
    rw [Function.update_of_ne (by omega)] at j6
    refine ⟨j1, by omega, j3, j4, j5.symm, j6, ?_, eigenvalue_near hA j3 j4⟩
    intro m hm
    have h2 : m * vdot x x ≤ vdot x (A.mulVec x) := hm x
    rw [j3, j5, mul_one] at h2
    exact h2

omit [DecidableEq ι] in
/-- as many orthonormal vectors as dimensions span everything -/
theorem zero_of_orth_full {V : Nat → ι → ℝ} (hV : OrthonormalCols (Fintype.card ι) V) {r : ι → ℝ}
    (h : ∀ p < Fintype.card ι, vdot (V p) r = 0) : r = 0 := by
  classical
  let e : Fin (Fintype.card ι) ≃ ι := (Fintype.equivFin ι).symm
  let U : Matrix (Fin (Fintype.card ι)) (Fin (Fintype.card ι)) ℝ := fun p q => V p (e q)
  have hU : U * U.transpose = 1 := by
    ext p q
    rw [Matrix.mul_apply, Matrix.one_apply]
    have := hV p p.2 q q.2
    rw [← Equiv.sum_comp e] at this
    change (∑ t, V p (e t) * V q (e t)) = _
    rw [this]
    simp [Fin.ext_iff]
  have hU' : U.transpose * U = 1 := mul_eq_one_comm.1 hU
  have h0 : U.mulVec (r ∘ e) = 0 := by
    funext p
    have := h p p.2
    unfold vdot at this
    rw [← Equiv.sum_comp e] at this
    exact this
  have : r ∘ e = 0 := by
    calc r ∘ e = (1 : Matrix _ _ ℝ).mulVec (r ∘ e) := (Matrix.one_mulVec _).symm
      _ = 0 := by rw [← hU', ← Matrix.mulVec_mulVec, h0, Matrix.mulVec_zero]
  funext t
  have := congrFun this (e.symm t)
  simpa using this

theorem davLoop_complete {A : Matrix ι ι ℝ} (hA : A.IsSymm) (D : ι → ℝ) {tol : ℝ} (htol : 0 < tol)
    {eig : Nat → (Nat → Nat → ℝ) → ℝ × (Nat → ℝ)} (he : LowestPair eig) :
    ∀ (n i : Nat) (V AV : Nat → ι → ℝ), OrthonormalCols (i + 1) V → (∀ j < i, AV j = A.mulVec (V j)) →
    0 < n → i + n = Fintype.card ι →
    davLoop A.mulVec D tol eig n i V AV ≠ .notConverged ∧
    (n = 1 → davLoop A.mulVec D tol eig n i V AV ≠ .breakdown) := by
  intro n
  induction n with
  | zero => intro i V AV _ _ h0; omega
  | succ n ih =>
    intro i V AV hV hAV _ hcard
    have hAV' : ∀ j < i + 1, Function.update AV i (A.mulVec (V i)) j = A.mulVec (V j) := by
      intro j hj
      rcases Nat.lt_succ_iff_lt_or_eq.1 hj with hj | rfl
      · rw [Function.update_of_ne hj.ne, hAV j hj]
      · rw [Function.update_self]
    obtain ⟨r1, r2, r3, r4⟩ := ritz_facts hA he (Nat.succ_pos i) hV hAV'
    unfold davLoop
    dsimp only
    split_ifs with c1 c2 c3
    · exact ⟨by simp, by simp⟩
    · exfalso
      apply c1
      have hz : (fun t => combine (i + 1) (Function.update AV i (A.mulVec (V i)))
          (eig (i + 1) fun p q => vdot (V p) (Function.update AV i (A.mulVec (V i)) q)).2 t
          - (eig (i + 1) fun p q => vdot (V p) (Function.update AV i (A.mulVec (V i)) q)).1
            * combine (i + 1) V (eig (i + 1) fun p q => vdot (V p) (Function.update AV i (A.mulVec (V i)) q)).2 t)
          = 0 := by
        have hc : i + 1 = Fintype.card ι := by omega
        apply zero_of_orth_full (V := V) (by rw [← hc]; exact hV)
        intro p hp
        rw [← hc] at hp
        rw [vdot_sub_right, vdot_smul_right, vdot_combine_right, vdot_combine_right]
        obtain ⟨-, e2, -⟩ := he (i + 1) (fun p q => vdot (V p) (Function.update AV i (A.mulVec (V i)) q)) (Nat.succ_pos i)
        have e2' := e2 p hp
        dsimp only at e2'
        have hsum : ∑ j ∈ range (i + 1), vdot (V p) (V j) *
            (eig (i + 1) fun p q => vdot (V p) (Function.update AV i (A.mulVec (V i)) q)).2 j
            = (eig (i + 1) fun p q => vdot (V p) (Function.update AV i (A.mulVec (V i)) q)).2 p := by
          rw [Finset.sum_congr rfl (g := fun j => if p = j then
            (eig (i + 1) fun p q => vdot (V p) (Function.update AV i (A.mulVec (V i)) q)).2 j else 0)]
          · rw [Finset.sum_ite_eq, if_pos (Finset.mem_range.2 hp)]
          · intro j hj
            have := hV p hp j (Finset.mem_range.1 hj)
            change vdot (V p) (V j) = _ at this
            rw [this]; split <;> simp
        rw [hsum, ← e2', sub_eq_zero]
        apply Finset.sum_congr rfl
        intro q hq
        congr 1
        split
        · rfl
        · rw [hAV' p hp, hAV' q (Finset.mem_range.1 hq), vdot_mulVec_symm hA]
      rw [hz]
      have : nrm2 (0 : ι → ℝ) = 0 := by simp [nrm2, vdot]
      rw [this]; exact htol
    · exact ⟨by simp, fun h => absurd (by omega) c2⟩
    · split
      · exact ⟨by simp, fun h => absurd (by omega) c2⟩
      · rename_i w hw
        obtain ⟨g1, g2, -⟩ := gramSchmidt_some hV hw
        have hV' := orthonormal_update hV g1 g2
        have hAV2 : ∀ j < i + 1, Function.update AV i (A.mulVec (V i)) j
            = A.mulVec (Function.update V (i + 1) w j) := by
          intro j hj
          rw [hAV' j hj, Function.update_of_ne (by omega)]
        exact ⟨(ih (i + 1) _ _ hV' hAV2 (by omega) (by omega)).1, fun h => absurd (by omega) c2⟩

/-- C50: with a subspace limit of at least the dimension (and dimension at least two) the solver
never gives up: it converges unless a division by zero intervenes. -/
theorem C50_complete {N : Nat} {A : Matrix (Fin N) (Fin N) ℝ} (hA : A.IsSymm) (D : Fin N → ℝ) {tol : ℝ}
    (htol : 0 < tol) {eig : Nat → (Nat → Nat → ℝ) → ℝ × (Nat → ℝ)} (he : LowestPair eig) (maxM : Nat)
    (guess : Fin N → ℝ) (hg : (∑ t, guess t * guess t) = 1) (hN : 2 ≤ N) (hM : N ≤ maxM) :
    davidson A.mulVec D tol eig maxM guess = .breakdown ∨
    ∃ iter lam x, davidson A.mulVec D tol eig maxM guess = .converged iter lam x := by
  have hV1 : OrthonormalCols 1 (fun _ => guess : Nat → Fin N → ℝ) := by
    intro p hp q hq
    rw [if_pos (by omega)]
    exact hg
  unfold davidson davidsonRun
  rw [if_neg (by omega), if_neg (by omega)]
  dsimp only
  split
  · left; rfl
  · rename_i w hw
    obtain ⟨g1, g2, -⟩ := gramSchmidt_some hV1 hw
    have hV' := orthonormal_update hV1 g1 g2
    have hAV : ∀ j < 1, (fun _ => A.mulVec guess : Nat → Fin N → ℝ) j
        = A.mulVec (Function.update (fun _ => guess) 1 w j) := by
      intro j hj; rw [Function.update_of_ne (by omega)]
    have h1 := (davLoop_complete hA D htol he (min maxM N - 1) 1 _ _ hV' hAV (by omega)
      (by rw [Fintype.card_fin]; omega)).1
    have h2 := (davLoop_spec hA D tol he (min maxM N - 1) 1 _ _ hV' hAV).1
    cases hres : davLoop A.mulVec D tol eig (min maxM N - 1) 1 (Function.update (fun _ => guess) 1 w)
        (fun _ => A.mulVec guess) with
    | converged iter lam x => right; exact ⟨iter, lam, x, rfl⟩
    | notConverged => exact absurd hres h1
    | breakdown => left; rfl
    | ub => exact absurd hres h2

/-- C50, concretely: in two dimensions every normalised guess that is not an eigenvector leads to
convergence (so the hypotheses of the theorems above are met by many runs). -/
theorem C50_two_levels {A : Matrix (Fin 2) (Fin 2) ℝ} (hA : A.IsSymm) (D : Fin 2 → ℝ) {tol : ℝ}
    (htol : 0 < tol) {eig : Nat → (Nat → Nat → ℝ) → ℝ × (Nat → ℝ)} (he : LowestPair eig) (maxM : Nat)
    (guess : Fin 2 → ℝ) (hg : (∑ t, guess t * guess t) = 1) (hM : 2 ≤ maxM)
    (hne : ¬ ∃ mu : ℝ, A.mulVec guess = mu • guess) :
    ∃ iter lam x, davidson A.mulVec D tol eig maxM guess = .converged iter lam x := by
  have hV1 : OrthonormalCols 1 (fun _ => guess : Nat → Fin 2 → ℝ) := by
    intro p hp q hq
    rw [if_pos (by omega)]
    exact hg
  have hmin : min maxM 2 - 1 = 1 := by omega
  unfold davidson davidsonRun
  rw [if_neg (by omega), if_neg (by omega)]
  dsimp only
  rw [hmin]
  split
  · rename_i hw
    exfalso
    apply hne
    obtain ⟨b, hb⟩ := (C50_gram_schmidt_breakdown hV1).1 hw
    refine ⟨b 0, funext fun t => ?_⟩
    rw [hb t]; simp [mul_comm]
  · rename_i w hw
    obtain ⟨g1, g2, -⟩ := gramSchmidt_some hV1 hw
    have hV' := orthonormal_update hV1 g1 g2
    have hAV : ∀ j < 1, (fun _ => A.mulVec guess : Nat → Fin 2 → ℝ) j
        = A.mulVec (Function.update (fun _ => guess) 1 w j) := by
      intro j hj; rw [Function.update_of_ne (by omega)]
    obtain ⟨h1, h3⟩ := davLoop_complete hA D htol he 1 1 _ _ hV' hAV (by omega) (by simp)
    have h2 := (davLoop_spec hA D tol he 1 1 _ _ hV' hAV).1
    cases hres : davLoop A.mulVec D tol eig 1 1 (Function.update (fun _ => guess) 1 w)
        (fun _ => A.mulVec guess) with
    | converged iter lam x => exact ⟨iter, lam, x, rfl⟩
    | notConverged => exact absurd hres h1
    | breakdown => exact absurd hres (h3 rfl)
    | ub => exact absurd hres h2

example : ∃ (A : Matrix (Fin 2) (Fin 2) ℝ) (guess : Fin 2 → ℝ), A.IsSymm ∧ (∑ t, guess t * guess t) = 1 ∧
    ¬ ∃ mu : ℝ, A.mulVec guess = mu • guess := by
  refine ⟨!![0, 1; 1, 0], ![1, 0], ?_, by simp, ?_⟩
  · ext i j; fin_cases i <;> fin_cases j <;> rfl
  · rintro ⟨mu, h⟩
    have := congrFun h 1
    simp [Matrix.mulVec, dotProduct] at this

/-- C71 (a guess that already is the solution is accepted): what holds is that such a run never
returns a wrong result: it throws or breaks down. -/
theorem C71_eigenvector_guess_partial {N : Nat} {A : Matrix (Fin N) (Fin N) ℝ} (D : Fin N → ℝ) (tol : ℝ)
    (eig : Nat → (Nat → Nat → ℝ) → ℝ × (Nat → ℝ)) (maxM : Nat) (guess : Fin N → ℝ)
    (hg : (∑ t, guess t * guess t) = 1) (mu : ℝ) (hmu : A.mulVec guess = mu • guess) :
    ∀ iter lam x, davidson A.mulVec D tol eig maxM guess ≠ .converged iter lam x := by
  intro iter lam x h
  have hV1 : OrthonormalCols 1 (fun _ => guess : Nat → Fin N → ℝ) := by
    intro p hp q hq
    rw [if_pos (by omega)]
    exact hg
  have hnone : gramSchmidt 1 (fun _ => guess : Nat → Fin N → ℝ) (A.mulVec guess) = none := by
    rw [C50_gram_schmidt_breakdown hV1]
    exact ⟨fun _ => mu, fun t => by rw [hmu]; simp [mul_comm]⟩
  unfold davidson davidsonRun at h
  split_ifs at h
  dsimp only at h
  rw [hnone] at h
  cases h

/-- C71 is violated: an exact eigenvector as guess (for instance the diagonal guess when that
determinant does not couple to any other) always makes the solver divide by zero, for every
subspace limit of at least two and dimension of at least two. -/
theorem C71_eigenvector_guess_refuted {N : Nat} {A : Matrix (Fin N) (Fin N) ℝ} (D : Fin N → ℝ) (tol : ℝ)
    (eig : Nat → (Nat → Nat → ℝ) → ℝ × (Nat → ℝ)) (maxM : Nat) (guess : Fin N → ℝ)
    (hg : (∑ t, guess t * guess t) = 1) (mu : ℝ) (hmu : A.mulVec guess = mu • guess)
    (hM : 2 ≤ maxM) (hN : 2 ≤ N) : davidson A.mulVec D tol eig maxM guess = .breakdown := by
  have hV1 : OrthonormalCols 1 (fun _ => guess : Nat → Fin N → ℝ) := by
    intro p hp q hq
    rw [if_pos (by omega)]
    exact hg
  have hnone : gramSchmidt 1 (fun _ => guess : Nat → Fin N → ℝ) (A.mulVec guess) = none := by
    rw [C50_gram_schmidt_breakdown hV1]
    exact ⟨fun _ => mu, fun t => by rw [hmu]; simp [mul_comm]⟩
  unfold davidson davidsonRun
  rw [if_neg (by omega), if_neg (by omega)]
  dsimp only
  rw [hnone]

example : ∃ (A : Matrix (Fin 2) (Fin 2) ℝ) (guess : Fin 2 → ℝ), A.IsSymm ∧ (∑ t, guess t * guess t) = 1 ∧
    A.mulVec guess = (3 : ℝ) • guess :=
  ⟨!![3, 0; 0, 5], ![1, 0], by ext i j; fin_cases i <;> fin_cases j <;> rfl, by simp,
    by funext t; fin_cases t <;> simp [Matrix.mulVec, dotProduct]⟩

end serial

/-! ### C72: the distributed solver -/
section parallel
variable {W : Nat} {nl : Fin W → Nat}

/-- a distributed vector as one vector indexed by (rank, local position) -/
def joinVec (x : DistVec nl) : (Σ r, Fin (nl r)) → ℝ := fun i => x i.1 i.2

/-- the pieces of a vector -/
def splitVec (x : (Σ r, Fin (nl r)) → ℝ) : DistVec nl := fun r t => x ⟨r, t⟩

theorem split_join (x : DistVec nl) : splitVec (joinVec x) = x := rfl
theorem join_split (x : (Σ r, Fin (nl r)) → ℝ) : joinVec (splitVec x) = x := rfl

theorem pdot_eq (x y : DistVec nl) : pdot x y = vdot (joinVec x) (joinVec y) := by
  unfold pdot vdot joinVec
  rw [Fintype.sum_sigma]

theorem pcombine_eq (k : Nat) (V : Nat → DistVec nl) (c : Nat → ℝ) :
    joinVec (pcombine k V c) = combine k (fun j => joinVec (V j)) c := rfl

theorem pprojectOut_eq (k : Nat) (V : Nat → DistVec nl) (w : DistVec nl) :
    joinVec (pprojectOut k V w) = projectOut k (fun j => joinVec (V j)) (joinVec w) := by
  funext i
  change w i.1 i.2 - pcombine k V (fun j => pdot (V j) w) i.1 i.2 = _
  simp_rw [pdot_eq]
  rfl

theorem pgramSchmidt_eq (k : Nat) (V : Nat → DistVec nl) (w : DistVec nl) :
    (pgramSchmidt k V w).map joinVec = gramSchmidt k (fun j => joinVec (V j)) (joinVec w) := by
  unfold pgramSchmidt gramSchmidt
  dsimp only
  rw [pdot_eq, pprojectOut_eq, pprojectOut_eq]
  unfold nrm2
  split_ifs with h
  · rfl
  · rw [Option.map_some]
    congr 1
    funext i
    rw [← pprojectOut_eq, ← pprojectOut_eq]
    rfl

theorem joinVec_update (V : Nat → DistVec nl) (k : Nat) (w : DistVec nl) :
    (fun j => joinVec (Function.update V k w j)) = Function.update (fun j => joinVec (V j)) k (joinVec w) := by
  funext j
  by_cases h : j = k
  · subst h; simp
  · simp [Function.update_of_ne h]

theorem pdavLoop_eq (A : DistVec nl → DistVec nl) (D : DistVec nl) (tol : ℝ)
    (eig : Nat → (Nat → Nat → ℝ) → ℝ × (Nat → ℝ)) :
    ∀ (n i : Nat) (V AV : Nat → DistVec nl),
    (pdavLoop A D tol eig n i V AV).map joinVec
      = davLoop (fun x => joinVec (A (splitVec x))) (joinVec D) tol eig n i
          (fun j => joinVec (V j)) (fun j => joinVec (AV j)) := by
  intro n
  induction n with
  | zero => intro i V AV; rfl
  | succ n ih =>
    intro i V AV
    unfold pdavLoop davLoop
    dsimp only
    rw [split_join, ← joinVec_update]
    simp_rw [pdot_eq]
    set lam := (eig (i + 1) fun p q => vdot (joinVec (V p)) (joinVec (Function.update AV i (A (V i)) q))).1
    set c := (eig (i + 1) fun p q => vdot (joinVec (V p)) (joinVec (Function.update AV i (A (V i)) q))).2
    have hr : joinVec (fun r t => pcombine (i + 1) (Function.update AV i (A (V i))) c r t
        - lam * pcombine (i + 1) V c r t)
      = fun t => combine (i + 1) (fun j => joinVec (Function.update AV i (A (V i)) j)) c t
        - lam * combine (i + 1) (fun j => joinVec (V j)) c t := rfl
    rw [hr]
    change DavResult.map joinVec (if nrm2 _ < tol then _ else _) = _
    split_ifs with c1 c2 c3 c4 c5
    · rfl
    · rfl
    · rfl
    · exfalso; apply c4
      obtain ⟨r, t, h⟩ := c3
      exact ⟨⟨r, t⟩, h⟩
    · exfalso; apply c3
      obtain ⟨⟨r, t⟩, h⟩ := c5
      exact ⟨r, t, h⟩
    · have hg := pgramSchmidt_eq (i + 1) V (fun q t =>
        -(pcombine (i + 1) (Function.update AV i (A (V i))) c q t - lam * pcombine (i + 1) V c q t) / (D q t - lam))
      have hw : joinVec (fun q t =>
        -(pcombine (i + 1) (Function.update AV i (A (V i))) c q t - lam * pcombine (i + 1) V c q t) / (D q t - lam))
        = fun t => -(combine (i + 1) (fun j => joinVec (Function.update AV i (A (V i)) j)) c t
          - lam * combine (i + 1) (fun j => joinVec (V j)) c t) / (joinVec D t - lam) := rfl
      rw [hw] at hg
      rw [← hg]
      cases pgramSchmidt (i + 1) V (fun q t =>
        -(pcombine (i + 1) (Function.update AV i (A (V i))) c q t - lam * pcombine (i + 1) V c q t) / (D q t - lam)) with
      | none => rfl
      | some w =>
        dsimp only [Option.map_some]
        rw [ih, joinVec_update]

/-- C72: the distributed solver computes exactly what the serial one computes on the joined vectors
with the same subspace limit: for every number of ranks, every distribution of the entries, every
operator, guess and tolerance. -/
theorem C72_distributed_equals_serial (A : DistVec nl → DistVec nl) (D : DistVec nl) (tol : ℝ)
    (eig : Nat → (Nat → Nat → ℝ) → ℝ × (Nat → ℝ)) (maxM : Nat) (guess : DistVec nl) :
    (pdavidson A D tol eig maxM guess).map joinVec
      = davidsonRun (fun x => joinVec (A (splitVec x))) (joinVec D) tol eig maxM (joinVec guess) := by
  unfold pdavidson davidsonRun
  split_ifs
  · rfl
  · rfl
  · dsimp only
    rw [split_join]
    have hg := pgramSchmidt_eq 1 (fun _ => guess) (A guess)
    rw [← hg]
    cases pgramSchmidt 1 (fun _ => guess) (A guess) with
    | none => rfl
    | some w =>
      dsimp only [Option.map_some]
      rw [pdavLoop_eq, joinVec_update]

end parallel

/-! ### C33, C73: the diagonal guess -/
section guess
variable {K : Type} [LinearOrder K]

theorem minIdx_spec (D : List K) (h : D ≠ []) : FirstMin D (minIdx D) := by
  match D, h with
  | d :: ds, _ =>
    have key : ∀ (ds pre : List K) (b : Nat) (v : K), pre[b]? = some v →
        (∀ x ∈ pre, v ≤ x) → (∀ j < b, ∀ w, pre[j]? = some w → v < w) →
        FirstMin (pre ++ ds) (ds.foldl (fun (st : Nat × K × Nat) x =>
          if x < st.2.1 then (st.2.2, x, st.2.2 + 1) else (st.1, st.2.1, st.2.2 + 1)) (b, v, pre.length)).1 := by
      intro ds
      induction ds with
      | nil =>
        intro pre b v hv h1 h2
        rw [List.foldl_nil, List.append_nil]
        exact ⟨v, hv, h1, h2⟩
      | cons x ds ih =>
        intro pre b v hv h1 h2
        have hb : b < pre.length := (List.getElem?_eq_some_iff.1 hv).1
        have e : pre ++ x :: ds = (pre ++ [x]) ++ ds := by simp
        have el : pre.length + 1 = (pre ++ [x]).length := by simp
        rw [List.foldl_cons, e]
        dsimp only
        rw [el]
        by_cases hx : x < v
        · rw [if_pos hx]
          apply ih (pre ++ [x]) pre.length x (by simp)
          · intro y hy
            rcases List.mem_append.1 hy with hy | hy
            · exact hx.le.trans (h1 y hy)
            · rw [List.mem_singleton.1 hy]
          · intro j hj w hw
            rw [List.getElem?_append_left hj] at hw
            exact lt_of_lt_of_le hx (h1 w (List.mem_of_getElem? hw))
        · rw [if_neg hx]
          apply ih (pre ++ [x]) b v (by rw [List.getElem?_append_left hb, hv])
          · intro y hy
            rcases List.mem_append.1 hy with hy | hy
            · exact h1 y hy
            · rw [List.mem_singleton.1 hy]; exact not_lt.1 hx
          · intro j hj w hw
            rw [List.getElem?_append_left (by omega)] at hw
            exact h2 j hj w hw
    exact key ds [d] 0 d (by simp) (by simp) (by simp)

theorem firstMin_lt {D : List K} {m : Nat} (h : FirstMin D m) : m < D.length := by
  obtain ⟨v, hv, -⟩ := h
  exact (List.getElem?_eq_some_iff.1 hv).1

/-- C33: on one rank with a zeroed vector the guess is the unit vector of the first smallest diagonal
entry. -/
theorem C33_serial_guess [Zero K] [One K] (D : List K) (h : D ≠ []) :
    ∃ m, FirstMin D m ∧
      diagonalGuess D (List.replicate D.length 0) = some ((List.replicate D.length 0).set m 1) := by
  refine ⟨minIdx D, minIdx_spec D h, ?_⟩
  unfold diagonalGuess
  rw [if_pos (by simpa using firstMin_lt (minIdx_spec D h))]

theorem pDiagonalGuess_eq [Zero K] [One K] {ext : List (Nat × Nat)} (D : List K) {rank a0 b0 a b : Nat}
    (h0 : ext.getD 0 (0, 0) = (a0, b0)) (hr : ext.getD rank (0, 0) = (a, b)) :
    pDiagonalGuess ext D rank = if b0 - a0 = 0 then none
      else if rank = minIdx D / (b0 - a0) then
        if a ≤ minIdx D ∧ minIdx D - a < b - a then
          some ((List.replicate (b - a) (0 : K)).set (minIdx D - a) 1) else none
      else some (List.replicate (b - a) 0) := by
  unfold pDiagonalGuess
  simp only [h0, hr, List.length_replicate]

/-- C33: distributed over `W` ranks, if the smallest entry is not among the last `n % W` ones (which
the last rank holds in addition), joining the pieces of all ranks gives the unit vector of the first
smallest diagonal entry. -/
theorem C33_distributed_guess [Zero K] [One K] (D : List K) (W : Nat) (hW : 0 < W) (hWn : W ≤ D.length)
    (hm : ∀ m, FirstMin D m → m < W * (D.length / W)) :
    ∃ m, FirstMin D m ∧ ∀ r < W, ∀ st en, (defaultExtents D.length W)[r]? = some (st, en) →
      pDiagonalGuess (defaultExtents D.length W) D r
        = some ((((List.replicate D.length 0).set m 1).drop st).take (en - st)) := by
  have hne : D ≠ [] := by rw [← List.length_pos_iff]; omega
  have hlt := firstMin_lt (minIdx_spec D hne)
  refine ⟨minIdx D, minIdx_spec D hne, ?_⟩
  replace hm := hm _ (minIdx_spec D hne)
  intro r hr st en hst
  set n := D.length with hn
  set lc := n / W with hlc
  have hlc0 : 0 < lc := Nat.div_pos hWn hW
  have hdm : W * lc + n % W = n := Nat.div_add_mod n W
  rw [defaultExtents_eq _ _ hW] at hst ⊢
  rw [List.getElem?_map, List.getElem?_range hr] at hst
  simp only [Option.map_some, Option.some.injEq, Prod.mk.injEq] at hst
  obtain ⟨hs1, hs2⟩ := hst
  have hget : ∀ q, q < W → ((List.range W).map fun r => (r * (n / W), if r + 1 = W then n else (r + 1) * (n / W))).getD q (0, 0)
      = (q * lc, if q + 1 = W then n else (q + 1) * lc) := by
    intro q hq; simp [List.getD, hq, hlc]
  rw [pDiagonalGuess_eq D (hget 0 hW) (hget r hr)]
  rw [hs1, hs2]
  have hc0 : (if 0 + 1 = W then n else (0 + 1) * lc) - 0 * lc ≠ 0 := by
    split <;> omega
  rw [if_neg hc0]
  have hlen : en - st ≤ n - st := by
    rw [← hs2, ← hlc]
    split
    · exact le_rfl
    · have : (r + 1) * lc ≤ W * lc := Nat.mul_le_mul_right _ hr
      omega
  have hrange : r * lc + lc ≤ en := by
    rw [← hs2, ← hlc]
    split
    · have : (r + 1) * lc ≤ W * lc := Nat.mul_le_mul_right _ hr
      rw [Nat.succ_mul] at this
      omega
    · rw [Nat.succ_mul]
  have hst' : st = r * lc := hs1.symm
  have hown : (minIdx D / ((if 0 + 1 = W then n else (0 + 1) * lc) - 0 * lc) = r) ↔
      (r * lc ≤ minIdx D ∧ minIdx D < r * lc + lc) := by
    by_cases hW1 : W = 1
    · subst hW1
      have hr0 : r = 0 := by omega
      have : lc = n := by rw [hlc, Nat.div_one]
      rw [if_pos rfl, hr0]
      simp only [Nat.zero_mul, Nat.sub_zero, Nat.zero_add, Nat.zero_le, true_and, this]
      rw [Nat.div_eq_zero_iff]
      omega
    · rw [if_neg (by omega)]
      simp only [Nat.zero_add, Nat.one_mul, Nat.zero_mul, Nat.sub_zero]
      rw [Nat.div_eq_iff hlc0]
      constructor
      · rintro ⟨a, b⟩; exact ⟨a, by omega⟩
      · rintro ⟨a, b⟩; exact ⟨a, by omega⟩
  rw [List.drop_set, List.drop_replicate]
  by_cases ho : r = minIdx D / ((if 0 + 1 = W then n else (0 + 1) * lc) - 0 * lc)
  · have := hown.1 ho.symm
    rw [if_pos ho, if_pos (show st ≤ minIdx D ∧ minIdx D - st < en - st by omega),
      if_neg (show ¬ minIdx D < st by omega), List.take_set, List.take_replicate, min_eq_left hlen]
  · rw [if_neg ho]
    have hnot : ¬ (r * lc ≤ minIdx D ∧ minIdx D < r * lc + lc) := fun h => ho (hown.2 h).symm
    have hen : minIdx D < st ∨ en ≤ minIdx D := by
      by_contra hc
      push Not at hc
      apply hnot
      refine ⟨by omega, ?_⟩
      rw [← hs2, ← hlc] at hc
      by_cases hl : r + 1 = W
      · have : W * lc = r * lc + lc := by rw [← hl, Nat.succ_mul]
        omega
      · rw [if_neg hl, Nat.succ_mul] at hc; omega
    rcases hen with h | h
    · rw [if_pos h, List.take_replicate]
      congr 2; omega
    · have hle : st ≤ en := by omega
      rw [if_neg (by omega), List.take_set, List.take_replicate, List.set_eq_of_length_le]
      · congr 2; omega
      · simp; omega

example : (List.range 2).map (pDiagonalGuess (K := Int) (defaultExtents 5 2) [3, 1, 0, -2, 7])
    = [some [0, 0], some [0, 1, 0]] := by decide +kernel

/-- C73 (the distributed guess is a unit vector for every matrix size and rank count): what holds is
that at most one rank sets an entry. -/
theorem C73_at_most_one_partial [Zero K] [One K] (ext : List (Nat × Nat)) (D : List K) (r r' : Nat) (X X' : List K)
    (h : pDiagonalGuess ext D r = some X) (h' : pDiagonalGuess ext D r' = some X')
    (hX : X ≠ List.replicate X.length 0) (hX' : X' ≠ List.replicate X'.length 0) : r = r' := by
  have key : ∀ q Y, pDiagonalGuess ext D q = some Y → Y ≠ List.replicate Y.length 0 →
      q = minIdx D / ((ext.getD 0 (0, 0)).2 - (ext.getD 0 (0, 0)).1) := by
    intro q Y hY hne
    unfold pDiagonalGuess at hY
    dsimp only at hY
    split_ifs at hY with c1 c2 c3
    · exact c2
    · exfalso; apply hne
      cases hY; simp
  rw [key r X h hX, key r' X' h' hX']

/-- C73 is violated: five rows on three ranks, smallest diagonal entry in row 3 (held by the last
rank because of the remainder): the computed owner is rank 3, which does not exist, and the guess is
the zero vector. -/
theorem C73_remainder_refuted :
    (List.range 3).map (pDiagonalGuess (K := Int) (defaultExtents 5 3) [4, 4, 4, 1, 4])
      = [some [0], some [0], some [0, 0, 0]] := by decide +kernel

/-- C73 is violated with more ranks than rows: division by zero. -/
theorem C73_many_ranks_refuted :
    (List.range 3).map (pDiagonalGuess (K := Int) (defaultExtents 2 3) [4, 1]) = [none, none, none] := by
  decide +kernel

end guess

/-! ### C74: all ranks agree on the kind of guess -/

theorem foldl_max_abs {K : Type} [Field K] [LinearOrder K] :
    ∀ (cs : List K) (c : K), |c| = |(0 : K)| → (∀ x ∈ cs, |x| = |(0 : K)|) →
    |cs.foldl (fun m x => if |m| < |x| then x else m) c| = |(0 : K)| := by
  intro cs
  induction cs with
  | nil => intro c h _; exact h
  | cons x cs ih =>
    intro c h hx
    rw [List.foldl_cons, if_neg (by rw [h, hx x (by simp)]; exact lt_irrefl _)]
    exact ih c h fun y hy => hx y (List.mem_cons_of_mem _ hy)

/-- C74: without a passed vector (all entries zero) every rank that holds rows generates a guess, so
the ranks agree. -/
theorem C74_fresh_vector_partial {K : Type} [Field K] [LinearOrder K] [IsStrictOrderedRing K] (n : Nat) (hn : 0 < n) :
    usesPassedVector (List.replicate n (0 : K)) = some false := by
  obtain ⟨m, rfl⟩ : ∃ m, n = m + 1 := ⟨n - 1, by omega⟩
  rw [List.replicate_succ]
  unfold usesPassedVector
  dsimp only
  rw [foldl_max_abs _ _ rfl (by intro x hx; rw [List.eq_of_mem_replicate hx]), abs_zero]
  congr 1
  rw [decide_eq_false_iff_not, not_lt]
  positivity

/-- C74 is violated for a passed vector: with two entries on each of two ranks, rank 0 keeps the
passed vector while rank 1 starts the collective generation of a new one. -/
theorem C74_ranks_disagree_refuted :
    usesPassedVector ([3/5, 4/5] : List ℚ) = some true ∧ usesPassedVector ([0, 1/10] : List ℚ) = some false := by
  decide +kernel

end Macis
