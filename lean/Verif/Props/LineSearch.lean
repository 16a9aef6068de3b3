import Verif.Props.Bfgs

/-! Properties C110 - C113: line searches and the BFGS driver. -/
namespace Macis
namespace Bfgs
open Spec Matrix

variable {K : Type} [Field K] [LinearOrder K] [IsStrictOrderedRing K] {n : Nat}

/-! ### C110: backtracking -/

/-- The acceptance test of the search at the step `t`: sufficient decrease with constant 1/2, up to `10⁻⁶`. -/
def Accept (f : Objective n K) (x0 p : Fin n → K) (t : K) : Prop :=
  f.eval (x0 + t • p) < f.eval x0 + 1 / 2 * t * (f.grad x0 ⬝ᵥ p) + 1 / 1000000

theorem accept_iff (f : Objective n K) (x0 p : Fin n → K) (t : K) :
    ((f.eval x0 - f.eval (x0 + t • p)) - t * (-(p ⬝ᵥ f.grad x0) * (1 / 2)) > -(1 / 1000000)) ↔
      Accept f x0 p t := by
  unfold Accept
  rw [dotProduct_comm p]
  constructor <;> intro h <;> nlinarith

theorem backtrackLoop_spec (f : Objective n K) (x0 p : Fin n → K) (fuel i : Nat)
    (hi : ∀ j < i, ¬ Accept f x0 p ((1 / 2) ^ j)) :
    ∃ k, k ≤ i + fuel ∧ (∀ j < k, ¬ Accept f x0 p ((1 / 2) ^ j)) ∧
      (k < i + fuel → Accept f x0 p ((1 / 2) ^ k)) ∧
      backtrackLoop f x0 p (f.eval x0) (-(p ⬝ᵥ f.grad x0) * (1 / 2)) fuel ((1 / 2) ^ i)
        (x0 + ((1 / 2 : K) ^ i) • p) (f.eval (x0 + ((1 / 2 : K) ^ i) • p)) =
      ((1 / 2) ^ k, x0 + ((1 / 2 : K) ^ k) • p, f.eval (x0 + ((1 / 2 : K) ^ k) • p)) := by
  induction fuel generalizing i with
  | zero => exact ⟨i, by omega, hi, by omega, rfl⟩
  | succ fuel ih =>
    unfold backtrackLoop
    by_cases h : Accept f x0 p ((1 / 2) ^ i)
    · rw [if_pos ((accept_iff f x0 p _).2 h)]
      exact ⟨i, by omega, hi, fun _ => h, rfl⟩
    · rw [if_neg (fun h' => h ((accept_iff f x0 p _).1 h'))]
      obtain ⟨k, h1, h2, h3, h4⟩ := ih (i + 1) (by
        intro j hj
        rcases Nat.lt_succ_iff_lt_or_eq.1 hj with hj | rfl
        · exact hi j hj
        · exact h)
      refine ⟨k, by omega, h2, fun hk => h3 (by omega), ?_⟩
      rw [← h4]
      simp only [pow_succ]

theorem half_pow_ge (k : Nat) : (1 / 1000000 : K) ≤ (1 / 2) ^ k ↔ k < 20 := by
  constructor
  · intro h
    by_contra hk
    have : ((1 : K) / 2) ^ k ≤ (1 / 2) ^ 20 := pow_le_pow_of_le_one (by norm_num) (by norm_num) (by omega)
    have h2 : ((1 : K) / 2) ^ 20 < 1 / 1000000 := by norm_num
    linarith
  · intro h
    have : ((1 : K) / 2) ^ 19 ≤ (1 / 2) ^ k := pow_le_pow_of_le_one (by norm_num) (by norm_num) (by omega)
    have h2 : (1 : K) / 1000000 ≤ (1 / 2) ^ 19 := by norm_num
    linarith

/-- C110: the backtracking search succeeds exactly when the direction does not point uphill, the passed step
is positive and the first accepted step among 1, 1/2, ..., 2⁻¹⁹ does not increase the objective; it then
returns that step, the point, and the objective and gradient there. -/
theorem C110_backtracking (f : Objective n K) (x0 p : Fin n → K) (step : K) (out : LsOut n K) :
    backtracking f x0 p step = some out ↔
      f.grad x0 ⬝ᵥ p ≤ 0 ∧ 0 < step ∧ ∃ k < 20,
        Accept f x0 p ((1 / 2) ^ k) ∧ (∀ j < k, ¬ Accept f x0 p ((1 / 2) ^ j)) ∧
        out.step = (1 / 2) ^ k ∧ out.x = x0 + out.step • p ∧ out.fx = f.eval out.x ∧
        out.gfx = f.grad out.x ∧ f.eval out.x ≤ f.eval x0 := by
  obtain ⟨k, h1, h2, h3, h4⟩ := backtrackLoop_spec f x0 p 100 0 (by omega)
  simp only [pow_zero] at h4
  unfold backtracking
  simp only
  rw [h4]
  by_cases hd : p ⬝ᵥ f.grad x0 > 0
  · rw [if_pos hd]
    simp only [reduceCtorEq, false_iff, not_and]
    intro h; rw [dotProduct_comm] at h; exact absurd hd (not_lt.2 h)
  rw [if_neg hd]
  by_cases hs : step ≤ 0
  · rw [if_pos hs]
    simp only [reduceCtorEq, false_iff, not_and]
    intro _ h; exact absurd hs (not_le.2 h)
  rw [if_neg hs]
  simp only
  have hd' : f.grad x0 ⬝ᵥ p ≤ 0 := by rw [dotProduct_comm]; exact not_lt.1 hd
  constructor
  · intro h
    split at h
    · cases h
    · rename_i hc
      rw [not_or, not_lt, not_lt] at hc
      have hk : k < 20 := (half_pow_ge (K := K) k).1 hc.2
      simp only [Option.some.injEq] at h
      subst h
      exact ⟨hd', not_le.1 hs, k, hk, h3 (by omega), h2, rfl, rfl, rfl, rfl, by simpa using hc.1⟩
  · rintro ⟨-, -, k', hk', ha, hn, e1, e2, e3, e4, e5⟩
    have hkk : k = k' := by
      rcases lt_trichotomy k k' with h | h | h
      · exact absurd (h3 (by omega)) (hn k h)
      · exact h
      · exact absurd ha (h2 k' h)
    subst hkk
    rw [if_neg]
    · obtain ⟨s, x, fx, g⟩ := out
      simp only at e1 e2 e3 e4
      subst e1; subst e2; subst e3; subst e4; rfl
    · rw [not_or, not_lt, not_lt]
      refine ⟨?_, (half_pow_ge k).2 hk'⟩
      rw [e2, e1] at e5
      simpa using e5

/-- `x² + 3 y²` with its gradient, stopping at a gradient of norm at most 1 -/
def exQuad : Objective 2 Rat where
  eval x := x 0 * x 0 + 3 * (x 1 * x 1)
  grad x := ![2 * x 0, 6 * x 1]
  converged _ g := g 0 * g 0 + g 1 * g 1 ≤ 1

example : (backtracking exQuad ![1, 1] ![-2, -6] 1).map (fun o => (o.step, o.fx)) = some (1 / 8, 3 / 4) := by
  decide +kernel

/-- `10⁻⁸ x²`, a flat parabola -/
def exFlat : Objective 1 Rat where
  eval x := x 0 * x 0 / 100000000
  grad x := ![2 * x 0 / 100000000]
  converged _ g := g 0 = 0

/-- C110, limit of the guarantee: because of the absolute slack `10⁻⁶` the search accepts steps without any
decrease: from `x = 1` along a genuine descent direction the mirror point `x = -1` is accepted. -/
theorem C110_no_decrease_witness :
    exFlat.grad ![1] ⬝ᵥ ![-2] < 0 ∧
    (backtracking exFlat ![1] ![-2] 1).map (fun o => (o.step, o.x 0, o.fx)) =
      some (1, -1, exFlat.eval ![1]) := by decide +kernel

/-! ### C111: the driver -/

/-- The update pairs (step, gradient difference) of the first `j` moves along the points `xs`. -/
def movePairs (g : (Fin n → K) → (Fin n → K)) (xs : Nat → (Fin n → K)) (j : Nat) :
    List ((Fin n → K) × (Fin n → K)) :=
  (List.range j).map fun i => (xs (i + 1) - xs i, g (xs (i + 1)) - g (xs i))

omit [IsStrictOrderedRing K] [LinearOrder K] in
theorem movePairs_succ (g : (Fin n → K) → (Fin n → K)) (x : Fin n → K) (xs : Nat → (Fin n → K)) (j : Nat) :
    movePairs g (fun i => Nat.casesOn i x xs) (j + 1) =
      (xs 0 - x, g (xs 0) - g x) :: movePairs g xs j := by
  unfold movePairs
  rw [List.range_succ_eq_map, List.map_cons, List.map_map]
  rfl

theorem loop_spec (f : Objective n K) (fuel : Nat) (x p : Fin n → K) (B : Hess n K) (r : Fin n → K)
    (h : loop f fuel x (f.grad x) p 1 B = some r) :
    ∃ (m : Nat) (xs : Nat → (Fin n → K)), 0 < m ∧ m ≤ fuel ∧ xs 0 = x ∧ xs m = r ∧
      f.converged (xs m) (f.grad (xs m)) = true ∧
      (∀ j, 0 < j → j < m → f.converged (xs j) (f.grad (xs j)) = false) ∧
      ∀ j < m, ∃ q t, ((j = 0 ∧ q = p) ∨
          (0 < j ∧ ∃ Bj, B.updates (movePairs f.grad xs j) = some Bj ∧ q = -(Bj.apply (f.grad (xs j))))) ∧
        backtracking f (xs j) q 1 = some ⟨t, xs (j + 1), f.eval (xs (j + 1)), f.grad (xs (j + 1))⟩ := by
  induction fuel generalizing x p B with
  | zero => simp [loop] at h
  | succ fuel ih =>
    unfold loop at h
    cases hb : backtracking f x p 1 with
    | none => rw [hb] at h; simp at h
    | some out =>
      rw [hb] at h
      simp only at h
      obtain ⟨-, -, k, -, -, -, h1, h2, h3, h4, h5⟩ := (C110_backtracking f x p 1 out).1 hb
      have hout : out = ⟨out.step, out.x, f.eval out.x, f.grad out.x⟩ := by rw [← h3, ← h4]
      by_cases hc : f.converged out.x (f.grad out.x) = true
      · rw [if_pos hc] at h
        simp only [Option.some.injEq] at h
        refine ⟨1, fun i => Nat.casesOn i x fun _ => out.x, by omega, by omega, rfl, h, hc, ?_, ?_⟩
        · intro j h1 h2; omega
        · intro j hj
          obtain rfl : j = 0 := by omega
          refine ⟨p, out.step, Or.inl ⟨rfl, rfl⟩, ?_⟩
          exact hb.trans (congrArg some hout)
      · rw [if_neg hc] at h
        rw [h4] at h
        cases hu : B.update (out.x - x) (f.grad out.x - f.grad x) with
        | none => rw [hu] at h; simp at h
        | some B' =>
          rw [hu] at h
          simp only at h
          obtain ⟨m, xs, g1, g2, g3, g4, g5, g6, g7⟩ := ih out.x _ B' h
          refine ⟨m + 1, fun i => Nat.casesOn i x xs, by omega, by omega, rfl, g4, g5, ?_, ?_⟩
          · intro j h1 h2
            obtain ⟨j, rfl⟩ : ∃ i, j = i + 1 := ⟨j - 1, by omega⟩
            rcases Nat.eq_zero_or_pos j with rfl | hj
            · change f.converged (xs 0) (f.grad (xs 0)) = false
              rw [g3]; simpa using hc
            · exact g6 j hj (by omega)
          · intro j hj
            rcases j with _ | j
            · refine ⟨p, out.step, Or.inl ⟨rfl, rfl⟩, ?_⟩
              change backtracking f x p 1 = some ⟨_, xs 0, f.eval (xs 0), f.grad (xs 0)⟩
              rw [g3, hb]; exact congrArg some hout
            · obtain ⟨q, t, hq, ht⟩ := g7 j (by omega)
              refine ⟨q, t, Or.inr ⟨by omega, ?_⟩, ht⟩
              rw [movePairs_succ, g3]
              rcases hq with ⟨rfl, rfl⟩ | ⟨hj0, Bj, hBj, rfl⟩
              · refine ⟨B', ?_, by rw [← g3]⟩
                simp [movePairs, Hess.updates, hu]
              · refine ⟨Bj, ?_, rfl⟩
                rw [Hess.updates, List.foldlM_cons]
                simp only [hu]
                exact hBj

/-- C111: a run that returns has made between one and `max_iter` moves; the first one along the negative
gradient, every later one along minus the quasi-Newton operator (updated with all previous moves) applied
to the gradient; each move is a successful backtracking search; the returned point, and no point before
it except possibly the start, passes the convergence test; the objective never increased. -/
theorem C111_bfgs (f : Objective n K) (x0 : Fin n → K) (B : Hess n K) (maxIter : Nat) (r : Fin n → K)
    (h : run f x0 B maxIter = some r) :
    ∃ (m : Nat) (xs : Nat → (Fin n → K)), 0 < m ∧ m ≤ maxIter ∧ xs 0 = x0 ∧ xs m = r ∧
      f.converged r (f.grad r) = true ∧
      (∀ j, 0 < j → j < m → f.converged (xs j) (f.grad (xs j)) = false) ∧
      (∀ j < m, ∃ q t, ((j = 0 ∧ q = -(f.grad x0)) ∨
          (0 < j ∧ ∃ Bj, B.updates (movePairs f.grad xs j) = some Bj ∧ q = -(Bj.apply (f.grad (xs j))))) ∧
        backtracking f (xs j) q 1 = some ⟨t, xs (j + 1), f.eval (xs (j + 1)), f.grad (xs (j + 1))⟩) ∧
      (∀ i j, i ≤ j → j ≤ m → f.eval (xs j) ≤ f.eval (xs i)) := by
  obtain ⟨m, xs, g1, g2, g3, g4, g5, g6, g7⟩ := loop_spec f maxIter x0 _ B r h
  refine ⟨m, xs, g1, g2, g3, g4, g4 ▸ g5, g6, g7, ?_⟩
  intro i j hij
  induction j, hij using Nat.le_induction with
  | base => intro _; exact le_rfl
  | succ j hij ih =>
    intro hj
    obtain ⟨q, t, -, hb⟩ := g7 j (by omega)
    obtain ⟨-, -, k, -, -, -, -, -, -, -, h5⟩ := (C110_backtracking f (xs j) q 1 _).1 hb
    exact h5.trans (ih (by omega))

/-- C111 for the default operator: every direction is minus the textbook BFGS matrix of the moves so far
times the gradient. -/
theorem C111_default (f : Objective n K) (x0 : Fin n → K) (maxIter : Nat) (r : Fin n → K)
    (h : runDefault f x0 maxIter = some r) :
    ∃ (m : Nat) (xs : Nat → (Fin n → K)), 0 < m ∧ m ≤ maxIter ∧ xs 0 = x0 ∧ xs m = r ∧
      f.converged r (f.grad r) = true ∧ f.eval r ≤ f.eval x0 ∧
      ∀ j < m, ∃ t : K, 0 < t ∧ t ≤ 1 ∧
        xs (j + 1) = xs j - t • (bfgsMatrix 1 (movePairs f.grad xs j) *ᵥ f.grad (xs j)) ∧
        f.eval (xs (j + 1)) ≤ f.eval (xs j) := by
  obtain ⟨m, xs, g1, g2, g3, g4, g5, g6, g7, g8⟩ := C111_bfgs f x0 identityHess maxIter r h
  refine ⟨m, xs, g1, g2, g3, g4, g5, ?_, ?_⟩
  · rw [← g4, ← g3]; exact g8 0 m (by omega) le_rfl
  · intro j hj
    obtain ⟨q, t, hq, hb⟩ := g7 j hj
    obtain ⟨-, -, k, hk, -, -, h1, h2, -, -, h5⟩ := (C110_backtracking f (xs j) q 1 _).1 hb
    simp only at h1 h2 h5
    refine ⟨t, ?_, ?_, ?_, h5⟩
    · rw [h1]; positivity
    · rw [h1]; exact pow_le_one₀ (by norm_num) (by norm_num)
    · rw [h2]
      have : q = -(bfgsMatrix 1 (movePairs f.grad xs j) *ᵥ f.grad (xs j)) := by
        rcases hq with ⟨rfl, rfl⟩ | ⟨-, Bj, hBj, rfl⟩
        · simp [movePairs, bfgsMatrix, g3]
        · rw [(C108_identity _).2 Bj hBj]
      rw [this, smul_neg, sub_eq_add_neg]

example : (runDefault exQuad ![1, 1] 4).isSome = true := by decide +kernel

/-- C111, two limits: the start is never tested, so a converged start still needs an iteration; and a run
with no iterations throws. -/
theorem C111_start_not_tested : exQuad.converged ![0, 0] (exQuad.grad ![0, 0]) = true ∧
    runDefault exQuad ![0, 0] 0 = none ∧ (runDefault exQuad ![0, 0] 1).isSome = true := by decide +kernel

/-! ### C112: strong Wolfe search -/

theorem bracket_done (f : Objective n K) (x0 p : Fin n → K) (fx0 arm wolfe : K) (fuel : Nat) (step : K)
    (b : Bracket K) (hs : 0 < step) (out : LsOut n K)
    (h : bracketLoop f x0 p fx0 arm wolfe fuel step b = .done out) :
    0 < out.step ∧ out.x = x0 + out.step • p ∧ out.fx = f.eval out.x ∧ out.gfx = f.grad out.x ∧
      out.fx - fx0 ≤ out.step * arm ∧ |out.gfx ⬝ᵥ p| ≤ wolfe := by
  induction fuel generalizing step b with
  | zero => cases h
  | succ fuel ih =>
    unfold bracketLoop at h
    simp only at h
    split at h
    · cases h
    · rename_i hc
      rw [not_or, not_lt] at hc
      split at h
      · rename_i hw
        cases h
        exact ⟨hs, rfl, rfl, rfl, hc.1, hw⟩
      · split at h
        · cases h
        · exact ih _ _ (by linarith) h

/-- a usable bracket: two different nonnegative steps -/
def Bracket.Ok (b : Bracket K) : Prop := 0 ≤ b.stepLo ∧ 0 ≤ b.stepHi ∧ b.stepLo ≠ b.stepHi

theorem bracket_zoom (f : Objective n K) (x0 p : Fin n → K) (fx0 arm wolfe : K) (fuel : Nat) (step : K)
    (b b' : Bracket K) (h0 : fuel = 0 → b.Ok) (hl : 0 ≤ b.stepLo) (hs : b.stepLo < step)
    (h : bracketLoop f x0 p fx0 arm wolfe fuel step b = .zoom b') : b'.Ok := by
  induction fuel generalizing step b with
  | zero => cases h; exact h0 rfl
  | succ fuel ih =>
    unfold bracketLoop at h
    simp only at h
    split at h
    · cases h
      exact ⟨hl, by simp only; linarith, by simp only; exact hs.ne⟩
    · split at h
      · cases h
      · have ok : Bracket.Ok (K := K) ⟨b.stepLo, step, b.fxLo, f.eval (x0 + step • p),
            f.grad (x0 + step • p) ⬝ᵥ p⟩ :=
          ⟨by simp only; linarith, hl, by simp only; exact hs.ne'⟩
        split at h
        · cases h; exact ok
        · exact ih _ _ (fun _ => ok) (by simp only; linarith) (by simp only; linarith) h

theorem zoom_spec (f : Objective n K) (x0 p : Fin n → K) (fx0 arm wolfe : K) (fuel : Nat)
    (b : Bracket K) (hb : b.Ok) (out : LsOut n K) (h : zoomLoop f x0 p fx0 arm wolfe fuel b = some out) :
    0 < out.step ∧ out.x = x0 + out.step • p ∧ out.fx = f.eval out.x ∧ out.gfx = f.grad out.x ∧
      out.fx - fx0 ≤ out.step * arm ∧ |out.gfx ⬝ᵥ p| ≤ wolfe := by
  induction fuel generalizing b with
  | zero => cases h
  | succ fuel ih =>
    unfold zoomLoop at h
    simp only at h
    split at h
    · cases h
    generalize hst : (if ((b.fxHi - b.fxLo) * b.stepLo - (b.stepHi * b.stepHi - b.stepLo * b.stepLo) * b.dgLo / 2) /
        (b.fxHi - b.fxLo - (b.stepHi - b.stepLo) * b.dgLo) ≤ min b.stepLo b.stepHi ∨
        ((b.fxHi - b.fxLo) * b.stepLo - (b.stepHi * b.stepHi - b.stepLo * b.stepLo) * b.dgLo / 2) /
        (b.fxHi - b.fxLo - (b.stepHi - b.stepLo) * b.dgLo) ≥ max b.stepLo b.stepHi
        then b.stepLo / 2 + b.stepHi / 2
        else ((b.fxHi - b.fxLo) * b.stepLo - (b.stepHi * b.stepHi - b.stepLo * b.stepLo) * b.dgLo / 2) /
        (b.fxHi - b.fxLo - (b.stepHi - b.stepLo) * b.dgLo)) = st at h
    have hpos : 0 < st := by
      obtain ⟨h1, h2, h3⟩ := hb
      rw [← hst]
      split
      · rcases lt_or_gt_of_ne h3 with h | h <;> linarith
      · rename_i hc
        rw [not_or, not_le] at hc
        exact lt_of_le_of_lt (le_min h1 h2) hc.1
    split at h
    · split at h
      · cases h
      · rename_i hne
        refine ih { b with stepHi := st, fxHi := f.eval (x0 + st • p) } ⟨hb.1, hpos.le, ?_⟩ h
        obtain ⟨h1, h2, h3⟩ := hb
        simp only
        intro he
        rw [← he] at hst
        split at hst
        · apply h3; linarith
        · rename_i hc
          rw [not_or, not_le, not_le, hst] at hc
          rcases min_lt_iff.1 hc.1 with h | h
          · exact lt_irrefl _ h
          · rcases lt_max_iff.1 hc.2 with h' | h'
            · exact lt_irrefl _ h'
            · exact lt_asymm h h'
    · rename_i hc
      rw [not_or, not_lt] at hc
      split at h
      · rename_i hw
        simp only [Option.some.injEq] at h
        subst h
        exact ⟨hpos, rfl, rfl, rfl, hc.1, hw⟩
      · split at h
        · split at h
          · cases h
          · rename_i hne
            exact ih _ ⟨hpos.le, hb.1, hne⟩ h
        · split at h
          · cases h
          · rename_i hne
            refine ih { b with stepLo := st, fxLo := f.eval (x0 + st • p), dgLo := f.grad (x0 + st • p) ⬝ᵥ p }
              ⟨hpos.le, hb.2.1, ?_⟩ h
            simp only
            intro he
            obtain ⟨h1, h2, h3⟩ := hb
            rw [he] at hst
            split at hst
            · apply h3; linarith
            · rename_i hc
              rw [not_or, not_le, not_le, hst] at hc
              rcases min_lt_iff.1 hc.1 with h | h
              · rcases lt_max_iff.1 hc.2 with h' | h'
                · exact lt_asymm h h'
                · exact lt_irrefl _ h'
              · exact lt_irrefl _ h

/-- C112: a Nocedal-Wright search started with the objective and gradient at `x0` that returns gives a
positive step satisfying the strong Wolfe conditions with constants `10⁻⁴` and `0.9`, and the point,
objective and gradient belonging to it. -/
theorem C112_strong_wolfe (f : Objective n K) (x0 p : Fin n → K) (step : K) (out : LsOut n K)
    (h : nocedalWright f x0 p step (f.eval x0) (f.grad x0) = some out) :
    0 < out.step ∧ out.x = x0 + out.step • p ∧ out.fx = f.eval out.x ∧ out.gfx = f.grad out.x ∧
      StrongWolfe f.eval f.grad (1 / 10000) (9 / 10) x0 p out.step := by
  unfold nocedalWright at h
  simp only at h
  split at h
  · cases h
  rename_i hd
  split at h
  · cases h
  rename_i hs
  rw [not_le] at hs
  rw [gt_iff_lt, not_lt] at hd
  have key : 0 < out.step ∧ out.x = x0 + out.step • p ∧ out.fx = f.eval out.x ∧ out.gfx = f.grad out.x ∧
      out.fx - f.eval x0 ≤ out.step * (1 / 10000 * (p ⬝ᵥ f.grad x0)) ∧
      |out.gfx ⬝ᵥ p| ≤ -(9 / 10) * (p ⬝ᵥ f.grad x0) := by
    cases hb : bracketLoop f x0 p (f.eval x0) (1 / 10000 * (p ⬝ᵥ f.grad x0)) (-(9 / 10) * (p ⬝ᵥ f.grad x0))
      100 step ⟨0, 0, f.eval x0, f.eval x0, p ⬝ᵥ f.grad x0⟩ with
    | done o =>
      rw [hb] at h
      simp only [Option.some.injEq] at h
      subst h
      exact bracket_done f x0 p _ _ _ _ _ _ hs _ hb
    | zoom b =>
      rw [hb] at h
      exact zoom_spec f x0 p _ _ _ _ b
        (bracket_zoom f x0 p _ _ _ _ step _ b (by simp) (by simp) (by simpa using hs) hb) _ h
  obtain ⟨k1, k2, k3, k4, k5, k6⟩ := key
  refine ⟨k1, k2, k3, k4, ?_, ?_⟩
  · unfold Armijo
    rw [← k2, ← k3, dotProduct_comm]
    linarith
  · rw [← k2, ← k4, dotProduct_comm (f.grad x0), abs_of_nonpos hd]
    linarith

example : (nocedalWright exQuad ![1, 1] ![-2, -6] 1 4 ![2, 6]).map (fun o => (o.step, o.fx)) =
    some (5 / 28, 3 / 7) := by decide +kernel

/-- C112: the second phase of the search returns a point whose objective lies below that of the lower end of the
bracket it started with. -/
theorem C112_zoom_below (f : Objective n K) (x0 p : Fin n → K) (fx0 arm wolfe : K) (fuel : Nat) (b : Bracket K)
    (out : LsOut n K) (h : zoomLoop f x0 p fx0 arm wolfe fuel b = some out) : out.fx < b.fxLo := by
  induction fuel generalizing b with
  | zero => cases h
  | succ fuel ih =>
    unfold zoomLoop at h
    simp only at h
    split at h
    · cases h
    generalize (if ((b.fxHi - b.fxLo) * b.stepLo - (b.stepHi * b.stepHi - b.stepLo * b.stepLo) * b.dgLo / 2) /
        (b.fxHi - b.fxLo - (b.stepHi - b.stepLo) * b.dgLo) ≤ min b.stepLo b.stepHi ∨
        ((b.fxHi - b.fxLo) * b.stepLo - (b.stepHi * b.stepHi - b.stepLo * b.stepLo) * b.dgLo / 2) /
        (b.fxHi - b.fxLo - (b.stepHi - b.stepLo) * b.dgLo) ≥ max b.stepLo b.stepHi
        then b.stepLo / 2 + b.stepHi / 2
        else ((b.fxHi - b.fxLo) * b.stepLo - (b.stepHi * b.stepHi - b.stepLo * b.stepLo) * b.dgLo / 2) /
        (b.fxHi - b.fxLo - (b.stepHi - b.stepLo) * b.dgLo)) = st at h
    split at h
    · split at h
      · cases h
      · have := ih _ h
        exact this
    · rename_i hc
      rw [not_or, not_le] at hc
      split at h
      · cases h; exact hc.2
      · have key : ∀ b' : Bracket K, (if st = b'.stepLo then none else zoomLoop f x0 p fx0 arm wolfe fuel
            { b' with stepLo := st, fxLo := f.eval (x0 + st • p), dgLo := f.grad (x0 + st • p) ⬝ᵥ p }) = some out →
            out.fx < b.fxLo := by
          intro b' h
          split at h
          · cases h
          · have := ih _ h
            exact this.trans hc.2
        exact key _ h

/-! ### C113: grid search -/

theorem grid_fold (g : K → K) (l : List K) (acc : K × K) (hacc : acc.1 = g acc.2) :
    let r := l.foldl (fun (acc : K × K) t => if g t < acc.1 then (g t, t) else acc) acc
    r.1 = g r.2 ∧ (r.2 = acc.2 ∨ r.2 ∈ l) ∧ r.1 ≤ acc.1 ∧ ∀ t ∈ l, r.1 ≤ g t := by
  induction l generalizing acc with
  | nil => simp [hacc]
  | cons t l ih =>
    simp only [List.foldl_cons]
    by_cases h : g t < acc.1
    · rw [if_pos h]
      obtain ⟨h1, h2, h3, h4⟩ := ih (g t, t) rfl
      refine ⟨h1, ?_, h3.trans h.le, ?_⟩
      · rcases h2 with h2 | h2
        · right; rw [h2]; simp
        · right; simp [h2]
      · intro u hu
        rcases List.mem_cons.1 hu with rfl | hu
        · exact h3
        · exact h4 u hu
    · rw [if_neg h]
      obtain ⟨h1, h2, h3, h4⟩ := ih acc hacc
      refine ⟨h1, ?_, h3, ?_⟩
      · rcases h2 with h2 | h2
        · left; exact h2
        · right; simp [h2]
      · intro u hu
        rcases List.mem_cons.1 hu with rfl | hu
        · exact h3.trans (not_lt.1 h)
        · exact h4 u hu

/-- C113: the grid search returns the best of the steps 1/100, ..., 99/100, 1 along the direction, with the
matching point, objective and gradient. -/
theorem C113_grid (f : Objective n K) (x0 p : Fin n → K) :
    let out := discrete f x0 p
    (∃ i : Nat, 1 ≤ i ∧ i ≤ 100 ∧ out.step = (i : K) / 100) ∧ out.x = x0 + out.step • p ∧
      out.fx = f.eval out.x ∧ out.gfx = f.grad out.x ∧
      ∀ i : Nat, 1 ≤ i → i ≤ 100 → out.fx ≤ f.eval (x0 + ((i : K) / 100) • p) := by
  have e : (List.range' 1 99).foldl (fun (acc : K × K) (ig : Nat) =>
      let tempStep : K := 1 - (ig : K) * (1 / 100)
      let fx := f.eval (x0 + tempStep • p)
      if fx < acc.1 then (fx, tempStep) else acc) (f.eval (x0 + (1 : K) • p), 1) =
    (((List.range' 1 99).map fun ig : Nat => (1 : K) - (ig : K) * (1 / 100))).foldl
      (fun (acc : K × K) t => if f.eval (x0 + t • p) < acc.1 then (f.eval (x0 + t • p), t) else acc)
      (f.eval (x0 + (1 : K) • p), 1) := by
    rw [List.foldl_map]
  obtain ⟨h1, h2, h3, h4⟩ := grid_fold (fun t => f.eval (x0 + t • p))
    ((List.range' 1 99).map fun ig : Nat => (1 : K) - (ig : K) * (1 / 100)) (f.eval (x0 + (1 : K) • p), 1) rfl
  rw [← e] at h1 h2 h3 h4
  have cast : ∀ j : Nat, j ≤ 100 → (1 : K) - (j : K) * (1 / 100) = ((100 - j : Nat) : K) / 100 := by
    intro j hj
    rw [Nat.cast_sub hj]; push_cast; ring
  refine ⟨?_, rfl, h1, rfl, ?_⟩
  · rcases h2 with h2 | h2
    · exact ⟨100, by omega, by omega, by
        change _ = ((100 : Nat) : K) / 100
        simp only [discrete, h2]; push_cast; norm_num⟩
    · rw [List.mem_map] at h2
      obtain ⟨j, hj, hj2⟩ := h2
      rw [List.mem_range'_1] at hj
      exact ⟨100 - j, by omega, by omega, by rw [← cast j (by omega), hj2]; rfl⟩
  · intro i hi1 hi2
    rcases Nat.lt_or_eq_of_le hi2 with hi | rfl
    · have := h4 ((1 : K) - ((100 - i : Nat) : K) * (1 / 100))
        (List.mem_map.2 ⟨100 - i, by rw [List.mem_range'_1]; omega, rfl⟩)
      rw [cast _ (by omega)] at this
      rwa [show 100 - (100 - i) = i by omega] at this
    · have e1 : ((100 : Nat) : K) / 100 = 1 := by push_cast; norm_num
      rw [e1]
      exact h3

/-- C113, limit: the start itself is not on the grid, so the grid search can return a worse point. -/
theorem C113_can_increase : (discrete exQuad ![1, 1] ![1, 0]).fx > exQuad.eval ![1, 1] := by decide +kernel

end Bfgs
end Macis
