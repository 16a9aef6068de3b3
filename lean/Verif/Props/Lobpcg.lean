import Verif.Lemmas.LobStep
import Verif.Lemmas.LobLapack

/-! Properties C123-C130: the LOBPCG eigensolver. -/
namespace Macis
open Spec Finset
variable {ι : Type} [Fintype ι] [DecidableEq ι]

/-! ### the loop -/

theorem lobLoop_spec {lp : LobLapack} (hp : PotrfSpec lp.potrf) (hs : SyevMatSpec lp.syev)
    (hq : LqSpec lp.lq) {A : Matrix ι ι ℝ} (hA : A.IsSymm) {K NR : Nat} {op : LobOp ι} (hop : ActsAs op A)
    (set : LobSettings) (check : Nat → (Nat → ℝ) → (Nat → Option ℝ) → ℝ → Bool) :
    ∀ (n iter : Nat) (st : LobState ι), LobInv A K iter st →
    match (lobLoop lp set K NR op check n iter st).1 with
    | .query _ => False
    | .badArg => False
    | .converged it lam X res => ∃ st' : LobState ι, LobInv A K it st' ∧ lam = st'.lam ∧ X = st'.S ∧
        res = relRes st'.S st'.AS st'.lam ∧
        check NR (absRes st'.S st'.AS st'.lam) (relRes st'.S st'.AS st'.lam) set.tol = true ∧
        (∀ i < K, lam i ≤ st.lam i) ∧ iter ≤ it ∧ it < iter + n
    | .failed lam X res => ∃ st' : LobState ι, LobInv A K (iter + n) st' ∧ lam = st'.lam ∧ X = st'.S ∧
        res = relRes st'.S st'.AS st'.lam ∧ (∀ i < K, lam i ≤ st.lam i)
    | .cholFailed it V => ∃ st' : LobState ι, LobInv A K it st' ∧ V = reverseCols K st'.V ∧
        Dependent K (lobDirections K op it st') ∧ iter ≤ it ∧ it < iter + n := by
  intro n
  induction n with
  | zero =>
    intro iter st h
    exact ⟨st, h, rfl, rfl, rfl, fun _ _ => le_refl _⟩
  | succ n ih =>
    intro iter st h
    rw [lobLoop]
    dsimp only
    by_cases hc : check NR (absRes st.S st.AS st.lam) (relRes st.S st.AS st.lam) set.tol = true
    · rw [if_pos hc]
      exact ⟨st, h, rfl, rfl, rfl, hc, fun _ _ => le_refl _, le_refl _, by omega⟩
    · rw [if_neg hc]
      rcases cholqr_spec hp K (lobDirections K op iter st) with ⟨hd, e⟩ | ⟨-, W, e, hW, hWo⟩
      · rw [e]
        exact ⟨st, h, rfl, hd, le_refl _, by omega⟩
      · rw [e]
        dsimp only
        obtain ⟨h', hmono, -, -⟩ := lobUpdate_inv hs hq hA hop h hW
          (fun p hp c hc => hWo (st.S p) (fun j _ => directions_orth h p hp j) c hc)
        have := ih (iter + 1) _ h'
        revert this
        cases (lobLoop lp set K NR op check n (iter + 1) (lobUpdate lp K op iter st W)).1 with
        | query _ => exact id
        | badArg => exact id
        | converged it lam X res =>
          rintro ⟨st', h1, h2, h3, h4, h5, h6, h7, h8⟩
          exact ⟨st', h1, h2, h3, h4, h5, fun i hi => (h6 i hi).trans (hmono i hi), by omega, by omega⟩
        | failed lam X res =>
          rintro ⟨st', h1, h2, h3, h4, h6⟩
          refine ⟨st', ?_, h2, h3, h4, fun i hi => (h6 i hi).trans (hmono i hi)⟩
          rw [show iter + (n + 1) = iter + 1 + n by ring]
          exact h1
        | cholFailed it V =>
          rintro ⟨st', h1, h2, h3, h4, h5⟩
          exact ⟨st', h1, h2, h3, by omega, by omega⟩

omit [DecidableEq ι] in
theorem last_region (N K : Int) : (lobRegions N K).getLast? =
    some (3 * N * K + 3 * N * K + 9 * K * K + 3 * K + K + K, 2 * N * K) := by
  simp [lobRegions]

omit [DecidableEq ι] in
/-- with valid arguments the driver runs the loop -/
theorem lobpcg_eq (lp : LobLapack) {set : LobSettings} {K NR : Nat} {op : LobOp ι} {V : Nat → ι → ℝ}
    {lwork : Int} (check : Nat → (Nat → ℝ) → (Nat → Option ℝ) → ℝ → Bool)
    (hw : lobLwork (Fintype.card ι) K ≤ lwork) (hm : 0 ≤ set.maxiter) (ht : 0 ≤ set.tol) :
    lobpcg lp set K NR op V lwork check =
      lobLoop lp set K NR op check set.maxiter.toNat 0 (lobInit lp K op V) := by
  have h0 : 0 ≤ lobLwork (Fintype.card ι) K := by
    unfold lobLwork; positivity
  unfold lobpcg
  dsimp only
  rw [if_neg (by omega), if_neg (by omega), if_neg (by omega), if_neg (not_lt.2 ht), last_region]
  dsimp only
  rw [if_neg]
  unfold lobLwork at hw
  have : (3 * (Fintype.card ι : Int) * K + 3 * (Fintype.card ι) * K + 9 * K * K + 3 * K + K + K) +
    2 * (Fintype.card ι) * K = 8 * (Fintype.card ι) * K + 9 * K * K + 5 * K := by ring
  rw [this]
  omega

omit [DecidableEq ι] in
/-- otherwise it does not reach the loop -/
theorem lobpcg_args {lp : LobLapack} {set : LobSettings} {K NR : Nat} {op : LobOp ι} {V : Nat → ι → ℝ}
    {lwork : Int} {check : Nat → (Nat → ℝ) → (Nat → Option ℝ) → ℝ → Bool}
    (h : ¬ (lobLwork (Fintype.card ι) K ≤ lwork ∧ 0 ≤ set.maxiter ∧ 0 ≤ set.tol)) :
    (lobpcg lp set K NR op V lwork check).1 = .query (lobLwork (Fintype.card ι) K) ∨
    (lobpcg lp set K NR op V lwork check).1 = .badArg := by
  unfold lobpcg
  dsimp only
  by_cases h1 : lwork < 0
  · rw [if_pos h1]; exact Or.inl rfl
  · rw [if_neg h1]
    by_cases h2 : lwork < lobLwork (Fintype.card ι) K
    · rw [if_pos h2]; exact Or.inr rfl
    · rw [if_neg h2]
      by_cases h3 : set.maxiter < 0
      · rw [if_pos h3]; exact Or.inr rfl
      · rw [if_neg h3, if_pos (by
          by_contra h4
          exact h ⟨by omega, by omega, not_lt.1 h4⟩)]
        exact Or.inr rfl

/-! ### the guess and the Ritz values -/

theorem lobInit_lam_le {lp : LobLapack} (hs : SyevMatSpec lp.syev) {A : Matrix ι ι ℝ} (hA : A.IsSymm)
    {K : Nat} {op : LobOp ι} (hop : ActsAs op A) {V : Nat → ι → ℝ} (hV : OrthonormalCols K V)
    {th : Nat → ℝ} {U : Nat → ι → ℝ} (hU : RitzPairs A K th U)
    (hspan : ∀ c < K, ∃ a : Nat → ℝ, ∀ t, U c t = ∑ j ∈ range K, V j t * a j) :
    ∀ i < K, (lobInit lp K op V).lam i ≤ th i := by
  have hE := rr_spec hs hA (fun c hc => hop K V c hc)
  intro i hi
  have hc : ∀ c, ∃ a : Nat → ℝ, c < K → U c = combine K V a := by
    intro c
    by_cases h : c < K
    · obtain ⟨a, ha⟩ := hspan c h
      exact ⟨a, fun _ => funext ha⟩
    · exact ⟨fun _ => 0, fun h' => absurd h' h⟩
  choose D hD using hc
  refine ritz_le hE hi (D := fun p j => D j p) (th := th) ?_ ?_ fun a ha => hU.asc a i ha hi
  · intro a ha b hb
    rw [← combine_inner hV, ← hD a (by omega), ← hD b (by omega)]
    exact hU.ortho a (by omega) b (by omega)
  · intro a ha b hb
    rw [← combine_form, ← hD a (by omega), ← hD b (by omega)]
    exact hU.diag a (by omega) b (by omega)

theorem ortho_card {k : Nat} {X : Nat → ι → ℝ} (h : OrthonormalCols k X) : k ≤ Fintype.card ι := by
  by_contra hlt
  push Not at hlt
  have h1 : OrthonormalCols (Fintype.card ι) X := fun p hp q hq => h p (by omega) q (by omega)
  have h2 := zero_of_orth_full h1 (r := X (Fintype.card ι)) fun p hp => by
    rw [ortho_vdot h (by omega) hlt, if_neg hp.ne]
  have h3 := ortho_vdot h hlt hlt
  rw [h2, if_pos rfl] at h3
  simp [vdot] at h3

/-- What is returned in any case: `K` orthonormal Ritz vectors, whose ascending Ritz values lie
between the eigenvalues of the same rank and the Ritz values of the guess. -/
structure LobResult (A : Matrix ι ι ℝ) (K : Nat) (V : Nat → ι → ℝ) (lam : Nat → ℝ) (X : Nat → ι → ℝ) :
    Prop where
  ritz : RitzPairs A K lam X
  /-- no value is below the eigenvalue of the same rank, for any complete set of eigenvectors -/
  above : ∀ (mu : Nat → ℝ) (Y : Nat → ι → ℝ), OrthonormalCols (Fintype.card ι) Y →
    (∀ i j, i ≤ j → j < Fintype.card ι → mu i ≤ mu j) →
    (∀ j < Fintype.card ι, A.mulVec (Y j) = mu j • Y j) → ∀ i < K, mu i ≤ lam i
  /-- no value is above the Ritz value of the same rank in the span of the guess -/
  below : ∀ (th : Nat → ℝ) (U : Nat → ι → ℝ), RitzPairs A K th U →
    (∀ c < K, ∃ a : Nat → ℝ, ∀ t, U c t = ∑ j ∈ range K, V j t * a j) → ∀ i < K, lam i ≤ th i

theorem lobResult_of_inv {lp : LobLapack} (hs : SyevMatSpec lp.syev) {A : Matrix ι ι ℝ} (hA : A.IsSymm)
    {K it : Nat} {op : LobOp ι} (hop : ActsAs op A) {V : Nat → ι → ℝ} (hV : OrthonormalCols K V)
    {st : LobState ι} (h : LobInv A K it st)
    (hm : ∀ i < K, st.lam i ≤ (lobInit lp K op V).lam i) : LobResult A K V st.lam st.S :=
  ⟨h.ritz, fun _ _ h1 h2 h3 => eigenvalue_le_ritz h1 h2 h3 (ortho_card hV) h.ritz,
    fun _ _ hU hsp i hi => (hm i hi).trans (lobInit_lam_le hs hA hop hV hU hsp i hi)⟩

theorem absRes_eq {A : Matrix ι ι ℝ} {K it : Nat} {st : LobState ι} (h : LobInv A K it st) {i : Nat}
    (hi : i < K) : absRes st.S st.AS st.lam i = nrm2 (fun t => A.mulVec (st.S i) t - st.lam i * st.S i t) := by
  have hd : i < lobDim K it := by simp only [lobDim]; split_ifs <;> omega
  unfold absRes
  congr 1
  funext t
  rw [residCol, h.act i hd]
  ring

theorem nrm2_nonneg (x : ι → ℝ) : 0 ≤ nrm2 x := Real.sqrt_nonneg _

omit [DecidableEq ι] in
theorem relresCheck_iff {NR : Nat} {abs : Nat → ℝ} {rel : Nat → Option ℝ} {tol : ℝ} :
    relresCheck NR abs rel tol = true ↔ ∀ i < NR, ∃ r, rel i = some r ∧ r < tol := by
  unfold relresCheck
  rw [List.all_eq_true]
  constructor
  · intro h i hi
    have := h i (List.mem_range.2 hi)
    cases e : rel i with
    | none => rw [e] at this; simp at this
    | some r => rw [e] at this; exact ⟨r, rfl, by simpa using this⟩
  · intro h i hi
    obtain ⟨r, e, hr⟩ := h i (List.mem_range.1 hi)
    rw [e]
    simpa using hr

omit [DecidableEq ι] in
theorem absresCheck_iff {NR : Nat} {abs : Nat → ℝ} {rel : Nat → Option ℝ} {tol : ℝ} :
    absresCheck NR abs rel tol = true ↔ ∀ i < NR, abs i < tol := by
  unfold absresCheck
  rw [List.all_eq_true]
  simp

/-! ### C123 -/

/-- C123.  `lobpcg` with the default (relative) convergence check, orthonormal guess, symmetric matrix
and any preconditioner: on return the vectors are orthonormal Ritz vectors with ascending Ritz values
bounded by the eigenvalues and by the guess; each of the first `NR` residuals is below the tolerance
relative to `‖A x‖ + |λ|`, and an eigenvalue of `A` is that close. -/
theorem C123_lobpcg_relative {lp : LobLapack} (hp : PotrfSpec lp.potrf) (hs : SyevMatSpec lp.syev)
    (hq : LqSpec lp.lq) {A : Matrix ι ι ℝ} (hA : A.IsSymm) {K NR : Nat} (hNR : NR ≤ K) {op : LobOp ι}
    (hop : ∀ k X c, c < k → op.A k X c = A.mulVec (X c)) {V : Nat → ι → ℝ} (hV : OrthonormalCols K V)
    {set : LobSettings} {lwork : Int} {it : Nat} {lam : Nat → ℝ} {X : Nat → ι → ℝ} {res : Nat → Option ℝ}
    (h : (lobpcg lp set K NR op V lwork relresCheck).1 = .converged it lam X res) :
    LobResult A K V lam X ∧
    ∀ i < NR, 
      let scale := Real.sqrt (∑ t, A.mulVec (X i) t * A.mulVec (X i) t) + |lam i|
      let r := Real.sqrt (∑ t, (A.mulVec (X i) t - lam i * X i t) * (A.mulVec (X i) t - lam i * X i t))
      r < set.tol * scale ∧ res i = some (r / scale) ∧
      ∃ (mu : ℝ) (y : ι → ℝ), y ≠ 0 ∧ A.mulVec y = mu • y ∧ |mu - lam i| < set.tol * scale := by
  by_cases harg : lobLwork (Fintype.card ι) K ≤ lwork ∧ 0 ≤ set.maxiter ∧ 0 ≤ set.tol
  swap
  · rcases lobpcg_args (lp := lp) (NR := NR) (op := op) (V := V) (check := relresCheck) harg with e | e <;>
      rw [e] at h <;> cases h
  obtain ⟨hw, hm, ht⟩ := harg
  rw [lobpcg_eq lp relresCheck hw hm ht] at h
  have hinv := lobInit_inv hs hA hop hV
  have hsp := lobLoop_spec hp hs hq hA hop (NR := NR) set relresCheck set.maxiter.toNat 0 _ hinv
  rw [h] at hsp
  obtain ⟨st, hI, rfl, rfl, hres, hc, hmono, -, -⟩ := hsp
  refine ⟨lobResult_of_inv hs hA hop hV hI hmono, fun i hi => ?_⟩
  obtain ⟨r, hr, hrt⟩ := relresCheck_iff.1 hc i hi
  have hact : st.AS i = A.mulVec (st.S i) :=
    hI.act i (by simp only [lobDim]; split_ifs <;> omega)
  have hb := hr
  rw [relRes, hact, absRes_eq hI (by omega)] at hb
  split_ifs at hb with hz
  rw [Option.some.injEq] at hb
  have hden : 0 < nrm2 (A.mulVec (st.S i)) + |st.lam i| :=
    lt_of_le_of_ne (add_nonneg (nrm2_nonneg _) (abs_nonneg _)) (Ne.symm hz)
  have hlt : nrm2 (fun t => A.mulVec (st.S i) t - st.lam i * st.S i t) <
      set.tol * (nrm2 (A.mulVec (st.S i)) + |st.lam i|) := by
    rw [← hb, div_lt_iff₀ hden] at hrt
    exact hrt
  refine ⟨hlt, ?_, ?_⟩
  · rw [hres, hr, ← hb]; rfl
  · exact eigenvalue_near hA (by
      have := ortho_vdot hI.ritz.ortho (show i < K by omega) (show i < K by omega)
      rw [this, if_pos rfl]) hlt

/-- C123, absolute check. -/
theorem C123_lobpcg_absolute {lp : LobLapack} (hp : PotrfSpec lp.potrf) (hs : SyevMatSpec lp.syev)
    (hq : LqSpec lp.lq) {A : Matrix ι ι ℝ} (hA : A.IsSymm) {K NR : Nat} (hNR : NR ≤ K) {op : LobOp ι}
    (hop : ∀ k X c, c < k → op.A k X c = A.mulVec (X c)) {V : Nat → ι → ℝ} (hV : OrthonormalCols K V)
    {set : LobSettings} {lwork : Int} {it : Nat} {lam : Nat → ℝ} {X : Nat → ι → ℝ} {res : Nat → Option ℝ}
    (h : (lobpcg lp set K NR op V lwork absresCheck).1 = .converged it lam X res) :
    LobResult A K V lam X ∧
    ∀ i < NR,
      Real.sqrt (∑ t, (A.mulVec (X i) t - lam i * X i t) * (A.mulVec (X i) t - lam i * X i t)) < set.tol ∧
      ∃ (mu : ℝ) (y : ι → ℝ), y ≠ 0 ∧ A.mulVec y = mu • y ∧ |mu - lam i| < set.tol := by
  by_cases harg : lobLwork (Fintype.card ι) K ≤ lwork ∧ 0 ≤ set.maxiter ∧ 0 ≤ set.tol
  swap
  · rcases lobpcg_args (lp := lp) (NR := NR) (op := op) (V := V) (check := absresCheck) harg with e | e <;>
      rw [e] at h <;> cases h
  obtain ⟨hw, hm, ht⟩ := harg
  rw [lobpcg_eq lp absresCheck hw hm ht] at h
  have hinv := lobInit_inv hs hA hop hV
  have hsp := lobLoop_spec hp hs hq hA hop (NR := NR) set absresCheck set.maxiter.toNat 0 _ hinv
  rw [h] at hsp
  obtain ⟨st, hI, rfl, rfl, hres, hc, hmono, -, -⟩ := hsp
  refine ⟨lobResult_of_inv hs hA hop hV hI hmono, fun i hi => ?_⟩
  have hlt := absresCheck_iff.1 hc i hi
  rw [absRes_eq hI (by omega)] at hlt
  refine ⟨hlt, eigenvalue_near hA ?_ hlt⟩
  have := ortho_vdot hI.ritz.ortho (show i < K by omega) (show i < K by omega)
  rw [this, if_pos rfl]

/-- C123, the interface without work array and check: the argument checks are met, and a normal return
satisfies the relative criterion. -/
theorem C123_lobpcg_simple {lp : LobLapack} (hp : PotrfSpec lp.potrf) (hs : SyevMatSpec lp.syev)
    (hq : LqSpec lp.lq) {A : Matrix ι ι ℝ} (hA : A.IsSymm) {K NR : Nat} (hNR : NR ≤ K) {op : LobOp ι}
    (hop : ∀ k X c, c < k → op.A k X c = A.mulVec (X c)) {V : Nat → ι → ℝ} (hV : OrthonormalCols K V)
    {set : LobSettings} (hm : 0 ≤ set.maxiter) (ht : 0 ≤ set.tol) :
    match (lobpcgSimple lp set K NR op V).1 with
    | .converged _ lam X res => LobResult A K V lam X ∧ ∀ i < NR, ∃ r, res i = some r ∧ r < set.tol ∧
        r * (Real.sqrt (∑ t, A.mulVec (X i) t * A.mulVec (X i) t) + |lam i|) =
          Real.sqrt (∑ t, (A.mulVec (X i) t - lam i * X i t) * (A.mulVec (X i) t - lam i * X i t))
    | .failed lam X _ => LobResult A K V lam X
    | .cholFailed _ _ => True
    | _ => False := by
  have hinv := lobInit_inv hs hA hop hV
  have hsp := lobLoop_spec hp hs hq hA hop (NR := NR) set relresCheck set.maxiter.toNat 0 _ hinv
  rw [lobpcgSimple, lobpcg_eq lp relresCheck (le_refl _) hm ht]
  revert hsp
  cases (lobLoop lp set K NR op relresCheck set.maxiter.toNat 0 (lobInit lp K op V)).1 with
  | query l => exact id
  | badArg => exact id
  | cholFailed it R => exact fun _ => trivial
  | failed lam X res =>
    rintro ⟨st, hI, rfl, rfl, -, hmono⟩
    exact lobResult_of_inv hs hA hop hV hI hmono
  | converged it lam X res =>
    rintro ⟨st, hI, rfl, rfl, hres, hc, hmono, -, -⟩
    refine ⟨lobResult_of_inv hs hA hop hV hI hmono, fun i hi => ?_⟩
    obtain ⟨r, hr, hrt⟩ := relresCheck_iff.1 hc i hi
    refine ⟨r, by rw [hres, hr], hrt, ?_⟩
    have hact : st.AS i = A.mulVec (st.S i) :=
      hI.act i (by simp only [lobDim]; split_ifs <;> omega)
    rw [relRes, hact, absRes_eq hI (by omega)] at hr
    split_ifs at hr with hz
    rw [Option.some.injEq] at hr
    rw [← hr]
    exact div_mul_cancel₀ _ hz

/-! ### C124 -/

/-- C124.  When the iterations run out, the outputs filled before the exception are Ritz pairs with
the same bounds. -/
theorem C124_not_converged {lp : LobLapack} (hp : PotrfSpec lp.potrf) (hs : SyevMatSpec lp.syev)
    (hq : LqSpec lp.lq) {A : Matrix ι ι ℝ} (hA : A.IsSymm) {K NR : Nat} {op : LobOp ι}
    (hop : ∀ k X c, c < k → op.A k X c = A.mulVec (X c)) {V : Nat → ι → ℝ} (hV : OrthonormalCols K V)
    {set : LobSettings} {lwork : Int} {lam : Nat → ℝ} {X : Nat → ι → ℝ} {res : Nat → Option ℝ}
    (check : Nat → (Nat → ℝ) → (Nat → Option ℝ) → ℝ → Bool)
    (h : (lobpcg lp set K NR op V lwork check).1 = .failed lam X res) : LobResult A K V lam X := by
  by_cases harg : lobLwork (Fintype.card ι) K ≤ lwork ∧ 0 ≤ set.maxiter ∧ 0 ≤ set.tol
  swap
  · rcases lobpcg_args (lp := lp) (NR := NR) (op := op) (V := V) (check := check) harg with e | e <;>
      rw [e] at h <;> cases h
  obtain ⟨hw, hm, ht⟩ := harg
  rw [lobpcg_eq lp check hw hm ht] at h
  have hinv := lobInit_inv hs hA hop hV
  have hsp := lobLoop_spec hp hs hq hA hop (NR := NR) set check set.maxiter.toNat 0 _ hinv
  rw [h] at hsp
  obtain ⟨st, hI, rfl, rfl, -, hmono⟩ := hsp
  exact lobResult_of_inv hs hA hop hV hI hmono

/-- C124.  One successful iteration from orthonormal `[X P]` with correct products: it stays that way,
no Ritz value rises, and the previous Ritz vectors lie in the span of the new `[X P]`. -/
theorem C124_iteration {lp : LobLapack} (hp : PotrfSpec lp.potrf) (hs : SyevMatSpec lp.syev)
    (hq : LqSpec lp.lq) {A : Matrix ι ι ℝ} (hA : A.IsSymm) {K iter : Nat} {op : LobOp ι}
    (hop : ∀ k X c, c < k → op.A k X c = A.mulVec (X c)) {st : LobState ι} (h : LobInv A K iter st)
    {W : Nat → ι → ℝ} (hW : cholqr lp K 2 (lobDirections K op iter st) = some W) :
    let st' := lobUpdate lp K op iter st W
    OrthonormalCols (2 * K) st'.S ∧ (∀ c < 2 * K, st'.AS c = A.mulVec (st'.S c)) ∧
    RitzPairs A K st'.lam st'.S ∧ (∀ i < K, st'.lam i ≤ st.lam i) ∧
    ∀ i < K, ∃ a : Nat → ℝ, ∀ t, st.S i t = ∑ j ∈ range (2 * K), st'.S j t * a j := by
  intro st'
  rcases cholqr_spec hp K (lobDirections K op iter st) with ⟨-, e⟩ | ⟨-, W', e, hWo, hWp⟩
  · rw [e] at hW; cases hW
  · rw [hW, Option.some.injEq] at e
    subst e
    obtain ⟨h', hm, hsp, -⟩ := lobUpdate_inv hs hq hA hop h hWo
      (fun p hp c hc => hWp (st.S p) (fun j _ => directions_orth h p hp j) c hc)
    refine ⟨by simpa [lobDim] using h'.orth, by simpa [lobDim] using h'.act, h'.ritz, hm, fun i hi => ?_⟩
    obtain ⟨a, ha⟩ := hsp i hi
    exact ⟨a, fun t => congrFun ha t⟩

/-! ### C125 -/

omit [Fintype ι] [DecidableEq ι] in
theorem reverse_spec (K : Nat) (V : Nat → ι → ℝ) : ∀ i < K, reverseCols K V i = V (K - 1 - i) := by
  have key : ∀ m, m ≤ K / 2 → ∀ i < K, ((List.range m).foldl (fun V i =>
      Function.update (Function.update V i (V (K - 1 - i))) (K - 1 - i) (V i)) V) i =
      if i < m ∨ K - 1 - i < m then V (K - 1 - i) else V i := by
    intro m
    induction m with
    | zero => intro _ i _; simp
    | succ m ih =>
      intro hm i hi
      have ih := ih (by omega)
      rw [List.range_succ, List.foldl_append]
      simp only [List.foldl_cons, List.foldl_nil]
      rw [Function.update_apply]
      by_cases e1 : i = K - 1 - m
      · rw [if_pos e1, ih m (by omega), if_neg (by omega), if_pos (by omega)]
        congr 1; omega
      · rw [if_neg e1, Function.update_apply]
        by_cases e2 : i = m
        · rw [if_pos e2, ih (K - 1 - m) (by omega), if_neg (by omega), if_pos (by omega), e2]
        · rw [if_neg e2, ih i hi]
          exact if_congr (by omega) rfl rfl
  intro i hi
  rw [reverseCols, key (K / 2) (le_refl _) i hi]
  split_ifs with h
  · rfl
  · congr 1; omega

omit [DecidableEq ι] in
theorem dependent_project {K n : Nat} {S W : Nat → ι → ℝ} (h : Dependent K W) :
    Dependent K (fun c => projectOut n S (W c)) := by
  obtain ⟨v, hv, h0⟩ := h
  refine ⟨v, hv, ?_⟩
  have e : ∀ j, vdot (S j) (combine K W v) = 0 := fun j => by rw [h0]; simp [vdot]
  funext t
  have h0t : ∑ c ∈ range K, W c t * v c = 0 := congrFun h0 t
  simp only [combine, projectOut, sub_mul, sum_sub_distrib, Pi.zero_apply]
  rw [h0t, zero_sub, neg_eq_zero]
  simp_rw [sum_mul]
  rw [sum_comm]
  apply sum_eq_zero
  intro j _
  have := e j
  rw [vdot_combine_right] at this
  rw [sum_congr rfl fun c _ => show S j t * vdot (S j) (W c) * v c = S j t * (vdot (S j) (W c) * v c) by ring,
    ← mul_sum, this, mul_zero]

omit [Fintype ι] [DecidableEq ι] in
theorem dependent_reverse {K : Nat} {W : Nat → ι → ℝ} (h : Dependent K W) : Dependent K (reverseCols K W) := by
  obtain ⟨v, ⟨i, hi, hv⟩, h0⟩ := h
  refine ⟨fun c => v (K - 1 - c), ⟨K - 1 - i, by omega, ?_⟩, ?_⟩
  · simp only
    rwa [show K - 1 - (K - 1 - i) = i by omega]
  · funext t
    have h0t : ∑ c ∈ range K, W c t * v c = 0 := congrFun h0 t
    simp only [combine, Pi.zero_apply]
    rw [← h0t, ← sum_range_reflect]
    refine sum_congr rfl fun c hc => ?_
    have := mem_range.1 hc
    rw [reverse_spec K W _ (by omega), show K - 1 - (K - 1 - c) = c by omega]

/-- an eigenvector in the span of the Ritz vectors makes the residuals dependent -/
theorem residuals_dependent {A : Matrix ι ι ℝ} (hA : A.IsSymm) {K it : Nat} {st : LobState ι}
    (h : LobInv A K it st) {u : ι → ℝ} (hu : u ≠ 0) {th : ℝ} (heig : A.mulVec u = th • u) {b : Nat → ℝ}
    (hb : u = combine K st.S b) : Dependent K st.V := by
  have hne : ∃ i < K, b i ≠ 0 := by
    by_contra hall
    push Not at hall
    apply hu
    rw [hb]
    funext t
    simp only [combine, Pi.zero_apply]
    exact sum_eq_zero fun j hj => by rw [hall j (mem_range.1 hj), mul_zero]
  refine ⟨b, hne, ?_⟩
  -- components of b are eigencomponents
  have hlam : ∀ i < K, st.lam i * b i = th * b i := by
    intro i hi
    have e1 : vdot (st.S i) (A.mulVec u) = st.lam i * b i := by
      rw [hb, mulVec_combine, vdot_combine_right, sum_eq_single i]
      · have := h.ritz.diag i hi i hi
        rw [if_pos rfl] at this
        change vdot _ _ = _ at this
        rw [this]
      · intro j hj hji
        have := h.ritz.diag i hi j (mem_range.1 hj)
        rw [if_neg hji.symm] at this
        change vdot _ _ = _ at this
        rw [this, zero_mul]
      · intro hh; exact absurd (mem_range.2 hi) hh
    have e2 : vdot (st.S i) (A.mulVec u) = th * b i := by
      rw [heig, vdot_comm, vdot_pismul_left, vdot_comm, hb, vdot_combine_right, sum_eq_single i]
      · rw [ortho_vdot h.ritz.ortho hi hi, if_pos rfl, one_mul]
      · intro j hj hji
        rw [ortho_vdot h.ritz.ortho hi (mem_range.1 hj), if_neg hji.symm, zero_mul]
      · intro hh; exact absurd (mem_range.2 hi) hh
    rw [← e1, e2]
  funext t
  simp only [combine, Pi.zero_apply]
  have hut : u t = ∑ j ∈ range K, st.S j t * b j := congrFun hb t
  have hAt : A.mulVec u t = ∑ j ∈ range K, A.mulVec (st.S j) t * b j := by
    have := congrFun (mulVec_combine A K st.S b) t
    rw [← hb] at this
    exact this
  have hterm : ∀ j ∈ range K, st.V j t * b j =
      A.mulVec (st.S j) t * b j - st.S j t * (th * b j) := by
    intro j hj
    rw [h.resid j (mem_range.1 hj), ← hlam j (mem_range.1 hj)]
    dsimp only
    ring
  rw [sum_congr rfl hterm, sum_sub_distrib, ← hAt, heig, Pi.smul_apply, smul_eq_mul, hut, mul_sum, sub_eq_zero]
  exact sum_congr rfl fun j _ => by ring

/-- the span of the guess is the span of the initial Ritz vectors -/
theorem lobInit_span {lp : LobLapack} (hs : SyevMatSpec lp.syev) {A : Matrix ι ι ℝ} (hA : A.IsSymm)
    {K : Nat} {op : LobOp ι} (hop : ActsAs op A) {V : Nat → ι → ℝ} (a : Nat → ℝ) :
    ∃ b, combine K V a = combine K (lobInit lp K op V).S b := by
  have hE := rr_spec hs hA (fun c hc => hop K V c hc)
  set r := rayleighRitz lp K V (op.A K V) with hr
  have hS : ∀ c < K, (lobInit lp K op V).S c = combine K V (fun p => r.2 p c) := by
    intro c hc
    change rotateBasis K K V r.2 c = _
    rw [rotateBasis, if_pos hc]
  refine ⟨fun c => ∑ p ∈ range K, r.2 p c * a p, ?_⟩
  funext t
  simp only [combine]
  have hterm : ∀ c ∈ range K, (lobInit lp K op V).S c t * (∑ p ∈ range K, r.2 p c * a p) =
      ∑ q ∈ range K, ∑ p ∈ range K, V q t * r.2 q c * (r.2 p c * a p) := by
    intro c hc
    rw [hS c (mem_range.1 hc)]
    simp only [combine]
    exact sum_mul_sum _ _ _ _
  refine Eq.trans ?_ (sum_congr rfl hterm).symm
  rw [sum_comm]
  symm
  refine sum_congr rfl fun q hq => ?_
  rw [sum_comm, sum_eq_single q]
  · rw [sum_congr rfl fun c _ => show V q t * r.2 q c * (r.2 q c * a q) =
      V q t * a q * (r.2 q c * r.2 q c) by ring, ← mul_sum, symEig_rows hE (mem_range.1 hq) (mem_range.1 hq),
      if_pos rfl, mul_one]
  · intro p hp hpq
    rw [sum_congr rfl fun c _ => show V q t * r.2 q c * (r.2 p c * a p) =
      V q t * a p * (r.2 q c * r.2 p c) by ring, ← mul_sum, symEig_rows hE (mem_range.1 hq) (mem_range.1 hp),
      if_neg hpq.symm, mul_zero]
  · intro hh; exact absurd hq hh

/-- C125.  Guesses containing an exact eigenvector are not handled: if some eigenvector lies in the
span of the guess and the first convergence check does not accept the whole set, then `lobpcg` without
preconditioner throws "Cholesky failed in CholQR" in the first iteration, whatever the matrix, and
leaves (reversed) residuals in the caller's vectors. -/
theorem C125_eigenvector_in_guess_refuted {lp : LobLapack} (hp : PotrfSpec lp.potrf)
    (hs : SyevMatSpec lp.syev) {A : Matrix ι ι ℝ} (hA : A.IsSymm) {K NR : Nat} {op : LobOp ι}
    (hop : ∀ k X c, c < k → op.A k X c = A.mulVec (X c)) (hprec : ∀ X, op.K K X = X)
    {V : Nat → ι → ℝ} (hV : OrthonormalCols K V) {set : LobSettings} (hm : 0 < set.maxiter)
    (ht : 0 ≤ set.tol) {lwork : Int} (hw : lobLwork (Fintype.card ι) K ≤ lwork)
    (check : Nat → (Nat → ℝ) → (Nat → Option ℝ) → ℝ → Bool)
    {u : ι → ℝ} (hu : u ≠ 0) {th : ℝ} (heig : A.mulVec u = th • u) {a : Nat → ℝ}
    (hspan : ∀ t, u t = ∑ j ∈ range K, V j t * a j) :
    (∃ lam X res, (lobpcg lp set K NR op V lwork check).1 = .converged 0 lam X res) ∨
    ∃ R, (lobpcg lp set K NR op V lwork check).1 = .cholFailed 0 R ∧ Dependent K R := by
  have hinv := lobInit_inv hs hA hop hV
  rw [lobpcg_eq lp check hw hm.le ht]
  obtain ⟨n, hn⟩ : ∃ n, set.maxiter.toNat = n + 1 := ⟨set.maxiter.toNat - 1, by omega⟩
  rw [hn, lobLoop]
  dsimp only
  by_cases hc : check NR (absRes (lobInit lp K op V).S (lobInit lp K op V).AS (lobInit lp K op V).lam)
      (relRes (lobInit lp K op V).S (lobInit lp K op V).AS (lobInit lp K op V).lam) set.tol = true
  · rw [if_pos hc]
    exact Or.inl ⟨_, _, _, rfl⟩
  · rw [if_neg hc]
    right
    obtain ⟨b, hb⟩ := lobInit_span hs hA hop (V := V) a
    have hdep := residuals_dependent hA hinv hu heig (hb ▸ (funext hspan : u = combine K V a))
    have hd : Dependent K (lobDirections K op 0 (lobInit lp K op V)) := by
      unfold lobDirections
      dsimp only
      refine dependent_project (dependent_project ?_)
      rw [hprec]
      exact dependent_reverse hdep
    rcases cholqr_spec hp K (lobDirections K op 0 (lobInit lp K op V)) with ⟨-, e⟩ | ⟨hnd, -⟩
    · rw [e]
      exact ⟨_, rfl, dependent_reverse hdep⟩
    · exact absurd hd hnd

/-- C125.  Blocks of more than a third of the dimension cannot iterate: unless a convergence check
accepts, the run ends in "Cholesky failed in CholQR" in the first (`2K > N`) or second iteration. -/
theorem C125_large_block_refuted {lp : LobLapack} (hp : PotrfSpec lp.potrf)
    (hs : SyevMatSpec lp.syev) (hq : LqSpec lp.lq) {A : Matrix ι ι ℝ} (hA : A.IsSymm) {K NR : Nat}
    {op : LobOp ι} (hop : ∀ k X c, c < k → op.A k X c = A.mulVec (X c))
    {V : Nat → ι → ℝ} (hV : OrthonormalCols K V) {set : LobSettings} (hm : 2 ≤ set.maxiter)
    (ht : 0 ≤ set.tol) {lwork : Int} (hw : lobLwork (Fintype.card ι) K ≤ lwork)
    (check : Nat → (Nat → ℝ) → (Nat → Option ℝ) → ℝ → Bool) (hbig : Fintype.card ι < 3 * K)
    (hnc : ∀ it lam X res, (lobpcg lp set K NR op V lwork check).1 ≠ .converged it lam X res) :
    ∃ it R, (lobpcg lp set K NR op V lwork check).1 = .cholFailed it R ∧ it ≤ 1 ∧
      (Fintype.card ι < 2 * K → it = 0) := by
  have hinv := lobInit_inv hs hA hop hV
  rw [lobpcg_eq lp check hw (by omega) ht] at hnc ⊢
  obtain ⟨n, hn⟩ : ∃ n, set.maxiter.toNat = n + 2 := ⟨set.maxiter.toNat - 2, by omega⟩
  rw [hn] at hnc ⊢
  set st := lobInit lp K op V with hst
  rw [lobLoop] at hnc ⊢
  dsimp only at hnc ⊢
  by_cases hc : check NR (absRes st.S st.AS st.lam) (relRes st.S st.AS st.lam) set.tol = true
  · rw [if_pos hc] at hnc
    exact absurd rfl (hnc _ _ _ _)
  rw [if_neg hc] at hnc ⊢
  rcases cholqr_spec hp K (lobDirections K op 0 st) with ⟨-, e⟩ | ⟨-, W, e, hW, hWo⟩
  · rw [e]
    exact ⟨0, _, rfl, by omega, fun _ => rfl⟩
  rw [e] at hnc ⊢
  dsimp only at hnc ⊢
  have hWS : ∀ p < lobDim K 0, ∀ c < K, vdot (st.S p) (W c) = 0 :=
    fun p hp c hc => hWo (st.S p) (fun j _ => directions_orth hinv p hp j) c hc
  have hcard := ortho_card (storeCols_ortho hinv.orth hW hWS)
  obtain ⟨h1, -, -, -⟩ := lobUpdate_inv hs hq hA hop hinv hW hWS
  set st1 := lobUpdate lp K op 0 st W with hst1
  rw [lobLoop] at hnc ⊢
  dsimp only at hnc ⊢
  by_cases hc1 : check NR (absRes st1.S st1.AS st1.lam) (relRes st1.S st1.AS st1.lam) set.tol = true
  · rw [if_pos hc1] at hnc
    exact absurd rfl (hnc _ _ _ _)
  rw [if_neg hc1]
  rcases cholqr_spec hp K (lobDirections K op 1 st1) with ⟨-, e1⟩ | ⟨-, W1, e1, hW1, hWo1⟩
  · rw [e1]
    refine ⟨1, _, rfl, by omega, fun h2 => ?_⟩
    simp only [lobDim, if_true, one_mul] at hcard
    omega
  · have hcard1 := ortho_card (storeCols_ortho h1.orth hW1
      (fun p hp c hc => hWo1 (st1.S p) (fun j _ => directions_orth h1 p hp j) c hc))
    simp only [lobDim] at hcard1
    norm_num at hcard1
    omega

/-! ### C126 -/

theorem init_one {lp : LobLapack} (hs : SyevMatSpec lp.syev) {A : Matrix ι ι ℝ} {op : LobOp ι}
    (hop : ∀ k X c, c < k → op.A k X c = A.mulVec (X c)) (V : Nat → ι → ℝ) :
    ∃ s : ℝ, s * s = 1 ∧ (lobInit lp 1 op V).lam 0 = vdot (V 0) (A.mulVec (V 0)) ∧
      (∀ t, (lobInit lp 1 op V).S 0 t = s * V 0 t) ∧
      ∀ t, (lobInit lp 1 op V).AS 0 t = s * A.mulVec (V 0) t := by
  have hE := hs 1 (fun i j => vdot (V i) (op.A 1 V j))
  have h1 := hE.ortho 0 0 (by omega) (by omega)
  have h2 := hE.eig 0 0 (by omega) (by omega)
  simp only [range_one, sum_singleton, le_refl, if_true] at h1 h2
  refine ⟨(lp.syev 1 (fun i j => vdot (V i) (op.A 1 V j))).2 0 0, h1, ?_, ?_, ?_⟩
  · change (lp.syev 1 (fun i j => vdot (V i) (op.A 1 V j))).1 0 = _
    rw [hop 1 V 0 (by omega)] at h2
    have hne : (lp.syev 1 (fun i j => vdot (V i) (op.A 1 V j))).2 0 0 ≠ 0 := by
      intro h0; rw [h0] at h1; simp at h1
    exact (mul_right_cancel₀ hne h2).symm
  · intro t
    change rotateBasis 1 1 V (lp.syev 1 (fun i j => vdot (V i) (op.A 1 V j))).2 0 t = _
    rw [rotateBasis, if_pos (by omega), combine]
    simp [mul_comm]
  · intro t
    change rotateBasis 1 1 (op.A 1 V) (lp.syev 1 (fun i j => vdot (V i) (op.A 1 V j))).2 0 t = _
    rw [rotateBasis, if_pos (by omega), combine, ← hop 1 V 0 (by omega)]
    simp [mul_comm]

/-- C126.  The guess must be orthonormal, which the interface does not say and the code does not
enforce: with the absolute check, every direction `x` scaled down far enough is accepted at once as a
converged eigenvector, with an "eigenvalue" as small as one likes, whatever the matrix. -/
theorem C126_unnormalised_guess_refuted {lp : LobLapack} (hs : SyevMatSpec lp.syev) (A : Matrix ι ι ℝ)
    (x : ι → ℝ) {op : LobOp ι} (hop : ∀ k X c, c < k → op.A k X c = A.mulVec (X c)) {set : LobSettings}
    (hm : 0 < set.maxiter) (ht : 0 < set.tol) {lwork : Int} (hw : lobLwork (Fintype.card ι) 1 ≤ lwork)
    {eps : ℝ} (heps : 0 < eps) :
    ∃ c : ℝ, 0 < c ∧ ∃ lam X res,
      (lobpcg lp set 1 1 op (fun _ t => c * x t) lwork absresCheck).1 = .converged 0 lam X res ∧
      |lam 0| < eps ∧ ∃ s : ℝ, s * s = 1 ∧ ∀ t, X 0 t = s * (c * x t) := by
  set rho := vdot x (A.mulVec x) with hrho
  set M := 2 * vdot (A.mulVec x) (A.mulVec x) + 2 * (rho * rho) * vdot x x with hM
  have hM0 : 0 ≤ M := by
    have := vdot_self_nonneg (A.mulVec x)
    have := vdot_self_nonneg x
    have := mul_self_nonneg rho
    positivity
  set q := min 1 (min (set.tol ^ 2 / (2 * (M + 1))) (eps / (2 * (|rho| + 1)))) with hq
  have hqpos : 0 < q := by
    have h1 : 0 < set.tol ^ 2 / (2 * (M + 1)) := by positivity
    have h2 : 0 < eps / (2 * (|rho| + 1)) := by positivity
    exact lt_min one_pos (lt_min h1 h2)
  have hq1 : q ≤ 1 := min_le_left _ _
  have hq2 : q * M < set.tol ^ 2 := by
    have h : q ≤ set.tol ^ 2 / (2 * (M + 1)) := (min_le_right _ _).trans (min_le_left _ _)
    rw [le_div_iff₀ (by positivity)] at h
    have : 0 < set.tol ^ 2 := by positivity
    nlinarith
  have hq3 : q * |rho| < eps := by
    have h : q ≤ eps / (2 * (|rho| + 1)) := (min_le_right _ _).trans (min_le_right _ _)
    rw [le_div_iff₀ (by positivity)] at h
    have := abs_nonneg rho
    nlinarith
  set c := Real.sqrt q with hc
  have hcc : c * c = q := Real.mul_self_sqrt hqpos.le
  have hcpos : 0 < c := Real.sqrt_pos.2 hqpos
  refine ⟨c, hcpos, ?_⟩
  set V : Nat → ι → ℝ := fun _ t => c * x t with hV
  obtain ⟨s, hs1, hlam, hS, hAS⟩ := init_one hs hop V
  have hAV : ∀ t, A.mulVec (V 0) t = c * A.mulVec x t := by
    intro t
    have : V 0 = c • x := rfl
    rw [this, Matrix.mulVec_smul]; rfl
  have hlam' : (lobInit lp 1 op V).lam 0 = q * rho := by
    rw [hlam, funext hAV, vdot_smul_right, vdot_comm]
    change c * vdot (A.mulVec x) (fun t => c * x t) = _
    rw [vdot_smul_right, vdot_comm, ← hcc, ← hrho]; ring
  have habs : absRes (lobInit lp 1 op V).S (lobInit lp 1 op V).AS (lobInit lp 1 op V).lam 0 < set.tol := by
    unfold absRes nrm2
    rw [Real.sqrt_lt' ht]
    refine lt_of_le_of_lt ?_ hq2
    have hr : ∀ t, residCol (lobInit lp 1 op V).S (lobInit lp 1 op V).AS (lobInit lp 1 op V).lam 0 t =
        s * c * (A.mulVec x t - q * rho * x t) := by
      intro t
      rw [residCol, hS, hAS, hAV, hlam']
      simp only [hV]
      ring
    unfold vdot
    simp only [hr]
    rw [hM]
    unfold vdot
    simp only [mul_add, mul_sum]
    rw [← sum_add_distrib]
    refine sum_le_sum fun t _ => ?_
    have e : s * c * (A.mulVec x t - q * rho * x t) * (s * c * (A.mulVec x t - q * rho * x t)) =
        q * (A.mulVec x t - q * rho * x t) ^ 2 := by
      have : s * c * (A.mulVec x t - q * rho * x t) * (s * c * (A.mulVec x t - q * rho * x t)) =
        (s * s) * (c * c) * (A.mulVec x t - q * rho * x t) ^ 2 := by ring
      rw [this, hs1, hcc]; ring
    rw [e, ← mul_add]
    refine mul_le_mul_of_nonneg_left ?_ hqpos.le
    have h1 : q ^ 2 ≤ 1 := by nlinarith
    have h2 : 0 ≤ (rho * x t) ^ 2 := sq_nonneg _
    nlinarith [sq_nonneg (A.mulVec x t + q * rho * x t)]
  rw [lobpcg_eq lp absresCheck hw hm.le ht.le]
  obtain ⟨n, hn⟩ : ∃ n, set.maxiter.toNat = n + 1 := ⟨set.maxiter.toNat - 1, by omega⟩
  rw [hn, lobLoop]
  dsimp only
  rw [if_pos (absresCheck_iff.2 fun i hi => by
    rw [show i = 0 by omega]; exact habs)]
  refine ⟨_, _, _, rfl, ?_, s, hs1, hS⟩
  rw [hlam', abs_mul, abs_of_pos hqpos]
  exact hq3

/-! ### C127 -/

/-- exact eigenvectors as guess: the residuals vanish -/
theorem init_exact {lp : LobLapack} (hs : SyevMatSpec lp.syev) {A : Matrix ι ι ℝ} (hA : A.IsSymm) {K : Nat}
    {op : LobOp ι} (hop : ActsAs op A) {V : Nat → ι → ℝ} (hV : OrthonormalCols K V) {th : Nat → ℝ}
    (heig : ∀ i < K, A.mulVec (V i) = th i • V i) :
    ∀ i < K, A.mulVec ((lobInit lp K op V).S i) = (lobInit lp K op V).lam i • (lobInit lp K op V).S i ∧
      ∃ p < K, (lobInit lp K op V).lam i = th p := by
  have hE := rr_spec hs hA (fun c hc => hop K V c hc)
  set r := rayleighRitz lp K V (op.A K V) with hr
  intro i hi
  have hS : (lobInit lp K op V).S i = combine K V (fun p => r.2 p i) := by
    change rotateBasis K K V r.2 i = _
    rw [rotateBasis, if_pos hi]
  have hlam : (lobInit lp K op V).lam i = r.1 i := rfl
  have hcoef : ∀ p < K, th p * r.2 p i = r.1 i * r.2 p i := by
    intro p hp
    rw [← hE.eig p i hp hi, sum_eq_single p]
    · rw [heig p hp, vdot_comm, vdot_pismul_left, ortho_vdot hV hp hp, if_pos rfl, mul_one]
    · intro q hq hqp
      have hq := mem_range.1 hq
      rw [heig q hq, vdot_comm, vdot_pismul_left, ortho_vdot hV hq hp, if_neg hqp, mul_zero, zero_mul]
    · intro hh; exact absurd (mem_range.2 hp) hh
  refine ⟨?_, ?_⟩
  · rw [hS, hlam, mulVec_combine]
    funext t
    simp only [combine, Pi.smul_apply, smul_eq_mul, mul_sum]
    refine sum_congr rfl fun p hp => ?_
    rw [heig p (mem_range.1 hp), Pi.smul_apply, smul_eq_mul]
    linear_combination V p t * hcoef p (mem_range.1 hp)
  · by_contra hall
    push Not at hall
    have hz : ∀ p < K, r.2 p i = 0 := by
      intro p hp
      have h1 := hcoef p hp
      have h2 := hall p hp
      rw [hlam] at h2
      have : (r.1 i - th p) * r.2 p i = 0 := by linear_combination -h1
      exact (mul_eq_zero.1 this).resolve_left (sub_ne_zero.2 h2)
    have := hE.ortho i i hi hi
    rw [sum_eq_zero fun p hp => by rw [hz p (mem_range.1 hp), mul_zero], if_pos rfl] at this
    exact zero_ne_one this

/-- C127.  A guess of exact orthonormal eigenvectors with nonzero eigenvalues is accepted by the first
check, for every positive tolerance. -/
theorem C127_exact_guess_partial {lp : LobLapack} (hs : SyevMatSpec lp.syev) {A : Matrix ι ι ℝ}
    (hA : A.IsSymm) {K NR : Nat} (hNR : NR ≤ K) {op : LobOp ι}
    (hop : ∀ k X c, c < k → op.A k X c = A.mulVec (X c)) {V : Nat → ι → ℝ} (hV : OrthonormalCols K V)
    {set : LobSettings} (hm : 0 < set.maxiter) (ht : 0 < set.tol) {lwork : Int}
    (hw : lobLwork (Fintype.card ι) K ≤ lwork) {th : Nat → ℝ}
    (heig : ∀ i < K, A.mulVec (V i) = th i • V i) (hth : ∀ i < K, th i ≠ 0) :
    ∃ lam X res, (lobpcg lp set K NR op V lwork relresCheck).1 = .converged 0 lam X res ∧
      ∀ i < K, A.mulVec (X i) = lam i • X i := by
  have hinv := lobInit_inv hs hA hop hV
  have hex := init_exact hs hA hop hV heig
  rw [lobpcg_eq lp relresCheck hw hm.le ht.le]
  obtain ⟨n, hn⟩ : ∃ n, set.maxiter.toNat = n + 1 := ⟨set.maxiter.toNat - 1, by omega⟩
  rw [hn, lobLoop]
  dsimp only
  rw [if_pos]
  · exact ⟨_, _, _, rfl, fun i hi => (hex i hi).1⟩
  · rw [relresCheck_iff]
    intro i hi
    have hi : i < K := by omega
    obtain ⟨h1, p, hp, h2⟩ := hex i hi
    have hres : absRes (lobInit lp K op V).S (lobInit lp K op V).AS (lobInit lp K op V).lam i = 0 := by
      rw [absRes_eq hinv hi, h1]
      unfold nrm2 vdot
      simp
    rw [relRes, hres]
    have hden : nrm2 ((lobInit lp K op V).AS i) + |(lobInit lp K op V).lam i| ≠ 0 := by
      have h3 : 0 < |(lobInit lp K op V).lam i| := by
        rw [h2]; exact abs_pos.2 (hth p hp)
      have h4 := nrm2_nonneg ((lobInit lp K op V).AS i)
      linarith
    rw [if_neg hden, zero_div]
    exact ⟨0, rfl, ht⟩

/-- C127.  Not so for the eigenvalue zero: a normalised null vector of any singular matrix as guess
makes the relative residual `0/0`; the default check never accepts it, and the run ends in "Cholesky
failed in CholQR". -/
theorem C127_zero_eigenvalue_refuted {lp : LobLapack} (hp : PotrfSpec lp.potrf) (hs : SyevMatSpec lp.syev)
    {A : Matrix ι ι ℝ} (hA : A.IsSymm) {op : LobOp ι}
    (hop : ∀ k X c, c < k → op.A k X c = A.mulVec (X c)) (hprec : ∀ X, op.K 1 X = X) {x : ι → ℝ}
    (hx : ∑ t, x t * x t = 1) (h0 : A.mulVec x = 0) {set : LobSettings} (hm : 0 < set.maxiter)
    (ht : 0 ≤ set.tol) {lwork : Int} (hw : lobLwork (Fintype.card ι) 1 ≤ lwork) :
    ∃ R, (lobpcg lp set 1 1 op (fun _ => x) lwork relresCheck).1 = .cholFailed 0 R := by
  have hV : OrthonormalCols 1 (fun _ : Nat => x) := by
    intro p hp q hq
    rw [if_pos (by omega)]; exact hx
  have hx0 : x ≠ 0 := by
    intro e; rw [e] at hx; simp at hx
  rcases C125_eigenvector_in_guess_refuted hp hs hA hop hprec hV hm ht hw relresCheck (NR := 1) hx0 (th := 0)
    (by rw [h0, zero_smul]) (a := fun _ => 1) (by intro t; simp) with ⟨lam, X, res, h⟩ | ⟨R, h, -⟩
  · exfalso
    obtain ⟨s, hs1, hlam, hS, hAS⟩ := init_one hs hop (fun _ : Nat => x)
    rw [lobpcg_eq lp relresCheck hw hm.le ht] at h
    obtain ⟨n, hn⟩ : ∃ n, set.maxiter.toNat = n + 1 := ⟨set.maxiter.toNat - 1, by omega⟩
    rw [hn, lobLoop] at h
    dsimp only at h
    rw [if_neg] at h
    · split at h
      · cases h
      · rename_i W hW
        obtain ⟨q, hq⟩ := exists_lq
        -- the directions are dependent, so this branch is impossible
        have hinv := lobInit_inv hs hA hop hV
        have hd : Dependent 1 (lobDirections 1 op 0 (lobInit lp 1 op fun _ => x)) := by
          refine dependent_project (dependent_project ?_)
          rw [hprec]
          refine dependent_reverse (residuals_dependent hA hinv hx0 (th := 0) (by rw [h0, zero_smul])
            (b := fun _ => s) ?_)
          funext t
          simp only [combine, range_one, sum_singleton]
          rw [hS]
          linear_combination -(x t) * hs1
        rcases cholqr_spec hp 1 (lobDirections 1 op 0 (lobInit lp 1 op fun _ => x)) with ⟨-, e⟩ | ⟨hnd, -⟩
        · rw [e] at hW; cases hW
        · exact hnd hd
    · rw [relresCheck_iff]
      intro hall
      obtain ⟨r, hr, -⟩ := hall 0 (by omega)
      rw [relRes, if_pos] at hr
      · cases hr
      · rw [hlam, h0]
        have : (lobInit lp 1 op fun _ => x).AS 0 = 0 := by
          funext t
          rw [hAS t, h0]; simp
        rw [this]
        simp [nrm2, vdot]
  · exact ⟨R, h⟩

/-! ### C128 -/

/-- C128.  The iterate of the last iteration is never checked.  When the block is half the dimension,
one iteration gives exact eigenpairs; with `maxiter = 1` the call still throws "LOBPCG FAILED TO
CONVERGE" (unless the guess was accepted or the first iteration broke down). -/
theorem C128_last_iterate_unchecked_refuted {lp : LobLapack} (hp : PotrfSpec lp.potrf)
    (hs : SyevMatSpec lp.syev) (hq : LqSpec lp.lq) {A : Matrix ι ι ℝ} (hA : A.IsSymm) {K NR : Nat}
    {op : LobOp ι} (hop : ∀ k X c, c < k → op.A k X c = A.mulVec (X c)) {V : Nat → ι → ℝ}
    (hV : OrthonormalCols K V) (hcard : Fintype.card ι = 2 * K) {set : LobSettings} (hm : set.maxiter = 1)
    (ht : 0 ≤ set.tol) {lwork : Int} (hw : lobLwork (Fintype.card ι) K ≤ lwork)
    (check : Nat → (Nat → ℝ) → (Nat → Option ℝ) → ℝ → Bool) :
    match (lobpcg lp set K NR op V lwork check).1 with
    | .converged it _ _ _ => it = 0
    | .cholFailed it _ => it = 0
    | .failed lam X _ => ∀ i < K, A.mulVec (X i) = lam i • X i
    | _ => False := by
  have hinv := lobInit_inv hs hA hop hV
  rw [lobpcg_eq lp check hw (by omega) ht, hm]
  change match (lobLoop lp set K NR op check 1 0 (lobInit lp K op V)).1 with
    | .converged it _ _ _ => it = 0
    | .cholFailed it _ => it = 0
    | .failed lam X _ => ∀ i < K, A.mulVec (X i) = lam i • X i
    | _ => False
  set st := lobInit lp K op V with hst
  rw [lobLoop]
  dsimp only
  by_cases hc : check NR (absRes st.S st.AS st.lam) (relRes st.S st.AS st.lam) set.tol = true
  · rw [if_pos hc]
  rw [if_neg hc]
  rcases cholqr_spec hp K (lobDirections K op 0 st) with ⟨-, e⟩ | ⟨-, W, e, hW, hWo⟩
  · rw [e]
  rw [e]
  dsimp only
  rw [lobLoop]
  obtain ⟨h1, -, -, hz⟩ := lobUpdate_inv hs hq hA hop hinv hW
    (fun p hp c hc => hWo (st.S p) (fun j _ => directions_orth hinv p hp j) c hc)
  intro i hi
  have hz := hz (by simp only [lobDim, if_true]; omega) i hi
  have hd : i < lobDim K (0 + 1) := by simp only [lobDim]; norm_num; omega
  funext t
  have := congrFun hz t
  rw [residCol, h1.act i hd] at this
  rw [Pi.smul_apply, smul_eq_mul]
  simp only [Pi.zero_apply] at this
  linarith

/-- C128.  With at least two iterations and the absolute check the same run is accepted at the second
check. -/
theorem C128_half_dimension_partial {lp : LobLapack} (hp : PotrfSpec lp.potrf)
    (hs : SyevMatSpec lp.syev) (hq : LqSpec lp.lq) {A : Matrix ι ι ℝ} (hA : A.IsSymm) {K NR : Nat}
    (hNR : NR ≤ K) {op : LobOp ι} (hop : ∀ k X c, c < k → op.A k X c = A.mulVec (X c))
    {V : Nat → ι → ℝ} (hV : OrthonormalCols K V) (hcard : Fintype.card ι = 2 * K) {set : LobSettings}
    (hm : 2 ≤ set.maxiter) (ht : 0 < set.tol) {lwork : Int} (hw : lobLwork (Fintype.card ι) K ≤ lwork) :
    match (lobpcg lp set K NR op V lwork absresCheck).1 with
    | .converged it lam X _ => it = 0 ∨ (it = 1 ∧ ∀ i < K, A.mulVec (X i) = lam i • X i)
    | .cholFailed it _ => it = 0
    | _ => False := by
  have hinv := lobInit_inv hs hA hop hV
  rw [lobpcg_eq lp absresCheck hw (by omega) ht.le]
  obtain ⟨n, hn⟩ : ∃ n, set.maxiter.toNat = n + 2 := ⟨set.maxiter.toNat - 2, by omega⟩
  rw [hn]
  set st := lobInit lp K op V with hst
  rw [lobLoop]
  dsimp only
  by_cases hc : absresCheck NR (absRes st.S st.AS st.lam) (relRes st.S st.AS st.lam) set.tol = true
  · rw [if_pos hc]
    exact Or.inl rfl
  rw [if_neg hc]
  rcases cholqr_spec hp K (lobDirections K op 0 st) with ⟨-, e⟩ | ⟨-, W, e, hW, hWo⟩
  · rw [e]
  rw [e]
  dsimp only
  obtain ⟨h1, -, -, hz⟩ := lobUpdate_inv hs hq hA hop hinv hW
    (fun p hp c hc => hWo (st.S p) (fun j _ => directions_orth hinv p hp j) c hc)
  have hz := hz (by simp only [lobDim, if_true]; omega)
  rw [lobLoop]
  dsimp only
  rw [if_pos (absresCheck_iff.2 fun i hi => by
    rw [absRes, hz i (by omega)]
    simpa [nrm2, vdot] using ht)]
  refine Or.inr ⟨rfl, fun i hi => ?_⟩
  have hd : i < lobDim K (0 + 1) := by simp only [lobDim]; norm_num; omega
  funext t
  have := congrFun (hz i hi) t
  rw [residCol, h1.act i hd] at this
  rw [Pi.smul_apply, smul_eq_mul]
  simp only [Pi.zero_apply] at this
  linarith

/-! ### C129 -/

/-- C129.  The work array: the seven pieces follow one another from 0, their lengths add up to
`lobpcg_lwork`, and every block product of the algorithm (`[X P W]`, its coefficients, the projection
coefficients, the rotated vectors) fits into its piece. -/
theorem C129_workspace (N K : Nat) (hK : K ≤ N) :
    (∀ j, j + 1 < (lobRegions N K).length →
      ((lobRegions N K).getD j (0, 0)).1 + ((lobRegions N K).getD j (0, 0)).2 =
        ((lobRegions N K).getD (j + 1) (0, 0)).1) ∧
    ((lobRegions N K).getD 0 (0, 0)).1 = 0 ∧
    ((lobRegions N K).map (·.2)).sum = lobLwork N K ∧
    (∀ p ∈ lobRegions N K, 0 ≤ p.1 ∧ 0 ≤ p.2 ∧ p.1 + p.2 ≤ lobLwork N K) ∧
    (∀ dS, dS = 2 * K ∨ dS = 3 * K →
      (N * dS : Int) ≤ ((lobRegions N K).getD 0 (0, 0)).2 ∧
      (N * dS : Int) ≤ ((lobRegions N K).getD 1 (0, 0)).2 ∧
      (dS * dS : Int) ≤ ((lobRegions N K).getD 2 (0, 0)).2 ∧
      (dS : Int) ≤ ((lobRegions N K).getD 3 (0, 0)).2 ∧
      ((dS - K) * K : Int) ≤ ((lobRegions N K).getD 6 (0, 0)).2 ∧
      (N * (2 * K) : Int) ≤ ((lobRegions N K).getD 6 (0, 0)).2) := by
  have hNK : (K : Int) * K ≤ N * K := by exact_mod_cast Nat.mul_le_mul_right K hK
  have h0 : (0 : Int) ≤ K * K := by positivity
  have h1 : (0 : Int) ≤ N * K := by positivity
  have h2 : (0 : Int) ≤ K := by positivity
  refine ⟨?_, rfl, ?_, ?_, ?_⟩
  · intro j hj
    simp only [lobRegions, List.length_cons, List.length_nil] at hj
    have : j = 0 ∨ j = 1 ∨ j = 2 ∨ j = 3 ∨ j = 4 ∨ j = 5 := by omega
    rcases this with rfl | rfl | rfl | rfl | rfl | rfl <;> rfl
  · simp only [lobRegions, lobLwork, List.map_cons, List.map_nil, List.sum_cons, List.sum_nil]
    ring
  · intro p hp
    simp only [lobRegions, List.mem_cons, List.not_mem_nil, or_false] at hp
    unfold lobLwork
    rcases hp with rfl | rfl | rfl | rfl | rfl | rfl | rfl <;> simp only <;>
      refine ⟨?_, ?_, ?_⟩ <;> nlinarith
  · intro dS hd
    simp only [lobRegions, List.getD_cons_zero, List.getD_cons_succ]
    rcases hd with rfl | rfl <;> push_cast <;> refine ⟨?_, ?_, ?_, ?_, ?_, ?_⟩ <;> nlinarith

omit [DecidableEq ι] in
/-- C129.  With a work array of that length and sensible settings the call always gets past its
argument checks; a negative length is a query that returns it. -/
theorem C129_arguments (lp : LobLapack) {set : LobSettings} {K NR : Nat} {op : LobOp ι} {V : Nat → ι → ℝ}
    {lwork : Int} (check : Nat → (Nat → ℝ) → (Nat → Option ℝ) → ℝ → Bool) :
    (lwork < 0 → lobpcg lp set K NR op V lwork check = (.query (lobLwork (Fintype.card ι) K), [])) ∧
    (lobLwork (Fintype.card ι) K ≤ lwork → 0 ≤ set.maxiter → 0 ≤ set.tol →
      ∀ l, (lobpcg lp set K NR op V lwork check).1 ≠ .query l ∧
        (lobpcg lp set K NR op V lwork check).1 ≠ .badArg) := by
  refine ⟨fun h => ?_, fun h1 h2 h3 l => ?_⟩
  · unfold lobpcg
    dsimp only
    rw [if_pos h]
  · rw [lobpcg_eq lp check h1 h2 h3]
    have : ∀ n iter st, (lobLoop lp set K NR op check n iter st).1 ≠ .query l ∧
        (lobLoop lp set K NR op check n iter st).1 ≠ .badArg := by
      intro n
      induction n with
      | zero => intro iter st; rw [lobLoop]; exact ⟨by simp, by simp⟩
      | succ n ih =>
        intro iter st
        rw [lobLoop]
        dsimp only
        by_cases hc : check NR (absRes st.S st.AS st.lam) (relRes st.S st.AS st.lam) set.tol = true
        · rw [if_pos hc]
          exact ⟨by simp, by simp⟩
        · rw [if_neg hc]
          split
          · exact ⟨by simp, by simp⟩
          · exact ih _ _
    exact this _ _ _

/-! ### C130 -/

omit [DecidableEq ι] in
theorem lobLoop_iter_le (lp : LobLapack) {set : LobSettings} {K NR : Nat}
    {op : LobOp ι} (check : Nat → (Nat → ℝ) → (Nat → Option ℝ) → ℝ → Bool) :
    ∀ n iter st, match (lobLoop lp set K NR op check n iter st).1 with
      | .converged it _ _ _ => iter ≤ it
      | .cholFailed it _ => iter ≤ it
      | _ => True := by
  intro n
  induction n with
  | zero => intro iter st; rw [lobLoop]; trivial
  | succ n ih2 =>
    intro iter st
    rw [lobLoop]
    dsimp only
    by_cases hc : check NR (absRes st.S st.AS st.lam) (relRes st.S st.AS st.lam) set.tol = true
    · rw [if_pos hc]
    · rw [if_neg hc]
      cases hq : cholqr lp K 2 (lobDirections K op iter st) with
      | none => exact Nat.le_refl iter
      | some W' =>
        have := ih2 (iter + 1) (lobUpdate lp K op iter st W')
        dsimp only
        revert this
        cases (lobLoop lp set K NR op check n (iter + 1) (lobUpdate lp K op iter st W')).1 <;>
          simp only [] <;> intros <;> first | trivial | omega

omit [DecidableEq ι] in
theorem lobLoop_history (lp : LobLapack) {set : LobSettings} (htr : set.track = true) {K NR : Nat}
    {op : LobOp ι} (check : Nat → (Nat → ℝ) → (Nat → Option ℝ) → ℝ → Bool) :
    ∀ n iter st, (lobLoop lp set K NR op check n iter st).2.length =
      match (lobLoop lp set K NR op check n iter st).1 with
      | .converged it _ _ _ => it + 1 - iter
      | .cholFailed it _ => it + 1 - iter
      | _ => n := by
  intro n
  induction n with
  | zero => intro iter st; rw [lobLoop]; rfl
  | succ n ih =>
    intro iter st
    rw [lobLoop]
    dsimp only
    rw [if_pos htr]
    by_cases hc : check NR (absRes st.S st.AS st.lam) (relRes st.S st.AS st.lam) set.tol = true
    · rw [if_pos hc]
      simp
    · rw [if_neg hc]
      cases hq : cholqr lp K 2 (lobDirections K op iter st) with
      | none => simp
      | some W =>
        dsimp only
        have := ih (iter + 1) (lobUpdate lp K op iter st W)
        simp only [List.length_append, List.length_cons, List.length_nil]
        rw [this]
        have hle := lobLoop_iter_le (set := set) (K := K) (NR := NR) (op := op) lp check n (iter + 1)
          (lobUpdate lp K op iter st W)
        revert hle
        cases (lobLoop lp set K NR op check n (iter + 1) (lobUpdate lp K op iter st W)).1 <;>
          simp only [] <;> intros <;> omega

/-- C130.  With tracking on, the history has one entry per convergence check: `it + 1` when the call
returns at (or breaks down in) iteration `it`, `maxiter` when it runs out. -/
theorem C130_history (lp : LobLapack) {set : LobSettings} (htr : set.track = true) {K NR : Nat}
    {op : LobOp ι} {V : Nat → ι → ℝ} {lwork : Int} (hm : 0 ≤ set.maxiter) (ht : 0 ≤ set.tol)
    (hw : lobLwork (Fintype.card ι) K ≤ lwork)
    (check : Nat → (Nat → ℝ) → (Nat → Option ℝ) → ℝ → Bool) :
    ((lobpcg lp set K NR op V lwork check).2.length : Int) =
      match (lobpcg lp set K NR op V lwork check).1 with
      | .converged it _ _ _ => it + 1
      | .cholFailed it _ => it + 1
      | _ => set.maxiter := by
  rw [lobpcg_eq lp check hw hm ht, lobLoop_history lp htr check]
  cases (lobLoop lp set K NR op check set.maxiter.toNat 0 (lobInit lp K op V)).1 <;> simp <;> omega

theorem lobLoop_records {lp : LobLapack} (hp : PotrfSpec lp.potrf) (hs : SyevMatSpec lp.syev)
    (hq : LqSpec lp.lq) {A : Matrix ι ι ℝ} (hA : A.IsSymm) {K NR : Nat} {op : LobOp ι} (hop : ActsAs op A)
    {set : LobSettings} (htr : set.track = true)
    (check : Nat → (Nat → ℝ) → (Nat → Option ℝ) → ℝ → Bool) :
    ∀ (n iter : Nat) (st : LobState ι), LobInv A K iter st →
    let r := lobLoop lp set K NR op check n iter st
    (∀ rc ∈ r.2, rc.W.length = K ∧ rc.res.length = K ∧ rc.rel.length = K) ∧
    (∀ rc ∈ r.2, ∀ i < K, rc.W.getD i 0 ≤ st.lam i) ∧
    List.Pairwise (fun a b : LobRecord => ∀ i < K, b.W.getD i 0 ≤ a.W.getD i 0) r.2 ∧
    (0 < n → r.2.head?.map LobRecord.W = some ((List.range K).map st.lam)) ∧
    ∀ it lam X res, r.1 = .converged it lam X res → ∃ rc, r.2.getLast? = some rc ∧
      rc.W = (List.range K).map lam ∧ rc.rel = (List.range K).map res ∧
      rc.res = (List.range K).map fun i => Real.sqrt (∑ t, (A.mulVec (X i) t - lam i * X i t) *
        (A.mulVec (X i) t - lam i * X i t)) := by
  intro n
  induction n with
  | zero =>
    intro iter st h
    simp only [lobLoop]
    refine ⟨by simp, by simp, by simp, by simp, ?_⟩
    intro it lam X res hc
    cases hc
  | succ n ih =>
    intro iter st h
    have hlen : (lobRecord K st).W.length = K ∧ (lobRecord K st).res.length = K ∧
        (lobRecord K st).rel.length = K := by simp [lobRecord]
    have hW0 : ∀ i < K, (lobRecord K st).W.getD i 0 = st.lam i := by
      intro i hi
      simp [lobRecord, List.getD_eq_getElem?_getD, hi]
    rw [lobLoop]
    dsimp only
    rw [if_pos htr]
    by_cases hc : check NR (absRes st.S st.AS st.lam) (relRes st.S st.AS st.lam) set.tol = true
    · rw [if_pos hc]
      refine ⟨?_, ?_, by simp, fun _ => rfl, ?_⟩
      · intro rc hrc
        rw [List.mem_singleton] at hrc
        rw [hrc]
        exact hlen
      · intro rc hrc i hi
        rw [List.mem_singleton] at hrc
        rw [hrc, hW0 i hi]
      · intro it lam X res hcv
        obtain ⟨rfl, rfl, rfl, rfl⟩ := LobExit.converged.inj hcv
        refine ⟨lobRecord K st, rfl, rfl, rfl, ?_⟩
        unfold lobRecord
        refine List.map_congr_left fun i hi => ?_
        exact absRes_eq h (List.mem_range.1 hi)
    · rw [if_neg hc]
      rcases cholqr_spec hp K (lobDirections K op iter st) with ⟨hd, e⟩ | ⟨-, W, e, hW, hWo⟩
      · rw [e]
        refine ⟨?_, ?_, by simp, fun _ => rfl, ?_⟩
        · intro rc hrc
          rw [List.mem_singleton] at hrc
          rw [hrc]
          exact hlen
        · intro rc hrc i hi
          rw [List.mem_singleton] at hrc
          rw [hrc, hW0 i hi]
        · intro it lam X res hcv
          cases hcv
      · rw [e]
        dsimp only
        obtain ⟨h', hmono, -, -⟩ := lobUpdate_inv hs hq hA hop h hW
          (fun p hp c hc => hWo (st.S p) (fun j _ => directions_orth h p hp j) c hc)
        obtain ⟨i1, i2, i3, i4, i5⟩ := ih (iter + 1) _ h'
        refine ⟨?_, ?_, ?_, fun _ => rfl, ?_⟩
        · intro rc hrc
          rcases List.mem_append.1 hrc with hrc | hrc
          · rw [List.mem_singleton] at hrc
            rw [hrc]
            exact hlen
          · exact i1 rc hrc
        · intro rc hrc i hi
          rcases List.mem_append.1 hrc with hrc | hrc
          · rw [List.mem_singleton] at hrc
            rw [hrc, hW0 i hi]
          · exact (i2 rc hrc i hi).trans (hmono i hi)
        · rw [List.singleton_append, List.pairwise_cons]
          refine ⟨fun rc hrc i hi => ?_, i3⟩
          rw [hW0 i hi]
          exact (i2 rc hrc i hi).trans (hmono i hi)
        · intro it lam X res hcv
          obtain ⟨rc, h1, h2⟩ := i5 it lam X res hcv
          refine ⟨rc, ?_, h2⟩
          rw [List.getLast?_append, h1]
          rfl

/-- C130.  The contents of the history: every record has `K` Ritz values, absolute and relative
residuals; the Ritz values never rise from a record to a later one and start at those of the guess; the
last record of a converged run is the returned result. -/
theorem C130_contents {lp : LobLapack} (hp : PotrfSpec lp.potrf) (hs : SyevMatSpec lp.syev)
    (hq : LqSpec lp.lq) {A : Matrix ι ι ℝ} (hA : A.IsSymm) {K NR : Nat} {op : LobOp ι}
    (hop : ∀ k X c, c < k → op.A k X c = A.mulVec (X c)) {V : Nat → ι → ℝ} (hV : OrthonormalCols K V)
    {set : LobSettings} (htr : set.track = true) (hm : 0 < set.maxiter) (ht : 0 ≤ set.tol) {lwork : Int}
    (hw : lobLwork (Fintype.card ι) K ≤ lwork)
    (check : Nat → (Nat → ℝ) → (Nat → Option ℝ) → ℝ → Bool) :
    let r := lobpcg lp set K NR op V lwork check
    (∀ rc ∈ r.2, rc.W.length = K ∧ rc.res.length = K ∧ rc.rel.length = K) ∧
    List.Pairwise (fun a b : LobRecord => ∀ i < K, b.W.getD i 0 ≤ a.W.getD i 0) r.2 ∧
    (∃ (th : Nat → ℝ) (C : Nat → Nat → ℝ),
      r.2.head?.map LobRecord.W = some ((List.range K).map th) ∧
      SymEig K (fun p q => ∑ t, V p t * A.mulVec (V q) t) th C) ∧
    ∀ it lam X res, r.1 = .converged it lam X res → ∃ rc, r.2.getLast? = some rc ∧
      rc.W = (List.range K).map lam ∧ rc.rel = (List.range K).map res ∧
      rc.res = (List.range K).map fun i => Real.sqrt (∑ t, (A.mulVec (X i) t - lam i * X i t) *
        (A.mulVec (X i) t - lam i * X i t)) := by
  intro r
  have hr : r = lobLoop lp set K NR op check set.maxiter.toNat 0 (lobInit lp K op V) :=
    lobpcg_eq lp check hw hm.le ht
  obtain ⟨h1, -, h3, h4, h5⟩ := lobLoop_records (NR := NR) hp hs hq hA hop htr check set.maxiter.toNat 0 _
    (lobInit_inv hs hA hop hV)
  rw [← hr] at h1 h3 h4 h5
  exact ⟨h1, h3, ⟨_, _, h4 (by omega), rr_spec hs hA fun c hc => hop K V c hc⟩, h5⟩

/-! ### a run -/

/-- two coupled levels, guess `e₀` -/
theorem lob_two_levels {lp : LobLapack} (hp : PotrfSpec lp.potrf) (hs : SyevMatSpec lp.syev)
    (hq : LqSpec lp.lq) {A : Matrix (Fin 2) (Fin 2) ℝ} (hA : A.IsSymm) (h01 : A 1 0 ≠ 0) {tol : ℝ}
    (ht : 0 < tol) (ht2 : tol ≤ |A 1 0|) (m : Int) (hm : 1 ≤ m) :
    let e0 : Nat → Fin 2 → ℝ := fun _ t => if t = 0 then 1 else 0
    let op : LobOp (Fin 2) := LobOp.ofMatrix (fun _ X c => A.mulVec (X c))
    let r := (lobpcg lp ⟨tol, m, false⟩ 1 1 op e0 (lobLwork 2 1) absresCheck).1
    OrthonormalCols 1 e0 ∧
    ((m = 1 ∧ ∃ lam X res, r = .failed lam X res ∧ A.mulVec (X 0) = lam 0 • X 0) ∨
     (2 ≤ m ∧ ∃ lam X res, r = .converged 1 lam X res ∧ A.mulVec (X 0) = lam 0 • X 0)) := by
  intro e0 op r
  have hV : OrthonormalCols 1 e0 := by
    intro p hp q hq
    rw [if_pos (by omega)]
    simp [e0]
  refine ⟨hV, ?_⟩
  have hop : ∀ k X c, c < k → op.A k X c = A.mulVec (X c) := fun _ _ _ _ => rfl
  have hinv := lobInit_inv hs hA hop hV
  obtain ⟨s, hs1, hlam, hS, hAS⟩ := init_one hs hop e0
  have hAe : ∀ t, A.mulVec (e0 0) t = A t 0 := by
    intro t
    simp [Matrix.mulVec, dotProduct, e0]
  have hl : (lobInit lp 1 op e0).lam 0 = A 0 0 := by
    rw [hlam, vdot]
    simp [hAe, e0]
  have hres : ∀ t, (lobInit lp 1 op e0).V 0 t = if t = 0 then 0 else s * A 1 0 := by
    intro t
    rw [hinv.resid 0 (by omega)]
    have : A.mulVec ((lobInit lp 1 op e0).S 0) t = s * A t 0 := by
      rw [← hinv.act 0 (by simp [lobDim]), hAS, hAe]
    dsimp only
    rw [this, hS, hl]
    fin_cases t <;> simp [e0]
    ring
  have habs : absRes (lobInit lp 1 op e0).S (lobInit lp 1 op e0).AS (lobInit lp 1 op e0).lam 0 = |A 1 0| := by
    rw [absRes_eq hinv (by omega), ← hinv.resid 0 (by omega)]
    unfold nrm2 vdot
    rw [Fin.sum_univ_two, hres, hres]
    simp only [if_true, mul_zero, zero_add]
    rw [if_neg (by simp), show s * A 1 0 * (s * A 1 0) = s * s * (A 1 0 * A 1 0) by ring, hs1, one_mul,
      Real.sqrt_mul_self_eq_abs]
  have hnc : ¬ absresCheck 1 (absRes (lobInit lp 1 op e0).S (lobInit lp 1 op e0).AS (lobInit lp 1 op e0).lam)
      (relRes (lobInit lp 1 op e0).S (lobInit lp 1 op e0).AS (lobInit lp 1 op e0).lam) tol = true := by
    rw [absresCheck_iff]
    intro h
    have := h 0 (by omega)
    rw [habs] at this
    linarith
  have hrev : reverseCols 1 (lobInit lp 1 op e0).V = (lobInit lp 1 op e0).V := rfl
  have hnd : ¬ Dependent 1 (lobDirections 1 op 0 (lobInit lp 1 op e0)) := by
    rintro ⟨v, ⟨i, hi, hv⟩, h0⟩
    have hi0 : i = 0 := by omega
    subst hi0
    have horth : vdot ((lobInit lp 1 op e0).S 0) ((lobInit lp 1 op e0).V 0) = 0 := by
      unfold vdot
      rw [Fin.sum_univ_two, hres, hres, hS, hS]
      simp [e0]
    have hpo : projectOut 1 (lobInit lp 1 op e0).S ((lobInit lp 1 op e0).V 0) = (lobInit lp 1 op e0).V 0 :=
      projectOut_of_orth _ fun p hp => by rw [show p = 0 by omega]; exact horth
    have hdir : lobDirections 1 op 0 (lobInit lp 1 op e0) 0 = (lobInit lp 1 op e0).V 0 := by
      change projectOut 1 _ (projectOut 1 _ ((reverseCols 1 (lobInit lp 1 op e0).V) 0)) = _
      rw [hrev, hpo, hpo]
    have h1 := congrFun h0 1
    simp only [combine, range_one, sum_singleton, Pi.zero_apply] at h1
    rw [hdir, hres, if_neg (by simp)] at h1
    have hs0 : s ≠ 0 := by intro e; rw [e] at hs1; simp at hs1
    exact hv ((mul_eq_zero.1 h1).resolve_left (mul_ne_zero hs0 h01))
  have hcard : Fintype.card (Fin 2) = 2 * 1 := by simp
  have hnot0 : ∀ lam X res, r ≠ .converged 0 lam X res ∧ ∀ R, r ≠ .cholFailed 0 R := by
    intro lam X res
    have hr : r = (lobLoop lp ⟨tol, m, false⟩ 1 1 op absresCheck m.toNat 0 (lobInit lp 1 op e0)).1 := by
      change (lobpcg lp ⟨tol, m, false⟩ 1 1 op e0 (lobLwork 2 1) absresCheck).1 = _
      rw [lobpcg_eq lp absresCheck (by simp) (by simp only; omega) ht.le]
    obtain ⟨n, hn⟩ : ∃ n, m.toNat = n + 1 := ⟨m.toNat - 1, by omega⟩
    rw [hn, lobLoop] at hr
    dsimp only at hr
    rw [if_neg hnc] at hr
    rcases cholqr_spec hp 1 (lobDirections 1 op 0 (lobInit lp 1 op e0)) with ⟨hd, -⟩ | ⟨-, W, e, hW, hWo⟩
    · exact absurd hd hnd
    · rw [e] at hr
      dsimp only at hr
      obtain ⟨h1, -, -, -⟩ := lobUpdate_inv hs hq hA hop hinv hW
        (fun p hp c hc => hWo _ (fun j _ => directions_orth hinv p hp j) c hc)
      have hsp := lobLoop_spec hp hs hq hA hop (NR := 1) ⟨tol, m, false⟩ absresCheck n (0 + 1) _ h1
      constructor
      · intro hc
        rw [← hr, hc] at hsp
        obtain ⟨_, _, _, _, _, _, _, hge, _⟩ := hsp
        omega
      · intro R hc
        rw [← hr, hc] at hsp
        obtain ⟨_, _, _, _, hge, _⟩ := hsp
        omega
  by_cases hm1 : m = 1
  · left
    refine ⟨hm1, ?_⟩
    have h := C128_last_iterate_unchecked_refuted hp hs hq hA hop (NR := 1) hV hcard (set := ⟨tol, m, false⟩) hm1
      ht.le (lwork := lobLwork 2 1) (by simp) absresCheck
    revert h
    cases hr : (lobpcg lp ⟨tol, m, false⟩ 1 1 op e0 (lobLwork 2 1) absresCheck).1 with
    | query l => exact fun h => h.elim
    | badArg => exact fun h => h.elim
    | converged it lam X res => intro h; simp only at h; subst h; exact absurd hr (hnot0 lam X res).1
    | cholFailed it R => intro h; simp only at h; subst h; exact absurd hr ((hnot0 (fun _ => 0) e0 (fun _ => none)).2 R)
    | failed lam X res => intro h; exact ⟨lam, X, res, hr, h 0 (by omega)⟩
  · right
    refine ⟨by omega, ?_⟩
    have h := C128_half_dimension_partial hp hs hq hA (NR := 1) (le_refl 1) hop hV hcard (set := ⟨tol, m, false⟩)
      (by simp only; omega) ht (lwork := lobLwork 2 1) (by simp)
    revert h
    cases hr : (lobpcg lp ⟨tol, m, false⟩ 1 1 op e0 (lobLwork 2 1) absresCheck).1 with
    | query l => exact fun h => h.elim
    | badArg => exact fun h => h.elim
    | failed lam X res => exact fun h => h.elim
    | cholFailed it R => intro h; simp only at h; subst h; exact absurd hr ((hnot0 (fun _ => 0) e0 (fun _ => none)).2 R)
    | converged it lam X res =>
      intro h
      rcases h with h | ⟨h, h2⟩
      · subst h; exact absurd hr (hnot0 lam X res).1
      · subst h; exact ⟨lam, X, res, hr, h2 0 (by omega)⟩

/-- The hypotheses of C123-C130 are met: LAPACK routines as specified exist, and with them a run of two
iterations converges. -/
example : ∃ lp : LobLapack, PotrfSpec lp.potrf ∧ SyevMatSpec lp.syev ∧ LqSpec lp.lq ∧
    ∃ lam X res, (lobpcg lp ⟨1, 2, false⟩ 1 1 (LobOp.ofMatrix (fun _ X c => (!![2, 1; 1, 2] : Matrix (Fin 2) (Fin 2) ℝ).mulVec (X c)))
      (fun _ t => if t = 0 then 1 else 0) (lobLwork 2 1) absresCheck).1 = .converged 1 lam X res := by
  obtain ⟨lp, h1, h2, h3⟩ := exists_lobLapack
  refine ⟨lp, h1, h2, h3, ?_⟩
  have hA : (!![2, 1; 1, 2] : Matrix (Fin 2) (Fin 2) ℝ).IsSymm := by
    ext i j; fin_cases i <;> fin_cases j <;> rfl
  obtain ⟨-, h⟩ := lob_two_levels h1 h2 h3 hA (by norm_num) (tol := 1) one_pos (by norm_num) 2 (by norm_num)
  rcases h with ⟨h, -⟩ | ⟨-, lam, X, res, h, -⟩
  · omega
  · exact ⟨lam, X, res, h⟩

end Macis
