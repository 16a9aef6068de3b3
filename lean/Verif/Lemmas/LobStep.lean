import Verif.Lemmas.Lobpcg
import Verif.Lemmas.Ritz
import Verif.Props.Davidson
/-! One LOBPCG iteration. -/
namespace Macis
open Spec Finset
variable {ι : Type} [Fintype ι]

theorem ortho_vdot {n : Nat} {S : Nat → ι → ℝ} (h : OrthonormalCols n S) {p q : Nat} (hp : p < n) (hq : q < n) :
    vdot (S p) (S q) = if p = q then 1 else 0 := h p hp q hq

theorem combine_inner {n : Nat} {S : Nat → ι → ℝ} (h : OrthonormalCols n S) (a b : Nat → ℝ) :
    vdot (combine n S a) (combine n S b) = ∑ p ∈ range n, a p * b p := by
  rw [vdot_combine_left]
  refine sum_congr rfl fun p hp => ?_
  rw [vdot_combine_right, sum_eq_single p]
  · rw [ortho_vdot h (mem_range.1 hp) (mem_range.1 hp), if_pos rfl, one_mul]
  · intro q hq hqp
    rw [ortho_vdot h (mem_range.1 hp) (mem_range.1 hq), if_neg hqp.symm, zero_mul]
  · intro hh; exact absurd hp hh

theorem rotate_ortho {n m : Nat} {S : Nat → ι → ℝ} (h : OrthonormalCols n S) {C : Nat → Nat → ℝ}
    (hC : ∀ c < m, ∀ d < m, (∑ p ∈ range n, C p c * C p d) = if c = d then 1 else 0) :
    OrthonormalCols m (rotateBasis m n S C) := by
  intro c hc d hd
  change vdot _ _ = _
  rw [rotateBasis, rotateBasis, if_pos hc, if_pos hd, combine_inner h, hC c hc d hd]

theorem combine_congr {n : Nat} {S S' : Nat → ι → ℝ} (h : ∀ p < n, S p = S' p) (a : Nat → ℝ) :
    combine n S a = combine n S' a := by
  funext t
  exact sum_congr rfl fun p hp => by rw [h p (mem_range.1 hp)]

variable [DecidableEq ι]

theorem rotate_act {A : Matrix ι ι ℝ} {n m : Nat} {S AS : Nat → ι → ℝ}
    (hAS : ∀ c < n, AS c = A.mulVec (S c)) (C : Nat → Nat → ℝ) :
    ∀ c < m, rotateBasis m n AS C c = A.mulVec (rotateBasis m n S C c) := by
  intro c hc
  rw [rotateBasis, rotateBasis, if_pos hc, if_pos hc, mulVec_combine]
  exact combine_congr hAS _

omit [DecidableEq ι] in
theorem combine_form {A : Matrix ι ι ℝ} {n : Nat} (S : Nat → ι → ℝ) (a b : Nat → ℝ) :
    vdot (combine n S a) (A.mulVec (combine n S b)) =
      ∑ p ∈ range n, ∑ q ∈ range n, a p * vdot (S p) (A.mulVec (S q)) * b q := by
  classical
  rw [mulVec_combine, vdot_combine_left]
  refine sum_congr rfl fun p _ => ?_
  rw [vdot_combine_right, mul_sum]
  exact sum_congr rfl fun q _ => by ring

theorem symEig_congr {n : Nat} {G G' : Nat → Nat → ℝ} {W : Nat → ℝ} {Z : Nat → Nat → ℝ}
    (h : SymEig n G W Z) (e : ∀ p < n, ∀ q < n, G' p q = G p q) : SymEig n G' W Z :=
  ⟨h.asc, h.ortho, fun p k hp hk => by
    rw [← h.eig p k hp hk]
    exact sum_congr rfl fun q hq => by rw [e p hp q (mem_range.1 hq)]⟩

/-- Rayleigh-Ritz over orthonormal columns with correct products solves the projected problem -/
theorem rr_spec {lp : LobLapack} (hs : SyevMatSpec lp.syev) {A : Matrix ι ι ℝ} (hA : A.IsSymm) {n : Nat}
    {S AS : Nat → ι → ℝ} (hAS : ∀ c < n, AS c = A.mulVec (S c)) :
    SymEig n (fun p q => vdot (S p) (A.mulVec (S q))) (rayleighRitz lp n S AS).1
      (rayleighRitz lp n S AS).2 := by
  refine symEig_congr (hs n _) fun p hp q hq => ?_
  by_cases h : q ≤ p
  · rw [if_pos h, hAS q hq]
  · rw [if_neg h, hAS p hp, vdot_mulVec_symm hA]

/-- Ritz vectors from the first columns of the eigenvector matrix -/
theorem ritz_of_eig {A : Matrix ι ι ℝ} {n k m : Nat} (hk : k ≤ n) (hkm : k ≤ m) {S : Nat → ι → ℝ}
    (h : OrthonormalCols n S) {W : Nat → ℝ} {Z C : Nat → Nat → ℝ}
    (hE : SymEig n (fun p q => vdot (S p) (A.mulVec (S q))) W Z) (hC : ∀ p, ∀ c < k, C p c = Z p c) :
    RitzPairs A k W (rotateBasis m n S C) := by
  have hcol : ∀ c < k, rotateBasis m n S C c = combine n S (fun p => Z p c) := by
    intro c hc
    rw [rotateBasis, if_pos (by omega)]
    congr 1
    exact funext fun p => hC p c hc
  refine ⟨?_, fun i j hij hj => hE.asc i j hij (by omega), ?_⟩
  · intro c hc d hd
    change vdot _ _ = _
    rw [hcol c hc, hcol d hd, combine_inner h, hE.ortho c d (by omega) (by omega)]
  · intro i hi j hj
    change vdot _ _ = _
    rw [hcol i hi, hcol j hj, combine_form]
    have : ∀ p ∈ range n, ∑ q ∈ range n, Z p i * vdot (S p) (A.mulVec (S q)) * Z q j =
        W j * (Z p i * Z p j) := by
      intro p hp
      rw [sum_congr rfl fun q _ => show Z p i * vdot (S p) (A.mulVec (S q)) * Z q j =
        Z p i * (vdot (S p) (A.mulVec (S q)) * Z q j) by ring, ← mul_sum,
        hE.eig p j (mem_range.1 hp) (by omega)]
      ring
    rw [sum_congr rfl this, ← mul_sum, hE.ortho i j (by omega) (by omega)]
    by_cases e : i = j
    · subst e; simp
    · simp [e]

omit [DecidableEq ι] in
/-- the Ritz values of the first columns bound those of the whole basis from above -/
theorem ritz_mono {A : Matrix ι ι ℝ} {n k : Nat} (hk : k ≤ n) {S : Nat → ι → ℝ} {lam W : Nat → ℝ}
    {Z : Nat → Nat → ℝ} (hE : SymEig n (fun p q => vdot (S p) (A.mulVec (S q))) W Z)
    (hR : RitzPairs A k lam S) : ∀ i < k, W i ≤ lam i := by
  intro i hi
  refine ritz_le hE (k := i) (by omega) (D := fun p j => if p = j then 1 else 0) (th := lam) ?_ ?_ ?_
  · intro a ha b hb
    rw [sum_eq_single a]
    · simp
    · intro p _ hp; simp [hp]
    · intro hh; exact absurd (mem_range.2 (by omega)) hh
  · intro a ha b hb
    rw [sum_eq_single a, sum_eq_single b]
    · have := hR.diag a (by omega) b (by omega)
      simp only [if_true, one_mul, mul_one]
      exact this
    · intro p _ hp; simp [hp]
    · intro hh; exact absurd (mem_range.2 (by omega)) hh
    · intro p _ hp; simp [hp]
    · intro hh; exact absurd (mem_range.2 (by omega)) hh
  · intro a ha
    exact hR.asc a i ha hi

omit [DecidableEq ι] in
/-- vectors as many as dimensions: expansion -/
theorem full_expand {Y : Nat → ι → ℝ} (hY : OrthonormalCols (Fintype.card ι) Y) (x : ι → ℝ) :
    x = combine (Fintype.card ι) Y (fun p => vdot (Y p) x) := by
  have h := zero_of_orth_full hY (r := projectOut (Fintype.card ι) Y x) fun p hp => projectOut_orth hY x hp
  funext t
  have := congrFun h t
  unfold projectOut at this
  simp only [Pi.zero_apply] at this
  linarith

/-- Ritz values lie above the eigenvalues of the same rank -/
theorem eigenvalue_le_ritz {A : Matrix ι ι ℝ} {mu : Nat → ℝ} {Y : Nat → ι → ℝ}
    (hY : OrthonormalCols (Fintype.card ι) Y)
    (hmu : ∀ i j, i ≤ j → j < Fintype.card ι → mu i ≤ mu j)
    (heig : ∀ j < Fintype.card ι, A.mulVec (Y j) = mu j • Y j)
    {k : Nat} {lam : Nat → ℝ} {X : Nat → ι → ℝ} (hk : k ≤ Fintype.card ι) (hR : RitzPairs A k lam X) :
    ∀ i < k, mu i ≤ lam i := by
  intro i hi
  set n := Fintype.card ι
  have hE : SymEig n (fun p q => vdot (Y p) (A.mulVec (Y q))) mu (fun p k => if p = k then 1 else 0) := by
    refine ⟨hmu, ?_, ?_⟩
    · intro j k hj hk
      rw [sum_eq_single j]
      · simp
      · intro p _ hp; simp [hp]
      · intro hh; exact absurd (mem_range.2 (by omega)) hh
    · intro p k hp hk
      rw [sum_eq_single k]
      · rw [if_pos rfl, mul_one, heig k hk, vdot_comm, vdot_pismul_left, ortho_vdot hY hk hp]
        by_cases e : p = k
        · simp [e]
        · rw [if_neg (fun h => e h.symm), if_neg e]
      · intro q _ hq; simp [hq]
      · intro hh; exact absurd (mem_range.2 hk) hh
  refine ritz_le hE (k := i) (by omega) (D := fun p j => vdot (Y p) (X j)) (th := lam) ?_ ?_ ?_
  · intro a ha b hb
    rw [← combine_inner hY, ← full_expand hY, ← full_expand hY]
    exact hR.ortho a (by omega) b (by omega)
  · intro a ha b hb
    rw [← combine_form, ← full_expand hY, ← full_expand hY]
    exact hR.diag a (by omega) b (by omega)
  · intro a ha
    exact hR.asc a i ha hi

/-! ### the HL orthogonalisation -/

theorem hl_ortho {lp : LobLapack} (hq : LqSpec lp.lq) {K dXP : Nat} (hK : K ≤ dXP) {C : Nat → Nat → ℝ}
    (hC : ∀ c < dXP + K, ∀ d < dXP + K, (∑ p ∈ range (dXP + K), C p c * C p d) = if c = d then 1 else 0) :
    ∀ c < dXP + K, ∀ d < dXP + K,
      (∑ p ∈ range (dXP + K), hlOrtho lp K dXP C p c * hlOrtho lp K dXP C p d) = if c = d then 1 else 0 := by
  set Q := lp.lq K dXP (fun i p => C i (K + p)) with hQ
  obtain ⟨q1, -⟩ := hq K dXP (fun i p => C i (K + p)) hK
  rw [← hQ] at q1
  have e1 : ∀ p c, c < K → hlOrtho lp K dXP C p c = C p c := fun p c hc => by
    unfold hlOrtho; rw [if_pos hc]
  have e2 : ∀ p c, ¬ c < K → hlOrtho lp K dXP C p c = ∑ r ∈ range dXP, C p (K + r) * Q (c - K) r :=
    fun p c hc => by unfold hlOrtho; rw [if_neg hc]
  have cross : ∀ c < K, ∀ d < dXP + K, ¬ d < K →
      (∑ p ∈ range (dXP + K), C p c * ∑ r ∈ range dXP, C p (K + r) * Q (d - K) r) = 0 := by
    intro c hc d hd hdK
    simp_rw [mul_sum]
    rw [sum_comm]
    apply sum_eq_zero
    intro r hr
    have hr := mem_range.1 hr
    rw [sum_congr rfl fun p _ => show C p c * (C p (K + r) * Q (d - K) r) =
      C p c * C p (K + r) * Q (d - K) r by ring, ← sum_mul, hC c (by omega) (K + r) (by omega),
      if_neg (by omega), zero_mul]
  intro c hc d hd
  by_cases hcK : c < K <;> by_cases hdK : d < K
  · simp only [e1 _ _ hcK, e1 _ _ hdK]
    exact hC c hc d hd
  · simp only [e1 _ _ hcK, e2 _ _ hdK]
    rw [cross c hcK d hd hdK, if_neg (by omega)]
  · simp only [e2 _ _ hcK, e1 _ _ hdK]
    rw [sum_congr rfl fun p _ => mul_comm _ _, cross d hdK c hc hcK, if_neg (by omega)]
  · simp only [e2 _ _ hcK, e2 _ _ hdK]
    rw [sum_congr rfl fun p _ => sum_mul_sum _ _ _ _, sum_comm]
    have : ∀ r ∈ range dXP, (∑ p ∈ range (dXP + K), ∑ s ∈ range dXP,
        C p (K + r) * Q (c - K) r * (C p (K + s) * Q (d - K) s)) = Q (c - K) r * Q (d - K) r := by
      intro r hr
      have hr' := mem_range.1 hr
      rw [sum_comm, sum_eq_single r]
      · rw [sum_congr rfl fun p _ => show C p (K + r) * Q (c - K) r * (C p (K + r) * Q (d - K) r) =
          C p (K + r) * C p (K + r) * (Q (c - K) r * Q (d - K) r) by ring, ← sum_mul,
          hC (K + r) (by omega) (K + r) (by omega), if_pos rfl, one_mul]
      · intro s hs hsr
        have hs := mem_range.1 hs
        rw [sum_congr rfl fun p _ => show C p (K + r) * Q (c - K) r * (C p (K + s) * Q (d - K) s) =
          C p (K + r) * C p (K + s) * (Q (c - K) r * Q (d - K) s) by ring, ← sum_mul,
          hC (K + r) (by omega) (K + s) (by omega), if_neg (by omega), zero_mul]
      · intro hh; exact absurd hr hh
    rw [sum_congr rfl this, q1 (c - K) (by omega) (d - K) (by omega)]
    exact if_congr (by omega) rfl rfl

/-- the first `K` rows have nothing beyond column `2K` -/
theorem hl_zero {lp : LobLapack} (hq : LqSpec lp.lq) {K dXP : Nat} (hK : K ≤ dXP) (C : Nat → Nat → ℝ)
    {i c : Nat} (hi : i < K) (hc : 2 * K ≤ c) (hc2 : c < dXP + K) : hlOrtho lp K dXP C i c = 0 := by
  unfold hlOrtho
  rw [if_neg (by omega)]
  exact (hq K dXP (fun i p => C i (K + p)) hK).2 i hi (c - K) (by omega) (by omega)

/-! ### the invariant -/

/-- columns of `[X P]` before iteration `iter` -/
def lobDim (K iter : Nat) : Nat := (if iter = 0 then 1 else 2) * K

/-- what holds of the work arrays before iteration `iter` -/
structure LobInv (A : Matrix ι ι ℝ) (K iter : Nat) (st : LobState ι) : Prop where
  orth : OrthonormalCols (lobDim K iter) st.S
  act : ∀ c < lobDim K iter, st.AS c = A.mulVec (st.S c)
  ritz : RitzPairs A K st.lam st.S
  resid : ∀ i < K, st.V i = fun t => A.mulVec (st.S i) t - st.lam i * st.S i t

/-- the matrix functor multiplies columns by `A` -/
def ActsAs (op : LobOp ι) (A : Matrix ι ι ℝ) : Prop :=
  ∀ k X c, c < k → op.A k X c = A.mulVec (X c)

theorem lobInit_inv {lp : LobLapack} (hs : SyevMatSpec lp.syev) {A : Matrix ι ι ℝ} (hA : A.IsSymm) {K : Nat}
    {op : LobOp ι} (hop : ActsAs op A) {V : Nat → ι → ℝ} (hV : OrthonormalCols K V) :
    LobInv A K 0 (lobInit lp K op V) := by
  have hAX : ∀ c < K, op.A K V c = A.mulVec (V c) := fun c hc => hop K V c hc
  have hE := rr_spec hs hA hAX
  set r := rayleighRitz lp K V (op.A K V) with hr
  have hinit : lobInit lp K op V = ⟨rotateBasis K K V r.2, rotateBasis K K (op.A K V) r.2,
      residBlock K (rotateBasis K K V r.2) (rotateBasis K K (op.A K V) r.2) r.1 V, r.1⟩ := rfl
  rw [hinit]
  have hd : lobDim K 0 = K := by simp [lobDim]
  have hact := rotate_act hAX r.2 (m := K)
  refine ⟨?_, ?_, ritz_of_eig (le_refl K) (le_refl K) hV hE fun _ _ _ => rfl, ?_⟩
  · rw [hd]
    exact rotate_ortho hV fun c hc d hd => hE.ortho c d hc hd
  · rw [hd]
    exact hact
  · intro i hi
    dsimp only
    rw [residBlock, if_pos hi]
    funext t
    rw [residCol, hact i hi]
    ring

theorem directions_orth {A : Matrix ι ι ℝ} {K iter : Nat} {op : LobOp ι} {st : LobState ι}
    (h : LobInv A K iter st) : ∀ p < lobDim K iter, ∀ c, vdot (st.S p) (lobDirections K op iter st c) = 0 :=
  fun _ hp _ => projectOut_orth h.orth _ hp

omit [DecidableEq ι] in
theorem storeCols_ortho {n K : Nat} {S W : Nat → ι → ℝ} (hS : OrthonormalCols n S) (hW : OrthonormalCols K W)
    (h : ∀ p < n, ∀ c < K, vdot (S p) (W c) = 0) : OrthonormalCols (n + K) (storeCols n K S W) := by
  intro p hp q hq
  change vdot _ _ = _
  have lo : ∀ c, c < n → storeCols n K S W c = S c := fun c hc => by
    rw [storeCols, if_neg (by omega)]
  have hi : ∀ c, n ≤ c → c < n + K → storeCols n K S W c = W (c - n) := fun c h1 h2 => by
    rw [storeCols, if_pos ⟨h1, h2⟩]
  rcases Nat.lt_or_ge p n with hpn | hpn <;> rcases Nat.lt_or_ge q n with hqn | hqn
  · rw [lo p hpn, lo q hqn, ortho_vdot hS hpn hqn]
  · rw [lo p hpn, hi q hqn hq, h p hpn _ (by omega), if_neg (by omega)]
  · rw [hi p hpn hp, lo q hqn, vdot_comm, h q hqn _ (by omega), if_neg (by omega)]
  · rw [hi p hpn hp, hi q hqn hq, ortho_vdot hW (by omega) (by omega)]
    exact if_congr (by omega) rfl rfl

/-- One iteration keeps the invariant, lowers the Ritz values, and keeps the previous Ritz vectors in
the span of the new `[X P]`. -/
theorem lobUpdate_inv {lp : LobLapack} (hs : SyevMatSpec lp.syev) (hq : LqSpec lp.lq) {A : Matrix ι ι ℝ}
    (hA : A.IsSymm) {K iter : Nat} {op : LobOp ι} (hop : ActsAs op A) {st : LobState ι}
    (h : LobInv A K iter st) {W : Nat → ι → ℝ} (hW : OrthonormalCols K W)
    (hWS : ∀ p < lobDim K iter, ∀ c < K, vdot (st.S p) (W c) = 0) :
    LobInv A K (iter + 1) (lobUpdate lp K op iter st W) ∧
    (∀ i < K, (lobUpdate lp K op iter st W).lam i ≤ st.lam i) ∧
    (∀ i < K, ∃ a : Nat → ℝ, st.S i = combine (2 * K) (lobUpdate lp K op iter st W).S a) ∧
    (lobDim K iter + K = Fintype.card ι → ∀ i < K,
      residCol (lobUpdate lp K op iter st W).S (lobUpdate lp K op iter st W).AS
        (lobUpdate lp K op iter st W).lam i = 0) := by
  set n := lobDim K iter with hn
  have hKn : K ≤ n := by simp only [hn, lobDim]; split_ifs <;> omega
  set S1 := storeCols n K st.S W with hS1
  set AS1 := if (iter + 1) % 20 = 0 then storeCols 0 (n + K) st.AS (op.A (n + K) S1)
    else storeCols n K st.AS (op.A K W) with hAS1
  have hS1o : OrthonormalCols (n + K) S1 := storeCols_ortho h.orth hW hWS
  have hact1 : ∀ c < n + K, AS1 c = A.mulVec (S1 c) := by
    intro c hc
    simp only [hAS1]
    split_ifs
    · rw [storeCols, if_pos ⟨Nat.zero_le c, by omega⟩, Nat.sub_zero, hop _ _ _ hc]
    · rcases Nat.lt_or_ge c n with hcn | hcn
      · rw [storeCols, if_neg (by omega), h.act c hcn, hS1, storeCols, if_neg (by omega)]
      · rw [storeCols, if_pos ⟨hcn, hc⟩, hop _ _ _ (by omega), hS1, storeCols, if_pos ⟨hcn, hc⟩]
  have hE := rr_spec hs hA hact1
  set r := rayleighRitz lp (n + K) S1 AS1 with hr
  set C := hlOrtho lp K n r.2 with hC
  have hCo := hl_ortho hq hKn (C := r.2) (fun c hc d hd => hE.ortho c d hc hd)
  rw [← hC] at hCo
  have hupd : lobUpdate lp K op iter st W = ⟨rotateBasis (2 * K) (n + K) S1 C,
      rotateBasis (2 * K) (n + K) AS1 C,
      residBlock K (rotateBasis (2 * K) (n + K) S1 C) (rotateBasis (2 * K) (n + K) AS1 C) r.1
        (reverseCols K st.V), r.1⟩ := rfl
  rw [hupd]
  have hd : lobDim K (iter + 1) = 2 * K := by simp [lobDim]
  have hact := rotate_act hact1 C (m := 2 * K)
  have hS1lo : ∀ c < n, S1 c = st.S c := fun c hc => by rw [hS1, storeCols, if_neg (by omega)]
  have hR1 : RitzPairs A K st.lam S1 := by
    refine ⟨fun p hp q hq => ?_, h.ritz.asc, fun p hp q hq => ?_⟩
    · rw [hS1lo p (by omega), hS1lo q (by omega)]; exact h.ritz.ortho p hp q hq
    · rw [hS1lo p (by omega), hS1lo q (by omega)]; exact h.ritz.diag p hp q hq
  have hRn : RitzPairs A K r.1 (rotateBasis (2 * K) (n + K) S1 C) :=
    ritz_of_eig (by omega) (by omega) hS1o hE fun p c hc => by
      rw [hC, hlOrtho]; dsimp only; rw [if_pos hc]
  refine ⟨⟨?_, ?_, hRn, ?_⟩, ?_, ?_, ?_⟩
  · rw [hd]
    exact rotate_ortho hS1o fun c hc d hd => hCo c (by omega) d (by omega)
  · rw [hd]
    exact hact
  · intro i hi
    dsimp only
    rw [residBlock, if_pos hi]
    funext t
    rw [residCol, hact i (by omega)]
    ring
  · exact ritz_mono (by omega) hE hR1
  · intro i hi
    -- rows of the orthogonal matrix C
    have hrow : ∀ q < n + K, (∑ c ∈ range (n + K), C i c * C q c) = if i = q then 1 else 0 := by
      intro q hq
      have hE2 : SymEig (n + K) (fun _ _ => 0) (fun _ => 0) C :=
        ⟨fun _ _ _ _ => le_refl _, fun j k hj hk => hCo j hj k hk, fun p k _ _ => by simp⟩
      exact symEig_rows hE2 (by omega) hq
    refine ⟨fun c => C i c, ?_⟩
    rw [← hS1lo i (by omega)]
    funext t
    have e1 : S1 i t = ∑ c ∈ range (n + K), combine (n + K) S1 (fun p => C p c) t * C i c := by
      simp only [combine]
      simp_rw [sum_mul]
      rw [sum_comm, sum_eq_single i]
      · rw [sum_congr rfl fun c _ => show S1 i t * C i c * C i c = S1 i t * (C i c * C i c) by ring,
          ← mul_sum, hrow i (by omega), if_pos rfl, mul_one]
      · intro q hq hqi
        rw [sum_congr rfl fun c _ => show S1 q t * C q c * C i c = S1 q t * (C i c * C q c) by ring,
          ← mul_sum, hrow q (mem_range.1 hq), if_neg hqi.symm, mul_zero]
      · intro hh; exact absurd (mem_range.2 (by omega)) hh
    rw [e1]
    dsimp only
    rw [combine]
    have hsub : range (2 * K) ⊆ range (n + K) := fun x hx => by
      rw [mem_range] at hx ⊢; omega
    rw [← sum_subset hsub]
    · refine sum_congr rfl fun c hc => ?_
      rw [rotateBasis, if_pos (mem_range.1 hc)]
    · intro c hc hc2
      rw [mem_range] at hc hc2
      rw [hC, hl_zero hq hKn r.2 hi (by omega) hc, mul_zero]
  · intro hfull i hi
    dsimp only
    have hX : rotateBasis (2 * K) (n + K) S1 C i = combine (n + K) S1 (fun p => r.2 p i) := by
      rw [rotateBasis, if_pos (by omega)]
      congr 1
      funext p
      rw [hC, hlOrtho]; dsimp only; rw [if_pos hi]
    have hz : (fun t => A.mulVec (combine (n + K) S1 (fun p => r.2 p i)) t -
        r.1 i * combine (n + K) S1 (fun p => r.2 p i) t) = 0 := by
      refine zero_of_orth_full (V := S1) (hfull ▸ hS1o) fun p hp => ?_
      rw [← hfull] at hp
      rw [vdot_sub_right, vdot_smul_right, mulVec_combine, vdot_combine_right, vdot_combine_right]
      rw [hE.eig p i hp (by omega), sum_eq_single p]
      · rw [ortho_vdot hS1o hp hp, if_pos rfl, one_mul, sub_self]
      · intro q hq hqp
        rw [ortho_vdot hS1o hp (mem_range.1 hq), if_neg hqp.symm, zero_mul]
      · intro hh; exact absurd (mem_range.2 hp) hh
    funext t
    rw [residCol, hact i (by omega), hX]
    have := congrFun hz t
    simp only [Pi.zero_apply] at this ⊢
    linarith

end Macis
