import Verif.Spec.AsciDrive
import Verif.Props.AsciSelect
import Mathlib.Tactic.SplitIfs
/-! Lemmas on the ASCI drivers. -/
namespace Macis
open Spec
variable {N : Nat} {R H : Type} [AddCommGroup R] [LinearOrder R]

theorem sorted_wfn {srt : List R → List Nat → List Nat} (hs : SortsCoeffs srt) {wfn : List (BitVec N)}
    {X : List R} (hlen : X.length = wfn.length) :
    ∃ w' X', (if wfn.length > 1 then reorderCi (srt X) wfn X 0 0 else some (wfn, X)) = some (w', X') ∧
      w'.length = wfn.length ∧ X'.length = wfn.length ∧
      (w'.zip X').Perm (wfn.zip X) ∧ X'.Pairwise fun x y => |y| ≤ |x| := by
  split_ifs with h
  · obtain ⟨w', X', h1, h2, h3, h4, h5⟩ := C27_reorder_ci wfn X (0 : BitVec N) hlen (hs X)
    exact ⟨w', X', h1, h2, by omega, h4, h5⟩
  · refine ⟨wfn, X, rfl, rfl, hlen, List.Perm.refl _, ?_⟩
    match X, hlen with
    | [], _ => simp
    | [x], _ => simp
    | x :: y :: l, hl => simp at hl; omega

theorem perm_of_zip_perm {α β : Type} {a c : List α} {b d : List β} (h : (a.zip b).Perm (c.zip d))
    (h1 : a.length ≤ b.length) (h2 : c.length ≤ d.length) : a.Perm c := by
  have := h.map Prod.fst
  rwa [List.map_fst_zip h1, List.map_fst_zip h2] at this

theorem asciIter_orderly {env : AsciEnv N R H} (hs : SortsCoeffs env.srtIdx)
    (hse : SearchContract env.search) (hd : DiagContract env.diag) (s : AsciSettings R) (n : Nat) (h : H) (E0 : R)
    (wfn : List (BitVec N)) (X : List R) (hlen : X.length = wfn.length) (hnd : wfn.Nodup)
    (hn : min s.ncdetsMax wfn.length ≤ n) (h64 : n < 2 ^ 64) :
    asciIter env s n h E0 wfn X = .throw ∨
    ∃ E w Y, asciIter env s n h E0 wfn X = .ok (E, w, Y) ∧ env.diag h w = some (E, Y) ∧
      w.Nodup ∧ w.length ≤ n ∧ Y.length = w.length := by
  obtain ⟨w', X', e1, l1, l2, hp, -⟩ := sorted_wfn hs hlen
  have hnd' : w'.Nodup := (perm_of_zip_perm hp (by omega) (by omega)).nodup_iff.2 hnd
  obtain ⟨K, k1, k2, k3⟩ := hse h n (w'.take (min s.ncdetsMax w'.length)) E0 X'
    (hnd'.sublist (List.take_sublist _ _)) (by simp; omega) (by simp; omega) h64
  unfold asciIter
  dsimp only
  rw [e1]
  dsimp only
  rw [k1]
  dsimp only
  cases hdg : env.diag h (K ++ w'.take (min s.ncdetsMax w'.length)) with
  | none => left; rfl
  | some r =>
    right
    exact ⟨r.1, _, r.2, rfl, hdg, k2, k3, hd _ _ _ _ hdg⟩

theorem growBody_orderly {env : AsciEnv N R H} (hs : SortsCoeffs env.srtIdx)
    (hse : SearchContract env.search) (hd : DiagContract env.diag) (s : AsciSettings R)
    (hgf : 1 ≤ s.growFactor) (h64 : s.ntdetsMax * s.growFactor < 2 ^ 64)
    (st : GrowState N R H) (hlen : st.X.length = st.wfn.length) (hnd : st.wfn.Nodup)
    (hlt : st.wfn.length < s.ntdetsMax) :
    growBody env s st = .throw ∨
    ∃ st', growBody env s st = .ok st' ∧ st'.X.length = st'.wfn.length ∧ st'.wfn.Nodup ∧
      st'.wfn.length = ndetsNew s st.wfn.length ∧ st'.reqs = st.reqs ++ [ndetsNew s st.wfn.length] := by
  have hmul : st.wfn.length * s.growFactor < 2 ^ 64 :=
    lt_of_le_of_lt (Nat.mul_le_mul_right _ hlt.le) h64
  have hge : st.wfn.length ≤ st.wfn.length * s.growFactor := Nat.le_mul_of_pos_right _ hgf
  have hmax : s.ntdetsMax < 2 ^ 64 := lt_of_le_of_lt (Nat.le_mul_of_pos_right _ hgf) h64
  have hN : st.wfn.length ≤ ndetsNew s st.wfn.length ∧ ndetsNew s st.wfn.length ≤ s.ntdetsMax := by
    unfold ndetsNew
    rw [Nat.mod_eq_of_lt hmul]
    omega
  rcases asciIter_orderly hs hse hd s (ndetsNew s st.wfn.length) st.h st.E0 st.wfn st.X hlen hnd
    (by omega) (by omega) with h | ⟨E, w, Y, h1, h2, h3, h4, h5⟩
  · left; unfold growBody; dsimp only; rw [h]; rfl
  · unfold growBody
    dsimp only
    rw [h1]
    dsimp only [Run.bind]
    by_cases hlt' : ndetsNew s st.wfn.length > w.length
    · left; rw [if_pos hlt']
    · rw [if_neg hlt']
      by_cases hrot : s.growWithRot = true ∧ w.length ≥ s.rotSizeStart
      · rw [if_pos hrot]
        cases hdg : env.diag (env.rotate st.h w Y) w with
        | none => left; rfl
        | some r => right; exact ⟨_, rfl, hd _ _ _ _ hdg, h3, by dsimp only; omega, rfl⟩
      · rw [if_neg hrot]
        right; exact ⟨_, rfl, h5, h3, by dsimp only; omega, rfl⟩

end Macis
