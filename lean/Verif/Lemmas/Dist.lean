import Verif.Base
import Verif.Model.Dist
import Verif.Spec.Dist
namespace Macis
open Spec

theorem extLoop (per : Nat) (k : Nat) :
    (List.range k).foldl
      (fun e _ => let s := (List.getLastD e (0, 0)).2; e ++ [(s, s + per)]) [(0, per)]
      = (List.range (k + 1)).map fun r => (r * per, (r + 1) * per) := by
  induction k with
  | zero => simp
  | succ k ih =>
    rw [List.range_succ, List.foldl_append, ih, List.foldl_cons, List.foldl_nil]
    conv_rhs => rw [List.range_succ, List.map_append]
    dsimp only
    congr 1
    rw [List.range_succ, List.map_append]
    simp
    ring

/-- closed form of the default distribution -/
theorem defaultExtents_eq (M P : Nat) (hP : 0 < P) :
    defaultExtents M P = (List.range P).map fun r =>
      (r * (M / P), if r + 1 = P then M else (r + 1) * (M / P)) := by
  unfold defaultExtents
  obtain ⟨k, rfl⟩ : ∃ k, P = k + 1 := ⟨P - 1, by omega⟩
  dsimp only
  rw [Nat.add_sub_cancel, extLoop]
  rw [List.range_succ, List.map_append, List.map_cons, List.map_nil, List.dropLast_concat]
  rw [List.getLastD_concat, List.map_append, List.map_cons, List.map_nil]
  congr 1
  · apply List.map_congr_left
    intro r hr
    simp at hr
    rw [if_neg (by omega)]
  · simp only [if_true]
    congr 2
    exact Nat.div_add_mod M (k + 1)

theorem Spec.RowPartition.mono {M P : Nat} {ext : List (Nat × Nat)} (h : RowPartition M P ext)
    {r s : Nat} (hrs : r < s) {t u : Nat × Nat} (ht : ext[r]? = some t) (hu : ext[s]? = some u) :
    t.2 ≤ u.1 := by
  induction s generalizing u with
  | zero => omega
  | succ s ih =>
    have hs : s < ext.length := by
      have := (List.getElem?_eq_some_iff.1 hu).1; omega
    have hw : ext[s]? = some ext[s] := List.getElem?_eq_getElem hs
    have hc := h.contiguous s _ _ hw hu
    rcases Nat.lt_or_ge r s with hlt | hge
    · have := ih hlt hw
      have ho := h.ordered _ (List.getElem_mem hs)
      omega
    · have : r = s := by omega
      subst this
      rw [hw] at ht
      simp at ht
      rw [← ht, hc]

theorem Spec.RowPartition.owner {M P : Nat} {ext : List (Nat × Nat)} (h : RowPartition M P ext)
    (hP : 0 < P) {row : Nat} (hrow : row < M) :
    ∃ r, r < P ∧ Owns ext r row ∧ ∀ r', Owns ext r' row → r' = r := by
  have key : ∀ k, k < P → (∃ r ≤ k, Owns ext r row) ∨ ∃ t, ext[k]? = some t ∧ t.2 ≤ row := by
    intro k
    induction k with
    | zero =>
      intro hk
      have hl : 0 < ext.length := by rw [h.length_eq]; exact hk
      have h0 : ext[0]? = some ext[0] := List.getElem?_eq_getElem (by rw [h.length_eq]; exact hk)
      rcases Nat.lt_or_ge row ext[0].2 with hlt | hge
      · left; exact ⟨0, le_rfl, _, h0, by rw [h.starts _ h0]; omega, hlt⟩
      · right; exact ⟨_, h0, hge⟩
    | succ k ih =>
      intro hk
      have hl : k + 1 < ext.length := by rw [h.length_eq]; exact hk
      have hk' : ext[k + 1]? = some ext[k + 1] :=
        List.getElem?_eq_getElem (by rw [h.length_eq]; exact hk)
      rcases ih (by omega) with ⟨r, hr, ho⟩ | ⟨t, ht, hle⟩
      · left; exact ⟨r, by omega, ho⟩
      · rcases Nat.lt_or_ge row ext[k + 1].2 with hlt | hge
        · left; exact ⟨k + 1, le_rfl, _, hk', by rw [← h.contiguous k _ _ ht hk']; exact hle, hlt⟩
        · right; exact ⟨_, hk', hge⟩
  rcases key (P - 1) (by omega) with ⟨r, hr, ho⟩ | ⟨t, ht, hle⟩
  · refine ⟨r, by omega, ho, ?_⟩
    intro r' ho'
    obtain ⟨t, ht, h1, h2⟩ := ho
    obtain ⟨u, hu, h3, h4⟩ := ho'
    rcases Nat.lt_trichotomy r r' with hlt | heq | hgt
    · have := h.mono hlt ht hu; omega
    · exact heq.symm
    · have := h.mono hgt hu ht; omega
  · have := h.ends _ ht; omega

theorem defaultExtents_partition (M P : Nat) (hP : 0 < P) :
    RowPartition M P (defaultExtents M P) := by
  rw [defaultExtents_eq M P hP]
  have hle : ∀ r, r < P → r * (M / P) ≤ M := fun r hr =>
    le_trans (Nat.mul_le_mul_right _ hr.le) (Nat.mul_div_le M P)
  refine ⟨by simp, ?_, ?_, ?_, ?_⟩
  · intro t ht
    rw [List.getElem?_map, List.getElem?_range hP] at ht
    simp at ht; rw [← ht]
  · intro t ht
    rw [List.getElem?_map, List.getElem?_range (by omega)] at ht
    simp [show P - 1 + 1 = P by omega] at ht; rw [← ht]
  · intro t ht
    simp at ht
    obtain ⟨r, hr, rfl⟩ := ht
    dsimp only
    split
    · exact hle r hr
    · exact Nat.mul_le_mul_right _ (by omega)
  · intro r s t hs ht
    obtain ⟨hs1, hs2⟩ := List.getElem?_eq_some_iff.1 hs
    obtain ⟨ht1, ht2⟩ := List.getElem?_eq_some_iff.1 ht
    simp at hs2 ht2 ht1
    rw [← hs2, ← ht2]
    dsimp only
    rw [if_neg (by omega)]

theorem customExtents_iff (M P : Nat) (hP : 0 < P) (tiles e : List (Nat × Nat)) :
    customExtents M P tiles = some e ↔ e = tiles ∧ RowPartition M P tiles := by
  unfold customExtents
  by_cases h1 : tiles.length = P
  swap
  · rw [if_pos h1]; simp; intro _ h; exact h1 h.length_eq
  rw [if_neg (by simpa using h1)]
  have hlen : 0 < tiles.length := by omega
  have g0 : tiles.getD 0 (0, 0) = tiles[0] := List.getD_eq_getElem _ _ hlen
  have gl : tiles.getLastD (0, 0) = tiles[P - 1] := by
    rw [List.getLastD_eq_getLast?, List.getLast?_eq_getElem?, List.getElem?_eq_getElem (by omega)]
    simp only [h1]; rfl
  rw [g0, gl]
  by_cases h2 : tiles[0].1 ≠ 0 ∨ tiles[P - 1].2 ≠ M
  · rw [if_pos h2]
    simp
    intro _ h
    have a := h.starts _ (List.getElem?_eq_getElem hlen)
    have b := h.ends _ (List.getElem?_eq_getElem (by omega))
    exact h2.elim (fun h => h a) (fun h => h b)
  rw [if_neg h2]
  push Not at h2
  by_cases h3 : tiles.any (fun t => decide (t.1 > t.2)) = true
  · rw [if_pos h3]
    simp
    intro _ h
    rw [List.any_eq_true] at h3
    obtain ⟨t, ht, h3⟩ := h3
    have := h.ordered t ht
    simp at h3; omega
  rw [if_neg h3]
  by_cases h4 : (List.range (P - 1)).any
      (fun i => decide ((tiles.getD i (0, 0)).2 ≠ (tiles.getD (i + 1) (0, 0)).1)) = true
  · rw [if_pos h4]
    simp
    intro _ h
    rw [List.any_eq_true] at h4
    obtain ⟨i, hi, h4⟩ := h4
    rw [List.mem_range] at hi
    have e1 := List.getElem?_eq_getElem (l := tiles) (i := i) (by omega)
    have e2 := List.getElem?_eq_getElem (l := tiles) (i := i + 1) (by omega)
    have := h.contiguous i _ _ e1 e2
    rw [List.getD_eq_getElem _ _ (by omega), List.getD_eq_getElem _ _ (by omega)] at h4
    simp at h4
    exact h4 this
  rw [if_neg h4]
  simp only [Option.some.injEq]
  constructor
  · rintro rfl
    refine ⟨rfl, h1, ?_, ?_, ?_, ?_⟩
    · intro t ht
      rw [List.getElem?_eq_getElem hlen] at ht
      simp at ht; rw [← ht]; exact h2.1
    · intro t ht
      rw [List.getElem?_eq_getElem (by omega)] at ht
      simp at ht; rw [← ht]; exact h2.2
    · intro t ht
      by_contra hc
      exact h3 (List.any_eq_true.2 ⟨t, ht, by simp; omega⟩)
    · intro r s t hs ht
      obtain ⟨hs1, rfl⟩ := List.getElem?_eq_some_iff.1 hs
      obtain ⟨ht1, rfl⟩ := List.getElem?_eq_some_iff.1 ht
      by_contra hc
      apply h4
      refine List.any_eq_true.2 ⟨r, by simp; omega, ?_⟩
      rw [List.getD_eq_getElem _ _ hs1, List.getD_eq_getElem _ _ ht1]
      simpa using hc
  · rintro ⟨rfl, -⟩; rfl

end Macis
