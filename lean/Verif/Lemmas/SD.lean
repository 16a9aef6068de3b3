import Verif.Model.SD
import Verif.Spec.Excitation
import Verif.Lemmas.Bits
import Mathlib.Data.Finset.Basic
import Mathlib.Data.Finset.Card
import Mathlib.Data.List.ProdSigma

namespace Macis
open Spec
variable {N M : Nat}

theorem bitsToIndicesLoop_take (c : Nat) : ∀ (s : BitVec N), c ≤ count s →
    bitsToIndicesLoop c s = (occ s).take c := by
  induction c with
  | zero => intro s _; simp [bitsToIndicesLoop]
  | succ c ih =>
    intro s h
    have hne : s ≠ 0#N := by
      intro h0; rw [count_eq_zero_iff.2 h0] at h; omega
    obtain ⟨i, hi, hb, hmin, he⟩ := ffs_spec hne
    have ho := occ_flip_min hb hmin
    have hc : c ≤ count (flip s i) := by
      rw [count_eq_length] at h ⊢
      rw [ho] at h; simpa using h
    simp only [bitsToIndicesLoop, he, Nat.add_sub_cancel]
    rw [ih _ hc, ho, List.take_succ_cons]

/-- virtual orbitals below norb -/
def vir (norb : Nat) (s : BitVec N) : List Nat := (List.range norb).filter (fun i => !s.getLsbD i)

theorem mem_vir {norb : Nat} {s : BitVec N} {i : Nat} :
    i ∈ vir norb s ↔ i < norb ∧ s.getLsbD i = false := by simp [vir]

theorem occ_eq_filter_norb {norb : Nat} {s : BitVec N} (hs : SupportedOn norb s) (hn : norb ≤ N) :
    occ s = (List.range norb).filter (fun i => s.getLsbD i) := by
  apply eq_of_sorted_of_mem_iff (occ_sorted s) (List.Pairwise.filter _ List.pairwise_lt_range)
  intro x
  rw [mem_occ]; simp only [List.mem_filter, List.mem_range]
  exact ⟨fun h => ⟨hs x h, h⟩, fun h => h.2⟩

theorem occ_length_add_vir {norb : Nat} {s : BitVec N} (hs : SupportedOn norb s) (hn : norb ≤ N) :
    (occ s).length + (vir norb s).length = norb := by
  rw [occ_eq_filter_norb hs hn, vir]
  have := List.length_eq_length_filter_add (l := List.range norb) (fun i => s.getLsbD i)
  simp only [List.length_range] at this
  omega

theorem occ_compl {norb : Nat} {s : BitVec N} (hn : norb ≤ N) :
    occ (~~~s) = vir norb s ++ (List.range' norb (N - norb)).filter (fun i => !s.getLsbD i) := by
  have hr : List.range N = List.range norb ++ List.range' norb (N - norb) := by
    rw [List.range_eq_range', List.range_eq_range']
    have := @List.range'_append 0 norb (N - norb) 1
    simp at this
    rw [this]; congr 1; omega
  have hf : occ (~~~s) = (List.range N).filter (fun i => !s.getLsbD i) := by
    unfold occ
    apply List.filter_congr
    intro x hx
    simp at hx
    simp [hx]
  rw [hf, hr, List.filter_append]; rfl

theorem bitsetToOccVir_eq {norb : Nat} {s : BitVec N} (hs : SupportedOn norb s) (hn : norb ≤ N) :
    bitsetToOccVir norb s = some (occ s, vir norb s) := by
  unfold bitsetToOccVir
  have hl := occ_length_add_vir hs hn
  rw [bitsToIndices_eq_occ]
  simp only [show ¬ norb < (occ s).length by omega, if_false]
  congr 2
  have hlen : norb - (occ s).length = (vir norb s).length := by omega
  rw [hlen, bitsToIndicesLoop_take]
  · rw [occ_compl hn]; simp
  · rw [count_eq_length, occ_compl hn]; simp

theorem vir_nodup (norb : Nat) (s : BitVec N) : (vir norb s).Nodup :=
  List.Nodup.filter _ List.nodup_range

theorem getLsbD_single {s : BitVec N} {i a : Nat} (hi : i < N) (ha : a < N) (j : Nat) :
    (s ^^^ flip (flip (0#N) i) a).getLsbD j
      = (s.getLsbD j ^^ (decide (i = j) ^^ decide (a = j))) := by
  rw [BitVec.getLsbD_xor, getLsbD_flip ha, getLsbD_flip hi]; simp

theorem getLsbD_double {s : BitVec N} {i a j b : Nat} (hi : i < N) (ha : a < N) (hj : j < N)
    (hb : b < N) (k : Nat) :
    (s ^^^ flip (flip (flip (flip (0#N) i) a) j) b).getLsbD k
      = (s.getLsbD k ^^ (decide (i = k) ^^ decide (a = k) ^^ decide (j = k) ^^ decide (b = k))) := by
  rw [BitVec.getLsbD_xor, getLsbD_flip hb, getLsbD_flip hj, getLsbD_flip ha, getLsbD_flip hi]
  simp

theorem mem_appendSingles {s t : BitVec N} {o v : List Nat} :
    t ∈ appendSingles s o v ↔ ∃ i ∈ o, ∃ a ∈ v, t = s ^^^ flip (flip (0#N) i) a := by
  simp only [appendSingles, List.mem_flatMap, List.mem_map]
  constructor
  · rintro ⟨a, ha, i, hi, rfl⟩; exact ⟨i, hi, a, ha, rfl⟩
  · rintro ⟨i, hi, a, ha, rfl⟩; exact ⟨a, ha, i, hi, rfl⟩

theorem mem_appendSingles_iff {s t : BitVec N} {o v : List Nat} {P : Nat → Prop}
    (ho : ∀ i, i ∈ o ↔ P i ∧ s.getLsbD i = true)
    (hv : ∀ a, a ∈ v ↔ a < N ∧ P a ∧ s.getLsbD a = false) :
    t ∈ appendSingles s o v ↔ ExcitedWithin 1 P s t := by
  rw [mem_appendSingles]
  constructor
  · rintro ⟨i, hi, a, ha, rfl⟩
    have hi' := (ho i).1 hi
    have ha' := (hv a).1 ha
    have hiN := BitVec.lt_of_getLsbD hi'.2
    refine ⟨{i}, {a}, by simp, by simp, by simpa using hi', by simpa using ha', ?_⟩
    intro j
    rw [getLsbD_single hiN ha'.1]
    by_cases h1 : i = j
    · subst h1
      have : a ≠ i := by rintro rfl; rw [hi'.2] at ha'; simp at ha'
      simp [hi'.2, this, Ne.symm this]
    · by_cases h2 : a = j
      · subst h2; simp [h1, ha'.2.2]
      · simp [h1, h2, Ne.symm h1, Ne.symm h2]
  · rintro ⟨R, A, hR, hA, hRo, hAv, hj⟩
    obtain ⟨i, rfl⟩ := Finset.card_eq_one.1 hR
    obtain ⟨a, rfl⟩ := Finset.card_eq_one.1 hA
    have hi' := hRo i (by simp)
    have ha' := hAv a (by simp)
    have hiN := BitVec.lt_of_getLsbD hi'.2
    refine ⟨i, (ho i).2 hi', a, (hv a).2 ha', ?_⟩
    apply BitVec.eq_of_getLsbD_eq
    intro j _
    rw [Bool.eq_iff_iff, hj, getLsbD_single hiN ha'.1]
    by_cases h1 : i = j
    · subst h1
      have : a ≠ i := by rintro rfl; rw [hi'.2] at ha'; simp at ha'
      simp [hi'.2, this, Ne.symm this]
    · by_cases h2 : a = j
      · subst h2; simp [h1, ha'.2.2]
      · simp [h1, h2, Ne.symm h1, Ne.symm h2]

theorem appendSingles_nodup {s : BitVec N} {o v : List Nat} (hon : o.Nodup) (hvn : v.Nodup)
    (ho : ∀ i ∈ o, s.getLsbD i = true)
    (hv : ∀ a ∈ v, a < N ∧ s.getLsbD a = false) : (appendSingles s o v).Nodup := by
  have heq : appendSingles s o v
      = (v ×ˢ o).map (fun p => s ^^^ flip (flip (0#N) p.2) p.1) := by
    simp only [appendSingles, SProd.sprod, List.product, List.map_flatMap, List.map_map]
    rfl
  rw [heq]
  apply List.Nodup.map_on _ (List.Nodup.product hvn hon)
  rintro ⟨a, i⟩ h1 ⟨b, j⟩ h2 heq
  simp only [List.mem_product] at h1 h2
  have hi := ho i h1.2
  have hj := ho j h2.2
  have ha := hv a h1.1
  have hb := hv b h2.1
  have hiN := BitVec.lt_of_getLsbD hi
  have hjN := BitVec.lt_of_getLsbD hj
  have e := fun k => congrArg (fun x => BitVec.getLsbD x k) heq
  simp only [getLsbD_single hiN ha.1, getLsbD_single hjN hb.1] at e
  have hai : a ≠ i := by rintro rfl; rw [hi] at ha; simp at ha
  have haj : a ≠ j := by rintro rfl; rw [hj] at ha; simp at ha
  have hbi : b ≠ i := by rintro rfl; rw [hi] at hb; simp at hb
  have e1 := e i
  have e2 := e a
  simp [hi, hai, hbi] at e1
  simp [ha.2, Ne.symm hai, Ne.symm haj] at e2
  rw [e1, e2]

theorem mem_doublesIndices {no nv a i b j : Nat} :
    (a, i, b, j) ∈ doublesIndices no nv ↔ a < b ∧ b < nv ∧ i < j ∧ j < no := by
  simp only [doublesIndices, List.mem_flatMap, List.mem_map, List.mem_range, List.mem_range'_1,
    Prod.mk.injEq]
  constructor
  · rintro ⟨a', ha', i', hi', b', hb', j', hj', rfl, rfl, rfl, rfl⟩; omega
  · rintro ⟨h1, h2, h3, h4⟩
    exact ⟨a, by omega, i, by omega, b, by omega, j, by omega, rfl, rfl, rfl, rfl⟩

theorem doublesIndices_nodup (no nv : Nat) : (doublesIndices no nv).Nodup := by
  unfold doublesIndices
  rw [List.nodup_flatMap]
  refine ⟨fun a _ => ?_, ?_⟩
  · rw [List.nodup_flatMap]
    refine ⟨fun i _ => ?_, ?_⟩
    · rw [List.nodup_flatMap]
      refine ⟨fun b _ => ?_, ?_⟩
      · apply List.Nodup.map _ List.nodup_range'
        intro x y h; simpa using h
      · refine List.Pairwise.imp ?_ (List.nodup_range' (s := a + 1) (n := nv - (a + 1)))
        intro x y hxy z hz1 hz2
        simp only [List.mem_map] at hz1 hz2
        obtain ⟨_, _, rfl⟩ := hz1
        obtain ⟨_, _, h⟩ := hz2
        simp at h; exact hxy h.1.symm
    · refine List.Pairwise.imp ?_ (List.nodup_range (n := no))
      intro x y hxy z hz1 hz2
      simp only [List.mem_flatMap, List.mem_map] at hz1 hz2
      obtain ⟨_, _, _, _, rfl⟩ := hz1
      obtain ⟨_, _, _, _, h⟩ := hz2
      simp at h; exact hxy h.1.symm
  · refine List.Pairwise.imp ?_ (List.nodup_range (n := nv))
    intro x y hxy z hz1 hz2
    simp only [List.mem_flatMap, List.mem_map] at hz1 hz2
    obtain ⟨_, _, _, _, _, _, rfl⟩ := hz1
    obtain ⟨_, _, _, _, _, _, h⟩ := hz2
    simp at h; exact hxy h.1.symm

theorem getD_mem {l : List Nat} {i : Nat} (h : i < l.length) : l.getD i 0 ∈ l := by
  rw [List.getD_eq_getElem _ _ h]; exact List.getElem_mem h

theorem getD_inj {l : List Nat} (hn : l.Nodup) {i j : Nat} (hi : i < l.length) (hj : j < l.length)
    (h : l.getD i 0 = l.getD j 0) : i = j := by
  rw [List.getD_eq_getElem _ _ hi, List.getD_eq_getElem _ _ hj] at h
  exact (List.Nodup.getElem_inj_iff hn).1 h

/-- two distinct members of a list are at two ordered positions -/
theorem exists_lt_getD {l : List Nat} {x y : Nat} (hx : x ∈ l) (hy : y ∈ l) (hne : x ≠ y) :
    ∃ i j, i < j ∧ j < l.length ∧ ((l.getD i 0 = x ∧ l.getD j 0 = y) ∨
      (l.getD i 0 = y ∧ l.getD j 0 = x)) := by
  obtain ⟨i, hi, rfl⟩ := List.getElem_of_mem hx
  obtain ⟨j, hj, rfl⟩ := List.getElem_of_mem hy
  rcases Nat.lt_trichotomy i j with h | h | h
  · exact ⟨i, j, h, hj, Or.inl (by simp [hi, hj])⟩
  · subst h; simp at hne
  · exact ⟨j, i, h, hi, Or.inr (by simp [hi, hj])⟩

theorem mem_appendDoubles {s t : BitVec N} {o v : List Nat} :
    t ∈ appendDoubles s o v ↔ ∃ a i b j, a < b ∧ b < v.length ∧ i < j ∧ j < o.length ∧
      t = s ^^^ flip (flip (flip (flip (0#N) (o.getD i 0)) (v.getD a 0)) (o.getD j 0))
        (v.getD b 0) := by
  simp only [appendDoubles, List.mem_map]
  constructor
  · rintro ⟨⟨a, i, b, j⟩, h, rfl⟩
    rw [mem_doublesIndices] at h
    exact ⟨a, i, b, j, h.1, h.2.1, h.2.2.1, h.2.2.2, rfl⟩
  · rintro ⟨a, i, b, j, h1, h2, h3, h4, rfl⟩
    exact ⟨(a, i, b, j), mem_doublesIndices.2 ⟨h1, h2, h3, h4⟩, rfl⟩

/-- bits of a double excitation -/
theorem double_bits {s : BitVec N} {i a j b : Nat} (hi : s.getLsbD i = true)
    (hj : s.getLsbD j = true) (ha : a < N ∧ s.getLsbD a = false) (hb : b < N ∧ s.getLsbD b = false)
    (hij : i ≠ j) (hab : a ≠ b) (k : Nat) :
    (s ^^^ flip (flip (flip (flip (0#N) i) a) j) b).getLsbD k = true ↔
      (s.getLsbD k = true ∧ k ≠ i ∧ k ≠ j) ∨ k = a ∨ k = b := by
  rw [getLsbD_double (BitVec.lt_of_getLsbD hi) ha.1 (BitVec.lt_of_getLsbD hj) hb.1]
  have hai : a ≠ i := by rintro rfl; rw [hi] at ha; simp at ha
  have haj : a ≠ j := by rintro rfl; rw [hj] at ha; simp at ha
  have hbi : b ≠ i := by rintro rfl; rw [hi] at hb; simp at hb
  have hbj : b ≠ j := by rintro rfl; rw [hj] at hb; simp at hb
  by_cases h1 : k = i
  · subst h1; simp [hi, hai, hbi, hij, hij.symm, hai.symm, hbi.symm]
  by_cases h2 : k = j
  · subst h2; simp [hj, haj, hbj, hij, haj.symm, hbj.symm]
  by_cases h3 : k = a
  · subst h3; simp [ha.2, hai.symm, haj.symm, hab.symm]
  by_cases h4 : k = b
  · subst h4; simp [hb.2, hbi.symm, hbj.symm, hab]
  simp [h1, h2, h3, h4, Ne.symm h1, Ne.symm h2, Ne.symm h3, Ne.symm h4]

theorem mem_appendDoubles_iff {s t : BitVec N} {o v : List Nat} {P : Nat → Prop}
    (hon : o.Nodup) (hvn : v.Nodup)
    (ho : ∀ i, i ∈ o ↔ P i ∧ s.getLsbD i = true)
    (hv : ∀ a, a ∈ v ↔ a < N ∧ P a ∧ s.getLsbD a = false) :
    t ∈ appendDoubles s o v ↔ ExcitedWithin 2 P s t := by
  rw [mem_appendDoubles]
  constructor
  · rintro ⟨a, i, b, j, hab, hb, hij, hj, rfl⟩
    have mi := (ho _).1 (getD_mem (show i < o.length by omega))
    have mj := (ho _).1 (getD_mem hj)
    have ma := (hv _).1 (getD_mem (show a < v.length by omega))
    have mb := (hv _).1 (getD_mem hb)
    have nij : o.getD i 0 ≠ o.getD j 0 := fun h => by
      have := getD_inj hon (by omega) hj h; omega
    have nab : v.getD a 0 ≠ v.getD b 0 := fun h => by
      have := getD_inj hvn (by omega) hb h; omega
    refine ⟨{o.getD i 0, o.getD j 0}, {v.getD a 0, v.getD b 0}, Finset.card_pair nij,
      Finset.card_pair nab, ?_, ?_, ?_⟩
    · intro x hx
      rcases Finset.mem_insert.1 hx with rfl | hx
      · exact mi
      · rw [Finset.mem_singleton.1 hx]; exact mj
    · intro x hx
      rcases Finset.mem_insert.1 hx with rfl | hx
      · exact ma
      · rw [Finset.mem_singleton.1 hx]; exact mb
    · intro k
      rw [double_bits mi.2 mj.2 ⟨ma.1, ma.2.2⟩ ⟨mb.1, mb.2.2⟩ nij nab]
      simp only [Finset.mem_insert, Finset.mem_singleton, not_or, ne_eq]
  · rintro ⟨R, A, hR, hA, hRo, hAv, hk⟩
    obtain ⟨x, y, hxy, rfl⟩ := Finset.card_eq_two.1 hR
    obtain ⟨c, d, hcd, rfl⟩ := Finset.card_eq_two.1 hA
    have mx := hRo x (by simp)
    have my := hRo y (by simp)
    have mc := hAv c (by simp)
    have md := hAv d (by simp)
    obtain ⟨i, j, hij, hj, hij'⟩ := exists_lt_getD ((ho x).2 mx) ((ho y).2 my) hxy
    obtain ⟨a, b, hab, hb, hab'⟩ := exists_lt_getD ((hv c).2 mc) ((hv d).2 md) hcd
    refine ⟨a, i, b, j, hab, hb, hij, hj, ?_⟩
    have mi := (ho _).1 (getD_mem (show i < o.length by omega))
    have mj := (ho _).1 (getD_mem hj)
    have ma := (hv _).1 (getD_mem (show a < v.length by omega))
    have mb := (hv _).1 (getD_mem hb)
    have nij : o.getD i 0 ≠ o.getD j 0 := fun h => by
      have := getD_inj hon (by omega) hj h; omega
    have nab : v.getD a 0 ≠ v.getD b 0 := fun h => by
      have := getD_inj hvn (by omega) hb h; omega
    apply BitVec.eq_of_getLsbD_eq
    intro k _
    rw [Bool.eq_iff_iff, hk, double_bits mi.2 mj.2 ⟨ma.1, ma.2.2⟩ ⟨mb.1, mb.2.2⟩ nij nab]
    simp only [Finset.mem_insert, Finset.mem_singleton, not_or, ne_eq]
    rcases hij' with ⟨h1, h2⟩ | ⟨h1, h2⟩ <;> rcases hab' with ⟨h3, h4⟩ | ⟨h3, h4⟩ <;>
      rw [h1, h2, h3, h4] <;> tauto

theorem appendDoubles_nodup {s : BitVec N} {o v : List Nat} (hon : o.Nodup) (hvn : v.Nodup)
    (ho : ∀ i ∈ o, s.getLsbD i = true)
    (hv : ∀ a ∈ v, a < N ∧ s.getLsbD a = false) : (appendDoubles s o v).Nodup := by
  unfold appendDoubles
  apply List.Nodup.map_on _ (doublesIndices_nodup _ _)
  rintro ⟨a, i, b, j⟩ h1 ⟨a', i', b', j'⟩ h2 heq
  rw [mem_doublesIndices] at h1 h2
  obtain ⟨hab, hb, hij, hj⟩ := h1
  obtain ⟨hab', hb', hij', hj'⟩ := h2
  have mi := ho _ (getD_mem (show i < o.length by omega))
  have mj := ho _ (getD_mem hj)
  have ma := hv _ (getD_mem (show a < v.length by omega))
  have mb := hv _ (getD_mem hb)
  have mi' := ho _ (getD_mem (show i' < o.length by omega))
  have mj' := ho _ (getD_mem hj')
  have ma' := hv _ (getD_mem (show a' < v.length by omega))
  have mb' := hv _ (getD_mem hb')
  have nij : o.getD i 0 ≠ o.getD j 0 := fun h => by
    have := getD_inj hon (by omega) hj h; omega
  have nab : v.getD a 0 ≠ v.getD b 0 := fun h => by
    have := getD_inj hvn (by omega) hb h; omega
  have nij' : o.getD i' 0 ≠ o.getD j' 0 := fun h => by
    have := getD_inj hon (by omega) hj' h; omega
  have nab' : v.getD a' 0 ≠ v.getD b' 0 := fun h => by
    have := getD_inj hvn (by omega) hb' h; omega
  have e : ∀ k, ((s.getLsbD k = true ∧ k ≠ o.getD i 0 ∧ k ≠ o.getD j 0) ∨ k = v.getD a 0 ∨
      k = v.getD b 0) ↔ ((s.getLsbD k = true ∧ k ≠ o.getD i' 0 ∧ k ≠ o.getD j' 0) ∨
      k = v.getD a' 0 ∨ k = v.getD b' 0) := by
    intro k
    rw [← double_bits mi mj ma mb nij nab, ← double_bits mi' mj' ma' mb' nij' nab']
    simp only at heq
    rw [heq]
  have vneo : ∀ x y, s.getLsbD x = true → s.getLsbD y = false → x ≠ y := by
    rintro x y hx hy rfl; rw [hx] at hy; simp at hy
  -- occupied parts agree
  have oi : o.getD i 0 = o.getD i' 0 ∨ o.getD i 0 = o.getD j' 0 := by
    by_contra hc
    rw [not_or] at hc
    rcases (e (o.getD i 0)).2 (Or.inl ⟨mi, hc.1, hc.2⟩) with h | h | h
    · exact h.2.1 rfl
    · exact vneo _ _ mi ma.2 h
    · exact vneo _ _ mi mb.2 h
  have oj : o.getD j 0 = o.getD i' 0 ∨ o.getD j 0 = o.getD j' 0 := by
    by_contra hc
    rw [not_or] at hc
    rcases (e (o.getD j 0)).2 (Or.inl ⟨mj, hc.1, hc.2⟩) with h | h | h
    · exact h.2.2 rfl
    · exact vneo _ _ mj ma.2 h
    · exact vneo _ _ mj mb.2 h
  have va : v.getD a 0 = v.getD a' 0 ∨ v.getD a 0 = v.getD b' 0 := by
    rcases (e (v.getD a 0)).1 (Or.inr (Or.inl rfl)) with h | h | h
    · rw [ma.2] at h; simp at h
    · exact Or.inl h
    · exact Or.inr h
  have vb : v.getD b 0 = v.getD a' 0 ∨ v.getD b 0 = v.getD b' 0 := by
    rcases (e (v.getD b 0)).1 (Or.inr (Or.inr rfl)) with h | h | h
    · rw [mb.2] at h; simp at h
    · exact Or.inl h
    · exact Or.inr h
  have oi' : i = i' ∨ i = j' := oi.imp (getD_inj hon (by omega) (by omega))
    (getD_inj hon (by omega) (by omega))
  have oj' : j = i' ∨ j = j' := oj.imp (getD_inj hon (by omega) (by omega))
    (getD_inj hon (by omega) (by omega))
  have va' : a = a' ∨ a = b' := va.imp (getD_inj hvn (by omega) (by omega))
    (getD_inj hvn (by omega) (by omega))
  have vb' : b = a' ∨ b = b' := vb.imp (getD_inj hvn (by omega) (by omega))
    (getD_inj hvn (by omega) (by omega))
  have : a = a' ∧ i = i' ∧ b = b' ∧ j = j' := by omega
  obtain ⟨rfl, rfl, rfl, rfl⟩ := this
  rfl

theorem generateSingles_eq {norb : Nat} {s : BitVec N} (hs : SupportedOn norb s) (hn : norb ≤ N) :
    generateSingles norb s = some (appendSingles s (occ s) (vir norb s)) := by
  simp [generateSingles, bitsetToOccVir_eq hs hn]

theorem generateDoubles_eq {norb : Nat} {s : BitVec N} (hs : SupportedOn norb s) (hn : norb ≤ N) :
    generateDoubles norb s = some (appendDoubles s (occ s) (vir norb s)) := by
  simp [generateDoubles, bitsetToOccVir_eq hs hn]

theorem occ_spec {norb : Nat} {s : BitVec N} (hs : SupportedOn norb s) (i : Nat) :
    i ∈ occ s ↔ i < norb ∧ s.getLsbD i = true := by
  rw [mem_occ]; exact ⟨fun h => ⟨hs i h, h⟩, fun h => h.2⟩

theorem vir_spec {norb : Nat} {s : BitVec N} (hn : norb ≤ N) (a : Nat) :
    a ∈ vir norb s ↔ a < N ∧ a < norb ∧ s.getLsbD a = false := by
  rw [mem_vir]; exact ⟨fun h => ⟨by omega, h⟩, fun h => h.2⟩

theorem getLsbD_joinSpin (a b : BitVec M) (j : Nat) :
    (joinSpin a b).getLsbD j
      = if j < M then a.getLsbD j else (decide (j < 2 * M) && b.getLsbD (j - M)) := by
  rw [joinSpin, BitVec.getLsbD_or, BitVec.getLsbD_shiftLeft, getLsbD_expandBitset (by omega),
    getLsbD_expandBitset (by omega)]
  by_cases h : j < M
  · simp [h]
  · simp [h, BitVec.getLsbD_of_ge a j (by omega)]

theorem loWord_joinSpin (a b : BitVec M) : loWord (joinSpin a b) = a := by
  apply BitVec.eq_of_getLsbD_eq
  intro i hi
  rw [getLsbD_loWord, getLsbD_joinSpin]; simp [hi]

theorem hiWord_joinSpin (a b : BitVec M) : hiWord (joinSpin a b) = b := by
  apply BitVec.eq_of_getLsbD_eq
  intro i hi
  rw [getLsbD_hiWord, getLsbD_joinSpin]; simp [hi]; omega

theorem joinSpin_lo_hi (s : BitVec (2 * M)) : joinSpin (loWord s) (hiWord s) = s := by
  apply BitVec.eq_of_getLsbD_eq
  intro i hi
  rw [getLsbD_joinSpin, getLsbD_loWord, getLsbD_hiWord]
  by_cases h : i < M
  · simp [h]
  · simp [h, hi, show i - M < M by omega, show i - M + M = i by omega]

theorem joinSpin_inj {a b a' b' : BitVec M} (h : joinSpin a b = joinSpin a' b') :
    a = a' ∧ b = b' :=
  ⟨by rw [← loWord_joinSpin a b, h, loWord_joinSpin],
   by rw [← hiWord_joinSpin a b, h, hiWord_joinSpin]⟩

theorem excited_zero {P : Nat → Prop} {s t : BitVec N} : ExcitedWithin 0 P s t ↔ t = s := by
  constructor
  · rintro ⟨R, A, hR, hA, _, _, h⟩
    rw [Finset.card_eq_zero] at hR hA
    subst hR hA
    apply BitVec.eq_of_getLsbD_eq
    intro i _
    rw [Bool.eq_iff_iff, h]; simp
  · rintro rfl
    exact ⟨∅, ∅, by simp, by simp, by simp, by simp, by simp⟩

/-- number of removed electrons is determined by the endpoints -/
theorem excited_card_unique {P Q : Nat → Prop} {k l : Nat} {s t : BitVec N}
    (h1 : ExcitedWithin k P s t) (h2 : ExcitedWithin l Q s t) : k = l := by
  obtain ⟨R, A, hR, hA, hRo, hAv, h⟩ := h1
  obtain ⟨R', A', hR', hA', hRo', hAv', h'⟩ := h2
  have : A = A' := by
    ext x
    have e1 := h x
    have e2 := h' x
    constructor
    · intro hx
      have := hAv x hx
      rw [this.2.2] at e1 e2
      simp at e1 e2; tauto
    · intro hx
      have := hAv' x hx
      rw [this.2.2] at e1 e2
      simp at e1 e2; tauto
  rw [← hA, ← hA', this]

end Macis
