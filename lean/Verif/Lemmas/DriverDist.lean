import Verif.Lemmas.CutDist
import Verif.Spec.MpiDriver
import Verif.Lemmas.DriverAsci
import Verif.Props.MpiIter
import Verif.Props.AsciDist
/-! What the growth and refinement phases rely on, on several ranks. -/
namespace Macis
open Spec Spec.Mpi Mpi Finset

variable {M : Nat}

/-- the joint selection adds to the core only states that were scored and whose score is not zero, each once -/
theorem asciSelectDist_sub {N : Nat} {srt part : List (Contrib N ℝ) → List (Contrib N ℝ)} {draw : Nat → Nat}
    {partS nthS : Nat → List ℝ → List ℝ}
    (hs : SortsBy (fun x y => bitsetLess x.state y.state) srt) (hp : Rearranges part) {ndetsMax : Nat}
    {cdets : List (BitVec N)} {C : List ℝ} {pairs : List (List (Contrib N ℝ))} (hcd : cdets.Nodup)
    (hnd : (pairs.flatten.map (·.state)).Nodup) {w : List (BitVec N)}
    (h : asciSelectDist srt part draw partS nthS ndetsMax cdets C pairs = some w) :
    w.Nodup ∧ ∀ s ∈ w, s ∈ cdets ∨ ∃ p ∈ pairs.flatten, p.state = s ∧ p.rv ≠ 0 := by
  unfold asciSelectDist at h
  split at h
  · cases h
  rename_i hC
  obtain ⟨K, hK, rfl⟩ := Option.map_eq_some_iff.1 h
  have hcand := candidates_perm hs hp cdets C pairs (not_lt.1 hC) hnd
  unfold distSelect at hK
  simp only [Option.bind_eq_bind, Option.bind_eq_some_iff] at hK
  obtain ⟨kth, -, hK⟩ := hK
  have hkept := distSelect_kept hp kth (pairs.map (searchCandidates srt part cdets C))
  set all := ((pairs.map (searchCandidates srt part cdets C)).map fun l =>
    ((legPartition part (fun p : Contrib N ℝ => |p.rv|) kth l).1 ++
      (legPartition part (fun p : Contrib N ℝ => |p.rv|) kth l).2.1).map (·.state)).flatten with hall
  have hKa : K.Sublist all := by
    simp only [pure, Option.some.injEq] at hK
    rw [← hK]
    split
    · exact List.take_sublist _ _
    · exact List.Sublist.refl _
  have hgl : (globalCand pairs cdets).Sublist pairs.flatten := List.filter_sublist
  have hst : ((pairs.map (searchCandidates srt part cdets C)).flatten.map (·.state)).Perm
      ((globalCand pairs cdets).map (·.state)) := by
    refine (hcand.map _).trans (List.Perm.of_eq ?_)
    rw [List.map_map]
    rfl
  have hall_mem : ∀ s ∈ K, ∃ p ∈ globalCand pairs cdets, p.state = s := by
    intro s hs'
    have h1 := hkept.mem_iff.1 (hKa.subset hs')
    obtain ⟨p, hp', rfl⟩ := List.mem_map.1 h1
    exact List.mem_map.1 (hst.mem_iff.1 (List.mem_map.2 ⟨p, List.mem_of_mem_filter hp', rfl⟩))
  have hnd' : K.Nodup := by
    refine List.Nodup.sublist hKa (hkept.nodup_iff.2 ?_)
    refine List.Nodup.sublist (List.filter_sublist.map _) (hst.nodup_iff.2 ?_)
    exact hnd.sublist (hgl.map _)
  have hprop : ∀ p ∈ globalCand pairs cdets, p.rv ≠ 0 ∧ p.state ∉ cdets := by
    intro p hp'
    simpa using (List.mem_filter.1 hp').2
  refine ⟨List.nodup_append.2 ⟨hnd', hcd, ?_⟩, fun s hs' => ?_⟩
  · rintro s hs' t ht rfl
    obtain ⟨p, h1, rfl⟩ := hall_mem s hs'
    exact (hprop p h1).2 ht
  · rcases List.mem_append.1 hs' with h | h
    · obtain ⟨p, h1, rfl⟩ := hall_mem s h
      exact Or.inr ⟨p, hgl.subset h1, rfl, (hprop p h1).1⟩
    · exact Or.inl h

theorem sum_le_of_each {l : List Nat} {k B : Nat} (hk : l.length ≤ k) (h : ∀ x ∈ l, k * x ≤ B) : l.sum ≤ B := by
  rcases Nat.eq_zero_or_pos k with rfl | hk0
  · have : l = [] := List.length_eq_zero_iff.1 (by omega)
    simp [this]
  · have h1 : (l.map fun x => k * x).sum ≤ l.length * B := by
      have := List.sum_le_card_nsmul (l.map fun x => k * x) B (by
        intro y hy
        obtain ⟨x, hx, rfl⟩ := List.mem_map.1 hy
        exact h x hx)
      simpa using this
    rw [List.sum_map_mul_left, List.map_id'] at h1
    exact Nat.le_of_mul_le_mul_left (h1.trans (Nat.mul_le_mul_right _ hk)) hk0

/-- the joint search stays in the sector of the core -/
theorem jointSearch_sector {a : AsciPar M} (hb : Behaves a) (hP : 2 ≤ a.P) (hpC : ∀ l, (a.partC l).Perm l)
    (hsC : ∀ l, (a.sortC l).Perm l) (hn : a.norb ≤ M) (h66 : a.norb ≤ 66) (h64 : 2 * M < 2 ^ 64) {h : GenState}
    (sym : IntSym a.norb (asMat h.T a.norb) (asTen h.V a.norb)) {na nb : Nat} (hlev : 3 + a.contrib.constraintLevel ≤ na)
    (hroom : RoomFor a na nb) {ndets : Nat} {cdets w : List (BitVec (2 * M))} {E0 : ℝ} {C : List ℝ}
    (hc : InSector a.norb na nb cdets) (hlen : cdets.length ≤ a.asci.ncdetsMax)
    (hw : jointSearch a h ndets cdets E0 C = some w) : InSector a.norb na nb w := by
  unfold jointSearch at hw
  split at hw
  · cases hw
  unfold asciSearchDist at hw
  set I := viewInts a.norb h.T h.V with hI
  have hag : AgreeBelow a.norb I I.cut :=
    ⟨fun p q hp hq => if_pos ⟨hp, hq⟩, fun p q r s hp hq hr hs => if_pos ⟨⟨hp, hq⟩, hr, hs⟩⟩
  have hf : ∀ r < a.P, asciContributionsConstraint I.cut a.contrib a.norb E0 a.srt a.part a.P r (a.avg cdets) a.partC a.sortC
      cdets C = asciContributionsConstraint I a.contrib a.norb E0 a.srt a.part a.P r (a.avg cdets) a.partC a.sortC
      cdets C := fun r hr =>
    asciContributionsConstraint_congr hag hn h66 h64 a.contrib E0 a.srt a.part a.P r _ (by omega) hpC hsC hr
      (fun s hs => (hc.2 s hs).1) C
  cases hm : (List.range a.P).mapM fun rank => asciContributionsConstraint I a.contrib a.norb E0 a.srt
    a.part a.P rank (a.avg cdets) a.partC a.sortC cdets C with
  | none => rw [hm] at hw; cases hw
  | some L =>
  rw [hm] at hw
  simp only [bind, Option.bind] at hw
  obtain ⟨hL, hall⟩ := mapM_range_some _ _ _ hm
  have h0 := hall 0 (by omega)
  have hne : cdets ≠ [] := by
    rintro rfl
    unfold asciContributionsConstraint at h0
    simp [uniqAlphas] at h0
  have hC : cdets.length ≤ C.length := by
    by_contra hcon
    unfold asciContributionsConstraint at h0
    rw [if_pos (by omega)] at h0
    cases h0
  obtain ⟨pairs, q1, q2, q3⟩ := C103_distributed_scores (I := I.cut) (cut_real (viewSym sym)) a.contrib
    (show I.cut.norb = a.norb from rfl) hn h66 h64 hb.srt (part := a.part) E0 a.P (a.avg cdets) (by omega) hpC hsC cdets C hC hne
    (fun s hs => ⟨(hc.2 s hs).1, by rw [(hc.2 s hs).2.1]; exact hlev⟩)
    (sum_le_of_each (k := a.asci.ncdetsMax) (by simpa using hlen) (by
      intro x hx
      obtain ⟨s, hs, rfl⟩ := List.mem_map.1 hx
      exact hroom s (hc.2 s hs).1 (hc.2 s hs).2.1 (hc.2 s hs).2.2))
  have hLp : L = (List.range a.P).map pairs := by
    rw [hL]
    refine List.map_congr_left fun r hr => ?_
    have hr := List.mem_range.1 hr
    rw [← hf r hr, q1 r hr, Option.getD_some]
  have hfl : L.flatten = (List.range a.P).flatMap pairs := by rw [hLp, List.flatMap_def]
  obtain ⟨nd, hmem⟩ := asciSelectDist_sub hb.srt hb.part hc.1 (by rw [hfl]; exact q2) hw
  refine ⟨nd, fun s hs => ?_⟩
  rcases hmem s hs with h | ⟨p, hp, rfl, hrv⟩
  · exact hc.2 s h
  · rw [hfl] at hp
    have ht := totalScore_nodup q2 hp
    rw [q3] at ht
    have : ∃ x ∈ cdets.zip C, SearchReach a.norb false x.1 p.state := by
      by_contra hcon
      apply hrv
      rw [← ht]
      unfold rankedSearchScore
      refine List.sum_eq_zero fun y hy => ?_
      obtain ⟨x, hx, rfl⟩ := List.mem_map.1 hy
      exact if_neg fun hr => hcon ⟨x, hx, hr.1⟩
    obtain ⟨x, hx, hr⟩ := this
    have hxc := hc.2 _ (List.of_mem_zip hx).1
    obtain ⟨u, v⟩ := searchReach_sector hxc.1 hr
    exact ⟨u, v.1.trans hxc.2.1, v.2.trans hxc.2.2⟩

/-- the joint diagonalisation gives the energy of a normalised state -/
theorem jointDiag_energy {a : AsciPar M} (hl : LowestPair a.eig) (hn : a.norb ≤ M) (h0 : 0 ≤ a.ci.matelTol) {h : GenState}
    (sym : IntSym a.norb (asMat h.T a.norb) (asTen h.V a.norb)) {na nb : Nat} {w : List (BitVec (2 * M))}
    (hw : InSector a.norb na nb w) {E : ℝ} {Y : List ℝ} (hd : jointDiag a h w = some (E, Y)) :
    EnergyVec (viewInts a.norb h.T h.V) a.ci.matelTol w E Y := by
  set I := viewInts a.norb h.T h.V with hI
  have hcsr : I.csrHamiltonian w a.ci.matelTol = I.cut.csrHamiltonian w a.ci.matelTol :=
    (C152_csr (I := I) (J := I.cut) hn (fun p q hp hq => if_pos ⟨hp, hq⟩)
      (fun p q r s hp hq hr hs => if_pos ⟨⟨hp, hq⟩, hr, hs⟩) hw.one.1 hw.one.2.2 a.ci.matelTol).symm
  have hent : ∀ i j : Fin w.length, ciFull a h w i j = ciMatrix I.cut w a.ci.matelTol i j := by
    intro i j
    unfold ciFull
    rw [← hI, hcsr]
    exact ciMatrix_entry I.cut hn (cut_real (viewSym sym)) h0 hw.one i.2 j.2
  have hsymm : (ciFull a h w).IsSymm := by
    ext i j
    rw [Matrix.transpose_apply, hent, hent]
    exact ciMatrix_symm I.cut hn (cut_real (viewSym sym)) _ _ _ _
  obtain ⟨x, c0, c1, -, c3, c4, -⟩ := C163_energy hl h w hsymm E Y hd
  have hfin : ∀ t : Fin w.length, finArr x t = x t := by intro t; simp [finArr]
  have r1 : ∑ i ∈ range w.length, finArr x i * finArr x i = 1 := by
    rw [sum_range, ← c1]
    exact sum_congr rfl fun t _ => by rw [hfin]
  have r2 : E = ∑ i ∈ range w.length, ∑ j ∈ range w.length, finArr x i * finArr x j * ciMatrix I.cut w a.ci.matelTol i j := by
    rw [sum_range]
    refine c3.trans (sum_congr rfl fun t _ => ?_)
    rw [sum_range, Matrix.mulVec, dotProduct, mul_sum]
    refine sum_congr rfl fun j _ => ?_
    rw [hent, hfin, hfin]
    ring
  have hY : Y = (List.range w.length).map (finArr x) := by
    rw [c0]
    refine List.ext_getElem (by simp) fun k h1 h2 => ?_
    have hk : k < w.length := by simpa using h1
    simp [finArr, hk]
  refine ⟨finArr x, hY, r1, ?_, fun i hi => ?_⟩
  · have := quad_thresh (h := fun i j => hamiltonian I (w.getD i 0) (w.getD j 0)) h0 r1
    rw [r2]
    simp only [ciMatrix, hamiltonian_cut]
    exact this
  · have := c4 ⟨i, hi⟩
    rw [hent] at this
    unfold ciMatrix at this
    simp only [hamiltonian_cut] at this
    split at this
    · linarith
    · rename_i c
      have := (abs_le.1 (not_lt.1 c)).1
      linarith

end Macis
