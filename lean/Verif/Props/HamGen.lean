import Verif.Lemmas.HamGen
import Verif.Lemmas.Syev
import Verif.Props.Rotate
import Verif.Props.Ham
/-! C180: the Hamiltonian generator's stored arrays and its rotation into natural orbitals. -/
namespace Macis
open Spec Finset
namespace HamGen

section
variable {R : Type} [Field R]

/-- the integrals the generator reads through its views -/
def ints (h : HamGen R) : Integrals R := ⟨h.norb, asMat h.T h.norb, asTen h.V h.norb⟩

/-- The stored combinations are those of the current two-electron integrals `v(p,q,r,s) = (pq|rs)`: antisymmetrised
integrals `G`, their restrictions to a repeated first pair, and those to two repeated pairs. -/
structure Fresh (h : HamGen R) (v : Nat → Nat → Nat → Nat → R) : Prop where
  G : ∀ i j k l, i < h.norb → j < h.norb → k < h.norb → l < h.norb → asTen h.G h.norb i j k l = v i j k l - v i l k j
  Gred : ∀ k i j, k < h.norb → i < h.norb → j < h.norb →
    h.Gred (k + i * h.norb + j * h.norb * h.norb) = v k k i j - v k j i k
  Vred : ∀ k i j, k < h.norb → i < h.norb → j < h.norb → h.Vred (k + i * h.norb + j * h.norb * h.norb) = v k k i j
  G2red : ∀ i j, i < h.norb → j < h.norb → asMat h.G2red h.norb i j = 2⁻¹ * (v i i j j - v i j j i)
  V2red : ∀ i j, i < h.norb → j < h.norb → asMat h.V2red h.norb i j = v i i j j

theorem generate_fresh (h : HamGen R) : Fresh h.generate (asTen h.V h.norb) := by
  set no := h.norb with hno
  have nr : (List.range no).Nodup := List.nodup_range
  have mr : ∀ {i}, i ∈ List.range no ↔ i < no := List.mem_range
  have i4 : ∀ x ∈ List.range no ×ˢ List.range no ×ˢ List.range no ×ˢ List.range no,
      ∀ y ∈ List.range no ×ˢ List.range no ×ˢ List.range no ×ˢ List.range no,
      (fun (x : Nat × Nat × Nat × Nat) => addr4 no x.1 x.2.1 x.2.2.1 x.2.2.2) x =
        (fun (x : Nat × Nat × Nat × Nat) => addr4 no x.1 x.2.1 x.2.2.1 x.2.2.2) y → x = y := by
    rintro ⟨a, b, c, d⟩ hx ⟨a', b', c', d'⟩ hy e
    simp only [List.mem_product, List.mem_range] at hx hy
    obtain ⟨rfl, rfl, rfl, rfl⟩ := addr4_inj (le_refl no) hx.1 hx.2.1 hx.2.2.1 hy.1 hy.2.1 hy.2.2.1 e
    rfl
  have i3 : ∀ x ∈ List.range no ×ˢ List.range no ×ˢ List.range no,
      ∀ y ∈ List.range no ×ˢ List.range no ×ˢ List.range no,
      (fun (x : Nat × Nat × Nat) => x.2.2 + x.2.1 * no + x.1 * no * no) x =
        (fun (x : Nat × Nat × Nat) => x.2.2 + x.2.1 * no + x.1 * no * no) y → x = y := by
    rintro ⟨a, b, c⟩ hx ⟨a', b', c'⟩ hy e
    simp only [List.mem_product, List.mem_range] at hx hy
    have e' : c + (b + a * no) * no = c' + (b' + a' * no) * no := by
      have : ∀ x y z : Nat, x + y * no + z * no * no = x + (y + z * no) * no := fun x y z => by ring
      simpa only [this] using e
    obtain ⟨rfl, e2⟩ := addr2_inj (le_refl no) hx.2.2 hy.2.2 e'
    obtain ⟨rfl, rfl⟩ := addr2_inj (le_refl no) hx.2.1 hy.2.1 e2
    rfl
  have i2 : ∀ x ∈ List.range no ×ˢ List.range no, ∀ y ∈ List.range no ×ˢ List.range no,
      (fun (x : Nat × Nat) => x.2 + x.1 * no) x = (fun (x : Nat × Nat) => x.2 + x.1 * no) y → x = y := by
    rintro ⟨a, b⟩ hx ⟨a', b'⟩ hy e
    simp only [List.mem_product, List.mem_range] at hx hy
    obtain ⟨rfl, rfl⟩ := addr2_inj (le_refl no) hx.2 hy.2 e
    rfl
  have hG : ∀ i j k l, i < no → j < no → k < no → l < no →
      h.generate.G (addr4 no i j k l) = h.V (addr4 no i j k l) - h.V (addr4 no i l k j) := fun i j k l hi hj hk hl =>
    (forEach_spec (val := fun (x : Nat × Nat × Nat × Nat) g => g - h.V (addr4 no x.1 x.2.2.2 x.2.2.1 x.2.1))
      (nr.product (nr.product (nr.product nr))) i4 h.V).1 (i, j, k, l)
      (by simp only [List.mem_product, List.mem_range]; exact ⟨hi, hj, hk, hl⟩)
  refine ⟨fun i j k l hi hj hk hl => hG i j k l hi hj hk hl, fun k i j hk hi hj => ?_, fun k i j hk hi hj => ?_,
    fun i j hi hj => ?_, fun i j hi hj => ?_⟩
  · refine Eq.trans ((forEach_spec (val := fun (x : Nat × Nat × Nat) _ =>
      h.generate.G (addr4 no x.2.2 x.2.2 x.2.1 x.1)) (nr.product (nr.product nr)) i3 h.Gred).1 (j, i, k)
      (by simp only [List.mem_product, List.mem_range]; exact ⟨hj, hi, hk⟩)) ?_
    exact hG k k i j hk hk hi hj
  · exact ((forEach_spec (val := fun (x : Nat × Nat × Nat) _ =>
      h.V (addr4 no x.2.2 x.2.2 x.2.1 x.1)) (nr.product (nr.product nr)) i3 h.Vred).1 (j, i, k)
      (by simp only [List.mem_product, List.mem_range]; exact ⟨hj, hi, hk⟩))
  · refine Eq.trans ((forEach_spec (val := fun (x : Nat × Nat) _ =>
      2⁻¹ * h.generate.G (addr4 no x.2 x.2 x.1 x.1)) (nr.product nr) i2 h.G2red).1 (j, i)
      (by simp only [List.mem_product, List.mem_range]; exact ⟨hj, hi⟩)) ?_
    exact congrArg (2⁻¹ * ·) (hG i i j j hi hi hj hj)
  · exact ((forEach_spec (val := fun (x : Nat × Nat) _ =>
      h.V (addr4 no x.2 x.2 x.1 x.1)) (nr.product nr) i2 h.V2red).1 (j, i)
      (by simp only [List.mem_product, List.mem_range]; exact ⟨hj, hi⟩))

variable (gesvd : Nat → (Nat → R) → Nat → (Nat → R) × (Nat → R))

theorem rotateAll_append (ds : List (Nat → R)) (d : Nat → R) (h : HamGen R) :
    h.rotateAll gesvd (ds ++ [d]) = (h.rotateAll gesvd ds).rotate gesvd d := by
  simp [rotateAll, List.foldl_append]

theorem rotateAll_norb (ds : List (Nat → R)) (h : HamGen R) : (h.rotateAll gesvd ds).norb = h.norb := by
  induction ds generalizing h with
  | nil => rfl
  | cons d ds ih => exact ih (h.rotate gesvd d)

/-- C180.  After its construction and after any sequence of rotations, the generator's stored arrays are those of the
two-electron integrals it then refers to, whatever the singular value routine returned. -/
theorem C180_intermediates (no : Nat) (T V : Nat → R) (ordms : List (Nat → R)) :
    let h := (construct no T V).rotateAll gesvd ordms
    h.norb = no ∧ Fresh h (asTen h.V no) := by
  intro h
  have hn : h.norb = no := rotateAll_norb gesvd ordms _
  refine ⟨hn, ?_⟩
  rcases List.eq_nil_or_concat ordms with e | ⟨ds, d, e⟩
  · have : h = construct no T V := by simp only [h, e]; rfl
    rw [this]
    exact generate_fresh _
  · have e1 : h = (((construct no T V).rotateAll gesvd ds)).rotate gesvd d := by
      simp only [h, e, List.concat_eq_append, rotateAll_append]
    rw [← hn, e1]
    exact generate_fresh _

/-- C180.  A rotation replaces the caller's arrays by the integrals in the basis of the left singular vectors, the
columns of the matrix the routine returns. -/
theorem C180_rotated (ordm : Nat → R) (h : HamGen R) :
    let no := h.norb
    let C := asMat (gesvd no ordm no).1 no
    let h' := h.rotate gesvd ordm
    (∀ p q, p < no → q < no → asMat h'.T no p q = ∑ i ∈ range no, ∑ j ∈ range no, C i p * C j q * asMat h.T no i j) ∧
    (∀ p q r s, p < no → q < no → r < no → s < no → asTen h'.V no p q r s =
      ∑ i ∈ range no, ∑ j ∈ range no, ∑ k ∈ range no, ∑ l ∈ range no,
        C i p * C j q * C k r * C l s * asTen h.V no i j k l) :=
  ⟨fun p q hp hq => (C38_two_index h.norb h.norb h.norb h.norb h.norb (le_refl _) h.T (gesvd h.norb ordm h.norb).1
      h.T).1 p q hp hq,
    fun p q r s hp hq hr hs => rotate_quarters h.norb h.V (gesvd h.norb ordm h.norb).1 h.V _ p q r s hp hq hr hs⟩

theorem sum_occ_congr {M no : Nat} {s : BitVec M} (hs : SupportedOn no s) {f g : Nat → R}
    (h : ∀ p, p < no → f p = g p) : ((occ s).map f).sum = ((occ s).map g).sum := by
  congr 1
  exact List.map_congr_left fun p hp => h p (hs p (mem_occ.1 hp))

/-- entries read from the stored arrays are those of the integrals restricted to the orbitals of the system -/
theorem stored_matrixElement {M : Nat} (h : HamGen R) (F : Fresh h (asTen h.V h.norb)) {a b a' b' : BitVec M}
    (sa : SupportedOn h.norb a) (sb : SupportedOn h.norb b) (sa' : SupportedOn h.norb a') (sb' : SupportedOn h.norb b')
    (ha : electrons a = electrons a') (hb : electrons b = electrons b') :
    h.matrixElement (joinSpin a b) (joinSpin a' b') = h.ints.cut.matrixElement (joinSpin a b) (joinSpin a' b') := by
  set no := h.norb with hno
  set c := h.ints.cut with hc
  have cV : ∀ {i j k l}, i < no → j < no → k < no → l < no → c.V i j k l = asTen h.V no i j k l :=
    fun hi hj hk hl => if_pos ⟨⟨hi, hj⟩, hk, hl⟩
  have cT : ∀ {i j}, i < no → j < no → h.T (i + j * no) = c.T i j := fun hi hj => (if_pos ⟨hi, hj⟩).symm
  have cG : ∀ {i j k l}, i < no → j < no → k < no → l < no → h.G (addr4 no i j k l) = c.G i j k l := by
    intro i j k l hi hj hk hl
    rw [Integrals.G, cV hi hj hk hl, cV hi hl hk hj]
    exact F.G i j k l hi hj hk hl
  have cGr : ∀ {k i j}, k < no → i < no → j < no → h.Gred (0 + i * no + j * no * no + k) = c.Gred k i j := by
    intro k i j hk hi hj
    rw [Integrals.Gred, Integrals.G, cV hk hk hi hj, cV hk hj hi hk, ← F.Gred k i j hk hi hj]
    congr 1; ring
  have cVr : ∀ {k i j}, k < no → i < no → j < no → h.Vred (0 + i * no + j * no * no + k) = c.Vred k i j := by
    intro k i j hk hi hj
    rw [Integrals.Vred, cV hk hk hi hj, ← F.Vred k i j hk hi hj]
    congr 1; ring
  have cG2 : ∀ {i j}, i < no → j < no → h.G2red (i + j * no) = c.G2red i j := by
    intro i j hi hj
    rw [Integrals.G2red, Integrals.G, cV hi hi hj hj, cV hi hj hj hi]
    exact F.G2red i j hi hj
  have cV2 : ∀ {i j}, i < no → j < no → h.V2red (i + j * no) = c.V2red i j := by
    intro i j hi hj
    rw [Integrals.V2red, cV hi hi hj hj]
    exact F.V2red i j hi hj
  obtain ⟨ka, ca, ea⟩ := exists_excited ha
  obtain ⟨kb, cb, eb⟩ := exists_excited hb
  simp only [matrixElement, Integrals.matrixElement, loWord_joinSpin, hiWord_joinSpin, Integrals.matrixElementSpin,
    ca, cb, bitsToIndices_eq_occ]
  by_cases h3 : 2 * ka + 2 * kb > 4
  · rw [if_pos h3, if_pos h3]
  rw [if_neg h3, if_neg h3]
  by_cases hka2 : 2 * ka = 4
  · rw [if_pos hka2, if_pos hka2]
    obtain rfl : ka = 2 := by omega
    obtain ⟨o1, v1, o2, v2, sgn, e1, hD⟩ := double_data ea
    rw [matrixElement4, Integrals.matrixElement4, e1]
    exact congrArg (_ * ·) (cG (sa _ ((hD.bits v1).2 (by simp))) (sa' _ hD.ho1) (sa _ ((hD.bits v2).2 (by simp)))
      (sa' _ hD.ho2))
  rw [if_neg hka2, if_neg hka2]
  by_cases hkb2 : 2 * kb = 4
  · rw [if_pos hkb2, if_pos hkb2]
    obtain rfl : kb = 2 := by omega
    obtain ⟨o1, v1, o2, v2, sgn, e1, hD⟩ := double_data eb
    rw [matrixElement4, Integrals.matrixElement4, e1]
    exact congrArg (_ * ·) (cG (sb _ ((hD.bits v1).2 (by simp))) (sb' _ hD.ho1) (sb _ ((hD.bits v2).2 (by simp)))
      (sb' _ hD.ho2))
  rw [if_neg hkb2, if_neg hkb2]
  by_cases h11 : 2 * ka = 2 ∧ 2 * kb = 2
  · rw [if_pos h11, if_pos h11]
    obtain rfl : ka = 1 := by omega
    obtain rfl : kb = 1 := by omega
    obtain ⟨o1, v1, s1, e1, p1, -, -, p4, -, -⟩ := single_data ea
    obtain ⟨o2, v2, s2, e2, q1, -, -, q4, -, -⟩ := single_data eb
    rw [matrixElement22, Integrals.matrixElement22, e1, e2]
    exact congrArg (_ * ·) (cV (sa _ p4) (sa' _ p1) (sb _ q4) (sb' _ q1)).symm
  rw [if_neg h11, if_neg h11]
  by_cases hka1 : 2 * ka = 2
  · rw [if_pos hka1, if_pos hka1]
    obtain rfl : ka = 1 := by omega
    obtain ⟨o1, v1, s1, e1, p1, -, -, p4, -, -⟩ := single_data ea
    rw [matrixElement2, Integrals.matrixElement2, e1]
    have x1 := sum_occ_congr sa (f := fun p => h.Gred (0 + v1 * no + o1 * no * no + p)) (g := fun p => c.Gred p v1 o1)
      fun p hp => cGr hp (sa _ p4) (sa' _ p1)
    have x2 := sum_occ_congr sb (f := fun p => h.Vred (0 + v1 * no + o1 * no * no + p)) (g := fun p => c.Vred p v1 o1)
      fun p hp => cVr hp (sa _ p4) (sa' _ p1)
    dsimp only
    rw [← x1, ← x2, ← cT (sa _ p4) (sa' _ p1)]
  rw [if_neg hka1, if_neg hka1]
  by_cases hkb1 : 2 * kb = 2
  · rw [if_pos hkb1, if_pos hkb1]
    obtain rfl : kb = 1 := by omega
    obtain ⟨o1, v1, s1, e1, p1, -, -, p4, -, -⟩ := single_data eb
    rw [matrixElement2, Integrals.matrixElement2, e1]
    have x1 := sum_occ_congr sb (f := fun p => h.Gred (0 + v1 * no + o1 * no * no + p)) (g := fun p => c.Gred p v1 o1)
      fun p hp => cGr hp (sb _ p4) (sb' _ p1)
    have x2 := sum_occ_congr sa (f := fun p => h.Vred (0 + v1 * no + o1 * no * no + p)) (g := fun p => c.Vred p v1 o1)
      fun p hp => cVr hp (sb _ p4) (sb' _ p1)
    dsimp only
    rw [← x1, ← x2, ← cT (sb _ p4) (sb' _ p1)]
  rw [if_neg hkb1, if_neg hkb1, matrixElementDiag, Integrals.matrixElementDiag]
  refine congrArg₂ (· + ·) (congrArg₂ (· + ·) (congrArg₂ (· + ·) (congrArg₂ (· + ·) ?_ ?_) ?_) ?_) ?_
  · exact sum_occ_congr sa fun p hp => cT hp hp
  · exact sum_occ_congr sb fun p hp => cT hp hp
  · exact sum_occ_congr sa fun q hq => sum_occ_congr sa fun p hp => cG2 hp hq
  · exact sum_occ_congr sb fun q hq => sum_occ_congr sb fun p hp => cG2 hp hq
  · exact sum_occ_congr sb fun q hq => sum_occ_congr sa fun p hp => cV2 hp hq

theorem rotateAll_pairSym (no : Nat) (T V : Nat → R) (ordms : List (Nat → R))
    (hV : ∀ p q r s, p < no → q < no → r < no → s < no → asTen V no p q r s = asTen V no r s p q) :
    ∀ p q r s, p < no → q < no → r < no → s < no →
      asTen ((construct no T V).rotateAll gesvd ordms).V no p q r s =
        asTen ((construct no T V).rotateAll gesvd ordms).V no r s p q := by
  induction ordms using List.reverseRecOn with
  | nil => exact hV
  | append_singleton ds d ih =>
    intro p q r s hp hq hr hs
    rw [rotateAll_append]
    set g := (construct no T V).rotateAll gesvd ds with hg
    have gn : g.norb = no := rotateAll_norb gesvd ds (construct no T V)
    have rot := (C180_rotated gesvd d g).2
    rw [gn] at rot
    rw [rot p q r s hp hq hr hs, rot r s p q hr hs hp hq]
    set C := asMat (gesvd no d no).1 no
    calc _ = ∑ i ∈ range no, ∑ j ∈ range no, ∑ k ∈ range no, ∑ l ∈ range no,
          C k r * C l s * C i p * C j q * asTen g.V no k l i j := by
          refine sum_congr rfl fun i hi => sum_congr rfl fun j hj => sum_congr rfl fun k hk => sum_congr rfl fun l hl => ?_
          rw [ih i j k l (mem_range.1 hi) (mem_range.1 hj) (mem_range.1 hk) (mem_range.1 hl)]
          ring
      _ = ∑ i ∈ range no, ∑ k ∈ range no, ∑ j ∈ range no, ∑ l ∈ range no,
          C k r * C l s * C i p * C j q * asTen g.V no k l i j :=
          sum_congr rfl fun i _ => sum_comm
      _ = ∑ k ∈ range no, ∑ i ∈ range no, ∑ j ∈ range no, ∑ l ∈ range no,
          C k r * C l s * C i p * C j q * asTen g.V no k l i j := sum_comm
      _ = ∑ k ∈ range no, ∑ i ∈ range no, ∑ l ∈ range no, ∑ j ∈ range no,
          C k r * C l s * C i p * C j q * asTen g.V no k l i j :=
          sum_congr rfl fun k _ => sum_congr rfl fun i _ => sum_comm
      _ = _ := sum_congr rfl fun k _ => sum_comm

/-- C180.  Entries computed from the stored arrays after any sequence of rotations are those of the Hamiltonian
operator of the integrals the generator then refers to. -/
theorem C180_matrix_element {M no : Nat} (hn : no ≤ M) (h2 : (2 : R) ≠ 0) (T V : Nat → R) (ordms : List (Nat → R))
    (hV : ∀ p q r s, p < no → q < no → r < no → s < no → asTen V no p q r s = asTen V no r s p q)
    (bra ket : BitVec (2 * M)) (hb : InSpace no bra) (hk : InSpace no ket) (hs : SameSector bra ket) :
    let h := (construct no T V).rotateAll gesvd ordms
    h.matrixElement bra ket = hamiltonian (⟨no, asMat h.T no, asTen h.V no⟩ : Integrals R) bra ket := by
  intro h
  obtain ⟨eh, F⟩ := C180_intermediates gesvd no T V ordms
  have sym := rotateAll_pairSym gesvd no T V ordms hV
  have ei : h.ints = ⟨no, asMat h.T no, asTen h.V no⟩ := by
    have : h.norb = no := eh
    rw [ints, this]
  have hb' := (inSpace_iff _).1 hb
  have hk' := (inSpace_iff _).1 hk
  have s1 := hs.1
  have s2 := hs.2
  rw [alphaElectrons_eq, alphaElectrons_eq] at s1
  rw [betaElectrons_eq, betaElectrons_eq] at s2
  have eh' : h.norb = no := eh
  have st := stored_matrixElement h (by rw [eh']; exact F) (a := loWord bra) (b := hiWord bra) (a' := loWord ket)
    (b' := hiWord ket) (by rw [eh']; exact hb'.1) (by rw [eh']; exact hb'.2) (by rw [eh']; exact hk'.1)
    (by rw [eh']; exact hk'.2) s1 s2
  rw [joinSpin_lo_hi, joinSpin_lo_hi, ei] at st
  rw [st, C13_slater_condon M _ hn h2 (cut_pairSym (I := ⟨no, asMat h.T no, asTen h.V no⟩) sym) bra ket hb hk hs,
    hamiltonian_cut]

end

variable (gesvd : Nat → (Nat → ℝ) → Nat → (Nat → ℝ) × (Nat → ℝ))

/-- the routine decomposes `ordm` -/
def Decomposes (no : Nat) (ordm : Nat → ℝ) : Prop :=
  Svd no (asMat ordm no) (asMat (gesvd no ordm no).1 no) (gesvd no ordm no).2

/-- rotations leave the eigenvalues of the Hamiltonian operator as they were -/
theorem rotated_energies {M no : Nat} (hn : no ≤ M) (T V : Nat → ℝ) (ordms : List (Nat → ℝ))
    (hs : ∀ d ∈ ordms, Decomposes gesvd no d) {na nb : Nat} {dets : List (BitVec (2 * M))} (nd : dets.Nodup)
    (mem : ∀ s, s ∈ dets ↔ InSpace no s ∧ alphaElectrons s = na ∧ betaElectrons s = nb) (mu : ℝ) :
    let n := dets.length
    let h := (construct no T V).rotateAll gesvd ordms
    let H := fun i j => hamiltonian (⟨no, asMat T no, asTen V no⟩ : Integrals ℝ) (dets.getD i 0) (dets.getD j 0)
    let H' := fun i j => hamiltonian h.ints (dets.getD i 0) (dets.getD j 0)
    (∃ y : Nat → ℝ, (∃ i < n, y i ≠ 0) ∧ ∀ i < n, ∑ j ∈ range n, H' i j * y j = mu * y i) ↔
    (∃ y : Nat → ℝ, (∃ i < n, y i ≠ 0) ∧ ∀ i < n, ∑ j ∈ range n, H i j * y j = mu * y i) := by
  induction ordms using List.reverseRecOn with
  | nil => exact Iff.rfl
  | append_singleton ds d ih =>
    intro n h H H'
    refine Iff.trans ?_ (ih fun x hx => hs x (List.mem_append_left _ hx))
    set g := (construct no T V).rotateAll gesvd ds with hg
    have gn : g.norb = no := rotateAll_norb gesvd ds _
    have eh : h = g.rotate gesvd d := rotateAll_append gesvd ds d _
    have hd := hs d (List.mem_append_right _ (List.mem_singleton_self d))
    have base := C151_eigenvalues hn (le_refl no) g.T g.V (gesvd no d no).1 g.T g.V
      (fun p q hp hq => hd.left p q hp hq) nd mem mu (ldt := no)
    have e1 : g.ints = ⟨no, asMat g.T no, asTen g.V no⟩ := by rw [ints, gn]
    rw [e1]
    refine Iff.trans ?_ base
    have e2 : ∀ i j, H' i j = hamiltonian (⟨no, asMat (twoIndexTransform no no g.T no (gesvd no d no).1 no g.T no) no,
        asTen (fourIndexTransform no no g.V no (gesvd no d no).1 no g.V no) no⟩ : Integrals ℝ)
        (dets.getD i 0) (dets.getD j 0) := by
      intro i j
      have e3 : h.ints = ⟨no, asMat h.T no, asTen h.V no⟩ := by
        have : h.norb = no := by rw [eh]; exact gn
        rw [ints, this]
      have hr := C180_rotated gesvd d g
      simp only [gn, ← eh] at hr
      change hamiltonian h.ints _ _ = _
      rw [e3]
      refine hamiltonian_congr (J := ⟨no, asMat h.T no, asTen h.V no⟩)
        (I := (⟨no, asMat (twoIndexTransform no no g.T no (gesvd no d no).1 no g.T no) no,
          asTen (fourIndexTransform no no g.V no (gesvd no d no).1 no g.V no) no⟩ : Integrals ℝ)) rfl
        (fun p q hp hq => ?_) (fun p q r s hp hq hr' hs' => ?_) _ _
      · exact (hr.1 p q hp hq).trans
          ((C38_two_index no no no no no (le_refl _) g.T (gesvd no d no).1 g.T).1 p q hp hq).symm
      · exact (hr.2 p q r s hp hq hr' hs').trans
          ((C38_four_index no no no g.V (gesvd no d no).1 g.V).1 p q r s hp hq hr' hs').symm
    have e4 : H' = fun i j => hamiltonian (⟨no, asMat (twoIndexTransform no no g.T no (gesvd no d no).1 no g.T no) no,
        asTen (fourIndexTransform no no g.V no (gesvd no d no).1 no g.V no) no⟩ : Integrals ℝ)
        (dets.getD i 0) (dets.getD j 0) := funext fun i => funext fun j => e2 i j
    rw [e4]

/-- C180.  Rotations leave every full-CI energy as it was: the matrix whose entries are computed from the stored arrays
has the eigenvalues of the Hamiltonian of the integrals given at construction. -/
theorem C180_energies {M no : Nat} (hn : no ≤ M) (T V : Nat → ℝ) (ordms : List (Nat → ℝ))
    (hV : ∀ p q r s, p < no → q < no → r < no → s < no → asTen V no p q r s = asTen V no r s p q)
    (hs : ∀ d ∈ ordms, Decomposes gesvd no d) {na nb : Nat} {dets : List (BitVec (2 * M))} (nd : dets.Nodup)
    (mem : ∀ s, s ∈ dets ↔ InSpace no s ∧ alphaElectrons s = na ∧ betaElectrons s = nb) (mu : ℝ) :
    let n := dets.length
    let h := (construct no T V).rotateAll gesvd ordms
    let H := fun i j => hamiltonian (⟨no, asMat T no, asTen V no⟩ : Integrals ℝ) (dets.getD i 0) (dets.getD j 0)
    let H' := fun i j => h.matrixElement (dets.getD i 0) (dets.getD j 0)
    (∃ y : Nat → ℝ, (∃ i < n, y i ≠ 0) ∧ ∀ i < n, ∑ j ∈ range n, H' i j * y j = mu * y i) ↔
    (∃ y : Nat → ℝ, (∃ i < n, y i ≠ 0) ∧ ∀ i < n, ∑ j ∈ range n, H i j * y j = mu * y i) := by
  intro n h H H'
  refine Iff.trans ?_ (rotated_energies gesvd hn T V ordms hs nd mem mu)
  have hg : ∀ k, k < n → dets.getD k 0 ∈ dets := fun k hk => by
    rw [List.getD_eq_getElem _ _ hk]; exact List.getElem_mem hk
  have e : ∀ i < n, ∀ j < n, H' i j = hamiltonian h.ints (dets.getD i 0) (dets.getD j 0) := by
    intro i hi j hj
    obtain ⟨i1, i2, i3⟩ := (mem _).1 (hg i hi)
    obtain ⟨j1, j2, j3⟩ := (mem _).1 (hg j hj)
    have := C180_matrix_element gesvd hn two_ne_zero T V ordms hV _ _ i1 j1
      (show SameSector (dets.getD i 0) (dets.getD j 0) from ⟨by rw [i2, j2], by rw [i3, j3]⟩)
    refine this.trans ?_
    rw [ints, rotateAll_norb]
    rfl
  have e' : ∀ y : Nat → ℝ, ∀ i < n, ∑ j ∈ range n, H' i j * y j =
      ∑ j ∈ range n, hamiltonian h.ints (dets.getD i 0) (dets.getD j 0) * y j :=
    fun y i hi => sum_congr rfl fun j hj => by rw [e i hi j (mem_range.1 hj)]
  constructor
  · rintro ⟨y, h0, hy⟩
    exact ⟨y, h0, fun i hi => by rw [← hy i hi]; exact (e' y i hi).symm⟩
  · rintro ⟨y, h0, hy⟩
    exact ⟨y, h0, fun i hi => by rw [← hy i hi]; exact e' y i hi⟩

/-- C180.  The new orbitals are natural orbitals, those with the largest occupations first: in them the one-particle
density matrix, symmetric and without negative eigenvalues, is diagonal. -/
theorem C180_natural {no : Nat} (ordm : Nat → ℝ) (hD : SymPsd no (asMat ordm no)) (hs : Decomposes gesvd no ordm) :
    let C := asMat (gesvd no ordm no).1 no
    let S := (gesvd no ordm no).2
    (∀ p q, p < no → q < no →
      ∑ i ∈ range no, ∑ j ∈ range no, C i p * C j q * asMat ordm no i j = if p = q then S p else 0) ∧
    (∀ p q, p ≤ q → q < no → 0 ≤ S q ∧ S q ≤ S p) :=
  ⟨fun p q hp hq => svd_symPsd hD hs p q hp hq, fun p q hpq hq => ⟨hs.nonneg q hq, hs.desc p q hpq hq⟩⟩

/-- A routine with which `C180_energies` and `C180_natural` apply to every such matrix exists. -/
theorem exists_decomposes :
    ∃ gesvd : Nat → (Nat → ℝ) → Nat → (Nat → ℝ) × (Nat → ℝ), ∀ no ordm, SymPsd no (asMat ordm no) →
      Decomposes gesvd no ordm := by
  have : ∀ (no : Nat) (ordm : Nat → ℝ), ∃ r : (Nat → ℝ) × (Nat → ℝ), SymPsd no (asMat ordm no) →
      Svd no (asMat ordm no) (asMat r.1 no) r.2 := by
    intro no ordm
    by_cases hD : SymPsd no (asMat ordm no)
    · obtain ⟨w, Z, hz⟩ := exists_symEig no
        (fun p q => if p < no ∧ q < no then asMat ordm no p q else 0) (by
          intro p q
          by_cases h : p < no ∧ q < no
          · simp only [if_pos h, if_pos h.symm]; exact hD.1 p q h.1 h.2
          · rw [if_neg h, if_neg fun h' => h h'.symm])
      have eig : ∀ p k, p < no → k < no → ∑ q ∈ range no, asMat ordm no p q * Z q k = w k * Z p k := by
        intro p k hp hk
        rw [← hz.eig p k hp hk]
        refine sum_congr rfl fun q hq => ?_
        simp only [if_pos (And.intro hp (mem_range.1 hq))]
      have hrev : ∀ k, k < no → no - 1 - k < no := fun k hk => by omega
      -- columns and rows of `Z` are orthonormal
      have cols := hz.ortho
      have rows : ∀ p q, p < no → q < no → ∑ k ∈ range no, Z p k * Z q k = if p = q then 1 else 0 := by
        let z : Matrix (Fin no) (Fin no) ℝ := fun i j => Z i j
        have zz : z.transpose * z = 1 := by
          ext k l
          have := cols k l k.2 l.2
          rw [sum_range] at this
          rw [Matrix.mul_apply, Matrix.one_apply]
          refine Eq.trans this ?_
          simp [Fin.ext_iff]
        have zz' : z * z.transpose = 1 := mul_eq_one_comm.1 zz
        intro p q hp hq
        have := congrFun (congrFun zz' ⟨p, hp⟩) ⟨q, hq⟩
        rw [Matrix.mul_apply, Matrix.one_apply] at this
        rw [sum_range]
        refine Eq.trans this ?_
        simp [Fin.ext_iff]
      have hA : ∀ p k, p < no → k < no → asMat (fun a => Z (a % no) (no - 1 - a / no)) no p k = Z p (no - 1 - k) := by
        intro p k hp hk
        have h0 : 0 < no := by omega
        simp only [asMat, Nat.add_mul_mod_self_right, Nat.mod_eq_of_lt hp, Nat.add_mul_div_right _ _ h0,
          Nat.div_eq_of_lt hp, Nat.zero_add]
      have left : ∀ j k, j < no → k < no → ∑ p ∈ range no, Z p (no - 1 - j) * Z p (no - 1 - k) =
          if j = k then 1 else 0 := by
        intro j k hj hk
        rw [cols _ _ (hrev j hj) (hrev k hk)]
        congr 1
        exact propext ⟨fun h => by omega, fun h => by rw [h]⟩
      refine ⟨⟨fun a => Z (a % no) (no - 1 - a / no), fun k => w (no - 1 - k)⟩, fun _ => ⟨?_, ?_, ?_, ?_⟩⟩
      · intro j k hj hk
        rw [← left j k hj hk]
        exact sum_congr rfl fun p hp => by rw [hA p j (mem_range.1 hp) hj, hA p k (mem_range.1 hp) hk]
      · intro k hk
        have hk' := hrev k hk
        have h1 := hD.2 fun p => Z p (no - 1 - k)
        have h2 : ∑ p ∈ range no, ∑ q ∈ range no, Z p (no - 1 - k) * asMat ordm no p q * Z q (no - 1 - k) =
            w (no - 1 - k) := by
          calc _ = ∑ p ∈ range no, Z p (no - 1 - k) * (w (no - 1 - k) * Z p (no - 1 - k)) := by
                refine sum_congr rfl fun p hp => ?_
                rw [← eig p _ (mem_range.1 hp) hk', mul_sum]
                exact sum_congr rfl fun q _ => mul_assoc _ _ _
            _ = w (no - 1 - k) * ∑ p ∈ range no, Z p (no - 1 - k) * Z p (no - 1 - k) := by
                rw [mul_sum]; exact sum_congr rfl fun p _ => by ring
            _ = _ := by rw [cols _ _ hk' hk', if_pos rfl, mul_one]
        rw [h2] at h1
        exact h1
      · intro j k hjk hk
        exact hz.asc _ _ (by omega) (by omega)
      · refine ⟨fun p k => Z p (no - 1 - k), left, fun p q hp hq => ?_⟩
        have h3 : asMat ordm no p q = ∑ k ∈ range no, Z p k * w k * Z q k := by
          calc asMat ordm no p q = ∑ r ∈ range no, asMat ordm no p r * (if r = q then 1 else 0) := by
                simp [hq]
            _ = ∑ r ∈ range no, asMat ordm no p r * ∑ k ∈ range no, Z r k * Z q k :=
                sum_congr rfl fun r hr => by rw [rows r q (mem_range.1 hr) hq]
            _ = ∑ k ∈ range no, (∑ r ∈ range no, asMat ordm no p r * Z r k) * Z q k := by
                simp only [mul_sum, sum_mul]
                rw [sum_comm]
                exact sum_congr rfl fun k _ => sum_congr rfl fun r _ => (mul_assoc _ _ _).symm
            _ = _ := sum_congr rfl fun k hk => by rw [eig p k hp (mem_range.1 hk)]; ring
        rw [h3, ← sum_range_reflect]
        exact sum_congr rfl fun k hk => by rw [hA p k hp (mem_range.1 hk)]
    · exact ⟨(ordm, ordm), fun h => absurd h hD⟩
  exact ⟨fun no ordm _ => (this no ordm).choose, fun no ordm h => (this no ordm).choose_spec h⟩

/-- A density with occupations 3/2 and 1/2 in orbitals that mix the given ones equally meets the hypotheses. -/
example : SymPsd 2 (asMat (fun a => if a = 0 ∨ a = 3 then (1 : ℝ) else 1 / 2) 2) := by
  refine ⟨fun p q hp hq => ?_, fun x => ?_⟩
  · interval_cases p <;> interval_cases q <;> rfl
  · simp only [sum_range_succ, sum_range_zero, asMat]
    norm_num
    nlinarith [sq_nonneg (x 0 + x 1), sq_nonneg (x 0 - x 1)]

end HamGen
end Macis
