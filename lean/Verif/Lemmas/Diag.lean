import Verif.Lemmas.MatrixElement

/-! Adjointness of the ladder operators; bookkeeping of sums over occupied orbitals. -/
namespace Macis
open Spec
variable {N M : Nat} {R : Type} [Field R]

/-- inner product of two vectors -/
def ip : Option (Int × BitVec N) → Option (Int × BitVec N) → Int
  | some (c, s), some (d, t) => if s = t then c * d else 0
  | _, _ => 0

theorem amp_eq_ip (b : BitVec N) (v : Option (Int × BitVec N)) : amp b v = ip (some (1, b)) v := by
  match v with
  | none => rfl
  | some (c, s) =>
    simp only [amp, ip, one_mul]
    by_cases h : s = b
    · subst h; simp
    · simp [h, Ne.symm h]

theorem ip_symm (u v : Option (Int × BitVec N)) : ip u v = ip v u := by
  match u, v with
  | none, none => rfl
  | none, some _ => rfl
  | some _, none => rfl
  | some (c, s), some (d, t) =>
    simp only [ip]
    by_cases h : s = t
    · subst h; simp [mul_comm]
    · simp [h, Ne.symm h]

theorem ip_none_left (v : Option (Int × BitVec N)) : ip none v = 0 := by cases v <;> rfl
theorem ip_none_right (v : Option (Int × BitVec N)) : ip v none = 0 := by cases v <;> rfl

theorem ip_ladder (l : Bool) {p : Nat} (hp : p < N) (u v : Option (Int × BitVec N)) :
    ip u (ladder l p v) = ip (ladder (!l) p u) v := by
  match u, v with
  | none, v => rw [ladder_none, ip_none_left, ip_none_left]
  | some _, none => rw [ladder_none, ip_none_right, ip_none_right]
  | some (c, s), some (d, t) =>
    by_cases h : s = flip t p
    · have h' : flip s p = t := by rw [h, flip_flip]
      have hb : s.getLsbD p = !t.getLsbD p := by rw [h, getLsbD_flip hp]; simp
      have hs : below s p = below t p := by rw [h, below_flip_le (Nat.le_refl p)]
      by_cases ht : t.getLsbD p = l
      · have hs' : s.getLsbD p = !l := by rw [hb, ht]
        simp only [ladder, if_pos ht, if_pos hs', ip, if_pos h, if_pos h', hs]
        ring
      · have hs' : ¬ s.getLsbD p = !l := by rw [hb]; simpa using ht
        simp only [ladder, if_neg ht, if_neg hs']; rfl
    · have h' : flip s p ≠ t := by rintro rfl; rw [flip_flip] at h; exact h rfl
      have e1 : ip (some (c, s)) (ladder l p (some (d, t))) = 0 := by
        simp only [ladder]; split
        · simp [ip, h]
        · rfl
      have e2 : ip (ladder (!l) p (some (c, s))) (some (d, t)) = 0 := by
        simp only [ladder]; split
        · simp [ip, h']
        · rfl
      rw [e1, e2]

theorem amp1_adjoint {bra ket : BitVec N} {P Q : Nat} (hP : P < N) (hQ : Q < N) :
    amp1 bra ket P Q = amp1 ket bra Q P := by
  rw [amp1_ladder hP, amp1_ladder hQ, amp_eq_ip, amp_eq_ip, ip_ladder _ hP, ip_ladder _ hQ, ip_symm]
  rfl

theorem amp2_adjoint {bra ket : BitVec N} {P R S Q : Nat} (hP : P < N) (hR : R < N) (hS : S < N)
    (hQ : Q < N) : amp2 bra ket P R S Q = amp2 ket bra Q S R P := by
  rw [amp2_ladder hP hR, amp2_ladder hQ hS, amp_eq_ip, amp_eq_ip, ip_ladder _ hP, ip_ladder _ hR,
    ip_ladder _ hS, ip_ladder _ hQ, ip_symm]
  rfl

theorem so_lt {p : Nat} (σ : Bool) (h : p < M) : so M σ p < 2 * M := by
  unfold so; split <;> omega

theorem abs1_symm {ι : Type} {K : Finset ι} {e : ι → Nat} (hN : ∀ x ∈ K, e x < N)
    {t : ι → ι → R} (ht : ∀ a b, t a b = t b a) (bra ket : BitVec N) :
    abs1 K e t bra ket = abs1 K e t ket bra := by
  unfold abs1
  rw [Finset.sum_comm]
  refine Finset.sum_congr rfl fun P hP => Finset.sum_congr rfl fun Q hQ => ?_
  rw [amp1_adjoint (hN Q hQ) (hN P hP), ht Q P]

theorem abs2_symm {ι : Type} {K : Finset ι} {e : ι → Nat} (hN : ∀ x ∈ K, e x < N)
    {w : ι → ι → ι → ι → R} (hw : ∀ a b c d, w a b c d = w b a d c) (bra ket : BitVec N) :
    abs2 K e w bra ket = abs2 K e w ket bra := by
  unfold abs2
  rw [Finset.sum_comm]
  refine Finset.sum_congr rfl fun P hP => Finset.sum_congr rfl fun Q hQ => ?_
  rw [Finset.sum_comm]
  refine Finset.sum_congr rfl fun X hX => Finset.sum_congr rfl fun Y hY => ?_
  rw [amp2_adjoint (hN Q hQ) (hN Y hY) (hN X hX) (hN P hP), hw Q P Y X]

theorem hamiltonian_symm (I : Integrals R) (hn : I.norb ≤ M) (hI : RealSymmetric I)
    (bra ket : BitVec (2 * M)) : hamiltonian I bra ket = hamiltonian I ket bra := by
  rw [hamiltonian_eq_abs, hamiltonian_eq_abs, abs1_symm (soBit_lt hn), abs2_symm (soBit_lt hn)]
  · intro a b c d
    simp only [soV]
    rw [hI.2.2 a.2 b.2 c.2 d.2, hI.2.1 b.2 a.2 c.2 d.2, hI.2.2 c.2 d.2 b.2 a.2,
      hI.2.1 d.2 c.2 b.2 a.2]
    simp only [eq_comm]
  · intro a b
    simp only [soT]
    rw [hI.1 a.2 b.2]
    simp only [eq_comm]

/-! ### moving one electron in a sum over the occupied orbitals -/

theorem sum_occ_finset (s : BitVec M) (f : Nat → R) :
    ((occ s).map f).sum = ∑ p ∈ (occ s).toFinset, f p := by
  rw [List.sum_toFinset _ (occ_nodup s)]

theorem sum_occ_move {s : BitVec M} {h p : Nat} (hh : s.getLsbD h = true) (hp : s.getLsbD p = false)
    (hpM : p < M) (f : Nat → R) :
    ((occ (flip (flip s h) p)).map f).sum = ((occ s).map f).sum - f h + f p := by
  have hM := BitVec.lt_of_getLsbD hh
  have hph : p ≠ h := by rintro rfl; simp [hh] at hp
  rw [sum_occ_finset, sum_occ_finset]
  have e : (occ (flip (flip s h) p)).toFinset = insert p ((occ s).toFinset.erase h) := by
    ext x
    simp only [List.mem_toFinset, mem_occ, Finset.mem_insert, Finset.mem_erase]
    rw [getLsbD_flip hpM, getLsbD_flip hM]
    by_cases hx : x = p
    · subst hx; simp [hp, Ne.symm hph]
    · by_cases hx2 : x = h
      · subst hx2; simp [hh, hx, Ne.symm hx]
      · simp [hx, hx2, Ne.symm hx, Ne.symm hx2]
  rw [e, Finset.sum_insert, ← Finset.sum_erase_add (occ s).toFinset f (a := h) (by simp [mem_occ, hh])]
  · ring
  · simp [mem_occ, hp]

theorem map_sum_add (l : List Nat) (f g : Nat → R) :
    (l.map fun x => f x + g x).sum = (l.map f).sum + (l.map g).sum := by
  induction l with
  | nil => simp
  | cons a l ih => simp only [List.map_cons, List.sum_cons, ih]; ring

theorem map_sum_sub (l : List Nat) (f g : Nat → R) :
    (l.map fun x => f x - g x).sum = (l.map f).sum - (l.map g).sum := by
  induction l with
  | nil => simp
  | cons a l ih => simp only [List.map_cons, List.sum_cons, ih]; ring

theorem G2red_self (I : Integrals R) (i : Nat) : I.G2red i i = 0 := by
  simp [Integrals.G2red, Integrals.G]

end Macis
