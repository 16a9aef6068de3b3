import Verif.Lemmas.Sparse
import Verif.Lemmas.Dist
import Verif.Model.SpBlas
import Mathlib.Algebra.BigOperators.Ring.Finset
import Mathlib.Algebra.BigOperators.Group.List.Basic
namespace Macis
open Spec
variable {R : Type}

theorem store_self (mem : Nat → R) (a : Nat) (v : R) : store mem a v a = v := by simp [store]
theorem store_ne (mem : Nat → R) {a b : Nat} (v : R) (h : b ≠ a) : store mem a v b = mem b := by
  simp [store, h]

theorem foldl_add_sum {α : Type} [Semiring R] (l : List α) (f : α → R) (a : R) :
    l.foldl (fun s x => s + f x) a = a + (l.map f).sum := by
  induction l generalizing a with
  | nil => simp
  | cons x l ih => rw [List.foldl_cons, ih, List.map_cons, List.sum_cons, add_assoc]

/-- sum of a row against a vector -/
theorem rowDot_eq [Semiring R] {A : Csr R} (h : CsrWF A) {i : Nat} (hi : i < A.m) (x : Nat → R) :
    A.rowDot x i = ∑ j ∈ Finset.range A.n, csrEntry A i j * x j := by
  unfold Csr.rowDot
  rw [foldl_add_sum, zero_add]
  have key : ∀ l : List (Nat × R), (∀ p ∈ l, A.indexing ≤ p.1 ∧ p.1 < A.indexing + A.n) →
      (l.map fun p => p.2 * x (p.1 - A.indexing)).sum
        = ∑ j ∈ Finset.range A.n, (l.map fun p => if p.1 = j + A.indexing then p.2 else 0).sum * x j := by
    intro l
    induction l with
    | nil => simp
    | cons p l ih =>
      intro hl
      have hp := hl p (by simp)
      rw [List.map_cons, List.sum_cons, ih (fun q hq => hl q (by simp [hq]))]
      simp only [List.map_cons, List.sum_cons, add_mul, Finset.sum_add_distrib]
      congr 1
      rw [Finset.sum_eq_single (p.1 - A.indexing)]
      · rw [if_pos (by omega)]
      · intro j _ hj
        rw [if_neg (by omega), zero_mul]
      · intro hc
        simp at hc
        omega
  rw [key _ (fun p hp => row_col_range h hi hp)]
  apply Finset.sum_congr rfl
  intro j _
  rw [csrEntry_eq h hi]

theorem mem_iterSpace {K M : Nat} {p : Nat × Nat} : p ∈ iterSpace K M ↔ p.1 < K ∧ p.2 < M := by
  unfold iterSpace
  simp only [List.mem_flatMap, List.mem_range, List.mem_map]
  constructor
  · rintro ⟨k, hk, i, hi, rfl⟩; exact ⟨hk, hi⟩
  · rintro ⟨hk, hi⟩; exact ⟨p.1, hk, p.2, hi, rfl⟩

theorem iterSpace_nodup (K M : Nat) : (iterSpace K M).Nodup := by
  unfold iterSpace
  rw [List.nodup_flatMap]
  constructor
  · intro k _
    apply List.Nodup.map _ List.nodup_range
    intro a b h; simpa using h
  · apply List.Pairwise.imp_of_mem _ List.pairwise_lt_range
    intro a b _ _ hab
    rw [Function.onFun, List.disjoint_left]
    intro p hp hq
    simp at hp hq
    obtain ⟨_, _, rfl⟩ := hp
    obtain ⟨_, _, h⟩ := hq
    simp at h; omega

/-- stores of independent iterations: each address is written by at most one iteration, from its
own old value -/
theorem foldl_store {ι : Type} (addr : ι → Nat) (f : ι → R → R) (l : List ι) (hn : l.Nodup)
    (hinj : ∀ x ∈ l, ∀ y ∈ l, addr x = addr y → x = y) (mem : Nat → R) :
    (∀ x ∈ l, l.foldl (fun m x => store m (addr x) (f x (m (addr x)))) mem (addr x)
        = f x (mem (addr x))) ∧
    (∀ a, (∀ x ∈ l, addr x ≠ a) →
      l.foldl (fun m x => store m (addr x) (f x (m (addr x)))) mem a = mem a) := by
  induction l generalizing mem with
  | nil => simp
  | cons y l ih =>
    rw [List.nodup_cons] at hn
    have ih' := ih hn.2 (fun a ha b hb => hinj a (by simp [ha]) b (by simp [hb]))
      (store mem (addr y) (f y (mem (addr y))))
    rw [List.foldl_cons]
    constructor
    · intro x hx
      rcases List.mem_cons.1 hx with rfl | hx'
      · rw [ih'.2 (addr x) ?_, store_self]
        intro z hz he
        have := hinj z (by simp [hz]) x (by simp) he
        subst this; exact hn.1 hz
      · rw [ih'.1 x hx', store_ne]
        intro he
        have := hinj x (by simp [hx']) y (by simp) he
        subst this; exact hn.1 hx'
    · intro a ha
      rw [ih'.2 a (fun x hx => ha x (by simp [hx])), store_ne]
      exact fun h => ha y (by simp) h.symm

theorem addr_inj {M LD : Nat} (h : M ≤ LD) {k i k' i' : Nat} (hi : i < M) (hi' : i' < M)
    (e : i + k * LD = i' + k' * LD) : k = k' ∧ i = i' := by
  have hLD : 0 < LD := by omega
  have h1 : (i + k * LD) / LD = k := by
    rw [Nat.add_mul_div_right _ _ hLD, Nat.div_eq_of_lt (by omega), Nat.zero_add]
  have h2 : (i' + k' * LD) / LD = k' := by
    rw [Nat.add_mul_div_right _ _ hLD, Nat.div_eq_of_lt (by omega), Nat.zero_add]
  have hk : k = k' := by rw [← h1, e, h2]
  subst hk
  exact ⟨rfl, by omega⟩

theorem gespmbvSched_spec [Semiring R] (K : Nat) (alpha beta : R) (A : Csr R) (h : CsrWF A)
    (V AV : Nat → R) (LDV LDAV : Nat) (hLD : A.m ≤ LDAV) (sched : List (Nat × Nat))
    (hs : sched.Perm (iterSpace K A.m)) :
    (∀ k < K, ∀ i < A.m, gespmbvSched sched alpha A V LDV beta AV LDAV (i + k * LDAV)
      = alpha * (∑ j ∈ Finset.range A.n, csrEntry A i j * V (j + k * LDV))
        + beta * AV (i + k * LDAV)) ∧
    (∀ a, (∀ k < K, ∀ i < A.m, a ≠ i + k * LDAV) →
      gespmbvSched sched alpha A V LDV beta AV LDAV a = AV a) := by
  have hm : ∀ p, p ∈ sched ↔ p.1 < K ∧ p.2 < A.m := fun p => by rw [hs.mem_iff, mem_iterSpace]
  have hf := foldl_store (fun p : Nat × Nat => p.2 + p.1 * LDAV)
    (fun p old => alpha * A.rowDot (fun c => V (p.1 * LDV + c)) p.2 + beta * old) sched
    (hs.nodup_iff.2 (iterSpace_nodup _ _)) (by
      intro x hx y hy e
      obtain ⟨h1, h2⟩ := addr_inj hLD ((hm x).1 hx).2 ((hm y).1 hy).2 e
      exact Prod.ext h1 h2) AV
  refine ⟨?_, ?_⟩
  · intro k hk i hi
    have := hf.1 (k, i) ((hm _).2 ⟨hk, hi⟩)
    dsimp only at this
    rw [rowDot_eq h hi] at this
    simp only [Nat.add_comm (k * LDV)] at this
    exact this
  · intro a ha
    exact hf.2 a (fun x hx => (ha x.1 ((hm x).1 hx).1 x.2 ((hm x).1 hx).2).symm)

theorem foldl_accum {ι : Type} [AddCommMonoid R] (addr : ι → Nat) (f : ι → R) (l : List ι)
    (mem : Nat → R) (a : Nat) :
    l.foldl (fun m x => store m (addr x) (m (addr x) + f x)) mem a
      = mem a + (l.map fun x => if addr x = a then f x else 0).sum := by
  induction l generalizing mem with
  | nil => simp
  | cons x l ih =>
    rw [List.foldl_cons, ih, List.map_cons, List.sum_cons]
    by_cases h : addr x = a
    · rw [if_pos h, ← h, store_self, add_assoc]
    · rw [if_neg h, store_ne _ _ (Ne.symm h), zero_add]

theorem sum_iterSpace [AddCommMonoid R] (K n : Nat) (f : Nat × Nat → R) :
    ((iterSpace K n).map f).sum
      = ∑ k ∈ Finset.range K, ∑ i ∈ Finset.range n, f (k, i) := by
  unfold iterSpace
  rw [List.map_flatMap, List.flatMap_def, List.sum_flatten, List.map_map, sum_map_range]
  apply Finset.sum_congr rfl
  intro k _
  simp only [Function.comp, List.map_map]
  rw [sum_map_range]
  rfl

end Macis
