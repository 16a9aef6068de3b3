import Verif.Model.RoundRdm
import Verif.Lemmas.Rounding
import Verif.Lemmas.Chop
import Verif.Props.Rdm
import Verif.Props.RdmSym
/-! Property C173: reduced density matrices in floating point. -/
namespace Macis
open Spec

variable {M : Nat} {rnd : ℝ → ℝ} {u : ℝ}

/-! ### the values written to one element -/

/-- values written to `ordm(p,q)` -/
def oVal (p q : Nat) : Upd ℝ → List ℝ
  | .o a b v => if p = a ∧ q = b then [v] else []
  | .t _ _ _ _ _ => []

def oVals (p q : Nat) (l : List (Upd ℝ)) : List ℝ := l.flatMap (oVal p q)

/-- values written to `trdm(p,q,r,s)` -/
def tVal (p q r s : Nat) : Upd ℝ → List ℝ
  | .o _ _ _ => []
  | .t a b c d v => if p = a ∧ q = b ∧ r = c ∧ s = d then [v] else []

def tVals (p q r s : Nat) (l : List (Upd ℝ)) : List ℝ := l.flatMap (tVal p q r s)

theorem foldl_oVals (l : List (Upd ℝ)) (st : Rdms ℝ) (p q : Nat) :
    (l.foldl (Rdms.applyR rnd) st).ordm p q = (oVals p q l).foldl (fun h v => rnd (h + v)) (st.ordm p q) := by
  induction l generalizing st with
  | nil => rfl
  | cons w l ih =>
    rw [List.foldl_cons, ih]
    cases w with
    | o a b v =>
      by_cases h : p = a ∧ q = b
      · simp [oVals, oVal, Rdms.applyR, h]
      · simp [oVals, oVal, Rdms.applyR, h]
    | t a b c d v => simp [oVals, oVal, Rdms.applyR]

theorem foldl_tVals (l : List (Upd ℝ)) (st : Rdms ℝ) (p q r s : Nat) :
    (l.foldl (Rdms.applyR rnd) st).trdm p q r s
      = (tVals p q r s l).foldl (fun h v => rnd (h + v)) (st.trdm p q r s) := by
  induction l generalizing st with
  | nil => rfl
  | cons w l ih =>
    rw [List.foldl_cons, ih]
    cases w with
    | t a b c d v =>
      by_cases h : p = a ∧ q = b ∧ r = c ∧ s = d
      · simp [tVals, tVal, Rdms.applyR, h]
      · simp [tVals, tVal, Rdms.applyR, h]
    | o a b v => simp [tVals, tVal, Rdms.applyR]

/-! ### exchange of the electrons -/

theorem tVals_append (p q r s : Nat) (l l' : List (Upd ℝ)) :
    tVals p q r s (l ++ l') = tVals p q r s l ++ tVals p q r s l' := by simp [tVals]

theorem tVals_flatMap {α : Type} (p q r s : Nat) (l : List α) (f : α → List (Upd ℝ)) :
    tVals p q r s (l.flatMap f) = l.flatMap fun a => tVals p q r s (f a) := by
  simp [tVals, List.flatMap_assoc]

theorem tVals_o {α : Type} (p q r s : Nat) (l : List α) (f : α → Nat) (v : ℝ) :
    tVals p q r s (l.map fun a => Upd.o (f a) (f a) v) = [] := by
  simp [tVals, tVal, List.flatMap_map]

theorem tVals_4 {a a' : BitVec M} (h : ExcitedWithin 2 (fun _ => True) a' a) (val : ℝ) (p q r s : Nat) :
    tVals p q r s (rdmContributions4 a a' (a ^^^ a') val) = tVals r s p q (rdmContributions4 a a' (a ^^^ a') val) := by
  obtain ⟨o1, v1, o2, v2, sgn, e, h1, h2, -⟩ := C11_double_indices M a a' h
  unfold rdmContributions4
  rw [e]
  simp only [tVals, tVal, List.flatMap_cons, List.flatMap_nil, List.append_nil]
  split_ifs <;> first | rfl | (exfalso; omega)

theorem tVals_22 (a a' b b' : BitVec M) (val : ℝ) (p q r s : Nat) :
    tVals p q r s (rdmContributions22 a a' (a ^^^ a') b b' (b ^^^ b') val)
      = tVals r s p q (rdmContributions22 a a' (a ^^^ a') b b' (b ^^^ b') val) := by
  unfold rdmContributions22
  simp only [tVals, tVal, List.flatMap_cons, List.flatMap_nil, List.append_nil]
  split_ifs <;> first | rfl | (exfalso; omega)

theorem two_swap (A B C D : Prop) [Decidable A] [Decidable B] [Decidable C] [Decidable D] (v w : ℝ) :
    ((if A then [v] else []) ++ ((if B then [v] else []) ++ ((if C then [w] else []) ++ if D then [w] else [])))
      = (if B then [v] else []) ++ ((if A then [v] else []) ++ ((if D then [w] else []) ++ if C then [w] else [])) := by
  by_cases A <;> by_cases B <;> by_cases C <;> by_cases D <;> simp [*]

theorem tVals_2 (a a' ex : BitVec M) (oA oB : List Nat) (val : ℝ) (hasT : Bool) (p q r s : Nat) :
    tVals p q r s (rdmContributions2 a a' ex oA oB val hasT) = tVals r s p q (rdmContributions2 a a' ex oA oB val hasT) := by
  unfold rdmContributions2
  generalize singleExcitationSignIndices a a' ex = t
  obtain ⟨o1, v1, sgn⟩ := t
  dsimp only
  generalize val * ((sgn : ℝ) * 2⁻¹) = hv
  rw [tVals_append, tVals_append]
  congr 1
  cases hasT
  · rfl
  rw [if_pos rfl, tVals_append, tVals_append, tVals_flatMap, tVals_flatMap, tVals_flatMap, tVals_flatMap]
  have c1 : ∀ x, (p = v1 ∧ q = o1 ∧ r = x ∧ s = x) = (r = x ∧ s = x ∧ p = v1 ∧ q = o1) := fun x => by
    apply propext; tauto
  have c2 : ∀ x, (p = x ∧ q = x ∧ r = v1 ∧ s = o1) = (r = v1 ∧ s = o1 ∧ p = x ∧ q = x) := fun x => by
    apply propext; tauto
  have c3 : ∀ x, (p = v1 ∧ q = x ∧ r = x ∧ s = o1) = (r = x ∧ s = o1 ∧ p = v1 ∧ q = x) := fun x => by
    apply propext; tauto
  have c4 : ∀ x, (p = x ∧ q = o1 ∧ r = v1 ∧ s = x) = (r = v1 ∧ s = x ∧ p = x ∧ q = o1) := fun x => by
    apply propext; tauto
  congr 2
  · funext x
    simp only [tVals, tVal, List.flatMap_cons, List.flatMap_nil, List.append_nil, c1, c2, c3, c4]
    exact two_swap _ _ _ _ _ _
  · funext x
    simp only [tVals, tVal, List.flatMap_cons, List.flatMap_nil, List.append_nil, c1, c2]
    have := two_swap (r = x ∧ s = x ∧ p = v1 ∧ q = o1) (r = v1 ∧ s = o1 ∧ p = x ∧ q = x) False False hv hv
    simpa using this

theorem natSum_comm (l l' : List Nat) (f : Nat → Nat → Nat) :
    (l.map fun q => (l'.map fun p => f p q).sum).sum = (l'.map fun p => (l.map fun q => f p q).sum).sum := by
  induction l with
  | nil => simp
  | cons a l ih => simp [ih, List.sum_map_add]

theorem tVals_diag_same (l : List Nat) (v w : ℝ) (p q r s : Nat) :
    tVals p q r s (l.flatMap fun y => l.flatMap fun x => [Upd.t x x y y v, Upd.t x y x y w])
      = tVals r s p q (l.flatMap fun y => l.flatMap fun x => [Upd.t x x y y v, Upd.t x y x y w]) := by
  by_cases hself : p = r ∧ q = s
  · obtain ⟨rfl, rfl⟩ := hself
    rfl
  have key : ∀ p q r s : Nat, ¬ (p = r ∧ q = s) →
      tVals p q r s (l.flatMap fun y => l.flatMap fun x => [Upd.t x x y y v, Upd.t x y x y w])
        = List.replicate (l.map fun y => (l.map fun x => if p = x ∧ q = x ∧ r = y ∧ s = y then 1 else 0).sum).sum v := by
    intro p q r s hs
    rw [List.eq_replicate_iff]
    constructor
    · simp only [tVals_flatMap, List.length_flatMap]
      congr 1
      apply List.map_congr_left
      intro y _
      congr 1
      apply List.map_congr_left
      intro x _
      simp only [tVals, tVal, List.flatMap_cons, List.flatMap_nil, List.append_nil]
      have : ¬ (p = x ∧ q = y ∧ r = x ∧ s = y) := by omega
      rw [if_neg this]
      split_ifs <;> rfl
    · intro z hz
      simp only [tVals_flatMap, List.mem_flatMap] at hz
      obtain ⟨y, -, x, -, hz⟩ := hz
      simp only [tVals, tVal, List.flatMap_cons, List.flatMap_nil, List.append_nil] at hz
      have : ¬ (p = x ∧ q = y ∧ r = x ∧ s = y) := by omega
      rw [if_neg this] at hz
      split_ifs at hz <;> simp_all
  rw [key p q r s hself, key r s p q (by omega)]
  congr 1
  rw [natSum_comm]
  congr 1
  apply List.map_congr_left
  intro y _
  congr 1
  apply List.map_congr_left
  intro x _
  congr 1
  apply propext
  omega

theorem tVals_diag (oA oB : List Nat) (val : ℝ) (hasT : Bool) (p q r s : Nat) :
    tVals p q r s (rdmContributionsDiag oA oB val hasT) = tVals r s p q (rdmContributionsDiag oA oB val hasT) := by
  unfold rdmContributionsDiag
  dsimp only
  rw [tVals_append, tVals_append, tVals_append, tVals_append]
  simp only [tVals_o]
  cases hasT
  · rfl
  rw [if_pos rfl]
  simp only [tVals_append]
  rw [tVals_diag_same oA, tVals_diag_same oB]
  congr 2
  simp only [tVals_flatMap]
  congr 1
  funext y
  congr 1
  funext x
  simp only [tVals, tVal, List.flatMap_cons, List.flatMap_nil, List.append_nil]
  split_ifs <;> first | rfl | (exfalso; omega)

theorem tVals_pair {b k : BitVec (2 * M)} (hs : SameSector b k) (val : ℝ) (hasT : Bool) (p q r s : Nat) :
    tVals p q r s (rdmPair b k val hasT) = tVals r s p q (rdmPair b k val hasT) := by
  obtain ⟨hsa, hsb⟩ := hs
  rw [alphaElectrons_eq, alphaElectrons_eq] at hsa
  rw [betaElectrons_eq, betaElectrons_eq] at hsb
  unfold rdmPair
  split_ifs <;> try rfl
  rw [loWord_xor, hiWord_xor]
  unfold rdmContributions
  dsimp only
  have dbl : ∀ {a a' : BitVec M}, electrons a = electrons a' → count (a ^^^ a') = 4 →
      ExcitedWithin 2 (fun _ => True) a' a := by
    intro a a' h h4
    obtain ⟨n, hn, he⟩ := exists_excited h
    obtain rfl : n = 2 := by omega
    exact he
  split_ifs with c1 c2 c3 c4 c5 c6
  · rfl
  · exact tVals_4 (dbl hsa c2.1) val p q r s
  · exact tVals_4 (dbl hsb c3.1) val p q r s
  · exact tVals_22 _ _ _ _ val p q r s
  · exact tVals_2 _ _ _ _ _ val hasT p q r s
  · exact tVals_2 _ _ _ _ _ val hasT p q r s
  · exact tVals_diag _ _ val hasT p q r s

/-- C173: in floating point, with any rounding whatever, the 2-RDM is exactly symmetric under the exchange of the two
electrons - not only up to rounding - if the array was when the call was made (for example zero). -/
theorem C173_electron_exchange (norb : Nat) (rnd : ℝ → ℝ) (bras kets : List (BitVec (2 * M))) (C : Nat → ℝ) (hasT : Bool)
    (hS : OneSector norb bras kets) (st : Rdms ℝ) (h0 : ∀ p q r s, st.trdm p q r s = st.trdm r s p q)
    (p q r s : Nat) :
    (formRdmsR rnd bras kets C hasT st).trdm p q r s = (formRdmsR rnd bras kets C hasT st).trdm r s p q := by
  unfold formRdmsR
  rw [foldl_tVals, foldl_tVals, h0]
  congr 1
  simp only [tVals_flatMap]
  refine List.flatMap_congr fun i hi => List.flatMap_congr fun j hj => ?_
  exact tVals_pair (hS.2.2 _ (getD_mem' 0 (List.mem_range.1 hi)) _ (getD_mem' 0 (List.mem_range.1 hj))) _ _ _ _ _ _

/-! ### the 1-RDM -/

theorem oVals_append (p q : Nat) (l l' : List (Upd ℝ)) : oVals p q (l ++ l') = oVals p q l ++ oVals p q l' := by
  simp [oVals]

theorem oVals_flatMap {α : Type} (p q : Nat) (l : List α) (f : α → List (Upd ℝ)) :
    oVals p q (l.flatMap f) = l.flatMap fun a => oVals p q (f a) := by
  simp [oVals, List.flatMap_assoc]

theorem oVals_sum (n p q : Nat) (l : List (Upd ℝ)) : (oVals p q l).sum = evL (delta1 n p q) l := by
  induction l with
  | nil => rfl
  | cons w l ih =>
    rw [evL_cons, ← ih]
    cases w with
    | o a b v =>
      simp only [oVals, oVal, List.flatMap_cons, List.sum_append, evU, delta1]
      by_cases h : p = a ∧ q = b
      · rw [if_pos h, if_pos ⟨h.1.symm, h.2.symm⟩]; simp
      · rw [if_neg h, if_neg (fun h' => h ⟨h'.1.symm, h'.2.symm⟩)]; simp
    | t a b c d v => simp [oVals, oVal, evU, delta1]

theorem oVals_t (p q : Nat) (l : List (Upd ℝ)) (h : ∀ w ∈ l, ∃ a b c d v, w = Upd.t a b c d v) : oVals p q l = [] := by
  unfold oVals
  rw [List.flatMap_eq_nil_iff]
  intro w hw
  obtain ⟨a, b, c, d, v, rfl⟩ := h w hw
  rfl

theorem oVals_diagMap (p q : Nat) (l : List Nat) (v : ℝ) :
    ∃ n, oVals p q (l.map fun x => Upd.o x x v) = List.replicate n v := by
  refine ⟨(oVals p q (l.map fun x => Upd.o x x v)).length, ?_⟩
  rw [List.eq_replicate_iff]
  refine ⟨rfl, fun z hz => ?_⟩
  simp only [oVals, List.mem_flatMap, List.mem_map] at hz
  obtain ⟨w, ⟨x, -, rfl⟩, hz⟩ := hz
  simp only [oVal] at hz
  split_ifs at hz <;> simp_all

theorem rdm_sign_cases {N : Nat} (s : BitVec N) (x y : Nat) :
    singleExcitationSign s x y = 1 ∨ singleExcitationSign s x y = -1 := by
  unfold singleExcitationSign
  dsimp only
  exact (ite_eq_or_eq _ _ _).symm

theorem oVals_2 (a a' ex : BitVec M) (oA oB : List Nat) (val : ℝ) (p q : Nat) :
    ∃ (n : Nat) (sg : Int), (sg = 1 ∨ sg = -1) ∧
      oVals p q (rdmContributions2 a a' ex oA oB val true) = List.replicate n ((sg : ℝ) * val) := by
  unfold rdmContributions2 singleExcitationSignIndices
  dsimp only
  rw [oVals_append, if_pos rfl, oVals_t p q (_ ++ _), List.append_nil]
  · simp only [oVals, oVal, List.flatMap_cons, List.flatMap_nil, List.append_nil]
    split_ifs
    · exact ⟨1, _, rdm_sign_cases _ _ _, rfl⟩
    · exact ⟨0, 1, Or.inl rfl, rfl⟩
  · intro w hw
    simp only [List.mem_append, List.mem_flatMap, List.mem_cons, List.not_mem_nil, or_false] at hw
    rcases hw with ⟨x, -, hx⟩ | ⟨x, -, hx⟩
    · rcases hx with rfl | rfl | rfl | rfl <;> exact ⟨_, _, _, _, _, rfl⟩
    · rcases hx with rfl | rfl <;> exact ⟨_, _, _, _, _, rfl⟩

theorem oVals_shape (b k : BitVec (2 * M)) (val : ℝ) (p q : Nat) :
    ∃ (n : Nat) (sg : Int), (sg = 1 ∨ sg = -1) ∧
      oVals p q (rdmPair b k val true) = List.replicate n ((sg : ℝ) * val) := by
  have none : ∃ (n : Nat) (sg : Int), (sg = 1 ∨ sg = -1) ∧ ([] : List ℝ) = List.replicate n ((sg : ℝ) * val) :=
    ⟨0, 1, Or.inl rfl, rfl⟩
  unfold rdmPair
  split_ifs <;> try exact none
  unfold rdmContributions
  dsimp only
  split_ifs with c1 c2 c3 c4 c5 c6
  · exact none
  · rw [oVals_t]
    · exact none
    · intro w hw
      simp only [rdmContributions4, List.mem_cons, List.not_mem_nil, or_false] at hw
      rcases hw with rfl | rfl | rfl | rfl <;> exact ⟨_, _, _, _, _, rfl⟩
  · rw [oVals_t]
    · exact none
    · intro w hw
      simp only [rdmContributions4, List.mem_cons, List.not_mem_nil, or_false] at hw
      rcases hw with rfl | rfl | rfl | rfl <;> exact ⟨_, _, _, _, _, rfl⟩
  · rw [oVals_t]
    · exact none
    · intro w hw
      simp only [rdmContributions22, List.mem_cons, List.not_mem_nil, or_false] at hw
      rcases hw with rfl | rfl <;> exact ⟨_, _, _, _, _, rfl⟩
  · exact oVals_2 _ _ _ _ _ _ _ _
  · exact oVals_2 _ _ _ _ _ _ _ _
  · unfold rdmContributionsDiag
    dsimp only
    rw [oVals_append, oVals_append, if_pos rfl, oVals_t p q (_ ++ _ ++ _), List.append_nil]
    · obtain ⟨n, hn⟩ := oVals_diagMap p q (bitsToIndices (loWord b)) val
      obtain ⟨m, hm⟩ := oVals_diagMap p q (bitsToIndices (hiWord b)) val
      refine ⟨n + m, 1, Or.inl rfl, ?_⟩
      rw [hn, hm, List.replicate_append_replicate]
      simp
    · intro w hw
      simp only [List.mem_append, List.mem_flatMap, List.mem_cons, List.not_mem_nil, or_false] at hw
      rcases hw with (⟨x, -, y, -, hx⟩ | ⟨x, -, y, -, hx⟩) | ⟨x, -, y, -, hx⟩ <;>
        rcases hx with rfl | rfl <;> exact ⟨_, _, _, _, _, rfl⟩

/-- what one pair of determinants adds to an element of the 1-RDM -/
theorem oVals_pair {norb : Nat} (hn : norb ≤ M) {b k : BitVec (2 * M)} (hb : InSpace norb b) (hk : InSpace norb k)
    (hs : SameSector b k) (val : ℝ) {p q : Nat} (hp : p < norb) (hq : q < norb) :
    oVals p q (rdmPair b k val true) =
      if |val| > 1 / 10 ^ 16 then List.replicate (rdm1 b k p q).natAbs (((rdm1 b k p q).sign : ℝ) * val) else [] := by
  have hsum := ev_rdmPair (delta1 norb p q) hn two_ne_zero b k hb hk hs val (Or.inl fun _ _ => rfl)
  rw [hamiltonian_delta1 hp hq, ← oVals_sum] at hsum
  split_ifs with c
  · obtain ⟨n, sg, hsg, e⟩ := oVals_shape b k val p q
    rw [e, List.sum_replicate, kept, if_pos c, nsmul_eq_mul] at hsum
    have hv : val ≠ 0 := by
      rintro rfl
      rw [abs_zero] at c
      norm_num at c
    have : ((n * sg : Int) : ℝ) = ((rdm1 b k p q : Int) : ℝ) := by
      apply mul_left_cancel₀ hv
      rw [← hsum]
      push_cast
      ring
    rw [Int.cast_inj] at this
    rw [e, ← this]
    rcases hsg with rfl | rfl
    · rw [mul_one]
      rcases Nat.eq_zero_or_pos n with rfl | h
      · simp
      · rw [Int.sign_eq_one_of_pos (by exact_mod_cast h)]; simp
    · rcases Nat.eq_zero_or_pos n with rfl | h
      · simp
      · rw [Int.sign_eq_neg_one_of_neg (by omega)]; simp
  · unfold rdmPair
    rw [if_neg c]
    split_ifs <;> rfl

/-- the numbers added to one element of the 1-RDM, in program order: computed value, exact value -/
noncomputable def items (rnd : ℝ → ℝ) (bras kets : List (BitVec (2 * M))) (C : Nat → ℝ) (p q : Nat) : List (ℝ × ℝ) :=
  (List.range bras.length).flatMap fun i => (List.range kets.length).flatMap fun j =>
    let z := rdm1 (bras.getD i 0) (kets.getD j 0) p q
    List.replicate z.natAbs ((z.sign : ℝ) * rnd (C i * C j), (z.sign : ℝ) * (C i * C j))

theorem sign_abs {z : Int} (h : z.natAbs ≠ 0) (x : ℝ) : |(z.sign : ℝ) * x| = |x| := by
  rcases lt_trichotomy z 0 with c | c | c
  · rw [Int.sign_eq_neg_one_of_neg c]; simp
  · omega
  · rw [Int.sign_eq_one_of_pos c]; simp

theorem ordmR_eq {norb : Nat} (hn : norb ≤ M) (bras kets : List (BitVec (2 * M))) (C : Nat → ℝ)
    (hS : OneSector norb bras kets) {p q : Nat} (hp : p < norb) (hq : q < norb) :
    (formRdmsR rnd bras kets C true zeroRdms).ordm p q = (items rnd bras kets C p q).foldl
      (fun h x => if |x.1| > 1 / 10 ^ 16 then rnd (h + x.1) else h) 0 := by
  unfold formRdmsR
  rw [foldl_oVals]
  change List.foldl _ 0 _ = _
  have : oVals p q ((List.range bras.length).flatMap fun i => (List.range kets.length).flatMap fun j =>
      rdmPair (bras.getD i 0) (kets.getD j 0) (rnd (C i * C j)) true)
      = ((items rnd bras kets C p q).filter fun x => |x.1| > 1 / 10 ^ 16).map Prod.fst := by
    unfold items
    simp only [oVals_flatMap, List.filter_flatMap, List.map_flatMap]
    refine List.flatMap_congr fun i hi => List.flatMap_congr fun j hj => ?_
    have hi' := getD_mem' (0 : BitVec (2 * M)) (List.mem_range.1 hi)
    have hj' := getD_mem' (0 : BitVec (2 * M)) (List.mem_range.1 hj)
    rw [oVals_pair hn (hS.1 _ hi') (hS.2.1 _ hj') (hS.2.2 _ hi' _ hj') _ hp hq]
    rw [List.filter_replicate]
    by_cases z : (rdm1 (bras.getD i 0) (kets.getD j 0) p q).natAbs = 0
    · rw [z]; simp
    · simp only [sign_abs z, decide_eq_true_eq]
      split_ifs <;> simp
  rw [this, List.foldl_map, List.foldl_filter]
  simp only [decide_eq_true_eq]

theorem items_error (hr : RoundsTo rnd u) (hu : u < 1) {t : ℝ} (ht : 0 ≤ t) (l : List (ℝ × ℝ))
    (hl : ∀ x ∈ l, |x.1 - x.2| ≤ u * |x.2|) : ∀ {k : Nat} {A D h H H' : ℝ}, 1 ≤ k → Near u k A h H → |H - H'| ≤ D →
    ∃ K, Near u (k + l.length) (A + (l.map fun x => |x.2|).sum)
        (l.foldl (fun h x => if |x.1| > t then rnd (h + x.1) else h) h) K ∧
      |K - (H' + (l.map Prod.snd).sum)| ≤ D + l.length * (t / (1 - u)) := by
  induction l with
  | nil => intro k A D h H H' _ n d; exact ⟨H, by simpa using n, by simpa using d⟩
  | cons x l ih =>
    intro k A D h H H' hk n d
    have ih' := fun {k A D h H H'} => ih (fun y hy => hl y (by simp [hy])) (k := k) (A := A) (D := D) (h := h) (H := H) (H' := H')
    have hx := hl x (by simp)
    simp only [List.foldl_cons, List.map_cons, List.sum_cons, List.length_cons, Nat.cast_add, Nat.cast_one]
    by_cases c : |x.1| > t
    · rw [if_pos c]
      have nx : Near u 1 |x.2| x.1 x.2 := ⟨by simpa using hx, le_rfl⟩
      have s := (n.add' hr.nonneg (nx.mono hr.nonneg hk le_rfl)).round hr
      have d' : |H + x.2 - (H' + x.2)| ≤ D := by rw [add_sub_add_right_eq_sub]; exact d
      obtain ⟨K, k1, k2⟩ := ih' (by omega) s d'
      refine ⟨K, ?_, ?_⟩
      · rw [show k + (l.length + 1) = k + 1 + l.length by ring, ← add_assoc]
        exact k1
      · rw [← add_assoc]
        refine k2.trans ?_
        have : (0 : ℝ) ≤ t / (1 - u) := by
          have : 0 < 1 - u := by linarith
          positivity
        nlinarith
    · rw [if_neg c]
      have hx2 : |x.2| ≤ t / (1 - u) := by
        rw [le_div_iff₀ (by linarith)]
        have t1 := abs_sub_abs_le_abs_sub x.2 x.1
        rw [abs_sub_comm] at t1
        push Not at c
        nlinarith
      have d' : |H - (H' + x.2)| ≤ D + t / (1 - u) := by
        have := abs_sub (H - H') x.2
        rw [sub_sub] at this
        linarith
      have n' : Near u (k + 1) (A + |x.2|) h H := n.mono hr.nonneg (by omega) (by linarith [abs_nonneg x.2])
      obtain ⟨K, k1, k2⟩ := ih' (by omega) n' d'
      refine ⟨K, ?_, ?_⟩
      · rw [show k + (l.length + 1) = k + 1 + l.length by ring, ← add_assoc]
        exact k1
      · rw [← add_assoc]
        refine k2.trans (le_of_eq ?_)
        ring

theorem sum_flatMap {α : Type} (l : List α) (f : α → List (ℝ × ℝ)) (g : ℝ × ℝ → ℝ) :
    ((l.flatMap f).map g).sum = (l.map fun a => ((f a).map g).sum).sum := by
  induction l with
  | nil => rfl
  | cons a l ih => simp [ih]

/-- C173: rounding error of every element of the 1-RDM.  `m` is the number of terms of the element. -/
theorem C173_one_rdm_error (hr : RoundsTo rnd u) (hu : u < 1) (norb : Nat) (hn : norb ≤ M)
    (bras kets : List (BitVec (2 * M))) (C : Nat → ℝ) (hS : OneSector norb bras kets) (p q : Nat) (hp : p < norb)
    (hq : q < norb) :
    let γ := fun i j => rdm1 (bras.getD i 0) (kets.getD j 0) p q
    let m := ∑ i ∈ Finset.range bras.length, ∑ j ∈ Finset.range kets.length, (γ i j).natAbs
    |(formRdmsR rnd bras kets C true zeroRdms).ordm p q
        - ∑ i ∈ Finset.range bras.length, ∑ j ∈ Finset.range kets.length, C i * C j * (γ i j : ℝ)|
      ≤ ((1 + u) ^ (m + 1) - 1) * (∑ i ∈ Finset.range bras.length, ∑ j ∈ Finset.range kets.length,
            |C i * C j| * |(γ i j : ℝ)|) + m * (1 / 10 ^ 16 / (1 - u)) := by
  intro γ m
  have hl : ∀ x ∈ items rnd bras kets C p q, |x.1 - x.2| ≤ u * |x.2| := by
    intro x hx
    simp only [items, List.mem_flatMap, List.mem_replicate] at hx
    obtain ⟨i, -, j, -, z, rfl⟩ := hx
    rw [← mul_sub, sign_abs z, sign_abs z]
    exact hr.err _
  have n0 : Near u 1 0 0 0 := by
    refine ⟨?_, ?_⟩ <;> simp
  obtain ⟨K, k1, k2⟩ := items_error hr hu (by norm_num : (0 : ℝ) ≤ 1 / 10 ^ 16) _ hl le_rfl n0 (D := 0) (H' := 0) (by simp)
  have len : (items rnd bras kets C p q).length = m := by
    simp only [items, List.length_flatMap, List.length_replicate, m, γ]
    have nat_sum : ∀ (n : Nat) (f : Nat → Nat), ((List.range n).map f).sum = ∑ i ∈ Finset.range n, f i := by
      intro n f
      induction n with
      | zero => simp
      | succ n ih => rw [List.range_succ, List.map_append, List.sum_append, ih, Finset.sum_range_succ]; simp
    rw [nat_sum]
    exact Finset.sum_congr rfl fun i _ => nat_sum _ _
  have s1 : ((items rnd bras kets C p q).map Prod.snd).sum
      = ∑ i ∈ Finset.range bras.length, ∑ j ∈ Finset.range kets.length, C i * C j * (γ i j : ℝ) := by
    unfold items
    rw [sum_flatMap, list_range_sum]
    refine Finset.sum_congr rfl fun i _ => ?_
    rw [sum_flatMap, list_range_sum]
    refine Finset.sum_congr rfl fun j _ => ?_
    dsimp only [γ]
    generalize rdm1 (bras.getD i 0) (kets.getD j 0) p q = z
    rw [List.map_replicate, List.sum_replicate, nsmul_eq_mul]
    have : (z : ℝ) = (z.natAbs : ℝ) * (z.sign : ℝ) := by
      rw [← Int.cast_natCast, ← Int.cast_mul, mul_comm, Int.sign_mul_natAbs]
    rw [this]
    ring
  have s2 : ((items rnd bras kets C p q).map fun x => |x.2|).sum
      = ∑ i ∈ Finset.range bras.length, ∑ j ∈ Finset.range kets.length, |C i * C j| * |(γ i j : ℝ)| := by
    unfold items
    rw [sum_flatMap, list_range_sum]
    refine Finset.sum_congr rfl fun i _ => ?_
    rw [sum_flatMap, list_range_sum]
    refine Finset.sum_congr rfl fun j _ => ?_
    dsimp only [γ]
    generalize rdm1 (bras.getD i 0) (kets.getD j 0) p q = z
    rw [List.map_replicate, List.sum_replicate, nsmul_eq_mul]
    by_cases h : z.natAbs = 0
    · have : z = 0 := by omega
      subst this
      simp
    · dsimp only
      rw [sign_abs h, mul_comm]
      congr 1
      rw [← Int.cast_abs, Int.abs_eq_natAbs, Int.cast_natCast]
  rw [← ordmR_eq hn bras kets C hS hp hq, len, s2, zero_add, add_comm 1 m] at k1
  rw [len, s1, zero_add, zero_add] at k2
  have := k1.1
  generalize (formRdmsR rnd bras kets C true zeroRdms).ordm p q = X at *
  have t := abs_sub_le X K (∑ i ∈ Finset.range bras.length, ∑ j ∈ Finset.range kets.length, C i * C j * (γ i j : ℝ))
  linarith

/-- C173: the 1-RDM of one expansion is Hermitian up to rounding. -/
theorem C173_nearly_hermitian (hr : RoundsTo rnd u) (hu : u < 1) (norb : Nat) (hn : norb ≤ M)
    (dets : List (BitVec (2 * M))) (C : Nat → ℝ) (hS : OneSector norb dets dets) (p q : Nat) (hp : p < norb)
    (hq : q < norb) :
    let γ := fun i j => rdm1 (dets.getD i 0) (dets.getD j 0) p q
    let m := ∑ i ∈ Finset.range dets.length, ∑ j ∈ Finset.range dets.length, (γ i j).natAbs
    |(formRdmsR rnd dets dets C true zeroRdms).ordm p q - (formRdmsR rnd dets dets C true zeroRdms).ordm q p|
      ≤ 2 * (((1 + u) ^ (m + 1) - 1) * (∑ i ∈ Finset.range dets.length, ∑ j ∈ Finset.range dets.length,
            |C i * C j| * |(γ i j : ℝ)|) + m * (1 / 10 ^ 16 / (1 - u))) := by
  intro γ m
  have a := C173_one_rdm_error hr hu norb hn dets dets C hS p q hp hq
  have b := C173_one_rdm_error hr hu norb hn dets dets C hS q p hq hp
  have adj : ∀ i j, rdm1 (dets.getD i 0) (dets.getD j 0) q p = γ j i := fun i j =>
    (rdm1_adjoint hn _ _ hq hp)
  have e1 : (∑ i ∈ Finset.range dets.length, ∑ j ∈ Finset.range dets.length,
      C i * C j * (rdm1 (dets.getD i 0) (dets.getD j 0) q p : ℝ))
      = ∑ i ∈ Finset.range dets.length, ∑ j ∈ Finset.range dets.length, C i * C j * (γ i j : ℝ) := by
    rw [Finset.sum_comm]
    exact Finset.sum_congr rfl fun i _ => Finset.sum_congr rfl fun j _ => by rw [adj, mul_comm (C j)]
  have e2 : (∑ i ∈ Finset.range dets.length, ∑ j ∈ Finset.range dets.length,
      |C i * C j| * |(rdm1 (dets.getD i 0) (dets.getD j 0) q p : ℝ)|)
      = ∑ i ∈ Finset.range dets.length, ∑ j ∈ Finset.range dets.length, |C i * C j| * |(γ i j : ℝ)| := by
    rw [Finset.sum_comm]
    exact Finset.sum_congr rfl fun i _ => Finset.sum_congr rfl fun j _ => by rw [adj, mul_comm (C j)]
  have e3 : (∑ i ∈ Finset.range dets.length, ∑ j ∈ Finset.range dets.length,
      (rdm1 (dets.getD i 0) (dets.getD j 0) q p).natAbs) = m := by
    rw [Finset.sum_comm]
    exact Finset.sum_congr rfl fun i _ => Finset.sum_congr rfl fun j _ => by rw [adj]
  dsimp only at b
  rw [e1, e2, e3] at b
  change |_ - ∑ i ∈ Finset.range dets.length, ∑ j ∈ Finset.range dets.length, C i * C j * (γ i j : ℝ)|
    ≤ ((1 + u) ^ (m + 1) - 1) * (∑ i ∈ Finset.range dets.length, ∑ j ∈ Finset.range dets.length,
      |C i * C j| * |(γ i j : ℝ)|) + m * (1 / 10 ^ 16 / (1 - u)) at a
  rw [abs_sub_comm] at b
  refine (abs_sub_le _ _ _).trans ((add_le_add a b).trans (le_of_eq ?_))
  ring

/-! ### the 2-RDM -/

/-- the writes `f val` give the element `(p,q,r,s)` at most `n` numbers `± val / 2` -/
def Lin (p q r s : Nat) (f : ℝ → List (Upd ℝ)) (n : Nat) : Prop :=
  ∃ cs : List ℝ, cs.length ≤ n ∧ (∀ c ∈ cs, |c| = 2⁻¹) ∧ ∀ val, tVals p q r s (f val) = cs.map (· * val)

theorem Lin.mono {p q r s : Nat} {f : ℝ → List (Upd ℝ)} {n m : Nat} (h : Lin p q r s f n) (hm : n ≤ m) :
    Lin p q r s f m := by
  obtain ⟨cs, h1, h2⟩ := h
  exact ⟨cs, h1.trans hm, h2⟩

theorem Lin.nil (p q r s : Nat) : Lin p q r s (fun _ => []) 0 := ⟨[], le_rfl, by simp, fun _ => rfl⟩

theorem Lin.append {p q r s : Nat} {f g : ℝ → List (Upd ℝ)} {n m : Nat} (h : Lin p q r s f n) (h' : Lin p q r s g m) :
    Lin p q r s (fun val => f val ++ g val) (n + m) := by
  obtain ⟨cs, h1, h2, h3⟩ := h
  obtain ⟨ds, k1, k2, k3⟩ := h'
  refine ⟨cs ++ ds, ?_, ?_, fun val => ?_⟩
  · rw [List.length_append]; omega
  · intro c hc
    rcases List.mem_append.1 hc with hc | hc
    · exact h2 c hc
    · exact k2 c hc
  · rw [tVals_append, h3, k3, List.map_append]

theorem Lin.write (p q r s a b c d : Nat) {g : ℝ → ℝ} {k : ℝ} (hk : |k| = 2⁻¹) (hg : ∀ val, g val = k * val) :
    Lin p q r s (fun val => [Upd.t a b c d (g val)]) (if p = a ∧ q = b ∧ r = c ∧ s = d then 1 else 0) := by
  by_cases h : p = a ∧ q = b ∧ r = c ∧ s = d
  · exact ⟨[k], by simp [h], by simpa using hk, fun val => by simp [tVals, tVal, h, hg]⟩
  · exact ⟨[], by simp, by simp, fun val => by simp [tVals, tVal, h]⟩

theorem Lin.cons {p q r s a b c d : Nat} {g : ℝ → ℝ} {f : ℝ → List (Upd ℝ)} {n : Nat} {k : ℝ} (hk : |k| = 2⁻¹)
    (hg : ∀ val, g val = k * val) (h : Lin p q r s f n) :
    Lin p q r s (fun val => Upd.t a b c d (g val) :: f val) ((if p = a ∧ q = b ∧ r = c ∧ s = d then 1 else 0) + n) :=
  (Lin.write p q r s a b c d hk hg).append h

theorem Lin.flatMap {p q r s : Nat} {l : List Nat} {f : Nat → ℝ → List (Upd ℝ)} {n : Nat → Nat}
    (h : ∀ x, Lin p q r s (f x) (n x)) : Lin p q r s (fun val => l.flatMap fun x => f x val) ((l.map n).sum) := by
  induction l with
  | nil => exact Lin.nil p q r s
  | cons x l ih =>
    have := (h x).append ih
    simpa using this

theorem Lin.o {p q r s : Nat} {f : ℝ → List (Upd ℝ)} (h : ∀ val, ∀ w ∈ f val, ∃ a b v, w = Upd.o a b v) :
    Lin p q r s f 0 := by
  refine ⟨[], le_rfl, by simp, fun val => ?_⟩
  unfold tVals
  rw [List.map_nil, List.flatMap_eq_nil_iff]
  intro w hw
  obtain ⟨a, b, v, rfl⟩ := h val w hw
  rfl

theorem sum_ite_le {l : List Nat} (hl : l.Nodup) (P : Nat → Prop) [DecidablePred P] (z : Nat) (hP : ∀ x, P x → x = z) :
    (l.map fun x => if P x then 1 else 0).sum ≤ 1 := by
  induction l with
  | nil => simp
  | cons a l ih =>
    obtain ⟨h1, h2⟩ := List.nodup_cons.1 hl
    rw [List.map_cons, List.sum_cons]
    by_cases h : P a
    · rw [if_pos h]
      have : (l.map fun x => if P x then 1 else 0).sum = 0 := by
        rw [List.sum_eq_zero_iff]
        intro y hy
        obtain ⟨x, hx, rfl⟩ := List.mem_map.1 hy
        rw [if_neg]
        intro hx'
        rw [hP x hx', ← hP a h] at hx
        exact h1 hx
      omega
    · rw [if_neg h, zero_add]
      exact ih h2

theorem sum_ite_le2 {l l' : List Nat} (hl : l.Nodup) (hl' : l'.Nodup) (P : Nat → Nat → Prop) [∀ y x, Decidable (P y x)]
    (y0 x0 : Nat) (hP : ∀ y x, P y x → y = y0 ∧ x = x0) :
    (l.map fun y => (l'.map fun x => if P y x then 1 else 0).sum).sum ≤ 1 := by
  refine le_trans ?_ (sum_ite_le hl (fun y => y = y0) y0 fun _ h => h)
  apply List.sum_le_sum
  intro y _
  by_cases h : y = y0
  · rw [if_pos h]
    exact sum_ite_le hl' (P y) x0 fun x hx => (hP y x hx).2
  · rw [if_neg h, Nat.le_zero, List.sum_eq_zero_iff]
    intro z hz
    obtain ⟨x, -, rfl⟩ := List.mem_map.1 hz
    rw [if_neg]
    intro hx
    exact h (hP y x hx).1

theorem half_abs {sg : Int} (h : sg = 1 ∨ sg = -1) : |(sg : ℝ) * 2⁻¹| = 2⁻¹ ∧ |-((sg : ℝ) * 2⁻¹)| = 2⁻¹ := by
  rcases h with rfl | rfl <;> norm_num

theorem lin_4 (p q r s : Nat) (a a' ex : BitVec M) : Lin p q r s (fun val => rdmContributions4 a a' ex val) 6 := by
  unfold rdmContributions4 doublesSignIndices
  dsimp only
  generalize hsg : singleExcitationSign a' _ _ * singleExcitationSign _ _ _ = sg
  have h1 : sg = 1 ∨ sg = -1 := by
    rw [← hsg]
    rcases rdm_sign_cases a' (firstOccupiedFlipped a ex) (firstOccupiedFlipped a' ex) with h | h <;> rw [h] <;>
      rcases rdm_sign_cases (N := M) _ _ _ with h' | h' <;> rw [h'] <;> simp
  obtain ⟨hp, hm⟩ := half_abs h1
  have e1 : ∀ val : ℝ, val * ((sg : ℝ) * 2⁻¹) = ((sg : ℝ) * 2⁻¹) * val := fun val => mul_comm _ _
  have e2 : ∀ val : ℝ, -(val * ((sg : ℝ) * 2⁻¹)) = (-((sg : ℝ) * 2⁻¹)) * val := fun val => by ring
  refine (Lin.cons hp e1 (Lin.cons hm e2 (Lin.cons hm e2 (Lin.cons hp e1 (Lin.nil p q r s))))).mono ?_
  split_ifs <;> omega

theorem lin_22 (p q r s : Nat) (a a' ex b b' ex' : BitVec M) :
    Lin p q r s (fun val => rdmContributions22 a a' ex b b' ex' val) 6 := by
  unfold rdmContributions22 singleExcitationSignIndices
  dsimp only
  generalize hsg : singleExcitationSign a' _ _ * singleExcitationSign b' _ _ = sg
  have h1 : sg = 1 ∨ sg = -1 := by
    rw [← hsg]
    rcases rdm_sign_cases a' (firstOccupiedFlipped a ex) (firstOccupiedFlipped a' ex) with h | h <;> rw [h] <;>
      rcases rdm_sign_cases b' (firstOccupiedFlipped b ex') (firstOccupiedFlipped b' ex') with h' | h' <;> rw [h'] <;> simp
  obtain ⟨hp, -⟩ := half_abs h1
  have e1 : ∀ val : ℝ, val * ((sg : ℝ) * 2⁻¹) = ((sg : ℝ) * 2⁻¹) * val := fun val => mul_comm _ _
  refine (Lin.cons hp e1 (Lin.cons hp e1 (Lin.nil p q r s))).mono ?_
  split_ifs <;> omega

theorem lin_2 (p q r s : Nat) (a a' ex : BitVec M) {oA oB : List Nat} (hA : oA.Nodup) (hB : oB.Nodup) :
    Lin p q r s (fun val => rdmContributions2 a a' ex oA oB val true) 6 := by
  unfold rdmContributions2 singleExcitationSignIndices
  dsimp only
  generalize firstOccupiedFlipped a' ex = o1
  generalize firstOccupiedFlipped a ex = v1
  obtain ⟨hp, hm⟩ := half_abs (rdm_sign_cases a' v1 o1)
  generalize singleExcitationSign a' v1 o1 = sg at *
  have e1 : ∀ val : ℝ, val * ((sg : ℝ) * 2⁻¹) = ((sg : ℝ) * 2⁻¹) * val := fun val => mul_comm _ _
  have e2 : ∀ val : ℝ, -(val * ((sg : ℝ) * 2⁻¹)) = (-((sg : ℝ) * 2⁻¹)) * val := fun val => by ring
  refine ((Lin.o (f := fun val => [Upd.o v1 o1 ((sg : ℝ) * val)]) ?_).append ((Lin.flatMap fun x =>
    Lin.cons hp e1 (Lin.cons hp e1 (Lin.cons hm e2 (Lin.cons hm e2 (Lin.nil p q r s))))).append
    (Lin.flatMap fun x => Lin.cons hp e1 (Lin.cons hp e1 (Lin.nil p q r s))))).mono ?_
  · intro val w hw
    simp only [List.mem_cons, List.not_mem_nil, or_false] at hw
    exact ⟨_, _, _, hw⟩
  · simp only [List.sum_map_add]
    have b1 := sum_ite_le hA (fun x => p = v1 ∧ q = o1 ∧ r = x ∧ s = x) r (fun x h => by omega)
    have b2 := sum_ite_le hA (fun x => p = x ∧ q = x ∧ r = v1 ∧ s = o1) p (fun x h => by omega)
    have b3 := sum_ite_le hA (fun x => p = v1 ∧ q = x ∧ r = x ∧ s = o1) q (fun x h => by omega)
    have b4 := sum_ite_le hA (fun x => p = x ∧ q = o1 ∧ r = v1 ∧ s = x) p (fun x h => by omega)
    have b5 := sum_ite_le hB (fun x => p = v1 ∧ q = o1 ∧ r = x ∧ s = x) r (fun x h => by omega)
    have b6 := sum_ite_le hB (fun x => p = x ∧ q = x ∧ r = v1 ∧ s = o1) p (fun x h => by omega)
    simp only [List.map_const', List.sum_replicate, smul_zero, add_zero]
    omega

theorem lin_diag (p q r s : Nat) {oA oB : List Nat} (hA : oA.Nodup) (hB : oB.Nodup) :
    Lin p q r s (fun val => rdmContributionsDiag oA oB val true) 6 := by
  unfold rdmContributionsDiag
  dsimp only
  have hp : |(2⁻¹ : ℝ)| = 2⁻¹ := by norm_num
  have hm : |(-2⁻¹ : ℝ)| = 2⁻¹ := by norm_num
  have e1 : ∀ val : ℝ, val * 2⁻¹ = 2⁻¹ * val := fun val => mul_comm _ _
  have e2 : ∀ val : ℝ, -(val * 2⁻¹) = (-2⁻¹) * val := fun val => by ring
  refine ((Lin.o (f := fun val => (oA.map fun p => Upd.o p p val) ++ oB.map fun p => Upd.o p p val) ?_).append
    (((Lin.flatMap fun y => Lin.flatMap fun x => Lin.cons hp e1 (Lin.cons hm e2 (Lin.nil p q r s))).append
      (Lin.flatMap fun y => Lin.flatMap fun x => Lin.cons hp e1 (Lin.cons hm e2 (Lin.nil p q r s)))).append
      (Lin.flatMap fun y => Lin.flatMap fun x => Lin.cons hp e1 (Lin.cons hp e1 (Lin.nil p q r s))))).mono ?_
  · intro val w hw
    simp only [List.mem_append, List.mem_map] at hw
    rcases hw with ⟨x, -, rfl⟩ | ⟨x, -, rfl⟩ <;> exact ⟨_, _, _, rfl⟩
  · simp only [List.sum_map_add, add_zero]
    have b1 := sum_ite_le2 hA hA (fun y x => p = x ∧ q = x ∧ r = y ∧ s = y) r p (fun y x h => by omega)
    have b2 := sum_ite_le2 hA hA (fun y x => p = x ∧ q = y ∧ r = x ∧ s = y) q p (fun y x h => by omega)
    have b3 := sum_ite_le2 hB hB (fun y x => p = x ∧ q = x ∧ r = y ∧ s = y) r p (fun y x h => by omega)
    have b4 := sum_ite_le2 hB hB (fun y x => p = x ∧ q = y ∧ r = x ∧ s = y) q p (fun y x h => by omega)
    have b5 := sum_ite_le2 hB hA (fun y x => p = x ∧ q = x ∧ r = y ∧ s = y) r p (fun y x h => by omega)
    have b6 := sum_ite_le2 hB hA (fun y x => p = y ∧ q = y ∧ r = x ∧ s = x) p r (fun y x h => by omega)
    omega

theorem lin_contributions (p q r s : Nat) (a a' ex b b' ex' : BitVec M) {oA oB : List Nat} (hA : oA.Nodup) (hB : oB.Nodup) :
    Lin p q r s (fun val => rdmContributions a a' ex b b' ex' oA oB val true) 6 := by
  unfold rdmContributions
  dsimp only
  split_ifs with c1 c2 c3 c4 c5 c6
  · exact (Lin.nil p q r s).mono (by omega)
  · exact lin_4 ..
  · exact lin_4 ..
  · exact lin_22 ..
  · exact lin_2 _ _ _ _ _ _ _ hA hB
  · exact lin_2 _ _ _ _ _ _ _ hB hA
  · exact lin_diag _ _ _ _ hA hB

/-- what one pair of determinants adds to an element of the 2-RDM -/
theorem tVals_shape (b k : BitVec (2 * M)) (p q r s : Nat) :
    ∃ cs : List ℝ, cs.length ≤ 6 ∧ (∀ c ∈ cs, |c| = 2⁻¹) ∧
      ∀ val, tVals p q r s (rdmPair b k val true) = if |val| > 1 / 10 ^ 16 then cs.map (· * val) else [] := by
  unfold rdmPair
  have nil : ∃ cs : List ℝ, cs.length ≤ 6 ∧ (∀ c ∈ cs, |c| = 2⁻¹) ∧
      ∀ val : ℝ, tVals p q r s [] = if |val| > 1 / 10 ^ 16 then cs.map (· * val) else [] :=
    ⟨[], by simp, by simp, fun val => by simp [tVals]⟩
  by_cases c1 : count b = 0
  · simpa [c1] using nil
  by_cases c2 : count k = 0
  · simpa [c1, c2] using nil
  by_cases c3 : count (b ^^^ k) ≤ 4
  · have nd : ∀ s : BitVec M, (bitsToIndices s).Nodup := fun s => by rw [bitsToIndices_eq_occ]; exact occ_nodup s
    obtain ⟨cs, h1, h2, h3⟩ := lin_contributions p q r s (loWord b) (loWord k) (loWord (b ^^^ k)) (hiWord b) (hiWord k)
      (hiWord (b ^^^ k)) (nd (loWord b)) (nd (hiWord b))
    refine ⟨cs, h1, h2, fun val => ?_⟩
    rw [if_pos c1, if_pos c2, if_pos c3]
    split_ifs
    · exact h3 val
    · rfl
  · simpa [c1, c2, c3] using nil

theorem tVals_sum (n p q r s : Nat) (l : List (Upd ℝ)) : (tVals p q r s l).sum = evL (delta2 n p q r s) l := by
  induction l with
  | nil => rfl
  | cons w l ih =>
    rw [evL_cons, ← ih]
    cases w with
    | t a b c d v =>
      simp only [tVals, tVal, List.flatMap_cons, List.sum_append, evU, delta2]
      by_cases h : p = a ∧ q = b ∧ r = c ∧ s = d
      · rw [if_pos h, if_pos ⟨h.1.symm, h.2.1.symm, h.2.2.1.symm, h.2.2.2.symm⟩]; simp
      · rw [if_neg h, if_neg (fun h' => h ⟨h'.1.symm, h'.2.1.symm, h'.2.2.1.symm, h'.2.2.2.symm⟩)]; simp
    | o a b v => simp [tVals, tVal, evU, delta2]

/-- the numbers `± 1/2` with which a pair enters an element of the 2-RDM -/
noncomputable def coefs (b k : BitVec (2 * M)) (p q r s : Nat) : List ℝ := (tVals_shape b k p q r s).choose

theorem coefs_spec (b k : BitVec (2 * M)) (p q r s : Nat) : (coefs b k p q r s).length ≤ 6 ∧
    (∀ c ∈ coefs b k p q r s, |c| = 2⁻¹) ∧ ∀ val, tVals p q r s (rdmPair b k val true)
      = if |val| > 1 / 10 ^ 16 then (coefs b k p q r s).map (· * val) else [] :=
  (tVals_shape b k p q r s).choose_spec

theorem coefs_sum {norb : Nat} (hn : norb ≤ M) {b k : BitVec (2 * M)} (hb : InSpace norb b) (hk : InSpace norb k)
    (hs : SameSector b k) {p q r s : Nat} (hp : p < norb) (hq : q < norb) (hr : r < norb) (hs' : s < norb) :
    (coefs b k p q r s).sum + (coefs b k p q s r).sum = 2⁻¹ * ((rdm2 b k p q r s : ℝ) + rdm2 b k p q s r) := by
  have one : |(1 : ℝ)| > 1 / 10 ^ 16 := by norm_num
  have h1 := (coefs_spec b k p q r s).2.2 1
  have h2 := (coefs_spec b k p q s r).2.2 1
  simp only [if_pos one, mul_one, List.map_id'] at h1 h2
  rw [← h1, ← h2, tVals_sum norb, tVals_sum norb, ← evL_addInt]
  have hx : ExchSym (addInt (delta2 norb p q r s) (delta2 norb p q s r) : Integrals ℝ) := by
    intro a b
    have e1 : (a = p ∧ b = q ∧ a = r ∧ b = s) ↔ (a = p ∧ b = q ∧ b = s ∧ a = r) := by tauto
    have e2 : (a = p ∧ b = q ∧ a = s ∧ b = r) ↔ (a = p ∧ b = q ∧ b = r ∧ a = s) := by tauto
    simp only [addInt, delta2, e1, e2]
    rw [add_comm]
  rw [ev_rdmPair (addInt (delta2 norb p q r s) (delta2 norb p q s r)) hn two_ne_zero b k hb hk hs 1 (Or.inl hx), kept,
    if_pos one, one_mul, hamiltonian_add (delta2 norb p q r s) (delta2 norb p q s r) rfl, hamiltonian_delta2 hp hq hr hs',
    hamiltonian_delta2 hp hq hs' hr, mul_add]

/-- the numbers added to one element of the 2-RDM, in program order: computed value, exact value -/
noncomputable def items2 (rnd : ℝ → ℝ) (bras kets : List (BitVec (2 * M))) (C : Nat → ℝ) (p q r s : Nat) : List (ℝ × ℝ) :=
  (List.range bras.length).flatMap fun i => (List.range kets.length).flatMap fun j =>
    (coefs (bras.getD i 0) (kets.getD j 0) p q r s).map fun c => (c * rnd (C i * C j), c * (C i * C j))

theorem trdmR_eq (bras kets : List (BitVec (2 * M))) (C : Nat → ℝ) (p q r s : Nat) :
    (formRdmsR rnd bras kets C true zeroRdms).trdm p q r s = (items2 rnd bras kets C p q r s).foldl
      (fun h x => if |x.1| > 2⁻¹ * (1 / 10 ^ 16) then rnd (h + x.1) else h) 0 := by
  unfold formRdmsR
  rw [foldl_tVals]
  change List.foldl _ 0 _ = _
  have : tVals p q r s ((List.range bras.length).flatMap fun i => (List.range kets.length).flatMap fun j =>
      rdmPair (bras.getD i 0) (kets.getD j 0) (rnd (C i * C j)) true)
      = ((items2 rnd bras kets C p q r s).filter fun x => |x.1| > 2⁻¹ * (1 / 10 ^ 16)).map Prod.fst := by
    unfold items2
    simp only [tVals_flatMap, List.filter_flatMap, List.map_flatMap]
    refine List.flatMap_congr fun i hi => List.flatMap_congr fun j hj => ?_
    obtain ⟨-, h2, h3⟩ := coefs_spec (bras.getD i 0) (kets.getD j 0) p q r s
    rw [h3]
    have half : ∀ c ∈ coefs (bras.getD i 0) (kets.getD j 0) p q r s, ∀ v : ℝ,
        |c * v| > 2⁻¹ * (1 / 10 ^ 16) ↔ |v| > 1 / 10 ^ 16 := by
      intro c hc v
      rw [abs_mul, h2 c hc, gt_iff_lt, gt_iff_lt, mul_lt_mul_iff_right₀ (by norm_num)]
    rw [List.filter_map]
    split_ifs with c
    · rw [List.filter_eq_self.2, List.map_map]
      · rfl
      · intro x hx
        simpa using (half x hx _).2 c
    · rw [List.filter_eq_nil_iff.2, List.map_nil, List.map_nil]
      intro x hx
      simpa using (half x hx _).not.2 c
  rw [this, List.foldl_map, List.foldl_filter]
  simp only [decide_eq_true_eq]

theorem two_rdm_near (hr : RoundsTo rnd u) (hu : u < 1) (bras kets : List (BitVec (2 * M))) (C : Nat → ℝ) (p q r s : Nat) :
    |(formRdmsR rnd bras kets C true zeroRdms).trdm p q r s - ∑ i ∈ Finset.range bras.length,
        ∑ j ∈ Finset.range kets.length, C i * C j * (coefs (bras.getD i 0) (kets.getD j 0) p q r s).sum|
      ≤ ((1 + u) ^ (6 * (bras.length * kets.length) + 1) - 1) * (3 * ∑ i ∈ Finset.range bras.length,
          ∑ j ∈ Finset.range kets.length, |C i * C j|)
        + 3 * (bras.length * kets.length : Nat) * (1 / 10 ^ 16 / (1 - u)) := by
  have hl : ∀ x ∈ items2 rnd bras kets C p q r s, |x.1 - x.2| ≤ u * |x.2| := by
    intro x hx
    simp only [items2, List.mem_flatMap, List.mem_map] at hx
    obtain ⟨i, -, j, -, c, -, rfl⟩ := hx
    rw [← mul_sub, abs_mul, abs_mul, mul_left_comm]
    exact mul_le_mul_of_nonneg_left (hr.err _) (abs_nonneg _)
  have n0 : Near u 1 0 0 0 := by
    refine ⟨?_, ?_⟩ <;> simp
  obtain ⟨K, k1, k2⟩ := items_error hr hu (by norm_num : (0 : ℝ) ≤ 2⁻¹ * (1 / 10 ^ 16)) _ hl le_rfl n0 (D := 0) (H' := 0)
    (by simp)
  have len : (items2 rnd bras kets C p q r s).length ≤ 6 * (bras.length * kets.length) := by
    simp only [items2, List.length_flatMap, List.length_map]
    have bound : ∀ (n k : Nat) (f : Nat → Nat), (∀ i, f i ≤ k) → ((List.range n).map f).sum ≤ n * k := by
      intro n k f hf
      have := List.sum_le_card_nsmul ((List.range n).map f) k (by simp [hf])
      simpa using this
    refine (bound bras.length (kets.length * 6) _ fun i => bound _ 6 _ fun j => (coefs_spec _ _ _ _ _ _).1).trans ?_
    exact le_of_eq (by ring)
  have s1 : ((items2 rnd bras kets C p q r s).map Prod.snd).sum = ∑ i ∈ Finset.range bras.length,
      ∑ j ∈ Finset.range kets.length, C i * C j * (coefs (bras.getD i 0) (kets.getD j 0) p q r s).sum := by
    unfold items2
    rw [sum_flatMap, list_range_sum]
    refine Finset.sum_congr rfl fun i _ => ?_
    rw [sum_flatMap, list_range_sum]
    refine Finset.sum_congr rfl fun j _ => ?_
    rw [List.map_map]
    generalize coefs (bras.getD i 0) (kets.getD j 0) p q r s = cs
    induction cs with
    | nil => simp
    | cons c cs ih =>
      rw [List.map_cons, List.sum_cons, ih, List.sum_cons, mul_add]
      simp only [Function.comp]
      rw [mul_comm c]
  have s2 : ((items2 rnd bras kets C p q r s).map fun x => |x.2|).sum
      ≤ 3 * ∑ i ∈ Finset.range bras.length, ∑ j ∈ Finset.range kets.length, |C i * C j| := by
    unfold items2
    rw [sum_flatMap, list_range_sum, Finset.mul_sum]
    refine Finset.sum_le_sum fun i _ => ?_
    rw [sum_flatMap, list_range_sum, Finset.mul_sum]
    refine Finset.sum_le_sum fun j _ => ?_
    obtain ⟨h1, h2, -⟩ := coefs_spec (bras.getD i 0) (kets.getD j 0) p q r s
    rw [List.map_map]
    have := List.sum_le_card_nsmul ((coefs (bras.getD i 0) (kets.getD j 0) p q r s).map
      ((fun x : ℝ × ℝ => |x.2|) ∘ fun c => (c * rnd (C i * C j), c * (C i * C j)))) (2⁻¹ * |C i * C j|) (by
        intro x hx
        obtain ⟨c, hc, rfl⟩ := List.mem_map.1 hx
        simp only [Function.comp]
        rw [abs_mul c, h2 c hc])
    refine this.trans ?_
    rw [List.length_map, nsmul_eq_mul, ← mul_assoc]
    refine mul_le_mul_of_nonneg_right ?_ (abs_nonneg _)
    have : ((coefs (bras.getD i 0) (kets.getD j 0) p q r s).length : ℝ) ≤ 6 := by exact_mod_cast h1
    linarith
  rw [← trdmR_eq, zero_add] at k1
  have k1' := (k1.mono hr.nonneg (show 1 + (items2 rnd bras kets C p q r s).length
    ≤ 6 * (bras.length * kets.length) + 1 by omega) s2).1
  rw [s1, zero_add, zero_add] at k2
  generalize (formRdmsR rnd bras kets C true zeroRdms).trdm p q r s = X at *
  have t := abs_sub_le X K (∑ i ∈ Finset.range bras.length, ∑ j ∈ Finset.range kets.length,
    C i * C j * (coefs (bras.getD i 0) (kets.getD j 0) p q r s).sum)
  have k3 : ((items2 rnd bras kets C p q r s).length : ℝ) * (2⁻¹ * (1 / 10 ^ 16) / (1 - u))
      ≤ 3 * (bras.length * kets.length : Nat) * (1 / 10 ^ 16 / (1 - u)) := by
    have h1 : ((items2 rnd bras kets C p q r s).length : ℝ) ≤ 6 * (bras.length * kets.length : Nat) := by exact_mod_cast len
    have h2 : (0 : ℝ) ≤ 1 / 10 ^ 16 / (1 - u) := by
      have : 0 < 1 - u := by linarith
      positivity
    rw [mul_div_assoc]
    nlinarith
  linarith

/-- C173: rounding error of the 2-RDM.  As in C19, the element is taken symmetrised in its last two indices (the
contraction with real integrals sees only this). -/
theorem C173_two_rdm_error (hr : RoundsTo rnd u) (hu : u < 1) (norb : Nat) (hn : norb ≤ M)
    (bras kets : List (BitVec (2 * M))) (C : Nat → ℝ) (hS : OneSector norb bras kets) (p q r s : Nat) (hp : p < norb)
    (hq : q < norb) (hr' : r < norb) (hs : s < norb) :
    let Γ := (formRdmsR rnd bras kets C true zeroRdms).trdm
    let n := bras.length * kets.length
    |Γ p q r s + Γ p q s r - ∑ i ∈ Finset.range bras.length, ∑ j ∈ Finset.range kets.length, C i * C j *
        (2⁻¹ * ((rdm2 (bras.getD i 0) (kets.getD j 0) p q r s : ℝ) + rdm2 (bras.getD i 0) (kets.getD j 0) p q s r))|
      ≤ ((1 + u) ^ (6 * n + 1) - 1) * (6 * ∑ i ∈ Finset.range bras.length, ∑ j ∈ Finset.range kets.length, |C i * C j|)
        + 6 * n * (1 / 10 ^ 16 / (1 - u)) := by
  intro Γ n
  have a := two_rdm_near hr hu bras kets C p q r s
  have b := two_rdm_near hr hu bras kets C p q s r
  have e : (∑ i ∈ Finset.range bras.length, ∑ j ∈ Finset.range kets.length, C i * C j *
        (2⁻¹ * ((rdm2 (bras.getD i 0) (kets.getD j 0) p q r s : ℝ) + rdm2 (bras.getD i 0) (kets.getD j 0) p q s r)))
      = (∑ i ∈ Finset.range bras.length, ∑ j ∈ Finset.range kets.length,
          C i * C j * (coefs (bras.getD i 0) (kets.getD j 0) p q r s).sum)
        + ∑ i ∈ Finset.range bras.length, ∑ j ∈ Finset.range kets.length,
          C i * C j * (coefs (bras.getD i 0) (kets.getD j 0) p q s r).sum := by
    rw [← Finset.sum_add_distrib]
    refine Finset.sum_congr rfl fun i hi => ?_
    rw [← Finset.sum_add_distrib]
    refine Finset.sum_congr rfl fun j hj => ?_
    have hi' := getD_mem' (0 : BitVec (2 * M)) (Finset.mem_range.1 hi)
    have hj' := getD_mem' (0 : BitVec (2 * M)) (Finset.mem_range.1 hj)
    rw [← coefs_sum hn (hS.1 _ hi') (hS.2.1 _ hj') (hS.2.2 _ hi' _ hj') hp hq hr' hs]
    ring
  rw [e]
  have t := abs_add_le (Γ p q r s - ∑ i ∈ Finset.range bras.length, ∑ j ∈ Finset.range kets.length,
          C i * C j * (coefs (bras.getD i 0) (kets.getD j 0) p q r s).sum) (Γ p q s r - ∑ i ∈ Finset.range bras.length,
          ∑ j ∈ Finset.range kets.length, C i * C j * (coefs (bras.getD i 0) (kets.getD j 0) p q s r).sum)
  rw [sub_add_sub_comm] at t
  refine t.trans ((add_le_add a b).trans (le_of_eq ?_))
  ring

/-! ### Hermiticity -/

/-- `rnd` behaves like rounding to `double` (without bounds on the exponent), to nearest even or towards zero: numbers with
53 significant bits are kept, and `1 + 2^-53` becomes `1` -/
structure Spec.DoubleLike (rnd : ℝ → ℝ) : Prop where
  keep : ∀ (k : Nat) (e : ℤ), k < 2 ^ 53 → rnd (k * 2 ^ e) = k * 2 ^ e
  down : rnd (1 + 2 ^ (-53 : ℤ)) = 1

theorem chop_double : DoubleLike (chop 52) := by
  constructor
  · intro k e hk
    rcases Nat.eq_zero_or_pos k with rfl | h0
    · simp [chop_zero]
    have hx : (0 : ℝ) < k * 2 ^ e := by positivity
    have hl := Int.zpow_log_le_self (b := 2) (by norm_num) hx
    push_cast at hl
    have hlt : (k : ℝ) * 2 ^ e < (2 : ℝ) ^ (53 + e) := by
      rw [zpow_add₀ (by norm_num)]
      refine mul_lt_mul_of_pos_right ?_ (by positivity)
      exact_mod_cast hk
    have hle : Int.log 2 ((k : ℝ) * 2 ^ e) < 53 + e :=
      (zpow_lt_zpow_iff_right₀ (by norm_num : (1 : ℝ) < 2)).1 (hl.trans_lt hlt)
    unfold chop
    rw [abs_of_pos hx, sign_pos hx]
    generalize Int.log 2 ((k : ℝ) * 2 ^ e) = L at *
    obtain ⟨d, hd⟩ : ∃ d : Nat, e = L - (52 : Nat) + d := ⟨(e - (L - 52)).toNat, by push_cast; omega⟩
    have : (k : ℝ) * 2 ^ e = ((k * 2 ^ d : Nat) : ℝ) * 2 ^ (L - (52 : Nat)) := by
      rw [hd, zpow_add₀ (by norm_num)]
      push_cast
      rw [zpow_natCast]
      ring
    rw [this, mul_div_cancel_right₀ _ (by positivity), Nat.floor_natCast]
    simp
  · have hx : (0 : ℝ) < 1 + 2 ^ (-53 : ℤ) := by positivity
    have hl : Int.log 2 ((1 : ℝ) + 2 ^ (-53 : ℤ)) = 0 := by
      apply le_antisymm
      · have := (Int.lt_zpow_iff_log_lt (R := ℝ) (b := 2) (by norm_num) (x := 1) (r := 1 + 2 ^ (-53 : ℤ)) hx).1
          (by norm_num)
        omega
      · rw [← Int.zpow_le_iff_le_log (by norm_num) hx]
        norm_num
    unfold chop
    rw [abs_of_pos hx, sign_pos hx, hl]
    have : ⌊((1 : ℝ) + 2 ^ (-53 : ℤ)) / 2 ^ ((0 : ℤ) - (52 : Nat))⌋₊ = 2 ^ 52 := by
      rw [Nat.floor_eq_iff (by positivity)]
      constructor <;> norm_num
    rw [this]
    norm_num

/-- one alpha electron in orbitals 0, 1 and one beta electron in orbitals 2, 3, 4 -/
def hermDets : List (BitVec (2 * 5)) :=
  [0b0010000010#10, 0b0100000010#10, 0b1000000010#10, 0b1000000001#10, 0b0100000001#10, 0b0010000001#10]

/-- the coefficients -/
noncomputable def hermC (i : Nat) : ℝ := if i = 3 ∨ i = 4 then 2 ^ (-53 : ℤ) else 1

theorem hermDets_rdm1 : ∀ i < 6, ∀ j < 6,
    rdm1 (hermDets.getD i 0) (hermDets.getD j 0) 1 0 = (if i < 3 ∧ i + j = 5 then 1 else 0) ∧
    rdm1 (hermDets.getD i 0) (hermDets.getD j 0) 0 1 = (if 3 ≤ i ∧ i + j = 5 then 1 else 0) := by decide +kernel

/-- C173: the 1-RDM computed in floating point is not exactly Hermitian: the two elements of a pair add up the same
products in different orders. -/
theorem C173_not_exactly_hermitian {rnd : ℝ → ℝ} (h : DoubleLike rnd) :
    ∃ dets : List (BitVec (2 * 5)), OneSector 5 dets dets ∧ dets.Nodup ∧ ∃ C : Nat → ℝ,
      (formRdmsR rnd dets dets C true zeroRdms).ordm 1 0 ≠ (formRdmsR rnd dets dets C true zeroRdms).ordm 0 1 := by
  refine ⟨hermDets, by decide +kernel, by decide +kernel, hermC, ?_⟩
  have hS : OneSector 5 hermDets hermDets := by decide +kernel
  have r1 : rnd 1 = 1 := by simpa using h.keep 1 0 (by norm_num)
  have r2 : rnd (2 ^ (-53 : ℤ)) = 2 ^ (-53 : ℤ) := by simpa using h.keep 1 (-53) (by norm_num)
  have r3 : rnd (2 ^ (-52 : ℤ)) = 2 ^ (-52 : ℤ) := by simpa using h.keep 1 (-52) (by norm_num)
  have r4 : rnd (2 ^ (-52 : ℤ) + 1) = 2 ^ (-52 : ℤ) + 1 := by
    have := h.keep (2 ^ 52 + 1) (-52) (by norm_num)
    rw [show (((2 ^ 52 + 1 : Nat) : ℝ) * 2 ^ (-52 : ℤ)) = 2 ^ (-52 : ℤ) + 1 by norm_num] at this
    exact this
  have i1 : items rnd hermDets hermDets hermC 1 0 = [(1, 1), (2 ^ (-53 : ℤ), 2 ^ (-53 : ℤ)), (2 ^ (-53 : ℤ), 2 ^ (-53 : ℤ))] := by
    have e : items rnd hermDets hermDets hermC 1 0 = (List.range 6).flatMap fun i => (List.range 6).flatMap fun j =>
        if i < 3 ∧ i + j = 5 then [(rnd (hermC i * hermC j), hermC i * hermC j)] else [] := by
      refine List.flatMap_congr fun i hi => List.flatMap_congr fun j hj => ?_
      dsimp only
      rw [(hermDets_rdm1 i (List.mem_range.1 hi) j (List.mem_range.1 hj)).1]
      split_ifs <;> simp
    rw [e]
    simp [List.range_succ, hermC, r1]
    norm_num at r2 ⊢
    exact r2
  have i2 : items rnd hermDets hermDets hermC 0 1 = [(2 ^ (-53 : ℤ), 2 ^ (-53 : ℤ)), (2 ^ (-53 : ℤ), 2 ^ (-53 : ℤ)), (1, 1)] := by
    have e : items rnd hermDets hermDets hermC 0 1 = (List.range 6).flatMap fun i => (List.range 6).flatMap fun j =>
        if 3 ≤ i ∧ i + j = 5 then [(rnd (hermC i * hermC j), hermC i * hermC j)] else [] := by
      refine List.flatMap_congr fun i hi => List.flatMap_congr fun j hj => ?_
      dsimp only
      rw [(hermDets_rdm1 i (List.mem_range.1 hi) j (List.mem_range.1 hj)).2]
      split_ifs <;> simp
    rw [e]
    simp [List.range_succ, hermC, r1]
    norm_num at r2 ⊢
    exact r2
  rw [ordmR_eq (by norm_num) _ _ _ hS (by norm_num) (by norm_num), ordmR_eq (by norm_num) _ _ _ hS (by norm_num) (by norm_num),
    i1, i2]
  have big : |(2 : ℝ) ^ (-53 : ℤ)| > 1 / 10 ^ 16 := by
    rw [abs_of_pos (by positivity)]
    norm_num
  have one : |(1 : ℝ)| > 1 / 10 ^ 16 := by norm_num
  simp only [List.foldl_cons, List.foldl_nil, if_pos big, if_pos one, zero_add, r1, h.down, r2]
  rw [show (2 : ℝ) ^ (-53 : ℤ) + 2 ^ (-53 : ℤ) = 2 ^ (-52 : ℤ) by norm_num, r3, r4]
  norm_num

/-- example: `double` rounded towards zero -/
example : ∃ dets : List (BitVec (2 * 5)), OneSector 5 dets dets ∧ dets.Nodup ∧ ∃ C : Nat → ℝ,
    (formRdmsR (chop 52) dets dets C true zeroRdms).ordm 1 0 ≠ (formRdmsR (chop 52) dets dets C true zeroRdms).ordm 0 1 :=
  C173_not_exactly_hermitian chop_double

/-- example: the error bound on this expansion -/
example : |(formRdmsR (chop 52) hermDets hermDets hermC true zeroRdms).ordm 1 0
    - ∑ i ∈ Finset.range 6, ∑ j ∈ Finset.range 6,
        hermC i * hermC j * (rdm1 (hermDets.getD i 0) (hermDets.getD j 0) 1 0 : ℝ)|
    ≤ ((1 + (2 : ℝ) ^ (-(52 : ℤ))) ^ (3 + 1) - 1) * (∑ i ∈ Finset.range 6, ∑ j ∈ Finset.range 6,
        |hermC i * hermC j| * |(rdm1 (hermDets.getD i 0) (hermDets.getD j 0) 1 0 : ℝ)|)
      + (3 : Nat) * (1 / 10 ^ 16 / (1 - (2 : ℝ) ^ (-(52 : ℤ)))) := by
  have := C173_one_rdm_error (chop_rounds 52) (by norm_num) 5 (by norm_num) hermDets hermDets hermC (by decide +kernel) 1 0
    (by norm_num) (by norm_num)
  have m : ∑ i ∈ Finset.range hermDets.length, ∑ j ∈ Finset.range hermDets.length,
      (rdm1 (hermDets.getD i 0) (hermDets.getD j 0) 1 0).natAbs = 3 := by decide +kernel
  simp only [m] at this
  exact this

/-- example: the 2-RDM is exactly symmetric under the exchange of the electrons, and not zero in this element (exactly) -/
example : (formRdmsR (chop 52) hermDets hermDets hermC true zeroRdms).trdm 1 0 2 3
    = (formRdmsR (chop 52) hermDets hermDets hermC true zeroRdms).trdm 2 3 1 0 :=
  C173_electron_exchange 5 (chop 52) hermDets hermDets hermC true (by decide +kernel) zeroRdms (fun _ _ _ _ => rfl) 1 0 2 3

end Macis
