import Verif.Model.OrbRot
import Verif.Spec.OrbRot
import Verif.Lemmas.Transform
/-! Lemmas on packing and unpacking of orbital rotations. -/
namespace Macis
open Spec
variable {R : Type} [CommRing R]

theorem split_lt_mul {m r c : Nat} (h : m < r * c) : ∃ a i, a < r ∧ i < c ∧ m = a + i * r := by
  have hr : 0 < r := Nat.pos_of_ne_zero (by rintro rfl; simp at h)
  exact ⟨m % r, m / r, Nat.mod_lt _ hr, Nat.div_lt_of_lt_mul h, (Nat.mod_add_div' m r).symm⟩

theorem lt_mul {a b r c : Nat} (ha : a < r) (hb : b < c) : a + b * r < r * c := by
  have := Nat.mul_le_mul_right r (show b + 1 ≤ c from hb)
  rw [Nat.add_mul, Nat.mul_comm c r] at this; omega

/-- the shapes of a non-redundant pair -/
theorem kind_cases {ni na nv p q : Nat} (hp : p < ni + na + nv)
    (h : orbKind ni na q < orbKind ni na p) :
    (∃ a i, a < nv ∧ i < ni ∧ p = a + (ni + na) ∧ q = i) ∨
    (∃ a x, a < nv ∧ x < na ∧ p = a + (ni + na) ∧ q = x + ni) ∨
    (∃ x i, x < na ∧ i < ni ∧ p = x + ni ∧ q = i) := by
  rw [orbKind, orbKind] at h
  by_cases hq : q < ni
  · rw [if_pos hq] at h
    by_cases hp' : p < ni
    · rw [if_pos hp'] at h; omega
    · by_cases hp2 : p < ni + na
      · exact Or.inr (Or.inr ⟨p - ni, q, by omega, hq, by omega, rfl⟩)
      · exact Or.inl ⟨p - (ni + na), q, by omega, hq, by omega, rfl⟩
  · rw [if_neg hq] at h
    by_cases hq2 : q < ni + na
    · rw [if_pos hq2] at h
      by_cases hp' : p < ni
      · rw [if_pos hp'] at h; omega
      · rw [if_neg hp'] at h
        by_cases hp2 : p < ni + na
        · rw [if_pos hp2] at h; omega
        · exact Or.inr (Or.inl ⟨p - (ni + na), q - ni, by omega, by omega, by omega, by omega⟩)
    · rw [if_neg hq2] at h
      split at h <;> [omega; split at h <;> omega]

theorem rotPos_vi {ni na nv a i : Nat} (hi : i < ni) : rotPos ni na nv (a + (ni + na)) i = a + i * nv := by
  rw [rotPos, if_pos (by omega), if_pos hi]; congr 1; omega

theorem rotPos_va {ni na nv a x : Nat} :
    rotPos ni na nv (a + (ni + na)) (x + ni) = nv * ni + (a + x * nv) := by
  rw [rotPos, if_pos (by omega), if_neg (by omega)]; congr 1; congr 1 <;> [omega; (congr 1; omega)]

theorem rotPos_ai {ni na nv x i : Nat} (hx : x < na) :
    rotPos ni na nv (x + ni) i = nv * ni + nv * na + (x + i * na) := by
  rw [rotPos, if_neg (by omega)]; congr 1; congr 1; omega

/-- every packed position is one of the three kinds of rotation -/
theorem rotPos_cases {ni na nv m : Nat} (hm : m < nRot ni na nv) :
    ∃ p q, p < ni + na + nv ∧ orbKind ni na q < orbKind ni na p ∧ m = rotPos ni na nv p q := by
  have e1 : nRot ni na nv = nv * ni + nv * na + na * ni := by rw [nRot]; ring
  rw [e1] at hm
  by_cases h1 : m < nv * ni
  · obtain ⟨a, i, ha, hi, rfl⟩ := split_lt_mul h1
    refine ⟨a + (ni + na), i, by omega, ?_, (rotPos_vi hi).symm⟩
    rw [orbKind, orbKind, if_pos hi, if_neg (by omega), if_neg (by omega)]; omega
  · by_cases h2 : m < nv * ni + nv * na
    · obtain ⟨a, x, ha, hx, e⟩ := split_lt_mul (show m - nv * ni < nv * na by omega)
      refine ⟨a + (ni + na), x + ni, by omega, ?_, ?_⟩
      · rw [orbKind, orbKind, if_neg (by omega), if_pos (by omega), if_neg (by omega),
          if_neg (by omega)]; omega
      · rw [rotPos_va]; omega
    · obtain ⟨x, i, hx, hi, e⟩ := split_lt_mul (show m - (nv * ni + nv * na) < na * ni by omega)
      refine ⟨x + ni, i, by omega, ?_, ?_⟩
      · rw [orbKind, orbKind, if_pos hi, if_neg (by omega), if_pos (by omega)]; omega
      · rw [rotPos_ai hx]; omega

theorem rotPos_lt {ni na nv p q : Nat} (hp : p < ni + na + nv) (h : orbKind ni na q < orbKind ni na p) :
    rotPos ni na nv p q < nRot ni na nv := by
  have e1 : nRot ni na nv = nv * ni + nv * na + na * ni := by rw [nRot]; ring
  rw [e1]
  rcases kind_cases hp h with ⟨a, i, ha, hi, rfl, rfl⟩ | ⟨a, x, ha, hx, rfl, rfl⟩ | ⟨x, i, hx, hi, rfl, rfl⟩
  · rw [rotPos_vi hi]; have := lt_mul ha hi; omega
  · rw [rotPos_va]; have := lt_mul ha hx; omega
  · rw [rotPos_ai hx]; have := lt_mul hx hi; omega

/-- the positions of the three loops together -/
theorem pack3 (ni na nv : Nat) (G : Nat → R) (f1 f2 f3 : Nat → Nat → R) (f : Nat → Nat → R)
    (h1 : ∀ i a, i < ni → a < nv → f1 i a = f (a + (ni + na)) i)
    (h2 : ∀ x a, x < na → a < nv → f2 x a = f (a + (ni + na)) (x + ni))
    (h3 : ∀ i x, i < ni → x < na → f3 i x = f (x + ni) i) :
    (∀ p q, p < ni + na + nv → orbKind ni na q < orbKind ni na p →
      storeAll (storeAll (storeAll G (packBlock nv ni 0 f1)) (packBlock nv na (nv * ni) f2))
        (packBlock na ni (nv * ni + nv * na) f3) (rotPos ni na nv p q) = f p q) ∧
    (∀ m, nRot ni na nv ≤ m →
      storeAll (storeAll (storeAll G (packBlock nv ni 0 f1)) (packBlock nv na (nv * ni) f2))
        (packBlock na ni (nv * ni + nv * na) f3) m = G m) := by
  have e1 : nRot ni na nv = nv * ni + nv * na + na * ni := by rw [nRot]; ring
  have mb : ∀ {rows cols base : Nat} {g : Nat → Nat → R} {w : Nat × R}, w ∈ packBlock rows cols base g →
      ∃ i a, i < cols ∧ a < rows ∧ w = (base + (a + i * rows), g i a) := by
    intro rows cols base g w hw
    obtain ⟨⟨i, a⟩, hx, rfl⟩ := List.mem_map.mp hw
    obtain ⟨hi, ha⟩ := mem_pairsMN.mp hx
    exact ⟨i, a, hi, ha, rfl⟩
  have inb : ∀ {rows cols base : Nat} {g : Nat → Nat → R} {i a : Nat}, i < cols → a < rows →
      (base + (a + i * rows), g i a) ∈ packBlock rows cols base g := by
    intro rows cols base g i a hi ha
    exact List.mem_map.mpr ⟨(i, a), mem_pairsMN.mpr ⟨hi, ha⟩, rfl⟩
  rw [← storeAll_append, ← storeAll_append]
  constructor
  · intro p q hp h
    apply storeAll_const
    · intro w hw hwa
      rw [List.mem_append, List.mem_append] at hw
      rcases hw with hw | hw | hw <;> obtain ⟨i, a, hi, ha, rfl⟩ := mb hw <;>
        have l1 := lt_mul ha hi <;>
        rcases kind_cases hp h with ⟨a', i', ha', hi', rfl, rfl⟩ | ⟨a', x, ha', hx, rfl, rfl⟩ |
          ⟨x, i', hx, hi', rfl, rfl⟩
      · rw [rotPos_vi hi'] at hwa
        obtain ⟨rfl, rfl⟩ := addr2_inj (le_refl nv) ha ha' (by simpa using hwa)
        exact h1 _ _ hi ha
      · rw [rotPos_va] at hwa; simp only at hwa; omega
      · rw [rotPos_ai hx] at hwa; simp only at hwa; omega
      · rw [rotPos_vi hi'] at hwa; have := lt_mul ha' hi'; simp only at hwa; omega
      · rw [rotPos_va] at hwa
        obtain ⟨rfl, rfl⟩ := addr2_inj (le_refl nv) ha ha' (by simpa using hwa)
        exact h2 _ _ hi ha
      · rw [rotPos_ai hx] at hwa; simp only at hwa; omega
      · rw [rotPos_vi hi'] at hwa; have := lt_mul ha' hi'; simp only at hwa; omega
      · rw [rotPos_va] at hwa; have := lt_mul ha' hx; simp only at hwa; omega
      · rw [rotPos_ai hx] at hwa
        obtain ⟨rfl, rfl⟩ := addr2_inj (le_refl na) ha hx (by simpa using hwa)
        exact h3 _ _ hi ha
    · rcases kind_cases hp h with ⟨a, i, ha, hi, rfl, rfl⟩ | ⟨a, x, ha, hx, rfl, rfl⟩ |
          ⟨x, i, hx, hi, rfl, rfl⟩
      · refine ⟨_, List.mem_append_left _ (inb hi ha), ?_⟩
        rw [rotPos_vi hi]; simp
      · refine ⟨_, List.mem_append_right _ (List.mem_append_left _ (inb hx ha)), ?_⟩
        rw [rotPos_va]
      · refine ⟨_, List.mem_append_right _ (List.mem_append_right _ (inb hi hx)), ?_⟩
        rw [rotPos_ai hx]
  · intro m hm
    apply storeAll_none
    intro w hw hwa
    rw [List.mem_append, List.mem_append] at hw
    rcases hw with hw | hw | hw <;> obtain ⟨i, a, hi, ha, rfl⟩ := mb hw <;>
      have l1 := lt_mul ha hi <;> simp only at hwa <;> omega

/-- the stores of the three blocks of an antisymmetric matrix -/
theorem unpack3 (ni na nv ldk : Nat) (hld : ni + na + nv ≤ ldk) (K : Nat → R)
    (w1 w2 w3 : List (Nat × R)) (f : Nat → Nat → R)
    (h1 : w1 = (pairsMN ni nv).flatMap fun x =>
      [(x.2 + (ni + na) + (x.1 + 0) * ldk, f (x.2 + (ni + na)) (x.1 + 0)),
       (x.1 + 0 + (x.2 + (ni + na)) * ldk, -f (x.2 + (ni + na)) (x.1 + 0))])
    (h2 : w2 = (pairsMN na nv).flatMap fun x =>
      [(x.2 + (ni + na) + (x.1 + ni) * ldk, f (x.2 + (ni + na)) (x.1 + ni)),
       (x.1 + ni + (x.2 + (ni + na)) * ldk, -f (x.2 + (ni + na)) (x.1 + ni))])
    (h3 : w3 = (pairsMN ni na).flatMap fun x =>
      [(x.2 + ni + (x.1 + 0) * ldk, f (x.2 + ni) (x.1 + 0)),
       (x.1 + 0 + (x.2 + ni) * ldk, -f (x.2 + ni) (x.1 + 0))]) :
    (∀ p q, p < ni + na + nv → orbKind ni na q < orbKind ni na p →
      storeAll (storeAll (storeAll K w1) w2) w3 (p + q * ldk) = f p q ∧
      storeAll (storeAll (storeAll K w1) w2) w3 (q + p * ldk) = -f p q) ∧
    (∀ m, (∀ p q, p < ni + na + nv → orbKind ni na q < orbKind ni na p →
      m ≠ p + q * ldk ∧ m ≠ q + p * ldk) →
      storeAll (storeAll (storeAll K w1) w2) w3 m = K m) := by
  have kvi : ∀ a i, i < ni → orbKind ni na i < orbKind ni na (a + (ni + na)) := by
    intro a i hi; rw [orbKind, orbKind, if_pos hi, if_neg (by omega), if_neg (by omega)]; omega
  have kva : ∀ a x, x < na → orbKind ni na (x + ni) < orbKind ni na (a + (ni + na)) := by
    intro a x hx
    rw [orbKind, orbKind, if_neg (by omega), if_pos (by omega), if_neg (by omega), if_neg (by omega)]
    omega
  have kai : ∀ x i, x < na → i < ni → orbKind ni na i < orbKind ni na (x + ni) := by
    intro x i hx hi; rw [orbKind, orbKind, if_pos hi, if_neg (by omega), if_pos (by omega)]; omega
  -- all stores
  have mem : ∀ w, w ∈ w1 ++ (w2 ++ w3) ↔ ∃ p q, p < ni + na + nv ∧ orbKind ni na q < orbKind ni na p ∧
      (w = (p + q * ldk, f p q) ∨ w = (q + p * ldk, -f p q)) := by
    intro w
    rw [List.mem_append, List.mem_append, h1, h2, h3]
    simp only [List.mem_flatMap, List.mem_cons, List.not_mem_nil, or_false, Nat.add_zero]
    constructor
    · rintro (⟨⟨i, a⟩, hx, hw⟩ | ⟨⟨i, a⟩, hx, hw⟩ | ⟨⟨i, a⟩, hx, hw⟩) <;>
        obtain ⟨hi, ha⟩ := mem_pairsMN.mp hx <;> simp only at hi ha
      · exact ⟨a + (ni + na), i, by omega, kvi a i hi, hw⟩
      · exact ⟨a + (ni + na), i + ni, by omega, kva a i hi, hw⟩
      · exact ⟨a + ni, i, by omega, kai a i ha hi, hw⟩
    · rintro ⟨p, q, hp, h, hw⟩
      rcases kind_cases hp h with ⟨a, i, ha, hi, rfl, rfl⟩ | ⟨a, x, ha, hx, rfl, rfl⟩ |
          ⟨x, i, hx, hi, rfl, rfl⟩
      · exact Or.inl ⟨(q, a), mem_pairsMN.mpr ⟨hi, ha⟩, hw⟩
      · exact Or.inr (Or.inl ⟨(x, a), mem_pairsMN.mpr ⟨hx, ha⟩, hw⟩)
      · exact Or.inr (Or.inr ⟨(q, x), mem_pairsMN.mpr ⟨hi, hx⟩, hw⟩)
  have qlt : ∀ p q, p < ni + na + nv → orbKind ni na q < orbKind ni na p → q < ni + na + nv := by
    intro p q hp h
    rcases kind_cases hp h with ⟨a, i, ha, hi, rfl, rfl⟩ | ⟨a, x, ha, hx, rfl, rfl⟩ |
          ⟨x, i, hx, hi, rfl, rfl⟩ <;> omega
  rw [← storeAll_append, ← storeAll_append]
  refine ⟨fun p q hp h => ⟨?_, ?_⟩, ?_⟩
  · apply storeAll_const
    · intro w hw hwa
      obtain ⟨p', q', hp', h', e | e⟩ := (mem w).mp hw
      · subst e
        obtain ⟨rfl, rfl⟩ := addr2_inj hld hp' hp hwa
        rfl
      · subst e
        obtain ⟨rfl, rfl⟩ := addr2_inj hld (qlt _ _ hp' h') hp hwa
        omega
    · exact ⟨_, (mem _).mpr ⟨p, q, hp, h, Or.inl rfl⟩, rfl⟩
  · apply storeAll_const
    · intro w hw hwa
      obtain ⟨p', q', hp', h', e | e⟩ := (mem w).mp hw
      · subst e
        obtain ⟨rfl, rfl⟩ := addr2_inj hld hp' (qlt _ _ hp h) hwa
        omega
      · subst e
        obtain ⟨rfl, rfl⟩ := addr2_inj hld (qlt _ _ hp' h') (qlt _ _ hp h) hwa
        rfl
    · exact ⟨_, (mem _).mpr ⟨p, q, hp, h, Or.inr rfl⟩, rfl⟩
  · intro m hm
    apply storeAll_none
    intro w hw hwa
    obtain ⟨p', q', hp', h', e | e⟩ := (mem w).mp hw
    · subst e; exact (hm p' q' hp' h').1 hwa.symm
    · subst e; exact (hm p' q' hp' h').2 hwa.symm

end Macis
