import Verif.Props.Numeral
import Verif.Props.Keywords
/-! C177 for the thresholds in the input file of the standalone program. -/
namespace Macis
open Spec Spec.Ini

/-- C177 (settings): a real-valued keyword of the input file given in plain notation or with an `e` exponent is set to
the number written, up to the conversion `cv` of decimals to doubles; anything else after the digits, such as the
exponent of `1.0D-10`, is dropped and the setting becomes the number before it. -/
theorem C177_settings {cv : Bool → ℚ → ℝ} {fmt : ℝ → List Char} {ls : List Line} {norb : Nat} {job : Job}
    {exp : Expansion} {sp : Ini.Space} {o : DriverSettings} (wf : ∀ l ∈ ls, l.WF)
    (h : (Ini.parse (file ls) >>= fun d =>
      readOptions ⟨fmt, fun s => (strtodExact s).map fun v => cv v.1 v.2⟩ d norb) = .ok (job, exp, sp, o)) :
    ∀ k ∈ realKeywords, ∀ (s : Option Bool) (w ip fp : List Char), Mantissa w ip fp →
      (∀ rest, Stops rest → given ls k.sec k.key = some (signText s ++ w ++ rest) →
        k.setting o = cv (decide (s = some true)) (mantissaValue ip fp)) ∧
      ∀ (u : Option Bool) (ed : List Char) (c : Char), (c = 'e' ∨ c = 'E') → (∀ c ∈ ed, c.isDigit = true) →
        given ls k.sec k.key = some (signText s ++ w ++ c :: (signText u ++ ed)) →
        k.setting o = cv (decide (s = some true)) (mantissaValue ip fp * 10 ^ exponentValue u ed) := by
  intro k hk s w ip fp hw
  have key := (C167_reals wf h k hk).2
  refine ⟨fun rest hrest hg => ?_, fun u ed c hc hed hg => ?_⟩
  · have := key _ hg
    dsimp only at this
    rw [strtod_mantissa s hw rest (fun c hc => by
      have := hrest c hc; exact ⟨this.1, by have := this.2; simp at this; tauto⟩), readExp_stops hrest,
      mantissa_scale, zpow_zero, mul_one] at this
    exact (Option.some.inj this).symm
  · have := key _ hg
    dsimp only at this
    rw [strtod_mantissa s hw _ (by
      intro d hd; simp at hd; subst hd; rcases hc with rfl | rfl <;> decide), readExp_exponent u hc hed,
      mantissa_scale] at this
    exact (Option.some.inj this).symm

/-- a residual threshold of ten to the minus ten, written the Fortran way: the setting becomes 1 -/
example : strtodExact "1.0D-10".toList = some (false, 1) ∧ Mantissa "1.0".toList "1".toList "0".toList ∧
    Stops "D-10".toList :=
  ⟨by decide +kernel, ⟨by decide, by decide, by decide, .inl rfl⟩, by intro c hc; simp at hc; subst hc; decide⟩

end Macis
