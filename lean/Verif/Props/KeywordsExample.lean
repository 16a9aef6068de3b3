import Verif.Props.Keywords
import Verif.Lemmas.MpiDriverRead
/-! C167 on the input file of C166's example and on one with misspelt keywords. -/
namespace Macis
open Spec Spec.Ini

/-- an option line `key = value` -/
def kv (k v : String) : Line := .option k.toList 1 '=' 1 v.toList 0 none

/-- the file of C166's example -/
def triLines : List Line := [
  .header 0 "CI".toList 0, kv "FCIDUMP" "F", kv "NALPHA" "3", kv "NBETA" "3", kv "JOB" "CI", kv "EXPANSION" "ASCI",
  .header 0 "MCSCF".toList 0, kv "CI_RES_TOL" "9.", kv "CI_MAX_SUB" "3",
  .header 0 "ASCI".toList 0, kv "NTDETS_MAX" "3", kv "MAX_REFINE_ITER" "0", kv "CONSTRAINT_LVL" "0"]

/-- the same with keywords in lower case and, misspelt, settings the user believes to have made -/
def triTypos : List Line := [
  .comment 0 " misspelt".toList,
  .header 0 "Ci".toList 2, kv "fcidump" "F", kv "nalpha" "3", kv "nbeta" "3", kv "JOB" "CI", kv "Expansion" "ASCI",
  kv "NINACT" "1", .blank 0,
  .header 0 "MCSCF".toList 0, kv "CI_RES_TOL" "9.", kv "CI_MAX_SUB" "3", kv "CI_MAXSUB" "200",
  .header 0 "ASCI".toList 0, kv "NTDETS_MAX" "3", kv "MAX_REFINE_ITER" "0", kv "CONSTRAINT_LVL" "0", kv "NCDETS" "5",
  .header 0 "ASCII".toList 0, kv "GROW_FACTOR" "2"]

/-- the sample is well formed -/
theorem triLines_wf : ∀ l ∈ triLines, l.WF := by
  intro l hl
  simp only [triLines, kv, List.mem_cons, List.not_mem_nil, or_false] at hl
  rcases hl with rfl | rfl | rfl | rfl | rfl | rfl | rfl | rfl | rfl | rfl | rfl | rfl | rfl <;>
    first
    | (refine ⟨by decide +kernel, by decide +kernel, by decide +kernel, by decide +kernel, by decide +kernel,
        by decide +kernel, ?_⟩; intro t ht; cases ht <;> decide +kernel)
    | (show _ ∧ _ ∧ _; decide +kernel)

/-- so is the misspelt one -/
theorem triTypos_wf : ∀ l ∈ triTypos, l.WF := by
  intro l hl
  simp only [triTypos, kv, List.mem_cons, List.not_mem_nil, or_false] at hl
  rcases hl with rfl | rfl | rfl | rfl | rfl | rfl | rfl | rfl | rfl | rfl | rfl | rfl | rfl | rfl | rfl | rfl | rfl | rfl |
      rfl | rfl <;>
    first
    | trivial
    | (refine ⟨by decide +kernel, by decide +kernel, by decide +kernel, by decide +kernel, by decide +kernel,
        by decide +kernel, ?_⟩; intro t ht; cases ht <;> decide +kernel)
    | (show _ ∧ _ ∧ _; decide +kernel)
    | (show ¬ _; decide +kernel)

theorem tri_given : allKeywords.map (fun k => given triLines k.1 k.2) = allKeywords.map (fun k => given triTypos k.1 k.2) := by
  decide +kernel

theorem tri_looks : (Ini.parse triInput >>= fun d => Except.ok (allKeywords.map fun k => look d k.1 k.2)) =
    .ok (allKeywords.map fun k => given triLines k.1 k.2) := by decide +kernel

theorem map_all {α β : Type} {f g : α → β} {l : List α} (h : l.map f = l.map g) : ∀ x ∈ l, f x = g x :=
  List.map_inj_left.1 h

/-- C167's condition: two files, one with four settings misspelt or in a section of the wrong name, lead to the same run -/
theorem tri_same (env : DriverEnv) : driver env (file triLines) = driver env (file triTypos) :=
  C167_nothing_else env triLines_wf triTypos_wf fun s k h => map_all tri_given (s, k) h

theorem tri_same_keywords {d : Ini.Dict} (hd : Ini.parse triInput = .ok d) : SameKeywords d (meaning triLines) := by
  have h := tri_looks
  rw [hd, okBind] at h
  intro s k hk
  exact map_all (Except.ok.inj h) (s, k) hk

/-- C167's conditions: this file is read, and some of what the theorems say about it -/
example : ∃ o, (Ini.parse (file triLines) >>= fun d => readOptions exIO d 4) = .ok (.ci, .asci, ⟨3, 3, 0, 4, 0⟩, o) ∧
    o.asci.ntdetsMax = 3 ∧ o.asci.ntdetsMin = 100 ∧ o.contrib.constraintLevel = 0 ∧ o.asci.growFactor = 8 ∧ o.ci.resTol = 9 := by
  obtain ⟨d, o, h1, -, h3, h4, h5, h6, h7, h8, h9, -, -⟩ := triInput_reads
  have hs := tri_same_keywords h1
  refine ⟨o, ?_, by rw [h8], by rw [h8], by rw [h9], by rw [h8], by rw [h6]⟩
  rw [Ini.C138_read triLines triLines_wf, okBind]
  have ha : Ini.getSize (meaning triLines) "CI.NALPHA".toList = .ok 3 := by decide +kernel
  have hb : Ini.getSize (meaning triLines) "CI.NBETA".toList = .ok 3 := by decide +kernel
  exact (readOptions_congr hs exIO 4 (h3.trans ha.symm) (h4.trans hb.symm)).symm.trans h5

end Macis
