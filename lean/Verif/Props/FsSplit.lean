import Verif.Props.FsPath
import Verif.Lemmas.Path
/-!
# C61 for the paths that `FilePath` makes
-/

namespace Verif.Fs
open Verif.Spec
open Verif.Path (filePath clean joinSlash Name form outOf)

theorem joinSlash_eq (cs : List (List Char)) : joinSlash cs = joined cs := by
  induction cs with
  | nil => rfl
  | cons c cs ih =>
    cases cs with
    | nil => simp [joinSlash, joined, absPath]
    | cons d ds => rw [joinSlash, ih] <;> simp [joined, absPath]

theorem abs_joinSlash (cs : List (List Char)) (h : cs ≠ []) : '/' :: joinSlash cs = absPath cs := by
  cases cs with
  | nil => exact absurd rfl h
  | cons c cs => rw [joinSlash_eq]; simp [joined, absPath]

/-- **C61 (path objects).** For every text `s`, `FilePath(s).SplitAll()` panics exactly if `s` is relative; if it is
absolute the result is the list of names that leads from the root to the place, or the root itself. -/
theorem C61_filepath (s : Str) :
    (splitAll (filePath s) = .panic ↔ rooted s = false) ∧
    ∀ cwd, rooted s = true → splitAll (filePath s) = .ok (if resolve cwd s = [] then [['/']] else resolve cwd s) := by
  have habs : ∀ cwd, rooted s = true →
      splitAll (filePath s) = .ok (if resolve cwd s = [] then [['/']] else resolve cwd s) := by
    intro cwd hr
    have hr0 := Path.form_rooted s hr
    have e1 : resolve cwd s = (form s).2.reverse := by rw [Path.resolve_form, hr]; simp
    have e2 : filePath s = '/' :: joinSlash (form s).2.reverse := by
      rw [filePath, Path.clean_eq, hr]
      simp [Path.render, outOf, hr0]
    rw [e1, e2]
    by_cases h0 : (form s).2.reverse = []
    · rw [h0, if_pos rfl]; exact C61_root
    · rw [if_neg h0, abs_joinSlash _ h0]
      refine (C61_absolute_partial _ h0 fun c hc => ?_).1
      have := Path.form_names s c (List.mem_reverse.1 hc)
      exact ⟨this.1, this.2.2.2⟩
  refine ⟨⟨fun hp => ?_, fun hr => ?_⟩, habs⟩
  · cases hr : rooted s with
    | false => rfl
    | true => rw [habs [] hr] at hp; cases hp
  · have e2 : ∃ cs, cs ≠ [] ∧ (∀ c ∈ cs, Comp c) ∧ filePath s = joined cs := by
      rw [filePath, Path.clean_eq, hr]
      by_cases h0 : outOf (form s) = []
      · exact ⟨[['.']], by simp, by simp [Comp], by simp [Path.render, h0, joined, absPath]⟩
      · exact ⟨(outOf (form s)).reverse, by simpa using h0, Path.outOf_comp _ (Path.form_names s),
          by simp [Path.render, h0, joinSlash_eq]⟩
    exact (C61_panics_iff _).2 e2

example : splitAll (filePath "/a//b/../c/".toList) = .ok [['a'], ['c']] ∧ splitAll (filePath "a/b".toList) = .panic ∧
    splitAll (filePath "//".toList) = .ok [['/']] := by decide

end Verif.Fs
