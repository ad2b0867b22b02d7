import Verif.Props.FsDirs
set_option linter.unusedSectionVars false
/-!
# Absolute paths

`Abs` joins the text of the working directory and the path.
-/

namespace Verif.FsLinks
open Verif.Spec Verif.Path

/-! ## Lemmas -/

theorem join_two {wd : Str} (h : wd ≠ []) (me : Str) : join [wd, me] = clean (wd ++ '/' :: me) := by
  rw [join, if_pos h]; rfl

theorem rooted_ne_nil {wd : Str} (h : rooted wd = true) : wd ≠ [] := by
  rintro rfl
  simp [rooted] at h

/-- Where the clean form leads. -/
theorem leads_clean_iff {F : FS} {cwd : List Str} {s : Str} {e : List Str} (hd : F (startOf cwd s) = some .dir) :
    LeadsTo F cwd (clean s) e ↔ Leads F (startOf cwd s) (outOf (form s)).reverse e := by
  have hst : startOf cwd (clean s) = startOf cwd s := by simp [startOf, rooted_clean]
  unfold LeadsTo
  rw [hst]
  constructor
  · rintro ⟨-, h⟩
    have h1 := h.drop_stays
    have h2 : going (clean s) = (outOf (form s)).reverse := by rw [clean_eq]; exact going_render _ _ (form_names s)
    unfold going at h2
    rw [h2] at h1
    exact h1
  · exact fun h => ⟨clean_ne_nil s, leads_clean hd h⟩

/-- A place in a directory tree is reached from the root by its names. -/
theorem leads_place {F : FS} (hF : F.Ok) (d : List Str) (hd : F d = some .dir) (hp : ∀ c ∈ d, Plain c) : Leads F [] d d := by
  induction d using List.reverseRecOn with
  | nil => exact .done (by rw [hd]; simp)
  | append_singleton d c ih =>
    have h1 := hF.2 d c (by rw [hd]; simp)
    exact (ih h1 fun x hx => hp x (by simp [hx])).append (.down h1 (hp c (by simp)) hd (by simp) (.done (by rw [hd]; simp)))

theorem dir_take {F : FS} (hF : F.Ok) {d : List Str} (hd : F d = some .dir) (n : Nat) : F (d.take n) = some .dir := by
  induction d using List.reverseRecOn with
  | nil => simpa using hd
  | append_singleton d c ih =>
    by_cases hn : n ≤ d.length
    · rw [List.take_append_of_le_length hn]
      exact ih (hF.2 d c (by rw [hd]; simp))
    · rw [List.take_of_length_le (by simp; omega)]
      exact hd

theorem leads_ups_take {F : FS} (hF : F.Ok) {d : List Str} (hd : F d = some .dir) (k : Nat) :
    Leads F d (List.replicate k ['.', '.']) (d.take (d.length - k)) := by
  induction k generalizing d with
  | zero => simpa using Leads.done (by rw [hd]; simp)
  | succ k ih =>
    have h1 : F d.dropLast = some .dir := by
      rw [List.dropLast_eq_take]; exact dir_take hF hd _
    have h2 := ih h1
    rw [List.length_dropLast, List.dropLast_eq_take, List.take_take,
      show min (d.length - 1 - k) (d.length - 1) = d.length - (k + 1) by omega, ← List.dropLast_eq_take] at h2
    exact .up hd h2

/-! ## `Abs` -/

variable {wd me : Str}

/-- The result is an absolute path in clean form. -/
theorem C158_absolute (hw : rooted wd = true) : rooted (abs wd me) = true ∧ clean (abs wd me) = abs wd me := by
  unfold abs
  split_ifs with h
  · exact ⟨by rw [rooted_clean]; exact h, clean_clean _⟩
  · rw [join_two (rooted_ne_nil hw)]
    exact ⟨by rw [rooted_clean, rooted_append (rooted_ne_nil hw)]; exact hw, clean_clean _⟩

/-- Read without symbolic links, it is where the path leads from the working directory; the working directory at the time of
use does not matter any more. -/
theorem C158_resolve (hw : rooted wd = true) (cwd : List Str) : resolve cwd (abs wd me) = resolve (resolve [] wd) me := by
  unfold abs
  split_ifs with h
  · rw [resolve_clean, resolve_of_rooted _ h, resolve_of_rooted _ h]
  · have h' : rooted me = false := by simpa using h
    rw [join_two (rooted_ne_nil hw), resolve_clean, resolve_of_rooted _ (by rw [rooted_append (rooted_ne_nil hw)]; exact hw),
      descend_append, resolve_of_not_rooted _ h', resolve_of_rooted _ hw]

/-- Absolute paths in clean form are left alone, in particular the results. -/
theorem C158_again (hw : rooted wd = true) (wd' : Str) : abs wd' (abs wd me) = abs wd me := by
  obtain ⟨h1, h2⟩ := C158_absolute (me := me) hw
  generalize abs wd me = x at h1 h2
  unfold abs
  rw [if_pos h1, h2]

/-- With a text of the working directory that names it without symbolic links, the absolute path leads to where the path
leads (symbolic links in the path followed). -/
theorem C158_leads_partial {F : FS} (hF : F.Ok) {cwd : List Str} (hcwd : F cwd = some .dir) (hp : ∀ c ∈ cwd, Plain c)
    (hw : rooted wd = true) (hr : resolve [] wd = cwd) (hc : clean me = me) (cwd' e : List Str) :
    LeadsTo F cwd' (abs wd me) e ↔ LeadsTo F cwd me e := by
  unfold abs
  split_ifs with h
  · rw [hc]
    unfold LeadsTo startOf
    rw [h]
    rfl
  · have h' : rooted me = false := by simpa using h
    have hs : rooted (wd ++ '/' :: me) = true := by rw [rooted_append (rooted_ne_nil hw)]; exact hw
    have h1 : startOf cwd' (wd ++ '/' :: me) = [] := by unfold startOf; rw [hs]; rfl
    have h2 : startOf cwd me = cwd := by unfold startOf; rw [h']; rfl
    have hres : resolve [] (wd ++ '/' :: me) = descend cwd me := by
      rw [resolve_of_rooted _ hs, descend_append, ← resolve_of_rooted [] hw, hr]
    rw [resolve_form, hs, descend_form _ _ (by rw [h']; simp)] at hres
    simp only [if_true, List.nil_append] at hres
    have hz := form_rooted _ hs
    have hcl : LeadsTo F cwd me e ↔ Leads F cwd (outOf (form me)).reverse e := by
      have := leads_clean_iff (F := F) (cwd := cwd) (s := me) (e := e) (by rw [h2]; exact hcwd)
      rw [hc, h2] at this
      exact this
    rw [join_two (rooted_ne_nil hw), leads_clean_iff (by rw [h1]; exact hF.1), h1, hcl]
    have e1 : (outOf (form (wd ++ '/' :: me))).reverse =
        cwd.take (cwd.length - (form me).1) ++ (form me).2.reverse := by
      rw [← hres]; simp [outOf, hz]
    have e2 : (outOf (form me)).reverse = List.replicate (form me).1 ['.', '.'] ++ (form me).2.reverse := by simp [outOf]
    rw [e1, e2, leads_append, leads_append]
    have l1 := leads_place hF _ (dir_take hF hcwd (cwd.length - (form me).1)) fun c hx => hp c (List.mem_of_mem_take hx)
    have l2 := leads_ups_take hF hcwd (form me).1
    constructor
    · rintro ⟨p, h3, h4⟩
      rw [l1.unique h3] at h4
      exact ⟨_, l2, h4⟩
    · rintro ⟨p, h3, h4⟩
      rw [l2.unique h3] at h4
      exact ⟨_, l1, h4⟩

/-- It is false with a text of the working directory that passes through a symbolic link (as the environment variable `PWD`
may): from `/l`, which is `/a/b`, the path `../c` leads to `/a/c`, and its absolute path to `/c`. -/
theorem C158_link_false : LeadsTo demo [] ['/', 'l'] [['a'], ['b']] ∧
    LeadsTo demo [['a'], ['b']] ['.', '.', '/', 'c'] [['a'], ['c']] ∧
    ∀ e, LeadsTo demo [['a'], ['b']] (abs ['/', 'l'] ['.', '.', '/', 'c']) e ↔ e = [['c']] := by
  have e : abs ['/', 'l'] ['.', '.', '/', 'c'] = ['/', 'c'] := by decide +kernel
  have hl : LeadsTo demo [['a'], ['b']] ['/', 'c'] [['c']] :=
    ⟨by decide, .stay (by decide) (.inl rfl)
      (.down (n := .file 2) (by decide) (by decide) (by decide) (by simp) (.done (by decide)))⟩
  refine ⟨⟨by decide, .stay (by decide) (.inl rfl) (.follow (t := ['a', '/', 'b']) (by decide) (by decide) (by decide) (by decide)
    (.down (n := .dir) (by decide) (by decide) (by decide) (by simp)
      (.down (n := .dir) (by decide) (by decide) (by decide) (by simp) (.done (by decide)))))⟩, ⟨by decide, ?_⟩, fun x => ?_⟩
  · exact .up (by decide) (.down (n := .file 1) (by decide) (by decide) (by decide) (by simp) (.done (by decide)))
  · rw [e]
    exact ⟨fun h => hl.2.unique h.2, fun h => h ▸ hl⟩

/-- With the text `/a/b` for the working directory. -/
example : rooted ['/', 'a', '/', 'b'] = true ∧ resolve [] ['/', 'a', '/', 'b'] = [['a'], ['b']] ∧
    clean ['.', '.', '/', 'c'] = ['.', '.', '/', 'c'] ∧ demo [['a'], ['b']] = some .dir ∧
    abs ['/', 'a', '/', 'b'] ['.', '.', '/', 'c'] = ['/', 'a', '/', 'c'] := by
  decide +kernel

end Verif.FsLinks
