import Verif.Model.FsDirs
import Verif.Lemmas.Links
import Verif.Lemmas.Path
set_option linter.unusedSectionVars false
/-! # Lemmas on `MkdirAll` and `RemoveAll` -/

namespace Verif.FsLinks
open Verif.Spec Verif.Path

theorem stat_iff {F : FS} {cwd : List Str} {me : Str} {e : List Str} : stat F cwd me = some e ↔ LeadsTo F cwd me e := by
  unfold stat
  constructor
  · intro h
    split_ifs at h with hx
    cases h
    exact hx.choose_spec
  · intro h
    have hx : ∃ e, LeadsTo F cwd me e := ⟨e, h⟩
    rw [dif_pos hx]
    exact congrArg some (h.2.unique hx.choose_spec.2)

theorem stat_none {F : FS} {cwd : List Str} {me : Str} (h : ∀ e, ¬ LeadsTo F cwd me e) : stat F cwd me = none := by
  unfold stat
  rw [dif_neg (by rintro ⟨e, he⟩; exact h e he)]

theorem names_unique {F : FS} {cwd : List Str} {me : Str} {e e' : List Str} (h : Names F cwd me e) (h' : Names F cwd me e') :
    e' = e := by
  obtain ⟨cs, c, p, h1, -, h3, -, rfl⟩ := h
  obtain ⟨cs', c', p', h1', -, h3', -, rfl⟩ := h'
  rw [h1] at h1'
  obtain ⟨rfl, h2⟩ := List.append_inj' h1' rfl
  cases h2
  rw [h3.unique h3']

theorem mkdir_some {F : FS} {cwd : List Str} {me : Str} {e : List Str} (h : Names F cwd me e) (h0 : F e = none) :
    mkdir F cwd me = some (F.put e .dir) := by
  unfold mkdir
  have hx : ∃ e, Names F cwd me e ∧ F e = none := ⟨e, h, h0⟩
  rw [dif_pos hx, names_unique h hx.choose_spec.1]

theorem mkdir_none {F : FS} {cwd : List Str} {me : Str} {e : List Str} (h : Names F cwd me e) (h0 : F e ≠ none) :
    mkdir F cwd me = none := by
  unfold mkdir
  rw [dif_neg]
  rintro ⟨e', h1, h2⟩
  rw [names_unique h h1] at h2
  exact h0 h2

theorem lstat_names {F : FS} {cwd : List Str} {me : Str} {e : List Str} (h : Names F cwd me e) (h0 : F e ≠ none) :
    lstat F cwd me = some e := by
  unfold lstat
  have hx : ∃ e, Names F cwd me e ∧ F e ≠ none := ⟨e, h, h0⟩
  rw [dif_pos hx, names_unique h hx.choose_spec.1]

theorem mkdirAll_eq (F : FS) (cwd : List Str) (me : Str) : mkdirAll F cwd me =
    match stat F cwd me with
    | some e => (F, decide (F e ≠ some .dir))
    | none =>
      let r := (above me).elim (F, false) (mkdirAll F cwd)
      if r.2 then r
      else
        match mkdir r.1 cwd me with
        | some F' => (F', false)
        | none =>
          match lstat r.1 cwd me with
          | some e => (r.1, decide (r.1 e ≠ some .dir))
          | none => (r.1, true) := by
  rw [mkdirAll]
  cases stat F cwd me with
  | some e => rfl
  | none =>
    refine congrArg (fun r : FS × Bool => if r.2 then r
      else
        match mkdir r.1 cwd me with
        | some F' => (F', false)
        | none =>
          match lstat r.1 cwd me with
          | some e => (r.1, decide (r.1 e ≠ some .dir))
          | none => (r.1, true)) ?_
    split <;> rename_i h <;> simp only [h, Option.elim]

theorem above_join (a : Str) {c : Str} (h : c ≠ []) (h' : '/' ∉ c) :
    above (a ++ '/' :: c) = if a = [] then none else some a := by
  have e1 : (a ++ '/' :: c).reverse = c.reverse ++ '/' :: a.reverse := by simp
  have hd : ∀ l : Str, (c.reverse ++ l).dropWhile (· = '/') = c.reverse ++ l := by
    intro l
    obtain ⟨x, t, hx⟩ := List.exists_cons_of_ne_nil (show c.reverse ≠ [] by simpa using h)
    have : x ≠ '/' := by
      rintro rfl
      exact h' (by rw [← List.mem_reverse, hx]; exact List.mem_cons_self ..)
    rw [hx, List.cons_append, List.dropWhile_cons_of_neg (by simpa using this)]
  have hw : (c.reverse ++ '/' :: a.reverse).dropWhile (· ≠ '/') = '/' :: a.reverse := by
    rw [List.dropWhile_append_of_pos]
    · rw [List.dropWhile_cons_of_neg (by simp)]
    · intro x hx
      have : x ≠ '/' := by rintro rfl; exact h' (List.mem_reverse.1 hx)
      simpa using this
  unfold above
  simp only [e1, hd, List.reverse_reverse, hw]
  cases a with
  | nil => simp
  | cons x a =>
    have : (x :: (a ++ ['/'])).dropLast = x :: a := List.dropLast_concat (l₁ := x :: a)
    simp [this]

theorem above_name {c : Str} (h : c ≠ []) (h' : '/' ∉ c) : above c = none := by
  have hd : c.reverse.dropWhile (· = '/') = c.reverse := by
    obtain ⟨x, t, hx⟩ := List.exists_cons_of_ne_nil (show c.reverse ≠ [] by simpa using h)
    have : x ≠ '/' := by
      rintro rfl
      exact h' (by rw [← List.mem_reverse, hx]; exact List.mem_cons_self ..)
    rw [hx, List.dropWhile_cons_of_neg (by simpa using this)]
  have hw : c.reverse.dropWhile (· ≠ '/') = [] := by
    rw [List.dropWhile_eq_nil_iff]
    intro x hx
    have : x ≠ '/' := by rintro rfl; exact h' (List.mem_reverse.1 hx)
    simpa using this
  unfold above
  simp only [hd, List.reverse_reverse, hw]
  simp

/-- A text with more than one component is cut at the last slash. -/
theorem comps_cut {s : Str} {xs : List Str} {c : Str} (h : comps s = xs ++ [c]) :
    (xs = [] ∧ s = c) ∨ ∃ a, s = a ++ '/' :: c ∧ comps a = xs := by
  obtain ⟨h1, h2, h3⟩ := split_spec s
  rcases h3 with h3 | ⟨a, h3⟩
  · left
    rw [h3, List.nil_append] at h1
    rw [h1] at h2
    rw [comps_noslash s h2] at h
    cases xs with
    | nil => simp at h; exact ⟨rfl, h⟩
    | cons x xs => simp at h
  · right
    refine ⟨a, ?_⟩
    rw [h3, List.append_assoc] at h1
    rw [← h1] at h
    rw [show a ++ (['/'] ++ (split s).2) = a ++ '/' :: (split s).2 from rfl, comps_append, comps_noslash _ h2] at h
    obtain ⟨h4, h5⟩ := List.append_inj' h rfl
    cases h5
    exact ⟨h1.symm, h4⟩

theorem leads_plain {F : FS} {p : List Str} {c : Str} {cs e : List Str} (hc : Plain c) (h : Leads F p (c :: cs) e) :
    F (p ++ [c]) ≠ none := by
  cases h with
  | stay _ h2 _ => exact absurd h2 (plain_not_stay hc)
  | up _ _ => exact absurd rfl hc.2.2
  | down _ _ h3 _ _ => rw [h3]; simp
  | follow _ _ h3 _ _ => rw [h3]; simp

end Verif.FsLinks
