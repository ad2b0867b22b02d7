import Verif.Lemmas.MatchAscii
set_option linter.unusedSectionVars false
/-!
# C159: patterns for file names

`Match` of path objects.  The grammar and the meaning of patterns are in `Verif/Spec/Match.lean`.
-/

namespace Verif.Match
open Verif.IniBytes Verif.Spec.Glob

/-- Whatever is reported to match has a well-formed pattern and does match: for all bytes. -/
theorem C159_sound {p name r : Bytes} (h : matchPath p name = .yes r) :
    r = [] ∧ (∃ ts, Pattern p ts) ∧ ∀ ts, Pattern p ts → Matches ts name :=
  ⟨matchPath_yes h, matchPath_wf h, fun _ hp => matchPath_sound hp h⟩

/-- Full statement: the name is reported to match if and only if it does.  Proved for names in ASCII and patterns in which no
character class takes a slash; without these it is false (`C159_greedy_false`, `C159_bytes_false`). -/
theorem C159_exact_partial {p : Bytes} {ts : List Tok} (hp : Pattern p ts)
    (hc : ∀ neg rs, Tok.cls neg rs ∈ ts → Spec.Glob.within rs 47 = neg) {name : Bytes} (ha : ∀ b ∈ name, b.toNat < 128) :
    matchPath p name = .yes [] ↔ Matches ts name :=
  ⟨matchPath_sound hp, matchPath_complete hp hc ha⟩

/-- Patterns without stars are decided rightly for every name, whatever the classes and bytes. -/
theorem C159_no_star {p : Bytes} {ts : List Tok} (hp : Pattern p ts) (hs : Tok.star ∉ ts) (name : Bytes) :
    matchPath p name = .yes [] ↔ Matches ts name :=
  ⟨matchPath_sound hp, matchPath_plain hp hs⟩

/-- An error is reported only for patterns that are not well formed. -/
theorem C159_error {p name : Bytes} (h : matchPath p name = .bad) : ¬ ∃ ts, Pattern p ts :=
  fun ⟨_, hp⟩ => matchPath_not_bad hp name h

/-- Every byte after a backslash. -/
def quote (s : Bytes) : Bytes := s.flatMap fun b => [92, b]

theorem quote_pattern (s : Bytes) : Pattern (quote s) (s.map .byte) := by
  induction s with
  | nil => exact .nil
  | cons b s ih => exact .quoted ih

theorem plain_pattern {s : Bytes} (h : ∀ b ∈ s, b ≠ 42 ∧ b ≠ 63 ∧ b ≠ 91 ∧ b ≠ 92) : Pattern s (s.map .byte) := by
  induction s with
  | nil => exact .nil
  | cons b s ih =>
    obtain ⟨h1, h2, h3, h4⟩ := h b (List.mem_cons_self ..)
    exact .plain h1 h2 h3 h4 (ih fun x hx => h x (List.mem_cons_of_mem _ hx))

theorem matches_bytes {s name : Bytes} : Matches (s.map .byte) name ↔ name = s := by
  induction s generalizing name with
  | nil => exact matches_nil
  | cons b s ih =>
    constructor
    · intro h
      cases h with
      | one h1 h2 =>
        cases name with
        | nil => cases h1
        | cons x name =>
          simp only [take1] at h1
          split_ifs at h1 with h3
          cases h1
          rw [ih.1 h2, h3]
    · rintro rfl
      exact .one (by simp [take1]) (ih.2 rfl)

theorem no_stars (s : Bytes) : Tok.star ∉ s.map Tok.byte := by simp

/-- A text with a backslash before every byte, used as a pattern, stands for that text and nothing else. -/
theorem C159_quoted (s name : Bytes) : matchPath (quote s) name = .yes [] ↔ name = s := by
  rw [C159_no_star (quote_pattern s) (no_stars s), matches_bytes]

/-- So does a text without `*`, `?`, `[` and backslashes. -/
theorem C159_plain {s : Bytes} (h : ∀ b ∈ s, b ≠ 42 ∧ b ≠ 63 ∧ b ≠ 91 ∧ b ≠ 92) (name : Bytes) :
    matchPath s name = .yes [] ↔ name = s := by
  rw [C159_no_star (plain_pattern h) (no_stars s), matches_bytes]

theorem drop_slash (x : UInt8) (s : Bytes) (hx : x ≠ 47) :
    ((x :: s).drop (decodeRune (x :: s)).2).count 47 = (x :: s).count 47 := by
  rcases decode_cases x s with h | ⟨w, u, e1, e2, e3, e4, -⟩
  · rw [h, List.drop_succ_cons, List.drop_zero, List.count_cons_of_ne hx]
  · rw [← e2]
    conv_lhs => rw [e1, List.drop_left]
    have h : (47 : UInt8) ∉ w := fun h => absurd (e4 47 h) (by decide)
    rw [e1, List.count_append, List.count_eq_zero_of_not_mem h, Nat.zero_add]

/-- Stars and question marks do not take slashes: if no class does, a name that is reported to match has as many slashes as
the pattern has elements for them. -/
theorem C159_slashes {p name : Bytes} {ts : List Tok} (hp : Pattern p ts)
    (hc : ∀ neg rs, Tok.cls neg rs ∈ ts → Spec.Glob.within rs 47 = neg) (h : matchPath p name = .yes []) :
    name.count 47 = ts.count (.byte 47) := by
  have hm := matchPath_sound hp h
  clear h hp
  induction hm with
  | nil => rfl
  | star h1 _ ih =>
    rw [List.count_append, List.count_eq_zero_of_not_mem h1, ih fun neg rs h => hc neg rs (List.mem_cons_of_mem _ h),
      List.count_cons_of_ne (by simp), Nat.zero_add]
  | @one k ts s t h1 _ ih =>
    have ih := ih fun neg rs h => hc neg rs (List.mem_cons_of_mem _ h)
    cases s with
    | nil => cases k <;> cases h1
    | cons x s =>
      cases k with
      | star => cases h1
      | any =>
        simp only [take1] at h1
        split_ifs at h1 with h2
        cases h1
        exact (drop_slash x s h2).symm.trans (ih.trans (List.count_cons_of_ne (by simp)).symm)
      | byte b =>
        simp only [take1] at h1
        split_ifs at h1 with h2
        cases h1
        subst h2
        by_cases h3 : b = 47
        · subst h3; rw [List.count_cons_self, List.count_cons_self, ih]
        · rw [List.count_cons_of_ne h3, List.count_cons_of_ne (by simpa using h3), ih]
      | cls neg rs =>
        simp only [take1] at h1
        split_ifs at h1 with h2
        cases h1
        have h3 : x ≠ 47 := by
          rintro rfl
          rw [decode_ascii (by decide)] at h2
          exact h2 (hc neg rs (List.mem_cons_self ..))
        exact (drop_slash x s h3).symm.trans (ih.trans (List.count_cons_of_ne (by simp)).symm)

/-! ## Concrete cases -/

theorem rune_a : Rune [97] 97 := ⟨by decide, by decide, by decide⟩

/-- `a*[^x-z]?.go`. -/
theorem pattern_demo : Pattern [97, 42, 91, 94, 120, 45, 122, 93, 63, 46, 103, 111]
    [.byte 97, .star, .cls true [(120, 122)], .any, .byte 46, .byte 103, .byte 111] :=
  .plain (by decide) (by decide) (by decide) (by decide) <| .star <|
    .ncls (w := [120, 45, 122])
      (.range (w := [120]) (v := [122]) (t := [])
        (.plain ⟨by decide, by decide, by decide⟩ (by decide) (by decide) (by decide))
        (.plain ⟨by decide, by decide, by decide⟩ (by decide) (by decide) (by decide)) .nil) (by decide) <|
    .any <| plain_pattern (s := [46, 103, 111]) (by decide)

/-- `*?[^a]/*`. -/
theorem pattern_greedy : Pattern [42, 63, 91, 94, 97, 93, 47, 42] [.star, .any, .cls true [(97, 97)], .byte 47, .star] :=
  .star <| .any <| .ncls (w := [97])
    (.single (w := [97]) (t := []) (.plain rune_a (by decide) (by decide) (by decide)) .nil) (by decide) <|
    .plain (by decide) (by decide) (by decide) (by decide) <| .star .nil

/-- The first place where a part of the pattern matches is taken and not revisited: `*?[^a]/*` stands for `bb//`, with the
class taking a slash, and no match is reported. -/
theorem C159_greedy_false : ∃ (p name : Bytes) (ts : List Tok), Pattern p ts ∧ Matches ts name ∧ matchPath p name = .no := by
  refine ⟨_, [98, 98, 47, 47], _, pattern_greedy, ?_, by decide +kernel⟩
  refine .star (w := [98]) (s := [98, 47, 47]) (by decide) ?_
  refine .one (t := [47, 47]) (by decide) ?_
  refine .one (t := [47]) (by decide) ?_
  refine .one (t := []) (by decide) ?_
  exact .star (w := []) (s := []) (by decide) .nil

/-- A star may end inside a character: `*??` is reported to match the single character `€`.  And the pattern `*?*` followed by
the byte 0xAC is reported not to match it, though the first star may take one byte and the question mark the second. -/
theorem C159_bytes_false :
    (matchPath [42, 63, 63] [0xE2, 0x82, 0xAC] = .yes [] ∧ decodeRune [0xE2, 0x82, 0xAC] = (0x20AC, 3)) ∧
    ∃ (p name : Bytes) (ts : List Tok), Pattern p ts ∧ (∀ neg rs, Tok.cls neg rs ∈ ts → Spec.Glob.within rs 47 = neg) ∧
      Matches ts name ∧ matchPath p name = .no := by
  refine ⟨⟨by decide +kernel, by decide⟩, [42, 63, 42, 0xAC], [0xE2, 0x82, 0xAC], [.star, .any, .star, .byte 0xAC], ?_, by simp, ?_,
    by decide +kernel⟩
  · exact .star <| .any <| .star <| .plain (by decide) (by decide) (by decide) (by decide) .nil
  · refine .star (w := [0xE2]) (s := [0x82, 0xAC]) (by decide) ?_
    refine .one (t := [0xAC]) (by decide) ?_
    refine .star (w := []) (s := [0xAC]) (by decide) ?_
    exact .one (t := []) (by decide) .nil

/-- A pattern that is not well formed may be reported as not matching, without an error: `a[` on `b`; the same pattern on `ab`
is an error. -/
theorem C159_error_false : (¬ ∃ ts, Pattern [97, 91] ts) ∧ matchPath [97, 91] [98] = .no ∧ matchPath [97, 91] [97, 98] = .bad :=
  ⟨C159_error (name := [97, 98]) (by decide +kernel), by decide +kernel, by decide +kernel⟩

/-- `a*[^x-z]?.go` on `aab.go`, which matches, and on `aaxb.go`, which does not. -/
example : matchPath [97, 42, 91, 94, 120, 45, 122, 93, 63, 46, 103, 111] [97, 97, 98, 46, 103, 111] = .yes [] ∧
    matchPath [97, 42, 91, 94, 120, 45, 122, 93, 63, 46, 103, 111] [97, 97, 120, 98, 46, 103, 111] = .no := by decide +kernel

/-- `C159_sound` on it. -/
example : Matches [.byte 97, .star, .cls true [(120, 122)], .any, .byte 46, .byte 103, .byte 111] [97, 97, 98, 46, 103, 111] :=
  (C159_sound (p := [97, 42, 91, 94, 120, 45, 122, 93, 63, 46, 103, 111]) (r := []) (by decide +kernel)).2.2 _ pattern_demo

/-- `*[a-c]*` with a range that has no slash, on `x/b`: the star does not take the slash. -/
example : ¬ Matches [.star, .cls false [(97, 99)], .star] [120, 47, 98] := by
  have hp : Pattern [42, 91, 97, 45, 99, 93, 42] [.star, .cls false [(97, 99)], .star] :=
    .star <| .cls (w := [97, 45, 99])
      (.range (w := [97]) (v := [99]) (t := []) (.plain rune_a (by decide) (by decide) (by decide))
        (.plain ⟨by decide, by decide, by decide⟩ (by decide) (by decide) (by decide)) .nil) (by decide) (by decide) <| .star .nil
  rw [← C159_exact_partial hp (by simp [Spec.Glob.within]) (by decide)]
  decide +kernel

/-- A quoted star stands for a star. -/
example : matchPath (quote [97, 42]) [97, 42] = .yes [] ∧ matchPath (quote [97, 42]) [97, 98] ≠ .yes [] :=
  ⟨(C159_quoted _ _).2 rfl, fun h => by have := (C159_quoted _ _).1 h; exact absurd this (by decide)⟩

/-- `C159_no_star` on `[^x-z]` and a character of three bytes; `C159_slashes` on `*/*` and `a/b`. -/
example : matchPath [91, 94, 120, 45, 122, 93] [0xE2, 0x82, 0xAC] = .yes [] ∧ matchPath [42, 47, 42] [97, 47, 98] = .yes [] ∧
    matchPath [42, 47, 42] [97, 47, 47, 98] = .no := by decide +kernel

end Verif.Match
