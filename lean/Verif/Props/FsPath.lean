import Verif.Model.Fs

import Mathlib.Data.List.Basic
import Mathlib.Data.List.Induction
import Mathlib.Data.List.TakeWhile
/-!
# Properties of `SplitAll` (C61)
-/
set_option linter.unusedSectionVars false

namespace Verif.Fs

/-! ## Specification -/

/-- A component of a clean path: not empty and without separator. -/
def Comp (c : List Char) : Prop := c ≠ [] ∧ '/' ∉ c

/-- The absolute path with these components: "/a/b". -/
def absPath (cs : List (List Char)) : List Char := cs.flatMap fun c => '/' :: c

/-- The components with separators between them: "a/b". -/
def joined : List (List Char) → List Char
  | [] => []
  | c :: cs => c ++ absPath cs

/-! ## Lemmas -/

theorem split_sep (pre c : List Char) (hc : '/' ∉ c) : split (pre ++ '/' :: c) = (pre ++ ['/'], c) := by
  have h : (pre ++ '/' :: c).reverse.takeWhile (fun x => decide (x ≠ '/')) = c.reverse := by
    rw [List.reverse_append, List.reverse_cons, List.append_assoc, List.takeWhile_append_of_pos]
    · simp
    · intro x hx
      have : x ∈ c := List.mem_reverse.1 hx
      simp only [decide_eq_true_eq]
      rintro rfl
      exact hc this
  simp only [split, h, List.length_reverse]
  have e : pre ++ '/' :: c = (pre ++ ['/']) ++ c := by simp
  have l : (pre ++ '/' :: c).length - c.length = (pre ++ ['/']).length := by simp; omega
  rw [l, e, List.take_left' rfl, List.drop_left' rfl]

theorem split_nosep (c : List Char) (hc : '/' ∉ c) : split c = ([], c) := by
  have h : c.reverse.takeWhile (fun x => decide (x ≠ '/')) = c.reverse := by
    rw [List.takeWhile_eq_self_iff]
    intro x hx
    have : x ∈ c := List.mem_reverse.1 hx
    simp only [decide_eq_true_eq]
    rintro rfl
    exact hc this
  simp only [split, h, List.length_reverse]
  simp

theorem trimSlash_sep (pre : List Char) : trimSlash (pre ++ ['/']) = pre := by simp [trimSlash]

theorem absPath_append (cs : List (List Char)) (c : List Char) : absPath (cs ++ [c]) = absPath cs ++ '/' :: c := by
  simp [absPath]

theorem loop_abs (cs : List (List Char)) (h : ∀ c ∈ cs, Comp c) (x : List Char) (b r : List (List Char))
    (hb : b.length = cs.length) : splitLoop (x :: (b ++ r)) (absPath cs) (cs.length + 1) = .ok (x :: (cs ++ r), 1) := by
  induction cs using List.reverseRecOn generalizing b r with
  | nil =>
    have : b = [] := List.length_eq_zero_iff.1 hb
    subst this
    simp [splitLoop, absPath, split]
  | append_singleton cs c ih =>
    have hc := h c (by simp)
    rw [absPath_append, List.length_append, List.length_singleton, splitLoop, split_sep _ _ hc.2]
    simp only [trimSlash_sep]
    rw [if_pos hc.1]
    obtain ⟨b, y, rfl⟩ : ∃ b' y, b = b' ++ [y] := by
      cases b using List.reverseRecOn with
      | nil => simp at hb
      | append_singleton b y => exact ⟨b, y, rfl⟩
    have hb' : b.length = cs.length := by simpa using hb
    have hset : Go.set (x :: (b ++ [y] ++ r)) (cs.length + 1) c = .ok (x :: (b ++ (c :: r))) := by
      rw [Go.set, if_pos (by simp [hb'])]
      congr 1
      rw [List.set_cons_succ, List.append_assoc, List.set_append_right _ _ (by omega)]
      simp [hb']
    rw [hset]
    simp only [Res.bind_ok]
    rw [ih (fun c hc => h c (by simp [hc])) b (c :: r) hb']
    simp

theorem loop_rel (c0 : List Char) (cs : List (List Char)) (h0 : Comp c0) (h : ∀ c ∈ cs, Comp c) (b r : List (List Char))
    (hb : b.length = cs.length + 1) : splitLoop (b ++ r) (c0 ++ absPath cs) (cs.length + 1) = .ok (c0 :: cs ++ r, -1) := by
  induction cs using List.reverseRecOn generalizing b r with
  | nil =>
    obtain ⟨y, rfl⟩ := List.length_eq_one_iff.1 hb
    rw [show c0 ++ absPath [] = c0 by simp [absPath]]
    rw [show ([] : List (List Char)).length + 1 = 0 + 1 from rfl, splitLoop, split_nosep _ h0.2]
    simp only [trimSlash]
    rw [if_pos h0.1]
    simp [Go.set, splitLoop]
  | append_singleton cs c ih =>
    have hc := h c (by simp)
    rw [absPath_append, List.length_append, List.length_singleton, splitLoop, ← List.append_assoc, split_sep _ _ hc.2]
    simp only [trimSlash_sep]
    rw [if_pos hc.1]
    obtain ⟨b, y, rfl⟩ : ∃ b' y, b = b' ++ [y] := by
      cases b using List.reverseRecOn with
      | nil => simp at hb
      | append_singleton b y => exact ⟨b, y, rfl⟩
    have hb' : b.length = cs.length + 1 := by simpa using hb
    have hset : Go.set (b ++ [y] ++ r) (cs.length + 1) c = .ok (b ++ (c :: r)) := by
      rw [Go.set, if_pos (by simp [hb'])]
      congr 1
      rw [List.append_assoc, List.set_append_right _ _ (by omega)]
      simp [hb']
    rw [hset]
    simp only [Res.bind_ok]
    rw [ih (fun c hc => h c (by simp [hc])) b (c :: r) hb']
    simp

theorem count_abs (cs : List (List Char)) (h : ∀ c ∈ cs, Comp c) : (absPath cs).count '/' = cs.length := by
  induction cs with
  | nil => rfl
  | cons c cs ih =>
    have : absPath (c :: cs) = '/' :: c ++ absPath cs := by simp [absPath]
    rw [this, List.count_append, List.count_cons_self, List.count_eq_zero_of_not_mem (h c (by simp)).2,
      ih fun c hc => h c (by simp [hc])]
    simp; omega

/-! ## C61 -/

/-- **C61 (absolute paths, partial).** An absolute path "/a/b" is split into its components, in order.  Missing: the root is
lost (`C61_absolute_join_false`), and relative paths panic (`C61_relative_panics`). -/
theorem C61_absolute_partial (cs : List (List Char)) (h0 : cs ≠ []) (h : ∀ c ∈ cs, Comp c) :
    splitAll (absPath cs) = .ok cs ∧ '/' :: joined cs = absPath cs := by
  constructor
  · have hl := loop_abs cs h [] (List.replicate cs.length []) [] (by simp)
    rw [splitAll, count_abs cs h]
    simp only [List.replicate_succ]
    rw [List.append_nil] at hl
    rw [hl]
    simp
    omega
  · cases cs with
    | nil => exact absurd rfl h0
    | cons c cs => simp [joined, absPath]

/-- **C61 is false of the code for absolute paths.** Joining the components of an absolute path never gives it back: the
leading separator is missing. -/
theorem C61_absolute_join_false (cs : List (List Char)) (h0 : cs ≠ []) (h : ∀ c ∈ cs, Comp c) :
    ∃ r, splitAll (absPath cs) = .ok r ∧ joined r ≠ absPath cs := by
  obtain ⟨h1, h2⟩ := C61_absolute_partial cs h0 h
  refine ⟨cs, h1, fun e => ?_⟩
  rw [← e] at h2
  have := congrArg List.length h2
  simp at this

/-- **C61 is false of the code for relative paths.** Splitting any relative clean path, "a", "a/b" or ".", panics. -/
theorem C61_relative_panics (cs : List (List Char)) (h0 : cs ≠ []) (h : ∀ c ∈ cs, Comp c) :
    splitAll (joined cs) = .panic := by
  cases cs with
  | nil => exact absurd rfl h0
  | cons c0 cs =>
    have hc := fun c hc => h c (List.mem_cons_of_mem _ hc)
    have hl := loop_rel c0 cs (h c0 (by simp)) hc (List.replicate (cs.length + 1) []) [] (by simp)
    have : (joined (c0 :: cs)).count '/' = cs.length := by
      rw [joined, List.count_append, List.count_eq_zero_of_not_mem (h c0 (by simp)).2, count_abs cs hc]; omega
    rw [splitAll, this]
    rw [List.append_nil] at hl
    simp only [joined, hl, Res.bind_ok]
    rw [if_neg (by omega)]

theorem loop_rest (q : List Char) (cs : List (List Char)) (hq : q.getLast? = some '/') (h : ∀ c ∈ cs, Comp c)
    (b0 b r : List (List Char)) (x : List Char) (hb : b.length = cs.length) :
    splitLoop (b0 ++ x :: (b ++ r)) (q ++ absPath cs) (b0.length + cs.length + 1) =
      .ok (b0 ++ q :: (cs ++ r), (b0.length : Int)) := by
  induction cs using List.reverseRecOn generalizing b r with
  | nil =>
    have : b = [] := List.length_eq_zero_iff.1 hb
    subst this
    obtain ⟨q', rfl⟩ : ∃ q', q = q' ++ ['/'] := by
      obtain ⟨hne, hl⟩ := List.getLast?_eq_some_iff.1 hq
      exact ⟨_, hl⟩
    have e : q' ++ ['/'] ++ absPath [] = q' ++ '/' :: [] := by simp [absPath]
    simp only [List.length_nil, Nat.add_zero]
    rw [e, splitLoop, split_sep _ _ (by simp)]
    have hset : Go.set (b0 ++ x :: ([] ++ r)) b0.length (q' ++ ['/']) = .ok (b0 ++ (q' ++ ['/']) :: r) := by
      rw [Go.set, if_pos (by simp)]
      simp
    rw [List.nil_append] at hset; simp [hset]
  | append_singleton cs c ih =>
    have hc := h c (by simp)
    rw [absPath_append, List.length_append, List.length_singleton, ← Nat.add_assoc, splitLoop, ← List.append_assoc,
      split_sep _ _ hc.2]
    simp only [trimSlash_sep]
    rw [if_pos hc.1]
    obtain ⟨b, y, rfl⟩ : ∃ b' y, b = b' ++ [y] := by
      cases b using List.reverseRecOn with
      | nil => simp at hb
      | append_singleton b y => exact ⟨b, y, rfl⟩
    have hb' : b.length = cs.length := by simpa using hb
    have hset : Go.set (b0 ++ x :: (b ++ [y] ++ r)) (b0.length + cs.length + 1) c = .ok (b0 ++ x :: (b ++ (c :: r))) := by
      rw [Go.set, if_pos (by simp [hb']; omega)]
      congr 1
      rw [List.set_append_right _ _ (by omega), show b0.length + cs.length + 1 - b0.length = cs.length + 1 by omega,
        List.set_cons_succ, List.append_assoc, List.set_append_right _ _ (by omega)]
      simp [hb']
    rw [hset]
    simp only [Res.bind_ok]
    rw [ih (fun c hc => h c (by simp [hc])) b (c :: r) hb']
    simp

/-- **C61 (the other paths).** A path in which the clean end "/a/b" follows a separator, as in "x//a/b" or "//a/b", or
that ends with a separator, as "x/y/", is split into everything before that end, separator included, and its
components. -/
theorem C61_rest (q : List Char) (cs : List (List Char)) (hq : q.getLast? = some '/') (h : ∀ c ∈ cs, Comp c) :
    splitAll (q ++ absPath cs) = .ok (q :: cs) ∧ (q :: cs).flatten.length + cs.length = (q ++ absPath cs).length := by
  constructor
  · have hl := loop_rest q cs hq h (List.replicate (q.count '/') []) (List.replicate cs.length []) [] [] (by simp)
    rw [splitAll, List.count_append, count_abs cs h]
    have e : List.replicate (q.count '/' + cs.length + 1) ([] : List Char) =
        List.replicate (q.count '/') [] ++ [] :: (List.replicate cs.length [] ++ []) := by
      rw [List.append_nil, ← List.replicate_succ, List.replicate_append_replicate]; rfl
    simp only [List.length_replicate] at hl
    simp only [e]
    rw [hl]
    simp
    omega
  · induction cs with
    | nil => simp [absPath]
    | cons c cs ih =>
      have := ih fun c hc => h c (by simp [hc])
      simp [absPath] at this ⊢
      omega

/-- **C61 (all paths).** Every path is of one of these three kinds, so that the theorems above say what `SplitAll` does
for every text on Unix. -/
theorem C61_kinds (s : List Char) :
    (∃ cs, (∀ c ∈ cs, Comp c) ∧ s = absPath cs) ∨ (∃ cs, cs ≠ [] ∧ (∀ c ∈ cs, Comp c) ∧ s = joined cs) ∨
    (∃ q cs, q.getLast? = some '/' ∧ (∀ c ∈ cs, Comp c) ∧ s = q ++ absPath cs) := by
  have last : ∀ s : List Char, ∃ c, '/' ∉ c ∧ (s = c ∨ ∃ pre, s = pre ++ '/' :: c) := by
    intro s
    induction s with
    | nil => exact ⟨[], by simp, .inl rfl⟩
    | cons x s ih =>
      obtain ⟨c, hc, rfl | ⟨pre, rfl⟩⟩ := ih
      · by_cases hx : x = '/'
        · exact ⟨s, hc, .inr ⟨[], by simp [hx]⟩⟩
        · exact ⟨x :: s, by simp [hc, Ne.symm hx], .inl rfl⟩
      · exact ⟨c, hc, .inr ⟨x :: pre, rfl⟩⟩
  induction hn : s.length using Nat.strong_induction_on generalizing s with
  | _ n ih =>
    subst hn
    obtain ⟨c, hc, rfl | ⟨pre, rfl⟩⟩ := last s
    · by_cases he : s = []
      · exact .inl ⟨[], by simp, by simp [he, absPath]⟩
      · exact .inr (.inl ⟨[s], by simp, by simpa using ⟨he, hc⟩, by simp [joined, absPath]⟩)
    · by_cases he : c = []
      · exact .inr (.inr ⟨pre ++ ['/'], [], by simp, by simp, by simp [he, absPath]⟩)
      · have hcomp : ∀ cs : List (List Char), (∀ c ∈ cs, Comp c) → ∀ d ∈ cs ++ [c], Comp d := by
          intro cs h d hd
          rcases List.mem_append.1 hd with hd | hd
          · exact h d hd
          · rw [List.mem_singleton.1 hd]; exact ⟨he, hc⟩
        rcases ih pre.length (by simp) pre rfl with ⟨cs, h, rfl⟩ | ⟨cs, h0, h, rfl⟩ | ⟨q, cs, hq, h, rfl⟩
        · exact .inl ⟨cs ++ [c], hcomp cs h, (absPath_append _ _).symm⟩
        · refine .inr (.inl ⟨cs ++ [c], by simp, hcomp cs h, ?_⟩)
          cases cs with
          | nil => exact absurd rfl h0
          | cons c0 cs => simp [joined, absPath_append]
        · exact .inr (.inr ⟨q, cs ++ [c], hq, hcomp cs h, by simp [absPath_append]⟩)

/-- **C61.** `SplitAll` panics for the non-empty clean relative paths and for no other text. -/
theorem C61_panics_iff (s : List Char) :
    splitAll s = .panic ↔ ∃ cs, cs ≠ [] ∧ (∀ c ∈ cs, Comp c) ∧ s = joined cs := by
  constructor
  · intro hs
    rcases C61_kinds s with ⟨cs, h, rfl⟩ | h | ⟨q, cs, hq, h, rfl⟩
    · by_cases h0 : cs = []
      · subst h0; cases hs
      · rw [(C61_absolute_partial cs h0 h).1] at hs; cases hs
    · exact h
    · rw [(C61_rest q cs hq h).1] at hs; cases hs
  · rintro ⟨cs, h0, h, rfl⟩
    exact C61_relative_panics cs h0 h

example : splitAll "x//a/b".toList = .ok ["x/".toList, ['a'], ['b']] ∧ splitAll "x/y/".toList = .ok ["x/y/".toList] ∧
    splitAll [] = .ok [] := by decide

/-- **C61 (the root).** The root directory is split into itself. -/
theorem C61_root : splitAll ['/'] = .ok [['/']] := by rfl

example : Comp ['a'] ∧ absPath [['a'], ['b', 'c']] = "/a/bc".toList ∧ joined [['a'], ['b', 'c']] = "a/bc".toList := by
  refine ⟨⟨by decide, by decide⟩, by decide, by decide⟩
example : splitAll "/a/bc".toList = .ok [['a'], ['b', 'c']] ∧ splitAll "a/bc".toList = .panic := by decide

theorem ex_comps : ∀ c ∈ [['a'], ['b', 'c']], Comp c := by
  intro c hc
  simp at hc
  rcases hc with rfl | rfl <;> exact ⟨by decide, by decide⟩
example : splitAll (absPath [['a'], ['b', 'c']]) = .ok [['a'], ['b', 'c']] := (C61_absolute_partial _ (by decide) ex_comps).1
example : ∃ r, splitAll (absPath [['a'], ['b', 'c']]) = .ok r ∧ joined r ≠ absPath [['a'], ['b', 'c']] :=
  C61_absolute_join_false _ (by decide) ex_comps

example : splitAll (joined [['a'], ['b', 'c']]) = .panic := C61_relative_panics _ (by decide) ex_comps
example := C61_rest "x/".toList [['a'], ['b', 'c']] (by decide) ex_comps

end Verif.Fs
