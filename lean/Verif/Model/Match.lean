import Verif.Model.IniBytes
/-!
# Model of `Match` of path objects, on Unix

`filepath.Match` is written out from the Go library (as in Go 1.2 to 1.15: in later versions a pattern is checked to its end
before "no match" is reported).  Texts are bytes, valid UTF-8 or not.
-/

namespace Verif.Match
open Verif.IniBytes (Bytes decodeRune decodeRune_pos)

/-- The last part of `getEsc` of the Go library: one rune, with something after it; `none` is ErrBadPattern.  Behind
file_path.go:177. -/
def getRune (chunk : Bytes) : Option (Nat × Bytes) :=
  if chunk = [] then none
  else if (decodeRune chunk).1 = 0xFFFD ∧ (decodeRune chunk).2 = 1 then none
  else if chunk.drop (decodeRune chunk).2 = [] then none
  else some ((decodeRune chunk).1, chunk.drop (decodeRune chunk).2)

/-- `getEsc` of the Go library: a character, possibly after a backslash, in a character class; `none` is ErrBadPattern.
Behind file_path.go:177. -/
def getEsc : Bytes → Option (Nat × Bytes)
  | [] => none
  | c :: cs => if c = 45 ∨ c = 93 then none else getRune (if c = 92 then cs else c :: cs)

theorem getRune_lt {chunk t : Bytes} {r : Nat} (h : getRune chunk = some (r, t)) : t.length < chunk.length := by
  unfold getRune at h
  split at h
  · cases h
  · split at h
    · cases h
    · split at h
      · cases h
      · cases h
        cases chunk with
        | nil => rename_i h _ _; exact absurd rfl h
        | cons p l =>
          have := decodeRune_pos p l
          simp only [List.length_drop, List.length_cons]
          omega

theorem getEsc_lt {chunk t : Bytes} {r : Nat} (h : getEsc chunk = some (r, t)) : t.length < chunk.length := by
  cases chunk with
  | nil => cases h
  | cons c cs =>
    rw [getEsc] at h
    by_cases hc : c = 45 ∨ c = 93
    · rw [if_pos hc] at h; cases h
    · rw [if_neg hc] at h
      have h1 := getRune_lt h
      split at h1
      · exact Nat.lt_succ_of_lt h1
      · exact h1

/-- The loop of `matchChunk` of the Go library over the ranges of a character class, for the rune `r`: whether one of them
holds it, and the pattern after the class; `none` is ErrBadPattern.  `n` counts the ranges.  Behind file_path.go:177. -/
def ranges (r : Nat) (n : Nat) (m : Bool) (chunk : Bytes) : Option (Bool × Bytes) :=
  if chunk.head? = some 93 ∧ 0 < n then some (m, chunk.tail)
  else
    match h : getEsc chunk with
    | none => none
    | some (lo, c1) =>
      if c1.head? = some 45 then
        match h' : getEsc c1.tail with
        | none => none
        | some (hi, c2) => ranges r (n + 1) (m || (decide (lo ≤ r) && decide (r ≤ hi))) c2
      else ranges r (n + 1) (m || (decide (lo ≤ r) && decide (r ≤ lo))) c1
termination_by chunk.length
decreasing_by
  · have h1 := getEsc_lt h
    have h2 := getEsc_lt h'
    rw [List.length_tail] at h2
    omega
  · exact getEsc_lt h

/-- The outcome of `matchChunk` of the Go library: ErrBadPattern, no match, or what is left of the name.  Behind
file_path.go:177. -/
inductive Res
  | bad
  | no
  | yes (rest : Bytes)
deriving DecidableEq, Repr

/-- `matchChunk` of the Go library.  The first argument bounds the number of steps: the length of the chunk suffices
(`matchChunk`).  Behind file_path.go:177. -/
def matchGo : Nat → Bytes → Bytes → Res
  | 0, _, s => .yes s
  | _ + 1, [], s => .yes s
  | _ + 1, _ :: _, [] => .no
  | k + 1, c :: cs, x :: s =>
    if c = 91 then
      let d := decodeRune (x :: s)
      if cs = [] then .bad
      else
        let neg := decide (cs.head? = some 94)
        match ranges d.1 0 false (if neg then cs.tail else cs) with
        | none => .bad
        | some (m, cs') => if m = neg then .no else matchGo k cs' ((x :: s).drop d.2)
    else if c = 63 then
      if x = 47 then .no else matchGo k cs ((x :: s).drop (decodeRune (x :: s)).2)
    else if c = 92 then
      match cs with
      | [] => .bad
      | c' :: cs' => if c' ≠ x then .no else matchGo k cs' s
    else if c ≠ x then .no else matchGo k cs s

/-- `matchChunk` of the Go library: whether the chunk, which has no star, matches the beginning of the name.  Behind
file_path.go:177. -/
def matchChunk (chunk s : Bytes) : Res := matchGo chunk.length chunk s

/-- The second loop of `scanChunk` of the Go library: the chunk goes up to the next star that is not in a class.  Behind
file_path.go:177. -/
def scan (inrange : Bool) : Bytes → Bytes × Bytes
  | [] => ([], [])
  | c :: cs =>
    if c = 92 then
      match cs with
      | [] => ([c], [])
      | b :: cs => (c :: b :: (scan inrange cs).1, (scan inrange cs).2)
    else if c = 91 then (c :: (scan true cs).1, (scan true cs).2)
    else if c = 93 then (c :: (scan false cs).1, (scan false cs).2)
    else if c = 42 ∧ inrange = false then ([], c :: cs)
    else (c :: (scan inrange cs).1, (scan inrange cs).2)

/-- `scanChunk` of the Go library: whether there are stars in front, the chunk after them, and the rest of the pattern.
Behind file_path.go:177. -/
def scanChunk (pattern : Bytes) : Bool × Bytes × Bytes :=
  let p := pattern.dropWhile (· = 42)
  (decide (p.length < pattern.length), (scan false p).1, (scan false p).2)

/-- The loop of `Match` of the Go library that looks for a match of the chunk further on in the name, not beyond a slash;
`last`: no pattern is left after the chunk.  Behind file_path.go:177. -/
def seek (chunk : Bytes) (last : Bool) : Bytes → Res
  | [] => .no
  | x :: s =>
    if x = 47 then .no
    else
      match matchChunk chunk s with
      | .yes t => if last = true ∧ t ≠ [] then seek chunk last s else .yes t
      | .bad => .bad
      | .no => seek chunk last s

theorem scan_length (b : Bool) (p : Bytes) : (scan b p).1.length + (scan b p).2.length = p.length := by
  induction h : p.length using Nat.strongRecOn generalizing b p with
  | _ n ih =>
    subst h
    cases p with
    | nil => rfl
    | cons c cs =>
      unfold scan
      split
      · cases cs with
        | nil => rfl
        | cons d cs =>
          have := ih cs.length (by simp only [List.length_cons]; omega) b cs rfl
          simp only [List.length_cons] at *
          omega
      · have h1 := ih cs.length (by simp) true cs rfl
        have h2 := ih cs.length (by simp) false cs rfl
        have h3 := ih cs.length (by simp) b cs rfl
        (repeat' split) <;> simp only [List.length_cons, List.length_nil] at * <;> omega

theorem scanChunk_lt {p : Bytes} (h : p ≠ []) : (scanChunk p).2.2.length < p.length := by
  unfold scanChunk
  simp only
  have h1 := scan_length false (p.dropWhile (· = 42))
  have h2 := (List.dropWhile_suffix (p := fun c : UInt8 => decide (c = 42)) (l := p)).length_le
  by_cases h3 : (p.dropWhile (· = 42)).length < p.length
  · omega
  · cases p with
    | nil => exact absurd rfl h
    | cons c cs =>
      by_cases hc : c = 42
      · exfalso
        rw [List.dropWhile_cons_of_pos (by simpa using hc)] at h3
        have := (List.dropWhile_suffix (p := fun c : UInt8 => decide (c = 42)) (l := cs)).length_le
        simp only [List.length_cons] at h3
        omega
      · rw [List.dropWhile_cons_of_neg (by simpa using hc)] at h1 ⊢
        suffices 0 < (scan false (c :: cs)).1.length by omega
        unfold scan
        (repeat' split) <;> simp_all

/-- `Match`, file_path.go:176-178: `bad` is ErrBadPattern, and the name matched if the outcome is `yes []`. -/
def matchPath (pattern name : Bytes) : Res :=
  if h : pattern = [] then (if name = [] then .yes [] else .no)
  else
    let star := (scanChunk pattern).1
    let chunk := (scanChunk pattern).2.1
    have := scanChunk_lt h
    if star = true ∧ chunk = [] then (if 47 ∈ name then .no else .yes [])
    else
      let last := decide ((scanChunk pattern).2.2 = [])
      match matchChunk chunk name with
      | .yes t =>
        if t = [] ∨ last = false then matchPath (scanChunk pattern).2.2 t
        else if star then
          match seek chunk last name with
          | .yes t => matchPath (scanChunk pattern).2.2 t
          | r => r
        else .no
      | .bad => .bad
      | .no =>
        if star then
          match seek chunk last name with
          | .yes t => matchPath (scanChunk pattern).2.2 t
          | r => r
        else .no
termination_by pattern.length

end Verif.Match
