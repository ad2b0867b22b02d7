import Verif.Model.IniBytes
/-!
# What patterns for file names mean

The grammar and the meaning in the documentation of `filepath.Match`, on bytes.  A rune is what `utf8.DecodeRuneInString`
makes of bytes (written out for C141).  Independent of the model of `Match`.
-/

namespace Verif.Spec.Glob
open Verif.IniBytes (Bytes decodeRune)

/-- One element of a pattern. -/
inductive Tok
  | star
  | any
  | byte (b : UInt8)
  | cls (neg : Bool) (ranges : List (Nat × Nat))
deriving DecidableEq, Repr

/-- The bytes are the UTF-8 of the rune. -/
def Rune (w : Bytes) (r : Nat) : Prop := w ≠ [] ∧ decodeRune w = (r, w.length) ∧ ¬ (r = 0xFFFD ∧ w.length = 1)

/-- A character in a class: one that is not `-`, `]` or a backslash, or any after a backslash. -/
inductive Esc : Bytes → Nat → Prop
  | plain {w : Bytes} {r : Nat} : Rune w r → w.head? ≠ some 45 → w.head? ≠ some 93 → w.head? ≠ some 92 → Esc w r
  | quoted {w : Bytes} {r : Nat} : Rune w r → Esc (92 :: w) r

/-- The characters and ranges `lo-hi` of a class. -/
inductive Items : Bytes → List (Nat × Nat) → Prop
  | nil : Items [] []
  | single {w t : Bytes} {r : Nat} {rs : List (Nat × Nat)} : Esc w r → Items t rs → Items (w ++ t) ((r, r) :: rs)
  | range {w v t : Bytes} {lo hi : Nat} {rs : List (Nat × Nat)} : Esc w lo → Esc v hi → Items t rs →
    Items (w ++ 45 :: (v ++ t)) ((lo, hi) :: rs)

/-- The pattern is well formed and has these elements. -/
inductive Pattern : Bytes → List Tok → Prop
  | nil : Pattern [] []
  | star {t : Bytes} {ts : List Tok} : Pattern t ts → Pattern (42 :: t) (.star :: ts)
  | any {t : Bytes} {ts : List Tok} : Pattern t ts → Pattern (63 :: t) (.any :: ts)
  | quoted {b : UInt8} {t : Bytes} {ts : List Tok} : Pattern t ts → Pattern (92 :: b :: t) (.byte b :: ts)
  | plain {b : UInt8} {t : Bytes} {ts : List Tok} : b ≠ 42 → b ≠ 63 → b ≠ 91 → b ≠ 92 → Pattern t ts →
    Pattern (b :: t) (.byte b :: ts)
  | cls {w t : Bytes} {rs : List (Nat × Nat)} {ts : List Tok} : Items w rs → rs ≠ [] → w.head? ≠ some 94 → Pattern t ts →
    Pattern (91 :: (w ++ 93 :: t)) (.cls false rs :: ts)
  | ncls {w t : Bytes} {rs : List (Nat × Nat)} {ts : List Tok} : Items w rs → rs ≠ [] → Pattern t ts →
    Pattern (91 :: 94 :: (w ++ 93 :: t)) (.cls true rs :: ts)

/-- The rune is in one of the ranges. -/
def within (rs : List (Nat × Nat)) (r : Nat) : Bool := rs.any fun p => decide (p.1 ≤ r) && decide (r ≤ p.2)

/-- What an element other than a star takes from the front of a name. -/
def take1 : Tok → Bytes → Option Bytes
  | _, [] => none
  | .star, _ => none
  | .any, x :: s => if x = 47 then none else some ((x :: s).drop (decodeRune (x :: s)).2)
  | .byte b, x :: s => if b = x then some s else none
  | .cls neg rs, x :: s =>
    if within rs (decodeRune (x :: s)).1 = neg then none else some ((x :: s).drop (decodeRune (x :: s)).2)

/-- The name matches the pattern: a star takes any bytes without a slash. -/
inductive Matches : List Tok → Bytes → Prop
  | nil : Matches [] []
  | star {ts : List Tok} {w s : Bytes} : 47 ∉ w → Matches ts s → Matches (.star :: ts) (w ++ s)
  | one {k : Tok} {ts : List Tok} {s t : Bytes} : take1 k s = some t → Matches ts t → Matches (k :: ts) s

end Verif.Spec.Glob
