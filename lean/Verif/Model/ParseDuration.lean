import Verif.Model.Duration
/-!
# Model of `ParseDuration` of `time/duration.go`

The function re-exports `time.ParseDuration` of the Go library (duration.go:83-87), which is written out here (Go 1.17
and later; earlier versions differ only for -2^63 nanoseconds).  Texts are lists of characters: the only characters the
parser looks for are signs, digits, the point and the names of units, and the bytes of other characters are none of the
first three.

The contribution of a fraction is computed by the library in floating point, `float64(f) * (float64(unit) / scale)`.  It
is a parameter here (`FracMul`) with the one law used: where the division has no remainder and the product is below 2^53,
floating point is exact.  `Model/ParseFraction.lean` writes the computation out; C109 is about it.
-/

namespace Verif.Duration

/-- The errors of `time.ParseDuration`.  Called at duration.go:85. -/
inductive PErr where
  /-- `time: invalid duration` -/
  | invalid
  /-- `time: missing unit in duration` -/
  | missing
  /-- `time: unknown unit` with the text of the unit -/
  | unknown (u : List Char)
deriving DecidableEq, Repr

/-- `uint64(float64(f) * (float64(unit) / scale))` of the Go library.  Behind duration.go:85. -/
structure FracMul where
  /-- the number of nanoseconds -/
  mul : (f unit scale : Nat) → Nat
  /-- exact where binary64 numbers are -/
  exact : ∀ f q k, 10 ^ k < 2 ^ 53 → q * 10 ^ k < 2 ^ 53 → f * q < 2 ^ 53 → mul f (q * 10 ^ k) (10 ^ k) = f * q

/-- A digit.  Part of the library behind duration.go:85. -/
def digit (c : Char) : Bool := decide ('0' ≤ c) && decide (c ≤ '9')

/-- `leadingInt` of the Go library: `none` is its overflow error; the second component is the rest.
Behind duration.go:85. -/
def leadingInt : List Char → Nat → Option (Nat × List Char)
  | [], x => some (x, [])
  | c :: s, x =>
    if digit c then
      if x > 2 ^ 63 / 10 then none
      else if x * 10 + (c.toNat - 48) > 2 ^ 63 then none
      else leadingInt s (x * 10 + (c.toNat - 48))
    else some (x, c :: s)

/-- `leadingFraction` of the Go library: the digits, the power of ten, the rest; digits after an overflow are skipped.
Behind duration.go:85. -/
def leadingFraction : List Char → (x scale : Nat) → (overflow : Bool) → Nat × Nat × List Char
  | [], x, scale, _ => (x, scale, [])
  | c :: s, x, scale, overflow =>
    if digit c then
      if overflow then leadingFraction s x scale true
      else if x > (2 ^ 63 - 1) / 10 then leadingFraction s x scale true
      else if x * 10 + (c.toNat - 48) > 2 ^ 63 then leadingFraction s x scale true
      else leadingFraction s (x * 10 + (c.toNat - 48)) (scale * 10) false
    else (x, scale, c :: s)

/-- `unitMap` of the Go library, in nanoseconds.  Behind duration.go:85. -/
def unitMap (u : List Char) : Option Nat :=
  if u = ['n', 's'] then some 1
  else if u = ['u', 's'] then some (10 ^ 3)
  else if u = ['µ', 's'] then some (10 ^ 3)
  else if u = ['μ', 's'] then some (10 ^ 3)
  else if u = ['m', 's'] then some (10 ^ 6)
  else if u = ['s'] then some (10 ^ 9)
  else if u = ['m'] then some (60 * 10 ^ 9)
  else if u = ['h'] then some (3600 * 10 ^ 9)
  else none

/-- A character of a unit: not a digit, not the point.  Part of the library behind duration.go:85. -/
def unitChar (c : Char) : Bool := !(c == '.' || digit c)

/-- One round of the loop of `time.ParseDuration`: a number and its unit; nanoseconds and the rest.
Behind duration.go:85. -/
def chunk (F : FracMul) (s : List Char) : Except PErr (Nat × List Char) :=
  match s with
  | [] => .error .invalid
  | c :: _ =>
    if !(c == '.' || digit c) then .error .invalid
    else
      match leadingInt s 0 with
      | none => .error .invalid
      | some (v, s1) =>
        let pre := decide (s.length ≠ s1.length)
        let (f, scale, s2, post) :=
          match s1 with
          | '.' :: t =>
            let (f, scale, r) := leadingFraction t 0 1 false
            (f, scale, r, decide (t.length ≠ r.length))
          | _ => (0, 1, s1, false)
        if !pre && !post then .error .invalid
        else
          let u := s2.takeWhile unitChar
          let rest := s2.dropWhile unitChar
          if u = [] then .error .missing
          else
            match unitMap u with
            | none => .error (.unknown u)
            | some unit =>
              if v > 2 ^ 63 / unit then .error .invalid
              else
                let v := v * unit
                let v := if f > 0 then v + F.mul f unit scale else v
                if f > 0 ∧ v > 2 ^ 63 then .error .invalid else .ok (v, rest)

/-- The loop of `time.ParseDuration`; every round consumes a character, so that the length of the text is enough fuel.
Behind duration.go:85. -/
def chunks (F : FracMul) : (fuel : Nat) → List Char → (d : Nat) → Except PErr Nat
  | _, [], d => .ok d
  | 0, _ :: _, _ => .error .invalid
  | fuel + 1, c :: s, d =>
    match chunk F (c :: s) with
    | .error e => .error e
    | .ok (v, rest) => if d + v > 2 ^ 63 then .error .invalid else chunks F fuel rest (d + v)

/-- `time.ParseDuration` behind the sign.  Behind duration.go:85. -/
def parseAbs (F : FracMul) (neg : Bool) (s : List Char) : Except PErr (BitVec 64) :=
  if s = ['0'] then .ok 0
  else if s = [] then .error .invalid
  else
    match chunks F s.length s 0 with
    | .error e => .error e
    | .ok d =>
      if neg then .ok (-(BitVec.ofNat 64 d))
      else if d > 2 ^ 63 - 1 then .error .invalid
      else .ok (BitVec.ofNat 64 d)

/-- `ParseDuration`, duration.go:84-87: `time.ParseDuration` of the Go library. -/
def parseDuration (F : FracMul) (s : List Char) : Except PErr (BitVec 64) :=
  match s with
  | '-' :: t => parseAbs F true t
  | '+' :: t => parseAbs F false t
  | _ => parseAbs F false s

/-- An instance of the floating point contribution: rounded down exactly.  Behind duration.go:85. -/
def FracMul.floor : FracMul where
  mul f unit scale := f * unit / scale
  exact f q k _ _ _ := by
    rw [← Nat.mul_assoc]
    exact Nat.mul_div_cancel _ (Nat.pow_pos (by decide))

end Verif.Duration
