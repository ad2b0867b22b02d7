import Verif.Model.FileSize

/-!
# Model of `math/float.go`

A `float64` is a whole multiple of 2^-1074 with at most 53 significant bits, below 2^1024 in size, or an infinity, or not
a number.  Finite numbers are represented by that multiple; the two zeros are not told apart, as no operation used here
does.  Subtraction is exact, then rounded to 53 significant bits with ties to even (`FileSize.toFloat`).
-/

namespace Verif.FloatEq

/-- A `float64`: `fin k` is `k * 2^-1074`.  The arguments of float.go:11. -/
inductive F64 where
  | fin (k : Int)
  | inf (neg : Bool)
  | nan
deriving DecidableEq, Repr

/-- The multiples of 2^-1074 that are finite floats: at most 53 significant bits and below 2^1024.
The arguments of float.go:11. -/
def Rep (k : Int) : Prop := ∃ (m : Int) (e : Nat), k = m * 2 ^ e ∧ m.natAbs < 2 ^ 53 ∧ k.natAbs < 2 ^ 2098

/-- Rounding a whole multiple of 2^-1074, with overflow to infinity.  The subtraction of float.go:11. -/
def round (d : Int) : F64 :=
  let r := FileSize.toFloat d.natAbs
  if 2 ^ 2098 ≤ r then .inf (decide (d < 0)) else .fin (if d < 0 then -(r : Int) else r)

/-- `a - b`, float.go:11. -/
def sub : F64 → F64 → F64
  | .fin a, .fin b => round (a - b)
  | .nan, _ => .nan
  | _, .nan => .nan
  | .inf s, .inf t => if s = t then .nan else .inf s
  | .inf s, .fin _ => .inf s
  | .fin _, .inf t => .inf (!t)

/-- `math.Abs`, float.go:11. -/
def abs : F64 → F64
  | .fin a => .fin a.natAbs
  | .inf _ => .inf false
  | .nan => .nan

/-- `<` on floats: never true when one side is not a number.  float.go:11. -/
def lt : F64 → F64 → Bool
  | .fin a, .fin b => decide (a < b)
  | .inf s, .fin _ => s
  | .fin _, .inf t => !t
  | .inf s, .inf t => s && !t
  | _, _ => false

/-- `Epslon`, float.go:7-9: the constant 0.000001 as a `float64`, which is 0x10C6F7A0B5ED8D * 2^-72. -/
def epslon : F64 := .fin (0x10C6F7A0B5ED8D * 2 ^ 1002)

/-- `Equal`, float.go:11. -/
def equal (a b : F64) : Bool := lt (abs (sub a b)) epslon

end Verif.FloatEq
