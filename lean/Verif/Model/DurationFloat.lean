import Mathlib.Data.Int.Log
import Mathlib.Data.Rat.Floor
import Mathlib.Algebra.Order.Field.Rat
/-!
# Model of the `float64` methods of `time/duration.go`

A finite `float64` is represented by the rational number it is.  All numbers met here lie between 2^-50 and 2^63 in size
or are zero, so neither overflow nor subnormal numbers occur and only the rounding to 53 significant bits, ties to even,
is modelled.  `Seconds`, `Minutes` and `Hours` of the Go library are those of Go 1.10 and later.
-/

namespace Verif.DurationFloat

/-- The nearest whole number, ties to even.  Rounding of the operations at duration.go:44 and 49. -/
def rne (x : ℚ) : ℤ :=
  if x - ⌊x⌋ < 1 / 2 then ⌊x⌋
  else if 1 / 2 < x - ⌊x⌋ then ⌊x⌋ + 1
  else if ⌊x⌋ % 2 = 0 then ⌊x⌋ else ⌊x⌋ + 1

/-- The exponent of the last of 53 significant bits.  For duration.go:44 and 49. -/
def expo (q : ℚ) : ℤ := Int.log 2 |q| - 52

/-- The result of a `float64` operation whose exact result is `q`.  duration.go:44 and 49. -/
def rnd (q : ℚ) : ℚ := rne (q / 2 ^ expo q) * 2 ^ expo q

/-- `float64(n)` of an integer.  duration.go:44 and 49. -/
def toF (n : Int) : ℚ := rnd n

/-- `Day`, duration.go:22. -/
def day : Int := 86400000000000

/-- `Week`, duration.go:23. -/
def week : Int := 7 * day

/-- `Days`, duration.go:44-46. -/
def days (d : BitVec 64) : ℚ := rnd (toF d.toInt / toF day)

/-- `Weeks`, duration.go:49-51. -/
def weeks (d : BitVec 64) : ℚ := rnd (toF d.toInt / toF week)

/-- `Seconds`, `Minutes` and `Hours` of the Go library: the whole units and the rest of the (truncated) division are
converted one by one.  Called at duration.go:70, 75 and 80. -/
def std (unit : Int) (d : BitVec 64) : ℚ :=
  rnd (toF (d.toInt.tdiv unit) + rnd (toF (d.toInt.tmod unit) / toF unit))

/-- `Seconds`, duration.go:70-72. -/
def seconds (d : BitVec 64) : ℚ := std 1000000000 d

/-- `Minutes`, duration.go:75-77. -/
def minutes (d : BitVec 64) : ℚ := std 60000000000 d

/-- `Hours`, duration.go:80-82. -/
def hours (d : BitVec 64) : ℚ := std 3600000000000 d

end Verif.DurationFloat
