import Verif.Model.DurationFloat
/-!
# Model of the floating point part of `time.ParseDuration` (re-exported by `time/duration.go`)

`leadingFraction` of the Go library keeps the power of ten as a `float64`, `scale *= 10` for every digit, and the loop adds
`uint64(float64(f) * (float64(unit) / scale))`.  Floats are rational numbers rounded to 53 bits as in
`Model/DurationFloat.lean`.  That model has no largest number: beyond 308 digits the scale of the library becomes infinite
and the product zero, where here the product is below one; both give zero nanoseconds.  For the same reason numbers below
the smallest normal one do not matter.
-/

namespace Verif.Duration

open DurationFloat (rnd toF)

/-- `scale` of `leadingFraction` after `k` digits.  Behind duration.go:85. -/
def scale64 : Nat → ℚ
  | 0 => 1
  | k + 1 => rnd (scale64 k * 10)

/-- `float64(f) * (float64(unit) / scale)` after `k` digits.  Behind duration.go:85. -/
def product64 (f unit k : Nat) : ℚ := rnd (toF f * rnd (toF unit / scale64 k))

/-- `uint64(float64(f) * (float64(unit) / scale))`, where `scale` is the whole number `10 ^ k` of `leadingFraction`.
Behind duration.go:85. -/
def mul64 (f unit scale : Nat) : Nat := ⌊product64 f unit (Nat.log 10 scale)⌋.toNat

end Verif.Duration
