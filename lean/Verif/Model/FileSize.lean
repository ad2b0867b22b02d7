import Verif.Model.Go
/-!
# Model of `fs/file_size.go`

`float64(me)` rounds to 53 significant bits (ties to even); dividing by a power of two below 2^61 is then exact, and
`%.3f` prints the multiple of 0.001 nearest to the result (ties to even).  Floats are represented by exact numbers.
-/

namespace Verif.FileSize

/-- `bytesNames`, file_size.go:10. -/
def bytesNames : List String := ["B", "KB", "MB", "GB", "TB", "PB", "EB"]

/-- The loop, file_size.go:18-23: `i` and `b`.  Runs to the end of the table at most. -/
def loop (m64 : BitVec 64) : (fuel i b : Nat) → Nat × Nat
  | 0, i, b => (i, b)
  | fuel + 1, i, b => if (m64 >>> b) < 1024#64 then (i, b) else loop m64 fuel (i + 1) (b + 10)

/-- `n / 2^k` rounded to the nearest whole number, ties to even.  The division and `%.3f` of file_size.go:25-26. -/
def roundShift (n k : Nat) : Nat :=
  let q := n / 2 ^ k
  let r := n % 2 ^ k
  if 2 * r < 2 ^ k then q
  else if 2 ^ k < 2 * r then q + 1
  else if q % 2 = 0 then q else q + 1

/-- `float64(me)`, file_size.go:25: the nearest number with 53 significant bits. -/
def toFloat (n : Nat) : Nat :=
  let k := n.log2 - 52
  roundShift n k * 2 ^ k

/-- `%.3f` of `n / 2^b`, in thousandths, file_size.go:26. -/
def thousandths (n b : Nat) : Nat := roundShift (n * 1000) b

/-- Three decimal digits.  `%.3f`, file_size.go:26. -/
def digits3 (n : Nat) : List Char := [Nat.digitChar (n / 100 % 10), Nat.digitChar (n / 10 % 10), Nat.digitChar (n % 10)]

/-- The whole part, the thousandths and the unit of `String`, file_size.go:16-27; indexing the table of names panics
behind its end. -/
def parts (me : BitVec 64) : Res (Nat × String) :=
  let (i, b) := loop me bytesNames.length 0 0
  match bytesNames[i]? with
  | none => .panic
  | some name => .ok (thousandths (toFloat me.toNat) b, name)

/-- `String`, file_size.go:16-27. -/
def string (me : BitVec 64) : Res (List Char) := do
  let (t, name) ← parts me
  return Nat.toDigits 10 (t / 1000) ++ ['.'] ++ digits3 (t % 1000) ++ name.toList

end Verif.FileSize
