import Verif.Model.PrimeData
import Verif.Model.Go
/-!
# Model of `math/prime/prime.go`, `math/uint64.go` and `math/bits_bytes.go`

`fmt.Sprintf` with `%d` is `Nat.toDigits 10`, with `%03d` the same padded with zeros to three characters.  Strings are
lists of characters.  Error values are `none`.
-/

namespace Verif.Prime

/-- The loop of `IsPrime`, prime.go:15-23, over the rest of the table. -/
def primeLoop (num max : Nat) : List Nat → Bool
  | [] => true
  | prime :: rest => if prime > max then true else if num % prime = 0 then false else primeLoop num max rest

/-- `IsPrime`, prime.go:3-25.  `num` is a `uint32`; only remainders and comparisons are taken, so natural numbers are
used.  The bound `max` is the constant 0 of line 14; the loop starts at index 2 of the table. -/
def isPrime (num : Nat) : Bool :=
  if num < 2 then false
  else if num = 2 ∨ num = 3 then true
  else
    let mod := num % 6
    if mod ≠ 1 ∧ mod ≠ 5 then false
    else
      let max := 0
      primeLoop num max (primes.drop 2)

/-- `step`, prime.go:27-35: new values of `*val` and `*sqrtVal`. -/
def step (shift : Nat) (val sqrtVal : BitVec 32) : BitVec 32 × BitVec 32 :=
  let magic := 0x40000000#32 >>> shift
  if magic + sqrtVal ≤ val then (val - (magic + sqrtVal), (sqrtVal >>> 1) ||| magic)
  else (val, sqrtVal >>> 1)

/-- The loop of prime.go:40-42, from `i` on; `i` runs in steps of 2 to 30. -/
def sqrtLoop (i : Nat) (val sqrtVal : BitVec 32) : BitVec 32 × BitVec 32 :=
  if i ≤ 30 then sqrtLoop (i + 2) (step i val sqrtVal).1 (step i val sqrtVal).2 else (val, sqrtVal)
termination_by 31 - i

/-- `SqrtUint32`, prime.go:38-49. -/
def sqrt (val : BitVec 32) : BitVec 32 :=
  let (val, sqrtVal) := sqrtLoop 0 val 0#32
  if sqrtVal < val then sqrtVal + 1#32 else sqrtVal

end Verif.Prime

namespace Verif.Comma

/-- `%d`.  uint64.go:18, range_uint32.go:126. -/
def dec (n : Nat) : List Char := Nat.toDigits 10 n

/-- `%03d`.  uint64.go:16. -/
def dec3 (n : Nat) : List Char := List.replicate (3 - (dec n).length) '0' ++ dec n

/-- The loop of `CommaString`, math/uint64.go:13-17, from `l` and `s`. -/
def commaLoop (l : Nat) (s : List Char) : Nat × List Char :=
  if l ≥ 1000 then
    let d := l % 1000
    commaLoop (l / 1000) ([','] ++ dec3 d ++ s)
  else (l, s)
termination_by l

/-- `Uint64.CommaString`, math/uint64.go:9-20.  No operation can overflow, so natural numbers are used. -/
def commaString (n : Nat) : List Char :=
  let (l, s) := commaLoop n []
  dec l ++ s

end Verif.Comma

namespace Verif.Bits

/-- `GetBit`, math/bits_bytes.go:18-24 (`_check_bit`, lines 7-9). -/
def getBit (val idx : BitVec 32) : Option (BitVec 32) :=
  if 0#32 ≤ idx ∧ idx < 32#32 then some ((val &&& (1#32 <<< idx)) >>> idx) else none

/-- `GetByte`, math/bits_bytes.go:25-32 (`_check_byte`, lines 10-13). -/
def getByte (val idx : BitVec 32) : Option (BitVec 32) :=
  if 0#32 ≤ idx ∧ idx < 4#32 then
    let bits := idx * 8#32
    some ((val &&& (0xFF#32 <<< bits)) >>> bits)
  else none

/-- `GetWord`, math/bits_bytes.go:33-40 (`_check_word`, lines 14-16). -/
def getWord (val idx : BitVec 32) : Option (BitVec 32) :=
  if 0#32 ≤ idx ∧ idx < 2#32 then
    let bits := idx * 16#32
    some ((val &&& (0xFFFF#32 <<< bits)) >>> bits)
  else none

end Verif.Bits
