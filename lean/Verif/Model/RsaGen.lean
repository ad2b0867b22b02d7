import Verif.Model.RsaMath
import Mathlib.Data.Nat.Size
/-!
# Generating RSA keys

What `rsa.GenerateKey` of the Go library does for `GenRsaKeys` of crypto/rsa/rsa.go, written out from `crypto/rsa` and `crypto/rand`
(versions before Go 1.19 that check whether there are enough primes; later ones draw primes in other ways).  The random reader is a stream of bytes that never fails; the test of primes
(`big.Int.ProbablyPrime`) is a parameter.
-/

namespace Verif.Rsa

open Verif.Hash (ofBig)

/-- What a loop has come to after some rounds: it still runs, it returned an error, or it returned a value.  rsa.go:105. -/
inductive Run (α : Type) where
  | going
  | error
  | done (a : α)
deriving DecidableEq

/-- `smallPrimes` of crypto/rand, behind rsa.go:105. -/
def smallPrimes : List Nat := [3, 5, 7, 11, 13, 17, 19, 23, 29, 31, 37, 41, 43, 47, 53]

/-- `smallPrimesProduct` of crypto/rand, behind rsa.go:105. -/
def smallProduct : Nat := 16294579238595022365

/-- The first byte (and the second) of a candidate: `b` bits, the highest two of the candidate set.  `Prime` of crypto/rand, behind rsa.go:105. -/
def setTop (b : Nat) : Bytes → Bytes
  | [] => []
  | x :: r =>
    let x := x &&& UInt8.ofNat (2 ^ b - 1)
    if 2 ≤ b then (x ||| UInt8.ofNat (3 * 2 ^ (b - 2))) :: r
    else
      (x ||| 1) :: match r with
        | [] => []
        | y :: r => (y ||| 0x80) :: r

/-- The last byte of a candidate: odd.  `Prime` of crypto/rand, behind rsa.go:105. -/
def setLow : Bytes → Bytes
  | [] => []
  | [x] => [x ||| 1]
  | x :: y :: r => x :: setLow (y :: r)

/-- The candidate made of random bytes.  `Prime` of crypto/rand, behind rsa.go:105. -/
def candidate (bits : Nat) (bytes : Bytes) : Nat := ofBig (setLow (setTop (if bits % 8 = 0 then 8 else bits % 8) bytes))

/-- Whether no small prime divides the candidate plus `delta`, of which the remainder is known.  `Prime` of crypto/rand, behind rsa.go:105. -/
def sieve (bits mod delta : Nat) : Bool :=
  smallPrimes.all fun q => !((mod + delta) % q = 0 && (decide (6 < bits) || decide (mod + delta ≠ q)))

/-- The first `delta` that passes, of the next `n` even ones.  The loop `NextDelta` of crypto/rand, behind rsa.go:105.  The sum of the remainder
and `delta` is below 2^64. -/
def nextDelta (bits mod : Nat) : Nat → Nat → Option Nat
  | 0, _ => none
  | n + 1, delta => if sieve bits mod delta then some delta else nextDelta bits mod n (delta + 2)

/-- The number that is tested.  If no `delta` passes it is the candidate.  `Prime` of crypto/rand, behind rsa.go:105. -/
def tested (bits : Nat) (bytes : Bytes) : Nat :=
  let p := candidate bits bytes
  match nextDelta bits (p % smallProduct) (2 ^ 19) 0 with
  | some d => p + d
  | none => p

/-- Random bytes from a place of the stream.  `io.ReadFull`, behind rsa.go:105. -/
def readFull (stream : Nat → UInt8) (pos n : Nat) : Bytes := (List.range n).map fun i => stream (pos + i)

/-- `Prime` of crypto/rand, behind rsa.go:105: at most `fuel` rounds.  The prime and the place after the bytes that were read. -/
def randPrime (test : Nat → Bool) (stream : Nat → UInt8) (bits : Nat) : Nat → Nat → Run (Nat × Nat)
  | 0, _ => .going
  | fuel + 1, pos =>
    if bits < 2 then .error
    else
      let n := (bits + 7) / 8
      let p := tested bits (readFull stream pos n)
      if test p && p.size == bits then .done (p, pos + n) else randPrime test stream bits fuel (pos + n)

/-- The check that there are enough primes, in `GenerateMultiPrimeKey` behind rsa.go:105: for fewer than 64 bits, an estimate of the number of primes,
in floating point.  What comes out is in `C153_few`; for negative sizes the estimate is 0 or below. -/
def tooFew (bits : Int) : Bool := bits < 12

/-- `GenerateKey` behind rsa.go:105: at most `fuel` pairs of primes.  The inverse is taken to be the remainder that is not negative. -/
def genLoop (test : Nat → Bool) (stream : Nat → UInt8) (bits : Nat) : Nat → Nat → Run PrivKey
  | 0, _ => .going
  | fuel + 1, pos =>
    match randPrime test stream (bits / 2) (fuel + 1) pos with
    | .going => .going
    | .error => .error
    | .done (p, pos) =>
      match randPrime test stream (bits - p.size) (fuel + 1) pos with
      | .going => .going
      | .error => .error
      | .done (q, pos) =>
        if q = p then genLoop test stream bits fuel pos
        else
          let n := p * q
          let totient := (p - 1) * (q - 1)
          if n.size ≠ bits then genLoop test stream bits fuel pos
          else if Nat.gcd 65537 totient = 1 then .done ⟨n, 65537, modInverse 65537 totient, p, q⟩
          else genLoop test stream bits fuel pos

/-- `rsa.GenerateKey`, rsa.go:105. -/
def generateKey (test : Nat → Bool) (stream : Nat → UInt8) (fuel : Nat) (bits : Int) : Run PrivKey :=
  if tooFew bits then .error else genLoop test stream bits.toNat fuel 0

end Verif.Rsa
