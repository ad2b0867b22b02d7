import Verif.Model.Crypto
/-!
# Base64

`encoding/base64` of the Go library with the standard alphabet and padding, which crypto/rsa/code.go calls, written out: the codec that
C51 leaves as a parameter.
-/

namespace Verif.Crypto

/-- The character of a value below 64.  RFC 4648, table 1; the library behind rsa/code.go:18 and 48. -/
def b64Char (n : Nat) : Char :=
  Char.ofNat (if n < 26 then 65 + n else if n < 52 then 71 + n else if n < 62 then n - 4 else if n = 62 then 43 else 47)

/-- The value of a character.  RFC 4648, table 1; the library behind rsa/code.go:22 and 52. -/
def b64Val (c : Char) : Option Nat :=
  let n := c.toNat
  if 65 ≤ n ∧ n ≤ 90 then some (n - 65)
  else if 97 ≤ n ∧ n ≤ 122 then some (n - 71)
  else if 48 ≤ n ∧ n ≤ 57 then some (n + 4)
  else if n = 43 then some 62
  else if n = 47 then some 63
  else none

/-- `EncodeToString`: three bytes become four characters.  Called at rsa/code.go:18 and 48. -/
def b64Enc : Bytes → List Char
  | a :: b :: c :: r =>
    let n := a.toNat * 65536 + b.toNat * 256 + c.toNat
    b64Char (n / 262144) :: b64Char (n / 4096 % 64) :: b64Char (n / 64 % 64) :: b64Char (n % 64) :: b64Enc r
  | [a, b] =>
    let n := a.toNat * 1024 + b.toNat * 4
    [b64Char (n / 4096), b64Char (n / 64 % 64), b64Char (n % 64), '=']
  | [a] =>
    let n := a.toNat * 16
    [b64Char (n / 64), b64Char (n % 64), '=', '=']
  | [] => []

/-- Decoding without line breaks: groups of four characters, the last one may be padded.  What the padded bits beyond the last byte are
does not matter.  The library behind rsa/code.go:22 and 52. -/
def b64Groups : List Char → Option Bytes
  | [] => some []
  | a :: b :: c :: d :: r => do
    let x ← b64Val a
    let y ← b64Val b
    if c = '=' then
      if d = '=' ∧ r = [] then some [UInt8.ofNat (x * 4 + y / 16)] else none
    else do
      let z ← b64Val c
      if d = '=' then
        if r = [] then some [UInt8.ofNat (x * 4 + y / 16), UInt8.ofNat (y % 16 * 16 + z / 4)] else none
      else do
        let w ← b64Val d
        let rest ← b64Groups r
        some (UInt8.ofNat (x * 4 + y / 16) :: UInt8.ofNat (y % 16 * 16 + z / 4) :: UInt8.ofNat (z % 4 * 64 + w) :: rest)
  | _ => none

/-- `DecodeString`: line breaks are skipped wherever they are.  Called at rsa/code.go:22 and 52. -/
def b64Dec (s : List Char) : Option Bytes := b64Groups (s.filter fun c => c ≠ '\n' ∧ c ≠ '\r')

end Verif.Crypto
