import Verif.Model.Rsa
import Verif.Model.Digests
import Mathlib.Data.Int.GCD
/-!
# RSA with PKCS #1 v1.5 padding

What `crypto/rsa` of the Go library computes for crypto/rsa/rsa.go, written out from RFC 8017 and the library: the arithmetic, the padding and
the prefixes of the hash functions.  Keys have two primes, as those of `GenRsaKeys`.  Blinding (which changes no result) is left out.
-/

namespace Verif.Rsa

open Verif.Hash (bigEndian ofBig)

/-- `rsa.PublicKey`, rsa.go:45. -/
structure PubKey where
  n : Nat
  e : Nat
deriving DecidableEq

/-- `rsa.PrivateKey`, rsa.go:85. -/
structure PrivKey where
  n : Nat
  e : Nat
  d : Nat
  p : Nat
  q : Nat
deriving DecidableEq

/-- The field `PublicKey`, rsa.go:124. -/
def PrivKey.pub (k : PrivKey) : PubKey := ⟨k.n, k.e⟩

/-- The number of bytes of a number.  `PublicKey.Size` behind rsa.go:49-100. -/
def byteLen (n : Nat) : Nat := if n = 0 then 0 else byteLen (n / 256) + 1

/-- `big.Int.Exp`: squaring and multiplying.  Behind rsa.go:49-100. -/
def powMod (b e n : Nat) : Nat :=
  if e = 0 then 1 % n else
    let h := powMod (b * b % n) (e / 2) n
    if e % 2 = 1 then b * h % n else h

/-- `big.Int.ModInverse`.  Behind rsa.go:76 and 105. -/
def modInverse (a n : Nat) : Nat := (Nat.gcdA a n % n).toNat

/-- `checkPub`: the public exponent is at least 2 and below 2^31.  Behind rsa.go:49-100. -/
def PubKey.check (k : PubKey) : Bool := 2 ≤ k.e && k.e < 2 ^ 31

/-- The private operation: the powers modulo the two primes, put together.  `decrypt` of the library behind rsa.go:89 and 100. -/
def PrivKey.op (k : PrivKey) (c : Nat) : Nat :=
  let m : Int := powMod c (k.d % (k.p - 1)) k.p
  let m2 : Int := powMod c (k.d % (k.q - 1)) k.q
  let m := m - m2
  let m := if m < 0 then m + k.p else m
  let m := m * modInverse k.q k.p % k.p
  (m * k.q + m2).toNat

/-- Random bytes that are not zero; `r` decides which.  `nonZeroRandomBytes` behind rsa.go:49. -/
def nonZero (r n : Nat) : Bytes := (List.range n).map fun i => UInt8.ofNat (1 + r / 255 ^ i % 255)

/-- `EncryptPKCS1v15`, rsa.go:49. -/
def encryptPKCS1 (r : Nat) (k : PubKey) (m : Bytes) : Option Bytes :=
  let size := byteLen k.n
  if k.check && m.length + 11 ≤ size then
    some (bigEndian size (powMod (ofBig (0 :: 2 :: (nonZero r (size - m.length - 3) ++ 0 :: m))) k.e k.n))
  else none

/-- The message in a padded block: 0, 2, at least eight bytes that are not zero, 0, the message.  `decryptPKCS1v15` behind rsa.go:89. -/
def unpad : Bytes → Option Bytes
  | 0 :: 2 :: l =>
    match l.dropWhile (· ≠ 0) with
    | [] => none
    | _ :: m => if 8 ≤ (l.takeWhile (· ≠ 0)).length then some m else none
  | _ => none

/-- `DecryptPKCS1v15`, rsa.go:89. -/
def decryptPKCS1 (k : PrivKey) (c : Bytes) : Option Bytes :=
  let size := byteLen k.n
  if k.pub.check && 11 ≤ size && ofBig c < k.n then unpad (bigEndian size (k.op (ofBig c))) else none

/-- The hash functions that are linked into a program with crypto/x509, by their numbers.  `crypto.Hash.New`, rsa.go:57 and 97. -/
def hashOf : Nat → Option Hash.Alg
  | 2 => some Hash.md5.alg
  | 3 => some Hash.sha1.alg
  | 4 => some Hash.sha224.alg
  | 5 => some Hash.sha256.alg
  | 6 => some Hash.sha384.alg
  | 7 => some Hash.sha512.alg
  | 14 => some Hash.sha512_224.alg
  | 15 => some Hash.sha512_256.alg
  | _ => none

/-- What names the hash function in a signature.  `hashPrefixes` behind rsa.go:60 and 100 (for functions that can be linked). -/
def hashPrefix : Nat → Option Bytes
  | 2 => some [0x30, 0x20, 0x30, 0x0c, 0x06, 0x08, 0x2a, 0x86, 0x48, 0x86, 0xf7, 0x0d, 0x02, 0x05, 0x05, 0x00, 0x04, 0x10]
  | 3 => some [0x30, 0x21, 0x30, 0x09, 0x06, 0x05, 0x2b, 0x0e, 0x03, 0x02, 0x1a, 0x05, 0x00, 0x04, 0x14]
  | 4 => some [0x30, 0x2d, 0x30, 0x0d, 0x06, 0x09, 0x60, 0x86, 0x48, 0x01, 0x65, 0x03, 0x04, 0x02, 0x04, 0x05, 0x00, 0x04, 0x1c]
  | 5 => some [0x30, 0x31, 0x30, 0x0d, 0x06, 0x09, 0x60, 0x86, 0x48, 0x01, 0x65, 0x03, 0x04, 0x02, 0x01, 0x05, 0x00, 0x04, 0x20]
  | 6 => some [0x30, 0x41, 0x30, 0x0d, 0x06, 0x09, 0x60, 0x86, 0x48, 0x01, 0x65, 0x03, 0x04, 0x02, 0x02, 0x05, 0x00, 0x04, 0x30]
  | 7 => some [0x30, 0x51, 0x30, 0x0d, 0x06, 0x09, 0x60, 0x86, 0x48, 0x01, 0x65, 0x03, 0x04, 0x02, 0x03, 0x05, 0x00, 0x04, 0x40]
  | _ => none

/-- The padded digest: 0, 1, bytes 0xff, 0, the prefix, the digest; an error if the hash function has no prefix, the digest has not its size or
the key is too short.  `pkcs1v15HashInfo` and `SignPKCS1v15` behind rsa.go:60 and 100. -/
def padDigest (size h : Nat) (d : Bytes) : Option Bytes :=
  match hashPrefix h, hashOf h with
  | some pre, some A =>
    if d.length = A.size ∧ pre.length + A.size + 11 ≤ size then
      some (0 :: 1 :: (List.replicate (size - (pre.length + A.size) - 3) 0xff ++ 0 :: (pre ++ d)))
    else none
  | _, _ => none

/-- `SignPKCS1v15`, rsa.go:100: the result is checked with the public key. -/
def signPKCS1 (k : PrivKey) (h : Nat) (d : Bytes) : Option Bytes :=
  match padDigest (byteLen k.n) h d with
  | none => none
  | some em =>
    let s := k.op (ofBig em)
    if powMod s k.e k.n = ofBig em then some (bigEndian (byteLen k.n) s) else none

/-- `VerifyPKCS1v15`, rsa.go:60.  Versions of Go up to 1.19 do not ask that the signature has the size of the key or is below it. -/
def verifyPKCS1 (k : PubKey) (h : Nat) (d s : Bytes) : Bool :=
  match padDigest (byteLen k.n) h d with
  | none => false
  | some em => s.length == byteLen k.n && ofBig s < k.n && bigEndian (byteLen k.n) (powMod (ofBig s) k.e k.n) == em

end Verif.Rsa
