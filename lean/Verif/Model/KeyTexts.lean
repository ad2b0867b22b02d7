import Verif.Model.RsaMath
import Verif.Model.Base64
/-!
# Texts of RSA keys

What `encoding/pem`, `encoding/asn1` and `crypto/x509` of the Go library do for crypto/rsa/rsa.go, written out from RFC 7468, X.690,
RFC 8017 (PKCS #1), RFC 5280 (SubjectPublicKeyInfo) and the library.
-/

namespace Verif.Rsa

open Verif.Hash (bigEndian ofBig)

/-! ## PEM -/

/-- The bytes of a text.  rsa.go:111 and 129. -/
def bytesOf (s : List Char) : Bytes := s.map fun c => UInt8.ofNat c.toNat

/-- The characters of bytes.  Behind rsa.go:31 and 72. -/
def charsOf (l : Bytes) : List Char := l.map fun b => Char.ofNat b.toNat

/-- `pemStart` without the line break, `-----BEGIN `.  Behind rsa.go:31 and 72. -/
def pemBegin : Bytes := [45, 45, 45, 45, 45, 66, 69, 71, 73, 78, 32]

/-- `pemEnd` without the line break, `-----END `.  Behind rsa.go:31 and 72. -/
def pemEnd : Bytes := [45, 45, 45, 45, 45, 69, 78, 68, 32]

/-- `pemEndOfLine`.  Behind rsa.go:31 and 72. -/
def dashes : Bytes := [45, 45, 45, 45, 45]

/-- Lines of 64 characters, each followed by a line break.  `lineBreaker` behind rsa.go:116 and 133. -/
def breakLines (l : Bytes) : Bytes :=
  if l = [] then [] else l.take 64 ++ 10 :: breakLines (l.drop 64)
termination_by l.length
decreasing_by
  have : l.length ≠ 0 := by simp_all
  simp only [List.length_drop]
  omega

/-- `pem.Encode` of a block without headers.  rsa.go:116 and 133. -/
def pemText (t : String) (b : Bytes) : Bytes :=
  pemBegin ++ bytesOf t.toList ++ dashes ++ 10 :: breakLines (bytesOf (Crypto.b64Enc b)) ++ pemEnd ++ bytesOf t.toList ++ dashes ++ [10]

/-- `bytes.TrimRight(line, " \t")`.  Behind rsa.go:31 and 72. -/
def trimRight (l : Bytes) : Bytes := (l.reverse.dropWhile fun b => b = 32 ∨ b = 9).reverse

/-- The first line without the characters that end it and blanks before them, and the rest.  `getLine` behind rsa.go:31 and 72. -/
def getLine (l : Bytes) : Bytes × Bytes :=
  let line := l.takeWhile (· ≠ 10)
  let rest := (l.dropWhile (· ≠ 10)).drop 1
  let line := if 10 ∈ l ∧ line.getLast? = some 13 then line.dropLast else line
  (trimRight line, rest)

/-- What is before and what is after the first place of a text (`bytes.Index`).  Behind rsa.go:31 and 72. -/
def cut (pat : Bytes) : Bytes → Option (Bytes × Bytes)
  | [] => if pat = [] then some ([], []) else none
  | b :: r => if pat <+: b :: r then some ([], (b :: r).drop pat.length) else (cut pat r).map fun x => (b :: x.1, x.2)

/-- The loop over header lines, which have a colon: whether there are any, and the rest.  `none` if the text ends.  `Decode` behind
rsa.go:31 and 72.  The first argument bounds the number of lines. -/
def skipHeaders : Nat → Bytes → Option (Bool × Bytes)
  | 0, _ => none
  | f + 1, rest =>
    if rest = [] then none
    else if 58 ∈ (getLine rest).1 then (skipHeaders f (getLine rest).2).map fun x => (true, x.2)
    else some (false, rest)

/-- `removeSpacesAndTabs`.  Behind rsa.go:31 and 72. -/
def removeBlanks (l : Bytes) : Bytes := l.filter fun b => b ≠ 32 ∧ b ≠ 9

/-- `pem.Decode`, only the bytes of the block.  After a malformed block it looks for another one.  rsa.go:31 and 72.  The first argument
bounds the number of blocks. -/
def pemBlock : Nat → Bytes → Option Bytes
  | 0, _ => none
  | f + 1, data =>
    match if pemBegin <+: data then some (data.drop pemBegin.length) else (cut (10 :: pemBegin) data).map Prod.snd with
    | none => none
    | some rest =>
      let line := (getLine rest).1
      let rest := (getLine rest).2
      if dashes <:+ line then
        let type := line.take (line.length - dashes.length)
        match skipHeaders (rest.length + 1) rest with
        | none => none
        | some (headers, rest) =>
          match if !headers ∧ pemEnd <+: rest then some ([], rest.drop pemEnd.length) else cut (10 :: pemEnd) rest with
          | none => pemBlock f rest
          | some (body, trailer) =>
            let n := type.length + dashes.length
            if n ≤ trailer.length ∧ type <+: trailer.take n ∧ dashes <:+ trailer.take n ∧ (getLine (trailer.drop n)).1 = [] then
              match Crypto.b64Dec (charsOf (removeBlanks body)) with
              | some b => some b
              | none => pemBlock f rest
            else pemBlock f rest
      else pemBlock f rest

/-- `pem.Decode`.  rsa.go:31 and 72. -/
def pemRead (data : Bytes) : Option Bytes := pemBlock (data.length + 1) data

/-! ## DER -/

/-- The length of an element.  `appendLength` behind rsa.go:109 and 124. -/
def derLen (n : Nat) : Bytes := if n < 128 then [UInt8.ofNat n] else UInt8.ofNat (128 + byteLen n) :: bigEndian (byteLen n) n

/-- An element with its identifier.  `asn1.Marshal` behind rsa.go:109 and 124. -/
def der (tag : UInt8) (c : Bytes) : Bytes := tag :: (derLen c.length ++ c)

/-- The bytes of a number: as few as possible, the first one below 128.  `asn1.Marshal` behind rsa.go:109 and 124. -/
def intBytes (v : Nat) : Bytes :=
  match bigEndian (byteLen v) v with
  | [] => [0]
  | b :: r => if 128 ≤ b.toNat then 0 :: b :: r else b :: r

/-- `INTEGER`.  Behind rsa.go:109 and 124. -/
def derInt (v : Nat) : Bytes := der 2 (intBytes v)

/-- `1.2.840.113549.1.1.1`.  `oidPublicKeyRSA` behind rsa.go:35 and 124. -/
def rsaOid : Bytes := [0x2a, 0x86, 0x48, 0x86, 0xf7, 0x0d, 0x01, 0x01, 0x01]

/-- `MarshalPKCS1PrivateKey`, rsa.go:109. -/
def marshalPriv (k : PrivKey) : Bytes :=
  der 0x30 (derInt 0 ++ derInt k.n ++ derInt k.e ++ derInt k.d ++ derInt k.p ++ derInt k.q ++
    derInt (k.d % (k.p - 1)) ++ derInt (k.d % (k.q - 1)) ++ derInt (modInverse k.q k.p))

/-- `MarshalPKIXPublicKey`, rsa.go:124. -/
def marshalPub (k : PubKey) : Bytes :=
  der 0x30 (der 0x30 (der 6 rsaOid ++ [5, 0]) ++ der 3 (0 :: der 0x30 (derInt k.n ++ derInt k.e)))

/-- Reading a length: only the shortest form.  `parseTagAndLength` behind rsa.go:35 and 76.  The library also refuses lengths of 2^31 and more;
no text is that long. -/
def readLen : Bytes → Option (Nat × Bytes)
  | [] => none
  | b :: r =>
    if b.toNat < 128 then some (b.toNat, r)
    else
      let k := b.toNat - 128
      if k = 0 ∨ r.length < k then none
      else if (r.take k).head? = some 0 ∨ ofBig (r.take k) < 128 then none
      else some (ofBig (r.take k), r.drop k)

/-- Reading an element with a given identifier: the contents and what follows.  `parseField` behind rsa.go:35 and 76. -/
def readDer (tag : UInt8) : Bytes → Option (Bytes × Bytes)
  | [] => none
  | t :: r =>
    if t = tag then
      match readLen r with
      | none => none
      | some (n, r) => if n ≤ r.length then some (r.take n, r.drop n) else none
    else none

/-- The number in the contents of an `INTEGER`: two's complement, only the shortest form.  `checkInteger` and `parseBigInt` behind
rsa.go:35 and 76. -/
def intValue : Bytes → Option Int
  | [] => none
  | [a] => some (if 128 ≤ a.toNat then (a.toNat : Int) - 256 else a.toNat)
  | a :: b :: r =>
    if (a = 0 ∧ b.toNat < 128) ∨ (a = 255 ∧ 128 ≤ b.toNat) then none
    else some (if 128 ≤ a.toNat then (ofBig (a :: b :: r) : Int) - 256 ^ (r.length + 2) else ofBig (a :: b :: r))

/-- Reading an `INTEGER`.  Behind rsa.go:35 and 76. -/
def readInt (l : Bytes) : Option (Int × Bytes) :=
  match readDer 2 l with
  | none => none
  | some (c, r) => (intValue c).map fun v => (v, r)

/-- Reading an `INTEGER` into an `int`, at most eight bytes.  `parseInt64` behind rsa.go:35 and 76. -/
def readSmall (l : Bytes) : Option (Int × Bytes) :=
  match readDer 2 l with
  | none => none
  | some (c, r) => if c.length ≤ 8 then (intValue c).map fun v => (v, r) else none

/-- Reading an optional `INTEGER`.  Behind rsa.go:76. -/
def skipInt (l : Bytes) : Option Bytes := if l.head? = some 2 then (readInt l).map Prod.snd else some l

/-- `ParsePKCS1PrivateKey`, rsa.go:76, before the numbers are checked to be a key: elements after those that are known are ignored, the
version is 0 or below or 1, and numbers are positive.  Keys of more than two primes are left out. -/
def readPriv (l : Bytes) : Option PrivKey := do
  let (c, rest) ← readDer 0x30 l
  let (v, c) ← readSmall c
  let (n, c) ← readInt c
  let (e, c) ← readSmall c
  let (d, c) ← readInt c
  let (p, c) ← readInt c
  let (q, c) ← readInt c
  let c ← skipInt c
  let c ← skipInt c
  let c ← skipInt c
  if rest = [] ∧ c.head? ≠ some 0x30 ∧ v ≤ 1 ∧ 0 < n ∧ 0 < e ∧ 0 < d ∧ 0 < p ∧ 0 < q then
    some ⟨n.toNat, e.toNat, d.toNat, p.toNat, q.toNat⟩
  else none

/-- The bytes of a `BIT STRING`, the last bit of which ends the last byte.  `parseBitString` and `RightAlign` behind rsa.go:35. -/
def bitString : Bytes → Option Bytes
  | [] => none
  | u :: r =>
    if 7 < u.toNat ∨ (r = [] ∧ 0 < u.toNat) ∨ ofBig r % 2 ^ u.toNat ≠ 0 then none
    else some (bigEndian r.length (ofBig r / 2 ^ u.toNat))

/-- `ParsePKIXPublicKey`, rsa.go:35: RSA keys; `other` is what it does with texts that name another algorithm. -/
def readPub {Other : Type} (other : Bytes → Option Other) (l : Bytes) : Option (PubKey ⊕ Other) := do
  let (c, rest) ← readDer 0x30 l
  let (alg, c) ← readDer 0x30 c
  let (oid, params) ← readDer 6 alg
  let (bits, _) ← readDer 3 c
  let key ← bitString bits
  if rest = [] then
    if oid = rsaOid then do
      let (c, rest) ← readDer 0x30 key
      let (n, c) ← readInt c
      let (e, _) ← readSmall c
      if params.take 2 = [5, 0] ∧ rest = [] ∧ 0 < n ∧ 0 < e then some (.inl ⟨n.toNat, e.toNat⟩) else none
    else (other l).map .inr
  else none

end Verif.Rsa
