import Verif.Model.Go
/-!
# Model of `crypto/padding.go`, `crypto/ecb/ecb.go`, `crypto/aes/aes.go`, `crypto/rsa/code.go`

The block ciphers of the Go library (`crypto/des`, `crypto/aes`) are parameters of type `Cipher` here, of which only
what every block cipher guarantees is assumed (fixed block size, decryption inverts encryption and conversely).
`encoding/base64` is a parameter of type `Codec`.  Model/Des, Model/Aes and Model/Base64 write them out, and Lemmas/Ciphers
proves that they are such a `Cipher` and such a `Codec`.  `encoding/hex` and the CBC mode of
`crypto/cipher` are written out.  An error is `none`; byte slices are lists, nil and empty are not distinguished.
The hash functions of rsa/code.go:33-41 and 63-71 are in Model/SaltedHash, rsa/rsa.go is in Model/Rsa.
-/

namespace Verif.Crypto

/-- Byte strings.  The `[]byte` of crypto/padding.go, crypto/aes/aes.go and crypto/ecb/ecb.go. -/
abbrev Bytes := List UInt8

/-- A block cipher of the Go library: accepted key lengths, block size, the two functions, and what they guarantee.
`aes.NewCipher` and `des.NewTripleDESCipher` as used at aes.go:39-50, 72-83 and ecb.go:11-86. -/
structure Cipher where
  keyOk : Nat → Bool
  bs : Nat
  enc : Bytes → Bytes → Bytes
  dec : Bytes → Bytes → Bytes
  enc_len : ∀ k b, b.length = bs → (enc k b).length = bs
  dec_len : ∀ k b, b.length = bs → (dec k b).length = bs
  dec_enc : ∀ k b, b.length = bs → dec k (enc k b) = b
  enc_dec : ∀ k b, b.length = bs → enc k (dec k b) = b

/-- A text encoding of the Go library.  As used at rsa/code.go:13-31 and 43-61. -/
structure Codec where
  enc : Bytes → List Char
  dec : List Char → Option Bytes
  dec_enc : ∀ b, dec (enc b) = some b

/-! ## Padding -/

/-- `bytes.Repeat(b, n)` for one byte: panics for negative `n`.  padding.go:7 and 19. -/
def repeatByte (b : UInt8) (n : Int) : Res Bytes := if n < 0 then .panic else .ok (List.replicate n.toNat b)

/-- `blockSize - len(x)%blockSize`, padding.go:6, 18, aes.go:9: Go's remainder truncates and panics on zero. -/
def padLen (len : Nat) (blockSize : Int) : Res Int :=
  if blockSize = 0 then .panic else .ok (blockSize - Int.tmod len blockSize)

/-- `byte(padding)`.  padding.go:19, aes.go:13 and 23. -/
def toByte (n : Int) : UInt8 := UInt8.ofNat (n % 256).toNat

/-- `ZeroPadding`, padding.go:5-9. -/
def zeroPadding (data : Bytes) (blockSize : Int) : Res Bytes := do
  let padding ← padLen data.length blockSize
  let padtext ← repeatByte 0 padding
  return data ++ padtext

/-- `ZeroUnPadding`, padding.go:11-15: `bytes.TrimRightFunc` with the test for rune 0.  Only the byte 0 decodes to rune
0, so trailing zero bytes are removed. -/
def zeroUnPadding (data : Bytes) : Bytes := (data.reverse.dropWhile (· == 0)).reverse

/-- `PKCS5Padding`, padding.go:17-21. -/
def pkcs5Padding (data : Bytes) (blockSize : Int) : Res Bytes := do
  let padding ← padLen data.length blockSize
  let padtext ← repeatByte (toByte padding) padding
  return data ++ padtext

/-- `PKCS5UnPadding`, padding.go:23-28: index and slice expressions may panic. -/
def pkcs5UnPadding (data : Bytes) : Res Bytes :=
  match data.getLast? with
  | none => .panic
  | some b => if b.toNat ≤ data.length then .ok (data.take (data.length - b.toNat)) else .panic

/-- `PKCS7Padding`, aes.go:8-16; `PKCS7PaddingString`, aes.go:18-26, does the same for a string.  `make` panics for a
negative length, `buf[:len(b)]` panics when the buffer is shorter than the data. -/
def pkcs7Padding (b : Bytes) (blockSize : Int) : Res Bytes := do
  let size ← padLen b.length blockSize
  if (b.length : Int) + size < 0 then Res.panic
  else
    let n := ((b.length : Int) + size).toNat
    if n < b.length then Res.panic
    else
      let buf := b ++ List.replicate (n - b.length) 0
      .ok (buf.take b.length ++ List.replicate (n - b.length) (toByte size))

/-- `PKCS7Unpadding`, aes.go:28-31. -/
def pkcs7Unpadding (b : Bytes) : Res Bytes :=
  match b.getLast? with
  | none => .panic
  | some x => if x.toNat ≤ b.length then .ok (b.take (b.length - x.toNat)) else .panic

/-! ## Padding and the caller's memory -/

/-- A byte slice inside an array that belongs to the caller: the array, offset and length; the capacity reaches to the
end of the array.  The arguments of padding.go:5-27. -/
structure Slice where
  arr : Bytes
  off : Nat
  len : Nat
deriving DecidableEq

/-- The content of a slice.  padding.go:5-27. -/
def Slice.val (s : Slice) : Bytes := (s.arr.drop s.off).take s.len

/-- The outcome of an `append`: the content of the result and the caller's array afterwards.  padding.go:8 and 20. -/
structure Appended where
  val : Bytes
  caller : Bytes
deriving DecidableEq

/-- The bodies of `ZeroPadding` (padding.go:5-9, byte 0) and `PKCS5Padding` (lines 17-21, byte `byte(padding)`) with the
memory written out: `append(s, padtext...)` writes behind the slice when the capacity suffices and otherwise copies to
a new array. -/
def appendRepeat (s : Slice) (b : UInt8) (blockSize : Int) : Res Appended := do
  let padding ← padLen s.len blockSize
  let padtext ← repeatByte b padding
  if s.off + s.len + padtext.length ≤ s.arr.length then
    let arr := s.arr.take (s.off + s.len) ++ padtext ++ s.arr.drop (s.off + s.len + padtext.length)
    return ⟨Slice.val ⟨arr, s.off, s.len + padtext.length⟩, arr⟩
  else return ⟨s.val ++ padtext, s.arr⟩

/-! ## ECB and triple DES -/

/-- The loops of ecb.go:77-81 and 101-105 (numbered in the file itself): one block after the other. -/
def blocks (f : Bytes → Bytes) (bs : Nat) (l : Bytes) : Bytes :=
  if bs = 0 ∨ l = [] then [] else f (l.take bs) ++ blocks f bs (l.drop bs)
termination_by l.length
decreasing_by
  rename_i h
  have : l.length ≠ 0 := fun e => h (.inr (List.length_eq_zero_iff.1 e))
  simp only [List.length_drop]
  omega

/-- `encrypt`, ecb.go:63-83. -/
def encrypt (C : Cipher) (data key : Bytes) : Option Bytes :=
  if data.length < 1 ∨ key.length < 1 then none
  else if C.keyOk key.length = false then none
  else if data.length % C.bs ≠ 0 then none
  else some (blocks (C.enc key) C.bs data)

/-- `decrypt`, ecb.go:86-108. -/
def decrypt (C : Cipher) (data key : Bytes) : Option Bytes :=
  if data.length < 1 ∨ key.length < 1 then none
  else if C.keyOk key.length = false then none
  else if data.length % C.bs ≠ 0 then none
  else some (blocks (C.dec key) C.bs data)

/-- ecb.go:12-13, 41-42: `make([]byte, 24)` and `copy`. -/
def tkey (key : Bytes) : Bytes := key.take 24 ++ List.replicate (24 - key.length) 0

/-- `TripleDesEncrypt`, ecb.go:11-37. -/
def tripleEncrypt (C : Cipher) (data key : Bytes) : Res (Option Bytes) :=
  let k1 := (tkey key).take 8
  let k2 := ((tkey key).take 16).drop 8
  let k3 := (tkey key).drop 16
  if C.keyOk k1.length = false then .ok none
  else do
    let data ← zeroPadding data C.bs
    return do
      let buf1 ← encrypt C data k1
      let buf2 ← decrypt C buf1 k2
      encrypt C buf2 k3

/-- `TripleDesDecrypt`, ecb.go:40-60. -/
def tripleDecrypt (C : Cipher) (crypted key : Bytes) : Option Bytes := do
  let k1 := (tkey key).take 8
  let k2 := ((tkey key).take 16).drop 8
  let k3 := (tkey key).drop 16
  let buf1 ← decrypt C crypted k3
  let buf2 ← encrypt C buf1 k2
  let out ← decrypt C buf2 k1
  return zeroUnPadding out

/-! ## AES in CBC mode -/

/-- Bytewise exclusive or.  Part of the library behind aes.go:55. -/
def xor (a b : Bytes) : Bytes := List.zipWith (· ^^^ ·) a b

/-- `CryptBlocks` of a CBC encrypter (crypto/cipher): result and the new chaining value.
Called at aes.go:55 and 62. -/
def cbcEnc (C : Cipher) (key iv l : Bytes) : Bytes × Bytes :=
  if C.bs = 0 ∨ l = [] then ([], iv)
  else
    let c := C.enc key (xor (l.take C.bs) iv)
    let r := cbcEnc C key c (l.drop C.bs)
    (c ++ r.1, r.2)
termination_by l.length
decreasing_by
  rename_i h
  have : l.length ≠ 0 := fun e => h (.inr (List.length_eq_zero_iff.1 e))
  simp only [List.length_drop]
  omega

/-- `CryptBlocks` of a CBC decrypter.  Called at aes.go:87. -/
def cbcDec (C : Cipher) (key iv l : Bytes) : Bytes × Bytes :=
  if C.bs = 0 ∨ l = [] then ([], iv)
  else
    let p := xor (C.dec key (l.take C.bs)) iv
    let r := cbcDec C key (l.take C.bs) (l.drop C.bs)
    (p ++ r.1, r.2)
termination_by l.length
decreasing_by
  rename_i h
  have : l.length ≠ 0 := fun e => h (.inr (List.length_eq_zero_iff.1 e))
  simp only [List.length_drop]
  omega

/-- `AESEncrypter`, aes.go:33-36, and `AESDecrypter`, aes.go:66-69: key and chaining value. -/
structure Mode where
  key : Bytes
  iv : Bytes

/-- `NewAESEncrypter`, aes.go:39-50; `NewAESDecrypter`, aes.go:72-83, is the same.  `key[:blockSize]` panics when the
key is shorter than a block; the accepted keys are not. -/
def newMode (C : Cipher) (key : Bytes) : Res (Option Mode) :=
  if C.keyOk key.length = false then .ok none
  else if key.length < C.bs then .panic
  else .ok (some ⟨key, key.take C.bs⟩)

/-- `AESEncrypter.Encrypt`, aes.go:52-57, and `EncryptString`, aes.go:59-64.  `CryptBlocks` panics when the length is
not a multiple of the block size. -/
def aesEncrypt (C : Cipher) (m : Mode) (b : Bytes) : Res (Mode × Bytes) := do
  let padded ← pkcs7Padding b C.bs
  if padded.length % C.bs ≠ 0 then Res.panic
  else
    let r := cbcEnc C m.key m.iv padded
    .ok (⟨m.key, r.2⟩, r.1)

/-- `AESDecrypter.Decrypt`, aes.go:85-89, and `DecryptToString`, aes.go:91-93. -/
def aesDecrypt (C : Cipher) (m : Mode) (b : Bytes) : Res (Mode × Bytes) :=
  if b.length % C.bs ≠ 0 then .panic
  else do
    let r := cbcDec C m.key m.iv b
    let out ← pkcs7Unpadding r.1
    return (⟨m.key, r.2⟩, out)

/-- A stream of messages through one encrypter.  Repeated calls of aes.go:52-57. -/
def encryptAll (C : Cipher) (m : Mode) : List Bytes → Res (Mode × List Bytes)
  | [] => .ok (m, [])
  | b :: bs => do
    let (m', c) ← aesEncrypt C m b
    let (m'', cs) ← encryptAll C m' bs
    return (m'', c :: cs)

/-- A stream of ciphertexts through one decrypter.  Repeated calls of aes.go:85-89. -/
def decryptAll (C : Cipher) (m : Mode) : List Bytes → Res (Mode × List Bytes)
  | [] => .ok (m, [])
  | b :: bs => do
    let (m', c) ← aesDecrypt C m b
    let (m'', cs) ← decryptAll C m' bs
    return (m'', c :: cs)

/-! ## Text encoding -/

/-- `key`, rsa/code.go:11: the bytes of "ac643718-9730-e711-59210". -/
def codeKey : Bytes := [97, 99, 54, 52, 51, 55, 49, 56, 45, 57, 55, 51, 48, 45, 101, 55, 49, 49, 45, 53, 57, 50, 49, 48]

/-- `Encode`, rsa/code.go:13-19; `EncodeString`, lines 43-49, is the same. -/
def encode (C : Cipher) (B : Codec) (src : Bytes) : Res (List Char) := do
  match ← tripleEncrypt C src codeKey with
  | none => return []
  | some bin => return B.enc bin

/-- `Decode`, rsa/code.go:21-31; `DecodeString`, lines 51-61, is the same. -/
def decode (C : Cipher) (B : Codec) (src : List Char) : Bytes :=
  match B.dec src with
  | none => []
  | some c =>
    match tripleDecrypt C c codeKey with
    | none => []
    | some content => content

/-- One hexadecimal digit, lower case (encoding/hex).  rsa/code.go:80. -/
def hexDigit (n : Nat) : Char := Char.ofNat (if n < 10 then 48 + n else 87 + n)

/-- The value of a hexadecimal digit (encoding/hex).  rsa/code.go:74. -/
def hexVal (c : Char) : Option Nat :=
  let n := c.toNat
  if 48 ≤ n ∧ n ≤ 57 then some (n - 48)
  else if 97 ≤ n ∧ n ≤ 102 then some (n - 87)
  else if 65 ≤ n ∧ n ≤ 70 then some (n - 55)
  else none

/-- `BytesToHexString`, rsa/code.go:79-81: `hex.EncodeToString`. -/
def toHex (b : Bytes) : List Char := b.flatMap fun x => [hexDigit (x.toNat / 16), hexDigit (x.toNat % 16)]

/-- `hex.DecodeString`: an error for an odd length or a character that is no digit.  rsa/code.go:74. -/
def hexDecode : List Char → Option Bytes
  | [] => some []
  | [_] => none
  | a :: b :: r => do
    let x ← hexVal a
    let y ← hexVal b
    let rest ← hexDecode r
    return UInt8.ofNat (16 * x + y) :: rest

/-- `HexStringToBytes`, rsa/code.go:73-78. -/
def ofHex (s : List Char) : Bytes :=
  match hexDecode s with
  | some b => b
  | none => []

end Verif.Crypto
