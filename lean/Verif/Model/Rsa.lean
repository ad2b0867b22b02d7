import Verif.Model.Hash
/-!
# Model of `crypto/rsa/rsa.go`

The Go library packages `crypto/rsa`, `crypto/x509`, `encoding/pem` and `crypto` (registered hash functions) are a
parameter `Lib`, of which `Lib.Lawful` assumes the documented contract.  `(T, error)` is `Option T` (`none` is an error).
`rand.Reader` is a number that decides what is read from it.
-/

namespace Verif.Rsa

/-- The `[]byte` of rsa.go:48-101. -/
abbrev Bytes := List UInt8

/-- What rsa.go uses of the Go library.  A hash is its `crypto.Hash` number. -/
structure Lib where
  /-- `rsa.PrivateKey` -/
  Priv : Type
  /-- `rsa.PublicKey` -/
  Pub : Type
  /-- public keys of other kinds (`*ecdsa.PublicKey`, …) -/
  Other : Type
  /-- the field `PublicKey` of a private key -/
  pub : Priv → Pub
  /-- bytes of the modulus -/
  size : Pub → Nat
  /-- `pem.Decode`: the bytes of the first block -/
  pemDecode : Bytes → Option Bytes
  /-- `pem.Encode` of a block without headers (never fails when writing to memory) -/
  pemEncode : String → Bytes → Bytes
  parsePKCS1 : Bytes → Option Priv
  marshalPKCS1 : Priv → Bytes
  parsePKIX : Bytes → Option (Pub ⊕ Other)
  marshalPKIX : Pub → Option Bytes
  /-- `rsa.GenerateKey` -/
  generate : Nat → Int → Option Priv
  /-- `rsa.EncryptPKCS1v15` -/
  encrypt : Nat → Pub → Bytes → Option Bytes
  /-- `rsa.DecryptPKCS1v15` -/
  decrypt : Nat → Priv → Bytes → Option Bytes
  /-- `rsa.SignPKCS1v15` -/
  sign : Nat → Priv → Nat → Bytes → Option Bytes
  /-- `rsa.VerifyPKCS1v15`: `true` is no error -/
  verify : Pub → Nat → Bytes → Bytes → Bool
  /-- `crypto.Hash.New`: `none` if the hash function is not linked into the program, then `New` panics -/
  hash : Nat → Option Hash.Alg
  /-- length of the prefix naming the hash in a signature; `none` if signatures with this hash function are not defined -/
  prefixLen : Nat → Option Nat

/-- The contract of the library.  What rsa.go:22-101 needs of it. -/
structure Lib.Lawful (L : Lib) : Prop where
  pem : ∀ t b, t = "private key" ∨ t = "public key" → L.pemDecode (L.pemEncode t b) = some b
  pkcs1 : ∀ k, L.parsePKCS1 (L.marshalPKCS1 k) = some k
  pkix : ∀ k, ∃ b, L.marshalPKIX (L.pub k) = some b ∧ L.parsePKIX b = some (.inl (L.pub k))
  encrypt_ok : ∀ r k m, (L.encrypt r (L.pub k) m).isSome ↔ m.length + 11 ≤ L.size (L.pub k)
  decrypt_encrypt : ∀ r r' k m c, L.encrypt r (L.pub k) m = some c → L.decrypt r' k c = some m
  sign_ok : ∀ r k h A d, L.hash h = some A → d.length = A.size →
    ((L.sign r k h d).isSome ↔ ∃ l, L.prefixLen h = some l ∧ l + A.size + 11 ≤ L.size (L.pub k))
  verify_sign : ∀ r k h d s, L.sign r k h d = some s → L.verify (L.pub k) h d s = true
  verify_digest : ∀ k h d d' s, L.verify k h d s = true → L.verify k h d' s = true → d = d'

variable (L : Lib)

/-- `NewClient`, rsa.go:30-42: the type assertion in line 39 panics on other kinds of keys.  An `RsaClient` (44-46) is its
key. -/
def newClient (publicKey : Bytes) : Res (Option L.Pub) :=
  match L.pemDecode publicKey with
  | none => .ok none
  | some block =>
    match L.parsePKIX block with
    | none => .ok none
    | some (.inl pub) => .ok (some pub)
    | some (.inr _) => .panic

/-- `MustNewClient`, rsa.go:22-28. -/
def mustNewClient (publicKey : Bytes) : Res L.Pub :=
  match newClient L publicKey with
  | .ok (some c) => .ok c
  | _ => .panic

/-- `Encrypt`, rsa.go:48-50. -/
def encrypt (r : Nat) (c : L.Pub) (plaintext : Bytes) : Option Bytes := L.encrypt r c plaintext

/-- `Verify`, rsa.go:56-61. -/
def verify (c : L.Pub) (src sign : Bytes) (hash : Nat) : Res Bool :=
  match L.hash hash with
  | none => .panic
  | some A => .ok (L.verify c hash (A.sum (A.write A.init src)) sign)

/-- `crypto.SHA512`, rsa.go:14. -/
def defaultHash : Nat := 7

/-- `VerifyDefault`, rsa.go:52-54. -/
def verifyDefault (c : L.Pub) (src sign : Bytes) : Res Bool := verify L c src sign defaultHash

/-- `NewServer`, rsa.go:71-82.  An `RsaServer` (84-86) is its key. -/
def newServer (privateKey : Bytes) : Option L.Priv :=
  match L.pemDecode privateKey with
  | none => none
  | some block => L.parsePKCS1 block

/-- `MustNewServer`, rsa.go:63-69. -/
def mustNewServer (privateKey : Bytes) : Res L.Priv :=
  match newServer L privateKey with
  | some s => .ok s
  | none => .panic

/-- `Decrypt`, rsa.go:88-90. -/
def decrypt (r : Nat) (s : L.Priv) (ciphertext : Bytes) : Option Bytes := L.decrypt r s ciphertext

/-- `Sign`, rsa.go:96-101. -/
def sign (r : Nat) (s : L.Priv) (src : Bytes) (hash : Nat) : Res (Option Bytes) :=
  match L.hash hash with
  | none => .panic
  | some A => .ok (L.sign r s hash (A.sum (A.write A.init src)))

/-- `SignDefault`, rsa.go:92-94. -/
def signDefault (r : Nat) (s : L.Priv) (src : Bytes) : Res (Option Bytes) := sign L r s src defaultHash

/-- `GenRsaKeys`, rsa.go:103-142: the private and the public key.  As written the function does not compile (`return "", "",
err` where byte slices are returned); those returns are taken as returning the error. -/
def genRsaKeys (r : Nat) (bits : Int) : Option (Bytes × Bytes) :=
  match L.generate r bits with
  | none => none
  | some priKey =>
    let privateKey := L.pemEncode "private key" (L.marshalPKCS1 priKey)
    match L.marshalPKIX (L.pub priKey) with
    | none => none
    | some derPkix => some (privateKey, L.pemEncode "public key" derPkix)

end Verif.Rsa
