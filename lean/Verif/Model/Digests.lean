import Verif.Model.Hash
/-!
# The hash functions of the Go library

`crypto/md5`, `crypto/sha1`, `crypto/sha256`, `crypto/sha512`, `hash/crc32` and `hash/crc64`, which hash/hash.go makes, written out: the
functions that C52, C60, C91, C112 and C114 leave as parameters.  The library copies whole blocks where it can; here every byte goes through
the buffer.
-/

namespace Verif.Hash

/-! ## Functions that work block by block -/

/-- What MD5, SHA-1, SHA-256 and SHA-512 have in common: a state, which one block at a time changes.  Behind hash.go:35-42. -/
structure Scheme where
  H : Type
  iv : H
  block : Nat
  compress : H → Bytes → H
  /-- the bytes that the length in bits takes up, and how it is written. -/
  lenSize : Nat
  lenBytes : Nat → Bytes
  out : H → Bytes
  size : Nat
  block_pos : lenSize < block
  len_len : ∀ n, (lenBytes n).length = lenSize
  out_len : ∀ h, (out h).length = size

/-- `digest` of the library: state, buffer, number of bytes so far.  Behind hash.go:35-42. -/
structure Digest (F : Scheme) where
  h : F.H
  x : Bytes
  len : Nat

/-- One byte: a full buffer is put into the state.  `Write` of the digests behind hash.go:35-42. -/
def Digest.byte {F : Scheme} (d : Digest F) (b : UInt8) : Digest F :=
  if d.x.length + 1 = F.block then ⟨F.compress d.h (d.x ++ [b]), [], d.len + 1⟩ else ⟨d.h, d.x ++ [b], d.len + 1⟩

/-- `Write` of the digests behind hash.go:35-42. -/
def Digest.write {F : Scheme} (d : Digest F) (p : Bytes) : Digest F := p.foldl Digest.byte d

/-- The padding for a content of `n` bytes: 0x80, zero bytes as needed, and the length in bits.  `checkSum` of the digests behind
hash.go:35-42; the library counts the bytes with 64 bits. -/
def Scheme.padding (F : Scheme) (n : Nat) : Bytes :=
  let room := F.block - F.lenSize
  let k := if n % F.block < room then room - n % F.block else F.block + room - n % F.block
  0x80 :: (List.replicate (k - 1) 0 ++ F.lenBytes (n % 2 ^ 64 * 8))

/-- `Sum` of the digests behind hash.go:35-42: works on a copy. -/
def Digest.sum {F : Scheme} (d : Digest F) : Bytes := F.out (d.write (F.padding d.len)).h

/-- The hash function as an object of the library.  Made at hash.go:35-42. -/
def Scheme.alg (F : Scheme) : Alg where
  State := Digest F
  init := ⟨F.iv, [], 0⟩
  write := Digest.write
  sum := Digest.sum
  size := F.size
  write_nil := fun _ => rfl
  write_append := fun _ _ _ => List.foldl_append ..
  sum_length := fun _ => F.out_len _

/-- `n` bytes of a number, the lowest first.  MD5, behind hash.go:36. -/
def littleEndian (n v : Nat) : Bytes := (List.range n).map fun i => UInt8.ofNat (v / 256 ^ i)

/-- `n` bytes of a number, the highest first.  SHA and CRC, behind hash.go:38-46. -/
def bigEndian (n v : Nat) : Bytes := (List.range n).map fun i => UInt8.ofNat (v / 256 ^ (n - 1 - i))

/-- The number of bytes with the lowest first.  MD5, behind hash.go:36. -/
def ofLittle (l : Bytes) : Nat := l.foldr (fun b n => b.toNat + 256 * n) 0

/-- The number of bytes with the highest first.  SHA, behind hash.go:38-42. -/
def ofBig (l : Bytes) : Nat := l.foldl (fun n b => 256 * n + b.toNat) 0

/-- The words of a block.  Behind hash.go:35-42. -/
def words (n : Nat) (l : Bytes) : List Bytes := (List.range (l.length / n)).map fun i => (l.drop (n * i)).take n

/-- A rotation of 32 bits to the left.  Behind hash.go:35-40. -/
def rotl (x : UInt32) (n : Nat) : UInt32 := (x <<< UInt32.ofNat n) ||| (x >>> UInt32.ofNat (32 - n))

/-- A rotation of 64 bits to the right.  SHA-512, behind hash.go:42. -/
def rotr64 (x : UInt64) (n : Nat) : UInt64 := (x >>> UInt64.ofNat n) ||| (x <<< UInt64.ofNat (64 - n))

/-! ## MD5 (RFC 1321) -/

/-- The constants: 2^32 times the absolute values of sines.  RFC 1321, section 3.4; behind hash.go:36. -/
def md5K : List UInt32 :=
  [0xd76aa478, 0xe8c7b756, 0x242070db, 0xc1bdceee, 0xf57c0faf, 0x4787c62a, 0xa8304613, 0xfd469501, 0x698098d8, 0x8b44f7af, 0xffff5bb1, 0x895cd7be,
   0x6b901122, 0xfd987193, 0xa679438e, 0x49b40821, 0xf61e2562, 0xc040b340, 0x265e5a51, 0xe9b6c7aa, 0xd62f105d, 0x02441453, 0xd8a1e681, 0xe7d3fbc8,
   0x21e1cde6, 0xc33707d6, 0xf4d50d87, 0x455a14ed, 0xa9e3e905, 0xfcefa3f8, 0x676f02d9, 0x8d2a4c8a, 0xfffa3942, 0x8771f681, 0x6d9d6122, 0xfde5380c,
   0xa4beea44, 0x4bdecfa9, 0xf6bb4b60, 0xbebfbc70, 0x289b7ec6, 0xeaa127fa, 0xd4ef3085, 0x04881d05, 0xd9d4d039, 0xe6db99e5, 0x1fa27cf8, 0xc4ac5665,
   0xf4292244, 0x432aff97, 0xab9423a7, 0xfc93a039, 0x655b59c3, 0x8f0ccc92, 0xffeff47d, 0x85845dd1, 0x6fa87e4f, 0xfe2ce6e0, 0xa3014314, 0x4e0811a1,
   0xf7537e82, 0xbd3af235, 0x2ad7d2bb, 0xeb86d391]

/-- How far to rotate.  RFC 1321, section 3.4; behind hash.go:36. -/
def md5S (i : Nat) : Nat :=
  ([[7, 12, 17, 22], [5, 9, 14, 20], [4, 11, 16, 23], [6, 10, 15, 21]].getD (i / 16) []).getD (i % 4) 0

/-- Four words.  Behind hash.go:36. -/
structure H4 where
  (a b c d : UInt32)

/-- One of the 64 steps.  RFC 1321, section 3.4; behind hash.go:36. -/
def md5Step (m : List UInt32) (s : H4) (i : Nat) : H4 :=
  let (f, g) :=
    if i < 16 then ((s.b &&& s.c) ||| (~~~s.b &&& s.d), i)
    else if i < 32 then ((s.b &&& s.d) ||| (s.c &&& ~~~s.d), (5 * i + 1) % 16)
    else if i < 48 then (s.b ^^^ s.c ^^^ s.d, (3 * i + 5) % 16)
    else (s.c ^^^ (s.b ||| ~~~s.d), (7 * i) % 16)
  ⟨s.d, s.b + rotl (s.a + f + md5K.getD i 0 + m.getD g 0) (md5S i), s.b, s.c⟩

/-- A block.  RFC 1321, section 3.4; behind hash.go:36. -/
def md5Compress (h : H4) (b : Bytes) : H4 :=
  let m := (words 4 b).map fun w => UInt32.ofNat (ofLittle w)
  let s := (List.range 64).foldl (md5Step m) h
  ⟨h.a + s.a, h.b + s.b, h.c + s.c, h.d + s.d⟩

/-- MD5.  `md5.New`, hash.go:36. -/
def md5 : Scheme where
  H := H4
  iv := ⟨0x67452301, 0xefcdab89, 0x98badcfe, 0x10325476⟩
  block := 64
  compress := md5Compress
  lenSize := 8
  lenBytes := littleEndian 8
  out := fun h => littleEndian 4 h.a.toNat ++ littleEndian 4 h.b.toNat ++ littleEndian 4 h.c.toNat ++ littleEndian 4 h.d.toNat
  size := 16
  block_pos := by decide
  len_len := fun _ => by simp [littleEndian]
  out_len := fun _ => by simp [littleEndian]

/-! ## SHA-1 (FIPS 180-4) -/

/-- Five words.  Behind hash.go:38. -/
structure H5 where
  (a b c d e : UInt32)

/-- The 80 words of a block, the latest first.  FIPS 180-4, section 6.1.2; behind hash.go:38. -/
def sha1Words (b : Bytes) : List UInt32 :=
  Nat.repeat (fun w => rotl (w.getD 2 0 ^^^ w.getD 7 0 ^^^ w.getD 13 0 ^^^ w.getD 15 0) 1 :: w) 64
    ((words 4 b).map fun w => UInt32.ofNat (ofBig w)).reverse

/-- One of the 80 steps.  FIPS 180-4, section 6.1.2; behind hash.go:38. -/
def sha1Step (s : H5) (t : Nat × UInt32) : H5 :=
  let (f, k) :=
    if t.1 < 20 then ((s.b &&& s.c) ^^^ (~~~s.b &&& s.d), 0x5a827999)
    else if t.1 < 40 then (s.b ^^^ s.c ^^^ s.d, 0x6ed9eba1)
    else if t.1 < 60 then ((s.b &&& s.c) ^^^ (s.b &&& s.d) ^^^ (s.c &&& s.d), 0x8f1bbcdc)
    else (s.b ^^^ s.c ^^^ s.d, 0xca62c1d6)
  ⟨rotl s.a 5 + f + s.e + k + t.2, s.a, rotl s.b 30, s.c, s.d⟩

/-- A block.  FIPS 180-4, section 6.1.2; behind hash.go:38. -/
def sha1Compress (h : H5) (b : Bytes) : H5 :=
  let s := ((List.range 80).zip (sha1Words b).reverse).foldl sha1Step h
  ⟨h.a + s.a, h.b + s.b, h.c + s.c, h.d + s.d, h.e + s.e⟩

/-- SHA-1.  `sha1.New`, hash.go:38. -/
def sha1 : Scheme where
  H := H5
  iv := ⟨0x67452301, 0xefcdab89, 0x98badcfe, 0x10325476, 0xc3d2e1f0⟩
  block := 64
  compress := sha1Compress
  lenSize := 8
  lenBytes := bigEndian 8
  out := fun h => [h.a, h.b, h.c, h.d, h.e].flatMap fun w => bigEndian 4 w.toNat
  size := 20
  block_pos := by decide
  len_len := fun _ => by simp [bigEndian]
  out_len := fun _ => by simp [bigEndian]

/-! ## SHA-256 (FIPS 180-4) -/

/-- Eight words.  Behind hash.go:40 and 42. -/
structure H8 (α : Type) where
  (a b c d e f g h : α)

/-- The constants.  FIPS 180-4, section 4.2.2; behind hash.go:40. -/
def sha256K : List UInt32 :=
  [0x428a2f98, 0x71374491, 0xb5c0fbcf, 0xe9b5dba5, 0x3956c25b, 0x59f111f1, 0x923f82a4, 0xab1c5ed5, 0xd807aa98, 0x12835b01, 0x243185be, 0x550c7dc3,
   0x72be5d74, 0x80deb1fe, 0x9bdc06a7, 0xc19bf174, 0xe49b69c1, 0xefbe4786, 0x0fc19dc6, 0x240ca1cc, 0x2de92c6f, 0x4a7484aa, 0x5cb0a9dc, 0x76f988da,
   0x983e5152, 0xa831c66d, 0xb00327c8, 0xbf597fc7, 0xc6e00bf3, 0xd5a79147, 0x06ca6351, 0x14292967, 0x27b70a85, 0x2e1b2138, 0x4d2c6dfc, 0x53380d13,
   0x650a7354, 0x766a0abb, 0x81c2c92e, 0x92722c85, 0xa2bfe8a1, 0xa81a664b, 0xc24b8b70, 0xc76c51a3, 0xd192e819, 0xd6990624, 0xf40e3585, 0x106aa070,
   0x19a4c116, 0x1e376c08, 0x2748774c, 0x34b0bcb5, 0x391c0cb3, 0x4ed8aa4a, 0x5b9cca4f, 0x682e6ff3, 0x748f82ee, 0x78a5636f, 0x84c87814, 0x8cc70208,
   0x90befffa, 0xa4506ceb, 0xbef9a3f7, 0xc67178f2]

/-- The initial values.  FIPS 180-4, section 5.3.3; behind hash.go:40. -/
def sha256I : List UInt32 :=
  [0x6a09e667, 0xbb67ae85, 0x3c6ef372, 0xa54ff53a, 0x510e527f, 0x9b05688c, 0x1f83d9ab, 0x5be0cd19]

/-- The 64 words of a block, the latest first.  FIPS 180-4, section 6.2.2; behind hash.go:40. -/
def sha256Words (b : Bytes) : List UInt32 :=
  Nat.repeat (fun w =>
    let x := w.getD 1 0
    let y := w.getD 14 0
    ((rotl x 15 ^^^ rotl x 13 ^^^ (x >>> 10)) + w.getD 6 0 + (rotl y 25 ^^^ rotl y 14 ^^^ (y >>> 3)) + w.getD 15 0) :: w) 48
    ((words 4 b).map fun w => UInt32.ofNat (ofBig w)).reverse

/-- One of the 64 steps.  FIPS 180-4, section 6.2.2; behind hash.go:40. -/
def sha256Step (s : H8 UInt32) (t : UInt32 × UInt32) : H8 UInt32 :=
  let t1 := s.h + (rotl s.e 26 ^^^ rotl s.e 21 ^^^ rotl s.e 7) + ((s.e &&& s.f) ^^^ (~~~s.e &&& s.g)) + t.1 + t.2
  let t2 := (rotl s.a 30 ^^^ rotl s.a 19 ^^^ rotl s.a 10) + ((s.a &&& s.b) ^^^ (s.a &&& s.c) ^^^ (s.b &&& s.c))
  ⟨t1 + t2, s.a, s.b, s.c, s.d + t1, s.e, s.f, s.g⟩

/-- A block.  FIPS 180-4, section 6.2.2; behind hash.go:40. -/
def sha256Compress (h : H8 UInt32) (b : Bytes) : H8 UInt32 :=
  let s := (sha256K.zip (sha256Words b).reverse).foldl sha256Step h
  ⟨h.a + s.a, h.b + s.b, h.c + s.c, h.d + s.d, h.e + s.e, h.f + s.f, h.g + s.g, h.h + s.h⟩

/-- The initial state from a list.  Behind hash.go:40 and 42. -/
def ofList {α : Type} (l : List α) (z : α) : H8 α :=
  ⟨l.getD 0 z, l.getD 1 z, l.getD 2 z, l.getD 3 z, l.getD 4 z, l.getD 5 z, l.getD 6 z, l.getD 7 z⟩

/-- SHA-256.  `sha256.New`, hash.go:40. -/
def sha256 : Scheme where
  H := H8 UInt32
  iv := ofList sha256I 0
  block := 64
  compress := sha256Compress
  lenSize := 8
  lenBytes := bigEndian 8
  out := fun h => [h.a, h.b, h.c, h.d, h.e, h.f, h.g, h.h].flatMap fun w => bigEndian 4 w.toNat
  size := 32
  block_pos := by decide
  len_len := fun _ => by simp [bigEndian]
  out_len := fun _ => by simp [bigEndian]

/-! ## SHA-512 (FIPS 180-4) -/

/-- The constants.  FIPS 180-4, section 4.2.3; behind hash.go:42. -/
def sha512K : List UInt64 :=
  [0x428a2f98d728ae22, 0x7137449123ef65cd, 0xb5c0fbcfec4d3b2f, 0xe9b5dba58189dbbc, 0x3956c25bf348b538, 0x59f111f1b605d019,
   0x923f82a4af194f9b, 0xab1c5ed5da6d8118, 0xd807aa98a3030242, 0x12835b0145706fbe, 0x243185be4ee4b28c, 0x550c7dc3d5ffb4e2,
   0x72be5d74f27b896f, 0x80deb1fe3b1696b1, 0x9bdc06a725c71235, 0xc19bf174cf692694, 0xe49b69c19ef14ad2, 0xefbe4786384f25e3,
   0x0fc19dc68b8cd5b5, 0x240ca1cc77ac9c65, 0x2de92c6f592b0275, 0x4a7484aa6ea6e483, 0x5cb0a9dcbd41fbd4, 0x76f988da831153b5,
   0x983e5152ee66dfab, 0xa831c66d2db43210, 0xb00327c898fb213f, 0xbf597fc7beef0ee4, 0xc6e00bf33da88fc2, 0xd5a79147930aa725,
   0x06ca6351e003826f, 0x142929670a0e6e70, 0x27b70a8546d22ffc, 0x2e1b21385c26c926, 0x4d2c6dfc5ac42aed, 0x53380d139d95b3df,
   0x650a73548baf63de, 0x766a0abb3c77b2a8, 0x81c2c92e47edaee6, 0x92722c851482353b, 0xa2bfe8a14cf10364, 0xa81a664bbc423001,
   0xc24b8b70d0f89791, 0xc76c51a30654be30, 0xd192e819d6ef5218, 0xd69906245565a910, 0xf40e35855771202a, 0x106aa07032bbd1b8,
   0x19a4c116b8d2d0c8, 0x1e376c085141ab53, 0x2748774cdf8eeb99, 0x34b0bcb5e19b48a8, 0x391c0cb3c5c95a63, 0x4ed8aa4ae3418acb,
   0x5b9cca4f7763e373, 0x682e6ff3d6b2b8a3, 0x748f82ee5defb2fc, 0x78a5636f43172f60, 0x84c87814a1f0ab72, 0x8cc702081a6439ec,
   0x90befffa23631e28, 0xa4506cebde82bde9, 0xbef9a3f7b2c67915, 0xc67178f2e372532b, 0xca273eceea26619c, 0xd186b8c721c0c207,
   0xeada7dd6cde0eb1e, 0xf57d4f7fee6ed178, 0x06f067aa72176fba, 0x0a637dc5a2c898a6, 0x113f9804bef90dae, 0x1b710b35131c471b,
   0x28db77f523047d84, 0x32caab7b40c72493, 0x3c9ebe0a15c9bebc, 0x431d67c49c100d4c, 0x4cc5d4becb3e42b6, 0x597f299cfc657e2a,
   0x5fcb6fab3ad6faec, 0x6c44198c4a475817]

/-- The initial values.  FIPS 180-4, section 5.3.5; behind hash.go:42. -/
def sha512I : List UInt64 :=
  [0x6a09e667f3bcc908, 0xbb67ae8584caa73b, 0x3c6ef372fe94f82b, 0xa54ff53a5f1d36f1,
   0x510e527fade682d1, 0x9b05688c2b3e6c1f, 0x1f83d9abfb41bd6b, 0x5be0cd19137e2179]

/-- The 80 words of a block, the latest first.  FIPS 180-4, section 6.4.2; behind hash.go:42. -/
def sha512Words (b : Bytes) : List UInt64 :=
  Nat.repeat (fun w =>
    let x := w.getD 1 0
    let y := w.getD 14 0
    ((rotr64 x 19 ^^^ rotr64 x 61 ^^^ (x >>> 6)) + w.getD 6 0 + (rotr64 y 1 ^^^ rotr64 y 8 ^^^ (y >>> 7)) + w.getD 15 0) :: w) 64
    ((words 8 b).map fun w => UInt64.ofNat (ofBig w)).reverse

/-- One of the 80 steps.  FIPS 180-4, section 6.4.2; behind hash.go:42. -/
def sha512Step (s : H8 UInt64) (t : UInt64 × UInt64) : H8 UInt64 :=
  let t1 := s.h + (rotr64 s.e 14 ^^^ rotr64 s.e 18 ^^^ rotr64 s.e 41) + ((s.e &&& s.f) ^^^ (~~~s.e &&& s.g)) + t.1 + t.2
  let t2 := (rotr64 s.a 28 ^^^ rotr64 s.a 34 ^^^ rotr64 s.a 39) + ((s.a &&& s.b) ^^^ (s.a &&& s.c) ^^^ (s.b &&& s.c))
  ⟨t1 + t2, s.a, s.b, s.c, s.d + t1, s.e, s.f, s.g⟩

/-- A block.  FIPS 180-4, section 6.4.2; behind hash.go:42. -/
def sha512Compress (h : H8 UInt64) (b : Bytes) : H8 UInt64 :=
  let s := (sha512K.zip (sha512Words b).reverse).foldl sha512Step h
  ⟨h.a + s.a, h.b + s.b, h.c + s.c, h.d + s.d, h.e + s.e, h.f + s.f, h.g + s.g, h.h + s.h⟩

/-- SHA-512.  `sha512.New`, hash.go:42 and crypto/rsa/code.go:34. -/
def sha512 : Scheme where
  H := H8 UInt64
  iv := ofList sha512I 0
  block := 128
  compress := sha512Compress
  lenSize := 16
  lenBytes := bigEndian 16
  out := fun h => [h.a, h.b, h.c, h.d, h.e, h.f, h.g, h.h].flatMap fun w => bigEndian 8 w.toNat
  size := 64
  block_pos := by decide
  len_len := fun _ => by simp [bigEndian]
  out_len := fun _ => by simp [bigEndian]

/-! ## The shorter relatives, which signatures may use -/

/-- The initial values of SHA-224: the second halves of those of SHA-384.  FIPS 180-4, section 5.3.2; behind crypto/rsa/rsa.go:57 and 97. -/
def sha224I : List UInt32 :=
  [0xc1059ed8, 0x367cd507, 0x3070dd17, 0xf70e5939, 0xffc00b31, 0x68581511, 0x64f98fa7, 0xbefa4fa4]

/-- The initial values of SHA-384.  FIPS 180-4, section 5.3.4; behind crypto/rsa/rsa.go:57 and 97. -/
def sha384I : List UInt64 :=
  [0xcbbb9d5dc1059ed8, 0x629a292a367cd507, 0x9159015a3070dd17, 0x152fecd8f70e5939,
   0x67332667ffc00b31, 0x8eb44a8768581511, 0xdb0c2e0d64f98fa7, 0x47b5481dbefa4fa4]

/-- SHA-224.  `crypto.SHA224.New`, crypto/rsa/rsa.go:57 and 97. -/
def sha224 : Scheme where
  H := H8 UInt32
  iv := ofList sha224I 0
  block := 64
  compress := sha256Compress
  lenSize := 8
  lenBytes := bigEndian 8
  out := fun h => [h.a, h.b, h.c, h.d, h.e, h.f, h.g].flatMap fun w => bigEndian 4 w.toNat
  size := 28
  block_pos := by decide
  len_len := fun _ => by simp [bigEndian]
  out_len := fun _ => by simp [bigEndian]

/-- SHA-512 cut down to `n` bytes, with other initial values.  `crypto.SHA384.New`, `crypto.SHA512_224.New` and `crypto.SHA512_256.New`,
crypto/rsa/rsa.go:57 and 97. -/
def sha512Cut (n : Nat) (hn : n ≤ 64) (iv : H8 UInt64) : Scheme where
  H := H8 UInt64
  iv := iv
  block := 128
  compress := sha512Compress
  lenSize := 16
  lenBytes := bigEndian 16
  out := fun h => (sha512.out h).take n
  size := n
  block_pos := by decide
  len_len := fun _ => by simp [bigEndian]
  out_len := fun h => (List.length_take).trans ((congrArg (min n) (sha512.out_len h)).trans (Nat.min_eq_left hn))

/-- SHA-384.  `crypto.SHA384.New`, crypto/rsa/rsa.go:57 and 97. -/
def sha384 : Scheme := sha512Cut 48 (by decide) (ofList sha384I 0)

/-- The initial values of SHA-512/t: SHA-512 with changed initial values of the name (given as a padded block).  FIPS 180-4, section 5.3.6;
behind crypto/rsa/rsa.go:57 and 97. -/
def sha512tIV (name : Bytes) : H8 UInt64 :=
  sha512Compress (ofList (sha512I.map (· ^^^ 0xa5a5a5a5a5a5a5a5)) 0) (name ++ sha512.padding name.length)

/-- SHA-512/224; the name is "SHA-512/224".  `crypto.SHA512_224.New`, crypto/rsa/rsa.go:57 and 97. -/
def sha512_224 : Scheme := sha512Cut 28 (by decide) (sha512tIV [83, 72, 65, 45, 53, 49, 50, 47, 50, 50, 52])

/-- SHA-512/256; the name is "SHA-512/256".  `crypto.SHA512_256.New`, crypto/rsa/rsa.go:57 and 97. -/
def sha512_256 : Scheme := sha512Cut 32 (by decide) (sha512tIV [83, 72, 65, 45, 53, 49, 50, 47, 50, 53, 54])

/-! ## Cyclic redundancy checks -/

/-- The division of one bit, the coefficients of the polynomial in reverse order.  `MakeTable`, hash.go:29 and 44. -/
def crcBit {w : Nat} (poly x : BitVec w) : BitVec w := if x.getLsbD 0 then (x >>> 1) ^^^ poly else x >>> 1

/-- An entry of the table.  `MakeTable`, hash.go:29 and 44. -/
def crcTable {w : Nat} (poly : BitVec w) (i : Nat) : BitVec w := Nat.repeat (crcBit poly) 8 (BitVec.ofNat w i)

/-- One byte.  `update` of the library behind hash.go:44 and 46. -/
def crcByte {w : Nat} (poly : BitVec w) (crc : BitVec w) (b : UInt8) : BitVec w :=
  crcTable poly ((crc ^^^ BitVec.ofNat w b.toNat).toNat % 256) ^^^ (crc >>> 8)

/-- `update` of the library behind hash.go:44 and 46: inverted before and after. -/
def crcUpdate {w : Nat} (poly : BitVec w) (crc : BitVec w) (p : Bytes) : BitVec w := ~~~ (p.foldl (crcByte poly) (~~~ crc))

/-- A check of `8 * n` bits as an object of the library.  Made at hash.go:44 and 46. -/
def crcAlg (n : Nat) (poly : BitVec (8 * n)) : Alg where
  State := BitVec (8 * n)
  init := 0
  write := crcUpdate poly
  sum := fun s => bigEndian n s.toNat
  size := n
  write_nil := fun s => by simp [crcUpdate]
  write_append := fun s a b => by simp [crcUpdate, List.foldl_append]
  sum_length := fun s => by simp [bigEndian]

/-- CRC-32.  `crc32.NewIEEE`, hash.go:44. -/
def crc32 : Alg := crcAlg 4 0xedb88320#32

/-- CRC-64.  `crc64.New(crc64.MakeTable(crc64.ISO))`, hash.go:29 and 46. -/
def crc64 : Alg := crcAlg 8 0xd800000000000000#64

end Verif.Hash
