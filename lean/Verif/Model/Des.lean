import Verif.Model.Crypto
/-!
# The Data Encryption Standard

`crypto/des` of the Go library, which crypto/ecb/ecb.go calls, written out after FIPS 46-3: the cipher that C49 and C51 leave as a
parameter.  Bits are numbered as in the standard, from 1 and from the left.  The Go library computes the same function with combined
tables.  Checked against the published test vector in Props/Ciphers.
-/

namespace Verif.Crypto

/-- The bits of a byte, the highest first.  FIPS 46-3; the library behind ecb.go:78 and 102. -/
def byteBits (x : UInt8) : List Bool := [7, 6, 5, 4, 3, 2, 1, 0].map fun i => x.toNat.testBit i

/-- The number with these bits.  FIPS 46-3; the library behind ecb.go:78 and 102. -/
def bitsNat (l : List Bool) : Nat := l.foldl (fun n b => 2 * n + b.toNat) 0

/-- The bits of a byte string.  FIPS 46-3; the library behind ecb.go:78 and 102. -/
def toBits (b : Bytes) : List Bool := b.flatMap byteBits

/-- The byte string with these bits.  FIPS 46-3; the library behind ecb.go:78 and 102. -/
def ofBits : List Bool → Bytes
  | a :: b :: c :: d :: e :: f :: g :: h :: r => UInt8.ofNat (bitsNat [a, b, c, d, e, f, g, h]) :: ofBits r
  | _ => []

/-- A selection of bits by a table.  FIPS 46-3; the library behind ecb.go:78 and 102. -/
def permute (table : List Nat) (b : List Bool) : List Bool := table.map fun i => b.getD (i - 1) false

/-- The initial permutation.  FIPS 46-3, page 10; the library behind ecb.go:78 and 102. -/
def tableIP : List Nat :=
  [58, 50, 42, 34, 26, 18, 10, 2, 60, 52, 44, 36, 28, 20, 12, 4, 62, 54, 46, 38, 30, 22, 14, 6, 64, 56, 48, 40, 32, 24, 16, 8,
   57, 49, 41, 33, 25, 17, 9, 1, 59, 51, 43, 35, 27, 19, 11, 3, 61, 53, 45, 37, 29, 21, 13, 5, 63, 55, 47, 39, 31, 23, 15, 7]

/-- The final permutation.  FIPS 46-3, page 10; the library behind ecb.go:78 and 102. -/
def tableFP : List Nat :=
  [40, 8, 48, 16, 56, 24, 64, 32, 39, 7, 47, 15, 55, 23, 63, 31, 38, 6, 46, 14, 54, 22, 62, 30, 37, 5, 45, 13, 53, 21, 61, 29,
   36, 4, 44, 12, 52, 20, 60, 28, 35, 3, 43, 11, 51, 19, 59, 27, 34, 2, 42, 10, 50, 18, 58, 26, 33, 1, 41, 9, 49, 17, 57, 25]

/-- The expansion.  FIPS 46-3, page 13; the library behind ecb.go:78 and 102. -/
def tableE : List Nat :=
  [32, 1, 2, 3, 4, 5, 4, 5, 6, 7, 8, 9, 8, 9, 10, 11, 12, 13, 12, 13, 14, 15, 16, 17,
   16, 17, 18, 19, 20, 21, 20, 21, 22, 23, 24, 25, 24, 25, 26, 27, 28, 29, 28, 29, 30, 31, 32, 1]

/-- The permutation behind the S-boxes.  FIPS 46-3, page 15; the library behind ecb.go:78 and 102. -/
def tableP : List Nat :=
  [16, 7, 20, 21, 29, 12, 28, 17, 1, 15, 23, 26, 5, 18, 31, 10, 2, 8, 24, 14, 32, 27, 3, 9, 19, 13, 30, 6, 22, 11, 4, 25]

/-- The S-boxes, row after row.  FIPS 46-3, pages 17 and 18; the library behind ecb.go:78 and 102. -/
def sBoxes : List (List Nat) :=
  [[14, 4, 13, 1, 2, 15, 11, 8, 3, 10, 6, 12, 5, 9, 0, 7, 0, 15, 7, 4, 14, 2, 13, 1, 10, 6, 12, 11, 9, 5, 3, 8,
    4, 1, 14, 8, 13, 6, 2, 11, 15, 12, 9, 7, 3, 10, 5, 0, 15, 12, 8, 2, 4, 9, 1, 7, 5, 11, 3, 14, 10, 0, 6, 13],
   [15, 1, 8, 14, 6, 11, 3, 4, 9, 7, 2, 13, 12, 0, 5, 10, 3, 13, 4, 7, 15, 2, 8, 14, 12, 0, 1, 10, 6, 9, 11, 5,
    0, 14, 7, 11, 10, 4, 13, 1, 5, 8, 12, 6, 9, 3, 2, 15, 13, 8, 10, 1, 3, 15, 4, 2, 11, 6, 7, 12, 0, 5, 14, 9],
   [10, 0, 9, 14, 6, 3, 15, 5, 1, 13, 12, 7, 11, 4, 2, 8, 13, 7, 0, 9, 3, 4, 6, 10, 2, 8, 5, 14, 12, 11, 15, 1,
    13, 6, 4, 9, 8, 15, 3, 0, 11, 1, 2, 12, 5, 10, 14, 7, 1, 10, 13, 0, 6, 9, 8, 7, 4, 15, 14, 3, 11, 5, 2, 12],
   [7, 13, 14, 3, 0, 6, 9, 10, 1, 2, 8, 5, 11, 12, 4, 15, 13, 8, 11, 5, 6, 15, 0, 3, 4, 7, 2, 12, 1, 10, 14, 9,
    10, 6, 9, 0, 12, 11, 7, 13, 15, 1, 3, 14, 5, 2, 8, 4, 3, 15, 0, 6, 10, 1, 13, 8, 9, 4, 5, 11, 12, 7, 2, 14],
   [2, 12, 4, 1, 7, 10, 11, 6, 8, 5, 3, 15, 13, 0, 14, 9, 14, 11, 2, 12, 4, 7, 13, 1, 5, 0, 15, 10, 3, 9, 8, 6,
    4, 2, 1, 11, 10, 13, 7, 8, 15, 9, 12, 5, 6, 3, 0, 14, 11, 8, 12, 7, 1, 14, 2, 13, 6, 15, 0, 9, 10, 4, 5, 3],
   [12, 1, 10, 15, 9, 2, 6, 8, 0, 13, 3, 4, 14, 7, 5, 11, 10, 15, 4, 2, 7, 12, 9, 5, 6, 1, 13, 14, 0, 11, 3, 8,
    9, 14, 15, 5, 2, 8, 12, 3, 7, 0, 4, 10, 1, 13, 11, 6, 4, 3, 2, 12, 9, 5, 15, 10, 11, 14, 1, 7, 6, 0, 8, 13],
   [4, 11, 2, 14, 15, 0, 8, 13, 3, 12, 9, 7, 5, 10, 6, 1, 13, 0, 11, 7, 4, 9, 1, 10, 14, 3, 5, 12, 2, 15, 8, 6,
    1, 4, 11, 13, 12, 3, 7, 14, 10, 15, 6, 8, 0, 5, 9, 2, 6, 11, 13, 8, 1, 4, 10, 7, 9, 5, 0, 15, 14, 2, 3, 12],
   [13, 2, 8, 4, 6, 15, 11, 1, 10, 9, 3, 14, 5, 0, 12, 7, 1, 15, 13, 8, 10, 3, 7, 4, 12, 5, 6, 11, 0, 14, 9, 2,
    7, 11, 4, 1, 9, 12, 14, 2, 0, 6, 10, 13, 15, 3, 5, 8, 2, 1, 14, 7, 4, 10, 8, 13, 15, 12, 9, 0, 3, 5, 6, 11]]

/-- Permuted choice 1: the key without its parity bits.  FIPS 46-3, page 21; the library behind ecb.go:18, 67 and 90. -/
def tablePC1 : List Nat :=
  [57, 49, 41, 33, 25, 17, 9, 1, 58, 50, 42, 34, 26, 18, 10, 2, 59, 51, 43, 35, 27, 19, 11, 3, 60, 52, 44, 36,
   63, 55, 47, 39, 31, 23, 15, 7, 62, 54, 46, 38, 30, 22, 14, 6, 61, 53, 45, 37, 29, 21, 13, 5, 28, 20, 12, 4]

/-- Permuted choice 2.  FIPS 46-3, page 23; the library behind ecb.go:18, 67 and 90. -/
def tablePC2 : List Nat :=
  [14, 17, 11, 24, 1, 5, 3, 28, 15, 6, 21, 10, 23, 19, 12, 4, 26, 8, 16, 7, 27, 20, 13, 2,
   41, 52, 31, 37, 47, 55, 30, 40, 51, 45, 33, 48, 44, 49, 39, 56, 34, 53, 46, 42, 50, 36, 29, 32]

/-- How far the halves of the key have been rotated in each round.  FIPS 46-3, page 24, summed up; the library behind ecb.go:18, 67
and 90. -/
def rotations : List Nat := [1, 2, 4, 6, 8, 10, 12, 14, 15, 17, 19, 21, 23, 25, 27, 28]

/-- The 16 round keys.  FIPS 46-3, page 20; the library behind ecb.go:18, 67 and 90. -/
def roundKeys (key : Bytes) : List (List Bool) :=
  let cd := permute tablePC1 (toBits key)
  let c := cd.take 28
  let d := cd.drop 28
  rotations.map fun n => permute tablePC2 (c.rotateLeft n ++ d.rotateLeft n)

/-- Bitwise exclusive or.  FIPS 46-3; the library behind ecb.go:78 and 102. -/
def xorBits (a b : List Bool) : List Bool := List.zipWith Bool.xor a b

/-- The S-box `n` (from 0) applied to six bits: the outer two give the row, the inner four the column.  FIPS 46-3, page 14; the library
behind ecb.go:78 and 102. -/
def sBox (n : Nat) (l : List Bool) : List Bool :=
  let g := fun i => l.getD (6 * n + i) false
  let v := (sBoxes.getD n []).getD (bitsNat [g 0, g 5, g 1, g 2, g 3, g 4]) 0
  [3, 2, 1, 0].map fun i => v.testBit i

/-- The function `f` of a round.  FIPS 46-3, page 13; the library behind ecb.go:78 and 102. -/
def feistel (r k : List Bool) : List Bool :=
  let x := xorBits (permute tableE r) k
  permute tableP ((List.range 8).flatMap fun n => sBox n x)

/-- The rounds.  FIPS 46-3, page 8; the library behind ecb.go:78 and 102. -/
def rounds (ks : List (List Bool)) (lr : List Bool × List Bool) : List Bool × List Bool :=
  ks.foldl (fun p k => (p.2, xorBits p.1 (feistel p.2 k))) lr

/-- The transformation of one block with these round keys: the halves change places at the end.  FIPS 46-3, page 8; the library behind
ecb.go:78 and 102. -/
def desBlock (ks : List (List Bool)) (b : Bytes) : Bytes :=
  let x := permute tableIP (toBits b)
  let p := rounds ks (x.take 32, x.drop 32)
  ofBits (permute tableFP (p.2 ++ p.1))

/-- `Encrypt` of the cipher that `des.NewCipher` makes.  Called at ecb.go:78. -/
def desEnc (key b : Bytes) : Bytes := desBlock (roundKeys key) b

/-- `Decrypt` of the cipher that `des.NewCipher` makes: the round keys in the opposite order.  Called at ecb.go:102. -/
def desDec (key b : Bytes) : Bytes := desBlock (roundKeys key).reverse b

end Verif.Crypto
