import Verif.Model.Crypto
/-!
# The Advanced Encryption Standard

`crypto/aes` of the Go library, which crypto/aes/aes.go calls, written out after FIPS 197: the cipher that C50 leaves as a parameter.
A state is the list of its 16 bytes, column after column.  The Go library computes the same function with combined tables or processor
instructions.  Checked against the published test vectors in Props/Ciphers.
-/

namespace Verif.Crypto

/-- The S-box.  FIPS 197, figure 7; the library behind aes.go:55, 62 and 87. -/
def aesS : List UInt8 :=
  [99, 124, 119, 123, 242, 107, 111, 197, 48, 1, 103, 43, 254, 215, 171, 118, 202, 130, 201, 125, 250, 89, 71, 240, 173, 212, 162, 175, 156, 164, 114, 192,
   183, 253, 147, 38, 54, 63, 247, 204, 52, 165, 229, 241, 113, 216, 49, 21, 4, 199, 35, 195, 24, 150, 5, 154, 7, 18, 128, 226, 235, 39, 178, 117,
   9, 131, 44, 26, 27, 110, 90, 160, 82, 59, 214, 179, 41, 227, 47, 132, 83, 209, 0, 237, 32, 252, 177, 91, 106, 203, 190, 57, 74, 76, 88, 207,
   208, 239, 170, 251, 67, 77, 51, 133, 69, 249, 2, 127, 80, 60, 159, 168, 81, 163, 64, 143, 146, 157, 56, 245, 188, 182, 218, 33, 16, 255, 243, 210,
   205, 12, 19, 236, 95, 151, 68, 23, 196, 167, 126, 61, 100, 93, 25, 115, 96, 129, 79, 220, 34, 42, 144, 136, 70, 238, 184, 20, 222, 94, 11, 219,
   224, 50, 58, 10, 73, 6, 36, 92, 194, 211, 172, 98, 145, 149, 228, 121, 231, 200, 55, 109, 141, 213, 78, 169, 108, 86, 244, 234, 101, 122, 174, 8,
   186, 120, 37, 46, 28, 166, 180, 198, 232, 221, 116, 31, 75, 189, 139, 138, 112, 62, 181, 102, 72, 3, 246, 14, 97, 53, 87, 185, 134, 193, 29, 158,
   225, 248, 152, 17, 105, 217, 142, 148, 155, 30, 135, 233, 206, 85, 40, 223, 140, 161, 137, 13, 191, 230, 66, 104, 65, 153, 45, 15, 176, 84, 187, 22]

/-- The inverse S-box.  FIPS 197, figure 14; the library behind aes.go:87. -/
def aesI : List UInt8 :=
  [82, 9, 106, 213, 48, 54, 165, 56, 191, 64, 163, 158, 129, 243, 215, 251, 124, 227, 57, 130, 155, 47, 255, 135, 52, 142, 67, 68, 196, 222, 233, 203,
   84, 123, 148, 50, 166, 194, 35, 61, 238, 76, 149, 11, 66, 250, 195, 78, 8, 46, 161, 102, 40, 217, 36, 178, 118, 91, 162, 73, 109, 139, 209, 37,
   114, 248, 246, 100, 134, 104, 152, 22, 212, 164, 92, 204, 93, 101, 182, 146, 108, 112, 72, 80, 253, 237, 185, 218, 94, 21, 70, 87, 167, 141, 157, 132,
   144, 216, 171, 0, 140, 188, 211, 10, 247, 228, 88, 5, 184, 179, 69, 6, 208, 44, 30, 143, 202, 63, 15, 2, 193, 175, 189, 3, 1, 19, 138, 107,
   58, 145, 17, 65, 79, 103, 220, 234, 151, 242, 207, 206, 240, 180, 230, 115, 150, 172, 116, 34, 231, 173, 53, 133, 226, 249, 55, 232, 28, 117, 223, 110,
   71, 241, 26, 113, 29, 41, 197, 137, 111, 183, 98, 14, 170, 24, 190, 27, 252, 86, 62, 75, 198, 210, 121, 32, 154, 219, 192, 254, 120, 205, 90, 244,
   31, 221, 168, 51, 136, 7, 199, 49, 177, 18, 16, 89, 39, 128, 236, 95, 96, 81, 127, 169, 25, 181, 74, 13, 45, 229, 122, 159, 147, 201, 156, 239,
   160, 224, 59, 77, 174, 42, 245, 176, 200, 235, 187, 60, 131, 83, 153, 97, 23, 43, 4, 126, 186, 119, 214, 38, 225, 105, 20, 99, 85, 33, 12, 125]

/-- `SubBytes` of one byte.  FIPS 197, section 5.1.1; the library behind aes.go:55, 62 and 87. -/
def subByte (x : UInt8) : UInt8 := aesS.getD x.toNat 0

/-- `InvSubBytes` of one byte.  FIPS 197, section 5.3.2; the library behind aes.go:87. -/
def invSubByte (x : UInt8) : UInt8 := aesI.getD x.toNat 0

/-- Multiplication by x in GF(2^8).  FIPS 197, section 4.2.1; the library behind aes.go:55, 62 and 87. -/
def xtime (x : UInt8) : UInt8 := UInt8.ofNat (if x.toNat < 128 then 2 * x.toNat else (2 * x.toNat - 256) ^^^ 27)

/-- A selection of bytes of the state.  FIPS 197; the library behind aes.go:55, 62 and 87. -/
def pick (table : List Nat) (b : Bytes) : Bytes := table.map fun i => b.getD i 0

/-- `ShiftRows` as a selection.  FIPS 197, section 5.1.2; the library behind aes.go:55 and 62. -/
def shiftTable : List Nat := [0, 5, 10, 15, 4, 9, 14, 3, 8, 13, 2, 7, 12, 1, 6, 11]

/-- `InvShiftRows` as a selection.  FIPS 197, section 5.3.1; the library behind aes.go:87. -/
def unshiftTable : List Nat := [0, 13, 10, 7, 4, 1, 14, 11, 8, 5, 2, 15, 12, 9, 6, 3]

/-- `MixColumns`.  FIPS 197, section 5.1.3; the library behind aes.go:55 and 62. -/
def mixColumns : Bytes → Bytes
  | a :: b :: c :: d :: r =>
    (xtime a ^^^ (xtime b ^^^ b) ^^^ c ^^^ d) :: (a ^^^ xtime b ^^^ (xtime c ^^^ c) ^^^ d) ::
    (a ^^^ b ^^^ xtime c ^^^ (xtime d ^^^ d)) :: ((xtime a ^^^ a) ^^^ b ^^^ c ^^^ xtime d) :: mixColumns r
  | _ => []

/-- Multiplication by 9.  FIPS 197, section 5.3.3; the library behind aes.go:87. -/
def mul9 (x : UInt8) : UInt8 := xtime (xtime (xtime x)) ^^^ x

/-- Multiplication by 11.  FIPS 197, section 5.3.3; the library behind aes.go:87. -/
def mul11 (x : UInt8) : UInt8 := xtime (xtime (xtime x)) ^^^ xtime x ^^^ x

/-- Multiplication by 13.  FIPS 197, section 5.3.3; the library behind aes.go:87. -/
def mul13 (x : UInt8) : UInt8 := xtime (xtime (xtime x)) ^^^ xtime (xtime x) ^^^ x

/-- Multiplication by 14.  FIPS 197, section 5.3.3; the library behind aes.go:87. -/
def mul14 (x : UInt8) : UInt8 := xtime (xtime (xtime x)) ^^^ xtime (xtime x) ^^^ xtime x

/-- `InvMixColumns`.  FIPS 197, section 5.3.3; the library behind aes.go:87. -/
def invMixColumns : Bytes → Bytes
  | a :: b :: c :: d :: r =>
    (mul14 a ^^^ mul11 b ^^^ mul13 c ^^^ mul9 d) :: (mul9 a ^^^ mul14 b ^^^ mul11 c ^^^ mul13 d) ::
    (mul13 a ^^^ mul9 b ^^^ mul14 c ^^^ mul11 d) :: (mul11 a ^^^ mul13 b ^^^ mul9 c ^^^ mul14 d) :: invMixColumns r
  | _ => []

/-- The powers of x in GF(2^8).  FIPS 197, section 5.2; the library behind aes.go:40 and 73. -/
def rcon : Nat → UInt8
  | 0 => 1
  | n + 1 => xtime (rcon n)

/-- The words of the expanded key so far, the latest first; one more word.  `nk` is the length of the key in words.  FIPS 197, figure 11;
the library behind aes.go:40 and 73. -/
def nextWord (nk : Nat) (ws : List Bytes) : Bytes :=
  let i := ws.length
  let temp := ws.headD []
  let temp :=
    if i % nk = 0 then xor ((temp.rotateLeft 1).map subByte) [rcon (i / nk - 1), 0, 0, 0]
    else if 6 < nk ∧ i % nk = 4 then temp.map subByte
    else temp
  xor (ws.getD (nk - 1) []) temp

/-- The words of the key itself, the latest first.  FIPS 197, figure 11; the library behind aes.go:40 and 73. -/
def keyWords (key : Bytes) : List Bytes := ((List.range (key.length / 4)).map fun i => (key.drop (4 * i)).take 4).reverse

/-- The number of rounds.  FIPS 197, figure 4; the library behind aes.go:40 and 73. -/
def numRounds (key : Bytes) : Nat := key.length / 4 + 6

/-- The expanded key.  FIPS 197, figure 11; the library behind aes.go:40 and 73. -/
def expandKey (key : Bytes) : Bytes :=
  (Nat.repeat (fun ws => nextWord (key.length / 4) ws :: ws) (4 * (numRounds key + 1) - key.length / 4) (keyWords key)).reverse.flatten

/-- The key of round `i`.  FIPS 197, section 5.1.4; the library behind aes.go:55, 62 and 87. -/
def aesRoundKey (w : Bytes) (i : Nat) : Bytes := (List.range 16).map fun j => w.getD (16 * i + j) 0

/-- A round but the last.  FIPS 197, figure 5; the library behind aes.go:55 and 62. -/
def aesRound (b k : Bytes) : Bytes := xor (mixColumns (pick shiftTable (b.map subByte))) k

/-- A round but the last, backwards.  FIPS 197, figure 12; the library behind aes.go:87. -/
def aesUnround (b k : Bytes) : Bytes := (pick unshiftTable (invMixColumns (xor b k))).map invSubByte

/-- `Encrypt` of the cipher that `aes.NewCipher` makes.  FIPS 197, figure 5; the library behind aes.go:55 and 62. -/
def aesEnc (key b : Bytes) : Bytes :=
  let w := expandKey key
  let nr := numRounds key
  let ks := (List.range (nr - 1)).map fun i => aesRoundKey w (i + 1)
  xor (pick shiftTable ((ks.foldl aesRound (xor b (aesRoundKey w 0))).map subByte)) (aesRoundKey w nr)

/-- `Decrypt` of the cipher that `aes.NewCipher` makes.  FIPS 197, figure 12; the library behind aes.go:87. -/
def aesDec (key b : Bytes) : Bytes :=
  let w := expandKey key
  let nr := numRounds key
  let ks := (List.range (nr - 1)).map fun i => aesRoundKey w (i + 1)
  xor (ks.reverse.foldl aesUnround ((pick unshiftTable (xor b (aesRoundKey w nr))).map invSubByte)) (aesRoundKey w 0)

end Verif.Crypto
