import Verif.Model.Hash
/-!
# Model of `hash/hash.go`
-/

namespace Verif.Hash

/-- The hash functions of the Go library used in hash.go:33-55. -/
inductive Lib
  | md5 | sha1 | sha256 | sha512 | crc32 | crc64
deriving DecidableEq

/-- Their implementations.  hash.go:35-46. -/
abbrev Std := Lib → Alg

/-- A `hash.Hash` made by `New`: one of the library, a fingerprint, or a `NoneHash` (with its id).  hash.go:33-55. -/
inductive Obj (L : Std) where
  | lib (k : Lib) (s : (L k).State)
  | fp (f : FP (L .md5) (L .sha1) (L .crc64))
  | none (id : BitVec 32)

/-- `HashMethod.New`, hash.go:33-55.  The method is its number, hash.go:16-25 (NONE 0, MD5 1, SHA1 2, SHA256 3, SHA512 4,
CRC32 5, CRC64 6, FINGERPRINT 7).  The counter of `NewNoneHash` (none_hash.go:17-20) goes in and out. -/
def newHash (L : Std) (gId : BitVec 32) (method : Nat) : Res (BitVec 32 × Obj L) :=
  match method with
  | 1 => .ok (gId, .lib .md5 (L .md5).init)
  | 2 => .ok (gId, .lib .sha1 (L .sha1).init)
  | 3 => .ok (gId, .lib .sha256 (L .sha256).init)
  | 4 => .ok (gId, .lib .sha512 (L .sha512).init)
  | 5 => .ok (gId, .lib .crc32 (L .crc32).init)
  | 6 => .ok (gId, .lib .crc64 (L .crc64).init)
  | 7 => .ok (gId, .fp FP.new)
  | 0 => .ok (gId + 1, .none (gId + 1))
  | _ => .panic

/-- `Write` of such an object: it never fails, and gives the number of bytes, but `NoneHash.Write` (none_hash.go:26-28)
gives 0. -/
def Obj.write {L : Std} : Obj L → Bytes → Obj L × Nat
  | .lib k s, p => (.lib k ((L k).write s p), p.length)
  | .fp f, p => (.fp (f.write p).1, (f.write p).2)
  | .none id, _ => (.none id, 0)

/-- `Sum(nil)` of such an object.  Called at hash.go:61 and 70. -/
def Obj.sum {L : Std} : Obj L → Bytes
  | .lib k s => (L k).sum s
  | .fp f => f.sum []
  | .none id => noneSum id

/-- `%010d` of a non-negative number.  hash.go:61. -/
def dec10 (n : Nat) : List Char := List.replicate (10 - (Nat.toDigits 10 n).length) '0' ++ Nat.toDigits 10 n

/-- `StringHash`, hash.go:67-73. -/
def stringHash (L : Std) (gId : BitVec 32) (method : Nat) (s : Bytes) : Res (BitVec 32 × List Char) := do
  let (gId, h) ← newHash L gId method
  let (h, _) := h.write s
  return (gId, hexBytes h.sum)

/-- `StringHashL`, hash.go:58-64. -/
def stringHashL (L : Std) (gId : BitVec 32) (method : Nat) (s : Bytes) : Res (BitVec 32 × List Char) := do
  let (gId, h) ← newHash L gId method
  let (h, n) := h.write s
  return (gId, dec10 n ++ ['-'] ++ hexBytes h.sum)

end Verif.Hash
