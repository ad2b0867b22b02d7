import Verif.Model.Go
/-!
# Model of `hash/finger_print.go` and `hash/none_hash.go`

The hash functions of the Go library (md5, sha1, crc64) are parameters of type `Alg`, of which only the contract of
`hash.Hash` is assumed: writing two pieces is writing their concatenation, and the sum has a fixed length.  `Write` of
these never fails and returns the number of bytes.
-/

namespace Verif.Hash

/-- The `[]byte` of finger_print.go:36-60 and none_hash.go:26-37. -/
abbrev Bytes := List UInt8

/-- A hash function of the Go library.  As used at hash.go:33-55 and finger_print.go:10-20. -/
structure Alg where
  State : Type
  init : State
  write : State → Bytes → State
  sum : State → Bytes
  size : Nat
  write_nil : ∀ s, write s [] = s
  write_append : ∀ s a b, write s (a ++ b) = write (write s a) b
  sum_length : ∀ s, (sum s).length = size

/-- `l[i:j]`.  finger_print.go:32 and 56-58. -/
def slice (l : Bytes) (i j : Nat) : Bytes := (l.take j).drop i

variable (M S C : Alg)

/-- `Fingerprint`, finger_print.go:10-13: the three hashes and the 64-bit count. -/
structure FP where
  hs1 : M.State
  hs2 : S.State
  hs3 : C.State
  size : BitVec 64

variable {M S C}

/-- `NewFingerprint`, finger_print.go:15-21. -/
def FP.new : FP M S C := ⟨M.init, S.init, C.init, 0⟩

/-- `Write`, finger_print.go:36-48: also returns the count. -/
def FP.write (f : FP M S C) (p : Bytes) : FP M S C × Nat :=
  (⟨M.write f.hs1 p, S.write f.hs2 p, C.write f.hs3 p, f.size + BitVec.ofNat 64 p.length⟩, p.length)

/-- `byte(size >> ((i-1)*8) & 0xff)` for `i = 6, …, 1`, finger_print.go:52-55. -/
def bigEndian6 (size : BitVec 64) : Bytes :=
  let size := size &&& 0xFFFFFFFFFFFF#64
  [6, 5, 4, 3, 2, 1].map fun i => UInt8.ofNat ((size >>> ((i - 1) * 8)) &&& 0xff#64).toNat

/-- `Sum`, finger_print.go:50-60: the argument is not used. -/
def FP.sum (f : FP M S C) (_b : Bytes) : Bytes :=
  bigEndian6 f.size ++ slice (M.sum f.hs1) 4 10 ++ slice (S.sum f.hs2) 7 13 ++ slice (C.sum f.hs3) 1 7

/-- `Reset`, finger_print.go:62-66: the count is not touched. -/
def FP.reset (f : FP M S C) : FP M S C := ⟨M.init, S.init, C.init, f.size⟩

/-- `Size`, finger_print.go:68-70 (`int` has 64 bits). -/
def FP.sizeOf (f : FP M S C) : Int := f.size.toInt

/-- `Resetsize`, finger_print.go:27-29. -/
def FP.resetsize (f : FP M S C) (n : BitVec 64) : FP M S C := { f with size := n }

/-- One hexadecimal digit (fmt, lower case).  finger_print.go:32, hash.go:58-73. -/
def hexDigit (n : Nat) : Char := Char.ofNat (if n < 10 then 48 + n else 87 + n)

/-- `%x` of a byte slice.  finger_print.go:32, hash.go:58-73. -/
def hexBytes (b : Bytes) : List Char := b.flatMap fun x => [hexDigit (x.toNat / 16), hexDigit (x.toNat % 16)]

/-- The hexadecimal digits of a number, `%x`.  `%012x` at finger_print.go:32. -/
def hexNat (n : Nat) : List Char := (Nat.toDigits 16 n)

/-- `%012x` of a non-negative number.  finger_print.go:32. -/
def hex12 (n : Nat) : List Char := List.replicate (12 - (hexNat n).length) '0' ++ hexNat n

/-- `String`, finger_print.go:31-34. -/
def FP.string (f : FP M S C) : List Char :=
  hex12 (f.size &&& 0xFFFFFFFFFFFF#64).toNat ++ ['-'] ++ hexBytes (slice (M.sum f.hs1) 4 10) ++ ['-'] ++
    hexBytes (slice (S.sum f.hs2) 7 13) ++ ['-'] ++ hexBytes (slice (C.sum f.hs3) 1 7)

/-- Several writes.  Repeated calls of finger_print.go:36-48. -/
def FP.writes (f : FP M S C) (ps : List Bytes) : FP M S C := ps.foldl (fun f p => (f.write p).1) f

/-! ## NoneHash -/

/-- The process: the counter `gId` (none_hash.go:9-11) and the ids of the objects made so far, oldest first. -/
structure World where
  gId : BitVec 32
  objs : List (BitVec 32)
deriving DecidableEq

/-- `Sum`, none_hash.go:30-37. -/
def noneSum (id : BitVec 32) : Bytes :=
  [4, 3, 2, 1].map fun i => UInt8.ofNat ((id >>> ((i - 1) * 8)) &&& 0xff#32).toNat

/-- The operations: `NewNoneHash` (none_hash.go:17-20), and `Write` (lines 26-28), `ReadFrom` (22-24) and `Reset` (39-40)
on the `k`-th object, which do nothing. -/
inductive NOp
  | new
  | write (k : Nat) (p : Bytes)
  | readFrom (k : Nat) (p : Bytes)
  | reset (k : Nat)

/-- One operation.  Calls of hash.go:33-55 and none_hash.go:17-20. -/
def World.step (w : World) : NOp → World
  | .new => ⟨w.gId + 1, w.objs ++ [w.gId + 1]⟩
  | .write _ _ => w
  | .readFrom _ _ => w
  | .reset _ => w

/-- The process after a history of operations.  Calls of hash.go:33-55 and none_hash.go:17-20. -/
def World.run (ops : List NOp) : World := ops.foldl World.step ⟨0, []⟩

/-! ### Concurrent creation

`gId++` is a load and a store, none_hash.go:18, followed by a second load for the field, line 19. -/

/-- Program counters of a goroutine in `NewNoneHash`.  none_hash.go:18-19. -/
inductive PC
  | idle
  | loaded (v : BitVec 32)
  | stored
deriving DecidableEq

/-- Shared counter, program counters, ids given out.  none_hash.go:10 and 17-20. -/
structure CState where
  gId : BitVec 32
  pc : Nat → PC
  objs : List (BitVec 32)

/-- One atomic step of goroutine `t`.  none_hash.go:18-19. -/
inductive CStep : CState → CState → Prop
  | load (s : CState) (t : Nat) (h : s.pc t = .idle) :
      CStep s { s with pc := fun u => if u = t then .loaded s.gId else s.pc u }
  | store (s : CState) (t : Nat) (v : BitVec 32) (h : s.pc t = .loaded v) :
      CStep s { s with gId := v + 1, pc := fun u => if u = t then .stored else s.pc u }
  | make (s : CState) (t : Nat) (h : s.pc t = .stored) :
      CStep s { s with objs := s.objs ++ [s.gId], pc := fun u => if u = t then .idle else s.pc u }

/-- Reachable states.  none_hash.go:17-20. -/
inductive CReach : CState → Prop
  | init : CReach ⟨0, fun _ => .idle, []⟩
  | step {s s' : CState} : CReach s → CStep s s' → CReach s'

end Verif.Hash
