import Verif.Model.Rand
/-!
# Model of `strings/rand.go` with many goroutines

All calls of `strings.Rand` draw from the one generator of the package (strings/rand.go:7-9).  A call is the loop of
lines 34-38; between two accesses of the generator the other goroutines can do the same.
-/

namespace Verif.StrRand
open Verif.Spec Verif.Rand

/-- The character of line 36 for the number `r` drawn: `upper[rnd.RandMax(26)]`.  strings/rand.go:36 and
rand.gp_32.go:84-98. -/
def letter (r : BitVec 32) : Res UInt8 := do
  let k ← below 26#32 r
  Go.get upper k.toNat

/-- A call of `strings.Rand`.  strings/rand.go:33. -/
structure Op where
  rule : UInt64
  length : Int
  deriving DecidableEq

/-- Where a goroutine is.  The points between the accesses of strings/rand.go:33-39. -/
inductive PC where
  | idle
  /-- before the test of line 35: `n` characters are still to be drawn, `b` are there. -/
  | loop (n : Nat) (b : List UInt8)
  /-- inside `RandMax`, before the exchange of rand.gp_32.go:68, having loaded `o`; `n` more after this character. -/
  | cas (n : Nat) (b : List UInt8) (o : BitVec 32)
  /-- the call panics. -/
  | panics
  deriving DecidableEq

/-- The generator of the package and the goroutines.  strings/rand.go:7-9. -/
structure St where
  seed : BitVec 32
  pc : Nat → PC

/-- Before any call.  strings/rand.go:7-9. -/
def St.init (s : BitVec 32) : St := ⟨s, fun _ => .idle⟩

/-- The start of a call, strings/rand.go:33-34: `make` panics on a negative length.  `rule` is not used. -/
def entry (op : Op) : PC := if op.length < 0 then .panics else .loop op.length.toNat []

/-- After the number `r` was drawn, strings/rand.go:36; a panic of `RandMax` or of the index expression would end the
call. -/
def put (n : Nat) (b : List UInt8) (r : BitVec 32) : PC :=
  match letter r with
  | .ok ch => .loop n (b ++ [ch])
  | .panic => .panics

/-- One step of goroutine `t`.  strings/rand.go:33-39 with rand.gp_32.go:63-73. -/
inductive Step : St → Option (Ev Op (Res (List UInt8))) → St → Prop
  | call (s : St) (t : Nat) (op : Op) : s.pc t = .idle → Step s (some (.call t op)) ⟨s.seed, setAt s.pc t (entry op)⟩
  /-- strings/rand.go:35-36, rand.gp_32.go:66. -/
  | load (s : St) (t n : Nat) (b : List UInt8) : s.pc t = .loop (n + 1) b →
    Step s none ⟨s.seed, setAt s.pc t (.cas n b s.seed)⟩
  /-- rand.gp_32.go:67-69, the exchange succeeds; the rest of the round is local. -/
  | casOk (s : St) (t n : Nat) (b : List UInt8) (o : BitVec 32) : s.pc t = .cas n b o → s.seed = o →
    Step s none ⟨next32 o, setAt s.pc t (put n b (next32 o))⟩
  /-- rand.gp_32.go:68, the exchange fails; again from rand.gp_32.go:66. -/
  | casFail (s : St) (t n : Nat) (b : List UInt8) (o : BitVec 32) : s.pc t = .cas n b o → s.seed ≠ o →
    Step s none ⟨s.seed, setAt s.pc t (.loop (n + 1) b)⟩
  /-- strings/rand.go:38. -/
  | ret (s : St) (t : Nat) (b : List UInt8) : s.pc t = .loop 0 b →
    Step s (some (.ret t (.ok b))) ⟨s.seed, setAt s.pc t .idle⟩
  /-- the panic reaches the caller. -/
  | panics (s : St) (t : Nat) : s.pc t = .panics →
    Step s (some (.ret t .panic)) ⟨s.seed, setAt s.pc t .idle⟩

end Verif.StrRand
