import Verif.Model.Go
import Verif.Spec.Linearizable
/-!
# Model of the random number generators, `math/rand/rand.gp_32.go`, `math/rand/rand.gp_64.go`

The two files are the same template instantiated at `uint32` and `uint64`; they differ only in the constants of
line 67.  The model is generic in the width `w` and the two constants.  The package-level functions
(rand.gp_32.go:28-43) call the methods of one global generator.

Atomic operations are sequentially consistent single steps.
-/

namespace Verif.Rand
open Verif.Spec

variable {w : Nat}

/-- rand.gp_32.go:67, rand.gp_64.go:67: `n = o*a + c` in unsigned arithmetic of the width. -/
def next (a c : BitVec w) (o : BitVec w) : BitVec w := o * a + c

/-- `Rand32T.Rand`, rand.gp_32.go:63-73, one call without interference: the new seed, also returned. -/
def next32 (o : BitVec 32) : BitVec 32 := next 7368787#32 2750159#32 o

/-- `Rand64T.Rand`, rand.gp_64.go:63-73. -/
def next64 (o : BitVec 64) : BitVec 64 := next 4294955897#64 4094975977#64 o

/-- `RandRange` after `r := me.Rand()`, rand.gp_32.go:84-93.  The remainder by zero panics. -/
def inRange (lo hi r : BitVec w) : Res (BitVec w) :=
  let mx := if hi < lo then lo else hi
  let mn := if hi < lo then hi else lo
  let d := mx - mn + 1#w
  if d = 0#w then .panic else .ok (r % d + mn)

/-- `RandMax` after `Rand`, rand.gp_32.go:96-98. -/
def below (m r : BitVec w) : Res (BitVec w) := inRange 0#w (m - 1#w) r

/-- `RandSeed`, rand.go:11-15; `tick` is what `xtime.RDTSC()` reads and `unix` what `time.Now().Unix()` does. -/
def randSeed (tick unix init : BitVec 64) : BitVec 64 :=
  let r := tick + unix + init
  r * 4294967291#64 + 8615693#64

/-- `NewRand32`, rand.gp_32.go:57-60, with `randBase`, 79-82: the seed of the new generator and the new state of the
global generator `g`. -/
def newRand32 (tick unix : BitVec 64) (g : BitVec 32) : BitVec 32 × BitVec 32 :=
  let r := next32 g
  ((randSeed tick unix (r.setWidth 64)).setWidth 32, r)

/-- `NewRand64`, rand.gp_64.go:57-60, with `randBase`, 79-82. -/
def newRand64 (tick unix : BitVec 64) (g : BitVec 64) : BitVec 64 × BitVec 64 :=
  let r := next64 g
  (randSeed tick unix r, r)

/-- Creating one generator after the other with the clock readings given: their seeds.
Repeated calls of rand.gp_64.go:58-60. -/
def newRands (new : BitVec 64 → BitVec 64 → BitVec w → BitVec w × BitVec w) :
    List (BitVec 64 × BitVec 64) → BitVec w → List (BitVec w)
  | [], _ => []
  | c :: cs, g => (new c.1 c.2 g).1 :: newRands new cs (new c.1 c.2 g).2

/-! ## Goroutines -/

/-- The calls of one generator.  rand.gp_64.go:63-109. -/
inductive Op (w : Nat) where
  | rand
  | range (lo hi : BitVec w)
  | max (m : BitVec w)
  | seed
  | srand (v : BitVec w)

/-- What a call does with the new seed obtained from `Rand`.  rand.gp_64.go:79-97. -/
def finish : Op w → BitVec w → Res (BitVec w)
  | .range lo hi, r => inRange lo hi r
  | .max m, r => below m r
  | _, r => .ok r

/-- Where a goroutine is.  The points between the accesses of rand.gp_64.go:63-109. -/
inductive PC (w : Nat) where
  | idle
  /-- `Rand` (called by `op`), before line 66. -/
  | load (op : Op w)
  /-- `Rand`, before line 68, having loaded `o`. -/
  | cas (op : Op w) (o : BitVec w)
  /-- before the return, with the result. -/
  | done (op : Op w) (r : Res (BitVec w))
  /-- `Seed`, before line 102. -/
  | seed
  /-- `Srand`, before line 107. -/
  | swap (v : BitVec w)

/-- The generator and the goroutines.  rand.gp_64.go:47-50. -/
structure St (w : Nat) where
  seed : BitVec w
  pc : Nat → PC w

/-- `NewRand32S`, rand.gp_32.go:53-55. -/
def St.init (s : BitVec w) : St w := ⟨s, fun _ => .idle⟩

/-- The first program point of a call.  rand.gp_64.go:63-109. -/
def entry : Op w → PC w
  | .seed => .seed
  | .srand v => .swap v
  | op => .load op

/-- One step of goroutine `t`.  The accesses of rand.gp_64.go:63-109. -/
inductive Step (a c : BitVec w) : St w → Option (Ev (Op w) (Res (BitVec w))) → St w → Prop
  | call (s : St w) (t : Nat) (op : Op w) : s.pc t = .idle → Step a c s (some (.call t op)) ⟨s.seed, setAt s.pc t (entry op)⟩
  /-- line 66. -/
  | load (s : St w) (t : Nat) (op : Op w) : s.pc t = .load op → Step a c s none ⟨s.seed, setAt s.pc t (.cas op s.seed)⟩
  /-- lines 67-69, the exchange succeeds; the rest of the call is local arithmetic (lines 90-92) and is done at once. -/
  | casOk (s : St w) (t : Nat) (op : Op w) (o : BitVec w) : s.pc t = .cas op o → s.seed = o →
    Step a c s none ⟨next a c o, setAt s.pc t (.done op (finish op (next a c o)))⟩
  /-- line 68, the exchange fails. -/
  | casFail (s : St w) (t : Nat) (op : Op w) (o : BitVec w) : s.pc t = .cas op o → s.seed ≠ o →
    Step a c s none ⟨s.seed, setAt s.pc t (.load op)⟩
  /-- line 102. -/
  | seed (s : St w) (t : Nat) : s.pc t = .seed → Step a c s none ⟨s.seed, setAt s.pc t (.done .seed (.ok s.seed))⟩
  /-- line 107. -/
  | swap (s : St w) (t : Nat) (v : BitVec w) : s.pc t = .swap v →
    Step a c s none ⟨v, setAt s.pc t (.done (.srand v) (.ok s.seed))⟩
  | ret (s : St w) (t : Nat) (op : Op w) (r : Res (BitVec w)) : s.pc t = .done op r →
    Step a c s (some (.ret t r)) ⟨s.seed, setAt s.pc t .idle⟩

/-! ## `strings.Rand` -/

/-- `strings.upper`, strings/rand.go:26. -/
def upper : List UInt8 := [65, 66, 67, 68, 69, 70, 71, 72, 73, 74, 75, 76, 77, 78, 79, 80, 81, 82, 83, 84, 85, 86, 87, 88, 89, 90]

/-- The loop of `strings.Rand`, strings/rand.go:35-37: the remaining `n` characters, from seed `s`.  The new seed is
returned too.  Run without interference on the package's generator. -/
def strLoop : Nat → BitVec 32 → Res (List UInt8 × BitVec 32)
  | 0, s => .ok ([], s)
  | n + 1, s => do
    let r := next32 s
    let k ← below 26#32 r
    let ch ← Go.get upper k.toNat
    let (rest, s') ← strLoop n r
    return (ch :: rest, s')

/-- `strings.Rand`, strings/rand.go:33-39.  `rule` is not used; `make` panics on a negative length. -/
def strRand (_rule : UInt64) (length : Int) (s : BitVec 32) : Res (List UInt8 × BitVec 32) :=
  if length < 0 then .panic else strLoop length.toNat s

end Verif.Rand
