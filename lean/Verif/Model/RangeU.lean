import Verif.Model.Go
/-!
# Model of the ranged counters and of `Seq64`

`math/range_uint32.go` (`RangeUint32`) and `math/range_uint64.go` (`RangeUInt64`) are the same code at two widths,
except for `Mod`, which has a flag here.  An error is the Boolean `true`; its text is not modelled.  In the source
most of the lines that would produce an error are commented out; the branches are kept here, with the empty body they
have.  Not modelled: `String`, `Info`.
-/

namespace Verif.RangeU

variable {w : Nat}

/-- `RangeUint32`, range_uint32.go:14-16; `RangeUInt64`, range_uint64.go:20-22. -/
structure R (w : Nat) where
  val : BitVec w
  min : BitVec w
  max : BitVec w
  deriving DecidableEq, Repr

/-- `InRange`, range_uint32.go:116-119, range_uint64.go:122-125. -/
def inRange (me : R w) (x : BitVec w) : Bool := decide (me.min ≤ x) && decide (x ≤ me.max)

/-- `InCurrentRange`, range_uint32.go:120-123, range_uint64.go:127-130. -/
def inCurrentRange (me : R w) (x : BitVec w) : Bool := decide (me.min ≤ x) && decide (x ≤ me.val)

/-- `verify`, range_uint32.go:136-141, range_uint64.go:137-142: the assignment of the error is commented out. -/
def verify (me : R w) (x : BitVec w) : Bool :=
  let err := false
  if !inRange me x then err else err

/-- `verifyRangeUint32`, range_uint32.go:143-150; `verifyRangeUInt64`, range_uint64.go:144-151. -/
def verifyRange (val min max : BitVec w) : Bool :=
  let err := false
  if max < min then err else if val < min ∨ max < val then err else err

/-- `NewRangeUint32`, range_uint32.go:18-23: `none` is the nil pointer. -/
def new (val min max : BitVec w) : Option (R w) × Bool :=
  let err := verifyRange val min max
  if err = false then (some ⟨val, min, max⟩, err) else (none, err)

/-- The methods that may change the object or may fail.  range_uint32.go:25-123 and range_uint64.go:31-125. -/
inductive Op (w : Nat) where
  | init (val min max : BitVec w)
  | reset | resetR
  | add (x : BitVec w) | sub (x : BitVec w) | mul (x : BitVec w) | div (x : BitVec w) | mod (x : BitVec w)
  | inc | dec (x : BitVec w) | set (x : BitVec w)

/-- `Set`, range_uint32.go:97-103. -/
def set (me : R w) (x : BitVec w) : R w × BitVec w × Bool :=
  let r := me.val
  let err := verify me x
  if err = false then (⟨x, me.min, me.max⟩, r, err) else (me, r, err)

/-- One method call.  `modErr` says whether `Mod` by zero reports an error (range_uint32.go:77) or goes on to divide
(range_uint64.go:83 is commented out).  The result is the new object, the number returned (0 where the method returns
none) and whether an error is returned. -/
def step (modErr : Bool) (me : R w) : Op w → Res (R w × BitVec w × Bool)
  /- range_uint32.go:35-40 -/
  | .init val min max =>
    let err := verifyRange val min max
    if err = false then .ok (⟨val, min, max⟩, 0#w, err) else .ok (me, 0#w, err)
  /- range_uint32.go:25-28 -/
  | .reset => .ok (⟨me.min, me.min, me.max⟩, 0#w, false)
  /- range_uint32.go:30-33 -/
  | .resetR => .ok (⟨me.max, me.min, me.max⟩, 0#w, false)
  /- range_uint32.go:42-49 -/
  | .add x => let v := me.val + x; .ok (me, v, verify me v)
  /- range_uint32.go:50-57 -/
  | .sub x => let v := me.val - x; .ok (me, v, verify me v)
  /- range_uint32.go:59-66 -/
  | .mul x => let v := me.val * x; .ok (me, v, verify me v)
  /- range_uint32.go:67-74 -/
  | .div x => if x = 0#w then .panic else let v := me.val / x; .ok (me, v, verify me v)
  /- range_uint32.go:75-82, range_uint64.go:81-88 -/
  | .mod x =>
    if x = 0#w then (if modErr then .ok (me, me.min, true) else .panic)
    else let v := me.val % x; .ok (me, v, verify me v)
  /- range_uint32.go:83-89 -/
  | .inc => .ok (set me (me.val + 1#w))
  /- range_uint32.go:90-96: the argument is not used. -/
  | .dec _ => .ok (set me (me.val - 1#w))
  /- range_uint32.go:97-103 -/
  | .set x => .ok (set me x)

/-- A history of calls.  Calls of range_uint32.go:25-123 and range_uint64.go:31-125. -/
def run (modErr : Bool) (me : R w) : List (Op w) → Res (R w × List (BitVec w × Bool))
  | [] => .ok (me, [])
  | op :: ops => do
    let (me', r) ← step modErr me op
    let (me'', rs) ← run modErr me' ops
    return (me'', r :: rs)

end Verif.RangeU

namespace Verif.Seq
open Verif.RangeU

/-! `math/seq/sequence64.go`.  Not modelled: the name, `Infor`, the printing of `NextNoErr`; the locked wrapper
`SeqNext64` (lines 15-20) is in `Verif/Model/Guarded.lean`.  The file imports the counters by an older path of the same author
(`vipally.gmail.com/basic/math`); they are taken to be those of `math/range_uint64.go`. -/

/-- sequence.go:22. -/
def nouseFst : BitVec 32 := 0x100#32
/-- sequence.go:25: `_get_usage_option`. -/
def usageMask : BitVec 32 := 0xF00#32
/-- sequence.go:20: `_get_cecycle`. -/
def recycleMask : BitVec 32 := 0xF0#32
/-- sequence.go:15. -/
def noRec : BitVec 32 := 0x10#32
/-- sequence.go:17. -/
def recFst : BitVec 32 := 0x30#32
/-- sequence.go:18. -/
def recLst : BitVec 32 := 0x40#32
/-- sequence.go:23. -/
def panicErr : BitVec 32 := 0x200#32

/-- `Seq64`, sequence64.go:22-26. -/
structure S where
  id : R 64
  option : BitVec 32
  deriving DecidableEq

/-- `NewSeq64`, sequence64.go:28-43. -/
def new (min max : BitVec 64) (option : BitVec 32) : Res (Option S) := do
  let zero : R 64 := ⟨0#64, 0#64, 0#64⟩
  let (id, _, err) ← step false zero (.init min min max)
  if err then return none
  let (id, _, _) ← step false id .reset
  if option &&& usageMask = nouseFst then
    let (id, _, _) ← step false id .inc
    return some ⟨id, option⟩
  return some ⟨id, option⟩

/-- `pop_recycle`, sequence64.go:108-113: always `(0, nil)`. -/
def popRecycle (s : S) (t : BitVec 32) : BitVec 64 × Bool :=
  if s.option &&& recycleMask = t then (0#64, false) else (0#64, false)

/-- The deferred handler of `Next`, sequence64.go:56-60. -/
def handler (s : S) (r : BitVec 64) (err : Bool) : Res (S × BitVec 64 × Bool) :=
  if err = true ∧ s.option &&& panicErr = panicErr then .panic else .ok (s, r, err)

/-- `Next`, sequence64.go:55-78. -/
def next (s : S) : Res (S × BitVec 64 × Bool) :=
  let (r, err) := popRecycle s recFst
  if err = true then handler s r err
  else do
    let (id, r, err) ← step false s.id .inc
    let s : S := ⟨id, s.option⟩
    if err = true then
      if s.option &&& recycleMask = noRec then .panic
      else
        let (r, err) := popRecycle s recLst
        handler s r err
    else handler s r err

/-- `Current`, sequence64.go:45-48. -/
def current (s : S) : BitVec 64 := s.id.val

/-- `Recycle`, sequence64.go:89-96; `push_recycle` (lines 105-107) does nothing.  `true`: an error is returned. -/
def recycle (s : S) (r : BitVec 64) : S × Bool := if inCurrentRange s.id r then (s, false) else (s, true)

/-- What a client does.  sequence64.go:55-96. -/
inductive Op where
  | next
  | recycle (r : BitVec 64)

/-- A history; the ids handed out by `Next`, in order, with their errors.  Calls of sequence64.go:55-96. -/
def run (s : S) : List Op → Res (S × List (BitVec 64 × Bool))
  | [] => .ok (s, [])
  | .next :: ops => do
    let (s', r) ← next s
    let (s'', rs) ← run s' ops
    return (s'', r :: rs)
  | .recycle r :: ops => run (recycle s r).1 ops

end Verif.Seq
