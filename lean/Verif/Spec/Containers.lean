/-!
# Specifications of the sequence containers

Plain mathematical sequences (`List`), the calls a client can make, and what each call must return.
Nothing in this file refers to the model of the code.
-/

namespace Verif.Spec
variable {α : Type} [Inhabited α]

/-- Value returned by a container call.  `val v ok` is Go's `(v, ok)` pair; on failure Go returns
the zero value. -/
inductive Out (α : Type) where
  | unit | bool (b : Bool) | nat (n : Nat) | val (v : α) (ok : Bool)
deriving Repr, DecidableEq

/-- `(v, true)` or `(zero, false)`. -/
def outOpt : Option α → Out α
  | some v => .val v true
  | none => .val default false

/-- Client calls on a stack. -/
inductive StackOp (α : Type) where
  | init (bufSize : Int) | push (v : α) | pop | top | size | empty | clear

/-- A LIFO sequence: the head of the list is the top. -/
def stackStep (l : List α) : StackOp α → List α × Out α
  | .init _ => ([], .unit)
  | .push v => (v :: l, .bool true)
  | .pop => (l.tail, outOpt l.head?)
  | .top => (l, outOpt l.head?)
  | .size => (l, .nat l.length)
  | .empty => (l, .bool l.isEmpty)
  | .clear => ([], .unit)

/-- Client calls on a double-ended queue. -/
inductive DequeOp (α : Type) where
  | pushFront (v : α) | pushBack (v : α) | popFront | popBack | front | back | size | empty | clear
  | init (bufSize : Int)

/-- A double-ended sequence: the head of the list is the front. -/
def dequeStep (l : List α) : DequeOp α → List α × Out α
  | .pushFront v => (v :: l, .bool true)
  | .pushBack v => (l ++ [v], .bool true)
  | .popFront => (l.tail, outOpt l.head?)
  | .popBack => (l.dropLast, outOpt l.getLast?)
  | .front => (l, outOpt l.head?)
  | .back => (l, outOpt l.getLast?)
  | .size => (l, .nat l.length)
  | .empty => (l, .bool l.isEmpty)
  | .clear => ([], .unit)
  | .init _ => ([], .unit)

/-- Client calls on a queue. -/
inductive QueueOp (α : Type) where
  | push (v : α) | pop | front | back | size | empty | clear | init (bufSize : Int)

/-- A FIFO sequence: the head of the list is the oldest element. -/
def queueStep (l : List α) : QueueOp α → List α × Out α
  | .push v => (l ++ [v], .bool true)
  | .pop => (l.tail, outOpt l.head?)
  | .front => (l, outOpt l.head?)
  | .back => (l, outOpt l.getLast?)
  | .size => (l, .nat l.length)
  | .empty => (l, .bool l.isEmpty)
  | .clear => ([], .unit)
  | .init _ => ([], .unit)

/-- Run a history of calls through a step function, collecting all returned values. -/
def runSpec {σ ι ο : Type} (step : σ → ι → σ × ο) (s : σ) : List ι → σ × List ο
  | [] => (s, [])
  | i :: is =>
    let (s', o) := step s i
    let (s'', os) := runSpec step s' is
    (s'', o :: os)

end Verif.Spec

namespace Verif.Spec
variable {α : Type} [Inhabited α]

/-- Client calls on an indexable sequence. -/
inductive SeqOp (α : Type) where
  | push (v : α) | insert (v : α) (idx : Int) | remove (idx : Int) | pop | get (idx : Int)
  | mustGet (idx : Int) | len

/-- Position of a valid index. -/
def pos? (l : List α) (idx : Int) : Option Nat :=
  if 0 ≤ idx ∧ idx < l.length then some idx.toNat else none

/-- An indexable sequence; `none` is a panic (only MustGet out of range is allowed to).  Insert at an
index that is not a position appends. -/
def seqStep (l : List α) : SeqOp α → Option (List α × Out α)
  | .push v => some (l ++ [v], .nat (l.length + 1))
  | .insert v idx =>
    some (match pos? l idx with
      | some i => l.insertIdx i v
      | none => l ++ [v], .nat (l.length + 1))
  | .remove idx =>
    some (match pos? l idx with
      | some i => (l.eraseIdx i, outOpt l[i]?)
      | none => (l, outOpt none))
  | .pop => some (l.dropLast, outOpt l.getLast?)
  | .get idx => some (l, outOpt ((pos? l idx).bind fun i => l[i]?))
  | .mustGet idx => ((pos? l idx).bind fun i => l[i]?).map fun v => (l, .val v true)
  | .len => some (l, .nat l.length)

end Verif.Spec
