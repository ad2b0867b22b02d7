import Verif.Spec.Containers
/-!
# What the ring buffers of the library really do

A table of three things a client could write down: the elements, the slot of the first element, the number of slots.  No
buffer, no indices of the end.  Nothing in this file refers to the model of the code.
-/

namespace Verif.Spec
variable {α : Type} [Inhabited α]

/-- Elements, slot of the first element, number of slots (0: no buffer yet). -/
structure RingState (α : Type) where
  items : List α
  start : Nat
  room : Nat

/-- The slots of `Init(n)`. -/
def ringRoom (room : Nat) (n : Int) : Nat :=
  if room = 0 then (if n ≤ 0 then 8 else n.toNat) else room

/-- A buffer is made by the first push. -/
def ringReady (r : RingState α) : RingState α := if r.room = 0 then ⟨[], 0, 8⟩ else r

/-- The slot after the first. -/
def slotAfter (r : RingState α) : Nat := if r.start + 1 ≥ r.room then 0 else r.start + 1

/-- The slot before the first. -/
def slotBefore (r : RingState α) : Nat := if r.start = 0 then r.room - 1 else r.start - 1

/-- The elements behind the end of the buffer are laid over the first `h` elements; zero values make up the number. -/
def folded (h : Nat) (l : List α) : List α :=
  (l.drop h).take h ++ (l.take h).drop (l.length - h) ++ List.replicate (min h (l.length - h)) default

/-- Every call on the queue. -/
def queueReal (r : RingState α) : QueueOp α → RingState α × Out α
  | .push v =>
    let r := ringReady r
    if r.items.length + 1 = r.room then
      if r.start = 0 then (⟨r.items ++ [v], 0, r.room * 2⟩, .bool true)
      else (⟨[], r.start, r.room⟩, .bool true)
    else (⟨r.items ++ [v], r.start, r.room⟩, .bool true)
  | .pop =>
    if r.items = [] then (r, .val default false)
    else (⟨r.items.tail, slotAfter r, r.room⟩, outOpt r.items.head?)
  | .clear => (⟨[], 0, r.room⟩, .unit)
  | .init n => (⟨[], 0, ringRoom r.room n⟩, .unit)
  | .front => (r, outOpt r.items.head?)
  | .back => (r, outOpt r.items.getLast?)
  | .size => (r, .nat r.items.length)
  | .empty => (r, .bool r.items.isEmpty)

/-- Every call on the deque; `none` is `Shrink`. -/
def dequeReal (r : RingState α) : Option (DequeOp α) → RingState α × Out α
  | some (.pushBack v) =>
    let r := ringReady r
    if r.items.length + 1 = r.room then (⟨folded (r.room - r.start) (r.items ++ [v]), 0, r.room * 2⟩, .bool true)
    else (⟨r.items ++ [v], r.start, r.room⟩, .bool true)
  | some (.pushFront v) =>
    let r := ringReady r
    if r.items.length + 1 = r.room then (⟨folded (r.room - slotBefore r) (v :: r.items), 0, r.room * 2⟩, .bool true)
    else (⟨v :: r.items, slotBefore r, r.room⟩, .bool true)
  | some .popFront =>
    if r.items = [] then (r, .val default false)
    else (⟨r.items.tail, slotAfter r, r.room⟩, outOpt r.items.head?)
  | some .popBack => (⟨r.items.dropLast, r.start, r.room⟩, outOpt r.items.getLast?)
  | some .clear => (⟨[], 0, r.room⟩, .unit)
  | some (.init n) => (⟨[], 0, ringRoom r.room n⟩, .unit)
  | some .front => (r, outOpt r.items.head?)
  | some .back => (r, outOpt r.items.getLast?)
  | some .size => (r, .nat r.items.length)
  | some .empty => (r, .bool r.items.isEmpty)
  | none =>
    if r.room > 8 ∧ r.room ≥ 3 * r.items.length then
      if r.start + r.items.length < r.room then (⟨r.items, 0, r.room / 2⟩, .bool false)
      else (⟨folded (r.room - r.start) r.items, 0, r.room / 2⟩, .bool false)
    else (r, .bool false)

end Verif.Spec
