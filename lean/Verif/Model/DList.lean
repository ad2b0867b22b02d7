import Verif.Model.FunctorCmp
/-!
# Model of `stl/list.gp_int.go` (doubly linked cyclic list)

The memory is explicit: an address is a natural number, `none` is the nil pointer, `Mem` maps every
address to the node stored there.  Nodes are created at a fresh address chosen by the caller of the
model (the history model in Props hands out 0, 1, 2, …).  A list object is its field `head`; functions
that change `this.head` return the new one.
-/

namespace Verif.DList
open Verif.Cmp
variable {α : Type}

/-- A pointer.  `*IntListNode`, list.gp_int.go:34-37 and 104-106. -/
abbrev Ptr := Option Nat

/-- `IntListNode`, list.gp_int.go:34-37. -/
structure Node (α : Type) where
  val : α
  prev : Ptr
  next : Ptr

/-- The memory.  The nodes of list.gp_int.go:34-37. -/
abbrev Mem (α : Type) := Nat → Node α

/-- Reading through a pointer; nil panics.  As `mark.prev` at list.gp_int.go:230-231. -/
def rd (h : Mem α) (p : Ptr) : Res (Node α) :=
  match p with
  | some a => .ok (h a)
  | none => .panic

/-- Writing one node.  The assignments of list.gp_int.go:162-232. -/
def upd (h : Mem α) (a : Nat) (n : Node α) : Mem α := fun x => if x = a then n else h x

/-- `p.next = q`.  As list.gp_int.go:164, 166, 201 and 202. -/
def setNext (h : Mem α) (p q : Ptr) : Res (Mem α) :=
  match p with
  | some a => .ok (upd h a { h a with next := q })
  | none => .panic

/-- `p.prev = q`.  As list.gp_int.go:165, 167, 203 and 204. -/
def setPrev (h : Mem α) (p q : Ptr) : Res (Mem α) :=
  match p with
  | some a => .ok (upd h a { h a with prev := q })
  | none => .panic

/-- `&IntListNode{val: v}` at the fresh address `a`.  list.gp_int.go:143, 148, 213 and 221. -/
def newNode (h : Mem α) (a : Nat) (v : α) : Mem α := upd h a ⟨v, none, none⟩

/-- `Get`, list.gp_int.go:39-41. -/
def get (h : Mem α) (p : Ptr) : Res α := do let n ← rd h p; return n.val

/-- `Set`, list.gp_int.go:43-46. -/
def setVal (h : Mem α) (p : Ptr) (v : α) : Res (Mem α × α) :=
  match p with
  | some a => .ok (upd h a { h a with val := v }, (h a).val)
  | none => .panic

/-- `Next`, list.gp_int.go:48-53. -/
def nodeNext (h : Mem α) (p : Ptr) : Ptr := match p with | some a => (h a).next | none => none

/-- `Prev`, list.gp_int.go:55-60. -/
def nodePrev (h : Mem α) (p : Ptr) : Ptr := match p with | some a => (h a).prev | none => none

/-- `IntListNodeVisitor`, list.gp_int.go:62-64. -/
structure Visitor where
  node : Ptr
  head : Ptr
  deriving DecidableEq

/-- `Visitor`, list.gp_int.go:98-101. -/
def visitor (head : Ptr) : Visitor := ⟨none, head⟩

/-- `Next` of the visitor, list.gp_int.go:70-80. -/
def vNext (h : Mem α) (v : Visitor) : Res (Visitor × Bool) :=
  if v.node = none then
    if v.head ≠ none then return ({ v with node := v.head }, true) else return (v, false)
  else do
    let n ← rd h v.node
    return ({ v with node := n.next }, decide (n.next ≠ v.head))

/-- `Prev` of the visitor, list.gp_int.go:82-92. -/
def vPrev (h : Mem α) (v : Visitor) : Res (Visitor × Bool) :=
  if v.node = none then
    if v.head ≠ none then do
      let hd ← rd h v.head
      return ({ v with node := hd.prev }, true)
    else return (v, false)
  else do
    let n ← rd h v.node
    let hd ← rd h v.head
    return ({ v with node := n.prev }, decide (n.prev ≠ hd.prev))

/-- `Front`, list.gp_int.go:117-119. -/
def front (head : Ptr) : Ptr := head

/-- `Back`, list.gp_int.go:120-125. -/
def back (h : Mem α) (head : Ptr) : Res Ptr :=
  if head ≠ none then do let n ← rd h head; return n.prev else return none

/-- `Empty`, list.gp_int.go:331-333. -/
def empty (head : Ptr) : Bool := head == none

/-- `RotateForward`, list.gp_int.go:131-135. -/
def rotateForward (h : Mem α) (head : Ptr) : Res Ptr :=
  if head ≠ none then do let n ← rd h head; return n.next else return head

/-- `RotateBackward`, list.gp_int.go:136-140. -/
def rotateBackward (h : Mem α) (head : Ptr) : Res Ptr :=
  if head ≠ none then do let n ← rd h head; return n.prev else return head

/-- The four link writes `n.next = m; n.prev = m.prev; m.prev.next = n; m.prev = n`
(list.gp_int.go:164-167 with `m = this.head`, 229-232 with `m = mark`). -/
def linkBefore (h : Mem α) (n m : Ptr) : Res (Mem α) := do
  let h ← setNext h n m
  let mm ← rd h m
  let h ← setPrev h n mm.prev
  let mm ← rd h m
  let h ← setNext h mm.prev n
  setPrev h m n

/-- `InsertBack`, list.gp_int.go:159-171: memory, head, returned node. -/
def insertBack (h : Mem α) (head node : Ptr) : Res (Mem α × Ptr × Ptr) :=
  if node ≠ none then
    if head = none then do
      let h ← setNext h node node
      let h ← setPrev h node node
      return (h, node, node)
    else do
      let h ← linkBefore h node head
      return (h, head, node)
  else return (h, head, node)

/-- `InsertFront`, list.gp_int.go:152-157. -/
def insertFront (h : Mem α) (head node : Ptr) : Res (Mem α × Ptr × Ptr) := do
  let (h, head, n) ← insertBack h head node
  if n ≠ none then do
    let head ← rotateBackward h head
    return (h, head, n)
  else return (h, head, n)

/-- `PushFront`, list.gp_int.go:142-145; the new node gets the address `a`. -/
def pushFront (h : Mem α) (head : Ptr) (a : Nat) (v : α) : Res (Mem α × Ptr × Ptr) :=
  insertFront (newNode h a v) head (some a)

/-- `PushBack`, list.gp_int.go:147-150. -/
def pushBack (h : Mem α) (head : Ptr) (a : Nat) (v : α) : Res (Mem α × Ptr × Ptr) :=
  insertBack (newNode h a v) head (some a)

/-- `Remove`, list.gp_int.go:257-270. -/
def remove (h : Mem α) (head node : Ptr) : Res (Mem α × Ptr × Ptr) :=
  match node with
  | none => return (h, head, none)
  | some a =>
    if (h a).next ≠ none ∧ (h a).prev ≠ none then do
      let head' := if (h a).next = some a then none else if some a = head then (h a).next else head
      let h ← setPrev h (h a).next (h a).prev
      let h ← setNext h (h a).prev (h a).next
      let h ← setNext h (some a) none
      let h ← setPrev h (some a) none
      return (h, head', some a)
    else return (h, head, none)

/-- `RemoveFront`, list.gp_int.go:249-251. -/
def removeFront (h : Mem α) (head : Ptr) : Res (Mem α × Ptr × Ptr) := remove h head (front head)

/-- `RemoveBack`, list.gp_int.go:253-255. -/
def removeBack (h : Mem α) (head : Ptr) : Res (Mem α × Ptr × Ptr) := do
  let b ← back h head
  remove h head b

/-- `PopFront`, list.gp_int.go:173-178. -/
def popFront [Inhabited α] (h : Mem α) (head : Ptr) : Res (Mem α × Ptr × α × Bool) := do
  let (h, head, n) ← remove h head (front head)
  if n ≠ none then do
    let v ← get h n
    return (h, head, v, true)
  else return (h, head, default, false)

/-- `PopBack`, list.gp_int.go:180-185. -/
def popBack [Inhabited α] (h : Mem α) (head : Ptr) : Res (Mem α × Ptr × α × Bool) := do
  let b ← back h head
  let (h, head, n) ← remove h head b
  if n ≠ none then do
    let v ← get h n
    return (h, head, v, true)
  else return (h, head, default, false)

/-- `InsertBackList`, list.gp_int.go:195-209: memory, `this.head`, `other.head`, ok. -/
def insertBackList (h : Mem α) (head ohead : Ptr) : Res (Mem α × Ptr × Ptr × Bool) :=
  if !empty ohead then
    if empty head then return (h, ohead, none, true)
    else do
      let myback ← back h head
      let oback ← back h ohead
      let h ← setNext h myback ohead
      let h ← setNext h oback head
      let h ← setPrev h ohead myback
      let h ← setPrev h head oback
      return (h, head, none, true)
  else return (h, head, ohead, false)

/-- `InsertFrontList`, list.gp_int.go:187-193. -/
def insertFrontList (h : Mem α) (head ohead : Ptr) : Res (Mem α × Ptr × Ptr × Bool) := do
  let rotate := !empty head
  let (h, head, ohead, ok) ← insertBackList h head ohead
  if ok && rotate then do
    let head ← rotateBackward h head
    return (h, head, ohead, ok)
  else return (h, head, ohead, ok)

/-- `this.InsertBackList(this)`, list.gp_int.go:195-209: `other` is the same object, so after the call its head is the one
that `other.Clear()` sets (or the old one if the list is empty). -/
def insertBackListSelf (h : Mem α) (head : Ptr) : Res (Mem α × Ptr × Bool) := do
  let (h, _, ohead, ok) ← insertBackList h head head
  return (h, ohead, ok)

/-- `this.InsertFrontList(this)`, list.gp_int.go:187-193: the rotation acts on the head that is left. -/
def insertFrontListSelf (h : Mem α) (head : Ptr) : Res (Mem α × Ptr × Bool) := do
  let rotate := !empty head
  let (h, head, ok) ← insertBackListSelf h head
  if ok && rotate then do
    let head ← rotateBackward h head
    return (h, head, ok)
  else return (h, head, ok)

/-- `InsertBefore`, list.gp_int.go:227-238. -/
def insertBefore (h : Mem α) (head node mark : Ptr) : Res (Mem α × Ptr × Ptr) :=
  if node ≠ none ∧ mark ≠ none ∧ node ≠ mark then do
    let h ← linkBefore h node mark
    if head = mark then do
      let head ← rotateBackward h head
      return (h, head, node)
    else return (h, head, node)
  else return (h, head, node)

/-- `PushBefore`, list.gp_int.go:211-217. -/
def pushBefore (h : Mem α) (head : Ptr) (a : Nat) (v : α) (mark : Ptr) : Res (Mem α × Ptr × Ptr) :=
  if mark ≠ none then insertBefore (newNode h a v) head (some a) mark else return (h, head, none)

/-- `InsertAfter`, list.gp_int.go:240-247. -/
def insertAfter (h : Mem α) (node mark : Ptr) : Res (Mem α × Ptr) :=
  if node ≠ none ∧ mark ≠ none then do
    let m ← rd h mark
    let h ← setNext h node m.next
    let h ← setPrev h node mark
    let h ← setNext h mark node
    return (h, node)
  else return (h, node)

/-- `PushAfter`, list.gp_int.go:219-225. -/
def pushAfter (h : Mem α) (a : Nat) (v : α) (mark : Ptr) : Res (Mem α × Ptr) :=
  if mark ≠ none then insertAfter (newNode h a v) (some a) mark else return (h, none)

/-- `Reachable`, list.gp_int.go:272-281.  The loop starts with `p = node` and has the condition
`p != nil && p != node`, so its body never runs. -/
def reachable (node dest : Ptr) : Bool := decide (node = dest) && decide (node ≠ none)

/-- `IsValidNode`, list.gp_int.go:283-285. -/
def isValidNode (head node : Ptr) : Bool := reachable head node

/-- `MoveBack`, list.gp_int.go:294-305. -/
def moveBack (h : Mem α) (head node : Ptr) : Res (Mem α × Ptr) :=
  match node with
  | none => return (h, none)
  | some a =>
    if (h a).next ≠ none ∧ (h a).prev ≠ none ∧ (h a).next ≠ some a then do
      let h ← setPrev h (h a).next (h a).prev
      let h ← setNext h (h a).prev (h a).next
      let h ← setNext h (some a) head
      let hd ← rd h head
      let h ← setPrev h (some a) hd.prev
      let hd ← rd h head
      let h ← setNext h hd.prev (some a)
      let h ← setPrev h head (some a)
      return (h, some a)
    else return (h, none)

/-- `MoveFront`, list.gp_int.go:287-292: memory, head, returned node. -/
def moveFront (h : Mem α) (head node : Ptr) : Res (Mem α × Ptr × Ptr) := do
  let (h, r) ← moveBack h head node
  if r ≠ none then do
    let head ← rotateBackward h head
    return (h, head, r)
  else return (h, head, r)

/-- `MoveBefore`, list.gp_int.go:307-317. -/
def moveBefore (h : Mem α) (head node mark : Ptr) : Res (Mem α × Ptr × Ptr) :=
  if node ≠ none ∧ mark ≠ none ∧ node ≠ mark ∧ nodeNext h node ≠ mark then do
    let (h, head, r) ← remove h head node
    if r ≠ none then do
      let m ← rd h mark
      let mp ← rd h m.prev
      let h ← setNext h node mp.next
      let m ← rd h mark
      let h ← setPrev h node m.prev
      let m ← rd h mark
      let h ← setNext h m.prev node
      let h ← setPrev h mark node
      return (h, head, r)
    else return (h, head, r)
  else return (h, head, none)

/-- `MoveAfter`, list.gp_int.go:319-329. -/
def moveAfter (h : Mem α) (head node mark : Ptr) : Res (Mem α × Ptr × Ptr) :=
  if node ≠ none ∧ mark ≠ none ∧ node ≠ mark ∧ nodeNext h mark ≠ node then do
    let (h, head, r) ← remove h head node
    if r ≠ none then do
      let m ← rd h mark
      let h ← setNext h node m.next
      let h ← setPrev h node mark
      let m ← rd h mark
      let h ← setPrev h m.next node
      let h ← setNext h mark node
      return (h, head, r)
    else return (h, head, r)
  else return (h, head, none)

/-- The loop of `Reverse`, list.gp_int.go:338-340, at most `fuel` rounds (`none`: fuel exhausted). -/
def reverseLoop : Nat → Mem α → Ptr → Visitor → Res (Option (Mem α × Ptr))
  | 0, _, _, _ => return none
  | fuel + 1, h, head, v => do
    let (v, ok) ← vNext h v
    if ok then do
      let (h, head, _) ← insertFront h head v.node
      reverseLoop fuel h head v
    else return some (h, head)

/-- `Reverse`, list.gp_int.go:335-341. -/
def reverse (fuel : Nat) (h : Mem α) (head : Ptr) : Res (Option (Mem α × Ptr)) :=
  reverseLoop fuel h none (visitor head)

/-- The loop of `merge`, list.gp_int.go:387-397: memory, `this.head`, `other.head` and whether `po` is
not nil at the end. -/
def mergeLoop (less : α → α → Bool) : Nat → Mem α → Ptr → Ptr → Ptr → Ptr →
    Res (Option (Mem α × Ptr × Ptr × Ptr))
  | 0, _, _, _, _, _ => return none
  | fuel + 1, h, head, ohead, p, po =>
    if p ≠ none ∧ po ≠ none then do
      let pn ← rd h p
      let pon ← rd h po
      if F less lesser pon.val pn.val then do
        let (h, ohead, n) ← removeFront h ohead
        let po := front ohead
        let (h, head, _) ← insertBefore h head n p
        mergeLoop less fuel h head ohead p po
      else
        let p := if pn.next = front head then none else pn.next
        mergeLoop less fuel h head ohead p po
    else return some (h, head, ohead, po)

/-- `merge`, list.gp_int.go:380-401; the global comparator is `CreateByName("")` = Lesser (26-32). -/
def merge (less : α → α → Bool) (fuel : Nat) (h : Mem α) (head ohead : Ptr) :
    Res (Option (Mem α × Ptr × Ptr)) :=
  if empty head || empty ohead then do
    let (h, head, ohead, _) ← insertBackList h head ohead
    return some (h, head, ohead)
  else do
    match ← mergeLoop less fuel h head ohead (front head) (front ohead) with
    | none => return none
    | some (h, head, ohead, po) =>
      if po ≠ none then do
        let (h, head, ohead, _) ← insertBackList h head ohead
        return some (h, head, ohead)
      else return some (h, head, ohead)

/-- The inner loop of `mergeSort`, list.gp_int.go:362-365: memory, `hand.head`, `binList`, `i`. -/
def carryLoop (less : α → α → Bool) (fuel nFilled : Nat) : Nat → Mem α → Ptr → List Ptr → Nat →
    Res (Option (Mem α × Ptr × List Ptr × Nat))
  | 0, _, _, _, _ => return none
  | k + 1, h, hand, bins, i => do
    if i < nFilled then do
      let b ← Go.get bins i
      if !empty b then do
        match ← merge less fuel h b hand with
        | none => return none
        | some (h, b, hand) => do
          let bins ← Go.set bins i hand
          carryLoop less fuel nFilled k h b bins (i + 1)
      else return some (h, hand, bins, i)
    else return some (h, hand, bins, i)

/-- The first outer loop of `mergeSort`, list.gp_int.go:359-370: memory, bins, nFilledBin.  `k` bounds the
number of rounds. -/
def distLoop (less : α → α → Bool) (fuel : Nat) : Nat → Mem α → Ptr → Ptr → List Ptr → Nat →
    Res (Option (Mem α × List Ptr × Nat))
  | 0, _, _, _, _, _ => return none
  | k + 1, h, head, hand, bins, nFilled =>
    if !empty head then do
      let (h, head, n) ← removeFront h head
      let (h, hand, _) ← insertFront h hand n
      match ← carryLoop less fuel nFilled fuel h hand bins 0 with
      | none => return none
      | some (h, hand, bins, i) => do
        let b ← Go.get bins i
        let bins ← Go.set bins i hand
        let nFilled := if i = nFilled then nFilled + 1 else nFilled
        distLoop less fuel k h head b bins nFilled
    else return some (h, bins, nFilled)

/-- The second outer loop of `mergeSort`, list.gp_int.go:372-374. -/
def collLoop (less : α → α → Bool) (fuel nFilled : Nat) : Nat → Mem α → List Ptr → Nat →
    Res (Option (Mem α × List Ptr))
  | 0, _, _, _ => return none
  | k + 1, h, bins, i =>
    if i < nFilled then do
      let b ← Go.get bins i
      let c ← Go.get bins (i - 1)
      match ← merge less fuel h b c with
      | none => return none
      | some (h, b, c) => do
        let bins ← Go.set bins i b
        let bins ← Go.set bins (i - 1) c
        collLoop less fuel nFilled k h bins (i + 1)
    else return some (h, bins)

/-- `Sort` / `mergeSort`, list.gp_int.go:343-377; every loop gets `fuel` rounds, `none` means that this was
not enough. -/
def mergeSort (less : α → α → Bool) (fuel : Nat) (h : Mem α) (head : Ptr) : Res (Option (Mem α × Ptr)) :=
  match head with
  | none => return some (h, head)
  | some a =>
    if some a = (h a).next then return some (h, head)
    else do
      match ← distLoop less fuel fuel h head none (List.replicate 64 none) 0 with
      | none => return none
      | some (h, bins, nFilled) =>
        match ← collLoop less fuel nFilled fuel h bins 1 with
        | none => return none
        | some (h, bins) => do
          let r ← Go.get bins (nFilled - 1)
          return some (h, r)

end Verif.DList
