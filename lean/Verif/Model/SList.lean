import Verif.Model.FunctorCmp
/-!
# Model of `stl/slist.gp_int.go` (singly linked list with a dummy head node)

The memory is explicit.  An address is either the dummy node inside the list object `i` (`hd i`, the Go
expression `&list.head`) or an allocated node (`nd k`).  `none` is the nil pointer.  Loops that run along
a chain take a fuel argument; the result `none` means that the loop has not ended after that many rounds.
-/

namespace Verif.SList
open Verif.Cmp
variable {α : Type}

/-- Addresses of nodes.  slist.gp_int.go:34-37 and 84-89. -/
inductive Addr where
  | hd (i : Nat)
  | nd (k : Nat)
  deriving DecidableEq

/-- A pointer.  `*IntSListNode`, slist.gp_int.go:34-37. -/
abbrev Ptr := Option Addr

/-- `IntSListNode`, slist.gp_int.go:34-37. -/
structure Node (α : Type) where
  val : α
  next : Ptr

/-- The memory.  The nodes of slist.gp_int.go:34-37 and 84-89. -/
abbrev Mem (α : Type) := Addr → Node α

/-- `a.next = q`.  The assignments of slist.gp_int.go:115-238 and 327. -/
def setNext (h : Mem α) (a : Addr) (q : Ptr) : Mem α :=
  fun x => if x = a then { h a with next := q } else h x

/-- `&IntSListNode{val: v, next: q}` at the fresh address `nd k`.  slist.gp_int.go:121 and 152. -/
def newNode (h : Mem α) (k : Nat) (v : α) (q : Ptr) : Mem α :=
  fun x => if x = .nd k then ⟨v, q⟩ else h x

/-- `Get`, slist.gp_int.go:39-41; nil panics. -/
def get (h : Mem α) (p : Ptr) : Res α :=
  match p with
  | some a => .ok (h a).val
  | none => .panic

/-- `Set`, slist.gp_int.go:43-46. -/
def setVal (h : Mem α) (p : Ptr) (v : α) : Res (Mem α × α) :=
  match p with
  | some a => .ok ((fun x => if x = a then { h a with val := v } else h x), (h a).val)
  | none => .panic

/-- The loop of `Tail`, slist.gp_int.go:50. -/
def tailLoop : Nat → Mem α → Addr → Nat → Option (Addr × Nat)
  | 0, _, _, _ => none
  | fuel + 1, h, r, size =>
    match (h r).next with
    | some a => tailLoop fuel h a (size + 1)
    | none => some (r, size)

/-- `Tail`, slist.gp_int.go:48-54. -/
def tail (fuel : Nat) (h : Mem α) (p : Ptr) : Option (Ptr × Nat) :=
  match p with
  | some a => (tailLoop fuel h a 1).map fun (r, n) => (some r, n)
  | none => some (none, 0)

/-- `Next` of a node, slist.gp_int.go:56-61. -/
def nodeNext (h : Mem α) (p : Ptr) : Ptr := match p with | some a => (h a).next | none => none

/-- `IntSListNodeVisitor`, slist.gp_int.go:63-65. -/
structure Visitor where
  node : Ptr
  head : Ptr
  deriving DecidableEq

/-- `Next` of the visitor, slist.gp_int.go:67-77; it ends with `return false`. -/
def vNext (h : Mem α) (v : Visitor) : Visitor × Bool :=
  match v.node with
  | none => (if v.head ≠ none then { v with node := v.head } else v, false)
  | some a => ({ v with node := (h a).next }, false)

/-- `Empty`, slist.gp_int.go:96-98. -/
def empty (h : Mem α) (l : Nat) : Bool := decide ((h (.hd l)).next ≠ none)

/-- `Visitor`, slist.gp_int.go:106-109. -/
def visitor (h : Mem α) (l : Nat) : Visitor := ⟨none, (h (.hd l)).next⟩

/-- The loop of `Len`, slist.gp_int.go:101-102. -/
def lenLoop : Nat → Mem α → Visitor → Nat → Option Nat
  | 0, _, _, _ => none
  | fuel + 1, h, v, n =>
    let (v', ok) := vNext h v
    if ok then lenLoop fuel h v' (n + 1) else some n

/-- `Len`, slist.gp_int.go:100-104. -/
def len (fuel : Nat) (h : Mem α) (l : Nat) : Option Nat := lenLoop fuel h (visitor h l) 0

/-- `Front`, slist.gp_int.go:111-113. -/
def front (h : Mem α) (l : Nat) : Ptr := (h (.hd l)).next

/-- `Clear`, slist.gp_int.go:115-118. -/
def clear (h : Mem α) (l : Nat) : Mem α := setNext h (.hd l) none

/-- `PushFront`, slist.gp_int.go:120-125; the new node gets the address `nd k`. -/
def pushFront (h : Mem α) (l : Nat) (k : Nat) (v : α) : Mem α × Ptr :=
  (setNext (newNode h k v (h (.hd l)).next) (.hd l) (some (.nd k)), some (.nd k))

/-- The search of `Remove`, slist.gp_int.go:179-180 and 186: the `b` with `b.next == node`. -/
def scanRemove : Nat → Mem α → Addr → Addr → Option (Option Addr)
  | 0, _, _, _ => none
  | fuel + 1, h, b, node =>
    match (h b).next with
    | none => some none
    | some c => if c = node then some (some b) else scanRemove fuel h c node

/-- `Remove`, slist.gp_int.go:177-189: memory and returned node. -/
def remove (fuel : Nat) (h : Mem α) (l : Nat) (node : Ptr) : Option (Mem α × Ptr) :=
  match node with
  | none => some (h, none)
  | some x =>
    match scanRemove fuel h (.hd l) x with
    | none => none
    | some none => some (h, none)
    | some (some b) =>
      let h := setNext h b (h x).next
      let h := setNext h x none
      some (h, some x)

/-- `PopFront`, slist.gp_int.go:127-132. -/
def popFront [Inhabited α] (fuel : Nat) (h : Mem α) (l : Nat) : Option (Mem α × α × Bool) :=
  match remove fuel h l (front h l) with
  | none => none
  | some (h, some a) => some (h, (h a).val, true)
  | some (h, none) => some (h, default, false)

/-- `RemoveFront`, slist.gp_int.go:172-175. -/
def removeFront (fuel : Nat) (h : Mem α) (l : Nat) : Option (Mem α × Ptr) :=
  remove fuel h l (h (.hd l)).next

/-- `PushFrontList`, slist.gp_int.go:134-144; `other` keeps its head. -/
def pushFrontList (fuel : Nat) (h : Mem α) (l o : Nat) : Option (Mem α) :=
  match tail fuel h (h (.hd o)).next with
  | none => none
  | some (none, _) => some h
  | some (some t, _) =>
    let h := setNext h t (h (.hd l)).next
    some (setNext h (.hd l) (h (.hd o)).next)

/-- `InsertAfter`, slist.gp_int.go:158-165. -/
def insertAfter (h : Mem α) (node mark : Ptr) : Mem α × Ptr :=
  match node, mark with
  | some n, some m =>
    if n ≠ m then
      let h := setNext h n (h m).next
      (setNext h m (some n), some n)
    else (h, none)
  | _, _ => (h, none)

/-- `PushAfter`, slist.gp_int.go:150-156. -/
def pushAfter (h : Mem α) (k : Nat) (v : α) (mark : Ptr) : Mem α × Ptr :=
  match mark with
  | some m => insertAfter (newNode h k v (h m).next) (some (.nd k)) mark
  | none => (h, none)

/-- `InsertFront`, slist.gp_int.go:167-170. -/
def insertFront (h : Mem α) (l : Nat) (node : Ptr) : Mem α × Ptr := insertAfter h node (some (.hd l))

/-- The searches of `MoveFront`, slist.gp_int.go:193-194 and 201, and of `MoveAfter`, 213-214 and 223. -/
def scanMove : Nat → Mem α → Ptr → Addr → Option (Option Addr)
  | 0, _, _, _ => none
  | fuel + 1, h, p, node =>
    match p with
    | none => some none
    | some b => if (h b).next = some node then some (some b) else scanMove fuel h (h b).next node

/-- `MoveFront`, slist.gp_int.go:191-205. -/
def moveFront (fuel : Nat) (h : Mem α) (l : Nat) (node : Ptr) : Option (Mem α × Ptr) :=
  match node with
  | none => some (h, none)
  | some x =>
    match scanMove fuel h (h (.hd l)).next x with
    | none => none
    | some none => some (h, none)
    | some (some b) =>
      let h := setNext h b (h x).next
      let h := setNext h x (h (.hd l)).next
      let h := setNext h (.hd l) (some x)
      some (h, some x)

/-- `MoveAfter`, slist.gp_int.go:211-227. -/
def moveAfter (fuel : Nat) (h : Mem α) (l : Nat) (node mark : Ptr) : Option (Mem α × Ptr) :=
  match node, mark with
  | some x, some m =>
    if x ≠ m then
      match scanMove fuel h (some (.hd l)) x with
      | none => none
      | some none => some (h, none)
      | some (some b) =>
        if b ≠ m then
          let h := setNext h b (h x).next
          let h := setNext h x (h m).next
          let h := setNext h m (some x)
          some (h, some x)
        else some (h, none)
    else some (h, none)
  | _, _ => some (h, none)

/-- The loop of `Reverse`, slist.gp_int.go:233-237. -/
def reverseLoop : Nat → Mem α → Nat → Ptr → Option (Mem α)
  | 0, _, _, _ => none
  | fuel + 1, h, l, p =>
    match p with
    | none => some h
    | some a =>
      let q := (h a).next
      reverseLoop fuel (insertFront h l (some a)).1 l q

/-- `Reverse`, slist.gp_int.go:229-238. -/
def reverse (fuel : Nat) (h : Mem α) (l : Nat) : Option (Mem α) :=
  let p := (h (.hd l)).next
  reverseLoop fuel (clear h l) l p

/-- `p.next`; nil panics.  The loop conditions of slist.gp_int.go:177-270. -/
def deref (h : Mem α) (p : Ptr) : Res Ptr :=
  match p with
  | some a => .ok (h a).next
  | none => .panic

/-- The loop of `HasCycle`, slist.gp_int.go:241-251; `ok` is the named result. -/
def cycleLoop : Nat → Mem α → Ptr → Ptr → Bool → Res (Option Bool)
  | 0, _, _, _, _ => return none
  | fuel + 1, h, slow, fast, ok =>
    if fast = none then return some ok
    else do
      let fast ← deref h fast
      if fast = none then return some false
      else do
        let fast ← deref h fast
        let slow ← deref h slow
        if fast = slow then return some true
        else do
          let f1 ← deref h fast
          let fast ← deref h f1
          let slow ← deref h slow
          cycleLoop fuel h slow fast false

/-- `HasCycle`, slist.gp_int.go:240-253. -/
def hasCycle (fuel : Nat) (h : Mem α) (head : Ptr) : Res (Option Bool) := cycleLoop fuel h head head false

/-- `Reachable`, slist.gp_int.go:261-270.  The loop starts with `p = node` and has the condition
`p != nil && p != node`, so its body never runs. -/
def reachable (node dest : Ptr) : Bool := decide (node = dest) && decide (node ≠ none)

/-- `IsValidNode`, slist.gp_int.go:272-274. -/
def isValidNode (h : Mem α) (l : Nat) (node : Ptr) : Bool := reachable (h (.hd l)).next node

/-- The loop of `merge`, slist.gp_int.go:316-325: memory, `p` and `po` at its end. -/
def mergeLoop (less : α → α → Bool) : Nat → Mem α → Nat → Addr → Ptr → Option (Res (Mem α × Addr × Ptr))
  | 0, _, _, _, _ => none
  | fuel + 1, h, o, p, po =>
    match (h p).next, po with
    | some pn, some pa =>
      if F less lesser (h pa).val (h pn).val then
        match removeFront (fuel + 1) h o with
        | none => none
        | some (h, n) =>
          match insertAfter h n (some p) with
          | (h', some p') => mergeLoop less fuel h' o p' (front h o)
          | (_, none) => some .panic    -- the next `p.next` dereferences nil
      else mergeLoop less fuel h o pn po
    | _, _ => some (.ok (h, p, po))

/-- `merge`, slist.gp_int.go:314-331. -/
def merge (less : α → α → Bool) (fuel : Nat) (h : Mem α) (l o : Nat) : Option (Res (Mem α)) :=
  match mergeLoop less fuel h o (.hd l) (front h o) with
  | none => none
  | some .panic => some .panic
  | some (.ok (h, p, po)) =>
    if po ≠ none then some (.ok (clear (setNext h p po) o)) else some (.ok h)

/-- `x, y = y, x` for list objects: the dummy heads exchange their `next`.  slist.gp_int.go:297 and 299. -/
def swapHeads (h : Mem α) (x y : Nat) : Mem α :=
  setNext (setNext h (.hd x) (h (.hd y)).next) (.hd y) (h (.hd x)).next

/-- The inner loop of `mergeSort`, slist.gp_int.go:295-298; the list objects are `hand` and
`bin i`. -/
def carryLoop (less : α → α → Bool) (fuel : Nat) (hand : Nat) (bin : Nat → Nat) (filled : Nat) :
    Nat → Mem α → Nat → Option (Res (Mem α × Nat))
  | 0, _, _ => none
  | f + 1, h, i =>
    if i < filled ∧ empty h (bin i) = false then
      match merge less fuel h (bin i) hand with
      | none => none
      | some .panic => some .panic
      | some (.ok h) => carryLoop less fuel hand bin filled f (swapHeads h hand (bin i)) (i + 1)
    else some (.ok (h, i))

/-- The outer loop of `mergeSort`, slist.gp_int.go:292-303. -/
def sortLoop (less : α → α → Bool) (fuel : Nat) (hand uns : Nat) (bin : Nat → Nat) :
    Nat → Mem α → Nat → Option (Res (Mem α × Nat))
  | 0, _, _ => none
  | f + 1, h, filled =>
    if empty h uns = false then
      match removeFront fuel h uns with
      | none => none
      | some (h, n) =>
        match carryLoop less fuel hand bin filled fuel (insertFront h hand n).1 0 with
        | none => none
        | some .panic => some .panic
        | some (.ok (h, i)) =>
          sortLoop less fuel hand uns bin f (swapHeads h hand (bin i)) (if i = filled then filled + 1 else filled)
    else some (.ok (h, filled))

/-- The last loop of `mergeSort`, slist.gp_int.go:305-307, from `i` up to `filled`. -/
def collectLoop (less : α → α → Bool) (fuel : Nat) (bin : Nat → Nat) : Nat → Mem α → Nat → Option (Res (Mem α))
  | 0, h, _ => some (.ok h)
  | n + 1, h, i =>
    match merge less fuel h (bin i) (bin (i - 1)) with
    | none => none
    | some .panic => some .panic
    | some (.ok h) => collectLoop less fuel bin n h (i + 1)

/-- `mergeSort`, slist.gp_int.go:285-311.  `hand`, `uns`, `bin` name the local list objects (zero
values).  `binList[nFilledBin-1]` panics when nothing was filled. -/
def mergeSort (less : α → α → Bool) (fuel : Nat) (h : Mem α) (l hand uns : Nat) (bin : Nat → Nat) :
    Option (Res (Mem α)) :=
  let h := setNext h (.hd uns) (h (.hd l)).next
  match sortLoop less fuel hand uns bin fuel h 0 with
  | none => none
  | some .panic => some .panic
  | some (.ok (h, filled)) =>
    match collectLoop less fuel bin (filled - 1) h 1 with
    | none => none
    | some .panic => some .panic
    | some (.ok h) =>
      if filled = 0 then some .panic else some (.ok (setNext h (.hd l) (h (.hd (bin (filled - 1)))).next))

/-- `Sort`, slist.gp_int.go:277-282. -/
def sort (less : α → α → Bool) (fuel : Nat) (h : Mem α) (l hand uns : Nat) (bin : Nat → Nat) :
    Option (Res (Mem α)) :=
  match (h (.hd l)).next with
  | none => some (.ok h)
  | some a => if (h a).next = none then some (.ok h) else mergeSort less fuel h l hand uns bin

end Verif.SList
