/-!
# Model of the tree template `stl/gp/rbtree.gp.go`

The file is a template that is commented out as a whole; it is modelled as if it were compiled, with `VALUE_TYPE`
undefined (a node holds a key).  Nodes live at addresses; address 0 is `&this.header`.  Pointers are `Option Nat`.  The
comparison `cmp.F` is a parameter `lt`: `NewRBTree` and `Init` (which drops the result of `CreateByBool`) leave the zero
value `CMPLesser`, so it is the order of the key type.  A loop over pointers takes fuel, and `more` means that it has not
ended after so many rounds.
-/

namespace Verif.RBTree

/-- The result of a call: a value, a nil dereference, or not yet finished.
For the loops of rbtree.gp.go:225-276, 318-353 and 422-435. -/
inductive Run (α : Type) where
  | ok (a : α)
  | panic
  | more
deriving DecidableEq

/-- Sequencing.  Statement order in rbtree.gp.go. -/
def Run.bind {α β : Type} : Run α → (α → Run β) → Run β
  | .ok a, f => f a
  | .panic, _ => .panic
  | .more, _ => .more

instance : Monad Run where
  pure := .ok
  bind := Run.bind

/-- `RBTree` and its nodes, rbtree.gp.go:151-155 and 191-195; `red` is `color == RBTREE_RED`.  Node `i ≤ n` exists. -/
structure T (κ : Type) where
  key : Nat → κ
  left : Nat → Option Nat
  right : Nat → Option Nat
  parent : Nat → Option Nat
  red : Nat → Bool
  n : Nat
  size : Nat

/-- Writing one field of a node.  The assignments of rbtree.gp.go:278-376. -/
def upd {β : Type} (f : Nat → β) (a : Nat) (b : β) : Nat → β := fun x => if x = a then b else f x

variable {κ : Type} (lt : κ → κ → Bool)

/-- `NewRBTree`, rbtree.gp.go:305-307. -/
def new (zero : κ) : T κ := ⟨fun _ => zero, fun _ => none, fun _ => none, fun _ => none, fun _ => true, 0, 0⟩

/-- `Init`, rbtree.gp.go:309-316. -/
def init (t : T κ) : T κ :=
  { t with parent := upd t.parent 0 none, left := upd t.left 0 none, right := upd t.right 0 none,
           red := upd t.red 0 true, size := 0 }

/-- `Clear`, rbtree.gp.go:398-400. -/
def clear (t : T κ) : T κ := init t

/-- `root`, rbtree.gp.go:163-165. -/
def root (t : T κ) : Option Nat := t.parent 0

/-- `topLeft` of a node, rbtree.gp.go:225-231. -/
def topLeft (t : T κ) : Nat → Nat → Run Nat
  | 0, _ => .more
  | fuel + 1, n =>
    match t.left n with
    | some l => topLeft t fuel l
    | none => .ok n

/-- `topRight` of a node, rbtree.gp.go:233-239. -/
def topRight (t : T κ) : Nat → Nat → Run Nat
  | 0, _ => .more
  | fuel + 1, n =>
    match t.right n with
    | some r => topRight t fuel r
    | none => .ok n

/-- The loop of `next`, rbtree.gp.go:248-250: the final `x` and `y`. -/
def climbRight (t : T κ) : Nat → Nat → Option Nat → Run (Nat × Option Nat)
  | 0, _, _ => .more
  | _ + 1, _, none => .panic
  | fuel + 1, x, some y => if t.right y = some x then climbRight t fuel y (t.parent y) else .ok (x, some y)

/-- `next`, rbtree.gp.go:242-258. -/
def next (t : T κ) (fuel : Nat) (this : Nat) : Run (Option Nat) :=
  match t.right this with
  | some r => do let n ← topLeft t fuel r; return some n
  | none => do
    let (x, y) ← climbRight t fuel this (t.parent this)
    return if t.right x ≠ y then y else some x

/-- The loop of `prev`, rbtree.gp.go:269-271. -/
def climbLeft (t : T κ) : Nat → Nat → Option Nat → Run (Option Nat)
  | 0, _, _ => .more
  | _ + 1, _, none => .panic
  | fuel + 1, x, some y => if t.left y = some x then climbLeft t fuel y (t.parent y) else .ok (some y)

/-- `prev`, rbtree.gp.go:261-276. -/
def prev (t : T κ) (fuel : Nat) (this : Nat) : Run (Option Nat) :=
  if t.red this = true ∧ t.parent this = some this then .ok (t.right this)
  else
    match t.left this with
    | some l => do let n ← topRight t fuel l; return some n
    | none => climbLeft t fuel this (t.parent this)

/-- `createNode`, rbtree.gp.go:157-161: the new node is at address `t.n + 1`. -/
def create (t : T κ) (k : κ) : T κ :=
  let z := t.n + 1
  { t with n := z, key := upd t.key z k, left := upd t.left z none, right := upd t.right z none,
           parent := upd t.parent z none, red := upd t.red z true }

/-- The first branch of `insert`, rbtree.gp.go:358-364. -/
def linkLeft (t : T κ) (y z : Nat) : T κ :=
  let t := { t with left := upd t.left y (some z) }
  if y = 0 then { t with parent := upd t.parent 0 (some z), right := upd t.right 0 (some z) }
  else if t.left 0 = some y then { t with left := upd t.left 0 (some z) }
  else t

/-- The second branch of `insert`, rbtree.gp.go:366-369. -/
def linkRight (t : T κ) (y z : Nat) : T κ :=
  let t := { t with right := upd t.right y (some z) }
  if t.right 0 = some y then { t with right := upd t.right 0 (some z) } else t

/-- `rebalence`, rbtree.gp.go:219-223, called with the root pointer of the tree. -/
def rebalence (t : T κ) (z : Nat) : T κ := if t.parent 0 = some z then { t with red := upd t.red z true } else t

/-- `insert`, rbtree.gp.go:355-376: the tree and the new node. -/
def insert (t : T κ) (x : Option Nat) (y : Nat) (k : κ) : T κ × Nat :=
  let z := t.n + 1
  let t := create t k
  let t := if y = 0 ∨ x ≠ none ∨ lt k (t.key y) = true then linkLeft t y z else linkRight t y z
  let t := { t with parent := upd t.parent z (some y), left := upd t.left z none, right := upd t.right z none }
  let t := rebalence t z
  ({ t with size := t.size + 1 }, z)

/-- The loop of `insertUnique`, rbtree.gp.go:320-328: the final `y` and `comp` (`x` is nil then). -/
def descend (t : T κ) (k : κ) : Nat → Option Nat → Nat → Bool → Run (Nat × Bool)
  | 0, _, _, _ => .more
  | _ + 1, none, y, comp => .ok (y, comp)
  | fuel + 1, some x, _, _ =>
    let comp := lt k (t.key x)
    descend t k fuel (if comp then t.left x else t.right x) x comp

/-- `insertUnique`, rbtree.gp.go:318-340. -/
def insertUnique (t : T κ) (fuel : Nat) (k : κ) : Run (T κ × Option Nat) := do
  let (y, comp) ← descend lt t k fuel (root t) 0 true
  let finish (y : Nat) : T κ × Option Nat :=
    if lt (t.key y) k then let (t', z) := insert lt t none y k; (t', some z) else (t, none)
  if comp then
    if t.left 0 = some y then
      let (t', z) := insert lt t none y k
      return (t', some z)
    else
      match ← prev t fuel y with
      | none => .panic
      | some y => return finish y
  else return finish y

/-- `insertEqual`, rbtree.gp.go:342-353; its loop is that of `insertUnique` without `comp`. -/
def insertEqual (t : T κ) (fuel : Nat) (k : κ) : Run (T κ × Nat) := do
  let (y, _) ← descend lt t k fuel (root t) 0 true
  return insert lt t none y k

/-- The loop of `Find`, rbtree.gp.go:424-430. -/
def findLoop (t : T κ) (k : κ) : Nat → Option Nat → Option Nat → Run (Option Nat)
  | 0, _, _ => .more
  | _ + 1, none, y => .ok y
  | fuel + 1, some n, y =>
    if !lt (t.key n) k then findLoop t k fuel (t.left n) (some n) else findLoop t k fuel (t.right n) y

/-- `Find`, rbtree.gp.go:422-435. -/
def find (t : T κ) (fuel : Nat) (k : κ) : Run (Option Nat) := do
  match ← findLoop lt t k fuel (root t) none with
  | some y => return if !lt k (t.key y) then some y else none
  | none => return none

/-- `Begin`, rbtree.gp.go:390-392. -/
def begin (t : T κ) : Option Nat := t.left 0

/-- `End`, rbtree.gp.go:394-396. -/
def end' (_t : T κ) : Nat := 0

/-- `Empty`, rbtree.gp.go:382-384. -/
def empty (t : T κ) : Bool := (root t).isNone

/-- `next`, rbtree.gp.go:242-258, of any pointer: nil has the next node nil. -/
def nextP (t : T κ) (fuel : Nat) : Option Nat → Run (Option Nat)
  | none => .ok none
  | some a => next t fuel a

/-- A client's loop `for n := t.Begin(); n != t.End(); n = n.next()`, from the pointer `p` on: the pointers it meets.  The first bound is for
the rounds in `next`, the second for those of the loop.  Of rbtree.gp.go:242-258 and 390-396. -/
def walk (t : T κ) (fuel : Nat) : Nat → Option Nat → Run (List (Option Nat))
  | 0, _ => .more
  | rounds + 1, p =>
    if p = some (end' t) then .ok []
    else do
      let q ← nextP t fuel p
      let ps ← walk t fuel rounds q
      return p :: ps

/-- The public `Insert`, rbtree.gp.go:402-404: returns nil. -/
def publicInsert (t : T κ) (_k : κ) : T κ × Option Nat := (t, none)

/-- A place that holds a pointer to the root of a subtree: what `root **RBTreeNode` points to.
rbtree.gp.go:278 and 291. -/
inductive Slot where
  | root
  | leftOf (a : Nat)
  | rightOf (a : Nat)
deriving DecidableEq

/-- `*root`.  rbtree.gp.go:278-302. -/
def Slot.get (s : Slot) (t : T κ) : Option Nat :=
  match s with
  | .root => t.parent 0
  | .leftOf a => t.left a
  | .rightOf a => t.right a

/-- `*root = p`.  rbtree.gp.go:278-302. -/
def Slot.set (s : Slot) (t : T κ) (p : Option Nat) : T κ :=
  match s with
  | .root => { t with parent := upd t.parent 0 p }
  | .leftOf a => { t with left := upd t.left a p }
  | .rightOf a => { t with right := upd t.right a p }

/-- `rotateLeft`, rbtree.gp.go:278-289.  Without a right child it panics. -/
def rotateLeft (t : T κ) (this : Nat) (s : Slot) : Run (T κ) :=
  if s.get t = some this then
    match t.right this with
    | none => .panic
    | some y =>
      let yl := t.left y
      let t := { t with right := upd t.right this yl }
      let t := match yl with
        | some c => { t with parent := upd t.parent c (some this) }
        | none => t
      let t := { t with parent := upd t.parent y (t.parent this) }
      let t := s.set t (some y)
      let t := { t with left := upd t.left y (some this) }
      .ok { t with parent := upd t.parent this (some y) }
  else .ok t

/-- `rotateRight`, rbtree.gp.go:291-302. -/
def rotateRight (t : T κ) (this : Nat) (s : Slot) : Run (T κ) :=
  if s.get t = some this then
    match t.left this with
    | none => .panic
    | some y =>
      let yr := t.right y
      let t := { t with left := upd t.left this yr }
      let t := match yr with
        | some c => { t with parent := upd t.parent c (some this) }
        | none => t
      let t := { t with parent := upd t.parent y (t.parent this) }
      let t := s.set t (some y)
      let t := { t with right := upd t.right y (some this) }
      .ok { t with parent := upd t.parent this (some y) }
  else .ok t

end Verif.RBTree
