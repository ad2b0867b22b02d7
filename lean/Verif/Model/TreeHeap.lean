import Verif.Model.Tree
import Verif.Spec.Order
/-!
# Model of `stl/tree.gp_int.go` with nodes in memory

Model/Tree has trees as values.  Here a node is an object behind a pointer, as in Go: it may be nil, may be a child of
several nodes or of itself, and may be edited while a visitor walks over it.  `fs/tree.gp_filehash38b3.go` is the same
template.
-/

namespace Verif.TreeHeap
open Verif.SortSlice Verif.Spec
variable {α : Type}

/-- A pointer `*IntTreeNode`; 0 is nil.  tree.gp_int.go:39-42. -/
abbrev Ptr := Nat

/-- `IntTreeNode`, tree.gp_int.go:39-42. -/
structure Node (α : Type) where
  val : α
  children : List Ptr
deriving DecidableEq, Repr

/-- The nodes allocated so far: the pointer `p + 1` is to the node `p` of the list.
The nodes of tree.gp_int.go:39-42. -/
structure Heap (α : Type) where
  nodes : List (Node α)
deriving DecidableEq, Repr

/-- Following a pointer; nil panics.  The receivers of tree.gp_int.go:44-102. -/
def deref (h : Heap α) (p : Ptr) : Res (Node α) :=
  if p = 0 then .panic else Go.get h.nodes (p - 1)

/-- Writing the node behind a pointer.  The receivers of tree.gp_int.go:51-86. -/
def store (h : Heap α) (p : Ptr) (n : Node α) : Heap α := ⟨h.nodes.set (p - 1) n⟩

/-- `&IntTreeNode{val: v}`, tree.gp_int.go:61; also how a caller makes a first node (with the zero value). -/
def new (h : Heap α) (v : α) : Heap α × Ptr := (⟨h.nodes ++ [⟨v, []⟩]⟩, h.nodes.length + 1)

/-- `AddChildNode`, tree.gp_int.go:66-69. -/
def addChildNode (h : Heap α) (this node : Ptr) (idx : Int) : Res (Heap α × Ptr) := do
  let n ← deref h this
  return (store h this { n with children := (insert ⟨n.children⟩ node idx).1.d }, node)

/-- `AddChild`, tree.gp_int.go:60-63. -/
def addChild (h : Heap α) (this : Ptr) (v : α) (idx : Int) : Res (Heap α × Ptr) :=
  let (h, n) := new h v
  addChildNode h this n idx

/-- `NumChildren`, tree.gp_int.go:72-74. -/
def numChildren (h : Heap α) (this : Ptr) : Res Nat := do
  let n ← deref h this
  return len ⟨n.children⟩

/-- `GetChild`, tree.gp_int.go:77-80. -/
def getChild (h : Heap α) (this : Ptr) (idx : Int) : Res (Ptr × Bool) := do
  let n ← deref h this
  SortSlice.get ⟨n.children⟩ idx

/-- `RemoveChild`, tree.gp_int.go:83-86. -/
def removeChild (h : Heap α) (this : Ptr) (idx : Int) : Res (Heap α × Ptr × Bool) := do
  let n ← deref h this
  let (s, c, ok) ← SortSlice.remove ⟨n.children⟩ idx
  return (store h this { n with children := s.d }, c, ok)

/-- `sort.Sort` of the Go library: it only swaps elements; if the comparison is a strict weak order on them the result is
in order.  Called at tree.gp_int.go:52 through sort_slice.gp_#inttreenodeb60b.go. -/
structure SortFn where
  sort : (Ptr → Ptr → Bool) → List Ptr → List Ptr
  perm : ∀ less l, (sort less l).Perm l
  sorted : ∀ less l, (∃ lt, StrictWeak lt ∧ ∀ a ∈ l, ∀ b ∈ l, less a b = lt a b) → SortedBy less (sort less l)

/-- The comparison of the values behind two pointers, `Less` tree.gp_int.go:44-49 called by sort_slice.gp_#inttreenodeb60b.go
(`Less`, with the comparator Lesser); both pointers can be followed. -/
def lessPtr (less : α → α → Bool) (h : Heap α) (a b : Ptr) : Bool :=
  match deref h a, deref h b with
  | .ok x, .ok y => less x.val y.val
  | _, _ => false

/-- `SortChildren`, tree.gp_int.go:51-53.  When there are at least two children every one of them takes part in a
comparison, so a nil among them panics (the children are left in some order then; the model gives no heap). -/
def sortChildren (less : α → α → Bool) (S : SortFn) (h : Heap α) (this : Ptr) : Res (Heap α) := do
  let n ← deref h this
  if n.children.length ≥ 2 ∧ 0 ∈ n.children then .panic
  else return store h this { n with children := S.sort (lessPtr less h) n.children }

/-- The loop of `All`, tree.gp_int.go:98-100; `rec` is `All` of a child. -/
def allLoop (rec : Ptr → Option (Res (List α))) : List Ptr → Option (Res (List α))
  | [] => some (.ok [])
  | c :: cs =>
    match rec c with
    | none => none
    | some .panic => some .panic
    | some (.ok l) => (allLoop rec cs).map fun r => r.bind fun l' => .ok (l ++ l')

/-- `All`, tree.gp_int.go:96-102; `none`: no result within the fuel (a depth of calls). -/
def all (h : Heap α) : Nat → Ptr → Option (Res (List α))
  | 0, _ => none
  | fuel + 1, p =>
    match deref h p with
    | .panic => some .panic
    | .ok n => (allLoop (all h fuel) n.children).map fun r => r.bind fun l => .ok (n.val :: l)

/-- `IntTreeNodeVisitor`, tree.gp_int.go:105-110; the two slices are one list of pairs, last element first. -/
structure Visitor where
  node : Ptr
  stk : List (Ptr × Int)
deriving DecidableEq, Repr

/-- `Visitor`, tree.gp_int.go:89-93. -/
def visitor (p : Ptr) : Visitor := ⟨0, [(p, -1)]⟩

/-- The rounds of the loop of `Next` with one parent: the next brother that is not nil, if any; `i` is the index of the
first brother in the list.  tree.gp_int.go:172-184. -/
def nextBrother (i : Int) : List Ptr → Option (Ptr × Int)
  | [] => none
  | c :: cs => if c = 0 then nextBrother (i + 1) cs else some (c, i)

/-- The loop of `Next`, tree.gp_int.go:172-184, with `node == nil`: a nil child leaves `node` nil, so the loop goes on
with the next brother. -/
def nextLoop (h : Heap α) : List (Ptr × Int) → Res Visitor
  | [] => return ⟨0, []⟩
  | (p, bIdx) :: rest =>
    if bIdx < 0 then if p = 0 then nextLoop h rest else return ⟨p, rest⟩
    else do
      let n ← deref h p
      match nextBrother (bIdx + 1) (n.children.drop (bIdx.toNat + 1)) with
      | some (c, i) => return ⟨c, (p, i) :: rest⟩
      | none => nextLoop h rest

/-- The visitor after `Next`, tree.gp_int.go:164-184. -/
def nextState (h : Heap α) (v : Visitor) : Res Visitor :=
  if v.node ≠ 0 then do
    let n ← deref h v.node
    match n.children with
    | [] => nextLoop h v.stk
    | c :: _ => if c ≠ 0 then return ⟨c, (v.node, 0) :: v.stk⟩ else nextLoop h ((v.node, 0) :: v.stk)
  else nextLoop h v.stk

/-- `Next`, tree.gp_int.go:163-189. -/
def next (h : Heap α) (v : Visitor) : Res (Visitor × Bool) := do
  let v' ← nextState h v
  return (v', decide (v'.node ≠ 0))

/-- The loop of `top_right`, tree.gp_int.go:151-157, for a non-nil node; `none`: no result within the fuel. -/
def topRight (h : Heap α) : Nat → List (Ptr × Int) → Ptr → Option (Res Visitor)
  | 0, _, _ => none
  | fuel + 1, stk, p =>
    match deref h p with
    | .panic => some .panic
    | .ok n =>
      match n.children.getLast? with
      | none => some (.ok ⟨p, stk⟩)
      | some c => topRight h fuel ((p, (n.children.length : Int) - 1) :: stk) c

/-- `top_right`, tree.gp_int.go:149-160; nil gives nil. -/
def topRightOf (h : Heap α) (fuel : Nat) (stk : List (Ptr × Int)) (p : Ptr) : Option (Res Visitor) :=
  if p = 0 then some (.ok ⟨0, stk⟩) else topRight h fuel stk p

/-- `Prev`, tree.gp_int.go:192-217. -/
def prev (h : Heap α) (fuel : Nat) (v : Visitor) : Option (Res (Visitor × Bool)) :=
  let done (r : Option (Res Visitor)) := r.map fun x => x.bind fun v' => .ok (v', decide (v'.node ≠ 0))
  if v.node = 0 then
    match v.stk with
    | (p, _) :: rest => done (topRightOf h fuel rest p)
    | [] => some (.ok (v, false))
  else
    match v.stk with
    | (p, bIdx) :: rest =>
      if bIdx > 0 then
        match deref h p with
        | .panic => some .panic
        | .ok n =>
          match mustGet ⟨n.children⟩ (bIdx - 1) with
          | .panic => some .panic
          | .ok c => done (topRightOf h fuel ((p, bIdx - 1) :: rest) c)
      else done (some (.ok ⟨p, rest⟩))
    | [] => done (some (.ok ⟨0, []⟩))

/-- `Get`, tree.gp_int.go:220-225. -/
def get [Inhabited α] (h : Heap α) (v : Visitor) : Res α :=
  if v.node = 0 then return default
  else do
    let n ← deref h v.node
    return n.val

/-- The calls that change nodes.  tree.gp_int.go:51-86. -/
inductive Op (α : Type)
  | new (v : α)
  | addChild (this : Ptr) (v : α) (idx : Int)
  | addChildNode (this node : Ptr) (idx : Int)
  | removeChild (this : Ptr) (idx : Int)
  | sortChildren (this : Ptr)

/-- One call; the pointer returned is 0 when there is none.  tree.gp_int.go:51-86. -/
def step (less : α → α → Bool) (S : SortFn) (h : Heap α) : Op α → Res (Heap α × Ptr)
  | .new v => return new h v
  | .addChild this v idx => addChild h this v idx
  | .addChildNode this node idx => addChildNode h this node idx
  | .removeChild this idx => do
    let (h, c, _) ← removeChild h this idx
    return (h, c)
  | .sortChildren this => do
    let h ← sortChildren less S h this
    return (h, 0)

end Verif.TreeHeap
