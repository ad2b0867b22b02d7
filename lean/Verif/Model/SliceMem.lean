import Verif.Model.SortSlice
import Verif.Model.Stack
import Verif.Model.Heap
/-!
# Slices in memory: `stl/sort_slice.gp_int.go`, `stl/heap.gp_int.go` and `stl/stack.gp_int.go` once more

The models of these files see a slice as the list of its elements.  Here a slice is what it is in Go: a window into an
array that other slices may share.  Memory is a collection of arrays; memory is never given back (Go frees only what
nothing refers to).  The length of an array is not recorded: every slice carries the capacity that bounds it.
How `append` chooses the capacity of a new array is a parameter (`Grow`), since the language does not fix it.
A nil slice is a slice of capacity 0.  The content of an array behind the end of what `append` writes is the zero value.
-/

namespace Verif.SliceMem
open Verif.Cmp
variable {α : Type} [Inhabited α]

/-- Memory: the cells of every array, and the first array not yet given out.
The arrays behind the slices of sort_slice.gp_int.go:45-47, heap.gp_int.go:25-29 and stack.gp_int.go:26-28. -/
structure Mem (α : Type) where
  cell : Nat → Nat → α
  next : Nat

/-- A slice: array, first cell, length and capacity.
The fields of sort_slice.gp_int.go:46, heap.gp_int.go:25-29 and stack.gp_int.go:27. -/
structure Slice where
  arr : Nat
  off : Nat
  len : Nat
  cap : Nat
deriving DecidableEq

/-- The growth policy of `append`: from the old capacity and the number of elements needed, a capacity that suffices.
`append` at sort_slice.gp_int.go:66, 74-77 and 86, heap.gp_int.go:51 and stack.gp_int.go:59. -/
structure Grow where
  cap : Nat → Nat → Nat
  le : ∀ old needed, needed ≤ cap old needed

/-- The elements a slice shows.  What `Buffer` shows, sort_slice.gp_int.go:60-62 and heap.gp_int.go:141-143. -/
def toList (m : Mem α) (s : Slice) : List α := (List.range s.len).map fun i => m.cell s.arr (s.off + i)

/-- Writing the elements `vs` into an array from cell `p` on.
Behind `append` at sort_slice.gp_int.go:66-86 and heap.gp_int.go:51. -/
def store (m : Mem α) (a p : Nat) (vs : List α) : Mem α :=
  { m with cell := fun b q => if b = a ∧ p ≤ q ∧ q < p + vs.length then vs.getD (q - p) default else m.cell b q }

/-- `s[i]` for an index that a condition of the code bounds.  As heap.gp_int.go:60, 89 and 105. -/
def at_ (m : Mem α) (s : Slice) (i : Nat) : α := m.cell s.arr (s.off + i)

/-- `s[i]`.  As sort_slice.gp_int.go:103. -/
def get (m : Mem α) (s : Slice) (i : Nat) : Res α := if i < s.len then .ok (at_ m s i) else .panic

/-- `s[i] = v` for an index that a condition of the code bounds.  As heap.gp_int.go:95, 98 and 111. -/
def put (m : Mem α) (s : Slice) (i : Nat) (v : α) : Mem α := store m s.arr (s.off + i) [v]

/-- `s[i] = v`.  As sort_slice.gp_int.go:130. -/
def set (m : Mem α) (s : Slice) (i : Nat) (v : α) : Res (Mem α) := if i < s.len then .ok (put m s i v) else .panic

/-- `s[i:j]`.  As sort_slice.gp_int.go:73, 74 and 86, and heap.gp_int.go:63 and 65. -/
def sub (s : Slice) (i j : Nat) : Res Slice :=
  if i ≤ j ∧ j ≤ s.cap then .ok ⟨s.arr, s.off + i, j - i, s.cap - i⟩ else .panic

/-- A new array with the given content at its beginning, and the slice of it.
Behind sort_slice.gp_int.go:51 and heap.gp_int.go:41. -/
def alloc (m : Mem α) (vs : List α) (cap : Nat) : Mem α × Slice :=
  (store ⟨fun b q => if b = m.next then default else m.cell b q, m.next + 1⟩ m.next 0 vs, ⟨m.next, 0, vs.length, cap⟩)

/-- `make([]T, 0, capacity)`: panics for a negative capacity (too large ones are not modelled).
sort_slice.gp_int.go:51, heap.gp_int.go:41. -/
def make (m : Mem α) (capacity : Int) : Res (Mem α × Slice) :=
  if capacity < 0 then .panic else .ok (alloc m [] capacity.toNat)

/-- `append(s, vs...)`: in place while the capacity suffices, otherwise into a new array.
sort_slice.gp_int.go:66, 74-77 and 86, heap.gp_int.go:51, stack.gp_int.go:59. -/
def append (g : Grow) (m : Mem α) (s : Slice) (vs : List α) : Mem α × Slice :=
  if s.len + vs.length ≤ s.cap then
    (store m s.arr (s.off + s.len) vs, { s with len := s.len + vs.length })
  else alloc m (toList m s ++ vs) (g.cap s.cap (s.len + vs.length))

/-! ## `stl/sort_slice.gp_int.go` -/

/-- `Push`, sort_slice.gp_int.go:65-68. -/
def push (g : Grow) (m : Mem α) (d : Slice) (v : α) : Mem α × Slice × Nat :=
  let (m, d) := append g m d [v]
  (m, d, d.len)

/-- `Insert`, sort_slice.gp_int.go:71-81: the elements of `right` are read when the second `append` runs. -/
def insert (g : Grow) (m : Mem α) (d : Slice) (v : α) (idx : Int) : Res (Mem α × Slice × Nat) :=
  if idx ≥ 0 ∧ idx < (d.len : Int) then do
    let right ← sub d (idx.toNat + 1) d.len
    let left ← sub d 0 idx.toNat
    let (m, d) := append g m left [v]
    let (m, d) := append g m d (toList m right)
    return (m, d, d.len)
  else
    let (m, d) := append g m d [v]
    return (m, d, d.len)

/-- `Get`, sort_slice.gp_int.go:101-106. -/
def getAt (m : Mem α) (d : Slice) (idx : Int) : Res (α × Bool) :=
  if idx ≥ 0 ∧ idx < (d.len : Int) then do
    let r ← get m d idx.toNat
    return (r, true)
  else return (default, false)

/-- `MustGet`, sort_slice.gp_int.go:109-115. -/
def mustGet (m : Mem α) (d : Slice) (idx : Int) : Res α := do
  let (r, ok) ← getAt m d idx
  if !ok then .panic else return r

/-- `Remove`, sort_slice.gp_int.go:83-89. -/
def remove (g : Grow) (m : Mem α) (d : Slice) (idx : Int) : Res (Mem α × Slice × α × Bool) := do
  let (r, ok) ← getAt m d idx
  if ok then
    let right ← sub d (idx.toNat + 1) d.len
    let left ← sub d 0 idx.toNat
    let (m, d) := append g m left (toList m right)
    return (m, d, r, true)
  else return (m, d, r, false)

/-- `Pop`, sort_slice.gp_int.go:92-98: for an empty slice the bound `len(d)-1` is -1. -/
def pop (m : Mem α) (d : Slice) : Res (Mem α × Slice × α × Bool) :=
  if d.len > 0 then do
    let r ← get m d (d.len - 1)
    let d ← sub d 0 (d.len - 1)
    return (m, d, r, true)
  else .panic

/-- `Swap`, sort_slice.gp_int.go:129-131: both sides are read before the writes. -/
def swap (m : Mem α) (d : Slice) (i j : Nat) : Res (Mem α) := do
  let x ← get m d j
  let y ← get m d i
  let m ← set m d i x
  set m d j y

/-- `Less`, sort_slice.gp_int.go:123-126. -/
def lessAt (less : α → α → Bool) (m : Mem α) (d : Slice) (i j : Nat) : Res Bool := do
  let l ← get m d i
  let r ← get m d j
  let c ← createByName ""
  return F less c l r

/-! ## `stl/heap.gp_int.go` -/

/-- The child selected in heap.gp_int.go:88-91. -/
def bestChild (f : α → α → Bool) (m : Mem α) (b : Slice) (hole : Nat) : Nat :=
  if Heap.lchild hole + 1 < b.len ∧ !f (at_ m b (Heap.lchild hole + 1)) (at_ m b (Heap.lchild hole))
  then Heap.lchild hole + 1 else Heap.lchild hole

/-- `adjustDown`, heap.gp_int.go:82-100. -/
def adjustDown (f : α → α → Bool) (m : Mem α) (b : Slice) (hole : Nat) (v : α) : Mem α :=
  if _hl : Heap.lchild hole < b.len then
    if f (at_ m b (bestChild f m b hole)) v then put m b hole v
    else adjustDown f (put m b hole (at_ m b (bestChild f m b hole))) b (bestChild f m b hole) v
  else put m b hole v
termination_by b.len - hole
decreasing_by
  have : Heap.lchild hole ≤ bestChild f m b hole := by unfold bestChild; split <;> omega
  have : hole < Heap.lchild hole := by unfold Heap.lchild; omega
  omega

/-- `adjustUp`, heap.gp_int.go:103-112. -/
def adjustUp (f : α → α → Bool) (m : Mem α) (b : Slice) (hole : Nat) (v : α) : Mem α :=
  if _h : hole > 0 then
    if !f v (at_ m b (Heap.parent hole)) then
      adjustUp f (put m b hole (at_ m b (Heap.parent hole))) b (Heap.parent hole) v
    else put m b hole v
  else put m b hole v
termination_by hole
decreasing_by exact Heap.parent_lt _h

/-- `PushHeap`, heap.gp_int.go:50-54. -/
def pushHeap (g : Grow) (f : α → α → Bool) (m : Mem α) (b : Slice) (v : α) : Mem α × Slice :=
  let (m, b) := append g m b [v]
  (adjustUp f m b (b.len - 1) v, b)

/-- `PopHeap`, heap.gp_int.go:57-68: `nil` for an empty argument (here: any slice of capacity 0). -/
def popHeap (f : α → α → Bool) (m : Mem α) (b : Slice) : Res (Mem α × Slice × α × Bool) :=
  let l := b.len
  if l > 0 then do
    let top ← get m b 0
    let m ← if l > 1 then do
        let m ← swap m b 0 (l - 1)
        let t ← sub b 0 (l - 1)
        let v ← get m b 0
        pure (adjustDown f m t 0 v)
      else pure m
    let h ← sub b 0 (l - 1)
    return (m, h, top, true)
  else return (m, ⟨b.arr, b.off, 0, 0⟩, default, false)

/-- The loop of `MakeHeap`, heap.gp_int.go:117-119, from index `i` down to 0. -/
def makeLoop (f : α → α → Bool) (m : Mem α) (b : Slice) : Nat → Mem α
  | 0 => adjustDown f m b 0 (at_ m b 0)
  | i + 1 => makeLoop f (adjustDown f m b (i + 1) (at_ m b (i + 1))) b i

/-- `MakeHeap`, heap.gp_int.go:115-121. -/
def makeHeap (f : α → α → Bool) (m : Mem α) (b : Slice) : Mem α :=
  if b.len > 1 then makeLoop f m b (b.len / 2) else m

/-- The loop of `SortHeap`, heap.gp_int.go:134-136, on the slice `t`; `fuel` bounds the number of rounds. -/
def sortLoop (f : α → α → Bool) : Nat → Mem α → Slice → Res (Mem α)
  | 0, m, _ => .ok m
  | fuel + 1, m, t =>
    if t.len > 1 then do
      let (m, t, _, _) ← popHeap f m t
      sortLoop f fuel m t
    else .ok m

/-- `SortHeap`, heap.gp_int.go:132-138; as many rounds as there are elements are enough (C113_sortHeap shows that the
loop has ended by then). -/
def sortHeap (f : α → α → Bool) (m : Mem α) (b : Slice) : Res (Mem α × Slice) := do
  let m := makeHeap f m b
  let m ← sortLoop f b.len m b
  return (m, b)

/-! ## `stl/stack.gp_int.go` -/

/-- `Push`, stack.gp_int.go:57-62. -/
def stackPush (g : Grow) (m : Mem α) (d : Slice) (v : α) : Mem α × Slice × Bool :=
  let (m, d) := append g m d [v]
  (m, d, true)

/-- `Top`, stack.gp_int.go:73-81. -/
def stackTop (m : Mem α) (d : Slice) : Res (α × Bool) :=
  if d.len > 0 then do
    let t ← get m d (d.len - 1)
    return (t, true)
  else return (default, false)

/-- `Pop`, stack.gp_int.go:65-70. -/
def stackPop (m : Mem α) (d : Slice) : Res (Mem α × Slice × α × Bool) := do
  let (t, ok) ← stackTop m d
  if ok then
    let d ← sub d 0 (d.len - 1)
    return (m, d, t, ok)
  else return (m, d, t, ok)

/-- `Init`, stack.gp_int.go:38-49; `isNil` tells whether `this.d` is nil. -/
def stackInit (m : Mem α) (d : Slice) (isNil : Bool) (bufSize : Int) : Res (Mem α × Slice) := do
  let (m, d) ← if isNil then
      let bufSize := if -1 = bufSize then 10 else bufSize
      if bufSize > 0 then make m bufSize else pure (m, d)
    else pure (m, d)
  let d ← sub d 0 0
  return (m, d)

end Verif.SliceMem
