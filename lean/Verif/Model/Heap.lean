import Verif.Model.FunctorCmp
/-!
# Model of `stl/heap.gp_int.go`

`less` is the element comparison (`<` for `int`).  Index expressions that the code guards by a loop
or `if` condition carry their bounds proof; they cannot panic.
-/

namespace Verif.Heap
open Verif.Cmp
variable {α : Type}

/-- `cmpV`, heap.gp_int.go:172-175. -/
def cmpV (less : α → α → Bool) (cmp : Cmp) (c p : α) : Bool := !F less cmp p c

/-- `parent`, heap.gp_int.go:178-180 (only called with `idx > 0`). -/
def parent (idx : Nat) : Nat := (idx - 1) / 2

/-- `lchild`, heap.gp_int.go:183-185. -/
def lchild (idx : Nat) : Nat := 2 * idx + 1

/-- The child selected in heap.gp_int.go:88-91. -/
def bestChild (f : α → α → Bool) (b : List α) (hole : Nat) (hl : lchild hole < b.length) : Nat :=
  if hr : lchild hole + 1 < b.length then
    if !f b[lchild hole + 1] b[lchild hole] then lchild hole + 1 else lchild hole
  else lchild hole

theorem bestChild_lt (f : α → α → Bool) (b : List α) (hole : Nat) (hl : lchild hole < b.length) :
    bestChild f b hole hl < b.length := by
  unfold bestChild; split
  · split <;> assumption
  · assumption

theorem lt_bestChild (f : α → α → Bool) (b : List α) (hole : Nat) (hl : lchild hole < b.length) :
    hole < bestChild f b hole hl := by
  unfold bestChild lchild; split
  · split <;> omega
  · omega

/-- `adjustDown`, heap.gp_int.go:82-100; `f` is `this.cmpV`. -/
def adjustDown (f : α → α → Bool) (b : List α) (hole : Nat) (_hh : hole < b.length) (v : α) : List α :=
  if hl : lchild hole < b.length then
    if f (b[bestChild f b hole hl]'(bestChild_lt f b hole hl)) v then b.set hole v
    else
      adjustDown f (b.set hole (b[bestChild f b hole hl]'(bestChild_lt f b hole hl)))
        (bestChild f b hole hl) (by simpa using bestChild_lt f b hole hl) v
  else b.set hole v
termination_by b.length - hole
decreasing_by
  have := lt_bestChild f b hole hl
  simp; omega

theorem parent_lt {hole : Nat} (h : hole > 0) : parent hole < hole := by unfold parent; omega

/-- `adjustUp`, heap.gp_int.go:103-112. -/
def adjustUp (f : α → α → Bool) (b : List α) (hole : Nat) (hh : hole < b.length) (v : α) : List α :=
  if h : hole > 0 then
    if !f v (b[parent hole]'(Nat.lt_trans (parent_lt h) hh)) then
      adjustUp f (b.set hole (b[parent hole]'(Nat.lt_trans (parent_lt h) hh))) (parent hole)
        (by simpa using Nat.lt_trans (parent_lt h) hh) v
    else b.set hole v
  else b.set hole v
termination_by hole
decreasing_by exact parent_lt h

/-- `PushHeap`, heap.gp_int.go:50-54.  Simplification: `append` is seen as producing a new slice
(in memory: Model/SliceMem). -/
def pushHeap (f : α → α → Bool) (b : List α) (v : α) : List α :=
  adjustUp f (b ++ [v]) b.length (by simp) v

/-- The whole argument slice after `PopHeap` (heap.gp_int.go:57-68) returned: for `l > 1` the root is
swapped with the last element and the first `l-1` elements are re-adjusted. -/
def popBuf (f : α → α → Bool) (b : List α) : List α :=
  if h : b.length > 1 then
    adjustDown f ((b.set 0 b[b.length - 1]).take (b.length - 1)) 0
      (by simp; omega) b[b.length - 1] ++ [b[0]]
  else b

/-- Results `(h, top, ok)` of `PopHeap`, heap.gp_int.go:57-68; `h` is the slice `b[:l-1]`, nil for an
empty argument. -/
def popHeap [Inhabited α] (f : α → α → Bool) (b : List α) : List α × α × Bool :=
  if h : b.length > 0 then ((popBuf f b).take (b.length - 1), b[0], true)
  else ([], default, false)

/-- `CheckHeap`, heap.gp_int.go:71-79: the loop runs `i` from `len-1` down to 1; here over `i` given
as an upper bound. -/
def checkLoop (f : α → α → Bool) (b : List α) : (i : Nat) → i < b.length → Bool
  | 0, _ => true
  | i + 1, h =>
    if !f b[i + 1] (b[parent (i + 1)]'(Nat.lt_trans (parent_lt (Nat.succ_pos i)) h)) then false
    else checkLoop f b i (Nat.lt_of_succ_lt h)

/-- `CheckHeap`, heap.gp_int.go:71-79. -/
def checkHeap (f : α → α → Bool) (b : List α) : Bool :=
  if h : b.length = 0 then true else checkLoop f b (b.length - 1) (by omega)

theorem adjustDown_length (f : α → α → Bool) (b : List α) (hole : Nat) (hh : hole < b.length) (v : α) :
    (adjustDown f b hole hh v).length = b.length := by
  fun_induction adjustDown f b hole hh v with
  | case1 => simp
  | case2 b hole hh hl hf ih => rw [ih]; simp
  | case3 => simp

/-- The loop of `MakeHeap` (heap.gp_int.go:117-119) from index `i` down to 0. -/
def makeLoop (f : α → α → Bool) (b : List α) : (i : Nat) → i < b.length → List α
  | 0, h => adjustDown f b 0 h b[0]
  | i + 1, h =>
    makeLoop f (adjustDown f b (i + 1) h b[i + 1]) i
      (by rw [adjustDown_length]; omega)

/-- `MakeHeap`, heap.gp_int.go:115-121. -/
def makeHeap (f : α → α → Bool) (b : List α) : List α :=
  if h : b.length > 1 then makeLoop f b (b.length / 2) (by omega) else b

/-- One round of the `SortHeap` loop on the slice `t = b[:n]`, seen on the whole buffer `b`
(heap.gp_int.go:134-136): `PopHeap(t)` permutes the first `n` elements in place. -/
def sortLoop (f : α → α → Bool) (b : List α) : Nat → List α
  | 0 => b
  | n + 1 => if n + 1 > 1 then sortLoop f (popBuf f (b.take (n + 1)) ++ b.drop (n + 1)) n else b

/-- `SortHeap`, heap.gp_int.go:132-138. -/
def sortHeap (f : α → α → Bool) (b : List α) : List α :=
  sortLoop f (makeHeap f b) (makeHeap f b).length

/-- Go slice access with an `int` index.  heap.gp_int.go:127. -/
def getI (b : List α) (i : Int) : Res α := if i < 0 then .panic else Go.get b i.toNat

/-- `b[i], b[j] = b[j], b[i]`.  heap.gp_int.go:127. -/
def swapI (b : List α) (i j : Int) : Res (List α) := do
  let x ← getI b i
  let y ← getI b j
  return (b.set i.toNat y).set j.toNat x

/-- The loop of `Reverse`, heap.gp_int.go:126-128, at index `i`; `l = len(b) - 1`. -/
def revLoop (l : Int) (b : List α) : Nat → Res (List α)
  | 0 => swapI b 0 (l - 0)
  | i + 1 => do
    let b' ← swapI b (i + 1 : Nat) (l - (i + 1 : Nat))
    revLoop l b' i

/-- `Reverse`, heap.gp_int.go:124-129.  Go's `/` truncates toward zero, so the start index is 0 when
the slice is empty (`l = -1`). -/
def reverse (b : List α) : Res (List α) :=
  revLoop ((b.length : Int) - 1) b (((b.length : Int) - 1).tdiv 2).toNat

/-- `IntHeap`, heap.gp_int.go:25-29. -/
structure Heap (α : Type) where
  b : List α
  limitN : Int
  cmp : Cmp
  deriving DecidableEq

/-- `Init` / `NewIntHeap`, heap.gp_int.go:32-47 (capacity is invisible). -/
def init (limitN : Int) (maxTop : Bool) : Heap α := ⟨[], limitN, createByBool (!maxTop)⟩

/-- `Size`, heap.gp_int.go:199-201. -/
def size (s : Heap α) : Nat := s.b.length

/-- `Empty`, heap.gp_int.go:204-206. -/
def empty (s : Heap α) : Bool := size s == 0

/-- `Top`, heap.gp_int.go:164-169. -/
def top [Inhabited α] (s : Heap α) : Res (α × Bool) :=
  if !empty s then do
    let t ← Go.get s.b 0
    return (t, true)
  else return (default, false)

/-- `Pop`, heap.gp_int.go:158-161. -/
def pop [Inhabited α] (less : α → α → Bool) (s : Heap α) : Heap α × α × Bool :=
  let (h, t, ok) := popHeap (cmpV less s.cmp) s.b
  ({ s with b := h }, t, ok)

/-- `Push`, heap.gp_int.go:146-155. -/
def push [Inhabited α] (less : α → α → Bool) (s : Heap α) (v : α) : Res (Heap α) := do
  if s.limitN > 0 ∧ (size s : Int) ≥ s.limitN then
    let (t, ok) ← top s
    if ok && cmpV less s.cmp v t then
      let s' := (pop less s).1
      return { s' with b := pushHeap (cmpV less s.cmp) s'.b v }
    else return s
  else return { s with b := pushHeap (cmpV less s.cmp) s.b v }

/-- The alternative `adjustDown` of the template, gp/heap.gp.go:202-213 (C++ STL style: move the hole
to a leaf, then `adjustUp`). -/
def sinkHole (f : α → α → Bool) (b : List α) (hole : Nat) (hh : hole < b.length) (v : α) : List α :=
  if hl : lchild hole < b.length then
    sinkHole f (b.set hole (b[bestChild f b hole hl]'(bestChild_lt f b hole hl)))
      (bestChild f b hole hl) (by simpa using bestChild_lt f b hole hl) v
  else adjustUp f b hole hh v
termination_by b.length - hole
decreasing_by
  have := lt_bestChild f b hole hl
  simp; omega

/-- `PopHeap` of the template (gp/heap.gp.go:160-171) in that configuration, as `popBuf`. -/
def popBufStl (f : α → α → Bool) (b : List α) : List α :=
  if h : b.length > 1 then
    sinkHole f ((b.set 0 b[b.length - 1]).take (b.length - 1)) 0
      (by simp; omega) b[b.length - 1] ++ [b[0]]
  else b

theorem adjustUp_length' (f : α → α → Bool) (b : List α) (hole : Nat) (hh : hole < b.length) (v : α) :
    (adjustUp f b hole hh v).length = b.length := by
  fun_induction adjustUp f b hole hh v with
  | case1 b hole hh h hf ih => rw [ih]; simp
  | case2 => simp
  | case3 => simp

theorem sinkHole_length (f : α → α → Bool) (b : List α) (hole : Nat) (hh : hole < b.length) (v : α) :
    (sinkHole f b hole hh v).length = b.length := by
  fun_induction sinkHole f b hole hh v with
  | case1 b hole hh hl ih => rw [ih]; simp
  | case2 => exact adjustUp_length' ..

/-- The loop of the template's `MakeHeap` (gp/heap.gp.go:229-235) in that configuration. -/
def makeLoopStl (f : α → α → Bool) (b : List α) : (i : Nat) → i < b.length → List α
  | 0, h => sinkHole f b 0 h b[0]
  | i + 1, h =>
    makeLoopStl f (sinkHole f b (i + 1) h b[i + 1]) i (by rw [sinkHole_length]; omega)

/-- The template's `MakeHeap`, gp/heap.gp.go:229-235, in that configuration. -/
def makeHeapStl (f : α → α → Bool) (b : List α) : List α :=
  if h : b.length > 1 then makeLoopStl f b (b.length / 2) (by omega) else b

/-- The loop of the template's `SortHeap` (gp/heap.gp.go:248-250) in that configuration, as `sortLoop`. -/
def sortLoopStl (f : α → α → Bool) (b : List α) : Nat → List α
  | 0 => b
  | n + 1 => if n + 1 > 1 then sortLoopStl f (popBufStl f (b.take (n + 1)) ++ b.drop (n + 1)) n else b

/-- The template's `SortHeap`, gp/heap.gp.go:246-252, in that configuration. -/
def sortHeapStl (f : α → α → Bool) (b : List α) : List α :=
  sortLoopStl f (makeHeapStl f b) (makeHeapStl f b).length

end Verif.Heap
