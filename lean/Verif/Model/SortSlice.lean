import Verif.Model.FunctorCmp
/-!
# Model of `stl/sort_slice.gp_int.go`

The instances for `*IntTreeNode` and `*FileHashTreeNode` are the same template; `less` is the element
comparison.  Simplification: `Buffer()` exposes the backing array to the caller; it is not a call here (Model/SliceMem has
the slices in memory).
-/

namespace Verif.SortSlice
open Verif.Cmp
variable {α : Type}

/-- `IntSortSlice`, sort_slice.gp_int.go:45-47 and `Init` 50-52 / `NewIntSortSlice` 38-42: the slice
`d`, initially empty. -/
structure SortSlice (α : Type) where
  d : List α
  deriving DecidableEq

/-- `Init`, sort_slice.gp_int.go:50-52. -/
def init : SortSlice α := ⟨[]⟩

/-- `Len`, sort_slice.gp_int.go:118-120. -/
def len (s : SortSlice α) : Nat := s.d.length

/-- `Push`, sort_slice.gp_int.go:65-68. -/
def push (s : SortSlice α) (v : α) : SortSlice α × Nat := let s' := ⟨s.d ++ [v]⟩; (s', len s')

/-- `Insert`, sort_slice.gp_int.go:71-81.  `right` is `d[idx+1:]`; the first `append` writes `v` at
`d[idx]` in place (capacity suffices), the second appends `right`, i.e. copies it onto itself. -/
def insert (s : SortSlice α) (v : α) (idx : Int) : SortSlice α × Nat :=
  if idx ≥ 0 ∧ idx < (len s : Int) then
    let right := s.d.drop (idx.toNat + 1)
    let s' : SortSlice α := ⟨(s.d.take idx.toNat ++ [v]) ++ right⟩
    (s', len s')
  else
    let s' : SortSlice α := ⟨s.d ++ [v]⟩
    (s', len s')

variable [Inhabited α]

/-- `Get`, sort_slice.gp_int.go:101-106. -/
def get (s : SortSlice α) (idx : Int) : Res (α × Bool) :=
  if idx ≥ 0 ∧ idx < (len s : Int) then do
    let r ← Go.get s.d idx.toNat
    return (r, true)
  else return (default, false)

/-- `MustGet`, sort_slice.gp_int.go:109-115. -/
def mustGet (s : SortSlice α) (idx : Int) : Res α := do
  let (r, ok) ← get s idx
  if !ok then .panic else return r

/-- `Remove`, sort_slice.gp_int.go:83-89. -/
def remove (s : SortSlice α) (idx : Int) : Res (SortSlice α × α × Bool) := do
  let (r, ok) ← get s idx
  if ok then
    let right := s.d.drop (idx.toNat + 1)
    return (⟨s.d.take idx.toNat ++ right⟩, r, true)
  else return (s, r, false)

/-- `Pop`, sort_slice.gp_int.go:92-98: the reslice `d[:len(d)-1]` runs unconditionally. -/
def pop (s : SortSlice α) : Res (SortSlice α × α × Bool) :=
  if s.d.length > 0 then do
    let r ← Go.get s.d (s.d.length - 1)
    return (⟨s.d.take (s.d.length - 1)⟩, r, true)
  else .panic

/-- `Less`, sort_slice.gp_int.go:123-126; the global comparator is `CreateByName("")` (29-35). -/
def lessAt (less : α → α → Bool) (s : SortSlice α) (i j : Nat) : Res Bool := do
  let l ← Go.get s.d i
  let r ← Go.get s.d j
  let c ← createByName ""
  return F less c l r

/-- `Swap`, sort_slice.gp_int.go:129-131. -/
def swap (s : SortSlice α) (i j : Nat) : Res (SortSlice α) := do
  let x ← Go.get s.d i
  let y ← Go.get s.d j
  let d1 ← Go.set s.d i y
  let d2 ← Go.set d1 j x
  return ⟨d2⟩

end Verif.SortSlice
