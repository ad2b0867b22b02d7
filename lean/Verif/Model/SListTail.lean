import Verif.Model.SList
import Verif.Spec.ListWorld
/-!
# Model of the singly linked list template with a tail pointer

`stl/gp/slist.gp.go` instantiated with `GOGP_HasTail`.  The nodes live in the memory of `Model/SList`; every list object
`i` has the additional field `tail`.  The functions without a `GOGP_HasTail` part (`Front`, `Remove`, `RemoveFront`,
`PopFront`, `PushAfter`, `InsertAfter`, `InsertFront`, `Tail`, `Next`, `Get`, `Set`) are those of `Model/SList`, whose
text is the same (slist.gp.go:139-167, 217-219, 245-250, 310-349): they do not touch `tail`.  `merge` and `mergeSort`
(473-523) are not modelled here; `Sort` panics before it merges anything, see C29.
-/

namespace Verif.SListTail
open Verif.SList
open Verif.Spec (setAt)
variable {α : Type}

/-- The memory and the fields `tail` of all list objects, slist.gp.go:186-194. -/
structure TM (α : Type) where
  mem : Mem α
  tail : Nat → Ptr

/-- `Back`, slist.gp.go:222-224. -/
def back (s : TM α) (l : Nat) : Ptr := s.tail l

/-- `Clear`, slist.gp.go:227-232. -/
def clear (s : TM α) (l : Nat) : TM α := ⟨setNext s.mem (.hd l) none, setAt s.tail l none⟩

/-- `PushFront`, slist.gp.go:234-243; the new node gets the address `nd k`. -/
def pushFront (s : TM α) (l k : Nat) (v : α) : TM α × Ptr :=
  let h := setNext (newNode s.mem k v (s.mem (.hd l)).next) (.hd l) (some (.nd k))
  (⟨h, if s.tail l = none then setAt s.tail l (some (.nd k)) else s.tail⟩, some (.nd k))

/-- `PopBack`, slist.gp.go:253-258. -/
def popBack [Inhabited α] (fuel : Nat) (s : TM α) (l : Nat) : Option (TM α × α × Bool) :=
  match remove fuel s.mem l (back s l) with
  | none => none
  | some (h, some a) => some ({ s with mem := h }, (h a).val, true)
  | some (h, none) => some ({ s with mem := h }, default, false)

/-- `PushBack`, slist.gp.go:262-271. -/
def pushBack (s : TM α) (l k : Nat) (v : α) : TM α × Ptr :=
  let h := newNode s.mem k v none
  let h := match s.tail l with
    | some t => setNext h t (some (.nd k))
    | none => setNext h (.hd l) (some (.nd k))
  (⟨h, setAt s.tail l (some (.nd k))⟩, some (.nd k))

/-- `PushFrontList`, slist.gp.go:274-290. -/
def pushFrontList (s : TM α) (l o : Nat) : TM α :=
  match s.tail o with
  | none => s
  | some t =>
    let h := setNext s.mem t (s.mem (.hd l)).next
    let h := setNext h (.hd l) (h (.hd o)).next
    ⟨h, if s.tail l = none then setAt s.tail l (some t) else s.tail⟩

/-- `PushBackList`, slist.gp.go:293-303. -/
def pushBackList (s : TM α) (l o : Nat) : TM α :=
  match s.tail o with
  | none => s
  | some t =>
    match s.tail l with
    | some u => clear ⟨setNext s.mem u (s.mem (.hd o)).next, setAt s.tail l (some t)⟩ o
    | none => clear ⟨setNext s.mem (.hd l) (s.mem (.hd o)).next, setAt s.tail l (some t)⟩ o

/-- `MoveFront`, slist.gp.go:351-369. -/
def moveFront (fuel : Nat) (s : TM α) (l : Nat) (node : Ptr) : Option (TM α × Ptr) :=
  match node with
  | none => some (s, none)
  | some x =>
    match scanMove fuel s.mem (s.mem (.hd l)).next x with
    | none => none
    | some none => some (s, none)
    | some (some b) =>
      let h := setNext s.mem b (s.mem x).next
      let h := setNext h x (h (.hd l)).next
      let h := setNext h (.hd l) (some x)
      some (⟨h, if s.tail l = some x then setAt s.tail l (some b) else s.tail⟩, some x)

/-- `MoveBack`, slist.gp.go:372-387; `this.tail.next = node` panics if `tail` is nil. -/
def moveBack (fuel : Nat) (s : TM α) (l : Nat) (node : Ptr) : Res (Option (TM α × Ptr)) :=
  match node with
  | none => return some (s, none)
  | some x =>
    if (s.mem x).next ≠ none then
      match scanMove fuel s.mem (s.mem (.hd l)).next x with
      | none => return none
      | some none => return some (s, none)
      | some (some b) =>
        let h := setNext s.mem b (s.mem x).next
        let h := setNext h x none
        match s.tail l with
        | none => .panic
        | some t => return some (⟨setNext h t (some x), setAt s.tail l (some x)⟩, some x)
    else return some (s, none)

/-- `MoveAfter`, slist.gp.go:393-413. -/
def moveAfter (fuel : Nat) (s : TM α) (l : Nat) (node mark : Ptr) : Option (TM α × Ptr) :=
  match node, mark with
  | some x, some m =>
    if x ≠ m then
      match scanMove fuel s.mem (some (.hd l)) x with
      | none => none
      | some none => some (s, none)
      | some (some b) =>
        if b ≠ m then
          let h := setNext s.mem b (s.mem x).next
          let h := setNext h x (h m).next
          let h := setNext h m (some x)
          some (⟨h, if s.tail l = some x then setAt s.tail l (some b) else s.tail⟩, some x)
        else some (s, none)
    else some (s, none)
  | _, _ => some (s, none)

/-- `Reverse`, slist.gp.go:415-426; the loop is that of `Model/SList`. -/
def reverse (fuel : Nat) (s : TM α) (l : Nat) : Option (TM α) :=
  let p := (s.mem (.hd l)).next
  let s := clear s l
  let s : TM α := ⟨s.mem, setAt s.tail l p⟩
  (reverseLoop fuel s.mem l p).map fun h => { s with mem := h }

end Verif.SListTail
