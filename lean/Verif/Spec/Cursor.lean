/-!
# Specification of a cursor on a finite listing
-/

namespace Verif.Spec
variable {α : Type} [Inhabited α]

/-- Where a cursor is: not started, at a position, or gone past an end (for good). -/
inductive Cursor where
  | fresh | at (i : Nat) | done
  deriving DecidableEq

/-- Calls on a cursor. -/
inductive CurOp where
  | next | prev | get

/-- What a call returns. -/
inductive CurOut (α : Type) where
  | moved (ok : Bool) | val (v : α)
  deriving DecidableEq

/-- Behaviour of a cursor on the listing `l`. -/
def cursorStep (l : List α) : Cursor → CurOp → Cursor × CurOut α
  | .fresh, .next => if l.length = 0 then (.done, .moved false) else (.at 0, .moved true)
  | .fresh, .prev => if l.length = 0 then (.done, .moved false) else (.at (l.length - 1), .moved true)
  | .at i, .next => if i + 1 < l.length then (.at (i + 1), .moved true) else (.done, .moved false)
  | .at i, .prev => if 0 < i then (.at (i - 1), .moved true) else (.done, .moved false)
  | .done, .next => (.done, .moved false)
  | .done, .prev => (.done, .moved false)
  | c, .get => (c, .val (match c with
      | .at i => l[i]?.getD default
      | _ => default))

/-- A history of calls. -/
def cursorRun (l : List α) (c : Cursor) : List CurOp → List (CurOut α)
  | [] => []
  | op :: ops => (cursorStep l c op).2 :: cursorRun l (cursorStep l c op).1 ops

end Verif.Spec
