import Verif.Model.Registry
/-!
# Model of the error values: `errors/errors.go:100-140`, `errors/with_id.go`, `errors/with_id_string.go`

Texts are lists of characters.  As in `Verif.Errors` calls are taken one after the other.
-/

namespace Verif.Errors

/-- `%d` of an identifier.  errors.go:94, 102, 125 and 134. -/
def dec (id : BitVec 32) : List Char := Nat.toDigits 10 id.toNat

/-- The text of the error made by `valid`, errors.go:125. -/
def invalidText (id : BitVec 32) : List Char := "invalid error id:".toList ++ dec id

/-- `errId.String`, errors.go:129-136. -/
def idString (s : State) (cp : BitVec 32) : Res (List Char) := do
  let (name, err) ← get s cp
  if err then return invalidText cp
  else return "error#".toList ++ dec cp ++ " (".toList ++ name.toList ++ ")".toList

/-- A `WithIdErr`: `withidErrors` (with_id.go:3) or `withidstrErrors` (with_id_string.go:7-10). -/
inductive Err
  | plain (id : BitVec 32)
  | withText (id : BitVec 32) (err : List Char)

/-- `New`, with_id.go:6-8. -/
def new (id : BitVec 32) : Err := .plain id

/-- `Newf`, with_id_string.go:13-15; `txt` is what `fmt.Sprintf` gives. -/
def newf (id : BitVec 32) (txt : List Char) : Err := .withText id txt

/-- `Id`, with_id.go:14-16 and with_id_string.go:26-28. -/
def Err.id : Err → BitVec 32
  | .plain id => id
  | .withText id _ => id

/-- `Error`, with_id.go:10-12 and with_id_string.go:17-24. -/
def Err.error (s : State) : Err → Res (List Char)
  | .plain id => idString s id
  | .withText id txt => do
    let (name, err) ← get s id
    if err then return invalidText id
    else return "error#".toList ++ dec id ++ " (".toList ++ name.toList ++ "): ".toList ++ txt

/-- `fmt.Sprintf` with a format and no further arguments; only two facts of its documentation are assumed.
errors.go:73-80. -/
structure Sprintf0 where
  run : List Char → List Char
  plain : ∀ t, '%' ∉ t → run t = t
  percent : run ['%', '%'] = ['%']

/-- `StdErr`, errors.go:138-140: the text of the wrapped error is used as the format. -/
def stdErr (F : Sprintf0) (e : List Char) : Err := newf erridStd (F.run e)

/-- The loop of `ShowAll`, errors.go:104-107, at `id`, for at most `n` more identifiers. -/
def showLoop (s : State) : Nat → BitVec 32 → Res (List Char)
  | 0, _ => .ok []
  | n + 1, id =>
    if id ≤ s.curMax then do
      let t ← idString s id
      let rest ← showLoop s n (id + 1)
      return '\n' :: t ++ rest
    else .ok []

/-- `ShowAll`, errors.go:100-109.  There are never more than 9000 identifiers. -/
def showAll (s : State) : Res (List Char) := do
  let rest ← showLoop s 9000 1001#32
  return "[errors] Count:".toList ++ dec (s.curMax - 1001#32 + 1#32) ++ rest

end Verif.Errors
