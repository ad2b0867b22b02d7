import Verif.Model.Regable
/-!
# Model of the texts and of the remaining calls of `regable/reg.go` and `regable/regable.go`

Texts are lists of characters.  The package variable `g_show_reg_funcs` (regable.go:33) has one entry,
`ShowAllUint32Regers` (reg.go:46-48); the other files of the package are templates.
-/

namespace Verif.Regable
open Verif.RangeU

/-- `%d` of a number.  reg.go:85, 159, 164, 257 and 360. -/
def dec (n : BitVec w) : List Char := Nat.toDigits 10 n.toNat

/-- `RangeUint32.String`, range_uint32.go:121-125. -/
def rangeString (r : R 32) : List Char :=
  "RangeUint32{val:".toList ++ dec r.val ++ " min:".toList ++ dec r.min ++ " max:".toList ++ dec r.max ++ "}".toList

/-- `_uint32Record.String`, reg.go:355-365, of a record that is not nil. -/
def recString (r : Rec) : List Char :=
  let (idrgr, id) := ids r.id
  "Uint32#(".toList ++ dec idrgr ++ '|' :: dec id ++ '|' :: r.name.toList ++ ')' :: dec r.val

/-- `Uint32Id.String`, reg.go:253-262. -/
def idString (w : World) (cp : BitVec 32) : Res (List Char) := do
  let (idrgr, id) := ids cp
  let (k, i, err) ← find w cp
  if err then return "invalid Uint32Id#(".toList ++ dec idrgr ++ '|' :: dec id ++ ")".toList
  else
    let r ← record w k i
    return recString r

/-- `Uint32Obj.String`, reg.go:398-400 with 355-365. -/
def objString (w : World) : Obj → Res (List Char)
  | none => .ok "invalid uint32 object".toList
  | some (k, i) => do
    let r ← record w k i
    return recString r

/-- `Uint32Obj.Name`, reg.go:404-406 with 287-296. -/
def objName (w : World) : Obj → Res (String × Bool)
  | none => .ok ("", true)
  | some (k, i) => do
    let r ← record w k i
    return (r.name, false)

/-- `Uint32Obj.Valid`, reg.go:373-375. -/
def objValid (o : Obj) : Bool := o.isSome

/-- `Uint32Obj.GetNoErr`, reg.go:383-385 with 311-318. -/
def objGetNoErr (w : World) (o : Obj) : Res (BitVec 32) := do
  let (r, err) ← objGet w o
  if err then Res.panic else return r

/-- `Uint32Id.GetNoErr`, reg.go:221-227 with 311-318. -/
def getNoErr (w : World) (cp : BitVec 32) : Res (BitVec 32) := do
  let (k, i, err) ← find w cp
  if err then Res.panic else objGetNoErr w (some (k, i))

/-- `RegO`, reg.go:414-422 (and `MustRegO`, 424-431), on the `k`-th registrar. -/
def regO (w : World) (k : Nat) (name : String) (val : BitVec 32) : Res (World × Obj) := do
  let (w, id) ← reg w k name val
  let o ← object w id
  return (w, o)

/-- One line of `Uint32Reger.String`, reg.go:164-166, for the record at position `i`. -/
def line (i : Nat) (v : Rec) : List Char :=
  "\n#".toList ++ dec (BitVec.ofNat 32 i + 0#32 + 1#32) ++ " [".toList ++ v.name.toList ++ "]: ".toList ++ dec v.val

/-- The loop of `Uint32Reger.String`, reg.go:162-169, from position `i`. -/
def regerLines : Nat → List Rec → List Char
  | _, [] => []
  | i, v :: l => line i v ++ regerLines (i + 1) l

/-- `Uint32Reger.String`, reg.go:157-171. -/
def regerString (me : Reger) : List Char :=
  "[Uint32Reger#".toList ++ dec me.regerId ++ ": ".toList ++ me.name.toList ++ "] ids:".toList ++ rangeString me.idGen ++
    regerLines 0 me.regList

/-- `ShowAllUint32Regers`, reg.go:83-92. -/
def showRegers (w : World) : List Char :=
  "[Uint32Regers] count:".toList ++ Nat.toDigits 10 w.regers.length ++
    w.regers.flatMap fun v => '\n' :: regerString v

/-- `ShowAllRegs`, regable.go:46-55. -/
def showAllRegs (w : World) : List Char :=
  "[regable] locked:".toList ++ (if w.locked then "true".toList else "false".toList) ++ '\n' :: showRegers w

end Verif.Regable
